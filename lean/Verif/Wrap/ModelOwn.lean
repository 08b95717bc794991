/-! # Model of `lib/osi/src/convert.rs`: `IntoDeref`, `FromDeref` and `OnceRef`

Smart pointers are modelled with the objects they point to. An object has a place that is never used again
(simplification), and counts how often it was destroyed, so that a second destruction can be seen. Lifetimes,
`Pin` (transparent) and weak references are not modelled. The functions of the standard library on raw
pointers, and cloning and dropping of smart pointers, are modelled as documented. -/
namespace Verif.Wrap

/-- The smart pointers that implement the traits, convert.rs 132-199. -/
inductive Kind
  | ref | excl | box | rc | arc
deriving DecidableEq, Repr

/-- An object. -/
structure Obj (V : Type) where
  /-- The kind of smart pointer it was made for: a boxed one can only be freed as `Box`, and so on. -/
  kind : Kind
  value : V
  /-- The counter of `Rc` and `Arc`; not used by the others. -/
  strong : Nat
  /-- How often the object was destroyed. -/
  dropped : Nat
deriving DecidableEq, Repr

/-- A smart pointer. -/
structure Handle where
  kind : Kind
  ptr : Nat
deriving DecidableEq, Repr

/-- `OnceRef`, ptr.rs 73-77. It does not know which smart pointer it was made from. -/
structure OnceRef where
  ptr : Nat
deriving DecidableEq, Repr

variable {V : Type}

/-- Use of an object through a pointer of some kind: undefined (`none`) if there is no object, it was
destroyed, or it is of another kind. -/
def use (objs : List (Obj V)) (h : Handle) : Option (Obj V) :=
  match objs[h.ptr]? with
  | none => none
  | some o => if o.dropped = 0 ∧ o.kind = h.kind then some o else none

/-- Dereferencing any pointer. -/
def read (objs : List (Obj V)) (ptr : Nat) : Option V :=
  match objs[ptr]? with
  | none => none
  | some o => if o.dropped = 0 then some o.value else none

/-- `Clone` of the smart pointers that have it (`&T`, `Rc`, `Arc`); `none` is undefined behaviour. -/
def cloneObj (objs : List (Obj V)) (h : Handle) : Option (List (Obj V)) :=
  match use objs h with
  | none => none
  | some o =>
    match h.kind with
    | .rc | .arc => some (objs.set h.ptr { o with strong := o.strong + 1 })
    | _ => some objs

/-- `Drop` of the smart pointers; `none` is undefined behaviour. -/
def dropObj (objs : List (Obj V)) (h : Handle) : Option (List (Obj V)) :=
  match use objs h with
  | none => none
  | some o =>
    match h.kind with
    | .ref | .excl => some objs
    | .box => some (objs.set h.ptr { o with dropped := o.dropped + 1 })
    | .rc | .arc =>
      if o.strong = 1 then
        some (objs.set h.ptr { o with strong := 0, dropped := o.dropped + 1 })
      else
        some (objs.set h.ptr { o with strong := o.strong - 1 })

/-- `Box::into_raw`, `Rc::into_raw`, `Arc::into_raw`: the pointer; the counter stays. -/
def into_raw (h : Handle) : Nat := h.ptr

/-- `Box::from_raw`, `Rc::from_raw`, `Arc::from_raw`: the counter stays; `none` is undefined behaviour. -/
def from_raw (objs : List (Obj V)) (k : Kind) (ptr : Nat) : Option Handle :=
  match use objs ⟨k, ptr⟩ with
  | none => none
  | some _ => some ⟨k, ptr⟩

/-- `IntoDeref::into_deref`, convert.rs 136-140, 148-152, 160-166, 174-180, 188-192. -/
def into_deref (h : Handle) : OnceRef :=
  match h.kind with
  | .ref => ⟨h.ptr⟩
  | .excl => ⟨h.ptr⟩
  | .box => ⟨into_raw h⟩
  | .rc => ⟨into_raw h⟩
  | .arc => ⟨into_raw h⟩

/-- `FromDeref::from_deref`, convert.rs 142-146, 154-158, 168-172, 182-186, 194-198. -/
def from_deref (objs : List (Obj V)) (k : Kind) (v : OnceRef) : Option Handle :=
  match k with
  | .ref => (use objs ⟨.ref, v.ptr⟩).map fun _ => ⟨.ref, v.ptr⟩
  | .excl => (use objs ⟨.excl, v.ptr⟩).map fun _ => ⟨.excl, v.ptr⟩
  | .box => from_raw objs .box v.ptr
  | .rc => from_raw objs .rc v.ptr
  | .arc => from_raw objs .arc v.ptr

/-- A running program: the objects, and the pointers that it holds. `lost` lists the `OnceRef`s that were given
up without being converted back; it is not part of the program's memory. -/
structure Prog (V : Type) where
  objs : List (Obj V)
  handles : List Handle
  onces : List OnceRef
  lost : List OnceRef

/-- What a program can do with smart pointers and `OnceRef`s. -/
inductive Op (V : Type)
  /-- `Box::new`, `Rc::new`, `Arc::new`, or a borrow of some variable. -/
  | new (k : Kind) (v : V)
  | clone (h : Handle)
  | drop (h : Handle)
  | read (h : Handle)
  /-- `into_deref` -/
  | into (h : Handle)
  /-- `from_deref` as kind `k` -/
  | restore (k : Kind) (o : OnceRef)
  /-- `OnceRef::as_ref`, `OnceRef::deref`, ptr.rs 504-506 and 533-539 -/
  | readOnce (o : OnceRef)
  /-- Dropping a `OnceRef`, which has no `Drop` -/
  | forget (o : OnceRef)
  /-- `OnceRef::into_ref`, ptr.rs 470-474 -/
  | intoRef (o : OnceRef)

/-- What comes of it. -/
inductive Res (V : Type)
  | ok (s : Prog V) (out : Option V)
  /-- undefined behaviour -/
  | ub
  /-- The program does not hold that pointer, or the type checker rejects the operation. -/
  | impossible

/-- One operation. -/
def Prog.step (s : Prog V) : Op V → Res V
  | .new k v => .ok ⟨s.objs ++ [⟨k, v, 1, 0⟩], ⟨k, s.objs.length⟩ :: s.handles, s.onces, s.lost⟩ none
  | .clone h =>
    if h ∈ s.handles ∧ h.kind ≠ .excl ∧ h.kind ≠ .box then
      match cloneObj s.objs h with
      | none => .ub
      | some objs => .ok ⟨objs, h :: s.handles, s.onces, s.lost⟩ none
    else .impossible
  | .drop h =>
    if h ∈ s.handles then
      match dropObj s.objs h with
      | none => .ub
      | some objs => .ok ⟨objs, s.handles.erase h, s.onces, s.lost⟩ none
    else .impossible
  | .read h =>
    if h ∈ s.handles then
      match Wrap.read s.objs h.ptr with
      | none => .ub
      | some v => .ok s (some v)
    else .impossible
  | .into h =>
    if h ∈ s.handles then .ok ⟨s.objs, s.handles.erase h, into_deref h :: s.onces, s.lost⟩ none
    else .impossible
  | .restore k o =>
    if o ∈ s.onces then
      match from_deref s.objs k o with
      | none => .ub
      | some h => .ok ⟨s.objs, h :: s.handles, s.onces.erase o, s.lost⟩ none
    else .impossible
  | .readOnce o =>
    if o ∈ s.onces then
      match Wrap.read s.objs o.ptr with
      | none => .ub
      | some v => .ok s (some v)
    else .impossible
  | .forget o =>
    if o ∈ s.onces then .ok ⟨s.objs, s.handles, s.onces.erase o, o :: s.lost⟩ none
    else .impossible
  | .intoRef o =>
    if o ∈ s.onces then
      match Wrap.read s.objs o.ptr with
      | none => .ub
      | some v => .ok ⟨s.objs, s.handles, s.onces.erase o, o :: s.lost⟩ (some v)
    else .impossible

end Verif.Wrap
