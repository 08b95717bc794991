import Verif.Args.ModelEdit
/-! # Model of reading a schema: `lib/osi/src/args/layout.rs` 296-336, 380-398, 478-535, 548-592, 595-613 and 655-680

`none` is the panic of an index or slice out of bounds. -/
namespace Verif.Args

variable {α σ : Type}

/-- `FlagSetRef::flag_at`, layout.rs 298-303 (and `Command::flag_at`, 385-390). -/
def FlagSet_flag_at (fs : List Flag) (at_ : Nat) : Option Flag := fs[at_]?

/-- `FlagSetRef::len`, layout.rs 318-321. -/
def FlagSet_len (fs : List Flag) : Nat := fs.length

/-- `FlagSetRef::is_empty`, layout.rs 323-326. -/
def FlagSet_is_empty (fs : List Flag) : Bool := fs.isEmpty

/-- `CommandSetRef::command_at`, layout.rs 480-485 (and `Schema::command_at`, 563-568). -/
def command_at (sc : Schema) (at_ : Nat) : Option Command := sc.cmds[at_]?

/-- `Schema::flag_at`, layout.rs 579-584. -/
def flag_at (sc : Schema) : Nat × Nat → Option Flag
  | (at_command, at_flag) => (command_at sc at_command).bind fun c => FlagSet_flag_at c.flags at_flag

/-- `CommandSetRef::len`, layout.rs 508-511. -/
def Schema.len (sc : Schema) : Nat := sc.cmds.length

/-- `CommandSetRef::is_empty`, layout.rs 513-516. -/
def Schema.is_empty (sc : Schema) : Bool := sc.cmds.isEmpty

/-- `FlagSetIter`, `CommandSetIter`, layout.rs 151-152 and 179-180: the elements of the slice that are left. -/
structure SetIter (α : Type) where
  rest : List α
deriving DecidableEq, Repr

/-- `FlagSetRef::iter`, layout.rs 313-316 (and `Command::flags_iter`, 380-383). -/
def FlagSet_iter (fs : List Flag) : SetIter Flag := ⟨fs⟩

/-- `CommandSetRef::iter`, layout.rs 496-498 (and `Schema::commands_iter`, 558-561). -/
def Schema.iter (sc : Schema) : SetIter Command := ⟨sc.cmds⟩

/-- `CommandSetRef::iter_from`, layout.rs 500-506: `[from..]` panics if `from` is behind the end. -/
def Schema.iter_from (sc : Schema) (start : Nat) : Option (SetIter Command) :=
  if start ≤ sc.cmds.length then some ⟨sc.cmds.drop start⟩ else none

/-- `next` of both iterators, layout.rs 655-680. -/
def SetIter.next (it : SetIter α) : Option α × SetIter α :=
  match it.rest with
  | [] => (none, ⟨[]⟩)
  | a :: rest => (some a, ⟨rest⟩)

/-- `clone` of both iterators, layout.rs 595-613: the copy, and the original as it is left. -/
def SetIter.clone (it : SetIter α) : SetIter α × SetIter α := (⟨it.rest⟩, it)

/-- The `while` of `slice::binary_search_by`, with a closure that has state (`FnMut`). `none` is an access out of bounds. -/
def searchLoop (f : σ → α → Ordering × σ) (l : List α) (s : σ) (base size : Nat) : Option (Nat × σ) :=
  if size ≤ 1 then some (base, s)
  else
    match l[base + size / 2]? with
    | none => none
    | some a =>
      let r := f s a
      searchLoop f l r.2 (if r.1 = .gt then base else base + size / 2) (size - size / 2)
termination_by size

/-- `FlagSetRef::search_by` and `CommandSetRef::search_by`, layout.rs 328-335 and 518-525: `slice::binary_search_by` with the
caller's closure. -/
def search_by (f : σ → α → Ordering × σ) (l : List α) (s : σ) : Option (Except Nat Nat × σ) :=
  if l.length = 0 then some (.error 0, s)
  else
    match searchLoop f l s 0 l.length with
    | none => none
    | some (base, s) =>
      match l[base]? with
      | none => none
      | some a =>
        let r := f s a
        if r.1 = .eq then some (.ok base, r.2)
        else some (.error (base + if r.1 = .lt then 1 else 0), r.2)

/-- What a caller does with iterators over the commands of a schema. Iterators are numbered in the order they are made. -/
inductive IterOp
  /-- `schema.commands().iter()` -/
  | iter
  /-- `schema.commands().iter_from(start)` -/
  | iterFrom (start : Nat)
  /-- `iterators[i].clone()` -/
  | clone (i : Nat)
  /-- `iterators[i].next()` -/
  | next (i : Nat)
deriving DecidableEq, Repr

/-- One such call: the iterators afterwards, and what `next` returned. `none` is a panic; an iterator that does not exist is
not a program. -/
def iterStep (sc : Schema) (its : List (SetIter Command)) : IterOp → Option (List (SetIter Command) × Option (Option Command))
  | .iter => some (its ++ [sc.iter], none)
  | .iterFrom start => (sc.iter_from start).map fun it => (its ++ [it], none)
  | .clone i => its[i]?.map fun it => (its.set i it.clone.2 ++ [it.clone.1], none)
  | .next i => its[i]?.map fun it => (its.set i it.next.2, some it.next.1)

/-- A history of such calls, with what they returned. -/
def iterRun (sc : Schema) (its : List (SetIter Command)) : List IterOp → Option (List (Option (Option Command)))
  | [] => some []
  | op :: ops =>
    match iterStep sc its op with
    | none => none
    | some (its, out) => (iterRun sc its ops).map (out :: ·)

end Verif.Args
