import Verif.Wrap.SpecOwn
/-! # Helper lemmas for the smart pointers converted to `OnceRef` -/
namespace Verif.Wrap
variable {V : Type}

/-- The number of pointers by which the program owns the object at `p`: smart pointers, `OnceRef`s and those given
up. -/
def owners (s : Prog V) (k : Kind) (p : Nat) : Nat :=
  s.handles.count ⟨k, p⟩ + s.onces.count ⟨p⟩ + s.lost.count ⟨p⟩

/-! ## Invariant -/

/-- What holds of one object with `n` owners. -/
def ObjInv (x : Obj V) (n : Nat) : Prop :=
  match x.kind with
  | .ref | .excl => x.dropped = 0
  | .box => n + x.dropped = 1
  | .rc | .arc => x.strong = n ∧ x.dropped = if n = 0 then 1 else 0

structure Inv (s : Prog V) : Prop where
  handles : ∀ h ∈ s.handles, ∃ x, s.objs[h.ptr]? = some x ∧ x.kind = h.kind
  onces : ∀ o ∈ s.onces, ∃ x, s.objs[o.ptr]? = some x
  lost : ∀ o ∈ s.lost, ∃ x, s.objs[o.ptr]? = some x
  objs : ∀ p x, s.objs[p]? = some x → ObjInv x (owners s x.kind p)

theorem alive_of_owner {x : Obj V} {n : Nat} (h : ObjInv x n) (hn : 0 < n) : x.dropped = 0 := by
  unfold ObjInv at h
  cases hk : x.kind <;> simp only [hk] at h
  · exact h
  · exact h
  · omega
  · rw [if_neg (by omega)] at h; exact h.2
  · rw [if_neg (by omega)] at h; exact h.2

theorem inv_handle {s : Prog V} (hi : Inv s) {h : Handle} (hm : h ∈ s.handles) :
    ∃ x, s.objs[h.ptr]? = some x ∧ x.kind = h.kind ∧ x.dropped = 0 := by
  obtain ⟨x, hx, hk⟩ := hi.handles h hm
  refine ⟨x, hx, hk, alive_of_owner (hi.objs _ x hx) ?_⟩
  have : 0 < s.handles.count ⟨x.kind, h.ptr⟩ := List.count_pos_iff.mpr (by rw [hk]; exact hm)
  unfold owners; omega

theorem inv_once {s : Prog V} (hi : Inv s) {o : OnceRef} (hm : o ∈ s.onces) :
    ∃ x, s.objs[o.ptr]? = some x ∧ x.dropped = 0 := by
  obtain ⟨x, hx⟩ := hi.onces o hm
  refine ⟨x, hx, alive_of_owner (hi.objs _ x hx) ?_⟩
  have : 0 < s.onces.count ⟨o.ptr⟩ := List.count_pos_iff.mpr hm
  unfold owners; omega

theorem use_some {objs : List (Obj V)} {h : Handle} {x : Obj V} (hx : objs[h.ptr]? = some x)
    (hk : x.kind = h.kind) (hd : x.dropped = 0) : use objs h = some x := by
  unfold use; rw [hx]; exact if_pos ⟨hd, hk⟩

theorem read_some {objs : List (Obj V)} {p : Nat} {x : Obj V} (hx : objs[p]? = some x)
    (hd : x.dropped = 0) : read objs p = some x.value := by
  unfold read; rw [hx]; exact if_pos hd

theorem from_deref_some {objs : List (Obj V)} {k : Kind} {o : OnceRef} {x : Obj V} (hx : objs[o.ptr]? = some x)
    (hk : x.kind = k) (hd : x.dropped = 0) : from_deref objs k o = some ⟨k, o.ptr⟩ := by
  have := use_some (h := ⟨k, o.ptr⟩) hx hk hd
  cases k <;> simp [from_deref, from_raw, this]

theorem into_deref_eq (h : Handle) : into_deref h = ⟨h.ptr⟩ := by
  rcases h with ⟨k, p⟩; cases k <;> rfl

theorem owners_erase_handle {s : Prog V} {h : Handle} (hm : h ∈ s.handles) (k : Kind) (p : Nat) :
    (s.handles.erase h).count ⟨k, p⟩ + (if h = ⟨k, p⟩ then 1 else 0) = s.handles.count ⟨k, p⟩ := by
  by_cases e : h = ⟨k, p⟩
  · subst e
    have : 0 < s.handles.count ⟨k, p⟩ := List.count_pos_iff.mpr hm
    rw [List.count_erase_self, if_pos rfl]; omega
  · rw [if_neg e, List.count_erase_of_ne (Ne.symm e)]; omega

theorem owners_erase_once {s : Prog V} {o : OnceRef} (hm : o ∈ s.onces) (p : Nat) :
    (s.onces.erase o).count ⟨p⟩ + (if o.ptr = p then 1 else 0) = s.onces.count ⟨p⟩ := by
  by_cases e : o.ptr = p
  · subst e
    have : 0 < s.onces.count ⟨o.ptr⟩ := List.count_pos_iff.mpr hm
    rw [show (⟨o.ptr⟩ : OnceRef) = o from rfl] at this ⊢
    rw [List.count_erase_self, if_pos rfl]; omega
  · rw [if_neg e, List.count_erase_of_ne (fun h => e (by rw [← h]))]; omega

/-- Objects are only replaced by objects of the same kind and value. -/
theorem inv_set {s : Prog V} (hi : Inv s) {q : Nat} {y z : Obj V} (hy : s.objs[q]? = some y)
    (hk : z.kind = y.kind) {handles : List Handle} {onces : List OnceRef} {lost : List OnceRef}
    (hh : ∀ h ∈ handles, h ∈ s.handles) (ho : ∀ o ∈ onces, o ∈ s.onces) (hl : ∀ o ∈ lost, o ∈ s.lost)
    (hz : ObjInv z (owners (⟨[], handles, onces, lost⟩ : Prog V) y.kind q))
    (hrest : ∀ p x, p ≠ q → s.objs[p]? = some x →
      owners (⟨[], handles, onces, lost⟩ : Prog V) x.kind p = owners s x.kind p) :
    Inv ⟨s.objs.set q z, handles, onces, lost⟩ := by
  have hq : q < s.objs.length := by
    by_cases h : q < s.objs.length
    · exact h
    · rw [List.getElem?_eq_none (by omega)] at hy; cases hy
  have get : ∀ p, (s.objs.set q z)[p]? = if q = p then some z else s.objs[p]? := by
    intro p
    rw [List.getElem?_set]
    by_cases e : q = p
    · subst e; rw [if_pos rfl, if_pos rfl, if_pos hq]
    · rw [if_neg e, if_neg e]
  refine ⟨?_, ?_, ?_, ?_⟩
  · intro h hm
    obtain ⟨x, hx, hkx⟩ := hi.handles h (hh h hm)
    show ∃ x, (s.objs.set q z)[h.ptr]? = some x ∧ _
    rw [get]
    by_cases e : q = h.ptr
    · rw [if_pos e]
      refine ⟨z, rfl, ?_⟩
      rw [← e, hy] at hx; cases hx; rw [hk, hkx]
    · rw [if_neg e]; exact ⟨x, hx, hkx⟩
  · intro o hm
    obtain ⟨x, hx⟩ := hi.onces o (ho o hm)
    show ∃ x, (s.objs.set q z)[o.ptr]? = some x
    rw [get]
    by_cases e : q = o.ptr
    · rw [if_pos e]; exact ⟨z, rfl⟩
    · rw [if_neg e]; exact ⟨x, hx⟩
  · intro o hm
    obtain ⟨x, hx⟩ := hi.lost o (hl o hm)
    show ∃ x, (s.objs.set q z)[o.ptr]? = some x
    rw [get]
    by_cases e : q = o.ptr
    · rw [if_pos e]; exact ⟨z, rfl⟩
    · rw [if_neg e]; exact ⟨x, hx⟩
  · intro p x hx
    have hx : (s.objs.set q z)[p]? = some x := hx
    rw [get] at hx
    by_cases e : q = p
    · rw [if_pos e] at hx; cases hx
      subst e
      rw [hk]; exact hz
    · rw [if_neg e] at hx
      have := hrest p x (Ne.symm e) hx
      show ObjInv x (owners (⟨[], handles, onces, lost⟩ : Prog V) x.kind p)
      rw [this]; exact hi.objs p x hx

/-- The objects stay. -/
theorem inv_same {s : Prog V} (hi : Inv s) {handles : List Handle} {onces : List OnceRef} {lost : List OnceRef}
    (hh : ∀ h ∈ handles, ∃ x, s.objs[h.ptr]? = some x ∧ x.kind = h.kind)
    (ho : ∀ o ∈ onces, ∃ x, s.objs[o.ptr]? = some x) (hl : ∀ o ∈ lost, ∃ x, s.objs[o.ptr]? = some x)
    (hc : ∀ p x, s.objs[p]? = some x → (x.kind = .ref ∨ x.kind = .excl) ∨
      owners (⟨[], handles, onces, lost⟩ : Prog V) x.kind p = owners s x.kind p) :
    Inv ⟨s.objs, handles, onces, lost⟩ := by
  refine ⟨hh, ho, hl, ?_⟩
  intro p x hx
  have hx : s.objs[p]? = some x := hx
  have h := hi.objs p x hx
  rcases hc p x hx with hk | e
  · unfold ObjInv at h ⊢
    rcases hk with hk | hk
    · simp only [hk] at h ⊢; exact h
    · simp only [hk] at h ⊢; exact h
  · show ObjInv x (owners (⟨[], handles, onces, lost⟩ : Prog V) x.kind p)
    rw [e]; exact h

theorem inv_step {s s' : Prog V} {op : Op V} {out : Option V} (hi : Inv s) (hl : Legal s op)
    (hs : s.step op = .ok s' out) : Inv s' := by
  have hmemE : ∀ {h h' : Handle}, h' ∈ s.handles.erase h → h' ∈ s.handles := fun hm => List.mem_of_mem_erase hm
  have hmemO : ∀ {o o' : OnceRef}, o' ∈ s.onces.erase o → o' ∈ s.onces := fun hm => List.mem_of_mem_erase hm
  cases op with
  | new k v =>
    simp only [Prog.step, Res.ok.injEq] at hs
    obtain ⟨rfl, -⟩ := hs
    have old : ∀ (p : Nat) x, s.objs[p]? = some x → (s.objs ++ [(⟨k, v, 1, 0⟩ : Obj V)])[p]? = some x := by
      intro p x hx
      have : p < s.objs.length := by
        by_cases h : p < s.objs.length
        · exact h
        · rw [List.getElem?_eq_none (by omega)] at hx; cases hx
      rw [List.getElem?_append_left this]; exact hx
    refine ⟨?_, ?_, ?_, ?_⟩
    · intro h hm
      rcases List.mem_cons.mp hm with rfl | hm
      · exact ⟨⟨k, v, 1, 0⟩, by show (s.objs ++ [_])[s.objs.length]? = _; simp, rfl⟩
      · obtain ⟨x, hx, hk⟩ := hi.handles h hm
        exact ⟨x, old _ _ hx, hk⟩
    · intro o hm
      obtain ⟨x, hx⟩ := hi.onces o hm
      exact ⟨x, old _ _ hx⟩
    · intro o hm
      obtain ⟨x, hx⟩ := hi.lost o hm
      exact ⟨x, old _ _ hx⟩
    · intro p x hx
      have hx : (s.objs ++ [(⟨k, v, 1, 0⟩ : Obj V)])[p]? = some x := hx
      rcases Nat.lt_trichotomy p s.objs.length with hp | hp | hp
      · rw [List.getElem?_append_left hp] at hx
        have : owners (⟨s.objs ++ [⟨k, v, 1, 0⟩], ⟨k, s.objs.length⟩ :: s.handles, s.onces, s.lost⟩ : Prog V) x.kind p
            = owners s x.kind p := by
          have hne : (⟨k, s.objs.length⟩ : Handle) ≠ ⟨x.kind, p⟩ := by
            intro e; injection e with _ e; omega
          show ((⟨k, s.objs.length⟩ :: s.handles).count _ + _ + _) = _
          rw [List.count_cons_of_ne hne]; rfl
        rw [this]; exact hi.objs p x hx
      · subst hp
        have : x = ⟨k, v, 1, 0⟩ := by simpa using hx.symm
        subst this
        have h0 : s.handles.count ⟨k, s.objs.length⟩ = 0 := by
          apply List.count_eq_zero_of_not_mem
          intro hm
          obtain ⟨x, hx, -⟩ := hi.handles _ hm
          simp at hx
        have h1 : s.onces.count ⟨s.objs.length⟩ = 0 := by
          apply List.count_eq_zero_of_not_mem
          intro hm
          obtain ⟨x, hx⟩ := hi.onces _ hm
          simp at hx
        have h2 : s.lost.count ⟨s.objs.length⟩ = 0 := by
          apply List.count_eq_zero_of_not_mem
          intro hm
          obtain ⟨x, hx⟩ := hi.lost _ hm
          simp at hx
        have : owners (⟨s.objs ++ [⟨k, v, 1, 0⟩], ⟨k, s.objs.length⟩ :: s.handles, s.onces, s.lost⟩ : Prog V) k
            s.objs.length = 1 := by
          show ((⟨k, s.objs.length⟩ :: s.handles).count ⟨k, s.objs.length⟩ + s.onces.count _ + s.lost.count _) = _
          rw [List.count_cons_self, h0, h1, h2]
        rw [this]
        cases k <;> simp [ObjInv]
      · rw [List.getElem?_eq_none (by simp; omega)] at hx; cases hx
  | clone h =>
    simp only [Prog.step] at hs
    by_cases hc : h ∈ s.handles ∧ h.kind ≠ .excl ∧ h.kind ≠ .box
    · rw [if_pos hc] at hs
      obtain ⟨hm, hn1, hn2⟩ := hc
      obtain ⟨x, hx, hk, hd⟩ := inv_handle hi hm
      have hu := use_some hx hk hd
      have hcount : ∀ p y, p ≠ h.ptr → s.objs[p]? = some y →
          owners (⟨[], h :: s.handles, s.onces, s.lost⟩ : Prog V) y.kind p = owners s y.kind p := by
        intro p y hp _
        have hne : h ≠ ⟨y.kind, p⟩ := by intro e; exact hp (by rw [e])
        show ((h :: s.handles).count _ + _ + _) = _
        rw [List.count_cons_of_ne hne]; rfl
      have hself : owners (⟨[], h :: s.handles, s.onces, s.lost⟩ : Prog V) x.kind h.ptr = owners s x.kind h.ptr + 1 := by
        have e : h = ⟨x.kind, h.ptr⟩ := by rw [hk]
        show ((h :: s.handles).count ⟨x.kind, h.ptr⟩ + s.onces.count _ + s.lost.count _) = _
        rw [← e, List.count_cons_self]
        unfold owners; rw [← e]; omega
      have hobj := hi.objs _ x hx
      have counted : (h.kind = .rc ∨ h.kind = .arc) →
          Inv (⟨s.objs.set h.ptr { x with strong := x.strong + 1 }, h :: s.handles, s.onces, s.lost⟩ : Prog V) := by
        intro hrc
        -- the new handle is one that is already there
        refine inv_set (z := { x with strong := x.strong + 1 }) hi hx rfl ?_ (fun o ho => ho) (fun o ho => ho) ?_ hcount
        · intro h' hm'
          rcases List.mem_cons.mp hm' with rfl | hm'
          · exact hm
          · exact hm'
        · rw [hself]
          rw [← hk] at hrc
          unfold ObjInv at hobj ⊢
          rcases hrc with hrc | hrc <;> simp only [hrc] at hobj ⊢ <;>
            exact ⟨by omega, by rw [if_neg (by omega)]; exact hd⟩
      cases hkind : h.kind with
      | excl => exact absurd hkind hn1
      | box => exact absurd hkind hn2
      | ref =>
        simp only [cloneObj, hu, hkind] at hs
        simp only [Res.ok.injEq] at hs
        obtain ⟨rfl, -⟩ := hs
        refine inv_same hi ?_ hi.onces hi.lost ?_
        · intro h' hm'
          rcases List.mem_cons.mp hm' with rfl | hm'
          · exact ⟨x, hx, hk⟩
          · exact hi.handles h' hm'
        · intro p y hy
          by_cases e : p = h.ptr
          · subst e; rw [hx] at hy; cases hy
            exact .inl (.inl (hk.trans hkind))
          · exact .inr (hcount p y e hy)
      | rc =>
        simp only [cloneObj, hu, hkind] at hs
        simp only [Res.ok.injEq] at hs
        obtain ⟨rfl, -⟩ := hs
        exact counted (.inl hkind)
      | arc =>
        simp only [cloneObj, hu, hkind] at hs
        simp only [Res.ok.injEq] at hs
        obtain ⟨rfl, -⟩ := hs
        exact counted (.inr hkind)
    · rw [if_neg hc] at hs; cases hs
  | drop h =>
    simp only [Prog.step] at hs
    by_cases hm : h ∈ s.handles
    · rw [if_pos hm] at hs
      obtain ⟨x, hx, hk, hd⟩ := inv_handle hi hm
      have hu := use_some hx hk hd
      have hcount : ∀ p y, p ≠ h.ptr → s.objs[p]? = some y →
          owners (⟨[], s.handles.erase h, s.onces, s.lost⟩ : Prog V) y.kind p = owners s y.kind p := by
        intro p y hp _
        have hne : h ≠ ⟨y.kind, p⟩ := by intro e; exact hp (by rw [e])
        have := owners_erase_handle hm y.kind p
        rw [if_neg hne] at this
        unfold owners
        show (s.handles.erase h).count _ + s.onces.count _ + s.lost.count _ = _
        omega
      have hself : owners (⟨[], s.handles.erase h, s.onces, s.lost⟩ : Prog V) x.kind h.ptr + 1
          = owners s x.kind h.ptr := by
        have e : h = ⟨x.kind, h.ptr⟩ := by rw [hk]
        have := owners_erase_handle hm x.kind h.ptr
        rw [if_pos e] at this
        unfold owners
        show (s.handles.erase h).count _ + s.onces.count _ + s.lost.count _ + 1 = _
        omega
      have hobj := hi.objs _ x hx
      have hsub : ∀ h' ∈ s.handles.erase h, h' ∈ s.handles := fun _ h' => hmemE h'
      have uncounted : (h.kind = .ref ∨ h.kind = .excl) →
          Inv (⟨s.objs, s.handles.erase h, s.onces, s.lost⟩ : Prog V) := by
        intro hrm
        refine inv_same hi (fun h' hm' => hi.handles h' (hsub h' hm')) hi.onces hi.lost ?_
        intro p y hy
        by_cases e : p = h.ptr
        · subst e; rw [hx] at hy; cases hy
          rw [hk]; exact .inl hrm
        · exact .inr (hcount p y e hy)
      have counted : (h.kind = .rc ∨ h.kind = .arc) → ∀ objs,
          (if x.strong = 1 then some (s.objs.set h.ptr { x with strong := 0, dropped := x.dropped + 1 })
            else some (s.objs.set h.ptr { x with strong := x.strong - 1 })) = some objs →
          Inv (⟨objs, s.handles.erase h, s.onces, s.lost⟩ : Prog V) := by
        intro hrc objs ho
        rw [← hk] at hrc
        have hst : x.strong = owners s x.kind h.ptr := by
          unfold ObjInv at hobj
          rcases hrc with hrc | hrc <;> simp only [hrc] at hobj ⊢ <;> exact hobj.1
        by_cases e1 : x.strong = 1
        · rw [if_pos e1] at ho
          cases ho
          refine inv_set (z := { x with strong := 0, dropped := x.dropped + 1 }) hi hx rfl hsub (fun o ho => ho) (fun o ho => ho) ?_ hcount
          have : owners (⟨[], s.handles.erase h, s.onces, s.lost⟩ : Prog V) x.kind h.ptr = 0 := by omega
          rw [this]
          unfold ObjInv
          rcases hrc with hrc | hrc <;> simp only [hrc] <;> simp [hd]
        · rw [if_neg e1] at ho
          cases ho
          refine inv_set (z := { x with strong := x.strong - 1 }) hi hx rfl hsub (fun o ho => ho) (fun o ho => ho) ?_ hcount
          unfold ObjInv
          rcases hrc with hrc' | hrc' <;> simp only [hrc'] <;> rw [hrc'] at hself hst <;>
            exact ⟨by omega, by rw [if_neg (by omega)]; exact hd⟩
      cases hkind : h.kind with
      | ref =>
        simp only [dropObj, hu, hkind] at hs
        simp only [Res.ok.injEq] at hs
        obtain ⟨rfl, -⟩ := hs
        exact uncounted (.inl hkind)
      | excl =>
        simp only [dropObj, hu, hkind] at hs
        simp only [Res.ok.injEq] at hs
        obtain ⟨rfl, -⟩ := hs
        exact uncounted (.inr hkind)
      | box =>
        simp only [dropObj, hu, hkind] at hs
        simp only [Res.ok.injEq] at hs
        obtain ⟨rfl, -⟩ := hs
        refine inv_set (z := { x with dropped := x.dropped + 1 }) hi hx rfl hsub (fun o ho => ho) (fun o ho => ho) ?_ hcount
        have hxk : x.kind = .box := hk.trans hkind
        rw [hxk] at hself ⊢
        unfold ObjInv at hobj ⊢
        simp only [hxk] at hobj ⊢
        omega
      | rc =>
        have hs : (match dropObj s.objs h with
          | none => Res.ub
          | some objs => .ok ⟨objs, s.handles.erase h, s.onces, s.lost⟩ none) = .ok s' out := hs
        cases hobjs : dropObj s.objs h with
        | none => rw [hobjs] at hs; cases hs
        | some objs =>
          rw [hobjs] at hs
          simp only [Res.ok.injEq] at hs
          obtain ⟨rfl, -⟩ := hs
          simp only [dropObj, hu, hkind] at hobjs
          exact counted (.inl hkind) objs hobjs
      | arc =>
        have hs : (match dropObj s.objs h with
          | none => Res.ub
          | some objs => .ok ⟨objs, s.handles.erase h, s.onces, s.lost⟩ none) = .ok s' out := hs
        cases hobjs : dropObj s.objs h with
        | none => rw [hobjs] at hs; cases hs
        | some objs =>
          rw [hobjs] at hs
          simp only [Res.ok.injEq] at hs
          obtain ⟨rfl, -⟩ := hs
          simp only [dropObj, hu, hkind] at hobjs
          exact counted (.inr hkind) objs hobjs
    · rw [if_neg hm] at hs; cases hs
  | read h =>
    simp only [Prog.step] at hs
    by_cases hm : h ∈ s.handles
    · rw [if_pos hm] at hs
      obtain ⟨x, hx, hk, hd⟩ := inv_handle hi hm
      rw [read_some hx hd] at hs
      simp only [Res.ok.injEq] at hs
      obtain ⟨rfl, -⟩ := hs
      exact hi
    · rw [if_neg hm] at hs; cases hs
  | into h =>
    simp only [Prog.step] at hs
    by_cases hm : h ∈ s.handles
    · rw [if_pos hm, into_deref_eq] at hs
      simp only [Res.ok.injEq] at hs
      obtain ⟨rfl, -⟩ := hs
      obtain ⟨x, hx, hk, hd⟩ := inv_handle hi hm
      refine inv_same hi (fun h' hm' => hi.handles h' (hmemE hm')) ?_ hi.lost ?_
      · intro o ho
        rcases List.mem_cons.mp ho with rfl | ho
        · exact ⟨x, hx⟩
        · exact hi.onces o ho
      · intro p y hy
        refine .inr ?_
        unfold owners
        show (s.handles.erase h).count _ + ((⟨h.ptr⟩ : OnceRef) :: s.onces).count _ + s.lost.count _ = _
        have := owners_erase_handle hm y.kind p
        by_cases e : p = h.ptr
        · subst e
          rw [hx] at hy; cases hy
          rw [if_pos (by rw [hk])] at this
          rw [List.count_cons_self]; omega
        · rw [if_neg (fun e' => e (by rw [e']))] at this
          rw [List.count_cons_of_ne (fun e' => e (by injection e' with e'; exact e'.symm))]
          omega
    · rw [if_neg hm] at hs; cases hs
  | restore k o =>
    simp only [Prog.step] at hs
    by_cases hm : o ∈ s.onces
    · rw [if_pos hm] at hs
      obtain ⟨x, hx, hd⟩ := inv_once hi hm
      have hk : x.kind = k := hl x hx
      rw [from_deref_some hx hk hd] at hs
      simp only [Res.ok.injEq] at hs
      obtain ⟨rfl, -⟩ := hs
      refine inv_same hi ?_ (fun o' ho' => hi.onces o' (hmemO ho')) hi.lost ?_
      · intro h' hm'
        rcases List.mem_cons.mp hm' with rfl | hm'
        · exact ⟨x, hx, hk⟩
        · exact hi.handles h' hm'
      · intro p y hy
        refine .inr ?_
        unfold owners
        show ((⟨k, o.ptr⟩ : Handle) :: s.handles).count _ + (s.onces.erase o).count _ + s.lost.count _ = _
        have := owners_erase_once hm p
        by_cases e : o.ptr = p
        · subst e
          rw [hx] at hy; cases hy
          rw [if_pos rfl] at this
          rw [hk, List.count_cons_self]; omega
        · rw [if_neg e] at this
          rw [List.count_cons_of_ne (fun e' => e (by injection e' with _ e'))]
          omega
    · rw [if_neg hm] at hs; cases hs
  | readOnce o =>
    simp only [Prog.step] at hs
    by_cases hm : o ∈ s.onces
    · rw [if_pos hm] at hs
      obtain ⟨x, hx, hd⟩ := inv_once hi hm
      rw [read_some hx hd] at hs
      simp only [Res.ok.injEq] at hs
      obtain ⟨rfl, -⟩ := hs
      exact hi
    · rw [if_neg hm] at hs; cases hs
  | forget o =>
    simp only [Prog.step] at hs
    by_cases hm : o ∈ s.onces
    · rw [if_pos hm] at hs
      simp only [Res.ok.injEq] at hs
      obtain ⟨rfl, -⟩ := hs
      exact inv_lose hi hm
    · rw [if_neg hm] at hs; cases hs
  | intoRef o =>
    simp only [Prog.step] at hs
    by_cases hm : o ∈ s.onces
    · rw [if_pos hm] at hs
      obtain ⟨x, hx, hd⟩ := inv_once hi hm
      rw [read_some hx hd] at hs
      simp only [Res.ok.injEq] at hs
      obtain ⟨rfl, -⟩ := hs
      exact inv_lose hi hm
    · rw [if_neg hm] at hs; cases hs
where
  inv_lose {s : Prog V} (hi : Inv s) {o : OnceRef} (hm : o ∈ s.onces) :
      Inv ⟨s.objs, s.handles, s.onces.erase o, o :: s.lost⟩ := by
    obtain ⟨x, hx, hd⟩ := inv_once hi hm
    refine inv_same hi hi.handles (fun o' ho' => hi.onces o' (List.mem_of_mem_erase ho')) ?_ ?_
    · intro o' ho'
      rcases List.mem_cons.mp ho' with rfl | ho'
      · exact ⟨x, hx⟩
      · exact hi.lost o' ho'
    · intro p y hy
      refine .inr ?_
      unfold owners
      show s.handles.count _ + (s.onces.erase o).count _ + (o :: s.lost).count _ = _
      have := owners_erase_once hm p
      by_cases e : o.ptr = p
      · subst e
        rw [if_pos rfl] at this
        rw [show (⟨o.ptr⟩ : OnceRef) = o from rfl, List.count_cons_self] at *; omega
      · rw [if_neg e] at this
        rw [List.count_cons_of_ne (fun e' => e (by rw [e']))]
        omega

theorem reach_inv {s : Prog V} (h : Reach s) : Inv s := by
  induction h with
  | start =>
    refine ⟨?_, ?_, ?_, ?_⟩ <;> simp
  | step _ hl hs ih => exact inv_step ih hl hs

theorem map_value_set (objs : List (Obj V)) (p : Nat) (x y : Obj V) (hx : objs[p]? = some x) (hv : y.value = x.value) :
    (objs.set p y).map (·.value) = objs.map (·.value) := by
  induction objs generalizing p with
  | nil => rfl
  | cons o os ih =>
    cases p with
    | zero => simp at hx; subst hx; simp [hv]
    | succ p => simp at hx; simp [ih p hx]

theorem use_get {objs : List (Obj V)} {h : Handle} {o : Obj V} (hu : use objs h = some o) :
    objs[h.ptr]? = some o := by
  unfold use at hu
  cases hx : objs[h.ptr]? with
  | none => rw [hx] at hu; cases hu
  | some x =>
    rw [hx] at hu
    have hu : (if x.dropped = 0 ∧ x.kind = h.kind then some x else none) = some o := hu
    by_cases c : x.dropped = 0 ∧ x.kind = h.kind
    · rw [if_pos c] at hu; exact hu
    · rw [if_neg c] at hu; cases hu

theorem read_get {objs : List (Obj V)} {p : Nat} {v : V} (hr : read objs p = some v) :
    (objs.map (·.value))[p]? = some v := by
  unfold read at hr
  cases hx : objs[p]? with
  | none => rw [hx] at hr; cases hr
  | some x =>
    rw [hx] at hr
    have hr : (if x.dropped = 0 then some x.value else none) = some v := hr
    by_cases c : x.dropped = 0
    · rw [if_pos c] at hr; rw [List.getElem?_map, hx]; exact hr
    · rw [if_neg c] at hr; cases hr

theorem cloneObj_values {objs objs' : List (Obj V)} {h : Handle} (e : cloneObj objs h = some objs') :
    objs'.map (·.value) = objs.map (·.value) := by
  cases hu : use objs h with
  | none => simp only [cloneObj, hu] at e; cases e
  | some o =>
    have hg := use_get hu
    simp only [cloneObj, hu] at e
    cases hk : h.kind <;> simp only [hk] at e <;> injection e with e <;> subst e <;>
      first | rfl | exact map_value_set _ _ _ _ hg rfl

theorem dropObj_values {objs objs' : List (Obj V)} {h : Handle} (e : dropObj objs h = some objs') :
    objs'.map (·.value) = objs.map (·.value) := by
  cases hu : use objs h with
  | none => simp only [dropObj, hu] at e; cases e
  | some o =>
    have hg := use_get hu
    simp only [dropObj, hu] at e
    have two : ∀ {a b : Obj V}, a.value = o.value → b.value = o.value →
        (if o.strong = 1 then some (objs.set h.ptr a) else some (objs.set h.ptr b)) = some objs' →
        objs'.map (·.value) = objs.map (·.value) := by
      intro a b ha hb e
      by_cases c : o.strong = 1
      · rw [if_pos c] at e; injection e with e; subst e; exact map_value_set _ _ _ _ hg ha
      · rw [if_neg c] at e; injection e with e; subst e; exact map_value_set _ _ _ _ hg hb
    cases hk : h.kind <;> simp only [hk] at e
    · injection e with e; subst e; rfl
    · injection e with e; subst e; rfl
    · injection e with e; subst e; exact map_value_set _ _ _ _ hg rfl
    · exact two (a := { o with strong := 0, dropped := o.dropped + 1 }) (b := { o with strong := o.strong - 1 }) rfl rfl e
    · exact two (a := { o with strong := 0, dropped := o.dropped + 1 }) (b := { o with strong := o.strong - 1 }) rfl rfl e

end Verif.Wrap
