import Verif.Wrap.LemmasPin
/-! # Property theorems: pointers obtained from pins (C79) -/
namespace Verif.Wrap
variable {V : Type}

/-- **C79** (a). After every history, for every pinned smart pointer the program holds and each of the four functions that
its type allows: the call is defined, it yields the address of the target, all other objects stay as they are, and the
target can be read through the pointer exactly if the pin was a reference or another owner is left (or was given up). What
is read then is the value of the target. -/
theorem pin_ptr {s : Prog V} (hr : Reach s) {h : Handle} (hm : h ∈ s.handles) (f : PinFn) (hf : f.takes h.kind) :
    ∃ objs' v, f.call s.objs ⟨h⟩ = .ok objs' h.ptr ∧ read s.objs h.ptr = some v ∧
      (∀ p, p ≠ h.ptr → objs'[p]? = s.objs[p]?) ∧
      (Borrowed h ∨ Shared s h → read objs' h.ptr = some v) ∧
      (¬ (Borrowed h ∨ Shared s h) → read objs' h.ptr = none) := by
  obtain ⟨x, hx, hk, hd⟩ := inv_handle (reach_inv hr) hm
  obtain ⟨objs', e, hc⟩ := call_drop hr hm f hf
  have hs : s.step (.drop h) = .ok ⟨objs', s.handles.erase h, s.onces, s.lost⟩ none := by
    simp only [Prog.step, if_pos hm, e]
  have hr' : Reach (⟨objs', s.handles.erase h, s.onces, s.lost⟩ : Prog V) := .step (op := .drop h) hr trivial hs
  have hlt : h.ptr < s.objs.length := (List.getElem?_eq_some_iff.mp hx).1
  -- what dropping does to the list of objects
  have key : (∀ p, p ≠ h.ptr → objs'[p]? = s.objs[p]?) ∧
      ∃ y, objs'[h.ptr]? = some y ∧ y.kind = x.kind ∧ y.value = x.value := by
    have e' := e
    simp only [dropObj, use_some hx hk hd] at e'
    have setcase : ∀ y : Obj V, some (s.objs.set h.ptr y) = some objs' → y.kind = x.kind → y.value = x.value →
        (∀ p, p ≠ h.ptr → objs'[p]? = s.objs[p]?) ∧
        ∃ y, objs'[h.ptr]? = some y ∧ y.kind = x.kind ∧ y.value = x.value := by
      intro y hy h1 h2
      cases hy
      exact ⟨fun p hp => List.getElem?_set_ne (Ne.symm hp), y, by rw [List.getElem?_set_self hlt], h1, h2⟩
    have same : some s.objs = some objs' → (∀ p, p ≠ h.ptr → objs'[p]? = s.objs[p]?) ∧
        ∃ y, objs'[h.ptr]? = some y ∧ y.kind = x.kind ∧ y.value = x.value := by
      intro hy; cases hy; exact ⟨fun _ _ => rfl, x, hx, rfl, rfl⟩
    have counted : (if x.strong = 1 then some (s.objs.set h.ptr { x with strong := 0, dropped := x.dropped + 1 })
        else some (s.objs.set h.ptr { x with strong := x.strong - 1 })) = some objs' →
        (∀ p, p ≠ h.ptr → objs'[p]? = s.objs[p]?) ∧
        ∃ y, objs'[h.ptr]? = some y ∧ y.kind = x.kind ∧ y.value = x.value := by
      intro hy
      by_cases c : x.strong = 1
      · rw [if_pos c] at hy; exact setcase _ hy rfl rfl
      · rw [if_neg c] at hy; exact setcase _ hy rfl rfl
    cases hkk : h.kind <;> simp only [hkk] at e'
    · exact same e'
    · exact same e'
    · exact setcase _ e' rfl rfl
    · exact counted e'
    · exact counted e'
  obtain ⟨hoth, y, hy, hyk, hyv⟩ := key
  obtain ⟨hle, hbor, hown⟩ := own_destroyed_once hr' h.ptr y hy
  have hshared : ¬ Shared s h ↔ (∀ g ∈ s.handles.erase h, g.ptr ≠ h.ptr) ∧ (∀ o ∈ s.onces, o.ptr ≠ h.ptr) ∧
      ∀ o ∈ s.lost, o.ptr ≠ h.ptr := by
    simp [Shared, not_or]
  refine ⟨objs', x.value, hc, read_some hx hd, hoth, ?_, ?_⟩
  · intro hbs
    have hz : y.dropped = 0 := by
      by_cases hb : Borrowed h
      · apply hbor
        rcases hb with hb | hb
        · exact .inl (by rw [hyk, hk, hb])
        · exact .inr (by rw [hyk, hk, hb])
      · have hsh : Shared s h := hbs.resolve_left hb
        have ho : y.kind = .box ∨ y.kind = .rc ∨ y.kind = .arc := by
          rw [hyk, hk]
          unfold Borrowed at hb
          cases hkk : h.kind <;> simp [hkk] at hb ⊢
        have h1 := hown ho
        have : y.dropped ≠ 1 := fun h2 => (hshared.mpr (h1.mp h2)) hsh
        omega
    rw [read_some hy hz, hyv]
  · intro hn
    have hb : ¬ Borrowed h := fun h => hn (.inl h)
    have hsh : ¬ Shared s h := fun h => hn (.inr h)
    have ho : y.kind = .box ∨ y.kind = .rc ∨ y.kind = .arc := by
      rw [hyk, hk]
      unfold Borrowed at hb
      cases hkk : h.kind <;> simp [hkk] at hb ⊢
    have h1 := (hown ho).mpr (hshared.mp hsh)
    simp only [read, hy]
    exact if_neg (by omega)

/-- **C79** (b), the part that holds: pointers obtained from pinned references point to the target, which is not touched. -/
theorem pin_sound_partial {s : Prog V} (hr : Reach s) {h : Handle} (hm : h ∈ s.handles) (hb : Borrowed h)
    (f : PinFn) (hf : f.takes h.kind) :
    f.call s.objs ⟨h⟩ = .ok s.objs h.ptr ∧ ∃ v, read s.objs h.ptr = some v := by
  obtain ⟨objs', e, hc⟩ := call_drop hr hm f hf
  obtain ⟨x, hx, hk, hd⟩ := inv_handle (reach_inv hr) hm
  have : objs' = s.objs := by
    simp only [dropObj, use_some hx hk hd] at e
    rcases hb with hb | hb <;> simp only [hb] at e <;> exact (Option.some.inj e).symm
  rw [this] at hc
  exact ⟨hc, x.value, read_some hx hd⟩

/-- **C79** (c). A pointer obtained from a pinned `Box` always dangles. -/
theorem pin_box_dangles {s : Prog V} (hr : Reach s) {h : Handle} (hm : h ∈ s.handles) (hb : h.kind = .box) (f : PinFn) :
    ∃ objs', f.call s.objs ⟨h⟩ = .ok objs' h.ptr ∧ read objs' h.ptr = none := by
  have hf : f.takes h.kind := by cases f <;> simp [PinFn.takes, hb]
  obtain ⟨objs', e, hc⟩ := call_drop hr hm f hf
  obtain ⟨x, hx, hk, hd⟩ := inv_handle (reach_inv hr) hm
  refine ⟨objs', hc, ?_⟩
  simp only [dropObj, use_some hx hk hd, hb] at e
  cases e
  have hlt : h.ptr < s.objs.length := (List.getElem?_eq_some_iff.mp hx).1
  simp only [read, List.getElem?_set_self hlt]
  exact if_neg (by omega)

/-- **C79** (d). So what is asked for does not hold, whatever the values. -/
theorem pin_not_sound (v : V) : ¬ PinSound V := by
  intro hp
  have h1 : Reach (⟨[⟨.box, v, 1, 0⟩], [⟨.box, 0⟩], [], []⟩ : Prog V) :=
    .step (op := .new .box v) (out := none) .start trivial rfl
  obtain ⟨objs', e, h2⟩ := hp _ h1 ⟨.box, 0⟩ (by simp) .asPtr trivial
  obtain ⟨objs'', e', h3⟩ := pin_box_dangles h1 (h := ⟨.box, 0⟩) (by simp) rfl .asPtr
  rw [e] at e'
  cases e'
  rw [h3] at h2
  simp [read] at h2

/-- **C79** (e). The functions that need mutable access cannot be called with other smart pointers. -/
theorem pin_rejected (objs : List (Obj V)) (h : Handle) (f : PinFn) : f.call objs ⟨h⟩ = .rejected ↔ ¬ f.takes h.kind := by
  have h1 : ∀ o : PtrRes V, o = as_ptr objs ⟨h⟩ → o ≠ .rejected := by
    intro o ho
    rw [ho]
    simp only [as_ptr, Pin.into_inner_unchecked]
    cases deref objs h with
    | none => simp
    | some p => cases dropObj objs h <;> simp
  have h2 : as_mut_ptr objs ⟨h⟩ = .rejected ↔ ¬ (h.kind = .excl ∨ h.kind = .box) := by
    by_cases c : derefsMut h.kind = true
    · have e : as_mut_ptr objs ⟨h⟩ = as_ptr objs ⟨h⟩ := by
        simp only [as_mut_ptr, as_ptr, Pin.into_inner_unchecked, c, if_true]
      have hk : h.kind = .excl ∨ h.kind = .box := by
        cases hk : h.kind <;> simp [hk, derefsMut] at c ⊢
      rw [e]
      exact ⟨fun hh => absurd hh (h1 _ rfl), fun hh => absurd hk hh⟩
    · have e : as_mut_ptr objs ⟨h⟩ = .rejected := by
        simp only [as_mut_ptr, Pin.into_inner_unchecked, c]
        rfl
      rw [e]
      cases hk : h.kind <;> simp [hk, derefsMut] at c ⊢
  cases f with
  | asPtr => simp only [PinFn.takes, not_true, iff_false]; exact h1 _ rfl
  | asMutPtr => exact h2
  | nonnullRef => simp only [PinFn.takes, not_true, iff_false]; exact h1 _ rfl
  | nonnullMut => exact h2

/-- **C79** (f). Pinned conversion to a `OnceRef` and back yields the same pin, without change to the objects; on the way
the `OnceRef` has the address of the target. A `OnceRef` made directly from a pinned reference is the same. -/
theorem pin_roundtrip (objs : List (Obj V)) (h : Handle) :
    pin_into_deref ⟨h⟩ = some ⟨⟨h.ptr⟩⟩ ∧
    ((pin_into_deref ⟨h⟩).bind fun o => pin_from_deref objs h.kind o) = (use objs h).map (fun _ => ⟨h⟩) ∧
    (Borrowed h → pin_from_ref ⟨h⟩ = pin_into_deref ⟨h⟩) ∧
    (as_inner ⟨h⟩ : Handle) = h := by
  have e : pin_into_deref ⟨h⟩ = some ⟨⟨h.ptr⟩⟩ := by
    simp only [pin_into_deref, map_unchecked, Pin.into_inner_unchecked, Pin.new_unchecked, into_deref_eq]
  refine ⟨e, ?_, ?_, rfl⟩
  · rw [e]
    have hr := deref_roundtrip objs h
    rw [into_deref_eq] at hr
    simp only [Option.bind_some, pin_from_deref, map_unchecked, Pin.into_inner_unchecked, Pin.new_unchecked, hr]
    cases use objs h <;> rfl
  · intro _
    rw [e]
    rfl

/-- **C79** (g). Unlike the functions of (a), it keeps the target of every smart pointer alive: after every history the
target can be read through the `OnceRef`. -/
theorem pin_deref_alive {s : Prog V} (hr : Reach s) {h : Handle} (hm : h ∈ s.handles) :
    ∃ s' o v, pin_into_deref ⟨h⟩ = some ⟨o⟩ ∧ s.step (.into h) = .ok s' none ∧ o ∈ s'.onces ∧
      read s.objs h.ptr = some v ∧ s'.step (.readOnce o) = .ok s' (some v) := by
  obtain ⟨x, hx, hk, hd⟩ := inv_handle (reach_inv hr) hm
  refine ⟨⟨s.objs, s.handles.erase h, into_deref h :: s.onces, s.lost⟩, ⟨h.ptr⟩, x.value,
    (pin_roundtrip s.objs h).1, ?_, ?_, read_some hx hd, ?_⟩
  · simp only [Prog.step, if_pos hm]
  · rw [into_deref_eq]; exact List.mem_cons_self
  · have hmem : (⟨h.ptr⟩ : OnceRef) ∈ into_deref h :: s.onces := by rw [into_deref_eq]; exact List.mem_cons_self
    simp only [Prog.step, if_pos hmem, read_some hx hd]

/-! ## Non-vacuity -/

-- One of two owners of a counted object, and then the last one.
example : as_ptr ([⟨.rc, 5, 2, 0⟩] : List (Obj Nat)) ⟨⟨.rc, 0⟩⟩ = .ok [⟨.rc, 5, 1, 0⟩] 0 ∧
    as_ptr ([⟨.rc, 5, 1, 0⟩] : List (Obj Nat)) ⟨⟨.rc, 0⟩⟩ = .ok [⟨.rc, 5, 0, 1⟩] 0 := by decide

-- A program with a shared counted object meets the hypotheses of `pin_ptr`, with another owner left.
example : ∃ s : Prog Nat, Reach s ∧ (⟨.rc, 0⟩ : Handle) ∈ s.handles ∧ Shared s ⟨.rc, 0⟩ ∧
    nonnull_from_pin_ref s.objs ⟨⟨.rc, 0⟩⟩ = .ok [⟨.rc, 5, 1, 0⟩] 0 := by
  have h1 : Reach (⟨[⟨.rc, 5, 1, 0⟩], [⟨.rc, 0⟩], [], []⟩ : Prog Nat) :=
    .step (op := .new .rc 5) (out := none) .start trivial rfl
  have h2 : Reach (⟨[⟨.rc, 5, 2, 0⟩], [⟨.rc, 0⟩, ⟨.rc, 0⟩], [], []⟩ : Prog Nat) :=
    .step (op := .clone ⟨.rc, 0⟩) (out := none) h1 trivial rfl
  exact ⟨_, h2, by simp, .inl ⟨⟨.rc, 0⟩, by simp, rfl⟩, by decide⟩

-- A program with a mutable borrow meets those of `pin_sound_partial`.
example : ∃ s : Prog Nat, Reach s ∧ (⟨.excl, 0⟩ : Handle) ∈ s.handles ∧ Borrowed ⟨.excl, 0⟩ ∧
    as_mut_ptr s.objs ⟨⟨.excl, 0⟩⟩ = .ok [⟨.excl, 7, 1, 0⟩] 0 := by
  have h1 : Reach (⟨[⟨.excl, 7, 1, 0⟩], [⟨.excl, 0⟩], [], []⟩ : Prog Nat) :=
    .step (op := .new .excl 7) (out := none) .start trivial rfl
  exact ⟨_, h1, by simp, .inr rfl, by decide⟩

end Verif.Wrap
