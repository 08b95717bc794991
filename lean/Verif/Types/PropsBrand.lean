import Verif.Types.ModelBrand
import Verif.Types.LemmasTypes
/-! # Properties of brands (C84) -/
namespace Verif.Types

variable {L : Type} (s : Scope L)

/-! ## Specification -/

/-- A value of the type contains a value of type `Id<'x>`, possibly behind references and pointers. -/
inductive Carries (x : L) : Ty L → Prop
  | id : Carries x (Id x)
  | ref (a : L) {t : Ty L} : Carries x t → Carries x (.ref a t)
  | refMut (a : L) {t : Ty L} : Carries x t → Carries x (.refMut a t)
  | ptrConst {t : Ty L} : Carries x t → Carries x (.ptrConst t)
  | ptrMut {t : Ty L} : Carries x t → Carries x (.ptrMut t)
  | nonNull {t : Ty L} : Carries x t → Carries x (.nonNull t)
  | array (n : Nat) {t : Ty L} : Carries x t → Carries x (.array n t)
  | cell {t : Ty L} : Carries x t → Carries x (.cell t)
  | fieldHere {t : Ty L} (r : Ty L) : Carries x t → Carries x (.field t r)
  | fieldThere (t : Ty L) {r : Ty L} : Carries x r → Carries x (.field t r)
  | adt (n : Name) (p : Bool) {t : Ty L} : Carries x t → Carries x (.adt n p t)
  | impl (p : Ty L) (f g : Bool → Bool → Bool) {t : Ty L} : Carries x t → Carries x (.impl p f g t)

/-- The structures in the type have the fields of their definitions, and only function pointers are quantified. -/
def Ty.Valid : Ty L → Prop
  | .plain _ _ _ _ _ | .nil => True
  | .ref _ t | .refMut _ t | .ptrConst t | .ptrMut t | .nonNull t | .phantom t | .array _ t | .cell t | .impl _ _ _ t => t.Valid
  | .fnPtr t u | .field t u => t.Valid ∧ u.Valid
  | .hr f => ∀ a, (f a).Valid ∧ ∃ t u, f a = .fnPtr t u
  | .adt n p t => t.Valid ∧ match n with
    | .phantomInvariant => ∃ u, .adt n p t = PhantomInvariant u
    | .phantomInvariantLifetime => ∃ a, .adt n p t = PhantomInvariantLifetime a
    | .id => ∃ a, .adt n p t = Id a
    | .unique => ∃ a, .adt n p t = Unique a
    | _ => True

/-! ## Theorems -/

/-- C84. Brands convert only to brands of the same lifetime. -/
theorem brands_invariant (a b : L) : (Sub s (Id a) (Id b) ↔ s.same a b) ∧ (Sub s (Unique a) (Unique b) ↔ s.same a b) := by
  simp only [Id, Unique, PhantomInvariantLifetime, PhantomInvariant, sub_adt, sub_field, sub_phantom, sub_fnPtr, sub_ref, sub_nil,
    sub_same, and_true, true_and, Scope.same]
  exact ⟨and_comm, and_comm⟩

theorem no_sub {s : Scope L} {x : L} (hx : s.Fresh x) {t : Ty L} (ht : t.isHr = false)
    (k : ∀ r : Ty L, r.Without x → r.Valid → ¬ Direct s t r) (r : Ty L) (hr : r.Without x) (hv : r.Valid) : ¬ Sub s t r := by
  intro h
  induction h with
  | inst => cases ht
  | gen _ ih => exact ih s.static ht k (hr s.static hx.1) (hv s.static).1
  | plain => exact k _ hr hv (.plain ..)
  | ref a b => exact k _ hr hv (.ref a b)
  | refMut a b c => exact k _ hr hv (.refMut a b c)
  | ptrConst a => exact k _ hr hv (.ptrConst a)
  | ptrMut a b => exact k _ hr hv (.ptrMut a b)
  | nonNull a => exact k _ hr hv (.nonNull a)
  | phantom a => exact k _ hr hv (.phantom a)
  | array a => exact k _ hr hv (.array a)
  | cell a b => exact k _ hr hv (.cell a b)
  | fnPtr a b => exact k _ hr hv (.fnPtr a b)
  | nil => exact k _ hr hv .nil
  | field a b => exact k _ hr hv (.field a b)
  | adt a => exact k _ hr hv (.adt a)
  | impl a => exact k _ hr hv (.impl a)

/-- C84. Within the closure nothing is known about the brand but that it lives. No value that contains the brand, in whatever
form, can be used as a value of a type that does not mention the brand: it cannot be returned from the closure. -/
theorem brand_stays (x : L) (hx : s.Fresh x) (t r : Ty L) (ht : Carries x t) (hr : r.Without x) (hv : r.Valid) :
    ¬ Sub s t r := by
  induction ht generalizing r with
  | id =>
    refine no_sub hx rfl (fun r hr hv h => ?_) r hr hv
    cases h with
    | adt h =>
      obtain ⟨b, hb⟩ := hv.2
      rw [hb] at hr
      have : b = x := hx.2 b ((brands_invariant s x b).1.mp (hb ▸ Sub.adt h))
      exact hr.1.1.1.1.1 this
  | ref _ _ ih =>
    refine no_sub hx rfl (fun r hr hv h => ?_) r hr hv
    cases h; exact ih _ hr.2 hv ‹_›
  | refMut _ _ ih =>
    refine no_sub hx rfl (fun r hr hv h => ?_) r hr hv
    cases h; exact ih _ hr.2 hv ‹_›
  | ptrConst _ ih | ptrMut _ ih | nonNull _ ih | array _ _ ih | cell _ ih =>
    refine no_sub hx rfl (fun r hr hv h => ?_) r hr hv
    cases h; exact (by refine ih _ ?_ ?_ ‹_› <;> assumption)
  | fieldHere _ _ ih =>
    refine no_sub hx rfl (fun r hr hv h => ?_) r hr hv
    cases h; exact ih _ hr.1 hv.1 ‹_›
  | fieldThere _ _ ih =>
    refine no_sub hx rfl (fun r hr hv h => ?_) r hr hv
    cases h; exact ih _ hr.2 hv.2 ‹_›
  | adt _ _ _ ih =>
    refine no_sub hx rfl (fun r hr hv h => ?_) r hr hv
    cases h; refine ih _ ?_ hv.1 ‹_›; exact hr
  | impl _ _ _ _ ih =>
    refine no_sub hx rfl (fun r hr hv h => ?_) r hr hv
    cases h; refine ih _ hr.2 ?_ ‹_›; exact hv

/-! ### Histories -/

/-- What holds of all programs. -/
structure Program.Ok (p : Program) : Prop where
  once : p.running.Nodup
  old : ∀ b ∈ p.running, b < p.calls
  live : ∀ v ∈ p.values, v.of ∈ p.running
  one : ∀ b, p.values.count (.unique b) ≤ 1
  apart : ∀ b, .unique b ∈ p.values → .id b ∉ p.values

theorem step_ok {p q : Program} {o : BrandOp} (h : p.Ok) (hs : p.step o = some q) : q.Ok := by
  cases o with
  | call =>
    cases hs
    have hn : p.calls ∉ p.running := fun hm => Nat.lt_irrefl _ (h.old _ hm)
    have hv : ∀ v ∈ p.values, v.of ≠ p.calls := fun v hm e => hn (e ▸ h.live v hm)
    refine ⟨List.nodup_cons.mpr ⟨hn, h.once⟩, fun b hb => ?_, fun v hm => ?_, fun b => ?_, fun b hu hi => ?_⟩
    · rcases List.mem_cons.mp hb with rfl | hb
      · exact Nat.lt_succ_self _
      · exact Nat.lt_succ_of_lt (h.old b hb)
    · rcases List.mem_append.mp hm with hm | hm
      · exact List.mem_cons_of_mem _ (h.live v hm)
      · rw [List.mem_singleton.mp hm]; exact List.mem_cons_self
    · rw [List.count_append, List.count_singleton]
      by_cases e : b = p.calls
      · subst e
        have : p.values.count (.unique p.calls) = 0 := List.count_eq_zero.mpr fun hm => hv _ hm rfl
        rw [this]; split <;> omega
      · have : (Brand.unique p.calls == Brand.unique b) = false := by
          rw [beq_eq_false_iff_ne]; intro e'; cases e'; exact e rfl
        rw [this]; simpa using h.one b
    · rcases List.mem_append.mp hi with hi | hi
      · rcases List.mem_append.mp hu with hu | hu
        · exact h.apart b hu hi
        · cases List.mem_singleton.mp hu; exact hv _ hi rfl
      · cases List.mem_singleton.mp hi
  | ret b =>
    simp only [Program.step] at hs
    split at hs
    · cases hs
      refine ⟨h.once.erase b, fun c hc => h.old c (List.mem_of_mem_erase hc), fun v hm => ?_, fun c => ?_, fun c hu hi => ?_⟩
      · obtain ⟨hm, hn⟩ := List.mem_filter.mp hm
        exact (List.mem_erase_of_ne (by simpa using hn)).mpr (h.live v hm)
      · exact Nat.le_trans (List.filter_sublist.count_le _) (h.one c)
      · exact h.apart c (List.mem_filter.mp hu).1 (List.mem_filter.mp hi).1
    · cases hs
  | into i =>
    simp only [Program.step] at hs
    split at hs
    · rename_i b hb
      cases hs
      obtain ⟨hi, hb⟩ := List.getElem?_eq_some_iff.mp hb
      have hmem : .unique b ∈ p.values := hb ▸ List.getElem_mem hi
      have hcount : ∀ c, (p.values.set i (.id b)).count (.unique c) = p.values.count (.unique c) - if c = b then 1 else 0 := by
        intro c
        rw [List.count_set hi, hb]
        by_cases e : c = b
        · subst e; simp
        · simp [e, Ne.symm e]
      have hset : ∀ v ∈ p.values.set i (.id b), v ∈ p.values ∨ v = .id b := fun v hm => List.mem_or_eq_of_mem_set hm
      refine ⟨h.once, h.old, fun v hm => ?_, fun c => ?_, fun c hu hd => ?_⟩
      · rcases hset v hm with hm | rfl
        · exact h.live v hm
        · exact (h.live (.unique b) hmem :)
      · rw [hcount]; have := h.one c; omega
      · have hc := List.count_pos_iff.mpr hu
        rw [hcount] at hc
        have h1 := h.one c
        by_cases e : c = b
        · rw [if_pos e] at hc; omega
        · rw [if_neg e, Nat.sub_zero] at hc
          rcases hset _ hd with hd | hd
          · exact h.apart c (List.count_pos_iff.mp hc) hd
          · cases hd; exact e rfl
    · cases hs
  | copy i =>
    simp only [Program.step] at hs
    split at hs
    · rename_i b hb
      cases hs
      obtain ⟨hi, hb⟩ := List.getElem?_eq_some_iff.mp hb
      have hmem : .id b ∈ p.values := hb ▸ List.getElem_mem hi
      have hsub : ∀ v ∈ p.values ++ [.id b], v ∈ p.values := fun v hm => by
        rcases List.mem_append.mp hm with hm | hm
        · exact hm
        · rw [List.mem_singleton.mp hm]; exact hmem
      refine ⟨h.once, h.old, fun v hm => h.live v (hsub v hm), fun c => ?_, fun c hu hd => h.apart c (hsub _ hu) (hsub _ hd)⟩
      rw [List.count_append, List.count_singleton]
      simpa using h.one c
    · cases hs
  | drop i =>
    simp only [Program.step] at hs
    split at hs
    · cases hs
      have hsub := List.eraseIdx_sublist p.values i
      exact ⟨h.once, h.old, fun v hm => h.live v (hsub.subset hm), fun c => Nat.le_trans (hsub.count_le _) (h.one c),
        fun c hu hd => h.apart c (hsub.subset hu) (hsub.subset hd)⟩
    · cases hs

theorem run_ok {p q : Program} : ∀ {os : List BrandOp}, p.Ok → p.run os = some q → q.Ok
  | [], h, hr => by cases hr; exact h
  | o :: os, h, hr => by
    simp only [Program.run] at hr
    split at hr
    · exact run_ok (step_ok h ‹_›) hr
    · cases hr

theorem start_ok : Program.start.Ok := ⟨.nil, by simp [Program.start], by simp [Program.start], by simp [Program.start],
  by simp [Program.start]⟩

/-- C84. Whatever a program does: for every call of `unique()` there is at most one value of type `Unique`; while it exists there
is no `Id` of that brand; and values exist only while the closure of that call runs. Different calls have different brands. -/
theorem brands_unique (os : List BrandOp) (p : Program) (h : Program.start.run os = some p) :
    p.running.Nodup ∧ (∀ v ∈ p.values, v.of ∈ p.running ∧ v.of < p.calls) ∧ (∀ b, p.values.count (.unique b) ≤ 1)
    ∧ ∀ b, .unique b ∈ p.values → .id b ∉ p.values := by
  have ok := run_ok start_ok h
  exact ⟨ok.once, fun v hm => ⟨ok.live v hm, ok.old _ (ok.live v hm)⟩, ok.one, ok.apart⟩

/-- Where a value comes from. -/
theorem value_origin {p q : Program} {o : BrandOp} (hs : p.step o = some q) (v : Brand) (hm : v ∈ q.values) :
    v ∈ p.values ∨ (o = .call ∧ v = .unique p.calls) ∨ ∃ i b, o = .into i ∧ v = .id b ∧ p.values[i]? = some (.unique b) := by
  cases o with
  | call =>
    cases hs
    rcases List.mem_append.mp hm with hm | hm
    · exact .inl hm
    · exact .inr (.inl ⟨rfl, List.mem_singleton.mp hm⟩)
  | ret b =>
    simp only [Program.step] at hs
    split at hs
    · cases hs; exact .inl (List.mem_filter.mp hm).1
    · cases hs
  | into i =>
    simp only [Program.step] at hs
    split at hs
    · rename_i b hb
      cases hs
      rcases List.mem_or_eq_of_mem_set hm with hm | hm
      · exact .inl hm
      · exact .inr (.inr ⟨i, b, rfl, hm, hb⟩)
    · cases hs
  | copy i =>
    simp only [Program.step] at hs
    split at hs
    · rename_i b hb
      cases hs
      rcases List.mem_append.mp hm with hm | hm
      · exact .inl hm
      · obtain ⟨hi, hb⟩ := List.getElem?_eq_some_iff.mp hb
        rw [List.mem_singleton.mp hm]; exact .inl (hb ▸ List.getElem_mem hi)
    · cases hs
  | drop i =>
    simp only [Program.step] at hs
    split at hs
    · cases hs; exact .inl ((List.eraseIdx_sublist p.values i).subset hm)
    · cases hs

theorem run_append {p : Program} : ∀ (xs ys : List BrandOp), p.run (xs ++ ys) = (p.run xs).bind (·.run ys)
  | [], ys => rfl
  | x :: xs, ys => by
    simp only [List.cons_append, Program.run]
    split
    · exact run_append xs ys
    · rfl

/-- C84. Nothing is forged: a `Unique` was passed to a closure by the call of `unique()` that has its brand, an `Id` was made from
the `Unique` of its brand. -/
theorem brands_originate (os : List BrandOp) (p : Program) (h : Program.start.run os = some p) (v : Brand) (hm : v ∈ p.values) :
    ∃ before after q, os = before ++ after ∧ Program.start.run before = some q ∧ match v with
      | .unique b => q.calls = b ∧ after.head? = some .call
      | .id b => ∃ i, q.values[i]? = some (.unique b) ∧ after.head? = some (.into i) := by
  suffices H : ∀ (n : Nat) (os : List BrandOp) (p : Program), os.length = n → Program.start.run os = some p → v ∈ p.values →
      ∃ before after q, os = before ++ after ∧ Program.start.run before = some q ∧ match v with
        | .unique b => q.calls = b ∧ after.head? = some .call
        | .id b => ∃ i, q.values[i]? = some (.unique b) ∧ after.head? = some (.into i) from H _ os p rfl h hm
  intro n
  induction n with
  | zero =>
    intro os p hl h hm
    cases List.eq_nil_of_length_eq_zero hl
    cases h; cases hm
  | succ n ih =>
    intro os p hl h hm
    have hne : os ≠ [] := fun e => by rw [e] at hl; cases hl
    obtain ⟨o, hos⟩ : ∃ o, os = os.dropLast ++ [o] := ⟨os.getLast hne, (List.dropLast_concat_getLast hne).symm⟩
    generalize os.dropLast = xs at hos
    subst hos
    rw [run_append] at h
    cases hx : Program.start.run xs with
    | none => rw [hx] at h; cases h
    | some q =>
      rw [hx, Option.bind_some] at h
      simp only [Program.run] at h
      cases hq : q.step o with
      | none => rw [hq] at h; cases h
      | some p' =>
        rw [hq] at h
        cases h
        rcases value_origin hq v hm with hm | ⟨rfl, rfl⟩ | ⟨i, b, rfl, rfl, hb⟩
        · obtain ⟨bf, af, r, e, hr, hv⟩ := ih xs q (by simpa using hl) hx hm
          refine ⟨bf, af ++ [o], r, by rw [e, List.append_assoc], hr, ?_⟩
          cases v with
          | unique b => exact ⟨hv.1, by rw [List.head?_append, hv.2]; rfl⟩
          | id b => obtain ⟨i, h1, h2⟩ := hv; exact ⟨i, h1, by rw [List.head?_append, h2]; rfl⟩
        · exact ⟨xs, [.call], q, rfl, hx, rfl, rfl⟩
        · exact ⟨xs, [.into i], q, rfl, hx, i, hb, rfl⟩

/-! ## Examples -/

/-- Two lifetimes besides `'static`, of which nothing is known. -/
def unrelated : Scope (Fin 3) where
  outlives a b := a = 0 ∨ a = b
  refl _ := .inr rfl
  trans a b c := by omega
  static := 0
  longest _ := .inl rfl

-- The lifetimes of two nested calls of `unique()` are fresh, and their brands do not convert to each other.
example : unrelated.Fresh 1 ∧ unrelated.Fresh 2 ∧ ¬ Sub unrelated (Id 1) (Id 2) ∧ ¬ Sub unrelated (Unique 2) (Unique 1) := by
  rw [(brands_invariant ..).1, (brands_invariant ..).2]
  simp only [Scope.Fresh, Scope.same, unrelated]
  decide

-- A reference to an identifier cannot be returned as an identifier of another brand, nor behind a function pointer.
example : Carries (2 : Fin 3) (.ref 0 (Unique 2)) ∧ (Ty.ref (0 : Fin 3) (Unique 1)).Without 2 ∧ (Ty.ref (0 : Fin 3) (Unique 1)).Valid :=
  ⟨.ref _ (.adt _ _ (.fieldHere _ .id)), by simp [Ty.Without, Unique, Id, PhantomInvariantLifetime, PhantomInvariant, tyUnit],
    by simp [Ty.Valid, Unique, Id, PhantomInvariantLifetime, PhantomInvariant, tyUnit]⟩

example : Program.start.run [.call, .call, .into 0, .copy 0, .ret 1, .drop 0] = some ⟨2, [0], [.id 0]⟩ := by decide

-- A `Unique` cannot be copied.
example : Program.start.run [.call, .copy 0] = none := by decide

end Verif.Types
