import Verif.Borrow.SpecStacked
/-! # Lemmas about Stacked Borrows -/
namespace Verif.Borrow

theorem granting_some {t k} {s : Stack} {ab i be} (h : granting t k s = some (ab, i, be)) :
    s = ab ++ i :: be ∧ i.grants t k = true ∧ ∀ j ∈ ab, j.grants t k = false := by
  unfold granting at h
  have h1 := List.takeWhile_append_dropWhile (p := fun i : Item => !i.grants t k) (l := s)
  cases hd : s.dropWhile (fun i => !i.grants t k) with
  | nil => rw [hd] at h; cases h
  | cons x l =>
    rw [hd] at h h1
    simp only [Option.some.injEq, Prod.mk.injEq] at h
    obtain ⟨rfl, rfl, rfl⟩ := h
    refine ⟨h1.symm, ?_, ?_⟩
    · have h2 := List.head_dropWhile_not (fun i : Item => !i.grants t k) (w := by rw [hd]; simp)
      simp only [hd, List.head_cons] at h2
      simpa using h2
    · intro j hj
      have h3 := List.all_takeWhile (p := fun i : Item => !i.grants t k) (l := s)
      have h4 := List.all_eq_true.mp h3 j hj
      simpa using h4

theorem granting_isSome {t k} {s : Stack} : (granting t k s).isSome = true ↔ ∃ i ∈ s, i.grants t k = true := by
  constructor
  · intro h
    obtain ⟨⟨ab, i, be⟩, h⟩ := Option.isSome_iff_exists.mp h
    obtain ⟨rfl, h2, _⟩ := granting_some h
    exact ⟨i, by simp, h2⟩
  · rintro ⟨i, hi, hg⟩
    unfold granting
    cases hd : s.dropWhile (fun i => !i.grants t k) with
    | nil =>
      have h1 := List.takeWhile_append_dropWhile (p := fun i : Item => !i.grants t k) (l := s)
      rw [hd, List.append_nil] at h1
      have := List.all_eq_true.mp (List.all_takeWhile (p := fun i : Item => !i.grants t k) (l := s)) i (h1.symm ▸ hi)
      simp [hg] at this
    | cons => rfl

theorem access_isSome {t k} {s : Stack} : (s.access k t).isSome = true ↔ ∃ i ∈ s, i.grants t k = true := by
  rw [Stack.access, Option.isSome_map, granting_isSome]

/-- The topmost item that permits the access is at least as high as any item known to permit it. -/
theorem granting_above {t k} {A S : Stack} {i ab j be} (h : granting t k (A ++ i :: S) = some (ab, j, be))
    (hx : ∃ x ∈ A ++ [i], x.grants t k = true) : i :: S <:+ j :: be := by
  obtain ⟨he, hj, hab⟩ := granting_some h
  obtain ⟨x, hx, hg⟩ := hx
  clear h
  induction A generalizing ab with
  | nil =>
    simp only [List.nil_append, List.mem_singleton] at hx
    subst hx
    cases ab with
    | nil =>
      simp only [List.nil_append, List.cons.injEq] at he
      rw [he.1, he.2]; exact List.suffix_refl _
    | cons y ab =>
      simp only [List.nil_append, List.cons_append, List.cons.injEq] at he
      have := hab y (by simp)
      rw [← he.1, hg] at this; cases this
  | cons y A ih =>
    cases ab with
    | nil =>
      simp only [List.nil_append, List.cons_append, List.cons.injEq] at he
      rw [← he.1, ← he.2]
      exact ⟨y :: A, by simp⟩
    | cons z ab =>
      simp only [List.cons_append, List.cons.injEq] at he
      refine ih he.2 (fun j hj => hab j (by simp [hj])) ?_
      rcases List.mem_cons.mp (by simpa using hx : x ∈ y :: (A ++ [i])) with rfl | h
      · have := hab z (by simp)
        rw [← he.1, hg] at this; cases this
      · exact h

theorem suffix_access {t k} {A S s' : Stack} {i} (h : Stack.access k t (A ++ i :: S) = some s')
    (hx : ∃ x ∈ A ++ [i], x.grants t k = true) : i :: S <:+ s' := by
  unfold Stack.access at h
  obtain ⟨⟨ab, j, be⟩, hg, rfl⟩ := Option.map_eq_some_iff.mp h
  have := granting_above hg hx
  cases k with
  | read => exact this.trans ⟨_, rfl⟩
  | write => exact this.trans ⟨_, rfl⟩

/-- The access that making a pointer of that kind needs. -/
def Kind.needs : Kind → Access
  | .unique | .rawMut => .write
  | .shared | .rawConst => .read

theorem reborrow_isSome {k t new} {s : Stack} :
    (s.reborrow k t new).isSome = true ↔ ∃ i ∈ s, i.grants t k.needs = true := by
  cases k <;> simp only [Stack.reborrow, Option.isSome_map, access_isSome, granting_isSome, Kind.needs]

theorem suffix_reborrow {k t new} {A S s' : Stack} {i} (h : Stack.reborrow k t new (A ++ i :: S) = some s')
    (hx : ∃ x ∈ A ++ [i], x.grants t k.needs = true) : i :: S <:+ s' := by
  cases k with
  | unique =>
    obtain ⟨s1, h1, rfl⟩ := Option.map_eq_some_iff.mp h
    exact (suffix_access h1 hx).trans ⟨[_], rfl⟩
  | shared =>
    obtain ⟨s1, h1, rfl⟩ := Option.map_eq_some_iff.mp h
    exact (suffix_access h1 hx).trans ⟨[_], rfl⟩
  | rawConst =>
    obtain ⟨s1, h1, rfl⟩ := Option.map_eq_some_iff.mp h
    exact (suffix_access h1 hx).trans ⟨[_], rfl⟩
  | rawMut =>
    obtain ⟨⟨ab, j, be⟩, hg, rfl⟩ := Option.map_eq_some_iff.mp h
    refine (granting_above hg hx).trans ⟨beyond j ab ++ ⟨new, .sharedRW⟩ :: block j ab, by simp⟩

/-- Where the items of a stack come from after an access. -/
theorem mem_access {k t} {s s' : Stack} (h : Stack.access k t s = some s') {x} (hx : x ∈ s') : ∃ y ∈ s, x = y ∨ x = disable y := by
  obtain ⟨⟨ab, j, be⟩, hg, rfl⟩ := Option.map_eq_some_iff.mp h
  obtain ⟨rfl, -, -⟩ := granting_some hg
  cases k with
  | read =>
    simp only [List.mem_append, List.mem_map, List.mem_cons] at hx
    rcases hx with ⟨y, hy, rfl⟩ | rfl | hx
    · exact ⟨y, by simp [hy], .inr rfl⟩
    · exact ⟨x, by simp, .inl rfl⟩
    · exact ⟨x, by simp [hx], .inl rfl⟩
  | write =>
    simp only [List.mem_append, List.mem_cons] at hx
    rcases hx with hx | rfl | hx
    · refine ⟨x, ?_, .inl rfl⟩
      unfold block at hx
      split at hx
      · have := (List.takeWhile_sublist (fun j : Item => j.perm == .sharedRW)).subset (List.mem_reverse.mp hx)
        simp [List.mem_reverse.mp this]
      · cases hx
    · exact ⟨x, by simp, .inl rfl⟩
    · exact ⟨x, by simp [hx], .inl rfl⟩

/-- The permission of the new item. -/
def Kind.perm : Kind → Perm
  | .unique => .unique
  | .rawMut => .sharedRW
  | .shared | .rawConst => .sharedRO

theorem beyond_block (i : Item) (ab : Stack) : beyond i ab ++ block i ab = ab := by
  unfold beyond block
  split
  · rw [← List.reverse_append, List.takeWhile_append_dropWhile, List.reverse_reverse]
  · simp

theorem mem_reborrow {k t new} {s s' : Stack} (h : Stack.reborrow k t new s = some s') {x} (hx : x ∈ s') :
    x = ⟨new, k.perm⟩ ∨ ∃ y ∈ s, x = y ∨ x = disable y := by
  cases k with
  | unique =>
    obtain ⟨s1, h1, rfl⟩ := Option.map_eq_some_iff.mp h
    rcases List.mem_cons.mp hx with rfl | hx
    · exact .inl rfl
    · exact .inr (mem_access h1 hx)
  | shared =>
    obtain ⟨s1, h1, rfl⟩ := Option.map_eq_some_iff.mp h
    rcases List.mem_cons.mp hx with rfl | hx
    · exact .inl rfl
    · exact .inr (mem_access h1 hx)
  | rawConst =>
    obtain ⟨s1, h1, rfl⟩ := Option.map_eq_some_iff.mp h
    rcases List.mem_cons.mp hx with rfl | hx
    · exact .inl rfl
    · exact .inr (mem_access h1 hx)
  | rawMut =>
    obtain ⟨⟨ab, j, be⟩, hg, rfl⟩ := Option.map_eq_some_iff.mp h
    obtain ⟨rfl, -, -⟩ := granting_some hg
    have hb := beyond_block j ab
    simp only [List.mem_append, List.mem_cons] at hx
    rcases hx with hx | rfl | hx | rfl | hx
    · exact .inr ⟨x, by rw [← hb]; simp [hx], .inl rfl⟩
    · exact .inl rfl
    · exact .inr ⟨x, by rw [← hb]; simp [hx], .inl rfl⟩
    · exact .inr ⟨x, by simp, .inl rfl⟩
    · exact .inr ⟨x, by simp [hx], .inl rfl⟩

theorem new_reborrow {k t new} {s s' : Stack} (h : Stack.reborrow k t new s = some s') : ⟨new, k.perm⟩ ∈ s' := by
  cases k with
  | rawMut =>
    obtain ⟨⟨ab, j, be⟩, hg, rfl⟩ := Option.map_eq_some_iff.mp h
    simp [Kind.perm]
  | _ =>
    obtain ⟨s1, h1, rfl⟩ := Option.map_eq_some_iff.mp h
    simp [Kind.perm]

theorem disable_tag (i : Item) : (disable i).tag = i.tag := by unfold disable; split <;> rfl

theorem mem_read {t} {s s' : Stack} (h : Stack.access .read t s = some s') {x : Item} (hx : x ∈ s) (hp : x.perm ≠ .unique) :
    x ∈ s' := by
  obtain ⟨⟨ab, j, be⟩, hg, rfl⟩ := Option.map_eq_some_iff.mp h
  obtain ⟨rfl, -, -⟩ := granting_some hg
  simp only [List.mem_append, List.mem_map, List.mem_cons] at hx ⊢
  rcases hx with hx | hx
  · exact .inl ⟨x, hx, by rw [disable, if_neg hp]⟩
  · exact .inr hx

/-! ## Ranges -/

theorem each_isSome {s : Stacks} {lo n f} :
    (s.each lo n f).isSome = true ↔ ∀ a, lo ≤ a → a < lo + n → (f (s.at_ a)).isSome = true := by
  unfold Stacks.each
  constructor
  · intro h a h1 h2
    split at h
    · rename_i hall
      have := List.all_eq_true.mp hall (a - lo) (List.mem_range.mpr (by omega))
      rwa [show lo + (a - lo) = a by omega] at this
    · cases h
  · intro h
    rw [if_pos]
    · rfl
    · refine List.all_eq_true.mpr fun d hd => h _ (by omega) ?_
      have := List.mem_range.mp hd
      omega

theorem each_some {s : Stacks} {lo n f g} (h : s.each lo n f = some g) :
    (∀ a, lo ≤ a → a < lo + n → f (s.at_ a) = some (g a)) ∧ ∀ a, ¬ (lo ≤ a ∧ a < lo + n) → g a = s.at_ a := by
  have hs : (s.each lo n f).isSome = true := by rw [h]; rfl
  have hs := each_isSome.mp hs
  unfold Stacks.each at h
  split at h
  · have h := Option.some.inj h
    subst h
    constructor
    · intro a h1 h2
      obtain ⟨v, hv⟩ := Option.isSome_iff_exists.mp (hs a h1 h2)
      show _ = some (if _ then _ else _)
      rw [if_pos ⟨h1, h2⟩, hv]; rfl
    · intro a ha
      show (if _ then _ else _) = _
      rw [if_neg ha]
  · cases h

theorem stacked_access {s : Stacks} {t lo n k s'} (h : stacked.access s t lo n k = some s') :
    s'.next = s.next ∧ (∀ a, lo ≤ a → a < lo + n → Stack.access k t (s.at_ a) = some (s'.at_ a)) ∧
      ∀ a, ¬ (lo ≤ a ∧ a < lo + n) → s'.at_ a = s.at_ a := by
  obtain ⟨g, hg, rfl⟩ := Option.map_eq_some_iff.mp h
  exact ⟨rfl, each_some hg⟩

theorem stacked_reborrow {s : Stacks} {t lo n k s' t'} (h : stacked.reborrow k s t lo n = some (s', t')) :
    t' = s.next ∧ s'.next = s.next + 1 ∧
      (∀ a, lo ≤ a → a < lo + n → Stack.reborrow k t s.next (s.at_ a) = some (s'.at_ a)) ∧
      ∀ a, ¬ (lo ≤ a ∧ a < lo + n) → s'.at_ a = s.at_ a := by
  obtain ⟨g, hg, he⟩ := Option.map_eq_some_iff.mp h
  cases he
  exact ⟨rfl, rfl, each_some hg⟩

theorem stacked_range {s : Stacks} {t lo n k} : (stacked.access s t lo n k).isSome = true ↔ UsableAll stacked s t lo n k := by
  have h1 : ∀ lo n, (stacked.access s t lo n k).isSome = true ↔
      ∀ a, lo ≤ a → a < lo + n → (Stack.access k t (s.at_ a)).isSome = true := by
    intro lo n
    show (Option.map _ _).isSome = true ↔ _
    rw [Option.isSome_map, each_isSome]
  rw [h1]
  constructor
  · intro h a h2 h3
    refine (h1 _ _).mpr fun b h4 h5 => ?_
    have : b = a := by omega
    exact this ▸ h a h2 h3
  · intro h a h2 h3
    exact (h1 _ _).mp (h a h2 h3) a (by omega) (by omega)

theorem stacked_usable {s : Stacks} {t a k} : Usable stacked s t a k ↔ ∃ i ∈ s.at_ a, i.grants t k = true := by
  rw [← access_isSome]
  constructor
  · intro h
    obtain ⟨s', hs⟩ := Option.isSome_iff_exists.mp (show (stacked.access s t a 1 k).isSome = true from h)
    rw [(stacked_access hs).2.1 a (by omega) (by omega)]; rfl
  · intro h
    refine stacked_range.mpr fun b h1 h2 => ?_
    have : b = a := by omega
    subst this
    show (Option.map _ _).isSome = true
    rw [Option.isSome_map, each_isSome]
    intro c h3 h4
    have : c = b := by omega
    exact this ▸ h

theorem grants_read {t} {i : Item} (h : i.grants t .write = true) (k) : i.grants t k = true := by
  rcases i with ⟨_, _ | _ | _ | _⟩ <;> cases k <;> simp_all [Item.grants, Perm.grants]

theorem grants_tag {t k} {i : Item} (h : i.grants t k = true) : i.tag = t := by
  simp only [Item.grants, Bool.and_eq_true, beq_iff_eq] at h; exact h.1

theorem valid_access {s : Stacks} {t lo n k s'} (h : stacked.access s t lo n k = some s') (hv : stacked.Valid s) :
    stacked.Valid s' := by
  obtain ⟨h1, h2, h3⟩ := stacked_access h
  intro a i hi
  rw [h1]
  by_cases ha : lo ≤ a ∧ a < lo + n
  · obtain ⟨y, hy, rfl | rfl⟩ := mem_access (h2 a ha.1 ha.2) hi
    · exact hv a _ hy
    · rw [disable_tag]; exact hv a _ hy
  · rw [h3 a ha] at hi; exact hv a i hi

theorem valid_reborrow {s : Stacks} {t lo n k s' t'} (h : stacked.reborrow k s t lo n = some (s', t'))
    (hv : stacked.Valid s) : stacked.Valid s' := by
  obtain ⟨-, h1, h2, h3⟩ := stacked_reborrow h
  intro a i hi
  rw [h1]
  by_cases ha : lo ≤ a ∧ a < lo + n
  · rcases mem_reborrow (h2 a ha.1 ha.2) hi with rfl | ⟨y, hy, rfl | rfl⟩
    · exact Nat.lt_succ_self _
    · exact Nat.lt_succ_of_lt (hv a _ hy)
    · rw [disable_tag]; exact Nat.lt_succ_of_lt (hv a _ hy)
  · rw [h3 a ha] at hi; exact Nat.lt_succ_of_lt (hv a i hi)

/-! ## Histories -/

/-- Whoever may write still may after any use of what was derived from it. -/
theorem stacked_keep {s₀ : Stacks} {p : Nat} {a} (hv : stacked.Valid s₀) (hu : Usable stacked s₀ p a .write) {s : Stacks} {D}
    (h : Uses stacked s₀ p s D) : Usable stacked s p a .write := by
  obtain ⟨i, hi, hg⟩ := stacked_usable.mp hu
  obtain ⟨A, S, hAS⟩ := List.append_of_mem hi
  have htag := grants_tag hg
  have hS : ∀ x ∈ i :: S, x.tag < s₀.next := fun x hx => hv a x (by rw [hAS]; simp at hx ⊢; exact .inr hx)
  have key : i :: S <:+ s.at_ a ∧ s₀.next ≤ s.next ∧ ∀ u ∈ D, u = p ∨ s₀.next ≤ u := by
    clear hu hi
    have found : ∀ (s : Stacks) (t : Nat) (k : Access) (A : Stack), (t = p ∨ s₀.next ≤ t) →
        (∃ x ∈ A ++ i :: S, x.grants t k = true) → ∃ x ∈ A ++ [i], x.grants t k = true := by
      intro s t k A ht ⟨x, hx, hxg⟩
      rcases ht with rfl | ht
      · exact ⟨i, by simp, grants_read hg k⟩
      · refine ⟨x, ?_, hxg⟩
        rcases List.mem_append.mp hx with hx | hx
        · simp [hx]
        · have := hS x hx
          rw [grants_tag hxg] at this
          omega
    induction h with
    | start => exact ⟨⟨A, hAS.symm⟩, Nat.le_refl _, by simp⟩
    | access h ht hs ih =>
      rename_i s D t lo n k s'
      obtain ⟨⟨B, hB⟩, h2, h3⟩ := ih
      obtain ⟨e1, e2, e3⟩ := stacked_access hs
      refine ⟨?_, by omega, h3⟩
      by_cases ha : lo ≤ a ∧ a < lo + n
      · have e := e2 a ha.1 ha.2
        rw [← hB] at e
        refine suffix_access e (found s t k B (h3 t ht) (access_isSome.mp (by rw [e]; rfl)))
      · rw [e3 a ha]; exact ⟨B, hB⟩
    | reborrow h ht hs ih =>
      rename_i s D t lo n k s' t'
      obtain ⟨⟨B, hB⟩, h2, h3⟩ := ih
      obtain ⟨e0, e1, e2, e3⟩ := stacked_reborrow hs
      refine ⟨?_, by omega, ?_⟩
      · by_cases ha : lo ≤ a ∧ a < lo + n
        · have e := e2 a ha.1 ha.2
          rw [← hB] at e
          refine suffix_reborrow e (found s t k.needs B (h3 t ht) (reborrow_isSome.mp (by rw [e]; rfl)))
        · rw [e3 a ha]; exact ⟨B, hB⟩
      · intro u hu
        rcases List.mem_cons.mp hu with rfl | hu
        · exact .inr (by omega)
        · exact h3 u hu
  exact stacked_usable.mpr ⟨i, key.1.subset (by simp), hg⟩

/-- Making a pointer out of one that permits the access which that needs. -/
theorem stacked_new {s : Stacks} {t lo n} (k : Kind) (h : UsableAll stacked s t lo n k.needs) :
    ∃ s' t', stacked.reborrow k s t lo n = some (s', t') ∧ UsableAll stacked s' t' lo n k.needs := by
  have h1 : (stacked.reborrow k s t lo n).isSome = true := by
    show (Option.map _ _).isSome = true
    rw [Option.isSome_map, each_isSome]
    intro a ha hb
    exact reborrow_isSome.mpr (stacked_usable.mp (h a ha hb))
  obtain ⟨⟨s', t'⟩, hs⟩ := Option.isSome_iff_exists.mp h1
  obtain ⟨e0, e1, e2, e3⟩ := stacked_reborrow hs
  refine ⟨s', t', hs, fun a ha hb => stacked_usable.mpr ⟨_, new_reborrow (e2 a ha hb), ?_⟩⟩
  rw [e0]
  cases k <;> simp [Item.grants, Kind.perm, Kind.needs, Perm.grants]

/-- A shared reference or `*const` pointer can be read after any history in which memory is only read. -/
theorem stacked_reading {s₀ s₁ : Stacks} {k t lo n p} (hk : k = .shared ∨ k = .rawConst)
    (h₀ : stacked.reborrow k s₀ t lo n = some (s₁, p)) {s : Stacks} (h : Reading stacked s₁ s) :
    UsableAll stacked s p lo n .read := by
  obtain ⟨e0, -, e2, -⟩ := stacked_reborrow h₀
  have hperm : ∀ k : Kind, k = .shared ∨ k = .rawConst → k.perm = .sharedRO := by rintro k (rfl | rfl) <;> rfl
  intro a ha hb
  have key : ⟨p, .sharedRO⟩ ∈ s.at_ a := by
    have read : ∀ {k t new} {s s' : Stack} {x : Item}, (k = .shared ∨ k = .rawConst) → Stack.reborrow k t new s = some s' →
        x ∈ s → x.perm ≠ .unique → x ∈ s' := by
      rintro k t new s s' x (rfl | rfl) h hx hp <;>
      · obtain ⟨s1, h1, rfl⟩ := Option.map_eq_some_iff.mp h
        exact List.mem_cons_of_mem _ (mem_read h1 hx hp)
    induction h with
    | start =>
      have := new_reborrow (e2 a ha hb)
      rwa [hperm k hk, ← e0] at this
    | access h hs ih =>
      obtain ⟨-, f2, f3⟩ := stacked_access hs
      rename_i lo' n' _
      by_cases hc : lo' ≤ a ∧ a < lo' + n'
      · exact mem_read (f2 a hc.1 hc.2) ih (by simp)
      · rw [f3 a hc]; exact ih
    | reborrow h hk' hs ih =>
      obtain ⟨-, -, f2, f3⟩ := stacked_reborrow hs
      rename_i lo' n' _ _ _
      by_cases hc : lo' ≤ a ∧ a < lo' + n'
      · exact read hk' (f2 a hc.1 hc.2) ih (by simp)
      · rw [f3 a hc]; exact ih
  exact stacked_usable.mpr ⟨_, key, by simp [Item.grants, Perm.grants]⟩

/-- The tags of a history were given out. -/
theorem stacked_known {s₁ : Stacks} {p : Nat} (hp : p < s₁.next) (hv : stacked.Valid s₁) {s : Stacks} {D}
    (h : Anything stacked s₁ p s D) : stacked.Valid s ∧ ∀ u ∈ D, u < s.next := by
  induction h with
  | start => exact ⟨hv, by simpa using hp⟩
  | access h hs ih => exact ⟨valid_access hs ih.1, by rw [(stacked_access hs).1]; exact ih.2⟩
  | other h hs _ ih =>
    refine ⟨valid_reborrow hs ih.1, fun u hu => ?_⟩
    rw [(stacked_reborrow hs).2.1]; exact Nat.lt_succ_of_lt (ih.2 u hu)
  | derived h hs _ ih =>
    refine ⟨valid_reborrow hs ih.1, fun u hu => ?_⟩
    obtain ⟨e0, e1, -⟩ := stacked_reborrow hs
    rcases List.mem_cons.mp hu with rfl | hu
    · omega
    · have := ih.2 u hu; omega

/-- Nothing can be written through what was derived from a shared reference or a `*const` pointer. -/
theorem stacked_never {s₀ s₁ : Stacks} {k t lo n p} (hk : k = .shared ∨ k = .rawConst) (hv : stacked.Valid s₀)
    (h₀ : stacked.reborrow k s₀ t lo n = some (s₁, p)) {s : Stacks} {D} (h : Anything stacked s₁ p s D) :
    ∀ u ∈ D, ∀ a, ¬ Usable stacked s u a .write := by
  obtain ⟨e0, e1, e2, e3⟩ := stacked_reborrow h₀
  have hv1 := valid_reborrow h₀ hv
  have hperm : ∀ k : Kind, k = .shared ∨ k = .rawConst → k.perm = .sharedRO := by rintro k (rfl | rfl) <;> rfl
  have key : ∀ a, ∀ x ∈ s.at_ a, x.tag ∈ D → x.perm.grants .write = false := by
    induction h with
    | start =>
      intro a x hx ht
      simp only [List.mem_singleton] at ht
      by_cases ha : lo ≤ a ∧ a < lo + n
      · rcases mem_reborrow (e2 a ha.1 ha.2) hx with rfl | ⟨y, hy, hxy⟩
        · rw [hperm k hk]; rfl
        · have h1 := hv a y hy
          have h2 : x.tag = y.tag := by rcases hxy with rfl | rfl <;> simp [disable_tag]
          omega
      · rw [e3 a ha] at hx
        have := hv a x hx
        omega
    | access h hs ih =>
      rename_i s D t lo' n' k' s'
      obtain ⟨-, f2, f3⟩ := stacked_access hs
      intro a x hx ht
      by_cases ha : lo' ≤ a ∧ a < lo' + n'
      · obtain ⟨y, hy, rfl | rfl⟩ := mem_access (f2 a ha.1 ha.2) hx
        · exact ih a _ hy ht
        · rw [disable_tag] at ht
          have := ih a y hy ht
          unfold disable; split
          · rfl
          · exact this
      · rw [f3 a ha] at hx; exact ih a x hx ht
    | other h hs hn ih =>
      rename_i s D t lo' n' k' s' t'
      obtain ⟨f0, f1, f2, f3⟩ := stacked_reborrow hs
      have hkn := stacked_known (by omega) hv1 h
      intro a x hx ht
      by_cases ha : lo' ≤ a ∧ a < lo' + n'
      · rcases mem_reborrow (f2 a ha.1 ha.2) hx with rfl | ⟨y, hy, rfl | rfl⟩
        · have := hkn.2 _ ht
          exact absurd this (Nat.lt_irrefl _)
        · exact ih a _ hy ht
        · rw [disable_tag] at ht
          have := ih a y hy ht
          unfold disable; split
          · rfl
          · exact this
      · rw [f3 a ha] at hx; exact ih a x hx ht
    | derived h hs hd ih =>
      rename_i s D t lo' n' k' s' t'
      obtain ⟨f0, f1, f2, f3⟩ := stacked_reborrow hs
      have hkn := stacked_known (by omega) hv1 h
      intro a x hx ht
      have old : ∀ y ∈ s.at_ a, y.tag ∈ t' :: D → y.tag ∈ D := by
        intro y hy h
        rcases List.mem_cons.mp h with h | h
        · have := hkn.1 a y hy; omega
        · exact h
      by_cases ha : lo' ≤ a ∧ a < lo' + n'
      · rcases mem_reborrow (f2 a ha.1 ha.2) hx with rfl | ⟨y, hy, rfl | rfl⟩
        · obtain ⟨i, hi, hgi⟩ := reborrow_isSome.mp (by rw [f2 a ha.1 ha.2]; rfl)
          have hit := grants_tag hgi
          have hro := ih a i hi (by rw [hit]; exact hd)
          have hgi' : i.perm.grants k'.needs = true := by
            simp only [Item.grants, Bool.and_eq_true] at hgi; exact hgi.2
          cases k' with
          | shared => rfl
          | rawConst => rfl
          | _ => simp only [Kind.needs] at hgi'; rw [hro] at hgi'; cases hgi'
        · exact ih a _ hy (old _ hy ht)
        · rw [disable_tag] at ht
          have := ih a y hy (old _ hy ht)
          unfold disable; split
          · rfl
          · exact this
      · rw [f3 a ha] at hx; exact ih a x hx (old x (hx) ht)
  intro u hu a hus
  obtain ⟨i, hi, hg⟩ := stacked_usable.mp hus
  have := key a i hi (by rw [grants_tag hg]; exact hu)
  simp only [Item.grants, Bool.and_eq_true] at hg
  rw [this] at hg
  cases hg.2

/-- Whatever is derived from a pointer made for a range cannot be used outside of that range. -/
theorem stacked_outside {s₀ s₁ : Stacks} {k t lo n p} (hv : stacked.Valid s₀)
    (h₀ : stacked.reborrow k s₀ t lo n = some (s₁, p)) {s : Stacks} {D} (h : Anything stacked s₁ p s D) :
    ∀ u ∈ D, ∀ a, ¬ (lo ≤ a ∧ a < lo + n) → ∀ j, ¬ Usable stacked s u a j := by
  obtain ⟨e0, e1, e2, e3⟩ := stacked_reborrow h₀
  have hv1 := valid_reborrow h₀ hv
  intro u hu a hout j hus
  have key : ∀ x ∈ s.at_ a, x.tag ∉ D := by
    clear hu hus
    induction h with
    | start =>
      intro x hx ht
      simp only [List.mem_singleton] at ht
      rw [e3 a hout] at hx
      have := hv a x hx
      omega
    | access h hs ih =>
      rename_i s D t lo' n' k' s'
      obtain ⟨-, f2, f3⟩ := stacked_access hs
      intro x hx ht
      by_cases ha : lo' ≤ a ∧ a < lo' + n'
      · obtain ⟨y, hy, rfl | rfl⟩ := mem_access (f2 a ha.1 ha.2) hx
        · exact ih _ hy ht
        · rw [disable_tag] at ht; exact ih _ hy ht
      · rw [f3 a ha] at hx; exact ih x hx ht
    | other h hs hn ih =>
      rename_i s D t lo' n' k' s' t'
      obtain ⟨f0, f1, f2, f3⟩ := stacked_reborrow hs
      have hkn := stacked_known (by omega) hv1 h
      intro x hx ht
      by_cases ha : lo' ≤ a ∧ a < lo' + n'
      · rcases mem_reborrow (f2 a ha.1 ha.2) hx with rfl | ⟨y, hy, rfl | rfl⟩
        · exact absurd (hkn.2 _ ht) (Nat.lt_irrefl _)
        · exact ih _ hy ht
        · rw [disable_tag] at ht; exact ih _ hy ht
      · rw [f3 a ha] at hx; exact ih x hx ht
    | derived h hs hd ih =>
      rename_i s D t lo' n' k' s' t'
      obtain ⟨f0, f1, f2, f3⟩ := stacked_reborrow hs
      have hkn := stacked_known (by omega) hv1 h
      intro x hx ht
      have old : ∀ y ∈ s.at_ a, y.tag ∈ t' :: D → y.tag ∈ D := by
        intro y hy h
        rcases List.mem_cons.mp h with h | h
        · have := hkn.1 a y hy; omega
        · exact h
      by_cases ha : lo' ≤ a ∧ a < lo' + n'
      · obtain ⟨i, hi, hgi⟩ := reborrow_isSome.mp (by rw [f2 a ha.1 ha.2]; rfl)
        exact ih i hi (by rw [grants_tag hgi]; exact hd)
      · rw [f3 a ha] at hx; exact ih x hx (old x hx ht)
  obtain ⟨i, hi, hg⟩ := stacked_usable.mp hus
  exact key i hi (by rw [grants_tag hg]; exact hu)

end Verif.Borrow
