import Verif.Borrow.SpecTree
/-! # Lemmas about Tree Borrows -/
namespace Verif.Borrow

theorem mem_above {t u : Path} : u ∈ Path.above t ↔ u <:+ t := by
  induction t with
  | nil => simp [Path.above]
  | cons n t ih => rw [Path.above, List.mem_cons, ih, List.suffix_cons_iff]

theorem under_iff {t u : Path} : Path.under t u = true ↔ u <:+ t := by rw [Path.under, List.isSuffixOf_iff_suffix]

theorem perms_isSome {k t} {p : Perms} : (p.access k t).isSome = true ↔ ∀ u, u <:+ t → ((p u).own k).isSome = true := by
  unfold Perms.access
  constructor
  · intro h u hu
    split at h
    · rename_i hall
      exact List.all_eq_true.mp hall u (mem_above.mpr hu)
    · cases h
  · intro h
    rw [if_pos (List.all_eq_true.mpr fun u hu => h u (mem_above.mp hu))]; rfl

theorem perms_some {k t} {p q : Perms} (h : p.access k t = some q) :
    (∀ u, u <:+ t → (p u).own k = some (q u)) ∧ ∀ u, ¬ u <:+ t → q u = (p u).foreign k := by
  have hs := perms_isSome.mp (show (p.access k t).isSome = true by rw [h]; rfl)
  unfold Perms.access at h
  split at h
  · have h := Option.some.inj h
    subst h
    constructor
    · intro u hu
      obtain ⟨v, hv⟩ := Option.isSome_iff_exists.mp (hs u hu)
      show _ = some (if _ then _ else _)
      rw [if_pos (under_iff.mpr hu), hv]; rfl
    · intro u hu
      show (if _ then _ else _) = _
      rw [if_neg (fun hc => hu (under_iff.mp hc))]
  · cases h

theorem tree_isSome {s : Tree} {t lo n k} :
    (s.access t lo n k).isSome = true ↔ ∀ a, lo ≤ a → a < lo + n → ((s.at_ a).access k t).isSome = true := by
  unfold Tree.access
  constructor
  · intro h a h1 h2
    split at h
    · rename_i hall
      have := List.all_eq_true.mp hall (a - lo) (List.mem_range.mpr (by omega))
      rwa [show lo + (a - lo) = a by omega] at this
    · cases h
  · intro h
    rw [if_pos]
    · rfl
    · refine List.all_eq_true.mpr fun d hd => h _ (by omega) ?_
      have := List.mem_range.mp hd
      omega

theorem tree_some {s : Tree} {t lo n k s'} (h : s.access t lo n k = some s') :
    s'.next = s.next ∧ (∀ a, lo ≤ a → a < lo + n → (s.at_ a).access k t = some (s'.at_ a)) ∧
      ∀ a, ¬ (lo ≤ a ∧ a < lo + n) → s'.at_ a = s.at_ a := by
  have hs := tree_isSome.mp (show (s.access t lo n k).isSome = true by rw [h]; rfl)
  unfold Tree.access at h
  split at h
  · have h := Option.some.inj h
    subst h
    refine ⟨rfl, ?_, ?_⟩
    · intro a h1 h2
      obtain ⟨v, hv⟩ := Option.isSome_iff_exists.mp (hs a h1 h2)
      show _ = some (if _ then _ else _)
      rw [if_pos ⟨h1, h2⟩, hv]; rfl
    · intro a ha
      show (if _ then _ else _) = _
      rw [if_neg ha]
  · cases h

theorem tree_usable {s : Tree} {t a k} :
    Usable tree s t a k ↔ ∀ u, u <:+ t → ((s.at_ a u).own k).isSome = true := by
  rw [← perms_isSome]
  constructor
  · intro h
    exact tree_isSome.mp h a (by omega) (by omega)
  · intro h
    refine tree_isSome.mpr fun b h1 h2 => ?_
    have : b = a := by omega
    exact this ▸ h

theorem tree_range {s : Tree} {t lo n k} : (tree.access s t lo n k).isSome = true ↔ UsableAll tree s t lo n k := by
  constructor
  · intro h a h1 h2
    exact tree_usable.mpr (perms_isSome.mp (tree_isSome.mp h a h1 h2))
  · intro h
    exact tree_isSome.mpr fun a h1 h2 => perms_isSome.mpr (tree_usable.mp (h a h1 h2))

/-- The permission of a new reference. -/
def Kind.tperm : Kind → TPerm
  | .shared => .frozen
  | _ => .reserved

/-- Making a pointer keeps the permissions, but for the read that making a reference is, and for those of the new tag. -/
theorem tree_reborrow {s : Tree} {k t lo n s' t'} (h : tree.reborrow k s t lo n = some (s', t')) :
    ((k = .rawMut ∨ k = .rawConst) ∧ s' = s ∧ t' = t) ∨
    ((k = .unique ∨ k = .shared) ∧ ∃ s1, s.access t lo n .read = some s1 ∧ t' = s.next :: t ∧ s'.next = s.next + 1 ∧
      ∀ a u, s'.at_ a u = if u = s.next :: t then k.tperm else s1.at_ a u) := by
  cases k with
  | rawMut => cases h; exact .inl ⟨.inl rfl, rfl, rfl⟩
  | rawConst => cases h; exact .inl ⟨.inr rfl, rfl, rfl⟩
  | unique =>
    obtain ⟨s1, h1, h2⟩ := Option.map_eq_some_iff.mp h
    have hn := (tree_some h1).1
    simp only [Tree.add, Prod.mk.injEq] at h2
    obtain ⟨rfl, rfl⟩ := h2
    exact .inr ⟨.inl rfl, s1, h1, by rw [hn], by simp only [hn], fun a u => by simp only [hn]; rfl⟩
  | shared =>
    obtain ⟨s1, h1, h2⟩ := Option.map_eq_some_iff.mp h
    have hn := (tree_some h1).1
    simp only [Tree.add, Prod.mk.injEq] at h2
    obtain ⟨rfl, rfl⟩ := h2
    exact .inr ⟨.inr rfl, s1, h1, by rw [hn], by simp only [hn], fun a u => by simp only [hn]; rfl⟩

theorem own_write {p : TPerm} : (p.own .write).isSome = true ↔ p = .reserved ∨ p = .active := by
  cases p <;> simp [TPerm.own]

theorem own_read {p : TPerm} : (p.own .read).isSome = true ↔ p ≠ .disabled := by
  cases p <;> simp [TPerm.own]

theorem own_keeps {p q : TPerm} {k} (h : p.own k = some q) (hp : p = .reserved ∨ p = .active) : q = .reserved ∨ q = .active := by
  cases p <;> cases k <;> simp_all [TPerm.own]

theorem reads_keep {p : TPerm} (h : p ≠ .disabled) : p.foreign .read ≠ .disabled := by cases p <;> simp_all [TPerm.foreign]

theorem own_frozen {p q : TPerm} {k} (h : p.own k = some q) (hp : p = .frozen ∨ p = .disabled) : q = .frozen ∨ q = .disabled := by
  cases p <;> cases k <;> simp_all [TPerm.own]

theorem foreign_frozen {p : TPerm} (k) (hp : p = .frozen ∨ p = .disabled) : p.foreign k = .frozen ∨ p.foreign k = .disabled := by
  cases p <;> cases k <;> simp_all [TPerm.foreign]

theorem fresh_ne {s : Tree} {p t u : Path} (hk : ∀ m ∈ p, m < s.next) (hu : u <:+ p) : u ≠ s.next :: t := by
  rintro rfl
  exact absurd (hk _ (hu.subset (List.mem_cons_self ..))) (Nat.lt_irrefl _)

/-- An access through what was derived from `p` leaves it writable. -/
theorem write_access {s : Tree} {p t : Path} {a lo n k s'} (ht : p <:+ t) (h : s.access t lo n k = some s')
    (hu : ∀ u, u <:+ p → s.at_ a u = .reserved ∨ s.at_ a u = .active) :
    ∀ u, u <:+ p → s'.at_ a u = .reserved ∨ s'.at_ a u = .active := by
  obtain ⟨-, h2, h3⟩ := tree_some h
  intro u hup
  by_cases ha : lo ≤ a ∧ a < lo + n
  · exact own_keeps ((perms_some (h2 a ha.1 ha.2)).1 u (hup.trans ht)) (hu u hup)
  · rw [h3 a ha]; exact hu u hup

/-- Whoever may write still may after any use of what was derived from it. -/
theorem tree_keep {s₀ : Tree} {p : Path} {a} (hk : tree.Known s₀ p) (hu : Usable tree s₀ p a .write) {s : Tree} {D}
    (h : Uses tree s₀ p s D) : Usable tree s p a .write := by
  have hu' : ∀ u, u <:+ p → s₀.at_ a u = .reserved ∨ s₀.at_ a u = .active := fun u h => own_write.mp (tree_usable.mp hu u h)
  have key : (∀ u, u <:+ p → s.at_ a u = .reserved ∨ s.at_ a u = .active) ∧ (∀ m ∈ p, m < s.next) ∧ ∀ u ∈ D, p <:+ u := by
    clear hu
    induction h with
    | start => exact ⟨hu', hk, fun u hu => by rw [List.mem_singleton.mp hu]; exact List.suffix_refl _⟩
    | access h ht hs ih =>
      exact ⟨write_access (ih.2.2 _ ht) hs ih.1, by rw [(tree_some hs).1]; exact ih.2.1, ih.2.2⟩
    | reborrow h ht hs ih =>
      rename_i s D t lo n k s' t'
      rcases tree_reborrow hs with ⟨-, rfl, rfl⟩ | ⟨-, s1, hs1, rfl, hn, he⟩
      · refine ⟨ih.1, ih.2.1, fun u hu => ?_⟩
        rcases List.mem_cons.mp hu with rfl | hu
        · exact ih.2.2 _ ht
        · exact ih.2.2 _ hu
      · refine ⟨fun u hu => ?_, fun m hm => ?_, fun u hu => ?_⟩
        · rw [he, if_neg (fresh_ne ih.2.1 hu)]
          exact write_access (ih.2.2 _ ht) hs1 ih.1 u hu
        · have := ih.2.1 m hm; omega
        · rcases List.mem_cons.mp hu with rfl | hu
          · exact (ih.2.2 _ ht).trans (List.suffix_cons _ _)
          · exact ih.2.2 _ hu
  exact tree_usable.mpr fun u hu => own_write.mpr (key.1 u hu)

theorem read_access {s : Tree} {p t : Path} {a lo n s'} (h : s.access t lo n .read = some s')
    (hu : ∀ u, u <:+ p → s.at_ a u ≠ .disabled) : ∀ u, u <:+ p → s'.at_ a u ≠ .disabled := by
  obtain ⟨-, h2, h3⟩ := tree_some h
  intro u hup
  by_cases ha : lo ≤ a ∧ a < lo + n
  · have hp := perms_some (h2 a ha.1 ha.2)
    by_cases hut : u <:+ t
    · have h5 := hp.1 u hut
      intro hc
      rw [hc] at h5
      revert h5
      cases s.at_ a u <;> simp [TPerm.own]
    · rw [hp.2 u hut]; exact reads_keep (hu u hup)
  · rw [h3 a ha]; exact hu u hup

theorem tree_known_new {s : Tree} {k t lo n s' t'} (hk : tree.Known s t) (h : tree.reborrow k s t lo n = some (s', t')) :
    tree.Known s' t' := by
  rcases tree_reborrow h with ⟨-, rfl, rfl⟩ | ⟨-, s1, hs1, rfl, hn, he⟩
  · exact hk
  · intro m hm
    rcases List.mem_cons.mp hm with rfl | hm
    · omega
    · have := hk m hm; omega

theorem tree_known_mono {s : Tree} {k t lo n s' t' u} (hk : tree.Known s u) (h : tree.reborrow k s t lo n = some (s', t')) :
    tree.Known s' u := by
  rcases tree_reborrow h with ⟨-, rfl, rfl⟩ | ⟨-, s1, hs1, rfl, hn, he⟩
  · exact hk
  · intro m hm
    have := hk m hm; omega

/-- What can be read can still be read after any history in which memory is only read. -/
theorem tree_reading {s₁ : Tree} {p a} (hk : tree.Known s₁ p) (hu : Usable tree s₁ p a .read) {s : Tree}
    (h : Reading tree s₁ s) : Usable tree s p a .read := by
  have hu' : ∀ u, u <:+ p → s₁.at_ a u ≠ .disabled := fun u h => own_read.mp (tree_usable.mp hu u h)
  have key : (∀ u, u <:+ p → s.at_ a u ≠ .disabled) ∧ tree.Known s p := by
    clear hu
    induction h with
    | start => exact ⟨hu', hk⟩
    | access h hs ih => exact ⟨read_access hs ih.1, fun m hm => by rw [(tree_some hs).1]; exact ih.2 m hm⟩
    | reborrow h hk' hs ih =>
      refine ⟨?_, tree_known_mono ih.2 hs⟩
      rcases tree_reborrow hs with ⟨-, rfl, rfl⟩ | ⟨-, s1, hs1, rfl, hn, he⟩
      · exact ih.1
      · intro u hu
        rw [he, if_neg (fresh_ne ih.2 hu)]
        exact read_access hs1 ih.1 u hu
  exact tree_usable.mpr fun u hu => own_read.mpr (key.1 u hu)

/-- A new pointer can be used wherever the one it was made from can be: `*mut`, `*const` and `&mut` to write, all to read. That holds
for all of memory, not only for the range. -/
theorem tree_new {s : Tree} {k t lo n} (hk : tree.Known s t) (h : UsableAll tree s t lo n .read) :
    ∃ s' t', tree.reborrow k s t lo n = some (s', t') ∧ tree.Known s' t' ∧
      (∀ a, Usable tree s t a .read → Usable tree s' t' a .read) ∧
      (k ≠ .shared → ∀ a, Usable tree s t a .write → Usable tree s' t' a .write) := by
  have h1 : (tree.reborrow k s t lo n).isSome = true := by
    obtain ⟨s1, hs1⟩ := Option.isSome_iff_exists.mp (tree_range.mpr h)
    have hs1 : s.access t lo n .read = some s1 := hs1
    cases k <;> simp [tree, hs1]
  obtain ⟨⟨s', t'⟩, hs⟩ := Option.isSome_iff_exists.mp h1
  refine ⟨s', t', hs, tree_known_new hk hs, ?_, ?_⟩
  · intro a ha
    rcases tree_reborrow hs with ⟨-, rfl, rfl⟩ | ⟨-, s1, hs1, rfl, hn, he⟩
    · exact ha
    · refine tree_usable.mpr fun u hu => own_read.mpr ?_
      rw [he]
      split
      · cases k <;> simp [Kind.tperm]
      · rename_i hne
        have hu : u <:+ t := by
          rcases List.suffix_cons_iff.mp hu with h | h
          · exact absurd h hne
          · exact h
        exact read_access hs1 (fun v hv => own_read.mp (tree_usable.mp ha v hv)) u hu
  · intro hns a ha
    rcases tree_reborrow hs with ⟨-, rfl, rfl⟩ | ⟨hk, s1, hs1, rfl, hn, he⟩
    · exact ha
    · refine tree_usable.mpr fun u hu => own_write.mpr ?_
      rw [he]
      split
      · left
        rcases hk with rfl | rfl
        · rfl
        · exact absurd rfl hns
      · rename_i hne
        have hu : u <:+ t := by
          rcases List.suffix_cons_iff.mp hu with h | h
          · exact absurd h hne
          · exact h
        exact write_access (List.suffix_refl t) hs1 (fun v hv => own_write.mp (tree_usable.mp ha v hv)) u hu

/-- Nothing can be written through what was derived from a shared reference. -/
theorem tree_never {s₀ s₁ : Tree} {t lo n p} (hk : tree.Known s₀ t)
    (h₀ : tree.reborrow .shared s₀ t lo n = some (s₁, p)) {s : Tree} {D} (h : Anything tree s₁ p s D) :
    ∀ u ∈ D, ∀ a, ¬ Usable tree s u a .write := by
  have hkp := tree_known_new hk h₀
  have acc : ∀ {s s' : Tree} {t lo n k} (_ : s.access t lo n k = some s') (_ : ∀ a, s.at_ a p = .frozen ∨ s.at_ a p = .disabled),
      ∀ a, s'.at_ a p = .frozen ∨ s'.at_ a p = .disabled := by
    intro s s' t lo n k hs hp a
    obtain ⟨-, f2, f3⟩ := tree_some hs
    by_cases ha : lo ≤ a ∧ a < lo + n
    · have hq := perms_some (f2 a ha.1 ha.2)
      by_cases hut : p <:+ t
      · exact own_frozen (hq.1 p hut) (hp a)
      · rw [hq.2 p hut]; exact foreign_frozen k (hp a)
    · rw [f3 a ha]; exact hp a
  have reb : ∀ {s s' : Tree} {t t' lo n k} (_ : tree.reborrow k s t lo n = some (s', t')) (_ : tree.Known s p)
      (_ : ∀ a, s.at_ a p = .frozen ∨ s.at_ a p = .disabled), ∀ a, s'.at_ a p = .frozen ∨ s'.at_ a p = .disabled := by
    intro s s' t t' lo n k hs hkn hp a
    rcases tree_reborrow hs with ⟨-, rfl, rfl⟩ | ⟨-, s1, hs1, rfl, hn, he⟩
    · exact hp a
    · rw [he, if_neg (fresh_ne hkn (List.suffix_refl p))]
      exact acc hs1 hp a
  have key : (∀ a, s.at_ a p = .frozen ∨ s.at_ a p = .disabled) ∧ tree.Known s p ∧ ∀ u ∈ D, p <:+ u := by
    induction h with
    | start =>
      refine ⟨fun a => ?_, hkp, fun u hu => by rw [List.mem_singleton.mp hu]; exact List.suffix_refl _⟩
      rcases tree_reborrow h₀ with ⟨h | h, -⟩ | ⟨-, s1, hs1, rfl, hn, he⟩
      · cases h
      · cases h
      · rw [he, if_pos rfl]; exact .inl rfl
    | access h hs ih =>
      exact ⟨acc hs ih.1, fun m hm => by rw [(tree_some hs).1]; exact ih.2.1 m hm, ih.2.2⟩
    | other h hs hn ih => exact ⟨reb hs ih.2.1 ih.1, tree_known_mono ih.2.1 hs, ih.2.2⟩
    | derived h hs hd ih =>
      refine ⟨reb hs ih.2.1 ih.1, tree_known_mono ih.2.1 hs, fun u hu => ?_⟩
      rcases List.mem_cons.mp hu with rfl | hu
      · rcases tree_reborrow hs with ⟨-, rfl, rfl⟩ | ⟨-, s1, hs1, rfl, hn, he⟩
        · exact ih.2.2 _ hd
        · exact (ih.2.2 _ hd).trans (List.suffix_cons _ _)
      · exact ih.2.2 _ hu
  intro u hu a hus
  have := own_write.mp (tree_usable.mp hus p (key.2.2 u hu))
  rcases key.1 a with h | h <;> rw [h] at this <;> simp at this

end Verif.Borrow
