import Verif.Borrow.LemmasStacked
import Verif.Borrow.LemmasTree
import Verif.Borrow.SpecBorrow
import Verif.Borrow.ModelBorrow
/-! # What both borrow models have in common -/
namespace Verif.Borrow

variable {S T : Type} {M : Machine S T}

structure Laws (M : Machine S T) : Prop where
  range : ∀ {s t lo n k}, (M.access s t lo n k).isSome = true ↔ UsableAll M s t lo n k
  weaken : ∀ {s t a}, Usable M s t a .write → Usable M s t a .read
  validA : ∀ {s t lo n k s'}, M.access s t lo n k = some s' → M.Valid s → M.Valid s'
  validR : ∀ {s t lo n k s' t'}, M.reborrow k s t lo n = some (s', t') → M.Valid s → M.Valid s'
  knownN : ∀ {s t lo n k s' t'}, M.Known s t → M.reborrow k s t lo n = some (s', t') → M.Known s' t'
  knownA : ∀ {s t lo n k s' u}, M.access s t lo n k = some s' → M.Known s u → M.Known s' u
  knownR : ∀ {s t lo n k s' t' u}, M.reborrow k s t lo n = some (s', t') → M.Known s u → M.Known s' u
  keep : ∀ {s₀ p a s D}, M.Valid s₀ → M.Known s₀ p → Usable M s₀ p a .write → Uses M s₀ p s D → Usable M s p a .write
  newW : ∀ {s t lo n} (k : Kind), (k = .unique ∨ k = .rawMut) → M.Known s t → UsableAll M s t lo n .write →
    ∃ s' t', M.reborrow k s t lo n = some (s', t') ∧ UsableAll M s' t' lo n .write
  newR : ∀ {s t lo n} (k : Kind), (k = .shared ∨ k = .rawConst) → M.Known s t → UsableAll M s t lo n .read →
    ∃ s' t', M.reborrow k s t lo n = some (s', t') ∧ UsableAll M s' t' lo n .read
  reading : ∀ {s₀ s₁ k t lo n p s}, (k = .shared ∨ k = .rawConst) → M.Known s₀ t → UsableAll M s₀ t lo n .read →
    M.reborrow k s₀ t lo n = some (s₁, p) → Reading M s₁ s → UsableAll M s p lo n .read
  never : ∀ {s₀ s₁ t lo n p s D}, M.Valid s₀ → M.Known s₀ t → M.reborrow .shared s₀ t lo n = some (s₁, p) →
    Anything M s₁ p s D → ∀ u ∈ D, ∀ a, ¬ Usable M s u a .write

theorem stacked_laws : Laws stacked where
  range := stacked_range
  weaken h := by
    obtain ⟨i, hi, hg⟩ := stacked_usable.mp h
    exact stacked_usable.mpr ⟨i, hi, grants_read hg _⟩
  validA := valid_access
  validR := valid_reborrow
  knownN := by
    intro s t lo n k s' t' hk h
    obtain ⟨h1, h2, -⟩ := stacked_reborrow h
    show t' < s'.next
    omega
  knownA := by
    intro s t lo n k s' u h hu
    show u < s'.next
    rw [(stacked_access h).1]; exact hu
  knownR := by
    intro s t lo n k s' t' u h hu
    show u < s'.next
    rw [(stacked_reborrow h).2.1]; exact Nat.lt_succ_of_lt hu
  keep := fun hv _ hu h => stacked_keep hv hu h
  newW := by
    rintro s t lo n k (rfl | rfl) _ h
    · exact stacked_new .unique h
    · exact stacked_new .rawMut h
  newR := by
    rintro s t lo n k (rfl | rfl) _ h
    · exact stacked_new .shared h
    · exact stacked_new .rawConst h
  reading := fun hk _ _ h₀ h => stacked_reading hk h₀ h
  never := fun hv _ h₀ h => stacked_never (.inl rfl) hv h₀ h

theorem tree_weaken {s t a} (h : Usable tree s t a .write) : Usable tree s t a .read :=
  tree_usable.mpr fun u hu => own_read.mpr (by
    rcases own_write.mp (tree_usable.mp h u hu) with h | h <;> rw [h] <;> simp)

theorem tree_laws : Laws tree where
  range := tree_range
  weaken := tree_weaken
  validA _ _ := trivial
  validR _ _ := trivial
  knownN := tree_known_new
  knownA := fun h hu m hm => by rw [(tree_some h).1]; exact hu m hm
  knownR := fun h hu => tree_known_mono hu h
  keep := fun _ hk hu h => tree_keep hk hu h
  newW := by
    rintro s t lo n k hk hkn h
    obtain ⟨s', t', h1, -, -, h4⟩ := tree_new (k := k) hkn (fun a h1 h2 => tree_weaken (h a h1 h2))
    exact ⟨s', t', h1, fun a h2 h3 => h4 (by rcases hk with rfl | rfl <;> simp) a (h a h2 h3)⟩
  newR := by
    rintro s t lo n k hk hkn h
    obtain ⟨s', t', h1, -, h3, -⟩ := tree_new (k := k) hkn h
    exact ⟨s', t', h1, fun a h4 h5 => h3 a (h a h4 h5)⟩
  reading := by
    intro s₀ s₁ k t lo n p s hk hkn hu h₀ h a h1 h2
    obtain ⟨s', t', h3, h4, h5, -⟩ := tree_new (k := k) hkn hu
    rw [h₀] at h3
    cases h3
    exact tree_reading h4 (h5 a (hu a h1 h2)) h
  never := fun _ hk h₀ h => tree_never hk h₀ h

theorem BorrowModel.laws (h : BorrowModel M) : Laws M := by
  cases h with
  | stacked => exact stacked_laws
  | tree => exact tree_laws

/-! ## Histories -/

theorem Uses.trans {s₀ s₁ s : S} {v p : T} {D₁ D} (h₁ : Uses M s₀ v s₁ D₁) (hp : p ∈ D₁) (h : Uses M s₁ p s D) :
    ∃ D', Uses M s₀ v s D' ∧ ∀ u ∈ D, u ∈ D' := by
  induction h with
  | start => exact ⟨D₁, h₁, fun u hu => by rw [List.mem_singleton.mp hu]; exact hp⟩
  | access h ht hs ih =>
    obtain ⟨D', h1, h2⟩ := ih
    exact ⟨D', .access h1 (h2 _ ht) hs, h2⟩
  | reborrow h ht hs ih =>
    obtain ⟨D', h1, h2⟩ := ih
    refine ⟨_, .reborrow h1 (h2 _ ht) hs, fun u hu => ?_⟩
    rcases List.mem_cons.mp hu with rfl | hu
    · exact List.mem_cons_self ..
    · exact List.mem_cons_of_mem _ (h2 u hu)

theorem Reading.trans {s₀ s₁ s : S} (h₁ : Reading M s₀ s₁) (h : Reading M s₁ s) : Reading M s₀ s := by
  induction h with
  | start => exact h₁
  | access _ hs ih => exact .access ih hs
  | reborrow _ hk hs ih => exact .reborrow ih hk hs

theorem Anything.trans {s₀ s₁ s : S} {v p : T} {D₁ D} (h₁ : Anything M s₀ v s₁ D₁) (hp : p ∈ D₁) (h : Anything M s₁ p s D) :
    ∃ D', Anything M s₀ v s D' ∧ ∀ u ∈ D, u ∈ D' := by
  induction h with
  | start => exact ⟨D₁, h₁, fun u hu => by rw [List.mem_singleton.mp hu]; exact hp⟩
  | access h hs ih =>
    obtain ⟨D', h1, h2⟩ := ih
    exact ⟨D', .access h1 hs, h2⟩
  | other h hs hn ih =>
    obtain ⟨D', h1, h2⟩ := ih
    rename_i t _ _ _ _ _
    by_cases ht : t ∈ D'
    · exact ⟨_, .derived h1 hs ht, fun u hu => List.mem_cons_of_mem _ (h2 u hu)⟩
    · exact ⟨_, .other h1 hs ht, h2⟩
  | derived h hs hd ih =>
    obtain ⟨D', h1, h2⟩ := ih
    refine ⟨_, .derived h1 hs (h2 _ hd), fun u hu => ?_⟩
    rcases List.mem_cons.mp hu with rfl | hu
    · exact List.mem_cons_self ..
    · exact List.mem_cons_of_mem _ (h2 u hu)

variable {w : Nat}

/-- A pointer `p` that can be written, made in a history that used nothing but `v`. -/
structure Owns (M : Machine S T) (s₀ : S) (v : Pointer w T) (size : Nat) (s : S) (p : Pointer w T) : Prop where
  addr : p.addr = v.addr
  valid : M.Valid s
  known : M.Known s p.tag
  usable : UsableAll M s p.tag v.addr.toNat size .write
  uses : ∃ D, p.tag ∈ D ∧ Uses M s₀ v.tag s D

theorem Owns.start {s : S} {v : Pointer w T} {size : Nat} (hv : M.Valid s) (hk : M.Known s v.tag)
    (hu : UsableAll M s v.tag v.addr.toNat size .write) : Owns M s v size s v :=
  ⟨rfl, hv, hk, hu, [v.tag], by simp, .start⟩

theorem Owns.borrow (L : Laws M) {s₀ s : S} {v p : Pointer w T} {size : Nat} (h : Owns M s₀ v size s p) {k : Kind}
    (hk : k = .unique ∨ k = .rawMut) : ∃ s' q, borrow M k size s p = some (s', q) ∧ Owns M s₀ v size s' q := by
  obtain ⟨s', t', h1, h2⟩ := L.newW k hk h.known h.usable
  obtain ⟨D, hD, hU⟩ := h.uses
  rw [← h.addr] at h1
  refine ⟨s', ⟨p.addr, t'⟩, by simp [Verif.Borrow.borrow, h1], h.addr, L.validR h1 h.valid, L.knownN h.known h1, h2, _, ?_,
    .reborrow hU hD h1⟩
  exact List.mem_cons_self ..

theorem Owns.borrow2 (L : Laws M) {s₀ s : S} {v p : Pointer w T} {size : Nat} (h : Owns M s₀ v size s p) {k l : Kind}
    (hk : k = .unique ∨ k = .rawMut) (hl : l = .unique ∨ l = .rawMut) :
    ∃ s' q, (do let (s, v) ← Verif.Borrow.borrow M k size s p; Verif.Borrow.borrow M l size s v) = some (s', q) ∧
      Owns M s₀ v size s' q := by
  obtain ⟨s1, p1, h1, h2⟩ := h.borrow L hk
  obtain ⟨s2, p2, h3, h4⟩ := h2.borrow L hl
  exact ⟨s2, p2, by simp [h1, h3], h4⟩

theorem uses_valid (L : Laws M) {s₀ s : S} {p : T} {D} (hv : M.Valid s₀) (h : Uses M s₀ p s D) : M.Valid s := by
  induction h with
  | start => exact hv
  | access _ _ hs ih => exact L.validA hs ih
  | reborrow _ _ hs ih => exact L.validR hs ih

theorem uses_known (L : Laws M) {s₀ s : S} {p u : T} {D} (hk : M.Known s₀ u) (h : Uses M s₀ p s D) : M.Known s u := by
  induction h with
  | start => exact hk
  | access _ _ hs ih => exact L.knownA hs ih
  | reborrow _ _ hs ih => exact L.knownR hs ih

theorem uses_base {s₀ s : S} {p : T} {D} (h : Uses M s₀ p s D) : p ∈ D := by
  induction h with
  | start => simp
  | access _ _ _ ih => exact ih
  | reborrow _ _ _ ih => exact List.mem_cons_of_mem _ ih

theorem reading_known (L : Laws M) {s₀ s : S} {u : T} (hk : M.Known s₀ u) (h : Reading M s₀ s) : M.Known s u := by
  induction h with
  | start => exact hk
  | access _ hs ih => exact L.knownA hs ih
  | reborrow _ _ hs ih => exact L.knownR hs ih

theorem Reading.anything {s₀ s : S} (p : T) (h : Reading M s₀ s) : ∃ D, Anything M s₀ p s D ∧ p ∈ D := by
  induction h with
  | start => exact ⟨_, .start, by simp⟩
  | access _ hs ih =>
    obtain ⟨D, h1, h2⟩ := ih
    exact ⟨D, .access h1 hs, h2⟩
  | reborrow _ _ hs ih =>
    obtain ⟨D, h1, h2⟩ := ih
    rename_i t _ _ _ _ _ _ _
    by_cases ht : t ∈ D
    · exact ⟨_, .derived h1 hs ht, List.mem_cons_of_mem _ h2⟩
    · exact ⟨_, .other h1 hs ht, h2⟩

theorem reading_valid (L : Laws M) {s₀ s : S} (hv : M.Valid s₀) (h : Reading M s₀ s) : M.Valid s := by
  induction h with
  | start => exact hv
  | access _ hs ih => exact L.validA hs ih
  | reborrow _ _ hs ih => exact L.validR hs ih

/-- A pointer `p` that can be read, made by nothing but borrowing. `from_` is the shared reference it came from. -/
structure Sees (M : Machine S T) (s₀ : S) (v : Pointer w T) (size : Nat) (s : S) (p : Pointer w T) : Prop where
  addr : p.addr = v.addr
  valid : M.Valid s
  known : M.Known s p.tag
  usable : ∀ s', Reading M s s' → UsableAll M s' p.tag v.addr.toNat size .read
  history : Reading M s₀ s
  never : ∀ s' D, Anything M s p.tag s' D → ∀ u ∈ D, ∀ a, ¬ Usable M s' u a .write

theorem Sees.start (L : Laws M) {s : S} {v : Pointer w T} {size : Nat} (hv : M.Valid s) (hk : M.Known s v.tag)
    (hu : UsableAll M s v.tag v.addr.toNat size .read) : ∃ s' q, borrow M .shared size s v = some (s', q) ∧ Sees M s v size s' q := by
  obtain ⟨s', t', h1, h2⟩ := L.newR .shared (.inl rfl) hk hu
  refine ⟨s', ⟨v.addr, t'⟩, by simp [borrow, h1], rfl, L.validR h1 hv, L.knownN hk h1, fun s2 h => ?_,
    .reborrow .start (.inl rfl) h1, fun s2 D h => L.never hv hk h1 h⟩
  exact L.reading (.inl rfl) hk hu h1 h

theorem Sees.borrow (L : Laws M) {s₀ s : S} {v p : Pointer w T} {size : Nat} (h : Sees M s₀ v size s p) {k : Kind}
    (hk : k = .shared ∨ k = .rawConst) : ∃ s' q, borrow M k size s p = some (s', q) ∧ Sees M s₀ v size s' q := by
  have hu := h.usable s .start
  obtain ⟨s', t', h1, h2⟩ := L.newR k hk h.known hu
  have h1' := h1
  rw [← h.addr] at h1'
  refine ⟨s', ⟨p.addr, t'⟩, by simp [Verif.Borrow.borrow, h1'], h.addr, L.validR h1 h.valid, L.knownN h.known h1,
    fun s2 h3 => L.reading hk h.known hu h1 h3, .reborrow h.history hk h1, fun s2 D h3 u hD a => ?_⟩
  have h4 : Anything M s p.tag s' [t', p.tag] := .derived .start h1 (by simp)
  obtain ⟨D', h5, h6⟩ := h4.trans (p := t') (by simp) h3
  exact h.never s2 D' h5 u (h6 u hD) a

theorem Sees.borrow2 (L : Laws M) {s₀ s : S} {v p : Pointer w T} {size : Nat} (h : Sees M s₀ v size s p) {k l : Kind}
    (hk : k = .shared ∨ k = .rawConst) (hl : l = .shared ∨ l = .rawConst) :
    ∃ s' q, (do let (s, v) ← Verif.Borrow.borrow M k size s p; Verif.Borrow.borrow M l size s v) = some (s', q) ∧
      Sees M s₀ v size s' q := by
  obtain ⟨s1, p1, h1, h2⟩ := h.borrow L hk
  obtain ⟨s2, p2, h3, h4⟩ := h2.borrow L hl
  exact ⟨s2, p2, by simp [h1, h3], h4⟩

theorem Sees.later (L : Laws M) {s₀ s s' : S} {v p : Pointer w T} {size : Nat} (h : Sees M s₀ v size s p) (hr : Reading M s s') :
    Sees M s₀ v size s' p where
  addr := h.addr
  valid := reading_valid L h.valid hr
  known := reading_known L h.known hr
  usable s2 h2 := h.usable s2 (hr.trans h2)
  history := h.history.trans hr
  never s2 D h2 u hu a := by
    obtain ⟨D1, h3, h4⟩ := hr.anything p.tag
    obtain ⟨D2, h5, h6⟩ := h3.trans h4 h2
    exact h.never s2 D2 h5 u (h6 u hu) a

theorem Owns.later (L : Laws M) {s₀ s s' : S} {v p : Pointer w T} {size : Nat} {D} (h : Owns M s₀ v size s p)
    (h' : Uses M s p.tag s' D) : Owns M s₀ v size s' p where
  addr := h.addr
  valid := uses_valid L h.valid h'
  known := uses_known L h.known h'
  usable a h1 h2 := L.keep h.valid h.known (h.usable a h1 h2) h'
  uses := by
    obtain ⟨D1, hD, hU⟩ := h.uses
    obtain ⟨D2, h3, h4⟩ := hU.trans hD h'
    exact ⟨D2, h4 _ (uses_base h'), h3⟩

theorem Owns.origin (L : Laws M) {s₀ s : S} {v p : Pointer w T} {size : Nat} (h : Owns M s₀ v size s p)
    (hv : M.Valid s₀) (hk : M.Known s₀ v.tag) {a : Nat} (ha : Usable M s₀ v.tag a .write) : Usable M s v.tag a .write := by
  obtain ⟨D, -, hU⟩ := h.uses
  exact L.keep hv hk ha hU

theorem usable_read (L : Laws M) {s : S} {t : T} {lo n : Nat} (h : UsableAll M s t lo n .write) : UsableAll M s t lo n .read :=
  fun a h1 h2 => L.weaken (h a h1 h2)

end Verif.Borrow
