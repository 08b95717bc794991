import Verif.Args.SpecTree
import Verif.Args.LemmasOrder
/-! # Lemmas: trees of commands -/
namespace Verif.Args

theorem cmpPath_append (p a b : Path) : cmpPath (p ++ a) (p ++ b) = cmpPath a b := by
  induction p with
  | nil => rfl
  | cons x p ih =>
    rw [List.cons_append, List.cons_append, cmpPath_cons, Std.ReflCmp.compare_self (cmp := cmpStr), ih]
    rfl

mutual
theorem CmdTree.under (at_ : Path) : ∀ (t : CmdTree) (c : Command), c ∈ t.preorder at_ → at_ <+: c.path
  | .node cmd kids, c, h => by
    rw [CmdTree.preorder, List.mem_append] at h
    rcases h with h | h
    · cases cmd with
      | none => cases h
      | some x =>
        have := List.mem_singleton.mp h
        rw [this]; exact List.prefix_refl _
    · obtain ⟨n, _, hn⟩ := CmdForest.under at_ kids c h
      exact (List.prefix_append _ _).trans hn
theorem CmdForest.under (at_ : Path) : ∀ (f : CmdForest) (c : Command), c ∈ f.preorder at_ →
    ∃ n ∈ f.names, at_ ++ [n] <+: c.path
  | .nil, c, h => by cases h
  | .cons n t r, c, h => by
    rw [CmdForest.preorder, List.mem_append] at h
    rcases h with h | h
    · exact ⟨n, List.mem_cons_self, CmdTree.under (at_ ++ [n]) t c h⟩
    · obtain ⟨m, hm, hp⟩ := CmdForest.under at_ r c h
      exact ⟨m, List.mem_cons_of_mem _ hm, hp⟩
end

theorem lt_of_names {at_ p q : Path} {n m : Bytes} (h : cmpStr n m = .lt) (hp : at_ ++ [n] <+: p) (hq : at_ ++ [m] <+: q) :
    cmpPath p q = .lt := by
  obtain ⟨x, rfl⟩ := hp
  obtain ⟨y, rfl⟩ := hq
  rw [List.append_assoc, List.append_assoc, cmpPath_append, List.singleton_append, List.singleton_append, cmpPath_cons, h]
  rfl

theorem lt_of_longer {at_ q : Path} {m : Bytes} (hq : at_ ++ [m] <+: q) : cmpPath at_ q = .lt := by
  obtain ⟨y, rfl⟩ := hq
  have := cmpPath_append at_ [] ([m] ++ y)
  rw [List.append_nil] at this
  rw [List.append_assoc, this]
  exact cmpPath_nil_cons ..

mutual
/-- The pre-order of an ordered tree is the lexicographic order of the paths. -/
theorem CmdTree.sorted (at_ : Path) : ∀ t : CmdTree, t.Ordered →
    (t.preorder at_).Pairwise fun a b => cmpPath a.path b.path = .lt
  | .node cmd kids, h => by
    rw [CmdTree.Ordered] at h
    rw [CmdTree.preorder, List.pairwise_append]
    refine ⟨?_, CmdForest.sorted at_ kids h.1 h.2, ?_⟩
    · cases cmd with
      | none => exact List.Pairwise.nil
      | some x => exact List.pairwise_singleton ..
    · intro a ha b hb
      cases cmd with
      | none => cases ha
      | some x =>
        rw [List.mem_singleton.mp ha]
        obtain ⟨n, _, hn⟩ := CmdForest.under at_ kids b hb
        exact lt_of_longer hn
theorem CmdForest.sorted (at_ : Path) : ∀ f : CmdForest, f.names.Pairwise (fun a b => cmpStr a b = .lt) → f.Ordered →
    (f.preorder at_).Pairwise fun a b => cmpPath a.path b.path = .lt
  | .nil, _, _ => List.Pairwise.nil
  | .cons n t r, hn, h => by
    rw [CmdForest.names, List.pairwise_cons] at hn
    rw [CmdForest.Ordered] at h
    rw [CmdForest.preorder, List.pairwise_append]
    refine ⟨CmdTree.sorted _ t h.1, CmdForest.sorted at_ r hn.2 h.2, ?_⟩
    intro a ha b hb
    obtain ⟨m, hm, hb⟩ := CmdForest.under at_ r b hb
    exact lt_of_names (hn.1 m hm) (CmdTree.under _ t a ha) hb
end

/-- Among lists with distinct keys, the sorted order is unique. -/
theorem sorted_unique (l₁ l₂ : List Command) (hp : l₁.Perm l₂) (h1 : l₁.Pairwise fun a b => cmpPath a.path b.path ≠ .gt)
    (h2 : l₂.Pairwise fun a b => cmpPath a.path b.path = .lt) : l₁ = l₂ := by
  have hinj : ∀ a ∈ l₂, ∀ b ∈ l₂, a.path = b.path → a = b := by
    intro a ha b hb he
    obtain ⟨i, hi, rfl⟩ := List.getElem_of_mem ha
    obtain ⟨j, hj, rfl⟩ := List.getElem_of_mem hb
    rcases Nat.lt_trichotomy i j with h | h | h
    · have := List.pairwise_iff_getElem.mp h2 i j hi hj h
      rw [he, Std.ReflCmp.compare_self (cmp := cmpPath)] at this; cases this
    · subst h; rfl
    · have := List.pairwise_iff_getElem.mp h2 j i hj hi h
      rw [he, Std.ReflCmp.compare_self (cmp := cmpPath)] at this; cases this
  refine List.Perm.eq_of_pairwise (le := fun a b => cmpPath a.path b.path ≠ .gt) ?_ h1
    (h2.imp fun h => by rw [h]; simp) hp
  intro a b ha hb hab hba
  refine hinj a (hp.mem_iff.mp ha) b hb ?_
  cases hc : cmpPath a.path b.path with
  | lt => exact absurd (Std.OrientedCmp.gt_of_lt hc) hba
  | eq => exact Std.LawfulEqCmp.eq_of_compare hc
  | gt => exact absurd hc hab

/-! ## Every set of commands has a tree -/

/-- Change the sub-tree with the given name, which may be missing. -/
def CmdForest.upsert (n : Bytes) (f : CmdTree → CmdTree) : CmdForest → CmdForest
  | .nil => .cons n (f (.node none .nil)) .nil
  | .cons m t r =>
    match cmpStr n m with
    | .lt => .cons n (f (.node none .nil)) (.cons m t r)
    | .eq => .cons m (f t) r
    | .gt => .cons m t (r.upsert n f)

/-- Register a command. -/
def CmdTree.insert (x : List Flag × Option Bytes) : Path → CmdTree → CmdTree
  | [], .node _ kids => .node (some x) kids
  | n :: p, .node c kids => .node c (kids.upsert n (CmdTree.insert x p))

theorem upsert_names (n : Bytes) (f : CmdTree → CmdTree) : ∀ (kids : CmdForest) (m : Bytes), m ∈ (kids.upsert n f).names →
    m = n ∨ m ∈ kids.names
  | .nil, m, h => by
    have := List.mem_singleton.mp h
    exact .inl this
  | .cons k t r, m, h => by
    rw [CmdForest.upsert] at h
    cases hc : cmpStr n k with
    | lt =>
      rw [hc] at h
      rcases List.mem_cons.mp h with h | h
      · exact .inl h
      · exact .inr h
    | eq => rw [hc] at h; exact .inr h
    | gt =>
      rw [hc] at h
      rcases List.mem_cons.mp h with h | h
      · exact .inr (by rw [h]; exact List.mem_cons_self)
      · rcases upsert_names n f r m h with h | h
        · exact .inl h
        · exact .inr (List.mem_cons_of_mem _ h)

theorem upsert_ordered (n : Bytes) (f : CmdTree → CmdTree) (hf : ∀ t, t.Ordered → (f t).Ordered) : ∀ kids : CmdForest,
    kids.names.Pairwise (fun a b => cmpStr a b = .lt) → kids.Ordered →
    (kids.upsert n f).names.Pairwise (fun a b => cmpStr a b = .lt) ∧ (kids.upsert n f).Ordered
  | .nil, _, _ => by
    refine ⟨List.pairwise_singleton .., ?_⟩
    exact ⟨hf _ ⟨List.Pairwise.nil, trivial⟩, trivial⟩
  | .cons k t r, hn, ho => by
    have hn' := hn
    have ho' := ho
    rw [CmdForest.names, List.pairwise_cons] at hn'
    rw [CmdForest.Ordered] at ho'
    rw [CmdForest.upsert]
    cases hc : cmpStr n k with
    | lt =>
      refine ⟨?_, hf _ ⟨List.Pairwise.nil, trivial⟩, ho⟩
      rw [CmdForest.names, List.pairwise_cons]
      refine ⟨fun m hm => ?_, hn⟩
      rcases List.mem_cons.mp hm with rfl | hm
      · exact hc
      · exact Std.TransCmp.lt_trans hc (hn'.1 m hm)
    | eq => exact ⟨hn, hf _ ho'.1, ho'.2⟩
    | gt =>
      obtain ⟨h1, h2⟩ := upsert_ordered n f hf r hn'.2 ho'.2
      refine ⟨?_, ho'.1, h2⟩
      rw [CmdForest.names, List.pairwise_cons]
      refine ⟨fun m hm => ?_, h1⟩
      rcases upsert_names n f r m hm with rfl | hm
      · exact Std.OrientedCmp.lt_of_gt hc
      · exact hn'.1 m hm

theorem insert_ordered (x : List Flag × Option Bytes) : ∀ (p : Path) (t : CmdTree), t.Ordered → (t.insert x p).Ordered
  | [], .node _ _, h => h
  | n :: p, .node _ kids, h => by
    rw [CmdTree.Ordered] at h
    exact upsert_ordered n _ (insert_ordered x p) kids h.1 h.2

theorem upsert_preorder (at_ : Path) (n : Bytes) (f : CmdTree → CmdTree) (c : Command)
    (hf : ∀ t : CmdTree, (∀ d ∈ t.preorder (at_ ++ [n]), d.path ≠ c.path) →
      ((f t).preorder (at_ ++ [n])).Perm (c :: t.preorder (at_ ++ [n]))) : ∀ kids : CmdForest,
    (∀ d ∈ kids.preorder at_, d.path ≠ c.path) → ((kids.upsert n f).preorder at_).Perm (c :: kids.preorder at_)
  | .nil, _ => by
    have h := hf (.node none .nil) (fun d hd => by cases hd)
    simpa [CmdForest.upsert, CmdForest.preorder, CmdTree.preorder] using h
  | .cons k t r, hne => by
    rw [CmdForest.upsert]
    cases hc : cmpStr n k with
    | lt =>
      have h := hf (.node none .nil) (fun d hd => by cases hd)
      have := h.append_right ((CmdForest.cons k t r).preorder at_)
      simpa [CmdForest.preorder, CmdTree.preorder] using this
    | eq =>
      have e : n = k := Std.LawfulEqCmp.eq_of_compare hc
      subst e
      have h := hf t fun d hd => hne d (by rw [CmdForest.preorder]; exact List.mem_append_left _ hd)
      have := h.append_right (r.preorder at_)
      simpa [CmdForest.preorder] using this
    | gt =>
      have h := upsert_preorder at_ n f c hf r fun d hd => hne d (by rw [CmdForest.preorder]; exact List.mem_append_right _ hd)
      have := (h.append_left (t.preorder (at_ ++ [k]))).trans List.perm_middle
      simpa [CmdForest.preorder] using this

theorem insert_preorder (x : List Flag × Option Bytes) : ∀ (p at_ : Path) (t : CmdTree),
    (∀ d ∈ t.preorder at_, d.path ≠ at_ ++ p) →
    ((t.insert x p).preorder at_).Perm (⟨at_ ++ p, x.1, x.2⟩ :: t.preorder at_)
  | [], at_, .node c kids, hne => by
    cases c with
    | none => simp [CmdTree.insert, CmdTree.preorder]
    | some y =>
      exfalso
      exact hne ⟨at_, y.1, y.2⟩ (by rw [CmdTree.preorder]; exact List.mem_append_left _ (List.mem_singleton.mpr rfl)) (by simp)
  | n :: p, at_, .node c kids, hne => by
    rw [CmdTree.insert, CmdTree.preorder, CmdTree.preorder]
    have h := upsert_preorder at_ n (CmdTree.insert x p) ⟨at_ ++ n :: p, x.1, x.2⟩ (fun t ht => by
        have := insert_preorder x p (at_ ++ [n]) t (fun d hd => by
          have := ht d hd
          simpa using this)
        simpa using this) kids
      fun d hd => hne d (by rw [CmdTree.preorder]; exact List.mem_append_right _ hd)
    exact (h.append_left _).trans List.perm_middle

end Verif.Args
