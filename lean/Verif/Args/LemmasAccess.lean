import Verif.Args.SpecAccess
import Verif.Args.Props
import Verif.Args.LemmasLookup
/-! # Lemmas: reading a schema -/
namespace Verif.Args

variable {α σ : Type}

/-! ## Places in reports -/

theorem lookup_place {sc : Schema} {find : Path → Bytes → Option (Nat × Nat)} (hf : FlagLookup sc.cmds find) {words : Path}
    {name : Bytes} {c f : Nat} (h : find words name = some (c, f)) :
    ∃ cmd fl, sc.cmds[c]? = some cmd ∧ flag_at sc (c, f) = some fl ∧ fl.name = name ∧ modeOf sc.cmds (c, f) = fl.mode := by
  cases ha : anchor sc.cmds words with
  | none => rw [hf.2 words name ha] at h; cases h
  | some i =>
    obtain ⟨hi, _, _⟩ := List.findIdx?_eq_some_iff_getElem.mp ha
    have q := hf.1 words name i _ ha (List.getElem?_eq_getElem hi)
    rw [h] at q
    obtain ⟨cmd, fl, h1, _, _, h2, h3, _⟩ := q
    refine ⟨cmd, fl, h1, ?_, h3, ?_⟩
    · show (sc.cmds[c]?).bind (fun c => c.flags[f]?) = _
      rw [h1]; exact h2
    · unfold modeOf
      simp [h1, h2]

theorem resolve_place {sc : Schema} {find : Path → Bytes → Option (Nat × Nat)} (hf : FlagLookup sc.cmds find) {words : Path}
    {name : Bytes} {c f : Nat} {neg : Bool} (h : resolve (find words) name = some ((c, f), neg)) :
    ∃ cmd fl, sc.cmds[c]? = some cmd ∧ flag_at sc (c, f) = some fl ∧ name = (if neg then noDash ++ fl.name else fl.name)
      ∧ modeOf sc.cmds (c, f) = fl.mode := by
  unfold resolve at h
  cases hn : find words name with
  | some v =>
    rw [hn] at h; cases h
    obtain ⟨cmd, fl, h1, h2, h3, h4⟩ := lookup_place hf hn
    exact ⟨cmd, fl, h1, h2, h3.symm, h4⟩
  | none =>
    rw [hn] at h
    simp only [] at h
    split at h
    · rename_i bare
      cases hb : find words bare with
      | none => rw [hb] at h; cases h
      | some v =>
        rw [hb] at h; cases h
        obtain ⟨cmd, fl, h1, h2, h3, h4⟩ := lookup_place hf hb
        exact ⟨cmd, fl, h1, h2, by rw [if_pos rfl, h3]; rfl, h4⟩
    · cases h

theorem selected_place {S : List Command} {words : Path} {i : Nat} (h : selected S words = some i) : ∃ c, S[i]? = some c := by
  obtain ⟨hi, _, _⟩ := List.findIdx?_eq_some_iff_getElem.mp h
  exact ⟨_, List.getElem?_eq_getElem hi⟩

theorem nearest_place {S : List Command} {words : Path} {c : Nat} (hc : ∃ cmd, S[c]? = some cmd) :
    ∃ cmd, S[(nearest S words).getD c]? = some cmd := by
  cases h : nearest S words with
  | none => exact hc
  | some i =>
    unfold nearest at h
    cases hs : selected S words with
    | some j => rw [hs] at h; cases h; exact selected_place hs
    | none =>
      rw [hs] at h
      obtain ⟨_, ⟨cmd, h1, _⟩, _⟩ := lastBelow_some.mp h
      exact ⟨cmd, h1⟩

theorem action_eq {m : FlagMode} {neg : Bool} {v : Option Bytes} :
    (∀ x, action m neg v = .parse x → m = .parse ∧ neg = false) ∧ (action m neg v = .parseNext → m = .parse ∧ neg = false)
      ∧ (∀ x, action m neg v = .toggle x → m = .toggle ∧ x = !neg) ∧ (action m neg v = .set → m = .set ∧ neg = false) := by
  cases m <;> cases neg <;> cases v <;> simp [action]

theorem items_placed {sc : Schema} {find : Path → Bytes → Option (Nat × Nat)} (hf : FlagLookup sc.cmds find) (words : Path)
    (cmds flags : Bool) (args : List Bytes) :
    ∀ used e, .report used e ∈ items sc.cmds find words cmds flags args → Placed sc e := by
  have hpar : ∀ w a used e, Item.report used e = paramItem sc.cmds w a → Placed sc e := by
    intro w a used e h
    unfold paramItem at h
    cases h
    split
    · exact selected_place ‹_›
    · trivial
  have hset : ∀ {w : Path} {name c f neg value}, resolve (find w) name = some ((c, f), neg) →
      action (modeOf sc.cmds (c, f)) neg value = .set → Placed sc (.set c f ((nearest sc.cmds w).getD c) name) := by
    intro w name c f neg value hr ha
    obtain ⟨cmd, fl, h1, h2, h3, h4⟩ := resolve_place hf hr
    obtain ⟨hm, rfl⟩ := action_eq.2.2.2 ha
    exact ⟨⟨fl, h2, h4 ▸ hm, h3.symm⟩, nearest_place ⟨cmd, h1⟩⟩
  have htog : ∀ {w : Path} {name c f neg value x}, resolve (find w) name = some ((c, f), neg) →
      action (modeOf sc.cmds (c, f)) neg value = .toggle x → Placed sc (.toggle c f ((nearest sc.cmds w).getD c) name x) := by
    intro w name c f neg value x hr ha
    obtain ⟨cmd, fl, h1, h2, h3, h4⟩ := resolve_place hf hr
    obtain ⟨hm, rfl⟩ := action_eq.2.2.1 _ ha
    refine ⟨⟨fl, h2, h4 ▸ hm, ?_⟩, nearest_place ⟨cmd, h1⟩⟩
    rw [h3]; cases neg <;> rfl
  have hparse : ∀ {w : Path} {name c f neg value} (x : Bytes), resolve (find w) name = some ((c, f), neg) →
      (action (modeOf sc.cmds (c, f)) neg value = .parse x ∨ action (modeOf sc.cmds (c, f)) neg value = .parseNext) →
      Placed sc (.parse c f ((nearest sc.cmds w).getD c) name x) := by
    intro w name c f neg value x hr ha
    obtain ⟨cmd, fl, h1, h2, h3, h4⟩ := resolve_place hf hr
    have : modeOf sc.cmds (c, f) = .parse ∧ neg = false := ha.elim (action_eq.1 _) action_eq.2.1
    obtain ⟨hm, rfl⟩ := this
    exact ⟨⟨fl, h2, h4 ▸ hm, h3.symm⟩, nearest_place ⟨cmd, h1⟩⟩
  fun_induction items sc.cmds find words cmds flags args <;> intro used e hm
  case case1 => cases hm
  case case6 ih =>
    rcases List.mem_cons.mp hm with h | h
    · exact hpar _ _ _ _ h
    · exact ih used e h
  all_goals
    rcases List.mem_cons.mp hm with h | h
    · first
        | cases h; done
        | cases h; trivial
        | cases h; exact hset ‹_› ‹_›
        | cases h; exact htog ‹_› ‹_›
        | cases h; exact hparse _ ‹_› (.inl ‹_›)
        | cases h; exact hparse _ ‹_› (.inr ‹_›)
    · first
        | cases h; done
        | rename_i ih; exact ih used e h

/-! ## What was registered -/

/-- A permutation of the images is the images of a permutation. -/
theorem perm_unmap {β : Type} (g : α → β) {ys zs : List β} (hz : ys.Perm zs) :
    ∀ xs, zs = xs.map g → ∃ l : List α, l.Perm xs ∧ ys = l.map g := by
  induction hz with
  | nil => intro xs hx; exact ⟨xs, .refl _, hx⟩
  | cons a _ ih =>
    intro xs hx
    cases xs with
    | nil => cases hx
    | cons x xs =>
      rw [List.map_cons, List.cons.injEq] at hx
      obtain ⟨l, h1, h2⟩ := ih xs hx.2
      exact ⟨x :: l, h1.cons x, by rw [List.map_cons, h2, hx.1]⟩
  | swap a b l =>
    intro xs hx
    match xs, hx with
    | x :: y :: xs, hx =>
      rw [List.map_cons, List.map_cons, List.cons.injEq, List.cons.injEq] at hx
      exact ⟨y :: x :: xs, .swap .., by rw [List.map_cons, List.map_cons, hx.1, hx.2.1, hx.2.2]⟩
  | trans _ _ ih1 ih2 =>
    intro xs hx
    obtain ⟨l, h1, h2⟩ := ih2 xs hx
    obtain ⟨l', h3, h4⟩ := ih1 l h2
    exact ⟨l', h3.trans h1, h4⟩

/-! ## Iterators -/

/-- An iterator is at a position. -/
def At (sc : Schema) (it : SetIter Command) (p : Nat) : Prop := it.rest = sc.cmds.drop p

theorem At.next {sc : Schema} {it : SetIter Command} {p : Nat} (h : At sc it p) :
    it.next.1 = (if p < sc.cmds.length then command_at sc p else none) ∧ At sc it.next.2 (p + 1) := by
  unfold At SetIter.next command_at at *
  rw [h]
  by_cases hp : p < sc.cmds.length
  · rw [List.drop_eq_getElem_cons hp, if_pos hp, List.getElem?_eq_getElem hp]
    exact ⟨rfl, rfl⟩
  · rw [if_neg hp, List.drop_eq_nil_of_le (Nat.le_of_not_lt hp), List.drop_eq_nil_of_le (by omega)]
    exact ⟨rfl, rfl⟩

/-- The iterators are at the positions. -/
def AllAt (sc : Schema) (its : List (SetIter Command)) (ps : List Nat) : Prop :=
  its.length = ps.length ∧ ∀ (i : Nat) it p, its[i]? = some it → ps[i]? = some p → At sc it p

theorem AllAt.append {sc : Schema} {its : List (SetIter Command)} {ps : List Nat} (h : AllAt sc its ps) {it : SetIter Command}
    {p : Nat} (hp : At sc it p) : AllAt sc (its ++ [it]) (ps ++ [p]) := by
  refine ⟨by simp [h.1], fun i x q hx hq => ?_⟩
  rcases Nat.lt_trichotomy i its.length with hl | hl | hl
  · rw [List.getElem?_append_left hl] at hx
    rw [List.getElem?_append_left (h.1 ▸ hl)] at hq
    exact h.2 i x q hx hq
  · subst hl
    rw [List.getElem?_concat_length] at hx
    rw [h.1, List.getElem?_concat_length] at hq
    cases hx; cases hq; exact hp
  · rw [List.getElem?_eq_none (by simp; omega)] at hx; cases hx

theorem AllAt.set {sc : Schema} {its : List (SetIter Command)} {ps : List Nat} (h : AllAt sc its ps) (i : Nat)
    {it : SetIter Command} {p : Nat} (hp : At sc it p) : AllAt sc (its.set i it) (ps.set i p) := by
  refine ⟨by simp [h.1], fun j x q hx hq => ?_⟩
  by_cases e : i = j
  · subst e
    rw [List.getElem?_set_self'] at hx hq
    obtain ⟨_, _, rfl⟩ := Option.map_eq_some_iff.mp hx
    obtain ⟨_, _, rfl⟩ := Option.map_eq_some_iff.mp hq
    exact hp
  · rw [List.getElem?_set_ne e] at hx hq
    exact h.2 j x q hx hq

theorem AllAt.get {sc : Schema} {its : List (SetIter Command)} {ps : List Nat} (h : AllAt sc its ps) (i : Nat) :
    (its[i]? = none ∧ ps[i]? = none) ∨ ∃ it p, its[i]? = some it ∧ ps[i]? = some p ∧ At sc it p := by
  by_cases hl : i < its.length
  · have hl' : i < ps.length := h.1 ▸ hl
    exact .inr ⟨_, _, List.getElem?_eq_getElem hl, List.getElem?_eq_getElem hl',
      h.2 i _ _ (List.getElem?_eq_getElem hl) (List.getElem?_eq_getElem hl')⟩
  · exact .inl ⟨List.getElem?_eq_none (by omega), List.getElem?_eq_none (by have := h.1; omega)⟩

theorem set_self {α : Type} {l : List α} {i : Nat} {a : α} (h : l[i]? = some a) : l.set i a = l := by
  apply List.ext_getElem?
  intro j
  by_cases e : i = j
  · subst e; rw [List.getElem?_set_self', h]; rfl
  · rw [List.getElem?_set_ne e]

theorem iterRun_eq (sc : Schema) (ops : List IterOp) : ∀ (its : List (SetIter Command)) (ps : List Nat), AllAt sc its ps →
    iterRun sc its ops = posRun (command_at sc) sc.len ps ops := by
  induction ops with
  | nil => intros; rfl
  | cons op ops ih =>
    intro its ps h
    rw [iterRun, posRun]
    cases op with
    | iter =>
      simp only [iterStep, posStep]
      rw [ih _ _ (h.append (it := sc.iter) (p := 0) rfl)]
      rfl
    | iterFrom n =>
      by_cases hn : n ≤ sc.cmds.length
      · have h1 : iterStep sc its (.iterFrom n) = some (its ++ [⟨sc.cmds.drop n⟩], none) := by
          rw [iterStep, Schema.iter_from, if_pos hn]; rfl
        have h2 : posStep sc.len ps (.iterFrom n) = some (ps ++ [n], none) := by
          rw [posStep, if_neg (show ¬ sc.len < n from Nat.not_lt.mpr hn)]
        rw [h1, h2]
        simp only []
        rw [ih _ _ (h.append (it := ⟨sc.cmds.drop n⟩) (p := n) rfl)]
        rfl
      · have h1 : iterStep sc its (.iterFrom n) = none := by
          rw [iterStep, Schema.iter_from, if_neg hn]; rfl
        have h2 : posStep sc.len ps (.iterFrom n) = none := by
          rw [posStep, if_pos (show sc.len < n from Nat.lt_of_not_le hn)]
        rw [h1, h2]
    | clone i =>
      simp only [iterStep, posStep]
      rcases h.get i with ⟨h1, h2⟩ | ⟨it, p, h1, h2, h3⟩
      · rw [h1, h2]; rfl
      · rw [h1, h2]
        simp only [Option.map_some, SetIter.clone, set_self h1]
        rw [ih _ _ (h.append (it := ⟨it.rest⟩) (p := p) h3)]
        rfl
    | next i =>
      simp only [iterStep, posStep]
      rcases h.get i with ⟨h1, h2⟩ | ⟨it, p, h1, h2, h3⟩
      · rw [h1, h2]; rfl
      · rw [h1, h2]
        simp only [Option.map_some]
        rw [ih _ _ (h.set i h3.next.2), h3.next.1]
        rfl

/-! ## The search with any closure -/

theorem searchLoop_run (f : σ → α → Ordering × σ) (l : List α) (s : σ) (base size : Nat) (hs : 0 < size)
    (hl : base + size ≤ l.length) : ∃ i s', searchLoop f l s base size = some (i, s') ∧ i < l.length := by
  induction size using Nat.strongRecOn generalizing base s with
  | ind size ih =>
    rw [searchLoop]
    by_cases h : size ≤ 1
    · rw [if_pos h]
      exact ⟨base, s, rfl, by omega⟩
    · rw [if_neg h, List.getElem?_eq_getElem (by omega : base + size / 2 < l.length)]
      simp only []
      split
      · exact ih _ (by omega) _ _ (by omega) (by omega)
      · exact ih _ (by omega) _ _ (by omega) (by omega)

/-- A closure that counts its calls. -/
def counting (f : σ → α → Ordering × σ) : σ × Nat → α → Ordering × (σ × Nat) :=
  fun s a => ((f s.1 a).1, ((f s.1 a).2, s.2 + 1))

theorem searchLoop_counting (f : σ → α → Ordering × σ) (l : List α) (s : σ) (n base size : Nat) (hl : base + size ≤ l.length) :
    searchLoop (counting f) l (s, n) base size =
      (searchLoop f l s base size).map fun r => (r.1, (r.2, n + clog size)) := by
  induction size using Nat.strongRecOn generalizing base s n with
  | ind size ih =>
    rw [searchLoop, searchLoop]
    by_cases h : size ≤ 1
    · rw [if_pos h, if_pos h]
      simp [clog, h]
    · rw [if_neg h, if_neg h, List.getElem?_eq_getElem (by omega : base + size / 2 < l.length)]
      have hc := clog_step size h
      have e : n + clog size = n + 1 + clog (size - size / 2) := by omega
      rw [e]
      generalize l[base + size / 2]'(by omega) = a
      have hb : (if (f s a).1 = .gt then base else base + size / 2) + (size - size / 2) ≤ l.length := by
        split <;> omega
      exact ih (size - size / 2) (by omega) (f s a).2 (n + 1) _ hb

/-- A closure without state searches as before. -/
theorem searchLoop_pure (f : α → Ordering) (l : List α) (base size : Nat) :
    searchLoop (fun (_ : Unit) a => (f a, ())) l () base size = (bisect f l base size).map (·, ()) := by
  induction size using Nat.strongRecOn generalizing base with
  | ind size ih =>
    rw [searchLoop, bisect]
    by_cases h : size ≤ 1
    · rw [if_pos h, if_pos h]; rfl
    · rw [if_neg h, if_neg h]
      cases l[base + size / 2]? with
      | none => rfl
      | some a =>
        simp only []
        exact ih _ (by omega) _

theorem names_partitioned (fs : List Flag) (name : Bytes) (h : fs.Pairwise fun a b => cmpStr a.name b.name ≠ .gt) :
    Partitioned (fun fl : Flag => cmpStr fl.name name) fs := by
  refine h.imp fun {a b} hab => ⟨fun hb => ?_, fun ha => ?_⟩
  · have h1 : (cmpStr a.name b.name).isLE := by revert hab; cases cmpStr a.name b.name <;> simp
    exact Std.TransCmp.lt_of_isLE_of_lt h1 hb
  · have h1 : (cmpStr a.name b.name).isLE := by revert hab; cases cmpStr a.name b.name <;> simp
    have h2 : (cmpStr b.name a.name).isGE := by
      rw [Std.OrientedCmp.isGE_iff_isLE]; exact h1
    exact Std.TransCmp.gt_of_isGE_of_gt h2 ha

theorem paths_partitioned {S : List Command} (hs : Sorted S) (path : Path) :
    Partitioned (fun c : Command => cmpPath c.path path) S := by
  refine List.Pairwise.imp (fun {a b} hab => ⟨fun hb => ?_, fun ha => ?_⟩) hs
  · have h1 : (cmpPath a.path b.path).isLE := by revert hab; cases cmpPath a.path b.path <;> simp
    exact Std.TransCmp.lt_of_isLE_of_lt h1 hb
  · have h1 : (cmpPath a.path b.path).isLE := by revert hab; cases cmpPath a.path b.path <;> simp
    have h2 : (cmpPath b.path a.path).isGE := by
      rw [Std.OrientedCmp.isGE_iff_isLE]; exact h1
    exact Std.TransCmp.gt_of_isGE_of_gt h2 ha

end Verif.Args
