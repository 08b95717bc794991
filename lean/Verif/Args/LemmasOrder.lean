import Verif.Args.Spec
/-! # Lemmas: prefixes in lexicographically sorted lists of paths -/
namespace Verif.Args

instance : Std.TransCmp cmpStr := inferInstanceAs (Std.TransCmp (List.compareLex compare))
instance : Std.LawfulEqCmp cmpStr := inferInstanceAs (Std.LawfulEqCmp (List.compareLex compare))
instance : Std.TransCmp cmpPath := inferInstanceAs (Std.TransCmp (List.compareLex cmpStr))
instance : Std.LawfulEqCmp cmpPath := inferInstanceAs (Std.LawfulEqCmp (List.compareLex cmpStr))

theorem cmpPath_cons (a b : Bytes) (as bs : Path) :
    cmpPath (a :: as) (b :: bs) = (cmpStr a b).then (cmpPath as bs) := by
  simp only [cmpPath, List.compareLex_cons_cons]

theorem cmpPath_nil_nil : cmpPath [] [] = .eq := List.compareLex_nil_nil
theorem cmpPath_nil_cons (b : Bytes) (bs : Path) : cmpPath [] (b :: bs) = .lt := List.compareLex_nil_cons
theorem cmpPath_cons_nil (b : Bytes) (bs : Path) : cmpPath (b :: bs) [] = .gt := List.compareLex_cons_nil

/-- Position of a path relative to the paths that start with `pre`. -/
def prefixCmp (pre : Path) (p : Path) : Ordering := cmpPath (p.take pre.length) pre

theorem prefixCmp_eq_iff (pre p : Path) : prefixCmp pre p = .eq ↔ pre <+: p := by
  rw [prefixCmp, Std.LawfulEqCmp.compare_eq_iff_eq]
  constructor
  · intro h; rw [← h]; exact List.take_prefix _ _
  · intro h
    obtain ⟨t, rfl⟩ := h
    simp

theorem cmpPath_take (n : Nat) (a b : Path) (h : cmpPath a b ≠ .gt) : cmpPath (a.take n) (b.take n) ≠ .gt := by
  induction n generalizing a b with
  | zero => simp [cmpPath_nil_nil]
  | succ n ih =>
    match a, b with
    | [], [] => simp [cmpPath_nil_nil]
    | [], b :: bs => simp [cmpPath_nil_cons]
    | a :: as, [] => exact absurd (cmpPath_cons_nil a as) h
    | a :: as, b :: bs =>
      rw [List.take_succ_cons, List.take_succ_cons, cmpPath_cons]
      rw [cmpPath_cons] at h
      cases hab : cmpStr a b with
      | lt => simp
      | gt => rw [hab] at h; simp at h
      | eq => rw [hab] at h; simpa using ih as bs (by simpa using h)

theorem prefixCmp_mono (pre a b : Path) (h : cmpPath a b ≠ .gt) :
    (prefixCmp pre b = .lt → prefixCmp pre a = .lt) ∧ (prefixCmp pre a = .gt → prefixCmp pre b = .gt) := by
  have hab : (cmpPath (a.take pre.length) (b.take pre.length)).isLE := by
    have := cmpPath_take pre.length a b h
    revert this; cases cmpPath (a.take pre.length) (b.take pre.length) <;> simp
  constructor
  · intro hb; exact Std.TransCmp.lt_of_isLE_of_lt (cmp := cmpPath) hab hb
  · intro ha
    have : cmpPath pre (a.take pre.length) = .lt := Std.OrientedCmp.lt_of_gt (cmp := cmpPath) ha
    exact Std.OrientedCmp.gt_of_lt (cmp := cmpPath) (Std.TransCmp.lt_of_lt_of_isLE (cmp := cmpPath) this hab)

theorem compare_prefix_eq (e k : Path) (name : Bytes) : compare_prefix e k name = prefixCmp (k ++ [name]) e := by
  rw [prefixCmp, List.length_append, List.length_singleton]
  induction e generalizing k with
  | nil =>
    cases k with
    | nil => simp only [compare_prefix, List.take_nil, List.nil_append, cmpPath_nil_cons]; decide
    | cons p ps =>
      simp only [compare_prefix, List.take_nil, List.cons_append, cmpPath_nil_cons]
      rw [Nat.compare_eq_lt]; omega
  | cons e es ih =>
    cases k with
    | nil =>
      simp only [compare_prefix, List.length_nil, Nat.zero_add, List.take_succ_cons, List.take_zero,
        List.nil_append, cmpPath_cons, cmpPath_nil_nil]
      cases cmpStr e name <;> rfl
    | cons p ps =>
      rw [compare_prefix, List.length_cons, List.cons_append, List.take_succ_cons, cmpPath_cons]
      cases h : cmpStr e p
      · rfl
      · simpa using ih ps
      · rfl

theorem prefix_cmp_le (p q : Path) (h : p <+: q) : cmpPath p q ≠ .gt := by
  obtain ⟨t, rfl⟩ := h
  induction p with
  | nil => cases t <;> simp [cmpPath_nil_nil, cmpPath_nil_cons]
  | cons a p ih =>
    rw [List.cons_append, cmpPath_cons, Std.ReflCmp.compare_self (cmp := cmpStr)]
    simpa using ih

/-! ## Sorted command lists -/

def Sorted (S : List Command) : Prop := S.Pairwise fun a b => cmpPath a.path b.path ≠ .gt

theorem Sorted.le {S : List Command} (hs : Sorted S) {i j : Nat} {a b : Command} (hi : S[i]? = some a)
    (hj : S[j]? = some b) (h : i ≤ j) : cmpPath a.path b.path ≠ .gt := by
  rcases Nat.lt_or_eq_of_le h with h | h
  · obtain ⟨hi', rfl⟩ := List.getElem?_eq_some_iff.mp hi
    obtain ⟨hj', rfl⟩ := List.getElem?_eq_some_iff.mp hj
    exact List.pairwise_iff_getElem.mp hs i j hi' hj' h
  · subst h
    have e : a = b := Option.some.inj (hi.symm.trans hj)
    subst e
    rw [Std.ReflCmp.compare_self (cmp := cmpPath)]; simp

theorem Sorted.partitioned {S : List Command} (hs : Sorted S) (pre : Path) :
    Partitioned (fun c => prefixCmp pre c.path) S :=
  List.Pairwise.imp (fun h => prefixCmp_mono pre _ _ h) hs

/-- Paths with a common prefix are contiguous. -/
theorem Sorted.contiguous {S : List Command} (hs : Sorted S) {i j k : Nat} {a b c : Command} {pre : Path}
    (hi : S[i]? = some a) (hj : S[j]? = some b) (hk : S[k]? = some c) (hij : i ≤ j) (hjk : j ≤ k)
    (ha : pre <+: a.path) (hc : pre <+: c.path) : pre <+: b.path := by
  rw [← prefixCmp_eq_iff] at *
  have h1 := prefixCmp_mono pre _ _ (hs.le hi hj hij)
  have h2 := prefixCmp_mono pre _ _ (hs.le hj hk hjk)
  cases hb : prefixCmp pre b.path
  · rw [h1.1 hb] at ha; cases ha
  · rfl
  · rw [h2.2 hb] at hc; cases hc

/-- A proper extension comes later. -/
theorem Sorted.before {S : List Command} (hs : Sorted S) {i j : Nat} {a b : Command}
    (hi : S[i]? = some a) (hj : S[j]? = some b) (hp : a.path <+: b.path) (hne : a.path ≠ b.path) : i < j := by
  apply Nat.lt_of_not_le
  intro hji
  have h1 := hs.le hj hi hji
  have h2 := prefix_cmp_le _ _ hp
  cases h : cmpPath a.path b.path with
  | lt => rw [Std.OrientedCmp.gt_of_lt h] at h1; exact h1 rfl
  | eq => exact hne (Std.LawfulEqCmp.eq_of_compare h)
  | gt => exact h2 h

/-! ## `lastBelow` -/

theorem lastBelow_some {S : List Command} {Q : Command → Bool} {n i : Nat} :
    lastBelow S Q n = some i ↔
      i < n ∧ (∃ c, S[i]? = some c ∧ Q c = true) ∧ ∀ j c, i < j → j < n → S[j]? = some c → Q c = false := by
  induction n with
  | zero => simp [lastBelow]
  | succ n ih =>
    rw [lastBelow]
    by_cases h : S[n]?.any Q = true
    · rw [if_pos h]
      constructor
      · intro he
        cases he
        rw [Option.any_eq_true] at h
        exact ⟨by omega, h, fun j c h1 h2 => by omega⟩
      · rintro ⟨h1, _, h3⟩
        rw [Option.any_eq_true] at h
        obtain ⟨c, hc, hq⟩ := h
        by_cases hi : i = n
        · rw [hi]
        · have := h3 n c (by omega) (by omega) hc
          rw [hq] at this; cases this
    · rw [if_neg h, ih]
      have hn : ∀ c, S[n]? = some c → Q c = false := by
        intro c hc
        rw [hc] at h
        simpa using h
      constructor
      · rintro ⟨h1, h2, h3⟩
        refine ⟨by omega, h2, fun j c hj1 hj2 hc => ?_⟩
        by_cases hj : j = n
        · subst hj; exact hn c hc
        · exact h3 j c hj1 (by omega) hc
      · rintro ⟨h1, ⟨c, hc, hq⟩, h3⟩
        have : i ≠ n := by
          intro e; subst e
          rw [hn c hc] at hq; cases hq
        exact ⟨by omega, ⟨c, hc, hq⟩, fun j c hj1 hj2 hc => h3 j c hj1 (by omega) hc⟩

theorem lastBelow_none {S : List Command} {Q : Command → Bool} {n : Nat} :
    lastBelow S Q n = none ↔ ∀ j c, j < n → S[j]? = some c → Q c = false := by
  induction n with
  | zero => simp [lastBelow]
  | succ n ih =>
    rw [lastBelow]
    by_cases h : S[n]?.any Q = true
    · rw [if_pos h]
      rw [Option.any_eq_true] at h
      obtain ⟨c, hc, hq⟩ := h
      constructor
      · intro he; cases he
      · intro h'; have := h' n c (by omega) hc; rw [hq] at this; cases this
    · rw [if_neg h, ih]
      have hn : ∀ c, S[n]? = some c → Q c = false := by
        intro c hc
        rw [hc] at h
        simpa using h
      constructor
      · intro h' j c hj hc
        by_cases e : j = n
        · subst e; exact hn c hc
        · exact h' j c (by omega) hc
      · intro h' j c hj hc; exact h' j c (by omega) hc

theorem lastBelow_congr {S : List Command} {Q Q' : Command → Bool} {n : Nat}
    (h : ∀ j c, j < n → S[j]? = some c → Q c = Q' c) : lastBelow S Q n = lastBelow S Q' n := by
  induction n with
  | zero => rfl
  | succ n ih =>
    rw [lastBelow, lastBelow, ih (fun j c hj hc => h j c (by omega) hc)]
    have : S[n]?.any Q = S[n]?.any Q' := by
      cases hn : S[n]? with
      | none => rfl
      | some c => simp [h n c (by omega) hn]
    rw [this]

/-! ## `up` links -/

/-- The `up` link of entry `i`: the last earlier command whose path is a prefix. -/
def upSpec (S : List Command) (i : Nat) : Option Nat :=
  match S[i]? with
  | none => none
  | some c => lastBelow S (fun d => d.path.isPrefixOf c.path) i

theorem walkUp_spec {S : List Command} (hs : Sorted S) (ups : List (Option Nat)) (path : Path) (n : Nat)
    (hups : ∀ j, j < n → ups[j]?.getD none = upSpec S j) (u fuel : Nat) (hu : u < n) (hn : n ≤ S.length)
    (hf : u < fuel) (cu : Command) (hcu : S[u]? = some cu) :
    walkUp (S.map (·.path)) ups path fuel (some u) =
      lastBelow S (fun d => d.path.isPrefixOf cu.path && d.path.isPrefixOf path) (u + 1) := by
  induction u using Nat.strongRecOn generalizing fuel cu with
  | ind u ih =>
    obtain ⟨f, rfl⟩ : ∃ f, fuel = f + 1 := ⟨fuel - 1, by omega⟩
    rw [walkUp]
    have hp : (S.map (·.path))[u]? = some cu.path := by rw [List.getElem?_map, hcu]; rfl
    rw [hp]
    simp only
    rw [lastBelow, hcu]
    simp only [Option.any_some]
    by_cases hpre : cu.path.isPrefixOf path = true
    · rw [if_pos hpre, if_pos]
      rw [hpre, Bool.and_true, List.isPrefixOf_iff_prefix]
      exact List.prefix_refl _
    · rw [if_neg hpre, if_neg (by simp [hpre]), hups u hu, upSpec, hcu]
      simp only
      cases hv : lastBelow S (fun d => d.path.isPrefixOf cu.path) u with
      | none =>
        rw [lastBelow_none] at hv
        have : lastBelow S (fun d => d.path.isPrefixOf cu.path && d.path.isPrefixOf path) u = none := by
          rw [lastBelow_none]
          intro j c hj hc
          rw [hv j c hj hc]; rfl
        rw [this]
        cases f <;> rfl
      | some v =>
        rw [lastBelow_some] at hv
        obtain ⟨hvu, ⟨cv, hcv, hpv⟩, hmax⟩ := hv
        rw [ih v hvu f (by omega) (by omega) cv hcv]
        have key : lastBelow S (fun d => d.path.isPrefixOf cu.path && d.path.isPrefixOf path) u =
            lastBelow S (fun d => d.path.isPrefixOf cu.path && d.path.isPrefixOf path) (v + 1) := by
          have : ∀ m, v + 1 + m ≤ u → lastBelow S (fun d => d.path.isPrefixOf cu.path && d.path.isPrefixOf path) (v + 1 + m) =
            lastBelow S (fun d => d.path.isPrefixOf cu.path && d.path.isPrefixOf path) (v + 1) := by
            intro m
            induction m with
            | zero => intro _; rfl
            | succ m ihm =>
              intro hm
              rw [← Nat.add_assoc, lastBelow, if_neg, ihm (by omega)]
              cases hc : S[v + 1 + m]? with
              | none => simp
              | some c =>
                rw [Option.any_some, hmax (v + 1 + m) c (by omega) (by omega) hc]; simp
          have := this (u - (v + 1)) (by omega)
          rwa [show v + 1 + (u - (v + 1)) = u by omega] at this
        rw [key]
        apply lastBelow_congr
        intro j c hj hc
        congr 1
        rw [Bool.eq_iff_iff]
        rw [List.isPrefixOf_iff_prefix] at hpv ⊢
        rw [List.isPrefixOf_iff_prefix]
        constructor
        · intro h; exact h.trans hpv
        · intro h
          exact hs.contiguous hc hcv hcu (by omega) (by omega) (List.prefix_refl _) h

theorem compileUps_spec {S : List Command} (hs : Sorted S) (rest : List Command) (ups : List (Option Nat))
    (done : List Command) (hS : S = done ++ rest) (hlen : ups.length = done.length)
    (hups : ∀ j, j < ups.length → ups[j]? = some (upSpec S j)) :
    (compileUps (S.map (·.path)) (rest.map (·.path)) ups).length = S.length ∧
    ∀ j, j < S.length → (compileUps (S.map (·.path)) (rest.map (·.path)) ups)[j]? = some (upSpec S j) := by
  induction rest generalizing ups done with
  | nil =>
    have : S.length = ups.length := by rw [hlen, hS]; simp
    simp only [List.map_nil, compileUps]
    exact ⟨this.symm, fun j hj => hups j (by omega)⟩
  | cons c rest ih =>
    rw [List.map_cons, compileUps]
    have hc : S[ups.length]? = some c := by rw [hS, hlen]; simp
    have hlt : ups.length < S.length := (List.getElem?_eq_some_iff.mp hc).1
    apply ih _ (done ++ [c]) (by simp [hS]) (by simp [hlen])
    intro j hj
    rw [List.length_append, List.length_singleton] at hj
    by_cases hje : j < ups.length
    · rw [List.getElem?_append_left hje]; exact hups j hje
    · have hje : j = ups.length := by omega
      subst hje
      rw [List.getElem?_concat_length]
      congr 1
      rw [upSpec, hc]
      simp only
      cases hl : ups.length with
      | zero => simp [walkUp, lastBelow]
      | succ i =>
        have hi : i < ups.length := by omega
        have : ∃ ci, S[i]? = some ci := ⟨S[i]'(by omega), List.getElem?_eq_getElem _⟩
        obtain ⟨ci, hci⟩ := this
        rw [walkUp_spec hs ups c.path ups.length (fun j hj => by rw [hups j hj]; rfl) i (i + 1 + 1) hi
          (by omega) (by omega) ci hci]
        apply lastBelow_congr
        intro j d hj hd
        rw [Bool.eq_iff_iff, Bool.and_eq_true, List.isPrefixOf_iff_prefix, List.isPrefixOf_iff_prefix]
        constructor
        · intro h; exact h.2
        · intro h
          exact ⟨hs.contiguous hd hci hc (by omega) (by omega) (List.prefix_refl _) h, h⟩

/-- A compiled schema: sorted commands with sorted flags and the right `up` links. -/
structure Compiled (sc : Schema) : Prop where
  sorted : Sorted sc.cmds
  flags : ∀ c ∈ sc.cmds, c.flags.Pairwise fun a b => cmpStr a.name b.name ≠ .gt
  ups : ∀ j, j < sc.cmds.length → sc.ups[j]? = some (upSpec sc.cmds j)

instance transCmpOn {α β : Type} (cmp : β → β → Ordering) [Std.TransCmp cmp] (f : α → β) :
    Std.TransCmp fun a b => cmp (f a) (f b) where
  eq_swap := Std.OrientedCmp.eq_swap (cmp := cmp)
  isLE_trans := Std.TransCmp.isLE_trans (cmp := cmp)

theorem compile_compiled (so : Sorter) (cs : List Command) : Compiled (compile so cs) := by
  have hs : Sorted (compile so cs).cmds :=
    so.sorted (fun a b : Command => cmpPath a.path b.path) _
  refine ⟨hs, ?_, ?_⟩
  · intro c hc
    have := (so.perm (fun a b : Command => cmpPath a.path b.path) _).mem_iff.mp hc
    rw [List.mem_map] at this
    obtain ⟨c0, _, rfl⟩ := this
    exact so.sorted (fun a b : Flag => cmpStr a.name b.name) _
  · intro j hj
    exact (compileUps_spec hs _ [] [] rfl rfl (by simp)).2 j hj

/-! ## Anchors -/

theorem anchor_some {S : List Command} {w : Path} {i : Nat} :
    anchor S w = some i ↔
      (∃ c, S[i]? = some c ∧ w <+: c.path) ∧ ∀ j c, j < i → S[j]? = some c → ¬ w <+: c.path := by
  rw [anchor, List.findIdx?_eq_some_iff_getElem]
  constructor
  · rintro ⟨h1, h2, h3⟩
    refine ⟨⟨S[i], List.getElem?_eq_getElem h1, List.isPrefixOf_iff_prefix.mp h2⟩, ?_⟩
    intro j c hj hc hp
    obtain ⟨hj', rfl⟩ := List.getElem?_eq_some_iff.mp hc
    exact h3 j hj (List.isPrefixOf_iff_prefix.mpr hp)
  · rintro ⟨⟨c, hc, hp⟩, h3⟩
    obtain ⟨hi, rfl⟩ := List.getElem?_eq_some_iff.mp hc
    refine ⟨hi, List.isPrefixOf_iff_prefix.mpr hp, ?_⟩
    intro j hj hp'
    exact h3 j _ hj (List.getElem?_eq_getElem (by omega)) (List.isPrefixOf_iff_prefix.mp hp')

theorem anchor_none {S : List Command} {w : Path} : anchor S w = none ↔ Extends S w = false := by
  rw [anchor, Extends, List.findIdx?_eq_none_iff, List.any_eq_false]
  constructor
  · intro h x hx; rw [h x hx]; simp
  · intro h x hx; exact Bool.eq_false_iff.mpr (h x hx)

/-- The anchor has exactly the path `w` iff `w` is registered, and then it is the selected command. -/
theorem selected_anchor {S : List Command} (hs : Sorted S) {w : Path} {i : Nat} {a : Command}
    (hi : anchor S w = some i) (ha : S[i]? = some a) :
    selected S w = if a.path.length ≤ w.length then some i else none := by
  obtain ⟨⟨c, hc, hp⟩, hmin⟩ := anchor_some.mp hi
  cases hc.symm.trans ha
  by_cases hl : a.path.length ≤ w.length
  · rw [if_pos hl]
    have he : w = a.path := hp.eq_of_length_le hl
    rw [selected, List.findIdx?_eq_some_iff_getElem]
    obtain ⟨h1, h2⟩ := List.getElem?_eq_some_iff.mp ha
    refine ⟨h1, by rw [h2, he]; simp, ?_⟩
    intro j hj hje
    refine hmin j S[j] hj (List.getElem?_eq_getElem (by omega)) ?_
    simp only [beq_iff_eq] at hje
    rw [hje]; exact List.prefix_refl _
  · rw [if_neg hl, selected, List.findIdx?_eq_none_iff]
    intro x hx
    rw [Bool.eq_false_iff]
    intro hxe
    simp only [beq_iff_eq] at hxe
    obtain ⟨j, hj⟩ := List.mem_iff_getElem?.mp hx
    have h1 := hs.before hj ha (by rw [hxe]; exact hp) (by
      intro e; rw [hxe] at e; rw [e] at hl; omega)
    exact hmin j x h1 hj (by rw [hxe]; exact List.prefix_refl _)

theorem nearest_anchor {S : List Command} (hs : Sorted S) {w : Path} {i : Nat} {a : Command}
    (hi : anchor S w = some i) (ha : S[i]? = some a) :
    nearest S w = if a.path.length ≤ w.length then some i else upSpec S i := by
  rw [nearest, selected_anchor hs hi ha]
  by_cases hl : a.path.length ≤ w.length
  · rw [if_pos hl, if_pos hl]; rfl
  · rw [if_neg hl, if_neg hl, Option.none_or, upSpec, ha]
    simp only
    obtain ⟨⟨c, hc, hp⟩, hmin⟩ := anchor_some.mp hi
    cases hc.symm.trans ha
    have hilt : i < S.length := (List.getElem?_eq_some_iff.mp ha).1
    have hge : ∀ j d, i ≤ j → S[j]? = some d → d.path.isPrefixOf w = false := by
      intro j d hij hd
      rw [Bool.eq_false_iff]
      intro h
      rw [List.isPrefixOf_iff_prefix] at h
      have h1 := hs.before hd ha (h.trans hp) (by
        intro e; rw [e] at h; exact hl h.length_le)
      omega
    have hlo : ∀ j d, j < i → S[j]? = some d → d.path.isPrefixOf w = d.path.isPrefixOf a.path := by
      intro j d hj hd
      rw [Bool.eq_iff_iff, List.isPrefixOf_iff_prefix, List.isPrefixOf_iff_prefix]
      constructor
      · intro h; exact h.trans hp
      · intro h
        rcases List.prefix_or_prefix_of_prefix h hp with h' | h'
        · exact h'
        · exact absurd h' (hmin j d hj hd)
    rw [← lastBelow_congr hlo]
    have : ∀ m, i + m ≤ S.length → lastBelow S (fun d => d.path.isPrefixOf w) (i + m) =
        lastBelow S (fun d => d.path.isPrefixOf w) i := by
      intro m
      induction m with
      | zero => intro _; rfl
      | succ m ihm =>
        intro hm
        rw [← Nat.add_assoc, lastBelow, if_neg, ihm (by omega)]
        cases hc : S[i + m]? with
        | none => simp
        | some c => rw [Option.any_some, hge (i + m) c (by omega) hc]; simp
    have := this (S.length - i) (by omega)
    rwa [show i + (S.length - i) = S.length by omega] at this

end Verif.Args
