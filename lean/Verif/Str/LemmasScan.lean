import Verif.Str.Props
import Verif.Str.LemmasNatural
import Verif.Str.SpecScan
/-! # Lemmas for natural order as one scan -/
namespace Verif.Str

theorem advance_text (cc : CharClass) (n x : List Char) (hn : ∀ c ∈ n, cc.num c = false) :
    advance cc (n ++ x) = (n ++ (advance cc x).1, (advance cc x).2.1, (advance cc x).2.2) := by
  have h1 := dropWhile_all_append (fun c => !cc.num c) n x (fun c h => by simp [hn c h])
  simp only [advance, h1.1, h1.2]

/-- A common text that is not numeric does not matter. -/
theorem cmp_text (cc : CharClass) (n x y : List Char) (hn : ∀ c ∈ n, cc.num c = false) :
    cmp_natural cc (n ++ x) (n ++ y) = cmp_natural cc x y := by
  by_cases h : x = [] ∧ y = []
  · obtain ⟨rfl, rfl⟩ := h
    rw [cmp_self cc _ _ (Nat.le_refl _), cmp_self cc _ _ (Nat.le_refl _)]
  · rw [cmp_step cc x y h, cmp_step cc (n ++ x) (n ++ y) (by simp only [List.append_eq_nil_iff]; intro q; exact h ⟨q.1.2, q.2.2⟩),
      advance_text cc n x hn, advance_text cc n y hn, cmpStr_prefix]

/-- A common number that ends on both sides does not matter. -/
theorem cmp_run (cc : CharClass) (d x y : List Char) (hd : ∀ c ∈ d, cc.num c = true)
    (hx : ∀ c, x.head? = Option.some c → cc.num c = false) (hy : ∀ c, y.head? = Option.some c → cc.num c = false) :
    cmp_natural cc (d ++ x) (d ++ y) = cmp_natural cc x y := by
  by_cases h : d = []
  · subst h; rfl
  · have ax := advance_of cc [] d x (by simp) hd h hx
    have ay := advance_of cc [] d y (by simp) hd h hy
    rw [List.nil_append] at ax ay
    rw [cmp_step cc _ _ (by simp [h]), ax, ay, cmpStr_self, numCmp_self, cmpStr_self]
    rfl

/-- How strings compare that begin with different runs. -/
theorem cmp_runs (cc : CharClass) (a b x y : List Char) (ha : ∀ c ∈ a, cc.num c = true) (hb : ∀ c ∈ b, cc.num c = true)
    (hx : ∀ c, x.head? = Option.some c → cc.num c = false) (hy : ∀ c, y.head? = Option.some c → cc.num c = false)
    (na : a ≠ []) (nb : b ≠ []) (hab : a ≠ b) :
    cmp_natural cc (a ++ x) (b ++ y) = (numCmp a b).then (cmpStr a b) := by
  have ax := advance_of cc [] a x (by simp) ha na hx
  have ay := advance_of cc [] b y (by simp) hb nb hy
  rw [List.nil_append] at ax ay
  rw [cmp_step cc _ _ (by simp [na]), ax, ay, cmpStr_self]
  have : cmpStr a b ≠ .eq := fun e => hab (cmpStr_eq e)
  cases numCmp a b
  · rfl
  · cases e : cmpStr a b
    · rfl
    · exact absurd e this
    · rfl
  · rfl

theorem take_drop_head (cc : CharClass) (x : List Char) :
    ∀ c, (x.dropWhile cc.num).head? = Option.some c → cc.num c = false := fun c h => head_dropWhile _ _ _ h

theorem numCmp_eq {a b : List Char} (pa : a.head? ≠ Option.some '+') (pb : b.head? ≠ Option.some '+') :
    (Number a ∧ Number b → numCmp a b = compare (decimal a) (decimal b)) ∧ (¬ (Number a ∧ Number b) → numCmp a b = .eq) := by
  constructor
  · rintro ⟨h1, h2⟩
    simp only [numCmp, (parse_run a pa).2 h1, (parse_run b pb).2 h2]
  · intro h
    unfold numCmp
    by_cases h1 : Number a
    · rw [parse_none pb (fun h2 => h ⟨h1, h2⟩)]
      cases parseU64 a <;> rfl
    · rw [parse_none pa h1]

theorem decimal_append_le (a b : List Char) : decimal a ≤ decimal (a ++ b) := by
  unfold decimal
  rw [List.foldl_append]
  exact foldl_ge b _

/-- A run comes before every longer one that it begins. -/
theorem run_before {cc : CharClass} (a b : List Char) (ha : ∀ c ∈ a ++ b, cc.num c = true) (hb : b ≠ []) :
    (numCmp a (a ++ b)).then (cmpStr a (a ++ b)) = .lt := by
  have ht : cmpStr a (a ++ b) = .lt := by
    have := cmpStr_prefix a [] b
    rw [List.append_nil] at this
    rw [this]
    cases b with
    | nil => exact absurd rfl hb
    | cons c b => rfl
  rw [ht]
  have q := numCmp_eq (a := a) (b := a ++ b) (num_no_plus (fun c h => ha c (by simp [h]))) (num_no_plus ha)
  by_cases h : Number a ∧ Number (a ++ b)
  · rw [q.1 h]
    have := decimal_append_le a b
    rcases Nat.lt_or_eq_of_le this with h | h
    · rw [Nat.compare_eq_lt.mpr h]; rfl
    · rw [h, self_cmp]; rfl
  · rw [q.2 h]; rfl

theorem split_run (cc : CharClass) (n x : List Char) : n ++ x = (n ++ x.takeWhile cc.num) ++ x.dropWhile cc.num := by
  rw [List.append_assoc, List.takeWhile_append_dropWhile]

theorem run_num {cc : CharClass} {n : List Char} (hn : ∀ c ∈ n, cc.num c = true) (x : List Char) :
    ∀ c ∈ n ++ x.takeWhile cc.num, cc.num c = true := by
  intro c h
  rcases List.mem_append.mp h with h | h
  · exact hn c h
  · exact mem_takeWhile h

/-- A prefix comes first. -/
theorem cmp_prefix_run (cc : CharClass) (n y : List Char) (hn : ∀ c ∈ n, cc.num c = true) (hy : y ≠ []) :
    cmp_natural cc n (n ++ y) = .lt := by
  by_cases hn0 : n = []
  · subst hn0
    rw [List.nil_append, cmp_step cc _ _ (by simp [hy])]
    by_cases h1 : (advance cc y).1 = []
    · rw [h1]
      have h2 : (advance cc y).2.1 ≠ [] := fun h2 => hy (advance_empty cc y h1 h2)
      have e : numCmp (advance cc []).2.1 (advance cc y).2.1 = .eq := rfl
      rw [e]
      show Ordering.then .eq (Ordering.then .eq (Ordering.then (cmpStr [] (advance cc y).2.1) _)) = _
      cases hq : (advance cc y).2.1 with
      | nil => exact absurd hq h2
      | cons a b => rfl
    · show Ordering.then (cmpStr [] (advance cc y).1) _ = _
      cases hq : (advance cc y).1 with
      | nil => exact absurd hq h1
      | cons a b => rfl
  · by_cases ht : y.takeWhile cc.num = []
    · have hh : ∀ c, y.head? = Option.some c → cc.num c = false := by
        cases y with
        | nil => simp
        | cons a y =>
          intro c hc
          simp at hc; subst hc
          cases hq : cc.num a
          · rfl
          · rw [List.takeWhile_cons, if_pos hq] at ht; cases ht
      have := cmp_run cc n [] y hn (by simp) hh
      rw [List.append_nil] at this
      rw [this]
      have q := cmp_prefix_run cc [] y (by simp) hy
      exact q
    · rw [split_run cc n y]
      have := cmp_runs cc n (n ++ y.takeWhile cc.num) [] (y.dropWhile cc.num) hn (run_num hn y) (by simp) (take_drop_head cc y) hn0
        (by simp [hn0]) (by simpa using ht)
      rw [List.append_nil] at this
      rw [this]
      exact run_before _ _ (run_num hn y) ht
termination_by n.length
decreasing_by
  cases n with
  | nil => exact absurd rfl hn0
  | cons a n => simp

theorem cmpStr_ne {c d : Char} (h : c ≠ d) (x y : List Char) : cmpStr (c :: x) (d :: y) = compare c d := by
  rw [cmpStr_cons]
  cases e : compare c d
  · rfl
  · exact absurd (Std.LawfulEqCmp.eq_of_compare (cmp := (compare : Char → Char → Ordering)) e) h
  · rfl

/-- Different characters that are not numeric decide. -/
theorem cmp_chars (cc : CharClass) (c d : Char) (x y : List Char) (hc : cc.num c = false) (hd : cc.num d = false) (h : c ≠ d) :
    cmp_natural cc (c :: x) (d :: y) = compare c d := by
  rw [cmp_step cc _ _ (by simp)]
  have e : ∀ (c : Char) (x : List Char), cc.num c = false → (advance cc (c :: x)).1 = c :: (advance cc x).1 := by
    intro c x h; simp [advance, h]
  rw [e c x hc, e d y hd, cmpStr_ne h]
  cases q : compare c d
  · rfl
  · exact absurd (Std.LawfulEqCmp.eq_of_compare (cmp := (compare : Char → Char → Ordering)) q) h
  · rfl

/-- Numbers come before other characters. -/
theorem cmp_number_first (cc : CharClass) (c d : Char) (x y : List Char) (hc : cc.num c = true) (hd : cc.num d = false) :
    cmp_natural cc (c :: x) (d :: y) = .lt := by
  rw [cmp_step cc _ _ (by simp)]
  have e1 : (advance cc (c :: x)).1 = [] := by simp [advance, hc]
  have e2 : (advance cc (d :: y)).1 = d :: (advance cc y).1 := by simp [advance, hd]
  rw [e1, e2]; rfl

/-- Longer numbers come after. -/
theorem cmp_longer (cc : CharClass) (n : List Char) (c d : Char) (x y : List Char) (hn : ∀ c ∈ n, cc.num c = true) (hne : n ≠ [])
    (hc : cc.num c = false) (hd : cc.num d = true) : cmp_natural cc (n ++ c :: x) (n ++ d :: y) = .lt := by
  rw [split_run cc n (d :: y)]
  have ht : (d :: y).takeWhile cc.num ≠ [] := by simp [hd]
  rw [cmp_runs cc n (n ++ (d :: y).takeWhile cc.num) (c :: x) _ hn (run_num hn _) (by simp [hc]) (take_drop_head cc _) hne
    (by simp [hne]) (by simpa using ht)]
  exact run_before _ _ (run_num hn _) ht

theorem cmp_numbers (cc : CharClass) (n : List Char) (c d : Char) (x y : List Char) (hn : ∀ c ∈ n, cc.num c = true)
    (hc : cc.num c = true) (hd : cc.num d = true) (h : c ≠ d) : cmp_natural cc (n ++ c :: x) (n ++ d :: y) =
      runsScan (n ++ c :: x.takeWhile cc.num) (n ++ d :: y.takeWhile cc.num) c d := by
  have tc : (c :: x).takeWhile cc.num = c :: x.takeWhile cc.num := by simp [hc]
  have td : (d :: y).takeWhile cc.num = d :: y.takeWhile cc.num := by simp [hd]
  have rc := run_num hn (c :: x)
  have rd := run_num hn (d :: y)
  rw [split_run cc n (c :: x), split_run cc n (d :: y)]
  rw [tc] at rc ⊢
  rw [td] at rd ⊢
  rw [cmp_runs cc _ _ _ _ rc rd (take_drop_head cc _) (take_drop_head cc _) (by simp) (by simp) (by simp [h]),
    cmpStr_prefix, cmpStr_ne h]
  have q := numCmp_eq (num_no_plus rc) (num_no_plus rd)
  unfold runsScan
  split
  · rename_i hh; rw [q.1 hh]
  · rename_i hh; rw [q.2 hh]; rfl

/-- A common beginning that does not end in a number does not matter. -/
theorem cmp_common (cc : CharClass) (k : Nat) (p x y : List Char) (hk : p.length ≤ k)
    (hp : ∀ c, p.getLast? = Option.some c → cc.num c = false) :
    cmp_natural cc (p ++ x) (p ++ y) = cmp_natural cc x y := by
  induction k generalizing p with
  | zero =>
    have : p = [] := List.length_eq_zero_iff.mp (by omega)
    subst this; rfl
  | succ k ih =>
    by_cases hp0 : p = []
    · subst hp0; rfl
    have ha := advance_append cc p
    have hr := (advance_shorter cc p).2 hp0
    have hlast : ∀ c, (advance cc p).2.2.getLast? = Option.some c → cc.num c = false := by
      intro c hc
      apply hp c
      rw [← ha, List.getLast?_append, List.getLast?_append, hc]; rfl
    have hi := ih (advance cc p).2.2 (by omega) hlast
    rw [← ha]
    simp only [List.append_assoc]
    rw [cmp_text cc _ _ _ (advance_name cc p)]
    by_cases hr0 : (advance cc p).2.2 = []
    · have hd : (advance cc p).2.1 = [] := by
        cases hl : (advance cc p).2.1.getLast? with
        | none => exact List.getLast?_eq_none_iff.mp hl
        | some c =>
          have h1 := hp c (by rw [← ha, hr0, List.append_nil, List.getLast?_append, hl]; rfl)
          have h2 := advance_num cc p c (List.mem_of_getLast? hl)
          rw [h1] at h2; cases h2
      rw [hd, hr0]; rfl
    · have hh : ∀ z c, ((advance cc p).2.2 ++ z).head? = Option.some c → cc.num c = false := by
        intro z c hc
        apply advance_rest_head cc p c
        cases hq : (advance cc p).2.2 with
        | nil => exact absurd hq hr0
        | cons a q => rw [hq] at hc; exact hc
      rw [cmp_run cc _ _ _ (advance_num cc p) (hh x) (hh y)]
      exact hi

/-- The comparison is the scan. -/
theorem cmp_scan (cc : CharClass) : ∀ (l r n : List Char), (∀ c ∈ n, cc.num c = true) →
    cmp_natural cc (n ++ l) (n ++ r) = scan cc n l r
  | [], [], n, _ => by rw [cmp_self cc _ _ (Nat.le_refl _)]; rfl
  | [], d :: y, n, hn => by
    rw [List.append_nil, cmp_prefix_run cc n (d :: y) hn (by simp)]; rfl
  | c :: x, [], n, hn => by
    rw [List.append_nil, cmp_swap cc _ n (n ++ c :: x) (Nat.le_refl _), cmp_prefix_run cc n (c :: x) hn (by simp)]; rfl
  | c :: x, d :: y, n, hn => by
    rw [scan]
    by_cases h : c = d
    · subst h
      rw [if_pos rfl, List.append_cons n c x, List.append_cons n c y]
      cases hc : cc.num c
      · rw [if_neg (by simp), ← cmp_scan cc x y [] (by simp)]
        exact cmp_common cc _ _ x y (Nat.le_refl _) (by intro e he; simp at he; subst he; exact hc)
      · rw [if_pos rfl]
        exact cmp_scan cc x y (n ++ [c]) (by
          intro e he
          rcases List.mem_append.mp he with he | he
          · exact hn e he
          · rw [List.mem_singleton.mp he]; exact hc)
    · rw [if_neg h]
      cases hc : cc.num c <;> cases hd : cc.num d
      · simp only []
        rw [cmp_run cc n _ _ hn (by simp [hc]) (by simp [hd])]
        exact cmp_chars cc c d x y hc hd h
      · simp only []
        rw [cmp_swap cc _ (n ++ d :: y) (n ++ c :: x) (Nat.le_refl _)]
        by_cases hn0 : n = []
        · subst hn0
          rw [if_pos rfl, List.nil_append, List.nil_append, cmp_number_first cc d c y x hd hc]; rfl
        · rw [if_neg hn0, cmp_swap cc _ (n ++ c :: x) (n ++ d :: y) (Nat.le_refl _), cmp_longer cc n c d x y hn hn0 hc hd]; rfl
      · simp only []
        by_cases hn0 : n = []
        · subst hn0
          rw [if_pos rfl, List.nil_append, List.nil_append, cmp_number_first cc c d x y hc hd]
        · rw [if_neg hn0, cmp_swap cc _ (n ++ d :: y) (n ++ c :: x) (Nat.le_refl _), cmp_longer cc n d c y x hn hn0 hd hc]; rfl
      · exact cmp_numbers cc n c d x y hn hc hd h

/-! ### Runs of the same length -/

theorem fold_lt (a b : List Char) (v w : Nat) (hl : a.length = b.length) (ha : ∀ c ∈ a, isDigit c) (h : v < w) :
    a.foldl (fun v c => v * 10 + (c.toNat - 48)) v < b.foldl (fun v c => v * 10 + (c.toNat - 48)) w := by
  induction a generalizing b v w with
  | nil =>
    cases b with
    | nil => exact h
    | cons => simp at hl
  | cons c a ih =>
    cases b with
    | nil => simp at hl
    | cons d b =>
      have hc : c.toNat ≤ 57 := (ha c (by simp)).2
      exact ih b _ _ (by simpa using hl) (fun c h => ha c (by simp [h])) (by show v * 10 + (c.toNat - 48) < w * 10 + (d.toNat - 48); omega)

theorem same_length {n x y : List Char} {c d : Char} (hl : x.length = y.length) (hx : ∀ e ∈ n ++ c :: x, isDigit e)
    (hy : ∀ e ∈ n ++ d :: y, isDigit e) (h : c ≠ d) :
    (compare (decimal (n ++ c :: x)) (decimal (n ++ d :: y))).then (compare c d) = compare c d := by
  have hc := hx c (by simp)
  have hd := hy d (by simp)
  have c1 : 48 ≤ c.toNat := hc.1
  have d1 : 48 ≤ d.toNat := hd.1
  unfold decimal
  rw [List.foldl_append, List.foldl_append, List.foldl_cons, List.foldl_cons]
  generalize n.foldl (fun v c => v * 10 + (c.toNat - 48)) 0 = m
  rcases Nat.lt_trichotomy c.toNat d.toNat with q | q | q
  · have := fold_lt x y (m * 10 + (c.toNat - 48)) (m * 10 + (d.toNat - 48)) hl (fun e h => hx e (by simp [h])) (by omega)
    rw [Nat.compare_eq_lt.mpr this, char_cmp_lt q]; rfl
  · exact absurd (Char.toNat_inj.mp q) h
  · have := fold_lt y x (m * 10 + (d.toNat - 48)) (m * 10 + (c.toNat - 48)) hl.symm (fun e h => hy e (by simp [h])) (by omega)
    rw [Nat.compare_eq_gt.mpr this]
    have e : compare c d = .gt := by
      rw [Std.OrientedCmp.eq_swap (cmp := (compare : Char → Char → Ordering)), char_cmp_lt q]; rfl
    rw [e]; rfl

end Verif.Str
