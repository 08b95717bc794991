import Verif.Str.Props
import Verif.Str.SpecNatural
/-! # Lemmas about natural ordering with numbers of any size -/
namespace Verif.Str

theorem parseDigits_sound (ds : List Char) (v w : Nat) (hv : v < 2 ^ 64) (h : parseDigits ds v = Option.some w) :
    (∀ c ∈ ds, isDigit c) ∧ ds.foldl (fun v c => v * 10 + (c.toNat - 48)) v = w ∧ w < 2 ^ 64 := by
  induction ds generalizing v with
  | nil =>
    rw [parseDigits, Option.some.injEq] at h
    exact ⟨by simp, h, h ▸ hv⟩
  | cons c ds ih =>
    rw [parseDigits] at h
    unfold digit at h
    by_cases hc : '0' ≤ c ∧ c ≤ '9'
    · rw [if_pos hc] at h
      simp only at h
      by_cases hl : v * 10 + (c.toNat - 48) < 2 ^ 64
      · rw [if_pos hl] at h
        obtain ⟨h1, h2, h3⟩ := ih _ hl h
        refine ⟨?_, h2, h3⟩
        intro x hx
        rcases List.mem_cons.mp hx with rfl | hx
        · exact hc
        · exact h1 x hx
      · rw [if_neg hl] at h; cases h
    · rw [if_neg hc] at h; cases h

/-- Runs of numeric characters: what `u64::from_str` makes of them. -/
theorem parse_run (run : List Char) (hp : run.head? ≠ Option.some '+') :
    (∀ v, parseU64 run = Option.some v → Number run ∧ v = decimal run) ∧ (Number run → parseU64 run = Option.some (decimal run)) := by
  refine ⟨fun v h => ?_, fun h => parseU64_some run h.1 h.2.1 h.2.2⟩
  unfold parseU64 at h
  split at h
  · cases h
  · cases h
  · exact absurd rfl hp
  · rename_i hn _ _
    obtain ⟨h1, h2, h3⟩ := parseDigits_sound run 0 v (by decide) h
    exact ⟨⟨hn, h1, by unfold decimal; rw [h2]; exact h3⟩, h2.symm⟩

theorem parse_none {run : List Char} (hp : run.head? ≠ Option.some '+') (h : ¬ Number run) : parseU64 run = none := by
  cases hr : parseU64 run with
  | none => rfl
  | some v => exact absurd ((parse_run run hp).1 v hr).1 h

/-! ## Numbers come before what is harmless -/

theorem self_cmp {α : Type} [Ord α] [Std.ReflOrd α] (a : α) : compare a a = .eq := Std.ReflOrd.compare_self

theorem cmpStr_cons (a b : Char) (x y : List Char) : cmpStr (a :: x) (b :: y) = (compare a b).then (cmpStr x y) :=
  List.compareLex_cons_cons

theorem char_cmp_lt {a b : Char} (h : a.toNat < b.toNat) : compare a b = .lt := by
  have h' : a < b := h
  simp only [compare, compareOfLessAndEq, if_pos h']

theorem cmpStr_lt_head {a b : Char} (h : a.toNat < b.toNat) (x y : List Char) : cmpStr (a :: x) (b :: y) = .lt := by
  rw [cmpStr_cons, char_cmp_lt h]; rfl

theorem cmpStr_prefix (p x y : List Char) : cmpStr (p ++ x) (p ++ y) = cmpStr x y := by
  induction p with
  | nil => rfl
  | cons c p ih => rw [List.cons_append, List.cons_append, cmpStr_cons, ih, self_cmp]; rfl

theorem beyond_nines (n : Nat) : ∀ a : List Char, (∀ c ∈ a, isDigit c) → cmpStr a (List.replicate n '9') = .gt →
    ∃ d r, a = List.replicate n '9' ++ d :: r := by
  induction n with
  | zero =>
    intro a _ h
    cases a with
    | nil => cases h
    | cons d r => exact ⟨d, r, rfl⟩
  | succ n ih =>
    intro a ha h
    cases a with
    | nil => cases h
    | cons c a =>
      have hc := (ha c (by simp)).2
      rw [List.replicate_succ] at h
      by_cases he : c.toNat < '9'.toNat
      · rw [cmpStr_lt_head he] at h; cases h
      · have hc9 : c = '9' := by
          apply Char.toNat_inj.mp
          have : c.toNat ≤ '9'.toNat := hc
          omega
        subst hc9
        rw [cmpStr_cons, self_cmp] at h
        obtain ⟨d, r, e⟩ := ih a (fun c h => ha c (by simp [h])) h
        exact ⟨d, r, by rw [e, List.replicate_succ]; rfl⟩

theorem number_le_nines {a : List Char} (h : Number a) : (cmpStr a nines).isLE = true := by
  cases hc : cmpStr a nines with
  | lt => rfl
  | eq => rfl
  | gt =>
    obtain ⟨d, r, e⟩ := beyond_nines 19 a h.2.1 hc
    have h3 := h.2.2
    rw [e, decimal, List.foldl_append, List.foldl_cons] at h3
    have h4 := foldl_ge r ((List.replicate 19 '9').foldl (fun v c => v * 10 + (c.toNat - 48)) 0 * 10 + (d.toNat - 48))
    have h5 : (List.replicate 19 '9').foldl (fun v c => v * 10 + (c.toNat - 48)) 0 = 9999999999999999999 := by decide
    rw [h5] at h3 h4
    omega

/-- The value of a run; those that are no numbers are beyond all of them. -/
def rank (run : List Char) : Nat :=
  if run = [] then 0 else match parseU64 run with
    | Option.some v => v + 1
    | none => 2 ^ 64 + 1

/-- Names first, then numeric value, then the text of the number. -/
def cmpTok2 : List Char × List Char → List Char × List Char → Ordering :=
  compareLex (compareOn Prod.fst) (compareLex (compareOn fun t => rank t.2) (compareOn Prod.snd))

instance : Std.TransCmp cmpTok2 := inferInstanceAs (Std.TransCmp (compareLex _ _))

theorem number_before {a b : List Char} (ha : Number a) (hb : ¬ Number b) (hh : Harmless b) : cmpStr a b = .lt := by
  have h1 := number_le_nines ha
  have h2 := hh.resolve_left hb
  have h3 : (cmpStr a b).isLE = true := Std.TransCmp.isLE_trans h1 h2
  cases hc : cmpStr a b with
  | lt => rfl
  | eq => exact absurd (cmpStr_eq hc ▸ ha) hb
  | gt => rw [hc] at h3; cases h3

theorem rank_pos {a : List Char} (h : a ≠ []) : 0 < rank a := by
  unfold rank
  rw [if_neg h]
  split <;> omega

theorem numCmp_key2 (a b : List Char) (o : Ordering) (pa : a.head? ≠ Option.some '+') (pb : b.head? ≠ Option.some '+')
    (ha : a ≠ [] → Harmless a) (hb : b ≠ [] → Harmless b) :
    (numCmp a b).then ((cmpStr a b).then o) = (compare (rank a) (rank b)).then ((cmpStr a b).then o) := by
  by_cases h1 : a = []
  · by_cases h2 : b = []
    · subst h1 h2; rfl
    · subst h1
      have e1 : numCmp [] b = .eq := by simp [numCmp, parseU64]
      have e2 : cmpStr [] b = .lt := by
        cases b with
        | nil => exact absurd rfl h2
        | cons c b => rfl
      have e3 : compare (rank []) (rank b) = .lt := Nat.compare_eq_lt.mpr (rank_pos h2)
      rw [e1, e2, e3]; rfl
  · by_cases h2 : b = []
    · subst h2
      have e1 : numCmp a [] = .eq := by
        simp only [numCmp]
        cases parseU64 a <;> simp [parseU64]
      have e2 : cmpStr a [] = .gt := by
        cases a with
        | nil => exact absurd rfl h1
        | cons c b => rfl
      have e3 : compare (rank a) (rank []) = .gt := Nat.compare_eq_gt.mpr (rank_pos h1)
      rw [e1, e2, e3]; rfl
    · by_cases na : Number a
      · have ea := (parse_run a pa).2 na
        have hra : rank a = decimal a + 1 := by unfold rank; rw [if_neg h1, ea]
        by_cases nb : Number b
        · have eb := (parse_run b pb).2 nb
          have hrb : rank b = decimal b + 1 := by unfold rank; rw [if_neg h2, eb]
          have e1 : numCmp a b = compare (rank a) (rank b) := by
            simp only [numCmp, ea, eb, hra, hrb, compare_succ]
          rw [e1]
        · have eb := parse_none pb nb
          have hrb : rank b = 2 ^ 64 + 1 := by unfold rank; rw [if_neg h2, eb]
          have e1 : numCmp a b = .eq := by simp only [numCmp, ea, eb]
          rw [e1, number_before na nb (hb h2), hra, hrb, Nat.compare_eq_lt.mpr (by have := na.2.2; omega)]
          rfl
      · have ea := parse_none pa na
        have hra : rank a = 2 ^ 64 + 1 := by unfold rank; rw [if_neg h1, ea]
        have e1 : numCmp a b = .eq := by simp only [numCmp, ea]
        by_cases nb : Number b
        · have eb := (parse_run b pb).2 nb
          have hrb : rank b = decimal b + 1 := by unfold rank; rw [if_neg h2, eb]
          have := number_before nb na (ha h1)
          rw [cmpStr_swap] at this
          have hg : cmpStr a b = .gt := by
            cases hc : cmpStr a b with
            | gt => rfl
            | lt => rw [hc] at this; cases this
            | eq => rw [hc] at this; cases this
          rw [e1, hg, hra, hrb, Nat.compare_eq_gt.mpr (by have := nb.2.2; omega)]
          rfl
        · have eb := parse_none pb nb
          have hrb : rank b = 2 ^ 64 + 1 := by unfold rank; rw [if_neg h2, eb]
          rw [e1, hra, hrb, self_cmp]

theorem run_of_rest (cc : CharClass) (s run : List Char) (h : IsRun cc (advance cc s).2.2 run) : IsRun cc s run := by
  obtain ⟨pre, post, he, hne, hall, hpre, hpost⟩ := h
  refine ⟨(advance cc s).1 ++ ((advance cc s).2.1 ++ pre), post, ?_, hne, hall, ?_, hpost⟩
  · conv => lhs; rw [← advance_append cc s]
    rw [he]; simp
  · intro c hc
    cases hp : pre with
    | nil =>
      exfalso
      rw [hp] at he
      cases hr : run with
      | nil => exact hne hr
      | cons a run' =>
        have h1 := advance_rest_head cc s a (by rw [he, hr]; rfl)
        have h2 := hall a (by simp [hr])
        rw [h1] at h2; cases h2
    | cons a pre' =>
      apply hpre
      rw [← hc, ← List.append_assoc, List.getLast?_append]
      rw [hp]
      cases hl : (a :: pre').getLast? with
      | none => simp at hl
      | some x => rfl

theorem num_no_plus {cc : CharClass} {run : List Char} (h : ∀ c ∈ run, cc.num c = true) : run.head? ≠ Option.some '+' := by
  intro he
  have h1 := h '+' (List.mem_of_head? he)
  rw [cc.num_plus] at h1
  cases h1

theorem cmp_key2 (cc : CharClass) (n : Nat) (l r : List Char) (hn : l.length + r.length ≤ n)
    (hl : Sortable cc l) (hr : Sortable cc r) :
    cmp_natural cc l r = List.compareLex cmpTok2 (tokens cc l) (tokens cc r) := by
  induction n generalizing l r with
  | zero =>
    have h1 : l = [] := List.length_eq_zero_iff.mp (by omega)
    have h2 : r = [] := List.length_eq_zero_iff.mp (by omega)
    subst h1 h2; rw [cmp_nil, tokens_nil]; rfl
  | succ n ih =>
    by_cases h : l = [] ∧ r = []
    · obtain ⟨rfl, rfl⟩ := h; rw [cmp_nil, tokens_nil]; rfl
    have hls := advance_shorter cc l
    have hrs := advance_shorter cc r
    have hlt : (advance cc l).2.2.length + (advance cc r).2.2.length ≤ n := by
      by_cases h1 : l = []
      · have := hrs.2 (fun h2 => h ⟨h1, h2⟩); omega
      · have := hls.2 h1; omega
    rw [cmp_step cc l r h, numCmp_key2 _ _ _ (num_no_plus (advance_num cc l)) (num_no_plus (advance_num cc r))
      (fun h => hl _ (advance_isRun cc l h)) (fun h => hr _ (advance_isRun cc r h)),
      ih _ _ hlt (fun run h => hl run (run_of_rest cc l run h)) (fun run h => hr run (run_of_rest cc r run h))]
    by_cases h1 : l = []
    · have h2 : r ≠ [] := fun h2 => h ⟨h1, h2⟩
      subst h1
      rw [tokens_nil, tokens_cons cc r h2]
      have e : advance cc [] = ([], [], []) := rfl
      rw [e]
      show _ = Ordering.lt
      by_cases h3 : (advance cc r).1 = []
      · have h4 : (advance cc r).2.1 ≠ [] := fun h4 => h2 (advance_empty cc r h3 h4)
        have e1 : compare (rank []) (rank (advance cc r).2.1) = .lt := Nat.compare_eq_lt.mpr (rank_pos h4)
        rw [h3, e1]; rfl
      · cases h5 : (advance cc r).1 with
        | nil => exact absurd h5 h3
        | cons c t => rfl
    · by_cases h2 : r = []
      · subst h2
        rw [tokens_nil, tokens_cons cc l h1]
        have e : advance cc [] = ([], [], []) := rfl
        rw [e]
        show _ = Ordering.gt
        by_cases h3 : (advance cc l).1 = []
        · have h4 : (advance cc l).2.1 ≠ [] := fun h4 => h1 (advance_empty cc l h3 h4)
          have e1 : compare (rank (advance cc l).2.1) (rank []) = .gt := Nat.compare_eq_gt.mpr (rank_pos h4)
          rw [h3, e1]; rfl
        · cases h5 : (advance cc l).1 with
          | nil => exact absurd h5 h3
          | cons c t => rfl
      · rw [tokens_cons cc l h1, tokens_cons cc r h2, List.compareLex_cons_cons]
        simp only [cmpTok2, compareLex, compareOn, then_assoc']
        rfl

/-! ## Cycles -/

/-- Numeric characters up to `9` are digits. -/
def Numeral (c : Char) : Prop := c.toNat ≤ 57 → 48 ≤ c.toNat

theorem char_of {c : Char} {n : Nat} (h : c.toNat = n) : c = Char.ofNat n := by
  rw [← h, Char.ofNat_toNat]

theorem before_nines (n : Nat) : ∀ run : List Char, (∀ c ∈ run, Numeral c) → cmpStr run (List.replicate n '9') = .lt →
    (∃ k, k < n ∧ run = List.replicate k '9') ∨
    ∃ k i rest, k < n ∧ i < 9 ∧ run = List.replicate k '9' ++ Char.ofNat (48 + i) :: rest := by
  induction n with
  | zero =>
    intro run _ h
    cases run <;> cases h
  | succ n ih =>
    intro run hd h
    cases run with
    | nil => exact .inl ⟨0, by omega, rfl⟩
    | cons c run =>
      by_cases hlt : c.toNat < 57
      · right
        have := hd c (by simp) (by omega)
        exact ⟨0, c.toNat - 48, run, by omega, by omega, by rw [show 48 + (c.toNat - 48) = c.toNat by omega, Char.ofNat_toNat]; rfl⟩
      · by_cases heq : c.toNat = 57
        · have hc : c = '9' := char_of heq
          subst hc
          rw [List.replicate_succ, cmpStr_cons, self_cmp] at h
          rcases ih run (fun c h => hd c (by simp [h])) h with ⟨k, hk, e⟩ | ⟨k, i, rest, hk, hi, e⟩
          · exact .inl ⟨k + 1, by omega, by rw [e, List.replicate_succ]⟩
          · exact .inr ⟨k + 1, i, rest, by omega, hi, by rw [e, List.replicate_succ]; rfl⟩
        · rw [List.replicate_succ, cmpStr_swap, cmpStr_lt_head (show '9'.toNat < c.toNat from by
            show 57 < c.toNat; omega)] at h
          cases h

theorem zeros_split (run : List Char) : (∃ j, run = List.replicate j '0') ∨
    ∃ j y r, run = List.replicate j '0' ++ y :: r ∧ y ≠ '0' := by
  induction run with
  | nil => exact .inl ⟨0, rfl⟩
  | cons c run ih =>
    by_cases hc : c = '0'
    · subst hc
      rcases ih with ⟨j, e⟩ | ⟨j, y, r, e, hy⟩
      · exact .inl ⟨j + 1, by rw [e, List.replicate_succ]⟩
      · exact .inr ⟨j + 1, y, r, by rw [e, List.replicate_succ]; rfl, hy⟩
    · exact .inr ⟨0, c, run, rfl, hc⟩

theorem decimal_zeros (j : Nat) (x : List Char) : decimal (List.replicate j '0' ++ x) = decimal x := by
  induction j with
  | zero => rfl
  | succ j ih => rw [List.replicate_succ, List.cons_append, decimal, List.foldl_cons]; exact ih

theorem zeros_digits (j : Nat) (x : List Char) (hx : ∀ c ∈ x, isDigit c) : ∀ c ∈ List.replicate j '0' ++ x, isDigit c := by
  intro c hc
  rcases List.mem_append.mp hc with h | h
  · rw [List.eq_of_mem_replicate h]; decide
  · exact hx c h

/-- A run that is no number, without its leading zeros, comes after `10`. -/
theorem after_ten (j : Nat) (y : Char) (r : List Char) (hd : ∀ c ∈ y :: r, Numeral c) (hy : y ≠ '0')
    (hn : ¬ Number (List.replicate j '0' ++ y :: r)) : cmpStr ['1', '0'] (y :: r) = .lt := by
  have num : ∀ x : List Char, x ≠ [] → (∀ c ∈ x, isDigit c) → decimal x < 2 ^ 64 → Number (List.replicate j '0' ++ x) :=
    fun x h1 h2 h3 => ⟨by simp [h1], zeros_digits j x h2, by rw [decimal_zeros]; exact h3⟩
  have h0 : ∀ c : Char, c ≠ '0' → Numeral c → 48 < c.toNat := by
    intro c hc hn
    have h1 : c.toNat ≠ 48 := fun h => hc (char_of h)
    by_cases h2 : c.toNat ≤ 57
    · have := hn h2; omega
    · omega
  have hy1 := h0 y hy (hd y (by simp))
  by_cases h1 : y.toNat = 49
  · have e1 : y = '1' := char_of h1
    subst e1
    rw [cmpStr_cons, self_cmp]
    show cmpStr ['0'] r = .lt
    cases r with
    | nil => exact absurd (num ['1'] (by simp) (by decide) (by decide)) hn
    | cons z r =>
      by_cases hz : z = '0'
      · subst hz
        cases r with
        | nil => exact absurd (num ['1', '0'] (by simp) (by decide) (by decide)) hn
        | cons w r => rw [cmpStr_cons, self_cmp]; rfl
      · exact cmpStr_lt_head (show '0'.toNat < z.toNat from h0 z hz (hd z (by simp))) _ _
  · exact cmpStr_lt_head (show '1'.toNat < y.toNat by show 49 < y.toNat; omega) _ _

/-- What makes a cycle: a smaller and a greater number, the greater one's text before and the smaller one's text
after that of a run that is no number. -/
theorem cycle_numbers (run : List Char) (hne : run ≠ []) (hd : ∀ c ∈ run, Numeral c) (hh : ¬ Harmless run) :
    ∃ a b, Number a ∧ Number b ∧ decimal a < decimal b ∧ cmpStr b run = .lt ∧ cmpStr run a = .lt := by
  have hn : ¬ Number run := fun h => hh (.inl h)
  have hlt : cmpStr run nines = .lt := by
    cases hc : cmpStr run nines with
    | lt => rfl
    | eq => exact absurd (.inr (by rw [cmpStr_swap, hc]; rfl)) hh
    | gt => exact absurd (.inr (by rw [cmpStr_swap, hc]; rfl)) hh
  rcases before_nines 19 run hd hlt with ⟨k, hk, rfl⟩ | ⟨k, i, rest, hk, hi, rfl⟩
  · refine absurd ⟨hne, ?_, ?_⟩ hn
    · intro c hc
      rw [List.eq_of_mem_replicate hc]; decide
    · exact (show ∀ k, k < 19 → decimal (List.replicate k '9') < 2 ^ 64 by decide) k hk
  · have hup : cmpStr (List.replicate k '9' ++ Char.ofNat (48 + i) :: rest) (List.replicate k '9' ++ [Char.ofNat (49 + i)]) = .lt := by
      rw [cmpStr_prefix]
      apply cmpStr_lt_head
      exact (show ∀ i, i < 9 → (Char.ofNat (48 + i)).toNat < (Char.ofNat (49 + i)).toNat by decide) i hi
    cases k with
    | succ k =>
      refine ⟨List.replicate (k + 1) '9' ++ [Char.ofNat (49 + i)], '1' :: List.replicate (k + 2) '0', ?_, ?_, ?_, ?_, hup⟩
      · refine ⟨by simp, ?_, ?_⟩
        · intro c hc
          rcases List.mem_append.mp hc with h | h
          · rw [List.eq_of_mem_replicate h]; decide
          · rw [List.mem_singleton.mp h]
            exact (show ∀ i, i < 9 → isDigit (Char.ofNat (49 + i)) by decide) i hi
        · exact (show ∀ k, k < 18 → ∀ i, i < 9 → decimal (List.replicate (k + 1) '9' ++ [Char.ofNat (49 + i)]) < 2 ^ 64 by
            decide +kernel) k (by omega) i hi
      · refine ⟨by simp, ?_, ?_⟩
        · intro c hc
          rcases List.mem_cons.mp hc with rfl | h
          · decide
          · rw [List.eq_of_mem_replicate h]; decide
        · exact (show ∀ k, k < 18 → decimal ('1' :: List.replicate (k + 2) '0') < 2 ^ 64 by decide +kernel) k (by omega)
      · exact (show ∀ k, k < 18 → ∀ i, i < 9 → decimal (List.replicate (k + 1) '9' ++ [Char.ofNat (49 + i)]) <
            decimal ('1' :: List.replicate (k + 2) '0') by decide +kernel) k (by omega) i hi
      · rw [List.replicate_succ (n := k)]
        exact cmpStr_lt_head (by decide) _ _
    | zero =>
      have hx : ∀ i, i < 9 → Number [Char.ofNat (49 + i)] ∧ decimal [Char.ofNat (49 + i)] < 10 := fun i hi =>
        ⟨⟨by simp, (show ∀ i, i < 9 → ∀ c ∈ [Char.ofNat (49 + i)], isDigit c by decide) i hi,
          (show ∀ i, i < 9 → decimal [Char.ofNat (49 + i)] < 2 ^ 64 by decide) i hi⟩,
          (show ∀ i, i < 9 → decimal [Char.ofNat (49 + i)] < 10 by decide) i hi⟩
      rcases zeros_split (Char.ofNat (48 + i) :: rest) with ⟨j, e⟩ | ⟨j, y, r, e, hy⟩
      · refine absurd ⟨hne, ?_, ?_⟩ hn
        · show ∀ c ∈ Char.ofNat (48 + i) :: rest, isDigit c
          rw [e]
          intro c hc
          rw [List.eq_of_mem_replicate hc]; decide
        · show decimal (Char.ofNat (48 + i) :: rest) < _
          rw [e, ← List.append_nil (List.replicate j '0'), decimal_zeros]
          decide
      · have hd' : ∀ c ∈ y :: r, Numeral c := by
          intro c hc
          apply hd
          show c ∈ Char.ofNat (48 + i) :: rest
          rw [e]
          exact List.mem_append_right _ hc
        have hten := after_ten j y r hd' hy (by rw [← e]; exact hn)
        refine ⟨[Char.ofNat (49 + i)], List.replicate j '0' ++ ['1', '0'], (hx i hi).1, ⟨by simp, zeros_digits j _ (by decide), ?_⟩, ?_, ?_, hup⟩
        · rw [decimal_zeros]; decide
        · rw [decimal_zeros]
          exact (hx i hi).2
        · show cmpStr _ (Char.ofNat (48 + i) :: rest) = .lt
          rw [e, cmpStr_prefix]
          exact hten

/-! ## Runs one by one -/

/-- A run is the first one or one of the rest. -/
theorem run_cases (cc : CharClass) (s run : List Char) (h : IsRun cc s run) :
    run = (advance cc s).2.1 ∨ IsRun cc (advance cc s).2.2 run := by
  obtain ⟨pre, post, he, hne, hall, hpre, hpost⟩ := h
  by_cases hn : ∀ c ∈ pre, cc.num c = false
  · left
    rw [he, advance_of cc pre run post hn hall hne hpost]
  · right
    have hd : (advance cc pre).2.1 ≠ [] := by
      intro hd
      apply hn
      have hq : pre.dropWhile (fun c => !cc.num c) = [] := by
        cases hq : pre.dropWhile (fun c => !cc.num c) with
        | nil => rfl
        | cons c q =>
          have h1 := head_dropWhile (fun c => !cc.num c) pre c (by rw [hq]; rfl)
          have h2 : (advance cc pre).2.1 = (c :: q).takeWhile cc.num := by simp only [advance, hq]
          have h3 : cc.num c = true := by simpa using h1
          rw [hd, List.takeWhile_cons, if_pos h3] at h2
          cases h2
      have h2 : pre = (advance cc pre).1 := by
        have := advance_append cc pre
        have h3 : (advance cc pre).2.2 = [] := by simp only [advance, hq]; rfl
        rw [hd, h3] at this
        simpa using this.symm
      rw [h2]
      exact advance_name cc pre
    have hr : (advance cc pre).2.2 ≠ [] := by
      intro hr
      have ha := advance_append cc pre
      rw [hr, List.append_nil] at ha
      cases hl : (advance cc pre).2.1.getLast? with
      | none => rw [List.getLast?_eq_none_iff] at hl; exact hd hl
      | some c =>
        have h1 := hpre c (by rw [← ha, List.getLast?_append, hl]; rfl)
        have h2 := advance_num cc pre c (List.mem_of_getLast? hl)
        rw [h1] at h2; cases h2
    have hadv : advance cc s = ((advance cc pre).1, (advance cc pre).2.1, (advance cc pre).2.2 ++ (run ++ post)) := by
      have e : s = (advance cc pre).1 ++ ((advance cc pre).2.1 ++ ((advance cc pre).2.2 ++ (run ++ post))) := by
        rw [he]
        conv => lhs; rw [← advance_append cc pre]
        simp
      rw [e]
      apply advance_of cc _ _ _ (advance_name cc pre) (advance_num cc pre) hd
      intro c hc
      apply advance_rest_head cc pre c
      cases hq : (advance cc pre).2.2 with
      | nil => exact absurd hq hr
      | cons a q => rw [hq] at hc; exact hc
    rw [hadv]
    refine ⟨(advance cc pre).2.2, post, rfl, hne, hall, ?_, hpost⟩
    intro c hc
    apply hpre c
    have ha := advance_append cc pre
    rw [← ha, List.getLast?_append, List.getLast?_append, hc]; rfl

/-- A string that is not sortable has a first run that is not harmless. -/
theorem first_harm (cc : CharClass) (n : Nat) : ∀ s : List Char, s.length ≤ n → ¬ Sortable cc s →
    ∃ pre run post, s = pre ++ (run ++ post) ∧ run ≠ [] ∧ (∀ c ∈ run, cc.num c = true) ∧
      (∀ c, pre.getLast? = Option.some c → cc.num c = false) ∧
      (∀ c, post.head? = Option.some c → cc.num c = false) ∧ ¬ Harmless run ∧
      ∀ d, Number d → Sortable cc (pre ++ (d ++ [])) := by
  induction n with
  | zero =>
    intro s hs h
    have : s = [] := List.length_eq_zero_iff.mp (by omega)
    subst this
    refine absurd ?_ h
    rintro run ⟨pre, post, he, hne, _⟩
    have := congrArg List.length he
    simp at this
    exact absurd (List.length_eq_zero_iff.mp (by omega)) hne
  | succ n ih =>
    intro s hs h
    have hnum : ∀ d, Number d → ∀ c ∈ d, cc.num c = true := fun d hd c hc => cc.num_digit c (hd.2.1 c hc).1 (hd.2.1 c hc).2
    by_cases h1 : (advance cc s).2.1 ≠ [] ∧ ¬ Harmless (advance cc s).2.1
    · refine ⟨(advance cc s).1, (advance cc s).2.1, (advance cc s).2.2, (advance_append cc s).symm, h1.1,
        advance_num cc s, ?_, advance_rest_head cc s, h1.2, ?_⟩
      · intro c hc
        exact advance_name cc s c (List.mem_of_getLast? hc)
      · intro d hd run hr
        have e := advance_of cc (advance cc s).1 d [] (advance_name cc s) (hnum d hd) hd.1 (by simp)
        rcases run_cases cc _ run hr with h | h
        · rw [e] at h
          exact .inl (h ▸ hd)
        · rw [e] at h
          obtain ⟨pre, post, he, hne, _⟩ := h
          have := congrArg List.length he
          simp at this
          exact absurd (List.length_eq_zero_iff.mp (by omega)) hne
    · have hne : s ≠ [] := by
        rintro rfl
        apply h
        rintro run ⟨pre, post, he, hne, _⟩
        have := congrArg List.length he
        simp at this
        exact absurd (List.length_eq_zero_iff.mp (by omega)) hne
      have hrest : ¬ Sortable cc (advance cc s).2.2 := by
        intro hs'
        apply h
        intro run hr
        rcases run_cases cc s run hr with e | hr'
        · by_cases hh : Harmless (advance cc s).2.1
          · exact e ▸ hh
          · refine absurd ⟨?_, hh⟩ h1
            obtain ⟨_, _, _, hne, _⟩ := hr
            exact e ▸ hne
        · exact hs' run hr'
      have hlen := (advance_shorter cc s).2 hne
      obtain ⟨pre, run, post, he, g1, g2, g3, g4, g5, g6⟩ := ih (advance cc s).2.2 (by omega) hrest
      have hfst : (advance cc s).2.1 ≠ [] := by
        intro hd
        have := advance_append cc s
        cases hq : s.dropWhile (fun c => !cc.num c) with
        | nil =>
          have h3 : (advance cc s).2.2 = [] := by simp only [advance, hq]; rfl
          rw [h3] at he
          have := congrArg List.length he
          simp at this
          exact absurd (List.length_eq_zero_iff.mp (by omega)) g1
        | cons c q =>
          have h1 := head_dropWhile (fun c => !cc.num c) s c (by rw [hq]; rfl)
          have h2 : (advance cc s).2.1 = (c :: q).takeWhile cc.num := by simp only [advance, hq]
          have h3 : cc.num c = true := by simpa using h1
          rw [hd, List.takeWhile_cons, if_pos h3] at h2
          cases h2
      have hpne : pre ≠ [] := by
        rintro rfl
        cases hr : run with
        | nil => exact g1 hr
        | cons a run' =>
          have h1 := advance_rest_head cc s a (by rw [he, hr]; rfl)
          have h2 := g2 a (by simp [hr])
          rw [h1] at h2; cases h2
      refine ⟨(advance cc s).1 ++ ((advance cc s).2.1 ++ pre), run, post, ?_, g1, g2, ?_, g4, g5, ?_⟩
      · conv => lhs; rw [← advance_append cc s]
        rw [he]; simp
      · intro c hc
        apply g3
        rw [← hc, ← List.append_assoc, List.getLast?_append]
        cases hl : pre.getLast? with
        | none => rw [List.getLast?_eq_none_iff] at hl; exact absurd hl hpne
        | some x => rfl
      · intro d hd r hr
        have e : advance cc ((advance cc s).1 ++ ((advance cc s).2.1 ++ (pre ++ (d ++ [])))) =
            ((advance cc s).1, (advance cc s).2.1, pre ++ (d ++ [])) := by
          apply advance_of cc _ _ _ (advance_name cc s) (advance_num cc s) hfst
          intro c hc
          apply advance_rest_head cc s c
          rw [he]
          cases hq : pre with
          | nil => exact absurd hq hpne
          | cons a q => rw [hq] at hc; exact hc
        have e2 : (advance cc s).1 ++ ((advance cc s).2.1 ++ pre) ++ (d ++ []) =
            (advance cc s).1 ++ ((advance cc s).2.1 ++ (pre ++ (d ++ []))) := by simp
        rw [e2] at hr
        rcases run_cases cc _ r hr with h | h
        · rw [e] at h
          by_cases hh : Harmless (advance cc s).2.1
          · exact h ▸ hh
          · exact absurd ⟨hfst, hh⟩ h1
        · rw [e] at h
          exact g6 d hd r h

end Verif.Str
