import Verif.Str.Model
/-! # Lemmas about natural ordering -/
namespace Verif.Str

/-- The numeric comparison of two digit runs, `Equal` unless both parse. -/
def numCmp (a b : List Char) : Ordering :=
  match parseU64 a, parseU64 b with
  | Option.some a, Option.some b => compare a b
  | _, _ => .eq

theorem cmp_nil (cc : CharClass) : cmp_natural cc [] [] = .eq := by
  rw [cmp_natural]; simp

theorem cmp_step (cc : CharClass) (l r : List Char) (h : ¬ (l = [] ∧ r = [])) :
    cmp_natural cc l r =
      (cmpStr (advance cc l).1 (advance cc r).1).then
        ((numCmp (advance cc l).2.1 (advance cc r).2.1).then
          ((cmpStr (advance cc l).2.1 (advance cc r).2.1).then
            (cmp_natural cc (advance cc l).2.2 (advance cc r).2.2))) := by
  rw [cmp_natural, dif_neg h]
  simp only []
  cases cmpStr (advance cc l).1 (advance cc r).1
  · rfl
  · change (match numCmp (advance cc l).2.1 (advance cc r).2.1 with
      | .lt => Ordering.lt
      | .gt => Ordering.gt
      | .eq =>
        match cmpStr (advance cc l).2.1 (advance cc r).2.1 with
        | .lt => .lt
        | .gt => .gt
        | .eq => cmp_natural cc (advance cc l).2.2 (advance cc r).2.2) = _
    cases numCmp (advance cc l).2.1 (advance cc r).2.1
    · rfl
    · cases cmpStr (advance cc l).2.1 (advance cc r).2.1 <;> rfl
    · rfl
  · rfl

theorem advance_append (cc : CharClass) (s : List Char) :
    (advance cc s).1 ++ ((advance cc s).2.1 ++ (advance cc s).2.2) = s := by
  simp only [advance, List.takeWhile_append_dropWhile]

theorem numCmp_swap (a b : List Char) : numCmp b a = (numCmp a b).swap := by
  simp only [numCmp]
  cases parseU64 a <;> cases parseU64 b <;> simp
  exact Std.OrientedCmp.eq_swap

theorem cmpStr_swap (a b : List Char) : cmpStr b a = (cmpStr a b).swap := Std.OrientedCmp.eq_swap

theorem cmpStr_eq {a b : List Char} (h : cmpStr a b = .eq) : a = b := Std.LawfulEqCmp.eq_of_compare h

theorem cmpStr_self (a : List Char) : cmpStr a a = .eq := Std.ReflCmp.compare_self

theorem numCmp_self (a : List Char) : numCmp a a = .eq := by
  simp only [numCmp]
  cases parseU64 a <;> simp

theorem cmp_swap (cc : CharClass) (n : Nat) (l r : List Char) (hn : l.length + r.length ≤ n) :
    cmp_natural cc r l = (cmp_natural cc l r).swap := by
  induction n generalizing l r with
  | zero =>
    have h1 : l = [] := List.length_eq_zero_iff.mp (by omega)
    have h2 : r = [] := List.length_eq_zero_iff.mp (by omega)
    subst h1 h2; rw [cmp_nil]; rfl
  | succ n ih =>
    by_cases h : l = [] ∧ r = []
    · obtain ⟨rfl, rfl⟩ := h; rw [cmp_nil]; rfl
    · rw [cmp_step cc l r h, cmp_step cc r l (fun h' => h ⟨h'.2, h'.1⟩)]
      have hl := advance_shorter cc l
      have hr := advance_shorter cc r
      have hlt : (advance cc l).2.2.length + (advance cc r).2.2.length ≤ n := by
        by_cases h1 : l = []
        · have := hr.2 (fun h2 => h ⟨h1, h2⟩); omega
        · have := hl.2 h1; omega
      rw [ih _ _ hlt, Ordering.swap_then, Ordering.swap_then, Ordering.swap_then,
        cmpStr_swap (advance cc l).1, numCmp_swap (advance cc l).2.1, cmpStr_swap (advance cc l).2.1]

theorem then_eq_eq {a b : Ordering} (h : a.then b = .eq) : a = .eq ∧ b = .eq := by
  cases a <;> simp_all [Ordering.then]

theorem cmp_eq (cc : CharClass) (n : Nat) (l r : List Char) (hn : l.length + r.length ≤ n)
    (he : cmp_natural cc l r = .eq) : l = r := by
  induction n generalizing l r with
  | zero =>
    have h1 : l = [] := List.length_eq_zero_iff.mp (by omega)
    have h2 : r = [] := List.length_eq_zero_iff.mp (by omega)
    rw [h1, h2]
  | succ n ih =>
    by_cases h : l = [] ∧ r = []
    · rw [h.1, h.2]
    · rw [cmp_step cc l r h] at he
      obtain ⟨h1, he⟩ := then_eq_eq he
      obtain ⟨-, he⟩ := then_eq_eq he
      obtain ⟨h2, he⟩ := then_eq_eq he
      have hl := advance_shorter cc l
      have hr := advance_shorter cc r
      have hlt : (advance cc l).2.2.length + (advance cc r).2.2.length ≤ n := by
        by_cases h1 : l = []
        · have := hr.2 (fun h2 => h ⟨h1, h2⟩); omega
        · have := hl.2 h1; omega
      rw [← advance_append cc l, ← advance_append cc r, cmpStr_eq h1, cmpStr_eq h2, ih _ _ hlt he]

theorem cmp_self (cc : CharClass) (n : Nat) (l : List Char) (hn : l.length ≤ n) :
    cmp_natural cc l l = .eq := by
  induction n generalizing l with
  | zero =>
    have h1 : l = [] := List.length_eq_zero_iff.mp (by omega)
    rw [h1, cmp_nil]
  | succ n ih =>
    by_cases h : l = []
    · rw [h, cmp_nil]
    · rw [cmp_step cc l l (fun h' => h h'.1), cmpStr_self, numCmp_self, cmpStr_self,
        ih _ (by have := (advance_shorter cc l).2 h; omega)]
      rfl

/-! ## Decimal value -/

/-- The decimal value of a digit run. -/
def decimal (ds : List Char) : Nat := ds.foldl (fun v c => v * 10 + (c.toNat - 48)) 0

def isDigit (c : Char) : Prop := '0' ≤ c ∧ c ≤ '9'

instance (c : Char) : Decidable (isDigit c) := inferInstanceAs (Decidable (_ ∧ _))

theorem foldl_ge (ds : List Char) (v : Nat) :
    v ≤ ds.foldl (fun v c => v * 10 + (c.toNat - 48)) v := by
  induction ds generalizing v with
  | nil => exact Nat.le_refl _
  | cons c ds ih => exact Nat.le_trans (by show v ≤ v * 10 + (c.toNat - 48); omega) (ih _)

theorem parseDigits_some (ds : List Char) (v : Nat) (hd : ∀ c ∈ ds, isDigit c)
    (h : ds.foldl (fun v c => v * 10 + (c.toNat - 48)) v < 2 ^ 64) :
    parseDigits ds v = Option.some (ds.foldl (fun v c => v * 10 + (c.toNat - 48)) v) := by
  induction ds generalizing v with
  | nil => rfl
  | cons c ds ih =>
    have hc : digit c = Option.some (c.toNat - 48) := if_pos (hd c (by simp))
    have hlt : v * 10 + (c.toNat - 48) < 2 ^ 64 := Nat.lt_of_le_of_lt (foldl_ge ds _) h
    rw [parseDigits, hc]
    show (if _ then _ else _) = _
    rw [if_pos hlt, ih _ (fun c h => hd c (by simp [h])) h]
    rfl

theorem parseU64_some (ds : List Char) (hne : ds ≠ []) (hd : ∀ c ∈ ds, isDigit c)
    (h : decimal ds < 2 ^ 64) : parseU64 ds = Option.some (decimal ds) := by
  have key := parseDigits_some ds 0 hd h
  unfold parseU64
  split
  · exact absurd rfl hne
  · exact absurd (hd '+' (by simp)) (by decide)
  · exact absurd (hd '+' (by simp)) (by decide)
  · exact key

/-! ## Runs -/

/-- `run` occurs in `s` as a maximal run of numeric characters. -/
def IsRun (cc : CharClass) (s run : List Char) : Prop :=
  ∃ pre post, s = pre ++ (run ++ post) ∧ run ≠ [] ∧ (∀ c ∈ run, cc.num c = true) ∧
    (∀ c, pre.getLast? = Option.some c → cc.num c = false) ∧
    (∀ c, post.head? = Option.some c → cc.num c = false)

/-- Every maximal run of numeric characters is an ASCII number below 2^64. -/
def Fits (cc : CharClass) (s : List Char) : Prop :=
  ∀ run, IsRun cc s run → (∀ c ∈ run, isDigit c) ∧ decimal run < 2 ^ 64

theorem head_dropWhile (p : Char → Bool) (s : List Char) (c : Char)
    (h : (s.dropWhile p).head? = Option.some c) : p c = false := by
  induction s with
  | nil => simp at h
  | cons a s ih =>
    rw [List.dropWhile_cons] at h
    split at h
    · exact ih h
    · rename_i hp
      simp at h; subst h; simpa using hp

theorem advance_rest_head (cc : CharClass) (s : List Char) (c : Char)
    (h : (advance cc s).2.2.head? = Option.some c) : cc.num c = false := head_dropWhile _ _ _ h

theorem mem_takeWhile {p : Char → Bool} {s : List Char} {c : Char} (h : c ∈ s.takeWhile p) : p c = true := by
  induction s with
  | nil => simp at h
  | cons a s ih =>
    rw [List.takeWhile_cons] at h
    split at h
    · rename_i hp
      rcases List.mem_cons.mp h with h | h
      · subst h; exact hp
      · exact ih h
    · simp at h

theorem advance_num (cc : CharClass) (s : List Char) : ∀ c ∈ (advance cc s).2.1, cc.num c = true :=
  fun _ h => mem_takeWhile h

theorem advance_name (cc : CharClass) (s : List Char) : ∀ c ∈ (advance cc s).1, cc.num c = false := by
  intro c h
  have := mem_takeWhile h
  simpa using this

theorem advance_isRun (cc : CharClass) (s : List Char) (h : (advance cc s).2.1 ≠ []) :
    IsRun cc s (advance cc s).2.1 := by
  refine ⟨(advance cc s).1, (advance cc s).2.2, (advance_append cc s).symm, h, advance_num cc s, ?_,
    advance_rest_head cc s⟩
  intro c hc
  exact advance_name cc s c (List.mem_of_getLast? hc)

theorem fits_rest (cc : CharClass) (s : List Char) (h : Fits cc s) : Fits cc (advance cc s).2.2 := by
  rintro run ⟨pre, post, he, hne, hall, hpre, hpost⟩
  apply h
  refine ⟨(advance cc s).1 ++ ((advance cc s).2.1 ++ pre), post, ?_, hne, hall, ?_, hpost⟩
  · conv => lhs; rw [← advance_append cc s]
    rw [he]; simp
  · intro c hc
    cases hp : pre with
    | nil =>
      exfalso
      rw [hp] at he
      cases hr : run with
      | nil => exact hne hr
      | cons a run' =>
        have h1 := advance_rest_head cc s a (by rw [he, hr]; rfl)
        have h2 := hall a (by simp [hr])
        rw [h1] at h2; cases h2
    | cons a pre' =>
      apply hpre
      rw [← hc, ← List.append_assoc, List.getLast?_append]
      rw [hp]
      cases hl : (a :: pre').getLast? with
      | none => simp at hl
      | some x => rfl

theorem advance_empty (cc : CharClass) (s : List Char) (h1 : (advance cc s).1 = [])
    (h2 : (advance cc s).2.1 = []) : s = [] := by
  by_cases h : s = []
  · exact h
  · have h3 := (advance_shorter cc s).2 h
    have h4 := congrArg List.length (advance_append cc s)
    rw [h1, h2] at h4
    simp at h4; omega

/-! ## The key order -/

/-- Name/number tokens. -/
def tokens (cc : CharClass) (s : List Char) : List (List Char × List Char) :=
  if h : s = [] then []
  else ((advance cc s).1, (advance cc s).2.1) :: tokens cc (advance cc s).2.2
termination_by s.length
decreasing_by exact (advance_shorter cc s).2 h

def val (ds : List Char) : Nat := if ds = [] then 0 else decimal ds + 1

/-- Names first, then numeric value, then the text of the number. -/
def cmpTok : List Char × List Char → List Char × List Char → Ordering :=
  compareLex (compareOn Prod.fst) (compareLex (compareOn fun t => val t.2) (compareOn Prod.snd))

instance : Std.TransCmp cmpTok := inferInstanceAs (Std.TransCmp (compareLex _ _))

theorem compare_succ (a b : Nat) : compare (a + 1) (b + 1) = compare a b := by
  rw [Nat.compare_eq_ite_lt, Nat.compare_eq_ite_lt]
  simp

theorem numCmp_key (a b : List Char) (o : Ordering)
    (ha : a ≠ [] → (∀ c ∈ a, isDigit c) ∧ decimal a < 2 ^ 64)
    (hb : b ≠ [] → (∀ c ∈ b, isDigit c) ∧ decimal b < 2 ^ 64) :
    (numCmp a b).then ((cmpStr a b).then o) = (compare (val a) (val b)).then ((cmpStr a b).then o) := by
  by_cases h1 : a = []
  · by_cases h2 : b = []
    · subst h1 h2; rfl
    · subst h1
      have e1 : numCmp [] b = .eq := by simp [numCmp, parseU64]
      have e2 : cmpStr [] b = .lt := by
        cases b with
        | nil => exact absurd rfl h2
        | cons c b => rfl
      have e3 : compare (val []) (val b) = .lt := by
        simp [val, h2, Nat.compare_eq_lt]
      rw [e1, e2, e3]; rfl
  · by_cases h2 : b = []
    · subst h2
      have e1 : numCmp a [] = .eq := by
        simp only [numCmp]
        cases parseU64 a <;> simp [parseU64]
      have e2 : cmpStr a [] = .gt := by
        cases a with
        | nil => exact absurd rfl h1
        | cons c b => rfl
      have e3 : compare (val a) (val []) = .gt := by
        simp [val, h1, Nat.compare_eq_gt]
      rw [e1, e2, e3]; rfl
    · have e1 : numCmp a b = compare (val a) (val b) := by
        simp only [numCmp, parseU64_some a h1 (ha h1).1 (ha h1).2, parseU64_some b h2 (hb h2).1 (hb h2).2,
          val, h1, h2, if_false, compare_succ]
      rw [e1]

theorem tokens_nil (cc : CharClass) : tokens cc [] = [] := by rw [tokens]; simp

theorem tokens_cons (cc : CharClass) (s : List Char) (h : s ≠ []) :
    tokens cc s = ((advance cc s).1, (advance cc s).2.1) :: tokens cc (advance cc s).2.2 := by
  rw [tokens, dif_neg h]

theorem then_assoc' (a b c : Ordering) : (a.then b).then c = a.then (b.then c) := by
  cases a <;> rfl

theorem cmp_key (cc : CharClass) (n : Nat) (l r : List Char) (hn : l.length + r.length ≤ n)
    (hl : Fits cc l) (hr : Fits cc r) :
    cmp_natural cc l r = List.compareLex cmpTok (tokens cc l) (tokens cc r) := by
  induction n generalizing l r with
  | zero =>
    have h1 : l = [] := List.length_eq_zero_iff.mp (by omega)
    have h2 : r = [] := List.length_eq_zero_iff.mp (by omega)
    subst h1 h2; rw [cmp_nil, tokens_nil]; rfl
  | succ n ih =>
    by_cases h : l = [] ∧ r = []
    · obtain ⟨rfl, rfl⟩ := h; rw [cmp_nil, tokens_nil]; rfl
    have hls := advance_shorter cc l
    have hrs := advance_shorter cc r
    have hlt : (advance cc l).2.2.length + (advance cc r).2.2.length ≤ n := by
      by_cases h1 : l = []
      · have := hrs.2 (fun h2 => h ⟨h1, h2⟩); omega
      · have := hls.2 h1; omega
    rw [cmp_step cc l r h, numCmp_key _ _ _ (fun h => hl _ (advance_isRun cc l h))
      (fun h => hr _ (advance_isRun cc r h)), ih _ _ hlt (fits_rest cc l hl) (fits_rest cc r hr)]
    by_cases h1 : l = []
    · have h2 : r ≠ [] := fun h2 => h ⟨h1, h2⟩
      subst h1
      rw [tokens_nil, tokens_cons cc r h2]
      have e : advance cc [] = ([], [], []) := rfl
      rw [e]
      show _ = Ordering.lt
      by_cases h3 : (advance cc r).1 = []
      · have h4 : (advance cc r).2.1 ≠ [] := fun h4 => h2 (advance_empty cc r h3 h4)
        have e1 : compare (val []) (val (advance cc r).2.1) = .lt := by
          simp [val, h4, Nat.compare_eq_lt]
        rw [h3, e1]; rfl
      · cases h5 : (advance cc r).1 with
        | nil => exact absurd h5 h3
        | cons c t => rfl
    · by_cases h2 : r = []
      · subst h2
        rw [tokens_nil, tokens_cons cc l h1]
        have e : advance cc [] = ([], [], []) := rfl
        rw [e]
        show _ = Ordering.gt
        by_cases h3 : (advance cc l).1 = []
        · have h4 : (advance cc l).2.1 ≠ [] := fun h4 => h1 (advance_empty cc l h3 h4)
          have e1 : compare (val (advance cc l).2.1) (val []) = .gt := by
            simp [val, h4, Nat.compare_eq_gt]
          rw [h3, e1]; rfl
        · cases h5 : (advance cc l).1 with
          | nil => exact absurd h5 h3
          | cons c t => rfl
      · rw [tokens_cons cc l h1, tokens_cons cc r h2, List.compareLex_cons_cons]
        simp only [cmpTok, compareLex, compareOn, then_assoc']
        rfl

end Verif.Str
