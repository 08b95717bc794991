import Verif.Str.Lemmas
/-! # Property theorems: string utilities (C13, C14, C15, C52)

`cc` ranges over every classification of characters in which ASCII digits are numeric and `_`, `+` are not. -/
namespace Verif.Str

/-- **C13** (a). Natural comparison yields `Equal` exactly on identical strings. -/
theorem cmp_natural_eq_iff (cc : CharClass) (a b : List Char) : cmp_natural cc a b = .eq ↔ a = b :=
  ⟨cmp_eq cc _ a b (Nat.le_refl _), fun h => h ▸ cmp_self cc _ a (Nat.le_refl _)⟩

/-- **C13** (b). Exchanging the arguments reverses the result. -/
theorem cmp_natural_antisymm (cc : CharClass) (a b : List Char) :
    cmp_natural cc b a = (cmp_natural cc a b).swap := cmp_swap cc _ a b (Nat.le_refl _)

example : cmp_natural ascii "a007".toList "a7".toList = .lt := by
  rw [cmp_step _ _ _ (by decide)]; decide

/-- **C14** (a). Transitive on strings whose digit runs are ASCII numbers below 2^64. The full property
is false, see `cmp_natural_not_transitive`. -/
theorem cmp_natural_trans_partial (cc : CharClass) (a b c : List Char)
    (ha : Fits cc a) (hb : Fits cc b) (hc : Fits cc c) :
    ((cmp_natural cc a b).isLE → (cmp_natural cc b c).isLE → (cmp_natural cc a c).isLE) ∧
    (cmp_natural cc a b = .lt → cmp_natural cc b c = .lt → cmp_natural cc a c = .lt) := by
  rw [cmp_key cc _ a b (Nat.le_refl _) ha hb, cmp_key cc _ b c (Nat.le_refl _) hb hc,
    cmp_key cc _ a c (Nat.le_refl _) ha hc]
  exact ⟨Std.TransCmp.isLE_trans, Std.TransCmp.lt_trans⟩

/-- A character classification is not needed to see that short ASCII strings qualify. -/
example : Fits ascii "foo2bar10".toList := by
  rintro run ⟨pre, post, he, hne, hall, hpre, hpost⟩
  constructor
  · intro c hc
    have := hall c hc
    simpa [ascii, isDigit] using this
  · have hlen : run.length ≤ 9 := by
      have := congrArg List.length he
      simp at this; omega
    have key : ∀ (ds : List Char) (v k : Nat), v < 10 ^ k → (∀ c ∈ ds, isDigit c) →
        ds.foldl (fun v c => v * 10 + (c.toNat - 48)) v < 10 ^ (k + ds.length) := by
      intro ds
      induction ds with
      | nil => intro v k h _; simpa using h
      | cons c ds ih =>
        intro v k h hd
        have hc : c.toNat ≤ 57 := (hd c (by simp)).2
        have := ih (v * 10 + (c.toNat - 48)) (k + 1) (by rw [Nat.pow_succ]; omega)
          (fun c h => hd c (by simp [h]))
        simpa [Nat.add_assoc, Nat.add_comm 1] using this
    have h1 := key run 0 0 (by decide) (fun c hc => by
      have := hall c hc
      simpa [ascii, isDigit] using this)
    have h2 : (10 : Nat) ^ (0 + run.length) ≤ 10 ^ 9 := Nat.pow_le_pow_right (by decide) (by omega)
    exact Nat.lt_trans (Nat.lt_of_lt_of_le h1 h2) (by decide)

theorem dropWhile_all_append (p : Char → Bool) (a b : List Char) (h : ∀ c ∈ a, p c = true) :
    (a ++ b).dropWhile p = b.dropWhile p ∧ (a ++ b).takeWhile p = a ++ b.takeWhile p := by
  induction a with
  | nil => exact ⟨rfl, rfl⟩
  | cons c a ih =>
    have hc := h c (by simp)
    have := ih (fun c h' => h c (by simp [h']))
    simp [hc, this]

theorem dropWhile_head (p : Char → Bool) (b : List Char) (h : ∀ c, b.head? = Option.some c → p c = false) :
    b.dropWhile p = b ∧ b.takeWhile p = [] := by
  cases b with
  | nil => exact ⟨rfl, rfl⟩
  | cons c b =>
    have := h c rfl
    simp [this]

theorem advance_of (cc : CharClass) (n d t : List Char) (hn : ∀ c ∈ n, cc.num c = false)
    (hd : ∀ c ∈ d, cc.num c = true) (hne : d ≠ []) (ht : ∀ c, t.head? = Option.some c → cc.num c = false) :
    advance cc (n ++ (d ++ t)) = (n, d, t) := by
  have h1 := dropWhile_all_append (fun c => !cc.num c) n (d ++ t) (fun c h => by simp [hn c h])
  have h2 := dropWhile_head (fun c => !cc.num c) (d ++ t) (by
    intro c hc
    cases d with
    | nil => exact absurd rfl hne
    | cons a d => simp at hc; subst hc; simp [hd])
  have h3 := dropWhile_all_append cc.num d t hd
  have h4 := dropWhile_head cc.num t ht
  simp only [advance, h1.1, h1.2, h2.1, h2.2, h3.1, h3.2, h4.1, h4.2, List.append_nil]

/-- Common prefixes up to a non-numeric character do not matter. -/
theorem cmp_common_prefix (cc : CharClass) (k : Nat) (p x y : List Char) (hk : p.length ≤ k)
    (hp : ∀ c, p.getLast? = Option.some c → cc.num c = false)
    (hxy : ∀ n : List Char, (∀ c ∈ n, cc.num c = false) → cmp_natural cc (n ++ x) (n ++ y) = .lt) :
    cmp_natural cc (p ++ x) (p ++ y) = .lt := by
  induction k generalizing p with
  | zero =>
    have : p = [] := List.length_eq_zero_iff.mp (by omega)
    subst this
    exact hxy [] (by simp)
  | succ k ih =>
    by_cases hd : (advance cc p).2.1 = []
    · have hrest : (advance cc p).2.2 = [] := by
        by_cases hr : (advance cc p).2.2 = []
        · exact hr
        · exfalso
          -- the number is empty only if the rest after the name is empty
          have : (p.dropWhile (fun c => !cc.num c)) = [] := by
            cases hq : p.dropWhile (fun c => !cc.num c) with
            | nil => rfl
            | cons c q =>
              have h1 := head_dropWhile (fun c => !cc.num c) p c (by rw [hq]; rfl)
              have h2 : (advance cc p).2.1 = (c :: q).takeWhile cc.num := by simp only [advance, hq]
              have h3 : cc.num c = true := by simpa using h1
              rw [hd, List.takeWhile_cons, if_pos h3] at h2
              cases h2
          apply hr
          simp only [advance, this]; rfl
      have hpn : p = (advance cc p).1 := by
        have := advance_append cc p
        rw [hd, hrest] at this
        simpa using this.symm
      rw [hpn]
      exact hxy _ (advance_name cc p)
    · have hr : (advance cc p).2.2 ≠ [] := by
        intro hr
        have ha := advance_append cc p
        rw [hr, List.append_nil] at ha
        cases hl : (advance cc p).2.1.getLast? with
        | none => rw [List.getLast?_eq_none_iff] at hl; exact hd hl
        | some c =>
          have h1 := hp c (by rw [← ha, List.getLast?_append, hl]; rfl)
          have h2 := advance_num cc p c (List.mem_of_getLast? hl)
          rw [h1] at h2; cases h2
      have hsplit : ∀ z, p ++ z = (advance cc p).1 ++ ((advance cc p).2.1 ++ ((advance cc p).2.2 ++ z)) := by
        intro z
        conv => lhs; rw [← advance_append cc p]
        simp
      have hadv : ∀ z, advance cc (p ++ z) = ((advance cc p).1, (advance cc p).2.1, (advance cc p).2.2 ++ z) := by
        intro z
        rw [hsplit z]
        apply advance_of cc _ _ _ (advance_name cc p) (advance_num cc p) hd
        intro c hc
        apply advance_rest_head cc p c
        cases hq : (advance cc p).2.2 with
        | nil => exact absurd hq hr
        | cons a q => rw [hq] at hc; exact hc
      have hpne : p ≠ [] := by rintro rfl; exact hr rfl
      rw [cmp_step cc _ _ (by simp [hpne]), hadv, hadv, cmpStr_self, numCmp_self, cmpStr_self]
      show cmp_natural cc ((advance cc p).2.2 ++ x) ((advance cc p).2.2 ++ y) = .lt
      apply ih
      · have := (advance_shorter cc p).2 hpne; omega
      · intro c hc
        apply hp c
        have ha := advance_append cc p
        rw [← ha, List.getLast?_append, List.getLast?_append, hc]; rfl

/-- **C14** (b). Numbers are ordered by value: after a common prefix, the string with the smaller number
comes first, whatever follows, for all ASCII numbers below 2^64 of any length. -/
theorem cmp_natural_numeric (cc : CharClass) (p d₁ d₂ s₁ s₂ : List Char)
    (hp : ∀ c, p.getLast? = Option.some c → cc.num c = false)
    (h1 : ∀ c ∈ d₁, isDigit c) (h2 : ∀ c ∈ d₂, isDigit c) (n1 : d₁ ≠ []) (n2 : d₂ ≠ [])
    (v2 : decimal d₂ < 2 ^ 64)
    (t1 : ∀ c, s₁.head? = Option.some c → cc.num c = false)
    (t2 : ∀ c, s₂.head? = Option.some c → cc.num c = false)
    (hlt : decimal d₁ < decimal d₂) :
    cmp_natural cc (p ++ (d₁ ++ s₁)) (p ++ (d₂ ++ s₂)) = .lt := by
  apply cmp_common_prefix cc _ p _ _ (Nat.le_refl _) hp
  intro n hn
  have hd1 : ∀ c ∈ d₁, cc.num c = true := fun c h => cc.num_digit c (h1 c h).1 (h1 c h).2
  have hd2 : ∀ c ∈ d₂, cc.num c = true := fun c h => cc.num_digit c (h2 c h).1 (h2 c h).2
  rw [cmp_step cc _ _ (by simp [n1]), advance_of cc n d₁ s₁ hn hd1 n1 t1, advance_of cc n d₂ s₂ hn hd2 n2 t2,
    cmpStr_self]
  have : numCmp d₁ d₂ = .lt := by
    simp only [numCmp, parseU64_some d₁ n1 h1 (by omega), parseU64_some d₂ n2 h2 v2]
    exact Nat.compare_eq_lt.mpr hlt
  rw [this]; rfl

example : cmp_natural ascii "v1.9-rc".toList "v1.10".toList = .lt :=
  cmp_natural_numeric ascii "v1.".toList "9".toList "10".toList "-rc".toList [] (by decide) (by decide)
    (by decide) (by decide) (by decide) (by decide) (by decide) (by decide) (by decide)

/-- **C14** (c). The full property fails: with a number beyond `u64` the comparison has a cycle. -/
theorem cmp_natural_not_transitive (cc : CharClass) :
    ∃ a b c, cmp_natural cc a b = .lt ∧ cmp_natural cc b c = .lt ∧ cmp_natural cc c a = .lt := by
  have key : ∀ x y : List Char, x ≠ [] → y ≠ [] → (∀ c ∈ x, isDigit c) → (∀ c ∈ y, isDigit c) →
      cmp_natural cc x y = (numCmp x y).then ((cmpStr x y).then (cmp_natural cc [] [])) := by
    intro x y hx hy hdx hdy
    have ex := advance_of cc [] x [] (by simp) (fun c h => cc.num_digit c (hdx c h).1 (hdx c h).2) hx (by simp)
    have ey := advance_of cc [] y [] (by simp) (fun c h => cc.num_digit c (hdy c h).1 (hdy c h).2) hy (by simp)
    simp only [List.nil_append, List.append_nil] at ex ey
    rw [cmp_step cc x y (by simp [hx]), ex, ey]
    rfl
  refine ⟨"9".toList, "10".toList, "100000000000000000000".toList, ?_, ?_, ?_⟩
  · rw [key _ _ (by decide) (by decide) (by decide) (by decide)]; rfl
  · rw [key _ _ (by decide) (by decide) (by decide) (by decide)]; rfl
  · rw [key _ _ (by decide) (by decide) (by decide) (by decide)]; rfl

/-! ## symbolize -/

theorem alnum_iff {cc : CharClass} {c : Char} : cc.alnum c = true ↔ cc.alpha c = true ∨ cc.num c = true := by
  simp [CharClass.alnum]

/-- Identifiers: non-empty, only alphanumeric characters and underscores, no numeric first character. -/
def IsSymbol (cc : CharClass) (s : List Char) : Prop :=
  (∃ c t, s = c :: t ∧ cc.num c = false) ∧ ∀ c ∈ s, cc.alpha c = true ∨ cc.num c = true ∨ c = '_'

/-- **C15** (a). The result is always an identifier. -/
theorem symbolize_is_symbol (cc : CharClass) (s : List Char) : IsSymbol cc (symbolize cc s) := by
  constructor
  · cases s with
    | nil => exact ⟨'_', [], rfl, cc.num_underscore⟩
    | cons c t =>
      cases hc : cc.num c
      · refine ⟨if cc.alnum c then c else '_', t.map (fun c => if cc.alnum c then c else '_'), ?_, ?_⟩
        · simp [symbolize, hc]
        · split
          · exact hc
          · exact cc.num_underscore
      · exact ⟨'_', (c :: t).map (fun c => if cc.alnum c then c else '_'), by simp [symbolize, hc],
          cc.num_underscore⟩
  · intro c hc
    simp only [symbolize, List.mem_append, List.mem_map] at hc
    rcases hc with hc | ⟨a, _, rfl⟩
    · split at hc
      · exact Or.inr (Or.inr (by simpa using hc))
      · simp at hc
    · split
      · rename_i h
        rcases alnum_iff.mp h with h | h
        · exact Or.inl h
        · exact Or.inr (Or.inl h)
      · exact Or.inr (Or.inr rfl)

/-- **C15** (b). Identifiers are left unchanged. -/
theorem symbolize_fixes_symbols (cc : CharClass) (s : List Char) (h : IsSymbol cc s) : symbolize cc s = s := by
  obtain ⟨⟨c, t, rfl, hc⟩, hall⟩ := h
  have hm : ∀ l : List Char, (∀ c ∈ l, cc.alnum c = true ∨ c = '_') →
      l.map (fun c => if cc.alnum c then c else '_') = l := by
    intro l
    induction l with
    | nil => intro _; rfl
    | cons a l ih =>
      intro hl
      rw [List.map_cons, ih (fun c h => hl c (by simp [h]))]
      congr 1
      rcases hl a (by simp) with h | h
      · rw [if_pos h]
      · rw [h]; split <;> rfl
  have hall : ∀ c' ∈ c :: t, cc.alnum c' = true ∨ c' = '_' := fun c' h' => by
    rcases hall c' h' with h | h | h
    · exact Or.inl (alnum_iff.mpr (Or.inl h))
    · exact Or.inl (alnum_iff.mpr (Or.inr h))
    · exact Or.inr h
  simp only [symbolize, hm _ hall]
  simp [hc]

/-- **C15** (c). Idempotent. -/
theorem symbolize_idempotent (cc : CharClass) (s : List Char) :
    symbolize cc (symbolize cc s) = symbolize cc s :=
  symbolize_fixes_symbols cc _ (symbolize_is_symbol cc s)

/-- **C15** (d). Character by character: an underscore is put in front exactly of empty strings and
strings that start with a numeric character; other than that every character keeps its position and is
kept if alphanumeric, else replaced by an underscore. -/
theorem symbolize_charwise (cc : CharClass) (s : List Char) :
    ∃ pre, symbolize cc s = pre ++ s.map (fun c => if cc.alpha c ∨ cc.num c then c else '_') ∧
      ((s = [] ∨ ∃ c t, s = c :: t ∧ cc.num c = true) → pre = ['_']) ∧
      ((∃ c t, s = c :: t ∧ cc.num c = false) → pre = []) := by
  refine ⟨if (s.head?.map cc.num).getD true then ['_'] else [], ?_, ?_, ?_⟩
  · simp only [symbolize]
    congr 1
    apply List.map_congr_left
    intro c _
    by_cases h : cc.alnum c = true
    · rw [if_pos h, if_pos (alnum_iff.mp h)]
    · rw [if_neg h, if_neg (fun h' => h (alnum_iff.mpr h'))]
  · rintro (rfl | ⟨c, t, rfl, hc⟩)
    · rfl
    · simp [hc]
  · rintro ⟨c, t, rfl, hc⟩
    simp [hc]

example : symbolize ascii "0foo-bar".toList = "_0foo_bar".toList := by decide
example : IsSymbol ascii "_0foo_bar".toList := ⟨⟨'_', "0foo_bar".toList, rfl, by decide⟩, by decide⟩

/-- **C52**. `some` is `None` exactly on the empty string and otherwise returns its argument. -/
theorem some_spec (s : List Char) : (some s = none ↔ s = []) ∧ (∀ t, some s = Option.some t ↔ s = t ∧ s ≠ []) := by
  cases s <;> simp [some]

end Verif.Str
