import Verif.Str.ModelWork
import Verif.Str.Lemmas
/-! # Property theorems: what the string utilities cost (C105) -/
namespace Verif.Str

/-! ### Lemmas -/

theorem cmpStrM_eq (a b : List Char) : (cmpStrM a b).1 = cmpStr a b := by
  induction a generalizing b with
  | nil => cases b <;> simp [cmpStrM, cmpStr, List.compareLex_nil_nil, List.compareLex_nil_cons]
  | cons x a ih =>
    cases b with
    | nil => simp [cmpStrM, cmpStr, List.compareLex_cons_nil]
    | cons y b =>
      unfold cmpStrM cmpStr
      rw [List.compareLex_cons_cons]
      cases h : compare x y
      · rfl
      · exact ih b
      · rfl

theorem cmpStrM_pairs (a b : List Char) : (cmpStrM a b).2 ≤ min a.length b.length := by
  induction a generalizing b with
  | nil => cases b <;> simp [cmpStrM]
  | cons x a ih =>
    cases b with
    | nil => simp [cmpStrM]
    | cons y b =>
      unfold cmpStrM
      have := ih b
      cases h : compare x y <;> simp only [List.length_cons] <;> omega

theorem parseDigitsM_eq (s : List Char) (v : Nat) : (parseDigitsM s v).1 = parseDigits s v ∧ (parseDigitsM s v).2 ≤ s.length := by
  induction s generalizing v with
  | nil => exact ⟨rfl, Nat.le_refl _⟩
  | cons c s ih =>
    unfold parseDigitsM parseDigits
    cases digit c with
    | none => exact ⟨rfl, by simp⟩
    | some d =>
      simp only []
      by_cases h : v * 10 + d < 2 ^ 64
      · rw [if_pos h, if_pos h]
        exact ⟨(ih _).1, by have := (ih (v * 10 + d)).2; simp only [List.length_cons]; omega⟩
      · rw [if_neg h, if_neg h]
        exact ⟨rfl, by simp⟩

theorem parseU64M_eq (s : List Char) : (parseU64M s).1 = parseU64 s ∧ (parseU64M s).2 ≤ s.length := by
  rw [parseU64M.eq_def, parseU64.eq_def]
  split
  · exact ⟨rfl, Nat.le_refl _⟩
  · exact ⟨rfl, by simp⟩
  · rename_i cs h
    have e := parseDigitsM_eq cs 0
    refine ⟨?_, by simp only [List.length_cons]; omega⟩
    split
    · rename_i h'; cases h'
    · rename_i h'; cases h'; exact absurd rfl h
    · rename_i h'; cases h'; exact e.1
    · rename_i h2 h3 h4; exact absurd rfl (h4 cs)
  · have e := parseDigitsM_eq s 0
    refine ⟨?_, e.2⟩
    split
    · rename_i h1 h2 h3; exact absurd rfl h1
    · rename_i h1 h2 h3; exact absurd rfl h2
    · simp_all
    · exact e.1

theorem findM_tests (p : Char → Bool) (s : List Char) :
    (findM p s).2.2 = (findM p s).1.length + (if (findM p s).2.1 = [] then 0 else 1)
    ∧ s.length = (findM p s).1.length + (findM p s).2.1.length := by
  induction s with
  | nil => exact ⟨rfl, rfl⟩
  | cons c s ih =>
    unfold findM
    cases h : p c
    · simp only [Bool.false_eq_true, if_false, List.length_cons]
      obtain ⟨h1, h2⟩ := ih
      exact ⟨by rw [h1]; omega, by omega⟩
    · simp

/-- Advancing tests each character that it takes, and the next one at most twice. -/
theorem advanceM_tests (cc : CharClass) (s : List Char) :
    (advanceM cc s).2 ≤ 3 * ((advanceM cc s).1.1.length + (advanceM cc s).1.2.1.length)
    ∧ s.length = (advanceM cc s).1.1.length + (advanceM cc s).1.2.1.length + (advanceM cc s).1.2.2.length := by
  unfold advanceM
  simp only []
  obtain ⟨h1, h2⟩ := findM_tests cc.num s
  obtain ⟨h3, h4⟩ := findM_tests (fun c => !cc.num c) (findM cc.num s).2.1
  refine ⟨?_, by omega⟩
  rw [h1, h3]
  by_cases e : (findM cc.num s).2.1 = []
  · rw [if_pos e]
    have : (findM (fun c => !cc.num c) (findM cc.num s).2.1).2.1 = [] := by rw [e]; rfl
    rw [if_pos this]
    omega
  · rw [if_neg e]
    -- the next character is numeric, and taken
    have hpos : 0 < (findM (fun c => !cc.num c) (findM cc.num s).2.1).1.length := by
      rw [(findM_eq _ _).1, (findM_eq _ _).2]
      cases hd : s.dropWhile (fun c => !cc.num c) with
      | nil => rw [(findM_eq _ _).2] at e; exact absurd hd e
      | cons c t =>
        have : ¬ (!cc.num c) = true := by
          have q := List.head_dropWhile_not (fun c => !cc.num c) (l := s) (by rw [hd]; simp)
          simp only [hd, List.head_cons] at q
          rw [q]; decide
        have hc : cc.num c = true := by simpa using this
        simp [hc]
    have : (if (findM (fun c => !cc.num c) (findM cc.num s).2.1).2.1 = [] then 0 else 1) ≤ 1 := by split <;> omega
    omega

/-- What both a comparison and its cost are. -/
theorem naturalM_spec (cc : CharClass) : ∀ (n : Nat) (a b : List Char), a.length + b.length ≤ n →
    (cmp_naturalM cc a b).1 = cmp_natural cc a b
    ∧ (cmp_naturalM cc a b).2.tests ≤ 3 * (a.length + b.length)
    ∧ (cmp_naturalM cc a b).2.digits ≤ a.length + b.length
    ∧ (cmp_naturalM cc a b).2.pairs ≤ min a.length b.length
    ∧ (cmp_naturalM cc a b).2.rounds ≤ min a.length b.length + 1 := by
  intro n
  induction n with
  | zero =>
    intro a b h
    have ha : a = [] := List.length_eq_zero_iff.mp (by omega)
    have hb : b = [] := List.length_eq_zero_iff.mp (by omega)
    subst ha hb
    rw [cmp_naturalM, cmp_natural]
    simp
  | succ n ih =>
    intro a b h
    by_cases he : a = [] ∧ b = []
    · obtain ⟨rfl, rfl⟩ := he
      rw [cmp_naturalM, cmp_natural]
      simp
    · rw [cmp_step cc a b he, cmp_naturalM, dif_neg he]
      simp only []
      have ta := advanceM_tests cc a
      have tb := advanceM_tests cc b
      have pa := parseU64M_eq (advanceM cc a).1.2.1
      have pb := parseU64M_eq (advanceM cc b).1.2.1
      have cn := cmpStrM_pairs (advanceM cc a).1.1 (advanceM cc b).1.1
      have cm := cmpStrM_pairs (advanceM cc a).1.2.1 (advanceM cc b).1.2.1
      have en := cmpStrM_eq (advanceM cc a).1.1 (advanceM cc b).1.1
      have em := cmpStrM_eq (advanceM cc a).1.2.1 (advanceM cc b).1.2.1
      have hsa := advance_shorter cc a
      have hsb := advance_shorter cc b
      rw [← advanceM_eq cc a] at hsa ⊢
      rw [← advanceM_eq cc b] at hsb ⊢
      rw [← en, ← em]
      generalize advanceM cc a = A at *
      generalize advanceM cc b = B at *
      have hnum : numCmp A.1.2.1 B.1.2.1 = cmpNum (parseU64M A.1.2.1).1 (parseU64M B.1.2.1).1 := by
        rw [pa.1, pb.1]; unfold numCmp cmpNum; cases parseU64 A.1.2.1 <;> cases parseU64 B.1.2.1 <;> rfl
      rw [← hnum]
      cases c1 : (cmpStrM A.1.1 B.1.1).1
      · refine ⟨rfl, ?_, ?_, ?_, ?_⟩ <;> simp only [] <;> omega
      · cases c2 : numCmp A.1.2.1 B.1.2.1
        · refine ⟨rfl, ?_, ?_, ?_, ?_⟩ <;> simp only [] <;> omega
        · cases c3 : (cmpStrM A.1.2.1 B.1.2.1).1
          · refine ⟨rfl, ?_, ?_, ?_, ?_⟩ <;> simp only [] <;> omega
          · -- both sides continue behind the same text
            have e1 : A.1.1 = B.1.1 := Std.LawfulEqCmp.eq_of_compare (cmp := cmpStr) (en ▸ c1)
            have e2 : A.1.2.1 = B.1.2.1 := Std.LawfulEqCmp.eq_of_compare (cmp := cmpStr) (em ▸ c3)
            have l1 := congrArg List.length e1
            have l2 := congrArg List.length e2
            have hlt : A.1.2.2.length + B.1.2.2.length < a.length + b.length := by
              by_cases h1 : a = []
              · have := hsb.2 fun h2 => he ⟨h1, h2⟩
                have := hsa.1
                omega
              · have := hsa.2 h1
                have := hsb.1
                omega
            obtain ⟨i1, i2, i3, i4, i5⟩ := ih A.1.2.2 B.1.2.2 (by omega)
            refine ⟨i1, ?_, ?_, ?_, ?_⟩ <;> simp only [Work.add] <;> omega
          · refine ⟨rfl, ?_, ?_, ?_, ?_⟩ <;> simp only [] <;> omega
        · refine ⟨rfl, ?_, ?_, ?_, ?_⟩ <;> simp only [] <;> omega
      · refine ⟨rfl, ?_, ?_, ?_, ?_⟩ <;> simp only [] <;> omega

theorem byteLen_append (a b : List Char) : byteLen (a ++ b) = byteLen a + byteLen b := by simp [byteLen]

/-- A buffer that was asked for once, and is large enough for what is still to come. -/
def Buf.Fits (b : Buf) (cap : Nat) (n : Nat) : Prop :=
  b.cap = cap ∧ byteLen b.chars + n ≤ cap ∧ b.allocs = (if cap = 0 then 0 else 1) ∧ b.asked = cap

theorem Buf.Fits.push {b : Buf} {cap n m : Nat} (h : b.Fits cap n) (grow : Nat → Nat → Nat) (c : Char) (hc : c.utf8Size + m ≤ n) :
    (b.push grow c).Fits cap m ∧ (b.push grow c).chars = b.chars ++ [c] := by
  obtain ⟨h1, h2, h3, h4⟩ := h
  unfold Buf.push
  rw [if_pos (by omega)]
  refine ⟨⟨h1, ?_, h3, h4⟩, rfl⟩
  rw [byteLen_append]
  simp only [byteLen, List.map_cons, List.map_nil, List.sum_cons, List.sum_nil] at h2 ⊢
  omega

theorem utf8Size_pos (c : Char) : 1 ≤ c.utf8Size := Char.utf8Size_pos c

theorem fill_symbol (cc : CharClass) (grow : Nat → Nat → Nat) (cap : Nat) : ∀ (input : List Char) (b : Buf),
    b.Fits cap (byteLen input) →
    (input.foldl (fun v c => if cc.alnum c then Buf.push grow v c else Buf.push grow v '_') b).Fits cap 0
    ∧ (input.foldl (fun v c => if cc.alnum c then Buf.push grow v c else Buf.push grow v '_') b).chars
      = b.chars ++ input.map (fun c => if cc.alnum c then c else '_')
  | [], b, h => ⟨h, by simp⟩
  | c :: cs, b, h => by
    rw [List.foldl_cons, List.map_cons]
    have hl : byteLen (c :: cs) = c.utf8Size + byteLen cs := by simp [byteLen]
    rw [hl] at h
    cases ha : cc.alnum c
    · simp only [Bool.false_eq_true, if_false]
      have := utf8Size_pos c
      have hu : ('_' : Char).utf8Size = 1 := by decide
      obtain ⟨f1, f2⟩ := h.push grow '_' (m := byteLen cs) (by omega)
      obtain ⟨g1, g2⟩ := fill_symbol cc grow cap cs _ f1
      exact ⟨g1, by rw [g2, f2, List.append_assoc]; rfl⟩
    · simp only [if_true]
      obtain ⟨f1, f2⟩ := h.push grow c (m := byteLen cs) (by omega)
      obtain ⟨g1, g2⟩ := fill_symbol cc grow cap cs _ f1
      exact ⟨g1, by rw [g2, f2, List.append_assoc]; rfl⟩

theorem fits_with (n : Nat) : (Buf.with_capacity n).Fits n n := ⟨rfl, by simp [Buf.with_capacity, byteLen], rfl, rfl⟩

theorem digit_size {d : Hash.Byte} {c : Char} (h : Hash.digit_to_char d = Option.some c) : c.utf8Size = 1 := by
  unfold Hash.digit_to_char at h
  split at h <;> first | (cases h; decide) | cases h

theorem fill_hex (grow : Nat → Nat → Nat) (cap : Nat) : ∀ (hash : List Hash.Byte) (b : Buf), b.Fits cap (hash.length * 2) →
    ∀ r, Hash.to_hex hash = Option.some r →
    ∃ b', hash.foldlM (fun (s : Buf) (b : Hash.Byte) => do
        let hi ← Hash.digit_to_char ((b >>> 4) &&& 0x0f)
        let lo ← Hash.digit_to_char ((b >>> 0) &&& 0x0f)
        Option.some ((s.push grow hi).push grow lo)) b = Option.some b' ∧ b'.Fits cap 0 ∧ b'.chars = b.chars ++ r
  | [], b, h, r, hr => by
    cases hr
    exact ⟨b, rfl, h, by simp⟩
  | x :: xs, b, h, r, hr => by
    unfold Hash.to_hex at hr
    simp only [Option.bind_eq_bind, Option.bind_eq_some_iff] at hr
    obtain ⟨hi, h1, lo, h2, rest, h3, hr⟩ := hr
    cases hr
    have hl : (x :: xs).length * 2 = xs.length * 2 + 2 := by simp only [List.length_cons]; omega
    rw [hl] at h
    obtain ⟨f1, f2⟩ := h.push grow hi (m := xs.length * 2 + 1) (by rw [digit_size h1]; omega)
    obtain ⟨f3, f4⟩ := f1.push grow lo (m := xs.length * 2) (by rw [digit_size h2]; omega)
    obtain ⟨b', g1, g2, g3⟩ := fill_hex grow cap xs _ f3 rest h3
    refine ⟨b', ?_, g2, ?_⟩
    · rw [List.foldlM_cons]
      simp only [h1, h2, Option.bind_eq_bind, Option.bind_some] at g1 ⊢
      exact g1
    · rw [g3, f4, f2]
      simp

theorem to_hex_total : ∀ hash : List Hash.Byte, ∃ r, Hash.to_hex hash = Option.some r
  | [] => ⟨[], rfl⟩
  | x :: xs => by
    have hd : ∀ d : Hash.Byte, d.toNat < 16 → ∃ c, Hash.digit_to_char d = Option.some c := by
      intro d hd
      have key : ∀ n < 16, (Hash.digit_to_char (BitVec.ofNat 8 n)).isSome := by decide
      have := key d.toNat hd
      rw [BitVec.ofNat_toNat, BitVec.setWidth_eq] at this
      exact Option.isSome_iff_exists.mp this
    have h1 : ((x >>> 4) &&& 0x0f).toNat < 16 := by
      rw [BitVec.toNat_and]
      exact Nat.lt_of_le_of_lt Nat.and_le_right (by decide)
    have h2 : ((x >>> 0) &&& 0x0f).toNat < 16 := by
      rw [BitVec.toNat_and]
      exact Nat.lt_of_le_of_lt Nat.and_le_right (by decide)
    obtain ⟨c1, e1⟩ := hd _ h1
    obtain ⟨c2, e2⟩ := hd _ h2
    obtain ⟨r, er⟩ := to_hex_total xs
    refine ⟨c1 :: c2 :: r, ?_⟩
    unfold Hash.to_hex
    simp only [e1, e2, er, Option.bind_eq_bind, Option.bind_some]

/-! ### Theorems -/

/-- C105 (a). Counting changes no result. -/
theorem natural_counted (cc : CharClass) (a b : List Char) : (cmp_naturalM cc a b).1 = cmp_natural cc a b :=
  (naturalM_spec cc _ a b (Nat.le_refl _)).1

/-- C105 (b). However numbers and names alternate: comparing tests the class of characters at most three times for each character
of the two strings, reads each character as a digit at most once, compares each character with at most one of the other string,
and takes no more rounds than the shorter string has characters, and one. -/
theorem natural_work (cc : CharClass) (a b : List Char) :
    let w := (cmp_naturalM cc a b).2
    w.tests ≤ 3 * (a.length + b.length) ∧ w.digits ≤ a.length + b.length ∧ w.pairs ≤ min a.length b.length
    ∧ w.rounds ≤ min a.length b.length + 1 :=
  (naturalM_spec cc _ a b (Nat.le_refl _)).2

/-- C105 (c). The work is not bounded by what the strings have in common, nor by the shorter one: two strings whose first
characters differ are both split up to their first number. -/
theorem natural_reads_on (n : Nat) : cmp_naturalM ascii ['a'] (List.replicate (n + 1) 'b') = (.lt, ⟨n + 2, 0, 1, 1⟩) := by
  have hf : ∀ m, findM ascii.num (List.replicate m 'b') = (List.replicate m 'b', [], m) := by
    intro m
    induction m with
    | zero => rfl
    | succ m ih =>
      rw [List.replicate_succ]
      unfold findM
      rw [if_neg (by decide), ih]
  have hr : advanceM ascii (List.replicate (n + 1) 'b') = ((List.replicate (n + 1) 'b', [], []), n + 1) := by
    unfold advanceM
    rw [hf]
    rfl
  have hl : advanceM ascii ['a'] = ((['a'], [], []), 1) := by decide
  have hc : cmpStrM ['a'] (List.replicate (n + 1) 'b') = (.lt, 1) := by
    rw [List.replicate_succ]
    rfl
  rw [cmp_naturalM, dif_neg (by simp)]
  simp only [hr, hl, hc]
  rw [Nat.add_comm 1 (n + 1)]
  rfl

/-- C105 (d). Making a symbol asks for memory once, for the size of the input and the prefix, and never again: the result fits,
however the buffer would grow, and whatever characters were replaced. -/
theorem symbolize_allocs (cc : CharClass) (grow : Nat → Nat → Nat) (input : List Char) :
    (symbolizeB cc grow input).chars = symbolize cc input
    ∧ (symbolizeB cc grow input).allocs = 
        (if byteLen input + ((input.head?.map cc.num).getD true).toNat = 0 then 0 else 1)
    ∧ (symbolizeB cc grow input).asked = byteLen input + ((input.head?.map cc.num).getD true).toNat
    ∧ byteLen (symbolize cc input) ≤ (symbolizeB cc grow input).cap
    ∧ (symbolizeB cc grow input).cap = byteLen input + ((input.head?.map cc.num).getD true).toNat := by
  unfold symbolizeB symbolize
  simp only []
  cases hp : (input.head?.map cc.num).getD true
  · simp only [Bool.false_eq_true, if_false, Bool.toNat_false, Nat.add_zero]
    obtain ⟨⟨f1, f2, f3, f4⟩, g⟩ := fill_symbol cc grow _ input _ (fits_with (byteLen input))
    rw [g] at f2
    refine ⟨g, f3, f4, ?_, f1⟩
    rw [f1]; exact f2
  · simp only [if_true, Bool.toNat_true]
    have hu : ('_' : Char).utf8Size = 1 := by decide
    obtain ⟨p1, p2⟩ := (fits_with (byteLen input + 1)).push grow '_' (m := byteLen input) (by omega)
    obtain ⟨⟨f1, f2, f3, f4⟩, g⟩ := fill_symbol cc grow _ input _ p1
    rw [p2] at g
    rw [g] at f2
    refine ⟨g, f3, f4, ?_, f1⟩
    rw [f1]; exact f2

/-- C105 (e). Rendering a hash asks for memory once, for two bytes for each of the hash, and fills all of it. -/
theorem hex_allocs (grow : Nat → Nat → Nat) (hash : List Hash.Byte) :
    ∃ b, to_hexB grow hash = Option.some b ∧ Hash.to_hex hash = Option.some b.chars
      ∧ b.allocs = (if hash = [] then 0 else 1) ∧ b.asked = 2 * hash.length ∧ b.cap = 2 * hash.length ∧ b.chars.length = b.cap := by
  obtain ⟨r, hr⟩ := to_hex_total hash
  obtain ⟨b, h1, ⟨h2, h3, h4, h5⟩, h6⟩ := fill_hex grow (hash.length * 2) hash _ (fits_with _) r hr
  have h6' : b.chars = r := by rw [h6]; rfl
  refine ⟨b, h1, by rw [hr, h6'], ?_, by omega, by omega, ?_⟩
  · rw [h4]
    cases hash with
    | nil => rfl
    | cons x xs =>
      rw [if_neg (by simp), if_neg (by simp)]
  · rw [h6', h2]
    have hlen : ∀ (hash : List Hash.Byte) r, Hash.to_hex hash = Option.some r → r.length = hash.length * 2 := by
      intro hash
      induction hash with
      | nil => intro r h; cases h; rfl
      | cons x xs ih =>
        intro r h
        unfold Hash.to_hex at h
        simp only [Option.bind_eq_bind, Option.bind_eq_some_iff] at h
        obtain ⟨_, _, _, _, rest, h3, h⟩ := h
        cases h
        have := ih rest h3
        simp only [List.length_cons]
        omega
    exact hlen hash r hr

/-! ## Examples -/

-- Three rounds for two times six characters.
#guard (cmp_naturalM ascii ['a', '1', 'a', '1', 'a', '1'] ['a', '1', 'a', '1', 'a', '2']) = (.lt, ⟨22, 6, 5, 3⟩)

-- A replaced character can take less room than it did: the buffer is not filled.
example : symbolizeB ascii (fun c n => max (2 * c) n) ['1', 'é', 'x'] = ⟨['_', '1', '_', 'x'], 5, 1, 5⟩ := by decide +kernel

end Verif.Str
