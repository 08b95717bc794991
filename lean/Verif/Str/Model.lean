/-! # Model of `lib/osi/src/str.rs`

A `&str` is a list of `Char` (Unicode scalar values). `str::cmp` compares UTF-8 bytes, which is the
lexicographic order of the scalar values (proved in PropsOrder.lean). The Unicode tables behind `char::is_numeric` and
`char::is_alphabetic` are not modelled: they are parameters (`CharClass`) constrained only by the facts
used (ASCII digits are numeric, `_` and `+` are not). -/
namespace Verif.Str

/-- The two Unicode classifications used by the module (`char::is_numeric`, `char::is_alphabetic`). -/
structure CharClass where
  num : Char → Bool
  alpha : Char → Bool
  num_digit : ∀ c, '0' ≤ c → c ≤ '9' → num c = true
  num_underscore : num '_' = false
  num_plus : num '+' = false

/-- The ASCII restriction, an instance used in examples. -/
def ascii : CharClass where
  num c := decide ('0' ≤ c) && decide (c ≤ '9')
  alpha c := c.isAlpha
  num_digit := by intro c h1 h2; simp [h1, h2]
  num_underscore := by decide
  num_plus := by decide

/-- `str::cmp`. -/
abbrev cmpStr : List Char → List Char → Ordering := List.compareLex compare

/-- `str.rs` 9-15. -/
def some (v : List Char) : Option (List Char) := if v.isEmpty then none else Option.some v

/-- `char::to_digit(10)` as used by `u64::from_str`. -/
def digit (c : Char) : Option Nat :=
  if '0' ≤ c ∧ c ≤ '9' then Option.some (c.toNat - 48) else none

/-- The digit loop of `u64::from_str`: checked multiplication and addition. -/
def parseDigits : List Char → Nat → Option Nat
  | [], v => Option.some v
  | c :: cs, v =>
    match digit c with
    | none => none
    | Option.some d => if v * 10 + d < 2 ^ 64 then parseDigits cs (v * 10 + d) else none

/-- `str::parse::<u64>` (core library): one optional `+`, then at least one ASCII digit, no overflow. -/
def parseU64 (s : List Char) : Option Nat :=
  match s with
  | [] => none
  | ['+'] => none
  | '+' :: cs => parseDigits cs 0
  | cs => parseDigits cs 0

/-- `advance`, str.rs 27-47: name prefix, number prefix, rest. `find(..).unwrap_or(len)` followed by
`split_at` is a split at the first character that satisfies the predicate. -/
def advance (cc : CharClass) (s : List Char) : List Char × List Char × List Char :=
  let name := s.takeWhile (fun c => !cc.num c)
  let rem := s.dropWhile (fun c => !cc.num c)
  let number := rem.takeWhile cc.num
  let rem := rem.dropWhile cc.num
  (name, number, rem)

theorem length_dropWhile_le (p : Char → Bool) (s : List Char) : (s.dropWhile p).length ≤ s.length := by
  induction s with
  | nil => simp
  | cons c s ih => rw [List.dropWhile_cons]; split <;> simp <;> omega

theorem advance_shorter (cc : CharClass) (s : List Char) : (advance cc s).2.2.length ≤ s.length ∧
    (s ≠ [] → (advance cc s).2.2.length < s.length) := by
  constructor
  · exact Nat.le_trans (length_dropWhile_le _ _) (length_dropWhile_le _ _)
  · intro h
    cases s with
    | nil => exact absurd rfl h
    | cons c s =>
      cases hc : cc.num c
      · have e : (c :: s).dropWhile (fun c => !cc.num c) = s.dropWhile (fun c => !cc.num c) := by
          simp [hc]
        simp only [advance, e]
        have h1 := length_dropWhile_le cc.num (s.dropWhile (fun c => !cc.num c))
        have h2 := length_dropWhile_le (fun c => !cc.num c) s
        simp only [List.length_cons]; omega
      · have e : (c :: s).dropWhile (fun c => !cc.num c) = c :: s := by simp [hc]
        have e2 : (c :: s).dropWhile cc.num = s.dropWhile cc.num := by simp [hc]
        simp only [advance, e, e2]
        have h1 := length_dropWhile_le cc.num s
        simp only [List.length_cons]; omega

/-- `cmp_natural`, str.rs 21-84, with its `while` loop as recursion. Each `match` returns early on
`Less` and `Greater`. -/
def cmp_natural (cc : CharClass) (lhs rhs : List Char) : Ordering :=
  if h : lhs = [] ∧ rhs = [] then .eq
  else
    let l := advance cc lhs
    let r := advance cc rhs
    let l_u64 := parseU64 l.2.1
    let r_u64 := parseU64 r.2.1
    match cmpStr l.1 r.1 with
    | .lt => .lt
    | .gt => .gt
    | .eq =>
      match (match l_u64, r_u64 with
        | Option.some a, Option.some b => compare a b
        | _, _ => .eq) with
      | .lt => .lt
      | .gt => .gt
      | .eq =>
        match cmpStr l.2.1 r.2.1 with
        | .lt => .lt
        | .gt => .gt
        | .eq => cmp_natural cc l.2.2 r.2.2
termination_by lhs.length + rhs.length
decreasing_by
  have hl := advance_shorter cc lhs
  have hr := advance_shorter cc rhs
  by_cases h1 : lhs = []
  · have h2 : rhs ≠ [] := fun h2 => h ⟨h1, h2⟩
    have := hr.2 h2; omega
  · have := hl.2 h1; omega

/-- `char::is_alphanumeric` (core library). -/
def CharClass.alnum (cc : CharClass) (c : Char) : Bool := cc.alpha c || cc.num c

/-- `symbolize`, str.rs 94-117. -/
def symbolize (cc : CharClass) (input : List Char) : List Char :=
  let needs_prefix := (input.head?.map cc.num).getD true
  let v := if needs_prefix then ['_'] else []
  v ++ input.map (fun c => if cc.alnum c then c else '_')

end Verif.Str
