import Verif.Str.Model
import Verif.Hash.Model
/-! # What the string utilities do to get their results

The functions of `Str/Model.lean` once more, counting what they look at, and the buffers that they fill. -/
namespace Verif.Str

/-- What was looked at: calls of a predicate on a character, characters read as digits, pairs of characters compared. -/
structure Work where
  tests : Nat
  digits : Nat
  pairs : Nat
  rounds : Nat
deriving DecidableEq, Repr

def Work.add (a b : Work) : Work := ⟨a.tests + b.tests, a.digits + b.digits, a.pairs + b.pairs, a.rounds + b.rounds⟩

/-- `str::find` with a predicate, and `split_at` its result or the end (str.rs 33-36, 39-42): what is in front of the first
character for which `p` holds, and the rest. `find` calls `p` on one character after another and stops at the first for which it
holds. -/
def findM (p : Char → Bool) : List Char → List Char × List Char × Nat
  | [] => ([], [], 0)
  | c :: cs =>
    if p c then ([], c :: cs, 1)
    else
      let r := findM p cs
      (c :: r.1, r.2.1, r.2.2 + 1)

/-- `str::cmp`: pairs of characters are compared until one differs. -/
def cmpStrM : List Char → List Char → Ordering × Nat
  | [], [] => (.eq, 0)
  | [], _ :: _ => (.lt, 0)
  | _ :: _, [] => (.gt, 0)
  | a :: as, b :: bs =>
    match compare a b with
    | .lt => (.lt, 1)
    | .gt => (.gt, 1)
    | .eq =>
      let r := cmpStrM as bs
      (r.1, r.2 + 1)

/-- The digit loop of `u64::from_str` stops at the first character that is not a digit, or too much. -/
def parseDigitsM : List Char → Nat → Option Nat × Nat
  | [], v => (Option.some v, 0)
  | c :: cs, v =>
    match digit c with
    | none => (none, 1)
    | Option.some d =>
      if v * 10 + d < 2 ^ 64 then
        let r := parseDigitsM cs (v * 10 + d)
        (r.1, r.2 + 1)
      else (none, 1)

/-- `str::parse::<u64>`. The sign is looked at once. -/
def parseU64M (s : List Char) : Option Nat × Nat :=
  match s with
  | [] => (none, 0)
  | ['+'] => (none, 1)
  | '+' :: cs => let r := parseDigitsM cs 0; (r.1, r.2 + 1)
  | cs => parseDigitsM cs 0

/-- `advance`, str.rs 27-47. -/
def advanceM (cc : CharClass) (s : List Char) : (List Char × List Char × List Char) × Nat :=
  let n := findM cc.num s
  let m := findM (fun c => !cc.num c) n.2.1
  ((n.1, m.1, m.2.1), n.2.2 + m.2.2)

theorem findM_eq (p : Char → Bool) (s : List Char) :
    (findM p s).1 = s.takeWhile (fun c => !p c) ∧ (findM p s).2.1 = s.dropWhile (fun c => !p c) := by
  induction s with
  | nil => exact ⟨rfl, rfl⟩
  | cons c s ih =>
    unfold findM
    cases h : p c
    · simp [h, ih.1, ih.2]
    · simp [h]

theorem advanceM_eq (cc : CharClass) (s : List Char) : (advanceM cc s).1 = advance cc s := by
  unfold advanceM advance
  simp only [(findM_eq _ _).1, (findM_eq _ _).2, Bool.not_not]

/-- Comparing the numbers, if there are two, str.rs 67-73. -/
def cmpNum : Option Nat → Option Nat → Ordering
  | Option.some a, Option.some b => compare a b
  | _, _ => .eq

/-- `cmp_natural`, str.rs 21-84. -/
def cmp_naturalM (cc : CharClass) (lhs rhs : List Char) : Ordering × Work :=
  if h : lhs = [] ∧ rhs = [] then (.eq, ⟨0, 0, 0, 0⟩)
  else
    let l := advanceM cc lhs
    let r := advanceM cc rhs
    let l_u64 := parseU64M l.1.2.1
    let r_u64 := parseU64M r.1.2.1
    let w := l.2 + r.2
    let d := l_u64.2 + r_u64.2
    let name := cmpStrM l.1.1 r.1.1
    match name.1 with
    | .lt => (.lt, ⟨w, d, name.2, 1⟩)
    | .gt => (.gt, ⟨w, d, name.2, 1⟩)
    | .eq =>
      match cmpNum l_u64.1 r_u64.1 with
      | .lt => (.lt, ⟨w, d, name.2, 1⟩)
      | .gt => (.gt, ⟨w, d, name.2, 1⟩)
      | .eq =>
        let num := cmpStrM l.1.2.1 r.1.2.1
        match num.1 with
        | .lt => (.lt, ⟨w, d, name.2 + num.2, 1⟩)
        | .gt => (.gt, ⟨w, d, name.2 + num.2, 1⟩)
        | .eq =>
          let rest := cmp_naturalM cc l.1.2.2 r.1.2.2
          (rest.1, Work.add ⟨w, d, name.2 + num.2, 1⟩ rest.2)
termination_by lhs.length + rhs.length
decreasing_by
  have hl := advance_shorter cc lhs
  have hr := advance_shorter cc rhs
  simp only [advanceM_eq]
  by_cases h1 : lhs = []
  · have h2 : rhs ≠ [] := fun h2 => h ⟨h1, h2⟩
    have := hr.2 h2; omega
  · have := hl.2 h1; omega

/-! ### Buffers -/

/-- A `String` that is being filled: its contents, how many bytes it has room for, how often memory was asked for, and for how
many bytes in all. -/
structure Buf where
  chars : List Char
  cap : Nat
  allocs : Nat
  asked : Nat
deriving DecidableEq, Repr

/-- `String::len`: bytes of UTF-8. -/
def byteLen (s : List Char) : Nat := (s.map Char.utf8Size).sum

/-- `String::with_capacity` (nothing is allocated for no capacity). -/
def Buf.with_capacity (n : Nat) : Buf := ⟨[], n, if n = 0 then 0 else 1, n⟩

/-- `String::push`: the buffer grows if the character does not fit, to what `grow` says (of capacity and bytes needed). -/
def Buf.push (grow : Nat → Nat → Nat) (b : Buf) (c : Char) : Buf :=
  if byteLen b.chars + c.utf8Size ≤ b.cap then { b with chars := b.chars ++ [c] }
  else
    let cap := max (grow b.cap (byteLen b.chars + c.utf8Size)) (byteLen b.chars + c.utf8Size)
    { chars := b.chars ++ [c], cap, allocs := b.allocs + 1, asked := b.asked + cap }

/-- `symbolize`, str.rs 94-117, with its buffer. -/
def symbolizeB (cc : CharClass) (grow : Nat → Nat → Nat) (input : List Char) : Buf :=
  let needs_prefix := (input.head?.map cc.num).getD true
  let v := Buf.with_capacity (byteLen input + needs_prefix.toNat)
  let v := if needs_prefix then v.push grow '_' else v
  input.foldl (fun v c => if cc.alnum c then v.push grow c else v.push grow '_') v

/-- `Hash::to_hex`, hash.rs 89-110, with its buffer. -/
def to_hexB (grow : Nat → Nat → Nat) (hash : List Hash.Byte) : Option Buf :=
  hash.foldlM (fun (s : Buf) (b : Hash.Byte) => do
    let hi ← Hash.digit_to_char ((b >>> 4) &&& 0x0f)
    let lo ← Hash.digit_to_char ((b >>> 0) &&& 0x0f)
    Option.some ((s.push grow hi).push grow lo)) (Buf.with_capacity (hash.length * 2))

end Verif.Str
