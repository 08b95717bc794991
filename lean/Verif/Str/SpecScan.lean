import Verif.Str.SpecNatural
/-! # Natural order as one scan

What `cmp_natural` of `osi/src/str.rs` 17-84 is to do, without cutting strings into names and numbers: both strings
are read side by side up to the first difference, which decides. -/
namespace Verif.Str

instance (run : List Char) : Decidable (Number run) := inferInstanceAs (Decidable (_ ∧ _ ∧ _))

/-- How two different runs of numeric characters compare: by value if both are numbers that fit `u64`, and otherwise,
or if the values are the same, by the characters `c` and `d` at which they part. -/
def runsScan (a b : List Char) (c d : Char) : Ordering :=
  if Number a ∧ Number b then (compare (decimal a) (decimal b)).then (compare c d) else compare c d

/-- Reads two strings up to the first difference; `run` are the numeric characters directly before.
* The end comes before everything.
* Of two characters that are not numeric, the code point decides.
* A numeric character comes before all others, unless it continues a number, in which case that number is the longer
  one and comes after the other.
* Two numeric characters belong to two different runs. -/
def scan (cc : CharClass) : List Char → List Char → List Char → Ordering
  | _, [], [] => .eq
  | _, [], _ :: _ => .lt
  | _, _ :: _, [] => .gt
  | run, c :: x, d :: y =>
    if c = d then scan cc (if cc.num c then run ++ [c] else []) x y
    else match cc.num c, cc.num d with
      | false, false => compare c d
      | true, false => if run = [] then .lt else .gt
      | false, true => if run = [] then .gt else .lt
      | true, true => runsScan (run ++ c :: x.takeWhile cc.num) (run ++ d :: y.takeWhile cc.num) c d

end Verif.Str
