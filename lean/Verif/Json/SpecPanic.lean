import Verif.Json.ModelPanic
import Verif.Json.SpecToken
/-! # Specification: report handlers that panic -/
namespace Verif.Json

/-- The tokenizers which a caller can get who catches panics of any report handlers and goes on, with characters, ends of texts and resets in any order. -/
inductive ReachableU (fl : BitVec 32) : Tokenizer → Prop
  | new : ReachableU fl (.withFlags fl)
  | push {ρ R : Type} (H : ReportU ρ R) (t : Tokenizer) (s : ρ) (ch : Option Char) : ReachableU fl t → ReachableU fl (t.pushU H s ch).1
  | reset (t : Tokenizer) : ReachableU fl t → ReachableU fl t.prepare

/-- A handler that does not panic, as one that could. -/
def Report.calm {ρ R : Type} (H : Report ρ R) : ReportU ρ R := ⟨fun s e => match H.report s e with
  | (s, some r) => (s, .brk r)
  | (s, none) => (s, .cont)⟩

/-- A handler that keeps all reports, and panics in the report with the given number, after having kept it. -/
def failing : ReportU (List Ev × Option Nat) Empty := ⟨fun s e => match s with
  | (l, none) => ((l ++ [e], none), .cont)
  | (l, some 0) => ((l ++ [e], none), .panic)
  | (l, some (k + 1)) => ((l ++ [e], some k), .cont)⟩

/-- A character is pushed again and again, until the handler does not panic: it does in the given reports of the first attempts. All reports are kept. -/
def attempts (t : Tokenizer) (l : List Ev) (ch : Option Char) : List Nat → Tokenizer × List Ev
  | [] => let r := t.pushU failing (l, none) ch; (r.1, r.2.1.1)
  | k :: ks =>
    match t.pushU failing (l, some k) ch with
    | (u, s, .handler) => attempts u s.1 ch ks
    | (u, s, _) => (u, s.1)

/-- A text and its end, each character with the panics in its attempts. -/
def attemptsAll (t : Tokenizer) (l : List Ev) : List (Option Char × List Nat) → Tokenizer × List Ev
  | [] => (t, l)
  | (ch, ks) :: cs => let r := attempts t l ch ks; attemptsAll r.1 r.2 cs

end Verif.Json
