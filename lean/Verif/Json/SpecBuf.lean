import Verif.Json.ModelBuf
import Verif.Json.SpecToken
/-! # The memory of a JSON tokenizer through its life -/
namespace Verif.Json

/-- Reports that end a token (or what is skipped instead of one): the characters before them are done with. -/
def Ev.ends : Ev → Bool
  | .tok _ => true
  | .err (.keywordUnknown _) => true
  | .err (.comment _) => true
  | .err .stringIncomplete => true
  | _ => false

/-- The text of the current token, after a character that led to the reports: nothing if no token has been begun; the character if the token before
it has ended; or else it belongs to the token like those before it. -/
def current (w : List Char) (c : Char) (evs : List Ev) (st : Status) : List Char :=
  if st = .done then [] else if evs.any Ev.ends then [c] else w ++ [c]

/-- `Life fl w t`: what a caller may have made of a tokenizer, and the text of the current token. If the report handler stops the tokenizer then
`push` resets it (token.rs 1144-1149) from the middle of a function, so that all that is known are the lengths, the bound of `shrink_to`, and
that no more was copied than if it had gone on and been reset then. -/
inductive Life (fl : BitVec 32) : List Char → Buffered → Prop
  | new : Life fl [] (.withFlags fl)
  | push {w t evs t'} (c : Char) : Life fl w t → t.advance (some c) = ⟨evs, some t'⟩ → Life fl (current w c evs t'.tok.status) t'
  | eof {w t evs t'} : Life fl w t → t.advance none = ⟨evs, some t'⟩ → Life fl [] t'
  | stop {w t evs t'} (ch : Option Char) (a b n m : Nat) : Life fl w t → t.advance ch = ⟨evs, some t'⟩ → a ≤ 4096 → b ≤ 4096 → n ≤ 4096 →
    m ≤ t'.prepare.moved → Life fl [] ⟨t.tok.prepare, a, b, n, m⟩
  | reset {w t} : Life fl w t → Life fl [] t.prepare
  | clone {w t} : Life fl w t → Life fl w t.clone

end Verif.Json
