import Verif.Args.Utf8
/-! # Specification: replacing what is not UTF-8, as Unicode recommends (C119)

Unicode, section 3.9, "U+FFFD substitution of maximal subparts": where no character begins, the longest sequence of bytes that
begins like one is replaced by one U+FFFD, and if there is none, a single byte. -/
namespace Verif.Text
open Verif.Args

/-- What the encoding of a character begins with. -/
def Begins (s : Bytes) : Prop := ∃ c : Char, s <+: String.utf8EncodeChar c

/-- The text that is left of bytes when what is not UTF-8 is replaced. -/
inductive Lossy : Bytes → List Char → Prop
  | done : Lossy [] []
  | char {b : Bytes} {t : List Char} (c : Char) : Lossy b t → Lossy (String.utf8EncodeChar c ++ b) (c :: t)
  | broken {b : Bytes} {t : List Char} (s : Bytes) : s ≠ [] →
      (∀ c : Char, ¬ String.utf8EncodeChar c <+: s ++ b) →
      (s.length = 1 ∨ Begins s) →
      (∀ n, s.length < n → n ≤ (s ++ b).length → ¬ Begins ((s ++ b).take n)) →
      Lossy b t → Lossy (s ++ b) ('�' :: t)

end Verif.Text
