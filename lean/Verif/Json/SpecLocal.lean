import Verif.Json.SpecToken
/-! # Damage stays where it is

Whether a text ends within a string or a comment can be told by the last report about it: `osi/src/json/token.rs`
reports strings without an end, and comments, as errors. -/
namespace Verif.Json

/-- The reports of a text that ends neither within a string nor within a comment. -/
def Closed (evs : List Ev) : Prop :=
  match evs.getLast? with
  | some (.err .stringIncomplete) => False
  | some (.err (.comment _)) => False
  | _ => True

instance (evs : List Ev) : Decidable (Closed evs) := by unfold Closed; split <;> infer_instance

/-- The reports of a text that ends neither within a string nor within white space. -/
def LineClosed (evs : List Ev) : Prop :=
  match evs.getLast? with
  | some (.err .stringIncomplete) => False
  | some (.tok (.whitespace _)) => False
  | _ => True

instance (evs : List Ev) : Decidable (LineClosed evs) := by unfold LineClosed; split <;> infer_instance

/-- The characters that begin something new, whatever was before: punctuation, quotes, and hashes. -/
def marks : List Char := [',', ':', '[', ']', '{', '}', '"', '#', '=']

end Verif.Json
