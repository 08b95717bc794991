import Verif.Json.SpecDecode
/-! # Specification for C134: what the JSON decoder makes of damaged texts

This is about tokens and the grammar of what is accepted (`Scalars`, `Loose`, see C46), without the decoder. -/
namespace Verif.Json.Salvage
open Verif.Json.Stream (Tok Scalars Loose strip isScalar)

/-- What is accepted as a whole (C46): scalars, and possibly an array or object at the end. -/
def Whole (toks : List Tok) : Prop := ∃ ss v, strip toks = ss ++ v ∧ Scalars ss ∧ (v = [] ∨ Loose v)

/-- Tokens with which something begins that is accepted. -/
def Viable (toks : List Tok) : Prop := ∃ more, Whole (toks ++ more)

/-- The tokens that are left if each one is taken out that cannot follow what is left of those before it. -/
inductive Salvaged : List Tok → List Tok → Prop
  | nil : Salvaged [] []
  | keep {toks kept : List Tok} (t : Tok) (h : Salvaged toks kept) (hv : Viable (kept ++ [t])) : Salvaged (toks ++ [t]) (kept ++ [t])
  | drop {toks kept : List Tok} (t : Tok) (h : Salvaged toks kept) (hv : ¬ Viable (kept ++ [t])) : Salvaged (toks ++ [t]) kept

/-- Tokens up to what their scalars are. -/
def shape (t : Tok) : Tok := if isScalar t then .null else t

end Verif.Json.Salvage
