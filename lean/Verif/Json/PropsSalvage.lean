import Verif.Json.LemmasSalvage
import Verif.Json.PropsDecode
/-! # Properties of the JSON decoder with damaged texts (C134) -/
namespace Verif.Json.Salvage
open Verif.Json.Stream
open Verif.Json.Bytes (Reader Lexeme Tail)
open Verif.Json.Decode (History kinds items report)

/-- C134. An error is reported for a token if and only if nothing that is accepted begins with the tokens that were kept so far and this one.
What is reported otherwise is what the kept tokens stand for; there is one way to keep tokens. -/
theorem salvaged_reports (toks kept : List Tok) (h : Salvaged toks kept) :
    (Dec.new.run toks).2.filter (· ≠ .error) = kept.filterMap report ∧ kept.length + (Dec.new.run toks).2.count .error = toks.length
    ∧ Viable kept ∧ kept.Sublist toks ∧ (∀ t, ((Dec.new.run toks).1.advance t).2 = some .error ↔ ¬ Viable (kept ++ [t]))
    ∧ ∀ kept', Salvaged toks kept' → kept' = kept := by
  obtain ⟨h1, h2, h3, h4, h5⟩ := salvaged_run h
  refine ⟨?_, h4, (viable_iff kept).mpr h2, h5, ?_, fun _ h' => salvaged_unique h' h⟩
  · rw [h3]; exact Decode.run_report _ _ h2
  · intro t
    rw [viable_iff, run_snoc, h1, List.mem_append, not_or]
    cases hx : ((Dec.new.run kept).1.advance t).2 with
    | none => simp [h2]
    | some i => simp [h2, eq_comm]

/-- C134. Everything can be salvaged. -/
theorem salvaged_all (toks : List Tok) : ∃ kept, Salvaged toks kept := salvaged_total toks

/-- C134, for texts: whatever the text, however it arrives and wherever it ends. The items without errors are always those of the beginning of
something that is accepted: it can be completed. -/
theorem text_salvaged {σ : Type} {R : Reader σ} {view : σ → List UInt8} (hR : Bytes.Faithful R view) {fed : List UInt8} {is : List Item} {w : Bool} {st : σ}
    {d : Decode.Dec} (h : History R view fed is w st d) {ls : List Lexeme} {t : Tail} (hc : Bytes.Cut fed ls t) :
    ∃ toks kept, toks <+: kinds ls t ∧ (w = true → toks = kinds ls t) ∧ Salvaged toks kept ∧ is.filter (· ≠ .error) = kept.filterMap report
      ∧ kept.length + is.count .error = toks.length
      ∧ ∃ more, Whole (kept ++ more) ∧ is.filter (· ≠ .error) <+: (Dec.new.run (kept ++ more)).2 := by
  obtain ⟨toks, h1, h2⟩ := Decode.history_known hR h
  obtain ⟨kept, hk⟩ := salvaged_total (toks.map Decode.kind)
  obtain ⟨h3, h4, h5, -, -, -⟩ := salvaged_reports _ _ hk
  rw [h2] at h3 h4
  refine ⟨toks.map Decode.kind, kept, (Bytes.pop_reports hR h1 hc).map _, ?_, hk, h3, h4, ?_⟩
  · rintro rfl
    rw [(Bytes.pop_reports_all hR h1 hc).1]; rfl
  · obtain ⟨more, hm⟩ := h5
    refine ⟨more, hm, ?_⟩
    have := (viable_iff kept).mp ⟨more, hm⟩
    rw [h3, run_append, ← Decode.run_report _ _ this]
    exact List.prefix_append _ _

/-- C134. What is reported tells what was accepted, but for white space and what the scalars are: two texts with the same items are built the same. -/
theorem items_tell (a b : List Tok) (ha : Accepts a) (hb : Accepts b) (h : (Dec.new.run a).2 = (Dec.new.run b).2) :
    (strip a).map shape = (strip b).map shape := by
  refine items_tell_from _ _ .new ((ok_strip a .new).mp ((accepts_ok a).mp ha)) ((ok_strip b .new).mp ((accepts_ok b).mp hb)) (strip_space a) (strip_space b) ?_
  rw [Decode.run_report _ _ ha.1, Decode.run_report _ _ hb.1] at h
  have h1 := ((accepts_ok _).mpr ((ok_strip a .new).mp ((accepts_ok a).mp ha))).1
  have h2 := ((accepts_ok _).mpr ((ok_strip b .new).mp ((accepts_ok b).mp hb))).1
  rw [Decode.run_report _ _ h1, Decode.run_report _ _ h2, Decode.strip_report, Decode.strip_report, h]

/-! ## Examples -/

-- `[ } : [ 1 , ] ]`: the brace, the colon and the comma are taken out, and the rest is well-formed.
example : (Dec.new.run [.arrayOpen, .objectClose, .colon, .arrayOpen, .number, .comma, .arrayClose, .arrayClose]).2
    = [.arrayOpen, .error, .error, .arrayOpen, .prim, .error, .arrayClose, .arrayClose] := by decide
theorem example_viable : Viable [.arrayOpen, .arrayOpen, .number, .arrayClose, .comma] ∧ ¬ Viable [.arrayOpen, .comma]
    ∧ ¬ Viable [.arrayOpen, .arrayClose, .number] ∧ Viable [] := by
  refine ⟨(viable_iff _).mpr (by decide), fun h => ?_, fun h => ?_, (viable_iff _).mpr (by decide)⟩
  · exact absurd ((viable_iff _).mp h) (by decide)
  · exact absurd ((viable_iff _).mp h) (by decide)
example : Salvaged [.arrayOpen, .comma] [.arrayOpen] :=
  .drop .comma (.keep (toks := []) .arrayOpen .nil ((viable_iff _).mpr (by decide))) example_viable.2.1
-- Items tell commas and colons, although they are not reported.
example : Accepts [.arrayOpen, .arrayOpen, .arrayClose, .comma, .objectOpen, .string, .colon, .arrayOpen, .arrayClose, .objectClose, .arrayClose] := by
  unfold Accepts; decide
example : (Dec.new.run [.arrayOpen, .arrayOpen, .arrayClose, .comma, .arrayOpen, .arrayClose, .arrayClose]).2
    = [.arrayOpen, .arrayOpen, .arrayClose, .arrayOpen, .arrayClose, .arrayClose] := by decide
-- Without errors being counted that is not so: the comma between these scalars was refused.
example : (Dec.new.run [.arrayOpen, .number, .comma, .number, .arrayClose]).2.filter (· ≠ .error)
    = (Dec.new.run [.arrayOpen, .number, .number, .arrayClose]).2 := by decide

end Verif.Json.Salvage
