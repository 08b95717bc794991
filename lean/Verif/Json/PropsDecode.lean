import Verif.Json.LemmasDecode2
/-! # Properties of the JSON decoder on text

Everywhere `R` is any stream that does what `Read` asks for, and `History` ranges over all ways in which text arrives and `pop` is called. -/
namespace Verif.Json.Decode
open Verif.Io (usizeMax SFlow)
open Verif.Json.Bytes (Reader Lexeme Tail Cut Faithful slices slices_faithful)
open Verif.Json.Stream (Tok Item nest Sparse Json Accepts strip)
variable {σ : Type}

/-! ## C64: items -/

/-- `pop` never panics, and it ends. -/
theorem pop_no_panic {R : Reader σ} {view : σ → List UInt8} (hR : Faithful R view) {fed : List UInt8} {is : List Item} {w : Bool} {st : σ} {d : Dec}
    (h : History R view fed is w st d) : (pop R st d).2.2 ≠ .fault := by
  obtain ⟨st', d', fl, e, hm⟩ := known_pop hR (history_known hR h)
  rw [e]
  intro hf
  have hf : fl = .fault := hf
  subst hf
  exact hm

/-- Reported are the items of the text, from the first one on. -/
theorem pop_reports {R : Reader σ} {view : σ → List UInt8} (hR : Faithful R view) {fed : List UInt8} {is : List Item} {w : Bool} {st : σ} {d : Dec}
    (h : History R view fed is w st d) {ls : List Lexeme} {t : Tail} (hc : Cut fed ls t) : is <+: items ls t := by
  obtain ⟨toks, h1, h2⟩ := history_known hR h
  have := items_prefix (Bytes.pop_reports hR h1 hc)
  rwa [h2] at this

/-- Once `pop` asks for more, all items of the text were reported, and the stream holds the tail. -/
theorem pop_reports_all {R : Reader σ} {view : σ → List UInt8} (hR : Faithful R view) {fed : List UInt8} {is : List Item} {st : σ} {d : Dec}
    (h : History R view fed is true st d) {ls : List Lexeme} {t : Tail} (hc : Cut fed ls t) : is = items ls t ∧ view st = t.bytes := by
  obtain ⟨toks, h1, h2⟩ := history_known hR h
  obtain ⟨h3, h4⟩ := Bytes.pop_reports_all hR h1 hc
  refine ⟨?_, h4⟩
  unfold items kinds
  rw [← h3, h2]

/-- `pop` asks for more if and only if all items were reported; else it reports the next one. -/
theorem pop_next {R : Reader σ} {view : σ → List UInt8} (hR : Faithful R view) {fed : List UInt8} {is : List Item} {w : Bool} {st : σ} {d : Dec}
    (h : History R view fed is w st d) {ls : List Lexeme} {t : Tail} (hc : Cut fed ls t) :
    match (pop R st d).2.2 with
    | .cont i => is ++ [i] <+: items ls t
    | .brk _ => is = items ls t
    | .fault => False := by
  match hp : pop R st d with
  | (st', d', .fault) => exact pop_no_panic hR h (by rw [hp])
  | (st', d', .brk e) => exact (pop_reports_all hR (.more h hp) hc).1
  | (st', d', .cont i) => exact pop_reports hR (.item h hp) hc

/-- The items do not depend on how the text arrived, nor on the stream. -/
theorem buffering_irrelevant {σ' : Type} {R : Reader σ} {view : σ → List UInt8} (hR : Faithful R view) {R' : Reader σ'} {view' : σ' → List UInt8}
    (hR' : Faithful R' view') {fed : List UInt8} {is is' : List Item} {st : σ} {st' : σ'} {d d' : Dec}
    (h : History R view fed is true st d) (h' : History R' view' fed is' true st' d') : is = is' ∧ view st = view' st' := by
  obtain ⟨ls, t, hc⟩ := Bytes.cut_total fed
  obtain ⟨h1, h2⟩ := pop_reports_all hR h hc
  obtain ⟨h3, h4⟩ := pop_reports_all hR' h' hc
  exact ⟨by rw [h1, h3], by rw [h2, h4]⟩

/-- Whatever the text, a reported end of an array or object always is the end of what was reported as opened last and is not closed yet. -/
theorem nested {R : Reader σ} {view : σ → List UInt8} (hR : Faithful R view) {fed : List UInt8} {is : List Item} {w : Bool} {st : σ} {d : Dec}
    (h : History R view fed is w st d) : ∃ open_, nest [] is = some open_ := by
  obtain ⟨toks, -, h2⟩ := history_known hR h
  have := Stream.nested (toks.map kind)
  rwa [h2] at this

/-- `[-` is read, then `1` arrives. This meets the hypotheses of `pop_no_panic`, `pop_reports`, `pop_reports_all`, `pop_next`, `buffering_irrelevant` and
`nested`. -/
theorem example_history : ∃ st d, History slices (·.1) [0x5b, 0x2d, 0x31] [.arrayOpen] true st d := by
  have h0 : History slices (·.1) [0x5b, 0x2d] [] false ⟨[0x5b, 0x2d], by decide⟩ .new := .start (R := slices) (view := (·.1)) ⟨[0x5b, 0x2d], by decide⟩
  have next : ∀ {fed is w st d}, History slices (·.1) fed is w st d → ∀ ls t, Cut fed ls t → is = items ls t → ∃ st' d', History slices (·.1) fed is true st' d' := by
    intro fed is w st d h ls t hc hi
    have hx := pop_next slices_faithful h hc
    match hp : pop slices st d with
    | (st', d', .fault) => rw [hp] at hx; exact hx.elim
    | (st', d', .brk e) => exact ⟨st', d', .more h hp⟩
    | (st', d', .cont i) =>
      rw [hp] at hx
      have hx : is ++ [i] <+: items ls t := hx
      have := hx.length_le
      rw [← hi, List.length_append, List.length_singleton] at this
      omega
  have p1 : pop slices ⟨[0x5b, 0x2d], by decide⟩ .new = (⟨[0x5b, 0x2d], by decide⟩, ⟨⟨.arrayOpen, []⟩, ⟨.none, 0, some 1, []⟩⟩, .cont .arrayOpen) := rfl
  have h1 := History.item h0 p1
  have c1 : Cut [0x5b, 0x2d] [.mark 0x5b .arrayOpen] (.number ⟨[0x2d], [], none, none⟩) := by
    refine .lexeme (.mark 0x5b .arrayOpen) rfl (.tail (.number ⟨[0x2d], [], none, none⟩) ⟨.inl (by simp), ?_, ?_, ?_, ?_⟩)
    · intro b hb; rw [List.mem_singleton.mp hb]; decide
    · intro b hb; cases hb
    · intro f h; cases h
    · intro c s e h; cases h
  obtain ⟨st2, d2, h2⟩ := next h1 _ _ c1 rfl
  have hv := (pop_reports_all slices_faithful h2 c1).2
  have h3 := History.arrive (st' := ⟨[0x2d, 0x31], by decide⟩) [0x31] h2 (by show _ = st2.1 ++ [0x31]; rw [hv]; rfl)
  exact next h3 _ _ Bytes.example_cut rfl

/-! ## C65: JSON texts -/

/-- For all JSON values, within any white space: exactly for scalars and sparse values (those whose arrays have at most one scalar or only arrays
and objects, and whose objects are not empty and have only arrays and objects) no error is reported and all is closed that was opened; and then
reported is what the tokens of the value stand for. Unless something follows it, a scalar is not reported. (The property asks for this with
all JSON values.) -/
theorem json_partial {R : Reader σ} {view : σ → List UInt8} (hR : Faithful R view) {w s w' : List UInt8} {ks : List Tok} (hw : Spaces w) (hs : Value s ks)
    (hw' : Spaces w') (he : w' ≠ [] ∨ ks.length ≠ 1) {is : List Item} {st : σ} {d : Dec} (h : History R view (w ++ (s ++ w')) is true st d) :
    ((Item.error ∉ is ∧ nest [] is = some []) ↔ ks.length = 1 ∨ Sparse ks) ∧ (ks.length = 1 ∨ Sparse ks → is = ks.filterMap report) := by
  obtain ⟨ls, t, hc, h1, h2⟩ := cut_document hw hs hw' he
  obtain ⟨rfl, -⟩ := pop_reports_all hR h hc
  have hj : Json (strip (kinds ls t)) := by
    show Json (stripped ls t)
    rw [h1]; exact value_json hs
  have ha := Stream.json_accepted_partial _ hj
  have hk : (∃ k, strip (kinds ls t) = [k] ∧ Stream.isScalar k = true) ∨ Sparse (strip (kinds ls t)) ↔ ks.length = 1 ∨ Sparse ks := by
    rw [show strip (kinds ls t) = ks from h1]
    refine or_congr ⟨?_, ?_⟩ Iff.rfl
    · rintro ⟨k, rfl, -⟩; rfl
    · intro hl
      cases hs with
      | scalar hx => exact ⟨_, rfl, by cases hx <;> rfl⟩
      | array => simp at hl
      | elements => simp at hl
      | object => simp at hl
      | members => simp at hl
  have hb : (Item.error ∉ items ls t ∧ nest [] (items ls t) = some []) ↔ Accepts (kinds ls t) :=
    ⟨fun h => (Stream.closed_accepted _ h.1).mp h.2, fun h => ⟨h.1, Stream.accepted_closed _ h⟩⟩
  rw [hb, ha]
  refine ⟨hk, fun h => ?_⟩
  have hacc := ha.mpr (hk.mpr h)
  unfold items
  rw [run_report _ _ hacc.1, ← strip_report, show strip (kinds ls t) = ks from h1]

/-- The tokens of JSON texts are JSON. -/
theorem value_is_json {s : List UInt8} {ks : List Tok} (h : Value s ks) : Json ks := value_json h

/-- ` [[1 ],{"a":[]}]` -/
theorem example_value : Spaces [0x20] ∧ Value [0x5b, 0x5b, 0x31, 0x20, 0x5d, 0x2c, 0x7b, 0x22, 0x61, 0x22, 0x3a, 0x5b, 0x5d, 0x7d, 0x5d]
    [.arrayOpen, .arrayOpen, .number, .arrayClose, .comma, .objectOpen, .string, .colon, .arrayOpen, .arrayClose, .objectClose, .arrayClose] := by
  have hn : Spaces [] := fun b hb => by cases hb
  have hs : Spaces [0x20] := fun b hb => by rw [List.mem_singleton.mp hb]; exact .inl rfl
  refine ⟨hs, ?_⟩
  have v1 : Value [0x31] [.number] := .scalar (.number (neg := false) (i := [0x31]) (f := none) (e := none) ⟨by simp, by decide⟩ (fun _ h => by cases h) (fun _ _ _ h => by cases h))
  have v2 : Value [0x5b, 0x31, 0x20, 0x5d] [.arrayOpen, .number, .arrayClose] := .elements (.one hn hs v1)
  have q : Quoted [0x22, 0x61, 0x22] := ⟨['a'], [0x61], .cons (.plain (by decide)) .nil, rfl⟩
  have v3 : Value [0x7b, 0x22, 0x61, 0x22, 0x3a, 0x5b, 0x5d, 0x7d] [.objectOpen, .string, .colon, .arrayOpen, .arrayClose, .objectClose] :=
    .members (.one hn hn hn hn q (.array hn))
  exact .elements (.more hn hn v2 (.one hn hn v3))

example : Sparse [.arrayOpen, .arrayOpen, .number, .arrayClose, .comma, .objectOpen, .string, .colon, .arrayOpen, .arrayClose, .objectClose, .arrayClose] :=
  .elements [.arrayOpen, .number, .arrayClose, .comma, .objectOpen, .string, .colon, .arrayOpen, .arrayClose, .objectClose]
    (.more [.arrayOpen, .number, .arrayClose] _ (.scalar .number rfl) (.one _ (.members [.string, .colon, .arrayOpen, .arrayClose] (.one _ .array))))

/-- Every text has a history in which all of it is read, with any stream that holds it. -/
theorem reads_all {R : Reader σ} {view : σ → List UInt8} (hR : Faithful R view) (st : σ) : ∃ is st' d, History R view (view st) is true st' d := by
  obtain ⟨ls, t, hc⟩ := Bytes.cut_total (view st)
  have main : ∀ n w st' d is, History R view (view st) is w st' d → (items ls t).length - is.length = n → ∃ is st' d, History R view (view st) is true st' d := by
    intro n
    induction n with
    | zero =>
      intro w st' d is h hn
      have hx := pop_next hR h hc
      match hp : pop R st' d with
      | (st1, d1, .fault) => rw [hp] at hx; exact hx.elim
      | (st1, d1, .brk e) => exact ⟨is, st1, d1, .more h hp⟩
      | (st1, d1, .cont i) =>
        rw [hp] at hx
        have hx : is ++ [i] <+: items ls t := hx
        have := hx.length_le
        rw [List.length_append, List.length_singleton] at this
        omega
    | succ n ih =>
      intro w st' d is h hn
      match hp : pop R st' d with
      | (st1, d1, .fault) => exact (pop_no_panic hR h (by rw [hp])).elim
      | (st1, d1, .brk e) => exact ⟨is, st1, d1, .more h hp⟩
      | (st1, d1, .cont i) => exact ih false st1 d1 _ (.item h hp) (by rw [List.length_append, List.length_singleton]; omega)
  exact main _ false st .new [] (.start st) rfl

/-- The property fails: for `[1,2]` an error is reported, in every history. -/
theorem json_rejected : Value [0x5b, 0x31, 0x2c, 0x32, 0x5d] [.arrayOpen, .number, .comma, .number, .arrayClose] ∧
    (∃ is st d, History slices (·.1) [0x5b, 0x31, 0x2c, 0x32, 0x5d] is true st d) ∧
    ∀ {σ : Type} {R : Reader σ} {view : σ → List UInt8}, Faithful R view → ∀ {is st d}, History R view [0x5b, 0x31, 0x2c, 0x32, 0x5d] is true st d →
      is = [.arrayOpen, .prim, .error, .prim, .arrayClose] := by
  have hn : Spaces [] := fun b hb => by cases hb
  have num : ∀ b, Bytes.Digit b → Value [b] [.number] := fun b hb => .scalar (.number (neg := false) (i := [b]) (f := none) (e := none)
    ⟨by simp, fun c hc => by rw [List.mem_singleton.mp hc]; exact hb⟩ (fun _ h => by cases h) (fun _ _ _ h => by cases h))
  have hv : Value [0x5b, 0x31, 0x2c, 0x32, 0x5d] [.arrayOpen, .number, .comma, .number, .arrayClose] :=
    .elements (.more hn hn (num 0x31 (by decide)) (.one hn hn (num 0x32 (by decide))))
  refine ⟨hv, reads_all slices_faithful ⟨[0x5b, 0x31, 0x2c, 0x32, 0x5d], by decide⟩, ?_⟩
  intro σ R view hR is st d h
  have hc : Cut [0x5b, 0x31, 0x2c, 0x32, 0x5d] [.mark 0x5b .arrayOpen, .number ⟨[], [0x31], none, none⟩, .mark 0x2c .comma, .number ⟨[], [0x32], none, none⟩,
      .mark 0x5d .arrayClose] .none := by
    have wf : ∀ b, Bytes.Digit b → (Bytes.Numeral.mk [] [b] none none).Wf := fun b hb => by
      refine ⟨.inr (by simp), fun b hb => (by cases hb), fun c hc => ?_, fun _ h => (by cases h), fun _ _ _ h => by cases h⟩
      rw [List.mem_singleton.mp hc]; exact hb
    refine .lexeme (.mark 0x5b .arrayOpen) rfl (.lexeme (.number ⟨[], [0x31], none, none⟩) ⟨wf _ (by decide), _, _, rfl, ?_⟩ (.lexeme (.mark 0x2c .comma) rfl
      (.lexeme (.number ⟨[], [0x32], none, none⟩) ⟨wf _ (by decide), _, _, rfl, ?_⟩ (.lexeme (.mark 0x5d .arrayClose) rfl (.tail .none trivial)))))
    · rintro (h | h | ⟨-, h | ⟨h, -⟩⟩)
      · revert h; decide
      · revert h; decide
      · revert h; decide
      · cases h
    · rintro (h | h | ⟨-, h | ⟨h, -⟩⟩)
      · revert h; decide
      · revert h; decide
      · revert h; decide
      · cases h
  rw [(pop_reports_all hR h hc).1]
  rfl

/-- A number, `null`, `false` or `true` that nothing follows is never reported. -/
theorem scalar_pending {R : Reader σ} {view : σ → List UInt8} (hR : Faithful R view) {s : List UInt8} {k : Tok} (hs : Scalar s k) (hk : k ≠ .string) {is : List Item}
    {w : Bool} {st : σ} {d : Dec} (h : History R view s is w st d) : is = [] := by
  have hc : ∃ t, Cut s [] t ∧ items [] t = [] := by
    cases hs with
    | string => exact (hk rfl).elim
    | null => exact ⟨.word _, .tail (.word _) ⟨_, _, rfl, by decide, by decide⟩, rfl⟩
    | false => exact ⟨.word _, .tail (.word _) ⟨_, _, rfl, by decide, by decide⟩, rfl⟩
    | true => exact ⟨.word _, .tail (.word _) ⟨_, _, rfl, by decide, by decide⟩, rfl⟩
    | number hi hf he =>
      obtain ⟨n, hn, hw, -, -, he, -⟩ := Bytes.jsonNumber_exists hi hf he
      refine ⟨.number n, ?_, ?_⟩
      · rw [← hn]; exact .tail (.number n) hw
      · simp [items, kinds, Bytes.tokens, Tail.tokens, he, Stream.Dec.run]
  obtain ⟨t, hc, hi⟩ := hc
  have := pop_reports hR h hc
  rw [hi] at this
  exact List.prefix_nil.mp this

example : Scalar [0x6e, 0x75, 0x6c, 0x6c] .null := .null

end Verif.Json.Decode
