import Verif.Json.LemmasBytes13
/-! # Properties of the streaming JSON tokenizer

Everywhere `R` is any stream that does what `Read` asks for, and `History` ranges over all ways in which text arrives and `pop` is called. -/
namespace Verif.Json.Bytes
open Verif.Io (usizeMax More SFlow)
variable {σ : Type}

/-! ## The specification is unambiguous -/

/-- Every text can be cut into lexemes and a tail. -/
theorem cut_total (text : List UInt8) : ∃ ls t, Cut text ls t := cut_exists text.length text (Nat.le_refl _)

/-- There is one way only. -/
theorem cut_once (text : List UInt8) (ls ls' : List Lexeme) (t t' : Tail) (h : Cut text ls t) (h' : Cut text ls' t') : ls = ls' ∧ t = t' :=
  cut_unique h h'

/-- `[-1` -/
theorem example_cut : Cut [0x5b, 0x2d, 0x31] [.mark 0x5b .arrayOpen] (.number ⟨[0x2d], [0x31], none, none⟩) := by
  refine .lexeme (.mark 0x5b .arrayOpen) rfl (.tail (.number ⟨[0x2d], [0x31], none, none⟩) ⟨.inl (by simp), ?_, ?_, ?_, ?_⟩)
  · intro b hb; rw [List.mem_singleton.mp hb]; decide
  · intro b hb; rw [List.mem_singleton.mp hb]; decide
  · intro f h; cases h
  · intro c s e h; cases h

/-! ## A stream -/

/-- Slices are streams that do what is asked for. -/
def slices : Reader { l : List UInt8 // l.length ≤ isizeMax } where
  map st min max := slice.map st.1 min max
  advance st n := if h : n ≤ st.1.length then some ⟨st.1.drop n, by rw [List.length_drop]; have := st.2; omega⟩ else none

theorem slices_faithful : Faithful slices (·.1) where
  map st min max := by
    show match (if min ≤ st.1.length then SFlow.cont st.1 else SFlow.brk (⟨min, max⟩ : More)) with
      | .cont m => m <+: st.1 ∧ min ≤ m.length
      | .brk _ => st.1.length < min
      | .fault => False
    by_cases h : min ≤ st.1.length
    · rw [if_pos h]; exact ⟨List.prefix_refl _, h⟩
    · rw [if_neg h]; exact Nat.lt_of_not_le h
  advance st n h := ⟨⟨st.1.drop n, by rw [List.length_drop]; have := st.2; omega⟩, dif_pos h, rfl⟩
  size st := st.2

/-! ## C45, C57: tokens -/

/-- `pop` never panics. -/
theorem pop_no_panic {R : Reader σ} {view : σ → List UInt8} (hR : Faithful R view) {fed : List UInt8} {toks : List Token} {w : Bool} {st : σ} {d : Dec}
    (h : History R view fed toks w st d) : (pop R st d).2.2 ≠ .fault := by
  obtain ⟨st', d', fl, hp, hm⟩ := known_pop hR (history_known hR h)
  rw [hp]
  intro hf
  have hf : fl = .fault := hf
  subst hf
  exact hm

/-- Reported are the tokens of the text, from the first one on. -/
theorem pop_reports {R : Reader σ} {view : σ → List UInt8} (hR : Faithful R view) {fed : List UInt8} {toks : List Token} {w : Bool} {st : σ} {d : Dec}
    (h : History R view fed toks w st d) {ls : List Lexeme} {t : Tail} (hc : Cut fed ls t) : toks <+: tokens ls t :=
  (known_tokens hR (history_known hR h) hc).1

/-- Once `pop` asks for more, all tokens of the text were reported, and the stream holds the tail. -/
theorem pop_reports_all {R : Reader σ} {view : σ → List UInt8} (hR : Faithful R view) {fed : List UInt8} {toks : List Token} {st : σ} {d : Dec}
    (h : History R view fed toks true st d) {ls : List Lexeme} {t : Tail} (hc : Cut fed ls t) : toks = tokens ls t ∧ view st = t.bytes := by
  obtain ⟨h1, h2, -⟩ := (known_tokens hR (history_known hR h) hc).2 rfl
  exact ⟨h1, h2⟩

/-- `pop` asks for more if and only if all tokens were reported; else it reports the next one. -/
theorem pop_next {R : Reader σ} {view : σ → List UInt8} (hR : Faithful R view) {fed : List UInt8} {toks : List Token} {w : Bool} {st : σ} {d : Dec}
    (h : History R view fed toks w st d) {ls : List Lexeme} {t : Tail} (hc : Cut fed ls t) :
    match (pop R st d).2.2 with
    | .cont tok => toks ++ [tok] <+: tokens ls t
    | .brk _ => toks = tokens ls t
    | .fault => False := by
  obtain ⟨st', d', fl, hp, hm⟩ := known_pop hR (history_known hR h)
  rw [hp]
  cases fl with
  | fault => exact hm
  | brk e => exact ((known_tokens hR hm hc).2 rfl).1
  | cont tok => exact (known_tokens hR hm hc).1

/-- The tokens do not depend on how the text arrived, nor on the stream: after the same text the same tokens have been reported when `pop`
asks for more, and the same bytes are left. -/
theorem buffering_irrelevant {σ' : Type} {R : Reader σ} {view : σ → List UInt8} (hR : Faithful R view) {R' : Reader σ'} {view' : σ' → List UInt8}
    (hR' : Faithful R' view') {fed : List UInt8} {toks toks' : List Token} {st : σ} {st' : σ'} {d d' : Dec}
    (h : History R view fed toks true st d) (h' : History R' view' fed toks' true st' d') : toks = toks' ∧ view st = view' st' := by
  obtain ⟨ls, t, hc⟩ := cut_total fed
  obtain ⟨h1, h2⟩ := pop_reports_all hR h hc
  obtain ⟨h3, h4⟩ := pop_reports_all hR' h' hc
  exact ⟨by rw [h1, h3], by rw [h2, h4]⟩

/-- More text after a cut text only adds tokens. -/
theorem tokens_more {text b : List UInt8} {ls ls' : List Lexeme} {t t' : Tail} (h : Cut text ls t) (h' : Cut (text ++ b) ls' t') (hl : (text ++ b).length ≤ isizeMax) :
    tokens ls t <+: tokens ls' t' := by
  have main : ∀ n st d toks, History slices (·.1) text toks false st d → (tokens ls t).length - toks.length = n →
      ∃ st d w, History slices (·.1) text (tokens ls t) w st d := by
    intro n
    induction n with
    | zero =>
      intro st d toks hh hn
      have hp := pop_reports slices_faithful hh h
      obtain rfl := hp.eq_of_length_le (by omega)
      exact ⟨st, d, false, hh⟩
    | succ n ih =>
      intro st d toks hh hn
      have hx := pop_next slices_faithful hh h
      match hq : pop slices st d with
      | (st1, d1, .cont tok) =>
        exact ih st1 d1 (toks ++ [tok]) (.token hh hq) (by simp; omega)
      | (st1, d1, .brk e) =>
        rw [hq] at hx
        have hx : toks = tokens ls t := hx
        rw [hx] at hn
        omega
      | (st1, d1, .fault) => rw [hq] at hx; exact hx.elim
  have hlt : text.length ≤ isizeMax := by rw [List.length_append] at hl; omega
  obtain ⟨st, d, w, hh⟩ := main _ ⟨text, hlt⟩ .new [] (.start (R := slices) (view := (·.1)) ⟨text, hlt⟩) rfl
  have hv : st.1.length ≤ text.length := by
    obtain ⟨ls0, c, toks', i, h1, -⟩ := history_known slices_faithful hh
    have := congrArg List.length h1
    rw [List.length_append] at this
    have : text.length = c.length + st.1.length := this
    omega
  have h2 : History slices (·.1) (text ++ b) (tokens ls t) false ⟨st.1 ++ b, by rw [List.length_append] at hl ⊢; omega⟩ d := .arrive b hh rfl
  exact pop_reports slices_faithful h2 h'

/-- What is reported is the text: the sources of the tokens are a beginning of it. -/
theorem sources_prefix {R : Reader σ} {view : σ → List UInt8} (hR : Faithful R view) {fed : List UInt8} {toks : List Token} {w : Bool} {st : σ} {d : Dec}
    (h : History R view fed toks w st d) : toks.flatMap source <+: fed := by
  obtain ⟨ls, t, hc⟩ := cut_total fed
  obtain ⟨r, hr⟩ := pop_reports hR h hc
  rw [← cut_source hc, ← hr, List.flatMap_append, List.append_assoc]
  exact List.prefix_append _ _

/-- Nothing is lost: once `pop` asks for more, the sources of the tokens and what the stream still holds are the text. -/
theorem sources_all {R : Reader σ} {view : σ → List UInt8} (hR : Faithful R view) {fed : List UInt8} {toks : List Token} {st : σ} {d : Dec}
    (h : History R view fed toks true st d) : toks.flatMap source ++ view st = fed := by
  obtain ⟨ls, t, hc⟩ := cut_total fed
  obtain ⟨h1, h2⟩ := pop_reports_all hR h hc
  rw [h1, h2, cut_source hc]

/-- A history: `[-` is read, then `1` arrives. -/
theorem example_history : ∃ st d, History slices (·.1) [0x5b, 0x2d, 0x31] [.arrayOpen] true st d := by
  have h0 : History slices (·.1) [0x5b, 0x2d] [] false ⟨[0x5b, 0x2d], by decide⟩ .new := .start (R := slices) (view := (·.1)) ⟨[0x5b, 0x2d], by decide⟩
  have p1 : pop slices ⟨[0x5b, 0x2d], by decide⟩ .new = (⟨[0x5b, 0x2d], by decide⟩, ⟨.none, 0, some 1, []⟩, .cont .arrayOpen) := rfl
  have h1 := History.token h0 p1
  have p2 : pop slices ⟨[0x5b, 0x2d], by decide⟩ ⟨.none, 0, some 1, []⟩ =
    (⟨[0x2d], by decide⟩, ⟨.number ⟨.minus, ⟨1, 1⟩, ⟨0, 0⟩, .plus, ⟨0, 0⟩⟩, 1, none, []⟩, .brk ⟨2, none⟩) := rfl
  have h2 := History.more h1 p2
  have h3 := History.arrive (st' := ⟨[0x2d, 0x31], by decide⟩) [0x31] h2 rfl
  have p3 : pop slices ⟨[0x2d, 0x31], by decide⟩ ⟨.number ⟨.minus, ⟨1, 1⟩, ⟨0, 0⟩, .plus, ⟨0, 0⟩⟩, 1, none, []⟩ =
    (⟨[0x2d, 0x31], by decide⟩, ⟨.number ⟨.minus, ⟨1, 1⟩, ⟨0, 0⟩, .plus, ⟨0, 0⟩⟩, 2, none, []⟩, .brk ⟨3, none⟩) := rfl
  exact ⟨_, _, History.more h3 p3⟩

/-- The hypotheses of `pop_no_panic`, `pop_reports`, `pop_next`, `pop_reports_all`, `buffering_irrelevant`, `complete_right_iff` and (with `example_cut`)
`cut_once` are met: `[-1` was fed, and `[` was reported. -/
example : ∃ st d, History slices (·.1) [0x5b, 0x2d, 0x31] [.arrayOpen] true st d ∧ st.1 = [0x2d, 0x31] := by
  obtain ⟨st, d, h⟩ := example_history
  exact ⟨st, d, h, (pop_reports_all slices_faithful h example_cut).2⟩

/-! ## C43: control characters -/

/-- Control characters below U+001F within a string are reported, be they escaped with a backslash or not. (The property asks for U+001F as
well.) -/
theorem control_reported_partial {R : Reader σ} {view : σ → List UInt8} (hR : Faithful R view) {fed : List UInt8} {toks : List Token} {st : σ} {d : Dec}
    (h : History R view fed toks true st d) {ls : List Lexeme} {t : Tail} (hc : Cut fed ls t) {ps : List Piece}
    (hs : .string ps ∈ ls ∨ ∃ part, t = .string ps part) {b : UInt8} (hb : b < 0x1f) (hm : b ∈ allBytes ps) :
    .error (.stringUnescaped b) ∈ toks ∨ .error (.stringEscapeUnknown b) ∈ toks := by
  rw [(pop_reports_all hR h hc).1]
  have lex : ∀ {text : List UInt8} {ls : List Lexeme} {t : Tail}, Cut text ls t → (.string ps ∈ ls ∨ ∃ part, t = .string ps part) →
      ∃ e, AllFit ps e ∧ ∀ x ∈ errors ps, x ∈ tokens ls t := by
    intro text ls t hc
    induction hc with
    | tail t ht =>
      rintro (hs | ⟨part, rfl⟩)
      · cases hs
      · exact ⟨part, ht.1, fun x hx => hx⟩
    | @lexeme l v ls t hl hc ih =>
      intro hs
      by_cases he : l = .string ps
      · subst he
        refine ⟨_, hl, fun x hx => ?_⟩
        simp only [tokens, List.flatMap_cons, Lexeme.tokens, List.append_assoc]
        exact List.mem_append_left _ hx
      · obtain ⟨e, h1, h2⟩ := ih (by
          rcases hs with hs | hs
          · rcases List.mem_cons.mp hs with hs | hs
            · exact (he hs.symm).elim
            · exact .inl hs
          · exact .inr hs)
        refine ⟨e, h1, fun x hx => ?_⟩
        have := h2 x hx
        simp only [tokens, List.flatMap_cons, List.append_assoc] at this ⊢
        exact List.mem_append_right _ this
  obtain ⟨e, h1, h2⟩ := lex hc hs
  rcases pieces_control hb h1 hm with he | he
  · exact .inl (h2 _ he)
  · exact .inr (h2 _ he)

/-- An unescaped control character is reported as such, and where it is: between the errors of what is before and after it. -/
theorem control_order (us vs : List Piece) (b : UInt8) : errors (us ++ .control b :: vs) = errors us ++ .error (.stringUnescaped b) :: errors vs := by
  simp [errors, Piece.error]

/-- `"\x01` -/
example : Cut [0x22, 0x01] [] (.string [.control 0x01] []) :=
  .tail (.string [.control 0x01] []) ⟨⟨show (0x01 : UInt8) < 0x1f by decide, trivial⟩, .inl ⟨escaped [0x30, 0x30, 0x30, 0x30], [0x30, 0x30, 0x30, 0x30], by simp [escaped], ⟨rfl, by decide⟩, rfl⟩⟩

/-- The property fails: U+001F is accepted. -/
theorem control_1f_accepted : ∃ st d, History slices (·.1) [0x22, 0x1f, 0x22] [.string [0x22, 0x1f, 0x22] [0x1f]] true st d := by
  have h0 : History slices (·.1) [0x22, 0x1f, 0x22] [] false ⟨[0x22, 0x1f, 0x22], by decide⟩ .new := .start (R := slices) (view := (·.1)) ⟨_, by decide⟩
  have p1 : pop slices ⟨[0x22, 0x1f, 0x22], by decide⟩ .new =
    (⟨[0x22, 0x1f, 0x22], by decide⟩, ⟨.string 0, 3, some 3, []⟩, .cont (.string [0x22, 0x1f, 0x22] [0x1f])) := rfl
  have h1 := History.token h0 p1
  have p2 : pop slices ⟨[0x22, 0x1f, 0x22], by decide⟩ ⟨.string 0, 3, some 3, []⟩ = (⟨[], by decide⟩, ⟨.none, 3, none, []⟩, .brk ⟨1, some 1⟩) := rfl
  exact ⟨_, _, History.more h1 p2⟩

/-! ## C58: contents of strings -/

/-- A string has the contents it ought to have, if no unescaped control character follows an escape. (The property asks for this in
all cases.) -/
theorem string_contents_partial {R : Reader σ} {view : σ → List UInt8} (hR : Faithful R view) {fed : List UInt8} {toks : List Token} {st : σ} {d : Dec}
    (h : History R view fed toks true st d) {ls : List Lexeme} {t : Tail} (hc : Cut fed ls t) {us ps : List Piece} (hs : .string (us ++ ps) ∈ ls)
    (hu : ∀ p ∈ us, p.literal = true) (hp : ∀ p ∈ ps, ∀ b, p ≠ .control b) :
    stringToken (Lexeme.string (us ++ ps)).bytes (meant (us ++ ps)) ∈ toks := by
  rw [(pop_reports_all hR h hc).1]
  unfold tokens
  refine List.mem_append_left _ (List.mem_flatMap.mpr ⟨_, hs, ?_⟩)
  rw [← told_eq us ps hu hp]
  exact List.mem_append_right _ (List.mem_singleton.mpr rfl)

/-- Exactly: after the tokens of what comes before it and the errors of the string, the string is reported with some contents; they are those it
ought to have if and only if no unescaped control character follows an escape. -/
theorem string_contents_iff {R : Reader σ} {view : σ → List UInt8} (hR : Faithful R view) {fed : List UInt8} {toks : List Token} {st : σ} {d : Dec}
    (h : History R view fed toks true st d) {ls ls' : List Lexeme} {t : Tail} {ps : List Piece} (hc : Cut fed (ls ++ .string ps :: ls') t) :
    ∃ contents, toks = tokens ls .none ++ errors ps ++ stringToken (Lexeme.string ps).bytes contents :: tokens ls' t ∧
      (contents = meant ps ↔ ∀ us p vs, ps = us ++ p :: vs → p.literal = false → ∀ b, .control b ∉ vs) := by
  refine ⟨told ps, ?_, told_iff ps⟩
  rw [(pop_reports_all hR h hc).1]
  simp only [tokens, Lexeme.tokens, Lexeme.bytes, Tail.tokens, List.flatMap_append, List.flatMap_cons, List.append_nil, List.append_assoc, List.cons_append,
    List.nil_append]

/-- The property fails: after an escape a control character has text repeated. The string `"\n\x01a"` is reported as `\n\x01\x01a`. -/
theorem string_contents_repeated : ∃ st d, History slices (·.1) [0x22, 0x5c, 0x6e, 0x01, 0x61, 0x22]
    [.error (.stringUnescaped 0x01), .string [0x22, 0x5c, 0x6e, 0x01, 0x61, 0x22] [0x0a, 0x01, 0x01, 0x61]] true st d := by
  have h0 : History slices (·.1) [0x22, 0x5c, 0x6e, 0x01, 0x61, 0x22] [] false ⟨[0x22, 0x5c, 0x6e, 0x01, 0x61, 0x22], by decide⟩ .new :=
    .start (R := slices) (view := (·.1)) ⟨_, by decide⟩
  have p1 : pop slices ⟨[0x22, 0x5c, 0x6e, 0x01, 0x61, 0x22], by decide⟩ .new =
    (⟨[0x22, 0x5c, 0x6e, 0x01, 0x61, 0x22], by decide⟩, ⟨.string 3, 4, none, [0x22, 0x0a, 0x01]⟩, .cont (.error (.stringUnescaped 0x01))) := rfl
  have h1 := History.token h0 p1
  have p2 : pop slices ⟨[0x22, 0x5c, 0x6e, 0x01, 0x61, 0x22], by decide⟩ ⟨.string 3, 4, none, [0x22, 0x0a, 0x01]⟩ =
    (⟨[0x22, 0x5c, 0x6e, 0x01, 0x61, 0x22], by decide⟩, ⟨.string 3, 6, some 6, [0x22, 0x0a, 0x01, 0x01, 0x61, 0x22]⟩,
      .cont (.string [0x22, 0x5c, 0x6e, 0x01, 0x61, 0x22] [0x0a, 0x01, 0x01, 0x61])) := rfl
  have h2 := History.token h1 p2
  have p3 : pop slices ⟨[0x22, 0x5c, 0x6e, 0x01, 0x61, 0x22], by decide⟩ ⟨.string 3, 6, some 6, [0x22, 0x0a, 0x01, 0x01, 0x61, 0x22]⟩ =
    (⟨[], by decide⟩, ⟨.none, 6, none, []⟩, .brk ⟨1, some 1⟩) := rfl
  exact ⟨_, _, History.more h2 p3⟩

/-- Every text, however it is spelled within a string, is reported as it is, and nothing else is reported. -/
theorem string_spelled {R : Reader σ} {view : σ → List UInt8} (hR : Faithful R view) {cs : List Char} {bs : List UInt8} (hs : SpellsAll cs bs)
    {toks : List Token} {st : σ} {d : Dec} (h : History R view (0x22 :: (bs ++ [0x22])) toks true st d) :
    toks = [.string (0x22 :: (bs ++ [0x22])) (cs.flatMap String.utf8EncodeChar)] := by
  obtain ⟨ps, h1, h2, h3, h4, h5⟩ := spellsAll_exists hs
  have hc : Cut (0x22 :: (bs ++ [0x22])) [.string ps] .none := by
    have := Cut.lexeme (v := []) (.string ps) (h2 _) (.tail .none trivial)
    rw [List.append_nil] at this
    rwa [← h1]
  rw [(pop_reports_all hR h hc).1]
  have ht := told_eq [] ps (by simp) h5
  rw [List.nil_append] at ht
  simp only [tokens, Lexeme.tokens, Tail.tokens, List.flatMap_cons, List.flatMap_nil, List.append_nil, h4, List.nil_append, ht, h1, h3, stringToken]
  rw [if_pos ((Args.isUtf8_iff _).mpr ⟨cs, rfl⟩)]

/-- `a`, `\n` and `\ud834\udd1e` -/
example : SpellsAll ['a', '\n', '𝄞'] ([0x61] ++ ([0x5c, 0x6e] ++ ((escaped [0x64, 0x38, 0x33, 0x34] ++ escaped [0x64, 0x64, 0x31, 0x65]) ++ []))) :=
  .cons (.plain (by decide)) (.cons (.escape (v := 0x0a) rfl rfl) (.cons (.pair ⟨⟨rfl, by decide⟩, by decide⟩ ⟨⟨rfl, by decide⟩, by decide⟩ (by decide)) .nil))

/-! ## C60: numbers -/

/-- Every number of JSON is reported with its parts, and nothing is reported for it but that, if something follows that ends it. -/
theorem number_spelled {R : Reader σ} {view : σ → List UInt8} (hR : Faithful R view) {neg : Bool} {i : List UInt8} {f : Option (List UInt8)}
    {e : Option (UInt8 × Option UInt8 × List UInt8)} (hi : i ≠ [] ∧ ∀ b ∈ i, Digit b) (hf : ∀ x, f = some x → x ≠ [] ∧ ∀ b ∈ x, Digit b)
    (he : ∀ c s x, e = some (c, s, x) → Exp c ∧ (∀ b, s = some b → SignByte b) ∧ x ≠ [] ∧ ∀ b ∈ x, Digit b)
    {b : UInt8} (hb : ¬ Digit b ∧ ¬ SignByte b ∧ ¬ Point b ∧ ¬ Exp b) {v : List UInt8} {ls : List Lexeme} {t : Tail} (hc : Cut (b :: v) ls t)
    {toks : List Token} {st : σ} {d : Dec} (h : History R view (jsonNumber neg i f e ++ b :: v) toks true st d) :
    toks = .number ⟨jsonNumber neg i f e, if neg then .minus else .plus, i, f,
      e.map fun (_, s, x) => (if s = some 0x2d then .minus else .plus, x)⟩ :: tokens ls t := by
  obtain ⟨n, hn, hw, ht, hh, hs, hx⟩ := jsonNumber_exists (neg := neg) hi hf he
  have hcut : Cut (n.bytes ++ b :: v) (.number n :: ls) t := .lexeme (.number n) ⟨hw, b, v, rfl, ht b hb⟩ hc
  rw [hn] at hcut
  rw [(pop_reports_all hR h hcut).1, ← hx]
  simp only [tokens, List.flatMap_cons, Lexeme.tokens, hs, if_neg hh, List.nil_append, List.cons_append]

/-- `-1.5e+3,` -/
example : ∃ b, ([0x31] ≠ [] ∧ ∀ b ∈ [0x31], Digit b) ∧ (∀ x, some [0x35] = some x → x ≠ [] ∧ ∀ b ∈ x, Digit b)
    ∧ (∀ c s x, some ((0x65 : UInt8), some (0x2b : UInt8), [(0x33 : UInt8)]) = some (c, s, x) → Exp c ∧ (∀ b, s = some b → SignByte b) ∧ x ≠ [] ∧ ∀ b ∈ x, Digit b)
    ∧ (¬ Digit b ∧ ¬ SignByte b ∧ ¬ Point b ∧ ¬ Exp b) ∧ Cut [b] [.mark 0x2c .comma] .none := by
  refine ⟨0x2c, by decide, ?_, ?_, by decide, .lexeme (.mark 0x2c .comma) rfl (.tail .none trivial)⟩
  · intro x hx; cases hx; decide
  · intro c s x hx; cases hx
    exact ⟨.inl rfl, fun b hb => by cases hb; exact .inl rfl, by decide, by decide⟩

/-! ## C44: the end of the input -/

/-- What `complete` does with each tail. If the tokenizer is left as it is, the next call does the same. -/
def Finishing (R : Reader σ) (st : σ) (d : Dec) : Tail → Prop
  | .none => Completes R st d []
  | .space bs => complete R st d = some (st, d, some (.whitespace bs))
  | .word bs => complete R st d = some (st, d, some (wordToken bs))
  | .string _ _ => complete R st d = some (st, d, some (.error .stringIncomplete))
  | .number ⟨[], b :: ds, none, none⟩ => Completes R st d [.number ⟨b :: ds, .plus, [b], none, none⟩]
  | .number _ => ∃ d', complete R st d = some (st, d', some (.error .numberRangeEmpty)) ∧ complete R st d' = none

/-- What happens when `complete` is called, for everything that may be left. -/
theorem complete_cases {R : Reader σ} {view : σ → List UInt8} (hR : Faithful R view) {fed : List UInt8} {toks : List Token} {st : σ} {d : Dec}
    (h : History R view fed toks true st d) {ls : List Lexeme} {t : Tail} (hc : Cut fed ls t) :
    Finishing R st d t := by
  obtain ⟨-, hv, hr⟩ := (known_tokens hR (history_known hR h) hc).2 rfl
  have hf := cut_fits hc
  match t, hv, hr, hf with
  | .none, hv, hr, _ => exact .done (complete_empty hR hr.1 hr.2 hv)
  | .space bs, hv, hr, hf => exact complete_space hR hf hv hr
  | .word bs, hv, hr, _ => exact complete_word hR hv hr
  | .string ps part, hv, hr, _ => exact complete_string hR hv hr
  | .number ⟨[], b :: ds, none, none⟩, hv, hr, hf =>
    exact complete_digits hR (hf.2.2.1 b List.mem_cons_self) (by rw [hv]; simp [Tail.bytes, Numeral.bytes]) hr
  | .number ⟨[], [], f, e⟩, hv, hr, hf =>
    exact (hf.1.elim (fun h => (h rfl).elim) (fun h => (h rfl).elim))
  | .number ⟨s :: ss, i, f, e⟩, hv, hr, hf => exact complete_hollow hR hf hv hr (by rintro ⟨h, -⟩; cases h)
  | .number ⟨[], b :: ds, some f, e⟩, hv, hr, hf => exact complete_hollow hR hf hv hr (by rintro ⟨-, h, -⟩; cases h)
  | .number ⟨[], b :: ds, none, some e⟩, hv, hr, hf => exact complete_hollow hR hf hv hr (by rintro ⟨-, -, h⟩; cases h)

/-- With nothing left, and with a number of one digit left, completing reports what it should. (The property asks for this for all that
may be left, which `complete_right_iff` refutes.) -/
theorem complete_partial {R : Reader σ} {view : σ → List UInt8} (hR : Faithful R view) {fed : List UInt8} {toks : List Token} {st : σ} {d : Dec}
    (h : History R view fed toks true st d) {ls : List Lexeme} {t : Tail} (hc : Cut fed ls t) (ht : t = .none ∨ ∃ b, t = .number ⟨[], [b], none, none⟩) :
    Completes R st d t.rest := by
  have := complete_cases hR h hc
  rcases ht with rfl | ⟨b, rfl⟩
  · exact this
  · exact this

/-- Nothing else is completed as it should. -/
theorem complete_right_iff {R : Reader σ} {view : σ → List UInt8} (hR : Faithful R view) {fed : List UInt8} {toks : List Token} {st : σ} {d : Dec}
    (h : History R view fed toks true st d) {ls : List Lexeme} {t : Tail} (hc : Cut fed ls t) :
    Completes R st d t.rest ↔ t = .none ∨ ∃ b, t = .number ⟨[], [b], none, none⟩ := by
  refine ⟨fun hr => ?_, complete_partial hR h hc⟩
  have hx := complete_cases hR h hc
  match t, hx, hr with
  | .none, _, _ => exact .inl rfl
  | .space bs, hx, hr => exact (completes_loop hx _ hr).elim
  | .word bs, hx, hr => exact (completes_loop hx _ hr).elim
  | .string ps part, hx, hr => exact (completes_loop hx _ hr).elim
  | .number ⟨[], b :: ds, none, none⟩, hx, hr =>
    have := completes_det hr hx
    match ds, this with
    | [], _ => exact .inr ⟨b, rfl⟩
    | c :: ds, this =>
      have hh : ¬ (Numeral.mk [] (b :: c :: ds) none none).Hollow := by
        rintro (h | h | ⟨c, s, h⟩) <;> cases h
      simp [Tail.rest, if_neg hh, Numeral.number] at this
  | .number ⟨[], [], f, e⟩, ⟨d', h1, h2⟩, hr => exact (completes_panic h1 h2 _ hr).elim
  | .number ⟨s :: ss, i, f, e⟩, ⟨d', h1, h2⟩, hr => exact (completes_panic h1 h2 _ hr).elim
  | .number ⟨[], b :: ds, some f, e⟩, ⟨d', h1, h2⟩, hr => exact (completes_panic h1 h2 _ hr).elim
  | .number ⟨[], b :: ds, none, some e⟩, ⟨d', h1, h2⟩, hr => exact (completes_panic h1 h2 _ hr).elim

/-- The property fails: after a blank the loop never ends. -/
theorem complete_never_ends : ∃ st d, History slices (·.1) [0x20] [] true st d ∧ ∀ ts, ¬ Completes slices st d ts := by
  have h0 : History slices (·.1) [0x20] [] false ⟨[0x20], by decide⟩ .new := .start (R := slices) (view := (·.1)) ⟨_, by decide⟩
  have p1 : pop slices ⟨[0x20], by decide⟩ .new = (⟨[0x20], by decide⟩, ⟨.whitespace, 1, none, []⟩, .brk ⟨2, none⟩) := rfl
  have h1 := History.more h0 p1
  refine ⟨_, _, h1, fun ts => completes_loop (t := .whitespace [0x20]) ?_ ts⟩
  rfl

/-- The property fails: after `-5` it is said that digits are missing, and then `complete` panics. -/
theorem complete_panics : ∃ st d, History slices (·.1) [0x2d, 0x35] [] true st d
    ∧ ∃ d', complete slices st d = some (st, d', some (.error .numberRangeEmpty)) ∧ complete slices st d' = none := by
  have h0 : History slices (·.1) [0x2d, 0x35] [] false ⟨[0x2d, 0x35], by decide⟩ .new := .start (R := slices) (view := (·.1)) ⟨_, by decide⟩
  have p1 : pop slices ⟨[0x2d, 0x35], by decide⟩ .new =
    (⟨[0x2d, 0x35], by decide⟩, ⟨.number ⟨.minus, ⟨1, 1⟩, ⟨0, 0⟩, .plus, ⟨0, 0⟩⟩, 2, none, []⟩, .brk ⟨3, none⟩) := rfl
  have h1 := History.more h0 p1
  exact ⟨_, _, h1, ⟨.numberDone ⟨.minus, ⟨1, 1⟩, ⟨0, 0⟩, .plus, ⟨0, 0⟩⟩, 2, none, []⟩, rfl, rfl⟩

/-- The property fails: `12` is reported as the number with the digit `1`. -/
theorem complete_cuts : ∃ st d, History slices (·.1) [0x31, 0x32] [] true st d
    ∧ Completes slices st d [.number ⟨[0x31, 0x32], .plus, [0x31], none, none⟩] := by
  have h0 : History slices (·.1) [0x31, 0x32] [] false ⟨[0x31, 0x32], by decide⟩ .new := .start (R := slices) (view := (·.1)) ⟨_, by decide⟩
  have p1 : pop slices ⟨[0x31, 0x32], by decide⟩ .new =
    (⟨[0x31, 0x32], by decide⟩, ⟨.number ⟨.plus, ⟨0, 1⟩, ⟨0, 0⟩, .plus, ⟨0, 0⟩⟩, 2, none, []⟩, .brk ⟨3, none⟩) := rfl
  have h1 := History.more h0 p1
  refine ⟨_, _, h1, .token (st' := ⟨[0x31, 0x32], by decide⟩) (d' := ⟨.number ⟨.plus, ⟨0, 1⟩, ⟨0, 0⟩, .plus, ⟨0, 0⟩⟩, 2, some 2, []⟩) rfl
    (.done (st' := ⟨[], by decide⟩) (d' := ⟨.none, 2, none, []⟩) rfl)⟩

end Verif.Json.Bytes
