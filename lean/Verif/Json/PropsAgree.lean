import Verif.Json.LemmasAgree
/-! # C94: both JSON tokenizers report the same tokens -/
namespace Verif.Json.Agree
open Verif.Json.Bytes (Reader Faithful History Dec)
variable {σ : Type}

theorem history_cut {R : Reader σ} {view : σ → List UInt8} (hR : Faithful R view) {zero : Bool} {toks : List Token} (ha : Apart toks)
    (hw : ∀ k ∈ toks, Written false zero k) (hk : ¬ Clash toks) {b : UInt8} {m : Bytes.Token} (hb : Bytes.mark b = some m) {ts : List Bytes.Token} {st : σ}
    {d : Dec} (h : History R view (bytesOf (toks.flatMap source) ++ [b]) ts true st d) : ts = toks.map asBytes ++ [m] ∧ view st = [] := by
  have hc : Bytes.Cut [b] [.mark b m] .none := .lexeme (.mark b m) hb (.tail .none trivial)
  obtain ⟨ls, h1, h2⟩ := cut_tokens (by rw [hb]; simp) hc toks ha hw hk
  obtain ⟨h3, h4⟩ := Bytes.pop_reports_all hR h h1
  refine ⟨?_, h4⟩
  rw [h3, Bytes.tokens, List.flatMap_append, h2]
  simp [Bytes.Lexeme.tokens, Bytes.Tail.tokens]

/-- **C94** (a). If the tokenizer for characters reports only tokens for a text, the tokenizer for bytes reports the same tokens in the same order, and
no errors, unless a keyword is directly followed by a negative number; and only then. The text may arrive in any way, and a comma, a colon or a bracket
follows it. -/
theorem both_report (fl : BitVec 32) (hp : allowsPlus fl = false) {text : List Char} {toks : List Token} (ht : tokens fl text = toks.map .tok)
    {R : Reader σ} {view : σ → List UInt8} (hR : Faithful R view) {b : UInt8} {m : Bytes.Token} (hb : Bytes.mark b = some m) {ts : List Bytes.Token} {st : σ}
    {d : Dec} (h : History R view (bytesOf text ++ [b]) ts true st d) : ts = toks.map asBytes ++ [m] ↔ ¬ Clash toks := by
  have hl := (tokens_iff fl text _).mp ht
  have ha := lex_apart hl toks rfl
  have hw := tokens_written ht
  rw [hp] at hw
  rw [← source_text ht] at h
  constructor
  · intro he hk
    obtain ⟨ls, t, hc⟩ := Bytes.cut_total (bytesOf (toks.flatMap source) ++ [b])
    refine clash_differs (by rw [hb]; simp) toks ha hw hk ls t hc [m] ?_
    rw [← (Bytes.pop_reports_all hR h hc).1, he]
  · intro hk
    exact (history_cut hR ha hw hk hb h).1

/-- **C94** (b). For a JSON text of a value both report the same: the tokens of the value, and white space. Nothing of the text is left in the stream. -/
theorem json_both {v : Text.Value} {text : List Char} (ht : Text.IsText false false v text) :
    ∃ toks : List Token, toks.filterMap Text.mark = v.marks ∧ (∀ fl, tokens fl text = toks.map .tok) ∧
      ∀ {σ : Type} {R : Reader σ} {view : σ → List UInt8}, Faithful R view → ∀ {b : UInt8} {m : Bytes.Token}, Bytes.mark b = some m →
        ∀ {ts : List Bytes.Token} {st : σ} {d : Dec}, History R view (bytesOf text ++ [b]) ts true st d → ts = toks.map asBytes ++ [m] ∧ view st = [] := by
  obtain ⟨w, t, w', hw, hw', h, rfl⟩ := ht
  obtain ⟨toks, hc, hs⟩ := Text.writes_cover h
  have hcov := Text.cover_padded hw hw' hc hs
  have h0 := written_tokens 0 _ hcov.written hcov.sep
  have h1 := h0
  rw [hcov.src] at h1
  refine ⟨_, hcov.marks, fun fl => flags_relax fl h1, ?_⟩
  intro σ R view hR b m hb ts st d hist
  rw [← hcov.src] at hist
  have hl := (tokens_iff 0 _ _).mp h0
  exact history_cut hR (lex_apart hl _ rfl) hcov.written (separate_noclash hcov.sep) hb hist

/-- **C94** (c). Conversely, if the tokenizer for bytes reports tokens of a value, as they may be written, and white space, and nothing is left in the
stream, then the text is a JSON text of the value. -/
theorem bytes_json {R : Reader σ} {view : σ → List UInt8} (hR : Faithful R view) {v : Text.Value} {bytes : List UInt8} {b : UInt8} {m : Bytes.Token}
    (hb : Bytes.mark b = some m) {toks : List Token} (hw : ∀ k ∈ toks, Written false false k) (hm : toks.filterMap Text.mark = v.marks) {st : σ} {d : Dec}
    (h : History R view (bytes ++ [b]) (toks.map asBytes ++ [m]) true st d) (hv : view st = []) :
    ∃ text, Text.IsText false false v text ∧ bytes = bytesOf text := by
  have hs := Bytes.sources_all hR h
  rw [hv, List.append_nil, List.flatMap_append, sources_bytes, List.flatMap_cons, List.flatMap_nil, List.append_nil, mark_source hb] at hs
  obtain ⟨w, t, b', h1, h2, h3, h4, h5⟩ := Text.starts v [] toks hw (by rw [hm, List.append_nil])
  exact ⟨toks.flatMap source, ⟨w, t, _, h1, Text.split_none h5 h4, h2, h3⟩, (List.append_cancel_right hs).symm⟩

/-- **C94** (d). The numbers have the same values, however the client gets them. -/
theorem same_values {plus zero : Bool} {raw : List Char} {i f x : List UInt8} {s e : Sign} (h : Written plus zero (.number raw i f x s e)) :
    ∃ n, asBytes (.number raw i f x s e) = .number n ∧ byteValue n = Text.numberValue i f x s e := by
  refine ⟨_, rfl, ?_⟩
  obtain ⟨sg, ds, ft, fs, xt, xs, -, -, -, -, hx, rfl, rfl, rfl⟩ := h
  have hf : ((if fs.map digitVal = [] then none else some (digitBytes (fs.map digitVal))).getD []).map (· - 0x30) = fs.map digitVal := by
    split
    · rename_i h; rw [h]; rfl
    · exact digits_back _
  have hs : ∀ s : Sign, (match signAs s with | .plus => Sign.plus | .minus => .minus) = s := by intro s; cases s <;> rfl
  cases hx with
  | none =>
    show Text.numberValue ((digitBytes (ds.map digitVal)).map (· - 0x30)) _ [] _ .plus = _
    rw [digits_back]
    show Text.numberValue _ (((if fs.map digitVal = [] then none else some (digitBytes (fs.map digitVal))).getD []).map (· - 0x30)) [] _ .plus = _
    rw [hf]
    cases s <;> rfl
  | some c _ et _ hc he hd h0 =>
    have hn : xs.map digitVal ≠ [] := by simpa using h0
    simp only [byteValue, if_neg hn, Option.map_some, Option.getD_some, digits_back]
    rw [hf]
    cases s <;> cases e <;> rfl

/-! Examples: every text can be fed to the tokenizer for bytes. -/

/-- Whatever the text is, `pop` asks for more once all tokens were reported. -/
theorem history_exists (bytes : List UInt8) (hl : bytes.length ≤ Bytes.isizeMax) :
    ∃ ts st d, History Bytes.slices (·.1) bytes ts true st d := by
  obtain ⟨ls, t, h⟩ := Bytes.cut_total bytes
  have main : ∀ n st d toks, History Bytes.slices (·.1) bytes toks false st d → (Bytes.tokens ls t).length - toks.length = n →
      ∃ ts st d, History Bytes.slices (·.1) bytes ts true st d := by
    intro n
    induction n with
    | zero =>
      intro st d toks hh hn
      have hp := Bytes.pop_reports Bytes.slices_faithful hh h
      have hx := Bytes.pop_next Bytes.slices_faithful hh h
      match hq : Bytes.pop Bytes.slices st d with
      | (st1, d1, .cont tok) =>
        rw [hq] at hx
        have hx : toks ++ [tok] <+: Bytes.tokens ls t := hx
        have := hx.length_le
        rw [List.length_append, List.length_singleton] at this
        omega
      | (st1, d1, .brk e) => exact ⟨_, _, _, .more hh hq⟩
      | (st1, d1, .fault) => rw [hq] at hx; exact hx.elim
    | succ n ih =>
      intro st d toks hh hn
      have hx := Bytes.pop_next Bytes.slices_faithful hh h
      match hq : Bytes.pop Bytes.slices st d with
      | (st1, d1, .cont tok) => exact ih st1 d1 (toks ++ [tok]) (.token hh hq) (by simp; omega)
      | (st1, d1, .brk e) => exact ⟨_, _, _, .more hh hq⟩
      | (st1, d1, .fault) => rw [hq] at hx; exact hx.elim
  exact main _ ⟨bytes, hl⟩ .new [] (.start (R := Bytes.slices) (view := (·.1)) ⟨bytes, hl⟩) rfl

/-- ` [1.50e-7 ,"𝄞ä"]` and a comma. -/
example : ∃ ts st d, History Bytes.slices (·.1) (bytesOf [' ', '[', '1', '.', '5', '0', 'e', '-', '7', ' ', ',', '"', '\\', 'u', 'd', '8', '3', '4', '\\', 'u',
    'd', 'd', '1', 'e', 'ä', '"', ']'] ++ [0x2c]) ts true st d ∧
    ts = [.whitespace [0x20], .arrayOpen, .number ⟨[0x31, 0x2e, 0x35, 0x30, 0x65, 0x2d, 0x37], .plus, [0x31], some [0x35, 0x30], some (.minus, [0x37])⟩,
      .whitespace [0x20], .comma, .string ([0x22, 0x5c, 0x75, 0x64, 0x38, 0x33, 0x34, 0x5c, 0x75, 0x64, 0x64, 0x31, 0x65, 0xc3, 0xa4, 0x22])
        [0xf0, 0x9d, 0x84, 0x9e, 0xc3, 0xa4], .arrayClose, .comma] := by
  obtain ⟨ts, st, d, h⟩ := history_exists (bytesOf [' ', '[', '1', '.', '5', '0', 'e', '-', '7', ' ', ',', '"', '\\', 'u', 'd', '8', '3', '4', '\\', 'u',
    'd', 'd', '1', 'e', 'ä', '"', ']'] ++ [0x2c]) (by decide +kernel)
  refine ⟨ts, st, d, h, ?_⟩
  have ht : tokens 0 [' ', '[', '1', '.', '5', '0', 'e', '-', '7', ' ', ',', '"', '\\', 'u', 'd', '8', '3', '4', '\\', 'u',
    'd', 'd', '1', 'e', 'ä', '"', ']'] = [Token.whitespace [' '], .arrayOpen, .number ['1', '.', '5', '0', 'e', '-', '7'] [1] [5, 0] [7] .plus .minus,
      .whitespace [' '], .comma, .string ['\\', 'u', 'd', '8', '3', '4', '\\', 'u', 'd', 'd', '1', 'e', 'ä'] ['𝄞', 'ä'], .arrayClose].map .tok := by
    decide +kernel
  have := (both_report 0 rfl ht Bytes.slices_faithful (b := 0x2c) (m := .comma) rfl h).mpr (separate_noclash (by simp [Separate, isWordy, isBlank]))
  rw [this]
  decide +kernel

/-- `null-1` is two tokens to the one, and not to the other. -/
theorem clash_example : tokens 0 ['n', 'u', 'l', 'l', '-', '1'] = [Token.null, .number ['-', '1'] [1] [] [] .minus .plus].map .tok ∧
    ∃ st d, History Bytes.slices (·.1) (bytesOf ['n', 'u', 'l', 'l', '-', '1'] ++ [0x2c])
      [.error (.itemUnknown (bytesOf ['n', 'u', 'l', 'l', '-', '1'])), .comma] true st d := by
  refine ⟨by decide +kernel, ?_⟩
  obtain ⟨ts, st, d, h⟩ := history_exists (bytesOf ['n', 'u', 'l', 'l', '-', '1'] ++ [0x2c]) (by decide +kernel)
  have hc : Bytes.Cut ([0x6e, 0x75, 0x6c, 0x6c, 0x2d, 0x31] ++ [0x2c]) [.word [0x6e, 0x75, 0x6c, 0x6c, 0x2d, 0x31], .mark 0x2c .comma] .none :=
    .lexeme (.word [0x6e, 0x75, 0x6c, 0x6c, 0x2d, 0x31]) ⟨⟨_, _, rfl, by decide, by decide⟩, _, _, rfl, by decide⟩
      (.lexeme (.mark 0x2c .comma) rfl (.tail .none trivial))
  have hb : bytesOf ['n', 'u', 'l', 'l', '-', '1'] = [0x6e, 0x75, 0x6c, 0x6c, 0x2d, 0x31] := by decide +kernel
  rw [hb] at h ⊢
  have := (Bytes.pop_reports_all Bytes.slices_faithful h hc).1
  rw [show Bytes.tokens [.word [0x6e, 0x75, 0x6c, 0x6c, 0x2d, 0x31], .mark 0x2c .comma] .none =
    [.error (.itemUnknown [0x6e, 0x75, 0x6c, 0x6c, 0x2d, 0x31]), .comma] by decide +kernel] at this
  rw [this] at h
  exact ⟨st, d, h⟩

end Verif.Json.Agree
