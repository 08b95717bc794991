import Verif.Json.LemmasDecode
namespace Verif.Json.Decode
open Verif.Json.Bytes (Token Lexeme Tail Cut tokens Space)
open Verif.Json.Stream (Tok Item strip)

/-- Without errors, every token is reported as it ought to be. -/
theorem advance_report (d : Stream.Dec) (t : Tok) (h : (d.advance t).2 ≠ some .error) : (d.advance t).2 = report t := by
  obtain ⟨s, st⟩ := d
  cases s <;> cases t <;> first | rfl | exact (h rfl).elim

theorem run_report : ∀ (l : List Tok) (d : Stream.Dec), Item.error ∉ (d.run l).2 → (d.run l).2 = l.filterMap report
  | [], _, _ => rfl
  | t :: l, d, h => by
    have h : Item.error ∉ (d.advance t).2.toList ++ ((d.advance t).1.run l).2 := h
    show (d.advance t).2.toList ++ ((d.advance t).1.run l).2 = _
    rw [List.mem_append, not_or] at h
    rw [run_report l _ h.2, advance_report d t (fun hx => h.1 (by rw [hx]; simp))]
    cases hr : report t with
    | none => rw [List.filterMap_cons_none hr]; rfl
    | some i => rw [List.filterMap_cons_some hr]; rfl

theorem strip_report (l : List Tok) : (strip l).filterMap report = l.filterMap report := by
  induction l with
  | nil => rfl
  | cons t l ih =>
    unfold strip at ih ⊢
    rw [List.filter_cons]
    cases t <;> simp only [ne_eq, reduceCtorEq, not_false_eq_true, not_true_eq_false, decide_true, decide_false, if_true, Bool.false_eq_true, if_false,
      List.filterMap_cons, report] <;> first | exact ih | exact congrArg _ ih

/-! ## Tokens of JSON texts -/

def stripped (ls : List Lexeme) (t : Tail) : List Tok := strip (kinds ls t)

theorem stripped_cons (l : Lexeme) (ls : List Lexeme) (t : Tail) : stripped (l :: ls) t = strip (l.tokens.map kind) ++ stripped ls t := by
  simp [stripped, kinds, tokens, strip]

/-- Text that ends scalars. -/
def Ends (v : List UInt8) : Prop := ∃ b v', v = b :: v' ∧ (Space b ∨ b = 0x2c ∨ b = 0x5d ∨ b = 0x7d ∨ b = 0x3a)

/-- Text that ends white space. -/
def Solid (v : List UInt8) : Prop := ∃ b v', v = b :: v' ∧ ¬ Space b

theorem cut_spaces {w v : List UInt8} {ls : List Lexeme} {t : Tail} (hw : Spaces w) (hc : Cut v ls t) (hv : Solid v) :
    ∃ ls', Cut (w ++ v) ls' t ∧ stripped ls' t = stripped ls t := by
  cases w with
  | nil => exact ⟨ls, hc, rfl⟩
  | cons b w => exact ⟨.space (b :: w) :: ls, .lexeme (.space (b :: w)) ⟨by simp, hw, hv⟩ hc, by rw [stripped_cons]; rfl⟩

theorem ends_spaces {w v : List UInt8} (hw : Spaces w) (hv : Ends v) : Ends (w ++ v) := by
  cases w with
  | nil => exact hv
  | cons b w => exact ⟨b, w ++ v, rfl, .inl (hw b (by simp))⟩

theorem cut_mark {v : List UInt8} {ls : List Lexeme} {t : Tail} (b : UInt8) (k : Token) (hb : Bytes.mark b = some k) (hk : kind k ≠ .whitespace) (hc : Cut v ls t) :
    ∃ ls', Cut (b :: v) ls' t ∧ stripped ls' t = kind k :: stripped ls t :=
  ⟨.mark b k :: ls, .lexeme (.mark b k) hb hc, by rw [stripped_cons]; simp [Lexeme.tokens, strip, hk]⟩

theorem cut_quoted {s v : List UInt8} {ls : List Lexeme} {t : Tail} (hs : Quoted s) (hc : Cut v ls t) :
    ∃ ls', Cut (s ++ v) ls' t ∧ stripped ls' t = .string :: stripped ls t := by
  obtain ⟨cs, bs, h, rfl⟩ := hs
  obtain ⟨ps, h1, h2, h3, h4, h5⟩ := Bytes.spellsAll_exists h
  refine ⟨.string ps :: ls, ?_, ?_⟩
  · have := Cut.lexeme (.string ps) (h2 _) hc
    rwa [show (Lexeme.string ps).bytes = 0x22 :: (bs ++ [0x22]) by rw [← h1]; rfl] at this
  · have ht := Bytes.told_eq [] ps (by simp) h5
    rw [List.nil_append] at ht
    rw [stripped_cons]
    simp only [Lexeme.tokens, h4, List.nil_append, ht, h3, Bytes.stringToken]
    rw [if_pos ((Args.isUtf8_iff _).mpr ⟨cs, rfl⟩)]
    rfl

theorem quoted_solid {s : List UInt8} (h : Quoted s) (v : List UInt8) : Solid (s ++ v) := by
  obtain ⟨cs, bs, -, rfl⟩ := h
  exact ⟨0x22, bs ++ [0x22] ++ v, by simp, by decide⟩

theorem cut_word {cs : List Char} {k : Tok} {v : List UInt8} {ls : List Lexeme} {t : Tail}
    (h : ∃ b l, Bytes.ascii cs = b :: l ∧ Bytes.StartsWord b ∧ ∀ c ∈ l, Bytes.InWord c)
    (hk : kind (Bytes.wordToken (Bytes.ascii cs)) = k) (hn : k ≠ .whitespace) (hc : Cut v ls t) (hv : Ends v) :
    ∃ ls', Cut (Bytes.ascii cs ++ v) ls' t ∧ stripped ls' t = k :: stripped ls t := by
  obtain ⟨b, v', rfl, hb⟩ := hv
  refine ⟨.word (Bytes.ascii cs) :: ls, .lexeme (.word (Bytes.ascii cs)) ⟨h, b, v', rfl, ?_⟩ hc, ?_⟩
  · rcases hb with (rfl | rfl | rfl | rfl) | rfl | rfl | rfl | rfl <;> decide
  · rw [stripped_cons]; simp [Lexeme.tokens, strip, hk, hn]

theorem cut_scalar {s v : List UInt8} {k : Tok} {ls : List Lexeme} {t : Tail} (hs : Scalar s k) (hc : Cut v ls t) (hv : Ends v) :
    ∃ ls', Cut (s ++ v) ls' t ∧ stripped ls' t = k :: stripped ls t := by
  cases hs with
  | null => exact cut_word ⟨_, _, rfl, by decide, by decide⟩ rfl (by decide) hc hv
  | false => exact cut_word ⟨_, _, rfl, by decide, by decide⟩ rfl (by decide) hc hv
  | true => exact cut_word ⟨_, _, rfl, by decide, by decide⟩ rfl (by decide) hc hv
  | string h => exact cut_quoted h hc
  | number hi hf he =>
    obtain ⟨n, hn, hw, ht, hh, hs, hx⟩ := Bytes.jsonNumber_exists hi hf he
    obtain ⟨b, v', rfl, hb⟩ := hv
    refine ⟨.number n :: ls, ?_, ?_⟩
    · rw [← hn]
      refine .lexeme (.number n) ⟨hw, b, v', rfl, ht b ?_⟩ hc
      rcases hb with (rfl | rfl | rfl | rfl) | rfl | rfl | rfl | rfl <;> decide
    · rw [stripped_cons]
      simp [Lexeme.tokens, hs, hh, strip, kind]

theorem scalar_solid {s : List UInt8} {k : Tok} (h : Scalar s k) (v : List UInt8) : Solid (s ++ v) := by
  cases h with
  | null => exact ⟨0x6e, [0x75, 0x6c, 0x6c] ++ v, rfl, by decide⟩
  | false => exact ⟨0x66, [0x61, 0x6c, 0x73, 0x65] ++ v, rfl, by decide⟩
  | true => exact ⟨0x74, [0x72, 0x75, 0x65] ++ v, rfl, by decide⟩
  | string h => exact quoted_solid h v
  | @number neg i f e hi hf he =>
    cases neg with
    | true => exact ⟨0x2d, _, by simp [Bytes.jsonNumber]; rfl, by decide⟩
    | false =>
      cases i with
      | nil => exact (hi.1 rfl).elim
      | cons b i =>
        refine ⟨b, _, by simp [Bytes.jsonNumber]; rfl, ?_⟩
        have := hi.2 b (by simp)
        rintro (rfl | rfl | rfl | rfl) <;> revert this <;> decide

theorem value_solid {s : List UInt8} {ks : List Tok} (h : Value s ks) (v : List UInt8) : Solid (s ++ v) := by
  cases h with
  | scalar h => exact scalar_solid h v
  | array => exact ⟨0x5b, _, rfl, by decide⟩
  | elements => exact ⟨0x5b, _, rfl, by decide⟩
  | object => exact ⟨0x7b, _, rfl, by decide⟩
  | members => exact ⟨0x7b, _, rfl, by decide⟩

theorem solid_mark {v : List UInt8} (b : UInt8) (hb : ¬ Space b) : Solid (b :: v) := ⟨b, v, rfl, hb⟩

mutual
theorem cut_value {s : List UInt8} {ks : List Tok} : Value s ks → ∀ {v : List UInt8} {ls : List Lexeme} {t : Tail}, Cut v ls t → (Ends v ∨ ks.length ≠ 1) →
    ∃ ls', Cut (s ++ v) ls' t ∧ stripped ls' t = ks ++ stripped ls t
  | .scalar h, v, ls, t, hc, hv => cut_scalar h hc (hv.resolve_right (by simp))
  | .array (w := w) hw, v, ls, t, hc, hv => by
    obtain ⟨l1, c1, e1⟩ := cut_mark 0x5d .arrayClose rfl (by decide) hc
    obtain ⟨l2, c2, e2⟩ := cut_spaces hw c1 (solid_mark _ (by decide))
    obtain ⟨l3, c3, e3⟩ := cut_mark 0x5b .arrayOpen rfl (by decide) c2
    refine ⟨l3, by simpa using c3, ?_⟩
    rw [e3, e2, e1]; rfl
  | .elements h, v, ls, t, hc, hv => by
    obtain ⟨l1, c1, e1⟩ := cut_mark 0x5d .arrayClose rfl (by decide) hc
    obtain ⟨l2, c2, e2⟩ := cut_elements h c1 ⟨_, _, rfl, by decide⟩ ⟨_, _, rfl, by decide⟩
    obtain ⟨l3, c3, e3⟩ := cut_mark 0x5b .arrayOpen rfl (by decide) c2
    refine ⟨l3, by simpa using c3, ?_⟩
    rw [e3, e2, e1]; simp [kind]
  | .object (w := w) hw, v, ls, t, hc, hv => by
    obtain ⟨l1, c1, e1⟩ := cut_mark 0x7d .objectClose rfl (by decide) hc
    obtain ⟨l2, c2, e2⟩ := cut_spaces hw c1 (solid_mark _ (by decide))
    obtain ⟨l3, c3, e3⟩ := cut_mark 0x7b .objectOpen rfl (by decide) c2
    refine ⟨l3, by simpa using c3, ?_⟩
    rw [e3, e2, e1]; rfl
  | .members h, v, ls, t, hc, hv => by
    obtain ⟨l1, c1, e1⟩ := cut_mark 0x7d .objectClose rfl (by decide) hc
    obtain ⟨l2, c2, e2⟩ := cut_members h c1 ⟨_, _, rfl, by decide⟩ ⟨_, _, rfl, by decide⟩
    obtain ⟨l3, c3, e3⟩ := cut_mark 0x7b .objectOpen rfl (by decide) c2
    refine ⟨l3, by simpa using c3, ?_⟩
    rw [e3, e2, e1]; simp [kind]
theorem cut_elements {s : List UInt8} {ks : List Tok} : Elements s ks → ∀ {v : List UInt8} {ls : List Lexeme} {t : Tail}, Cut v ls t → Ends v → Solid v →
    ∃ ls', Cut (s ++ v) ls' t ∧ stripped ls' t = ks ++ stripped ls t
  | .one hw hw' h, v, ls, t, hc, he, hv => by
    obtain ⟨l1, c1, e1⟩ := cut_spaces hw' hc hv
    obtain ⟨l2, c2, e2⟩ := cut_value h c1 (.inl (ends_spaces hw' he))
    obtain ⟨l3, c3, e3⟩ := cut_spaces hw c2 (value_solid h _)
    refine ⟨l3, by simpa using c3, ?_⟩
    rw [e3, e2, e1]
  | .more hw hw' h hs, v, ls, t, hc, he, hv => by
    obtain ⟨l0, c0, e0⟩ := cut_elements hs hc he hv
    obtain ⟨l4, c4, e4⟩ := cut_mark 0x2c .comma rfl (by decide) c0
    obtain ⟨l1, c1, e1⟩ := cut_spaces hw' c4 (solid_mark _ (by decide))
    obtain ⟨l2, c2, e2⟩ := cut_value h c1 (.inl (ends_spaces hw' ⟨_, _, rfl, by decide⟩))
    obtain ⟨l3, c3, e3⟩ := cut_spaces hw c2 (value_solid h _)
    refine ⟨l3, by simpa using c3, ?_⟩
    rw [e3, e2, e1, e4, e0]; simp [kind]
theorem cut_members {s : List UInt8} {ks : List Tok} : Members s ks → ∀ {v : List UInt8} {ls : List Lexeme} {t : Tail}, Cut v ls t → Ends v → Solid v →
    ∃ ls', Cut (s ++ v) ls' t ∧ stripped ls' t = ks ++ stripped ls t
  | .one hw hw' h3 h4 hk h, v, ls, t, hc, he, hv => by
    obtain ⟨l1, c1, e1⟩ := cut_spaces h4 hc hv
    obtain ⟨l2, c2, e2⟩ := cut_value h c1 (.inl (ends_spaces h4 he))
    obtain ⟨l3, c3, e3⟩ := cut_spaces h3 c2 (value_solid h _)
    obtain ⟨l4, c4, e4⟩ := cut_mark 0x3a .colon rfl (by decide) c3
    obtain ⟨l5, c5, e5⟩ := cut_spaces hw' c4 (solid_mark _ (by decide))
    obtain ⟨l6, c6, e6⟩ := cut_quoted hk c5
    obtain ⟨l7, c7, e7⟩ := cut_spaces hw c6 (quoted_solid hk _)
    refine ⟨l7, by simpa using c7, ?_⟩
    rw [e7, e6, e5, e4, e3, e2, e1]; simp [kind]
  | .more hw hw' h3 h4 hk h hs, v, ls, t, hc, he, hv => by
    obtain ⟨l0, c0, e0⟩ := cut_members hs hc he hv
    obtain ⟨l8, c8, e8⟩ := cut_mark 0x2c .comma rfl (by decide) c0
    obtain ⟨l1, c1, e1⟩ := cut_spaces h4 c8 (solid_mark _ (by decide))
    obtain ⟨l2, c2, e2⟩ := cut_value h c1 (.inl (ends_spaces h4 ⟨_, _, rfl, by decide⟩))
    obtain ⟨l3, c3, e3⟩ := cut_spaces h3 c2 (value_solid h _)
    obtain ⟨l4, c4, e4⟩ := cut_mark 0x3a .colon rfl (by decide) c3
    obtain ⟨l5, c5, e5⟩ := cut_spaces hw' c4 (solid_mark _ (by decide))
    obtain ⟨l6, c6, e6⟩ := cut_quoted hk c5
    obtain ⟨l7, c7, e7⟩ := cut_spaces hw c6 (quoted_solid hk _)
    refine ⟨l7, by simpa using c7, ?_⟩
    rw [e7, e6, e5, e4, e3, e2, e1, e8, e0]; simp [kind]
end

mutual
theorem value_json {s : List UInt8} {ks : List Tok} : Value s ks → Stream.Json ks
  | .scalar h => .scalar _ (by cases h <;> rfl)
  | .array _ => .array
  | .elements h => .elements _ (elements_json h)
  | .object _ => .object
  | .members h => .members _ (members_json h)
theorem elements_json {s : List UInt8} {ks : List Tok} : Elements s ks → Stream.Elements ks
  | .one _ _ h => .one _ (value_json h)
  | .more _ _ h hs => .more _ _ (value_json h) (elements_json hs)
theorem members_json {s : List UInt8} {ks : List Tok} : Members s ks → Stream.Members ks
  | .one _ _ _ _ _ h => .one _ (value_json h)
  | .more _ _ _ _ _ h hs => .more _ _ (value_json h) (members_json hs)
end

/-- A value within white space. -/
theorem cut_document {w s w' : List UInt8} {ks : List Tok} (hw : Spaces w) (h : Value s ks) (hw' : Spaces w') (he : w' ≠ [] ∨ ks.length ≠ 1) :
    ∃ ls t, Cut (w ++ (s ++ w')) ls t ∧ stripped ls t = ks ∧ t.bytes = w' := by
  have hc : ∃ t, Cut w' [] t ∧ stripped [] t = [] ∧ t.bytes = w' := by
    cases w' with
    | nil => exact ⟨.none, .tail .none trivial, rfl, rfl⟩
    | cons b w' => exact ⟨.space (b :: w'), .tail (.space (b :: w')) ⟨by simp, hw'⟩, rfl, rfl⟩
  obtain ⟨t, c1, e1, e2⟩ := hc
  obtain ⟨l2, c2, e3⟩ := cut_value h c1 (by
    rcases he with he | he
    · cases w' with
      | nil => exact (he rfl).elim
      | cons b w' => exact .inl ⟨b, w', rfl, .inl (hw' b (by simp))⟩
    · exact .inr he)
  obtain ⟨l3, c3, e4⟩ := cut_spaces hw c2 (value_solid h _)
  exact ⟨l3, t, c3, by rw [e4, e3, e1, List.append_nil], e2⟩

end Verif.Json.Decode
