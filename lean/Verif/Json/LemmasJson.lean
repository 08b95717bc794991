import Verif.Json.SpecText
/-! # Lemmas about JSON texts -/
namespace Verif.Json.Text

variable {plus zero : Bool}

/-! ## From texts to tokens -/

/-- Neither white space nor a word. -/
def Plain (k : Token) : Prop := isWordy k = Bool.false ∧ isBlank k = Bool.false

/-- May follow one another. -/
def Ok (a b : Token) : Prop := ¬ (isWordy a = Bool.true ∧ isWordy b = Bool.true) ∧ ¬ (isBlank a = Bool.true ∧ isBlank b = Bool.true)

theorem separate_append : ∀ a b : List Token, Separate a → Separate b → (∀ x y, a.getLast? = some x → b.head? = some y → Ok x y) → Separate (a ++ b)
  | [], b, _, hb, _ => hb
  | [x], [], _, _, _ => trivial
  | [x], y :: b, _, hb, h => ⟨(h x y rfl rfl).1, (h x y rfl rfl).2, hb⟩
  | x :: y :: a, b, ha, hb, h => ⟨ha.1, ha.2.1, separate_append (y :: a) b ha.2.2 hb (fun u v hu hv => h u v (by simpa using hu) hv)⟩

/-- Tokens that are written as the text, with these marks. -/
structure Cover (plus zero : Bool) (text : List Char) (ms : List Mark) (toks : List Token) : Prop where
  written : ∀ k ∈ toks, Written plus zero k
  src : toks.flatMap source = text
  marks : toks.filterMap mark = ms
  sep : Separate toks

/-- They neither start nor end with white space. -/
structure Solid (toks : List Token) : Prop where
  first : ∃ x, toks.head? = some x ∧ isBlank x = Bool.false
  last : ∃ x, toks.getLast? = some x ∧ isBlank x = Bool.false

def blank (w : List Char) : List Token := if w = [] then [] else [.whitespace w]

theorem blank_blank {w : List Char} {k : Token} (h : k ∈ blank w) : isBlank k = Bool.true ∧ isWordy k = Bool.false := by
  unfold blank at h
  split at h
  · cases h
  · rw [List.mem_singleton] at h; subst h; exact ⟨rfl, rfl⟩

theorem cover_spaces {w : List Char} (h : Spaces w) : Cover plus zero w [] (blank w) := by
  unfold blank
  split
  · next e => subst e; exact ⟨(fun _ h => nomatch h), rfl, rfl, trivial⟩
  · next e => exact ⟨(fun k hk => by rw [List.mem_singleton] at hk; subst hk; exact ⟨e, h⟩), by simp [source], rfl, trivial⟩

theorem cover_append {t1 t2 : List Char} {m1 m2 : List Mark} {a b : List Token} (ha : Cover plus zero t1 m1 a) (hb : Cover plus zero t2 m2 b)
    (h : ∀ x y, a.getLast? = some x → b.head? = some y → Ok x y) : Cover plus zero (t1 ++ t2) (m1 ++ m2) (a ++ b) where
  written k hk := (List.mem_append.mp hk).elim (ha.written k) (hb.written k)
  src := by rw [List.flatMap_append, ha.src, hb.src]
  marks := by rw [List.filterMap_append, ha.marks, hb.marks]
  sep := separate_append a b ha.sep hb.sep h

/-- A single token. -/
theorem cover_one {k : Token} {m : Mark} (h : Written plus zero k) (hm : mark k = some m) : Cover plus zero (source k) [m] [k] where
  written x hx := by rw [List.mem_singleton] at hx; subst hx; exact h
  src := by simp
  marks := by simp [hm]
  sep := trivial

theorem mark_not_blank {k : Token} {m : Mark} (hm : mark k = some m) : isBlank k = Bool.false := by
  cases k <;> first | rfl | cases hm

theorem solid_one {k : Token} {m : Mark} (hm : mark k = some m) : Solid [k] :=
  ⟨⟨k, rfl, mark_not_blank hm⟩, ⟨k, rfl, mark_not_blank hm⟩⟩

theorem ok_of_not_blank {x y : Token} (h : isBlank x = Bool.false) (h2 : isBlank y = Bool.true) : Ok x y ∧ Ok y x := by
  have h3 : isWordy y = Bool.false := by cases y <;> first | rfl | cases h2
  simp [Ok, h, h3]

theorem cover_padded {w t w' : List Char} {ms : List Mark} {toks : List Token} (hw : Spaces w) (hw' : Spaces w') (h : Cover plus zero t ms toks)
    (hs : Solid toks) : Cover plus zero (w ++ (t ++ w')) ms (blank w ++ (toks ++ blank w')) := by
  obtain ⟨x, hx, hxb⟩ := hs.first
  obtain ⟨y, hy, hyb⟩ := hs.last
  have h1 : Cover plus zero (t ++ w') (ms ++ []) (toks ++ blank w') := cover_append h (cover_spaces hw') (fun u v hu hv => by
    rw [hy] at hu; cases hu
    exact (ok_of_not_blank hyb (blank_blank (List.mem_of_mem_head? hv)).1).1)
  have h2 := cover_append (cover_spaces (plus := plus) (zero := zero) hw) h1 (fun u v hu hv => by
    have e : (toks ++ blank w').head? = some x := by rw [List.head?_append, hx]; rfl
    rw [e] at hv; cases hv
    exact (ok_of_not_blank hxb (blank_blank (List.mem_of_getLast? hu)).1).2)
  rw [List.append_nil] at h2
  exact h2

theorem ok_plain {x y : Token} (h : Plain x) : Ok x y ∧ Ok y x := by
  simp [Ok, h.1, h.2]

theorem cover_punct {t1 t2 : List Char} {m1 m2 : List Mark} {a b : List Token} {k : Token} {m : Mark} (hm : mark k = some m)
    (hw : Written plus zero k) (hp : Plain k) (ha : Cover plus zero t1 m1 a) (hb : Cover plus zero t2 m2 b) :
    Cover plus zero (t1 ++ (source k ++ t2)) (m1 ++ m :: m2) (a ++ k :: b) := by
  have h1 := cover_append (cover_one hw hm) hb (fun u v hu _ => by cases hu; exact (ok_plain hp).1)
  exact cover_append ha h1 (fun u v _ hv => by cases hv; exact (ok_plain hp).2)

theorem cover_nil : Cover plus zero [] [] [] := ⟨(fun _ h => nomatch h), rfl, rfl, trivial⟩

/-- Brackets around. -/
theorem cover_brackets {t : List Char} {ms : List Mark} {toks : List Token} {k k' : Token} {m m' : Mark} (hm : mark k = some m) (hm' : mark k' = some m')
    (hw : Written plus zero k) (hw' : Written plus zero k') (hp : Plain k) (hp' : Plain k') (h : Cover plus zero t ms toks) :
    Cover plus zero (source k ++ (t ++ source k')) (m :: (ms ++ [m'])) (k :: (toks ++ [k'])) ∧ Solid (k :: (toks ++ [k'])) := by
  have h1 := cover_punct hm' hw' hp' h cover_nil
  rw [List.append_nil] at h1
  refine ⟨cover_punct hm hw hp cover_nil h1, ⟨k, rfl, hp.2⟩, ⟨k', ?_, hp'.2⟩⟩
  rw [← List.cons_append, List.getLast?_append]
  rfl

theorem elementMarks_cons (v : Value) {vs : List Value} (h : vs ≠ []) : elementMarks (v :: vs) = v.marks ++ .comma :: elementMarks vs := by
  cases vs with
  | nil => exact absurd rfl h
  | cons _ _ => simp [elementMarks]

theorem memberMarks_cons (k : List Char) (v : Value) {ms : List (List Char × Value)} (h : ms ≠ []) :
    memberMarks ((k, v) :: ms) = .string k :: .colon :: (v.marks ++ .comma :: memberMarks ms) := by
  cases ms with
  | nil => exact absurd rfl h
  | cons _ _ => simp [memberMarks]

theorem elements_ne {vs : List Value} {t : List Char} (h : Elements plus zero vs t) : vs ≠ [] := by cases h <;> simp
theorem members_ne {ms : List (List Char × Value)} {t : List Char} (h : Members plus zero ms t) : ms ≠ [] := by cases h <;> simp

theorem cover_quoted {s t : List Char} (h : Quoted s t) : ∃ toks, Cover plus zero t [.string s] toks ∧ Solid toks := by
  obtain ⟨raw, h, rfl⟩ := h
  exact ⟨_, cover_one (k := .string raw s) h rfl, solid_one (k := .string raw s) rfl⟩

mutual
theorem writes_cover : {v : Value} → {t : List Char} → Writes plus zero v t → ∃ toks, Cover plus zero t v.marks toks ∧ Solid toks
  | _, _, .null => ⟨_, cover_one (k := .null) trivial rfl, solid_one (k := .null) rfl⟩
  | _, _, .true => ⟨_, cover_one (k := .true) trivial rfl, solid_one (k := .true) rfl⟩
  | _, _, .false => ⟨_, cover_one (k := .false) trivial rfl, solid_one (k := .false) rfl⟩
  | _, _, .number (text := text) (int := i) (frac := f) (exp := x) (s := s) (e := e) h =>
    ⟨_, cover_one (k := .number text i f x s e) h rfl, solid_one (k := .number text i f x s e) rfl⟩
  | _, _, .string h => cover_quoted h
  | _, _, .empty hw =>
    ⟨_, cover_brackets (k := .arrayOpen) (k' := .arrayClose) rfl rfl trivial trivial ⟨rfl, rfl⟩ ⟨rfl, rfl⟩ (cover_spaces hw)⟩
  | _, _, .array h => by
    obtain ⟨toks, hc⟩ := elements_cover h
    exact ⟨_, cover_brackets (k := .arrayOpen) (k' := .arrayClose) rfl rfl trivial trivial ⟨rfl, rfl⟩ ⟨rfl, rfl⟩ hc⟩
  | _, _, .nothing hw =>
    ⟨_, cover_brackets (k := .objectOpen) (k' := .objectClose) rfl rfl trivial trivial ⟨rfl, rfl⟩ ⟨rfl, rfl⟩ (cover_spaces hw)⟩
  | _, _, .object h => by
    obtain ⟨toks, hc⟩ := members_cover h
    exact ⟨_, cover_brackets (k := .objectOpen) (k' := .objectClose) rfl rfl trivial trivial ⟨rfl, rfl⟩ ⟨rfl, rfl⟩ hc⟩
theorem elements_cover : {vs : List Value} → {t : List Char} → Elements plus zero vs t → ∃ toks, Cover plus zero t (elementMarks vs) toks
  | _, _, .one hw hw' h => by
    obtain ⟨toks, hc, hs⟩ := writes_cover h
    exact ⟨_, cover_padded hw hw' hc hs⟩
  | _, _, .more (w := w) (t := t) hw hw' h hes => by
    obtain ⟨toks, hc, hs⟩ := writes_cover h
    obtain ⟨toks2, hc2⟩ := elements_cover hes
    have := cover_punct (k := .comma) rfl trivial ⟨rfl, rfl⟩ (cover_padded hw hw' hc hs) hc2
    rw [elementMarks_cons _ (elements_ne hes)]
    rw [List.append_assoc w, List.append_assoc t] at this
    exact ⟨_, this⟩
theorem members_cover : {ms : List (List Char × Value)} → {t : List Char} → Members plus zero ms t → ∃ toks, Cover plus zero t (memberMarks ms) toks
  | _, _, .one hw hw' h3 h4 hk h => by
    obtain ⟨toks, hc, hs⟩ := writes_cover h
    obtain ⟨ktoks, hkc, hks⟩ := cover_quoted (plus := plus) (zero := zero) hk
    have := cover_punct (k := .colon) rfl trivial ⟨rfl, rfl⟩ (cover_padded hw hw' hkc hks) (cover_padded h3 h4 hc hs)
    rw [List.append_assoc, List.append_assoc] at this
    exact ⟨_, this⟩
  | _, _, .more hw hw' h3 h4 hk h hms => by
    obtain ⟨toks, hc, hs⟩ := writes_cover h
    obtain ⟨ktoks, hkc, hks⟩ := cover_quoted (plus := plus) (zero := zero) hk
    obtain ⟨toks2, hc2⟩ := members_cover hms
    have h5 := cover_punct (k := .comma) rfl trivial ⟨rfl, rfl⟩ (cover_padded h3 h4 hc hs) hc2
    have := cover_punct (k := .colon) rfl trivial ⟨rfl, rfl⟩ (cover_padded hw hw' hkc hks) h5
    rw [List.append_assoc, List.append_assoc, List.append_assoc, List.append_assoc] at this
    rw [memberMarks_cons _ _ (members_ne hms)]
    exact ⟨_, this⟩
end

/-! ## From tokens to texts -/

/-- The first token with a mark. -/
theorem split_mark {toks : List Token} {m : Mark} {rest : List Mark} (hw : ∀ k ∈ toks, Written plus zero k) (h : toks.filterMap mark = m :: rest) :
    ∃ ws k b, toks = ws ++ k :: b ∧ Spaces (ws.flatMap source) ∧ mark k = some m ∧ b.filterMap mark = rest := by
  induction toks with
  | nil => cases h
  | cons k toks ih =>
    cases hk : mark k with
    | some m' =>
      rw [List.filterMap_cons_some hk] at h
      cases h
      exact ⟨[], k, toks, rfl, (fun _ h => nomatch h), hk, rfl⟩
    | none =>
      rw [List.filterMap_cons_none hk] at h
      obtain ⟨ws, k', b, rfl, h1, h2, h3⟩ := ih (fun x hx => hw x (List.mem_cons_of_mem _ hx)) h
      refine ⟨k :: ws, k', b, rfl, ?_, h2, h3⟩
      have : ∀ c ∈ source k, isSpace c = Bool.true := by
        cases k <;> first | cases hk | skip
        exact (hw _ (List.mem_cons_self ..)).2
      intro c hc
      rw [List.flatMap_cons, List.mem_append] at hc
      exact hc.elim (this c) (h1 c)

/-- No token with a mark is left. -/
theorem split_none {toks : List Token} (hw : ∀ k ∈ toks, Written plus zero k) (h : toks.filterMap mark = []) : Spaces (toks.flatMap source) := by
  induction toks with
  | nil => exact fun _ h => nomatch h
  | cons k toks ih =>
    cases hk : mark k with
    | some m' => rw [List.filterMap_cons_some hk] at h; cases h
    | none =>
      rw [List.filterMap_cons_none hk] at h
      have : ∀ c ∈ source k, isSpace c = Bool.true := by
        cases k <;> first | cases hk | skip
        exact (hw _ (List.mem_cons_self ..)).2
      intro c hc
      rw [List.flatMap_cons, List.mem_append] at hc
      exact hc.elim (this c) (ih (fun x hx => hw x (List.mem_cons_of_mem _ hx)) h c)

theorem source_punct {k : Token} :
    (mark k = some .colon → source k = [':']) ∧ (mark k = some .comma → source k = [',']) ∧ (mark k = some .arrayOpen → source k = ['[']) ∧
    (mark k = some .arrayClose → source k = [']']) ∧ (mark k = some .objectOpen → source k = ['{']) ∧
    (mark k = some .objectClose → source k = ['}']) := by
  cases k <;> simp [mark, source]

theorem source_string {k : Token} {s : List Char} (hw : Written plus zero k) (h : mark k = some (.string s)) : Quoted s (source k) := by
  cases k <;> simp only [mark, Option.some.injEq, Mark.string.injEq, reduceCtorEq] at h
  subst h
  exact ⟨_, hw, rfl⟩

/-- A text that starts with white space and a value, and goes on with tokens of the given marks. -/
def Starts (plus zero : Bool) (v : Value) (rest : List Mark) (toks : List Token) : Prop :=
  ∃ (w t : List Char) (b : List Token), Spaces w ∧ Writes plus zero v t ∧ toks.flatMap source = w ++ (t ++ b.flatMap source) ∧ b.filterMap mark = rest ∧
    ∀ k ∈ b, Written plus zero k

theorem starts_scalar {v : Value} {rest : List Mark} {toks : List Token} {m : Mark} (hw : ∀ k ∈ toks, Written plus zero k)
    (h : toks.filterMap mark = m :: rest) (hv : ∀ k, Written plus zero k → mark k = some m → Writes plus zero v (source k)) :
    Starts plus zero v rest toks := by
  obtain ⟨ws, k, b, rfl, h1, h2, h3⟩ := split_mark hw h
  refine ⟨_, _, b, h1, hv k (hw k (by simp)) h2, ?_, h3, fun x hx => hw x (by simp [hx])⟩
  rw [List.flatMap_append, List.flatMap_cons]

mutual
theorem starts : (v : Value) → (rest : List Mark) → (toks : List Token) → (∀ k ∈ toks, Written plus zero k) →
    toks.filterMap mark = v.marks ++ rest → Starts plus zero v rest toks
  | .null, rest, toks, hw, h => starts_scalar hw h (fun k _ hm => by cases k <;> simp [mark] at hm; exact .null)
  | .true, rest, toks, hw, h => starts_scalar hw h (fun k _ hm => by cases k <;> simp [mark] at hm; exact .true)
  | .false, rest, toks, hw, h => starts_scalar hw h (fun k _ hm => by cases k <;> simp [mark] at hm; exact .false)
  | .number i f x s e, rest, toks, hw, h => starts_scalar hw h (fun k hk hm => by
      cases k <;> simp [mark] at hm
      obtain ⟨rfl, rfl, rfl, rfl, rfl⟩ := hm
      exact .number hk)
  | .string s, rest, toks, hw, h => starts_scalar hw h (fun k hk hm => .string (source_string hk hm))
  | .array vs, rest, toks, hw, h => by
    simp only [Value.marks, List.cons_append, List.append_assoc, List.nil_append] at h
    obtain ⟨ws, k, b, rfl, h1, h2, h3⟩ := split_mark hw h
    have hb : ∀ k ∈ b, Written plus zero k := fun x hx => hw x (by simp [hx])
    have e : (ws ++ k :: b).flatMap source = ws.flatMap source ++ ('[' :: b.flatMap source) := by
      rw [List.flatMap_append, List.flatMap_cons, source_punct.2.2.1 h2]; rfl
    rcases starts_elements vs .arrayClose rest b hb h3 with ⟨rfl, ws2, k2, b2, rfl, g1, g2, g3⟩ | ⟨t, k2, b2, g0, g1, g2, g3, g4⟩
    · refine ⟨_, _, b2, h1, .empty g1, ?_, g3, fun x hx => hb x (by simp [hx])⟩
      rw [e, List.flatMap_append, List.flatMap_cons, source_punct.2.2.2.1 g2]
      simp
    · refine ⟨_, _, b2, h1, .array g0, ?_, g3, g4⟩
      rw [e, g1, source_punct.2.2.2.1 g2]
      simp
  | .object ms, rest, toks, hw, h => by
    simp only [Value.marks, List.cons_append, List.append_assoc, List.nil_append] at h
    obtain ⟨ws, k, b, rfl, h1, h2, h3⟩ := split_mark hw h
    have hb : ∀ k ∈ b, Written plus zero k := fun x hx => hw x (by simp [hx])
    have e : (ws ++ k :: b).flatMap source = ws.flatMap source ++ ('{' :: b.flatMap source) := by
      rw [List.flatMap_append, List.flatMap_cons, source_punct.2.2.2.2.1 h2]; rfl
    rcases starts_members ms .objectClose rest b hb h3 with ⟨rfl, ws2, k2, b2, rfl, g1, g2, g3⟩ | ⟨t, k2, b2, g0, g1, g2, g3, g4⟩
    · refine ⟨_, _, b2, h1, .nothing g1, ?_, g3, fun x hx => hb x (by simp [hx])⟩
      rw [e, List.flatMap_append, List.flatMap_cons, source_punct.2.2.2.2.2 g2]
      simp
    · refine ⟨_, _, b2, h1, .object g0, ?_, g3, g4⟩
      rw [e, g1, source_punct.2.2.2.2.2 g2]
      simp
theorem starts_elements : (vs : List Value) → (m : Mark) → (rest : List Mark) → (toks : List Token) → (∀ k ∈ toks, Written plus zero k) →
    toks.filterMap mark = elementMarks vs ++ m :: rest →
    (vs = [] ∧ ∃ ws k b, toks = ws ++ k :: b ∧ Spaces (ws.flatMap source) ∧ mark k = some m ∧ b.filterMap mark = rest) ∨
    ∃ (t : List Char) (k : Token) (b : List Token), Elements plus zero vs t ∧ toks.flatMap source = t ++ (source k ++ b.flatMap source) ∧ mark k = some m ∧ b.filterMap mark = rest ∧
      ∀ k ∈ b, Written plus zero k
  | [], m, rest, toks, hw, h => .inl ⟨rfl, split_mark hw h⟩
  | v :: vs, m, rest, toks, hw, h => by
    right
    by_cases hvs : vs = []
    · have h' : toks.filterMap mark = v.marks ++ m :: rest := by
        rw [h, hvs]; rfl
      obtain ⟨w, t, b, g1, g2, g3, g4, g5⟩ := starts v _ toks hw h'
      obtain ⟨ws, k, b2, rfl, f1, f2, f3⟩ := split_mark g5 g4
      rw [hvs]
      refine ⟨_, k, b2, .one g1 f1 g2, ?_, f2, f3, fun x hx => g5 x (by simp [hx])⟩
      rw [g3, List.flatMap_append, List.flatMap_cons]
      simp
    · rw [elementMarks_cons v hvs, List.append_assoc, List.cons_append] at h
      obtain ⟨w, t, b, g1, g2, g3, g4, g5⟩ := starts v _ toks hw h
      obtain ⟨ws, k, b2, rfl, f1, f2, f3⟩ := split_mark g5 g4
      rcases starts_elements vs m rest b2 (fun x hx => g5 x (by simp [hx])) f3 with ⟨h0, _⟩ | ⟨t', k', b', e1, e2, e3, e4, e5⟩
      · exact absurd h0 hvs
      · refine ⟨_, k', b', .more g1 f1 g2 e1, ?_, e3, e4, e5⟩
        rw [g3, List.flatMap_append, List.flatMap_cons, source_punct.2.1 f2, e2]
        simp
theorem starts_members : (ms : List (List Char × Value)) → (m : Mark) → (rest : List Mark) → (toks : List Token) → (∀ k ∈ toks, Written plus zero k) →
    toks.filterMap mark = memberMarks ms ++ m :: rest →
    (ms = [] ∧ ∃ ws k b, toks = ws ++ k :: b ∧ Spaces (ws.flatMap source) ∧ mark k = some m ∧ b.filterMap mark = rest) ∨
    ∃ (t : List Char) (k : Token) (b : List Token), Members plus zero ms t ∧ toks.flatMap source = t ++ (source k ++ b.flatMap source) ∧ mark k = some m ∧ b.filterMap mark = rest ∧
      ∀ k ∈ b, Written plus zero k
  | [], m, rest, toks, hw, h => .inl ⟨rfl, split_mark hw h⟩
  | (key, v) :: ms, m, rest, toks, hw, h => by
    right
    have h0 : toks.filterMap mark = .string key :: .colon :: (v.marks ++ (if ms = [] then m :: rest else .comma :: (memberMarks ms ++ m :: rest))) := by
      rw [h]
      by_cases hms : ms = []
      · rw [if_pos hms, hms]; simp [memberMarks]
      · rw [if_neg hms, memberMarks_cons _ _ hms]; simp
    obtain ⟨ws, k1, b1, rfl, a1, a2, a3⟩ := split_mark hw h0
    have hb1 : ∀ k ∈ b1, Written plus zero k := fun x hx => hw x (by simp [hx])
    have hk1 := source_string (hw k1 (by simp)) a2
    obtain ⟨ws2, k2, b2, rfl, c1, c2, c3⟩ := split_mark hb1 a3
    have hb2 : ∀ k ∈ b2, Written plus zero k := fun x hx => hb1 x (by simp [hx])
    obtain ⟨w, t, b, g1, g2, g3, g4, g5⟩ := starts v _ b2 hb2 c3
    by_cases hms : ms = []
    · rw [if_pos hms] at g4
      obtain ⟨ws, k, b3, rfl, f1, f2, f3⟩ := split_mark g5 g4
      rw [hms]
      refine ⟨_, k, b3, .one a1 c1 g1 f1 hk1 g2, ?_, f2, f3, fun x hx => g5 x (by simp [hx])⟩
      rw [List.flatMap_append, List.flatMap_cons, List.flatMap_append, List.flatMap_cons, source_punct.1 c2, g3, List.flatMap_append, List.flatMap_cons]
      simp
    · rw [if_neg hms] at g4
      obtain ⟨ws, k, b3, rfl, f1, f2, f3⟩ := split_mark g5 g4
      rcases starts_members ms m rest b3 (fun x hx => g5 x (by simp [hx])) f3 with ⟨h0, _⟩ | ⟨t', k', b', e1, e2, e3, e4, e5⟩
      · exact absurd h0 hms
      · refine ⟨_, k', b', .more a1 c1 g1 f1 hk1 g2 e1, ?_, e3, e4, e5⟩
        rw [List.flatMap_append, List.flatMap_cons, List.flatMap_append, List.flatMap_cons, source_punct.1 c2, g3, List.flatMap_append, List.flatMap_cons,
          source_punct.2.1 f2, e2]
        simp
end

/-! ## Marks tell the value -/

/-- Marks that start no value. -/
def Closing (m : Mark) : Prop := m = .arrayClose ∨ m = .objectClose ∨ m = .comma ∨ m = .colon

theorem marks_head (v : Value) : ∃ m ms, v.marks = m :: ms ∧ ¬ Closing m := by
  cases v <;> simp [Value.marks, Closing]

mutual
theorem marks_inj : (v v' : Value) → (r r' : List Mark) → v.marks ++ r = v'.marks ++ r' → v = v' ∧ r = r'
  | .null, v', r, r', h => by cases v' <;> simp [Value.marks] at h ⊢; exact h
  | .true, v', r, r', h => by cases v' <;> simp [Value.marks] at h ⊢; exact h
  | .false, v', r, r', h => by cases v' <;> simp [Value.marks] at h ⊢; exact h
  | .number .., v', r, r', h => by cases v' <;> simp [Value.marks] at h ⊢; simp [h]
  | .string _, v', r, r', h => by cases v' <;> simp [Value.marks] at h ⊢; simp [h]
  | .array vs, v', r, r', h => by
    cases v' <;> simp [Value.marks] at h ⊢
    exact elementMarks_inj vs _ r r' h
  | .object ms, v', r, r', h => by
    cases v' <;> simp [Value.marks] at h ⊢
    exact memberMarks_inj ms _ r r' h
theorem elementMarks_inj : (vs vs' : List Value) → (r r' : List Mark) →
    elementMarks vs ++ .arrayClose :: r = elementMarks vs' ++ .arrayClose :: r' → vs = vs' ∧ r = r'
  | [], [], r, r', h => by simpa [elementMarks] using h
  | [], v' :: vs', r, r', h => by
    exfalso
    obtain ⟨m, ms, e, hm⟩ := marks_head v'
    have : ∃ x, elementMarks (v' :: vs') = v'.marks ++ x := by cases vs' <;> simp [elementMarks]
    obtain ⟨x, hx⟩ := this
    rw [hx, e] at h
    simp [elementMarks] at h
    exact hm (.inl h.1.symm)
  | v :: vs, [], r, r', h => by
    exfalso
    obtain ⟨m, ms, e, hm⟩ := marks_head v
    have : ∃ x, elementMarks (v :: vs) = v.marks ++ x := by cases vs <;> simp [elementMarks]
    obtain ⟨x, hx⟩ := this
    rw [hx, e] at h
    simp [elementMarks] at h
    exact hm (.inl h.1)
  | v :: vs, v' :: vs', r, r', h => by
    have e : ∀ (v : Value) vs r, elementMarks (v :: vs) ++ .arrayClose :: r = v.marks ++ (if vs = [] then .arrayClose :: r else .comma :: (elementMarks vs ++ .arrayClose :: r)) := by
      intro v vs r
      by_cases hvs : vs = []
      · rw [if_pos hvs, hvs]; rfl
      · rw [if_neg hvs, elementMarks_cons v hvs]; simp
    rw [e, e] at h
    obtain ⟨h1, h2⟩ := marks_inj v v' _ _ h
    by_cases hvs : vs = [] <;> by_cases hvs' : vs' = []
    · rw [if_pos hvs, if_pos hvs'] at h2
      simp at h2
      exact ⟨by rw [h1, hvs, hvs'], h2⟩
    · rw [if_pos hvs, if_neg hvs'] at h2; simp at h2
    · rw [if_neg hvs, if_pos hvs'] at h2; simp at h2
    · rw [if_neg hvs, if_neg hvs'] at h2
      obtain ⟨h3, h4⟩ := elementMarks_inj vs vs' r r' (List.cons.inj h2).2
      exact ⟨by rw [h1, h3], h4⟩
theorem memberMarks_inj : (ms ms' : List (List Char × Value)) → (r r' : List Mark) →
    memberMarks ms ++ .objectClose :: r = memberMarks ms' ++ .objectClose :: r' → ms = ms' ∧ r = r'
  | [], [], r, r', h => by simpa [memberMarks] using h
  | [], (k', v') :: ms', r, r', h => by cases ms' <;> simp [memberMarks] at h
  | (k, v) :: ms, [], r, r', h => by cases ms <;> simp [memberMarks] at h
  | (k, v) :: ms, (k', v') :: ms', r, r', h => by
    have e : ∀ k (v : Value) ms r, memberMarks ((k, v) :: ms) ++ .objectClose :: r =
        .string k :: .colon :: (v.marks ++ (if ms = [] then .objectClose :: r else .comma :: (memberMarks ms ++ .objectClose :: r))) := by
      intro k v ms r
      by_cases hms : ms = []
      · rw [if_pos hms, hms]; simp [memberMarks]
      · rw [if_neg hms, memberMarks_cons _ _ hms]; simp
    rw [e, e] at h
    have h0 := (List.cons.inj h).1
    have hk : k = k' := by simpa using h0
    obtain ⟨h1, h2⟩ := marks_inj v v' _ _ (List.cons.inj (List.cons.inj h).2).2
    by_cases hms : ms = [] <;> by_cases hms' : ms' = []
    · rw [if_pos hms, if_pos hms'] at h2
      simp at h2
      exact ⟨by rw [hk, h1, hms, hms'], h2⟩
    · rw [if_pos hms, if_neg hms'] at h2; simp at h2
    · rw [if_neg hms, if_pos hms'] at h2; simp at h2
    · rw [if_neg hms, if_neg hms'] at h2
      obtain ⟨h3, h4⟩ := memberMarks_inj ms ms' r r' (List.cons.inj h2).2
      exact ⟨by rw [hk, h1, h3], h4⟩
end

end Verif.Json.Text
