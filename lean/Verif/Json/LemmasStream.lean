import Verif.Json.SpecStream
/-! # Lemmas about the JSON stream decoder -/
namespace Verif.Json.Stream

/-- All tokens are accepted, from some state. -/
def OK (d : Dec) : List Tok → Prop
  | [] => d.state = .root ∨ d.state = .rootDone
  | t :: l => (d.advance t).2 ≠ some .error ∧ OK (d.advance t).1 l

theorem ok_run : ∀ (toks : List Tok) (d : Dec), OK d toks ↔ (Item.error ∉ (d.run toks).2 ∧ ((d.run toks).1.state = .root ∨ (d.run toks).1.state = .rootDone))
  | [], d => by simp [OK, Dec.run]
  | t :: l, d => by
    simp only [OK, Dec.run, List.mem_append, Option.mem_toList, not_or]
    rw [ok_run l]
    constructor
    · rintro ⟨h1, h2, h3⟩; exact ⟨⟨fun h => h1 h, h2⟩, h3⟩
    · rintro ⟨⟨h1, h2⟩, h3⟩; exact ⟨fun h => h1 h, h2, h3⟩

theorem accepts_ok (toks : List Tok) : Accepts toks ↔ OK .new toks := (ok_run toks .new).symm

theorem advance_space (d : Dec) : d.advance .whitespace = (d, none) := by
  obtain ⟨s, st⟩ := d
  cases s <;> rfl

theorem ok_strip : ∀ (toks : List Tok) (d : Dec), OK d toks ↔ OK d (strip toks)
  | [], d => Iff.rfl
  | t :: l, d => by
    by_cases h : t = .whitespace
    · subst h
      have : strip (.whitespace :: l) = strip l := rfl
      rw [this, ← ok_strip l d]
      simp only [OK, advance_space]
      simp
    · have : strip (t :: l) = t :: strip l := by simp [strip, h]
      rw [this]
      simp only [OK]
      rw [ok_strip l]

/-- States in which a value is next. -/
inductive Want : State → Option Kind → State → Prop
  | open_ : Want .arrayOpen (some .array) .arrayValue
  | comma : Want .arrayComma (some .array) .arrayValue
  | colon : Want .objectColon (some .object) .objectValue

theorem want_array {s : State} (h : s = .arrayOpen ∨ s = .arrayComma) : Want s (some .array) .arrayValue := by
  rcases h with rfl | rfl
  · exact .open_
  · exact .comma

/-- Scalars do not change the state. -/
theorem scalar_step {s : State} {k : Option Kind} {s' : State} (hw : Want s k s' ∨ s = .root) {t : Tok} (ht : isScalar t = true) (st : List Kind) (l : List Tok) :
    OK ⟨s, st⟩ (t :: l) ↔ OK ⟨s, st⟩ l := by
  rcases hw with hw | rfl
  · cases hw <;> cases t <;> simp_all [isScalar, OK, Dec.advance, Dec.value]
  · cases t <;> simp_all [isScalar, OK, Dec.advance, Dec.value]

theorem scalars_step {s : State} {k : Option Kind} {s' : State} (hw : Want s k s' ∨ s = .root) : ∀ (ss : List Tok) (st : List Kind) (l : List Tok),
    Scalars ss → (OK ⟨s, st⟩ (ss ++ l) ↔ OK ⟨s, st⟩ l)
  | [], _, _, _ => Iff.rfl
  | t :: ss, st, l, h => by
    rw [List.cons_append, scalar_step hw (h t (by simp)), scalars_step hw ss st l (fun x hx => h x (by simp [hx]))]

/-- The state after what was opened in a state is closed. -/
def back (st : List Kind) : Dec := Dec.leave ⟨.root, st⟩

theorem leave_eq (s : State) (st : List Kind) : Dec.leave ⟨s, st⟩ = back st := by
  cases st with
  | nil => rfl
  | cons k st => cases k <;> rfl

theorem open_step {s : State} {k : Kind} {s' : State} (hw : Want s (some k) s') (st : List Kind) (l : List Tok) :
    (OK ⟨s, st⟩ (.arrayOpen :: l) ↔ OK ⟨.arrayOpen, k :: st⟩ l) ∧ (OK ⟨s, st⟩ (.objectOpen :: l) ↔ OK ⟨.objectOpen, k :: st⟩ l)
    ∧ back (k :: st) = ⟨s', st⟩ := by
  cases hw <;> simp [OK, Dec.advance, Dec.arrayOpen, Dec.objectOpen, Dec.enter, back, Dec.leave]

theorem root_open (l : List Tok) :
    (OK ⟨.root, []⟩ (.arrayOpen :: l) ↔ OK ⟨.arrayOpen, []⟩ l) ∧ (OK ⟨.root, []⟩ (.objectOpen :: l) ↔ OK ⟨.objectOpen, []⟩ l) := by
  simp [OK, Dec.advance, Dec.arrayOpen, Dec.objectOpen, Dec.enter]

theorem arrayOpen_close (st : List Kind) (l : List Tok) : OK ⟨.arrayOpen, st⟩ (.arrayClose :: l) ↔ OK (back st) l := by
  simp [OK, Dec.advance, Dec.arrayClose, leave_eq]
theorem arrayValue_close (st : List Kind) (l : List Tok) : OK ⟨.arrayValue, st⟩ (.arrayClose :: l) ↔ OK (back st) l := by
  simp [OK, Dec.advance, Dec.arrayClose, leave_eq]
theorem arrayValue_comma (st : List Kind) (l : List Tok) : OK ⟨.arrayValue, st⟩ (.comma :: l) ↔ OK ⟨.arrayComma, st⟩ l := by
  simp [OK, Dec.advance, Dec.goto]
theorem objectValue_close (st : List Kind) (l : List Tok) : OK ⟨.objectValue, st⟩ (.objectClose :: l) ↔ OK (back st) l := by
  simp [OK, Dec.advance, Dec.objectClose, leave_eq]
theorem objectValue_comma (st : List Kind) (l : List Tok) : OK ⟨.objectValue, st⟩ (.comma :: l) ↔ OK ⟨.objectComma, st⟩ l := by
  simp [OK, Dec.advance, Dec.goto]
theorem objectOpen_key (st : List Kind) (l : List Tok) : OK ⟨.objectOpen, st⟩ (.string :: .colon :: l) ↔ OK ⟨.objectColon, st⟩ l := by
  simp [OK, Dec.advance, Dec.value, Dec.goto]
theorem objectComma_key (st : List Kind) (l : List Tok) : OK ⟨.objectComma, st⟩ (.string :: .colon :: l) ↔ OK ⟨.objectColon, st⟩ l := by
  simp [OK, Dec.advance, Dec.value, Dec.goto]

/-! ## What is accepted -/

mutual
theorem loose_ok : ∀ {v : List Tok}, Loose v → ∀ {s : State} {k : Kind} {s' : State}, Want s (some k) s' → ∀ (st : List Kind) (l : List Tok),
    OK ⟨s', st⟩ l → OK ⟨s, st⟩ (v ++ l)
  | _, .scalars ss h, s, k, s', hw, st, l, hl => by
    obtain ⟨h1, _, h3⟩ := open_step hw st (ss ++ [.arrayClose] ++ l)
    rw [List.cons_append, h1, List.append_assoc, scalars_step (.inl .open_) ss _ _ h]
    exact (arrayOpen_close _ _).mpr (by rw [h3]; exact hl)
  | _, .elements es h, s, k, s', hw, st, l, hl => by
    obtain ⟨h1, _, h3⟩ := open_step hw st (es ++ [.arrayClose] ++ l)
    rw [List.cons_append, h1, List.append_assoc]
    exact looseElements_ok h (.inl rfl) _ _ (by rw [h3]; exact hl)
  | _, .members ms h, s, k, s', hw, st, l, hl => by
    obtain ⟨_, h2, h3⟩ := open_step hw st (ms ++ [.objectClose] ++ l)
    rw [List.cons_append, h2, List.append_assoc]
    exact looseMembers_ok h (.inl rfl) _ _ (by rw [h3]; exact hl)
theorem looseElements_ok : ∀ {es : List Tok}, LooseElements es → ∀ {s : State}, (s = .arrayOpen ∨ s = .arrayComma) → ∀ (st : List Kind) (l : List Tok),
    OK (back st) l → OK ⟨s, st⟩ (es ++ ([.arrayClose] ++ l))
  | _, .one ss v hs hv, s, hst, st, l, hl => by
    have hw : Want s (some .array) .arrayValue := want_array hst
    rw [List.append_assoc, scalars_step (.inl hw) ss _ _ hs]
    exact loose_ok hv hw st _ ((arrayValue_close _ _).mpr hl)
  | _, .more ss v es hs hv he, s, hst, st, l, hl => by
    have hw : Want s (some .array) .arrayValue := want_array hst
    rw [List.append_assoc, List.append_assoc, scalars_step (.inl hw) ss _ _ hs]
    exact loose_ok hv hw st _ ((arrayValue_comma _ _).mpr (looseElements_ok he (.inr rfl) st l hl))
theorem looseMembers_ok : ∀ {ms : List Tok}, LooseMembers ms → ∀ {s : State}, (s = .objectOpen ∨ s = .objectComma) → ∀ (st : List Kind) (l : List Tok),
    OK (back st) l → OK ⟨s, st⟩ (ms ++ ([.objectClose] ++ l))
  | _, .one ss v hs hv, s, hst, st, l, hl => by
    have : OK ⟨.objectColon, st⟩ (ss ++ v ++ ([.objectClose] ++ l)) := by
      rw [List.append_assoc, scalars_step (.inl .colon) ss _ _ hs]
      exact loose_ok hv .colon st _ ((objectValue_close _ _).mpr hl)
    rcases hst with rfl | rfl
    · exact (objectOpen_key _ _).mpr this
    · exact (objectComma_key _ _).mpr this
  | _, .more ss v ms hs hv hm, s, hst, st, l, hl => by
    have : OK ⟨.objectColon, st⟩ (ss ++ v ++ .comma :: ms ++ ([.objectClose] ++ l)) := by
      rw [List.append_assoc, List.append_assoc, scalars_step (.inl .colon) ss _ _ hs]
      exact loose_ok hv .colon st _ ((objectValue_comma _ _).mpr (looseMembers_ok hm (.inr rfl) st l hl))
    rcases hst with rfl | rfl
    · exact (objectOpen_key _ _).mpr this
    · exact (objectComma_key _ _).mpr this
end

theorem split_scalars : ∀ l : List Tok, ∃ ss r, l = ss ++ r ∧ Scalars ss ∧ (∀ t r', r = t :: r' → isScalar t = false)
  | [] => ⟨[], [], rfl, fun _ h => (by cases h), fun _ _ h => (by cases h)⟩
  | t :: l => by
    cases ht : isScalar t with
    | false => exact ⟨[], t :: l, rfl, fun _ h => (by cases h), fun _ _ h => by cases h; exact ht⟩
    | true =>
      obtain ⟨ss, r, rfl, h1, h2⟩ := split_scalars l
      refine ⟨t :: ss, r, rfl, fun x hx => ?_, h2⟩
      rw [List.mem_cons] at hx
      rcases hx with rfl | hx
      · exact ht
      · exact h1 x hx

/-- What may follow an opened array or object, up to its end. -/
def Closes (t : Tok) (st : List Kind) (l : List Tok) : Prop := ∃ a b, l = a ++ b ∧ Loose (t :: a) ∧ OK (back st) b

/-- A value is next, and is not a scalar. -/
theorem want_nonscalar {s : State} {k : Kind} {s' : State} (hw : Want s (some k) s') {st : List Kind} {r : List Tok} (h : OK ⟨s, st⟩ r)
    (hn : ∀ t r', r = t :: r' → isScalar t = false) (hsp : Tok.whitespace ∉ r) :
    (∃ r', r = .arrayOpen :: r') ∨ (∃ r', r = .objectOpen :: r') ∨ (s = .arrayOpen ∧ ∃ r', r = .arrayClose :: r') := by
  match r, h, hn, hsp with
  | [], h, _, _ => cases hw <;> simp [OK] at h
  | t :: r, h, hn, hsp =>
    have ht := hn t r rfl
    cases hw <;> cases t <;> simp_all [isScalar, OK, Dec.advance, Dec.unexpected]

theorem key_string {s : State} (hs : s = .objectOpen ∨ s = .objectComma) {st : List Kind} {l : List Tok} (h : OK ⟨s, st⟩ l) (hsp : Tok.whitespace ∉ l) :
    ∃ r, l = .string :: r ∧ OK ⟨.objectKey, st⟩ r := by
  match l, h, hsp with
  | [], h, _ => rcases hs with rfl | rfl <;> simp [OK] at h
  | t :: r, h, hsp =>
    refine ⟨r, ?_⟩
    rcases hs with rfl | rfl <;> cases t <;> simp [OK, Dec.advance, Dec.unexpected, Dec.value] at h hsp ⊢ <;> exact h

theorem key_colon {st : List Kind} {l : List Tok} (h : OK ⟨.objectKey, st⟩ l) (hsp : Tok.whitespace ∉ l) : ∃ r, l = .colon :: r := by
  match l, h, hsp with
  | [], h, _ => simp [OK] at h
  | t :: r, h, hsp =>
    refine ⟨r, ?_⟩
    cases t <;> simp [OK, Dec.advance, Dec.unexpected, Dec.value] at h hsp ⊢

theorem key_next {s : State} (hs : s = .objectOpen ∨ s = .objectComma) {st : List Kind} {l : List Tok} (h : OK ⟨s, st⟩ l) (hsp : Tok.whitespace ∉ l) :
    ∃ r, l = .string :: .colon :: r := by
  obtain ⟨r, rfl, h1⟩ := key_string hs h hsp
  obtain ⟨r', rfl⟩ := key_colon h1 (fun h => hsp (by simp [h]))
  exact ⟨r', rfl⟩

/-- Tokens which are accepted in any state. -/
theorem ok_loose : ∀ (n : Nat) (l : List Tok), l.length ≤ n → Tok.whitespace ∉ l → ∀ st : List Kind,
    (OK ⟨.arrayOpen, st⟩ l → Closes .arrayOpen st l) ∧
    (OK ⟨.objectOpen, st⟩ l → Closes .objectOpen st l) ∧
    (OK ⟨.arrayComma, st⟩ l → ∃ es b, l = es ++ .arrayClose :: b ∧ LooseElements es ∧ OK (back st) b) ∧
    (OK ⟨.objectComma, st⟩ l → ∃ ms b, l = ms ++ .objectClose :: b ∧ LooseMembers ms ∧ OK (back st) b)
  | 0, l, hn, _, st => by
    have : l = [] := List.length_eq_zero_iff.mp (by omega)
    subst this
    refine ⟨?_, ?_, ?_, ?_⟩ <;> (intro h; simp [OK] at h)
  | n + 1, l, hn, hsp, st => by
    -- a value in a state that wants one, and what follows it
    have val : ∀ {s : State} {k : Kind} {s' : State}, Want s (some k) s' → ∀ r : List Tok, r.length ≤ n + 1 → Tok.whitespace ∉ r → OK ⟨s, st⟩ r →
        (∃ ss v b, r = ss ++ v ++ b ∧ Scalars ss ∧ Loose v ∧ OK ⟨s', st⟩ b ∧ b.length < r.length) ∨
        (s = .arrayOpen ∧ ∃ ss b, r = ss ++ .arrayClose :: b ∧ Scalars ss ∧ OK (back st) b) := by
      intro s k s' hw r hr hspr h
      obtain ⟨ss, r, rfl, hs, hns⟩ := split_scalars r
      rw [scalars_step (.inl hw) ss _ _ hs] at h
      have hspr' : Tok.whitespace ∉ r := fun h => hspr (by simp [h])
      rw [List.length_append] at hr
      rcases want_nonscalar hw h hns hspr' with ⟨r', rfl⟩ | ⟨r', rfl⟩ | ⟨rfl, r', rfl⟩
      · obtain ⟨h1, _, h3⟩ := open_step hw st r'
        rw [List.length_cons] at hr
        obtain ⟨a, b, rfl, hl, hb⟩ := (ok_loose n r' (by omega) (fun h => hspr' (by simp [h])) (k :: st)).1 (h1.mp h)
        rw [h3] at hb
        refine .inl ⟨ss, .arrayOpen :: a, b, by simp, hs, hl, hb, by simp; omega⟩
      · obtain ⟨_, h1, h3⟩ := open_step hw st r'
        rw [List.length_cons] at hr
        obtain ⟨a, b, rfl, hl, hb⟩ := (ok_loose n r' (by omega) (fun h => hspr' (by simp [h])) (k :: st)).2.1 (h1.mp h)
        rw [h3] at hb
        refine .inl ⟨ss, .objectOpen :: a, b, by simp, hs, hl, hb, by simp; omega⟩
      · exact .inr ⟨rfl, ss, r', rfl, hs, (arrayOpen_close _ _).mp h⟩
    -- what follows the elements so far
    have arr : ∀ r : List Tok, r.length ≤ n → Tok.whitespace ∉ r → OK ⟨.arrayValue, st⟩ r →
        (∃ b, r = .arrayClose :: b ∧ OK (back st) b) ∨ (∃ es b, r = .comma :: (es ++ .arrayClose :: b) ∧ LooseElements es ∧ OK (back st) b) := by
      intro r hr hspr h
      match r, h, hspr, hr with
      | [], h, _, _ => simp [OK] at h
      | t :: r, h, hspr, hr =>
        have : t = .arrayClose ∨ t = .comma := by
          cases t <;> simp_all [OK, Dec.advance, Dec.unexpected]
        rcases this with rfl | rfl
        · exact .inl ⟨r, rfl, (arrayValue_close _ _).mp h⟩
        · rw [List.length_cons] at hr
          obtain ⟨es, b, rfl, h1, h2⟩ := (ok_loose n r (by omega) (fun h => hspr (by simp [h])) st).2.2.1 ((arrayValue_comma _ _).mp h)
          exact .inr ⟨es, b, rfl, h1, h2⟩
    have obj : ∀ r : List Tok, r.length ≤ n → Tok.whitespace ∉ r → OK ⟨.objectValue, st⟩ r →
        (∃ b, r = .objectClose :: b ∧ OK (back st) b) ∨ (∃ es b, r = .comma :: (es ++ .objectClose :: b) ∧ LooseMembers es ∧ OK (back st) b) := by
      intro r hr hspr h
      match r, h, hspr, hr with
      | [], h, _, _ => simp [OK] at h
      | t :: r, h, hspr, hr =>
        have : t = .objectClose ∨ t = .comma := by
          cases t <;> simp_all [OK, Dec.advance, Dec.unexpected]
        rcases this with rfl | rfl
        · exact .inl ⟨r, rfl, (objectValue_close _ _).mp h⟩
        · rw [List.length_cons] at hr
          obtain ⟨es, b, rfl, h1, h2⟩ := (ok_loose n r (by omega) (fun h => hspr (by simp [h])) st).2.2.2 ((objectValue_comma _ _).mp h)
          exact .inr ⟨es, b, rfl, h1, h2⟩
    have elems : ∀ {s : State}, Want s (some .array) .arrayValue → OK ⟨s, st⟩ l →
        (∃ es b, l = es ++ .arrayClose :: b ∧ LooseElements es ∧ OK (back st) b) ∨
        (s = .arrayOpen ∧ ∃ ss b, l = ss ++ .arrayClose :: b ∧ Scalars ss ∧ OK (back st) b) := by
      intro s hw h
      rcases val hw l hn hsp h with ⟨ss, v, b, rfl, hs, hv, hb, hlen⟩ | h
      · rcases arr b (by omega) (fun h => hsp (by simp [h])) hb with ⟨b', rfl, hb'⟩ | ⟨es, b', rfl, he, hb'⟩
        · exact .inl ⟨ss ++ v, b', rfl, .one ss v hs hv, hb'⟩
        · exact .inl ⟨ss ++ v ++ .comma :: es, b', by simp, .more ss v es hs hv he, hb'⟩
      · exact .inr h
    have mems : ∀ {s : State}, (s = .objectOpen ∨ s = .objectComma) → OK ⟨s, st⟩ l →
        ∃ ms b, l = ms ++ .objectClose :: b ∧ LooseMembers ms ∧ OK (back st) b := by
      intro s hs h
      have : ∃ r, l = .string :: .colon :: r := key_next hs h hsp
      obtain ⟨r, rfl⟩ := this
      have h : OK ⟨.objectColon, st⟩ r := by
        rcases hs with rfl | rfl
        · exact (objectOpen_key _ _).mp h
        · exact (objectComma_key _ _).mp h
      simp only [List.length_cons] at hn
      rcases val .colon r (by omega) (fun h => hsp (by simp [h])) h with ⟨ss, v, b, rfl, hss, hv, hb, hlen⟩ | ⟨h, _⟩
      · rcases obj b (by omega) (fun h => hsp (by simp [h])) hb with ⟨b', rfl, hb'⟩ | ⟨es, b', rfl, he, hb'⟩
        · exact ⟨.string :: .colon :: (ss ++ v), b', rfl, .one ss v hss hv, hb'⟩
        · exact ⟨.string :: .colon :: (ss ++ v ++ .comma :: es), b', by simp, .more ss v es hss hv he, hb'⟩
      · cases h
    refine ⟨fun h => ?_, fun h => ?_, fun h => ?_, fun h => mems (.inr rfl) h⟩
    · rcases elems .open_ h with ⟨es, b, rfl, he, hb⟩ | ⟨_, ss, b, rfl, hs, hb⟩
      · exact ⟨es ++ [.arrayClose], b, by simp, .elements es he, hb⟩
      · exact ⟨ss ++ [.arrayClose], b, by simp, .scalars ss hs, hb⟩
    · obtain ⟨ms, b, rfl, hm, hb⟩ := mems (.inl rfl) h
      exact ⟨ms ++ [.objectClose], b, by simp, .members ms hm, hb⟩
    · rcases elems .comma h with h | ⟨h, _⟩
      · exact h
      · cases h

theorem done_ok : ∀ l : List Tok, Tok.whitespace ∉ l → (OK ⟨.rootDone, []⟩ l ↔ l = [])
  | [], _ => by simp [OK]
  | t :: l, h => by
    constructor
    · intro hk
      cases t <;> simp_all [OK, Dec.advance, Dec.unexpected]
    · intro h; cases h

theorem root_loose (l : List Tok) (hsp : Tok.whitespace ∉ l) : OK .new l ↔ ∃ ss v, l = ss ++ v ∧ Scalars ss ∧ (v = [] ∨ Loose v) := by
  constructor
  · intro h
    obtain ⟨ss, r, rfl, hs, hns⟩ := split_scalars l
    have h : OK ⟨.root, []⟩ (ss ++ r) := h
    rw [scalars_step (k := none) (s' := .root) (.inr rfl) ss _ _ hs] at h
    refine ⟨ss, r, rfl, hs, ?_⟩
    have hspr : Tok.whitespace ∉ r := fun h => hsp (by simp [h])
    match r, h, hns, hspr with
    | [], _, _, _ => exact .inl rfl
    | t :: r, h, hns, hspr =>
      have ht := hns t r rfl
      have : t = .arrayOpen ∨ t = .objectOpen := by
        cases t <;> simp_all [isScalar, OK, Dec.advance, Dec.unexpected]
      obtain ⟨o1, o2⟩ := root_open r
      have hspr' : Tok.whitespace ∉ r := fun h => hspr (by simp [h])
      rcases this with rfl | rfl
      · obtain ⟨a, b, rfl, hl, hb⟩ := (ok_loose r.length r (Nat.le_refl _) hspr' []).1 (o1.mp h)
        have := (done_ok b (fun h => hspr' (by simp [h]))).mp hb
        subst this
        rw [List.append_nil]
        exact .inr hl
      · obtain ⟨a, b, rfl, hl, hb⟩ := (ok_loose r.length r (Nat.le_refl _) hspr' []).2.1 (o2.mp h)
        have := (done_ok b (fun h => hspr' (by simp [h]))).mp hb
        subst this
        rw [List.append_nil]
        exact .inr hl
  · rintro ⟨ss, v, rfl, hs, hv⟩
    show OK ⟨.root, []⟩ (ss ++ v)
    rw [scalars_step (k := none) (s' := .root) (.inr rfl) ss _ _ hs]
    rcases hv with rfl | hv
    · exact .inl rfl
    · have hd : OK (back []) [] := .inr rfl
      cases hv with
      | scalars ss h =>
        rw [(root_open _).1, scalars_step (.inl .open_) ss _ _ h]
        exact (arrayOpen_close _ _).mpr hd
      | elements es h =>
        rw [(root_open _).1]
        have := looseElements_ok h (.inl rfl) [] [] hd
        rwa [List.append_nil] at this
      | members ms h =>
        rw [(root_open _).2]
        have := looseMembers_ok h (.inl rfl) [] [] hd
        rwa [List.append_nil] at this

/-! ## JSON values which are accepted -/

mutual
theorem sparse_loose : ∀ {v : List Tok}, Sparse v → Loose v
  | _, .array => .scalars [] (fun _ h => by cases h)
  | _, .scalar t h => .scalars [t] (fun x hx => by rw [List.mem_singleton] at hx; rw [hx]; exact h)
  | _, .elements es h => .elements es (sparseElements_loose h)
  | _, .members ms h => .members ms (sparseMembers_loose h)
theorem sparseElements_loose : ∀ {v : List Tok}, SparseElements v → LooseElements v
  | _, .one v h => .one [] v (fun _ h => by cases h) (sparse_loose h)
  | _, .more v es h he => .more [] v es (fun _ h => by cases h) (sparse_loose h) (sparseElements_loose he)
theorem sparseMembers_loose : ∀ {v : List Tok}, SparseMembers v → LooseMembers v
  | _, .one v h => .one [] v (fun _ h => by cases h) (sparse_loose h)
  | _, .more v ms h he => .more [] v ms (fun _ h => by cases h) (sparse_loose h) (sparseMembers_loose he)
end

mutual
theorem sparse_json : ∀ {v : List Tok}, Sparse v → Json v
  | _, .array => .array
  | _, .scalar t h => .elements [t] (.one [t] (.scalar t h))
  | _, .elements es h => .elements es (sparseElements_json h)
  | _, .members ms h => .members ms (sparseMembers_json h)
theorem sparseElements_json : ∀ {v : List Tok}, SparseElements v → Elements v
  | _, .one v h => .one v (sparse_json h)
  | _, .more v es h he => .more v es (sparse_json h) (sparseElements_json he)
theorem sparseMembers_json : ∀ {v : List Tok}, SparseMembers v → Members v
  | _, .one v h => .one v (sparse_json h)
  | _, .more v ms h he => .more v ms (sparse_json h) (sparseMembers_json he)
end

mutual
theorem json_ok : ∀ {v : List Tok}, Json v → ∀ {s : State} {k : Kind} {s' : State}, Want s (some k) s' → ∀ (st : List Kind) (l : List Tok),
    OK ⟨s, st⟩ (v ++ l) → (∃ t, v = [t] ∧ isScalar t = true) ∨ (Sparse v ∧ OK ⟨s', st⟩ l)
  | _, .scalar t h, s, k, s', hw, st, l, hk => .inl ⟨t, rfl, h⟩
  | _, .array, s, k, s', hw, st, l, hk => by
    obtain ⟨h1, _, h3⟩ := open_step hw st (.arrayClose :: l)
    have := (arrayOpen_close _ _).mp (h1.mp hk)
    rw [h3] at this
    exact .inr ⟨.array, this⟩
  | _, .elements es he, s, k, s', hw, st, l, hk => by
    rw [List.cons_append, List.append_assoc] at hk
    obtain ⟨h1, _, h3⟩ := open_step hw st (es ++ ([.arrayClose] ++ l))
    rcases elements_ok he (.inl rfl) _ _ (h1.mp hk) with ⟨⟨t, rfl, ht⟩, _, h⟩ | ⟨h, hb⟩
    · rw [h3] at h
      exact .inr ⟨.scalar t ht, h⟩
    · rw [h3] at hb
      exact .inr ⟨.elements es h, hb⟩
  | _, .object, s, k, s', hw, st, l, hk => by
    obtain ⟨_, h1, _⟩ := open_step hw st (.objectClose :: l)
    have := h1.mp hk
    simp [OK, Dec.advance, Dec.unexpected] at this
  | _, .members ms hm, s, k, s', hw, st, l, hk => by
    rw [List.cons_append, List.append_assoc] at hk
    obtain ⟨_, h1, h3⟩ := open_step hw st (ms ++ ([.objectClose] ++ l))
    obtain ⟨h, hb⟩ := members_ok hm (.inl rfl) _ _ (h1.mp hk)
    rw [h3] at hb
    exact .inr ⟨.members ms h, hb⟩
theorem elements_ok : ∀ {es : List Tok}, Elements es → ∀ {s : State}, (s = .arrayOpen ∨ s = .arrayComma) → ∀ (st : List Kind) (l : List Tok),
    OK ⟨s, st⟩ (es ++ ([.arrayClose] ++ l)) → ((∃ t, es = [t] ∧ isScalar t = true) ∧ s = .arrayOpen ∧ OK (back st) l) ∨ (SparseElements es ∧ OK (back st) l)
  | _, .one v hv, s, hs, st, l, hk => by
    have hw : Want s (some .array) .arrayValue := want_array hs
    rcases json_ok hv hw st _ hk with ⟨t, rfl, ht⟩ | ⟨h, hb⟩
    · rw [List.singleton_append, scalar_step (.inl hw) ht] at hk
      rcases hs with rfl | rfl
      · exact .inl ⟨⟨t, rfl, ht⟩, rfl, (arrayOpen_close _ _).mp hk⟩
      · simp [OK, Dec.advance, Dec.unexpected] at hk
    · exact .inr ⟨.one v h, (arrayValue_close _ _).mp hb⟩
  | _, .more v es hv he, s, hs, st, l, hk => by
    have hw : Want s (some .array) .arrayValue := want_array hs
    rw [List.append_assoc] at hk
    rcases json_ok hv hw st _ hk with ⟨t, rfl, ht⟩ | ⟨h, hb⟩
    · rw [List.singleton_append, scalar_step (.inl hw) ht] at hk
      rcases hs with rfl | rfl <;> simp [OK, Dec.advance, Dec.unexpected] at hk
    · rw [List.cons_append, arrayValue_comma] at hb
      rcases elements_ok he (.inr rfl) st l hb with ⟨_, h2, _⟩ | ⟨h2, h3⟩
      · cases h2
      · exact .inr ⟨.more v es h h2, h3⟩
theorem members_ok : ∀ {ms : List Tok}, Members ms → ∀ {s : State}, (s = .objectOpen ∨ s = .objectComma) → ∀ (st : List Kind) (l : List Tok),
    OK ⟨s, st⟩ (ms ++ ([.objectClose] ++ l)) → SparseMembers ms ∧ OK (back st) l
  | _, .one v hv, s, hs, st, l, hk => by
    have hk : OK ⟨.objectColon, st⟩ (v ++ ([.objectClose] ++ l)) := by
      rcases hs with rfl | rfl
      · exact (objectOpen_key _ _).mp hk
      · exact (objectComma_key _ _).mp hk
    rcases json_ok hv .colon st _ hk with ⟨t, rfl, ht⟩ | ⟨h, hb⟩
    · rw [List.singleton_append, scalar_step (.inl .colon) ht] at hk
      simp [OK, Dec.advance, Dec.unexpected] at hk
    · exact ⟨.one v h, (objectValue_close _ _).mp hb⟩
  | _, .more v ms hv hm, s, hs, st, l, hk => by
    have hk : OK ⟨.objectColon, st⟩ (v ++ .comma :: ms ++ ([.objectClose] ++ l)) := by
      rcases hs with rfl | rfl
      · exact (objectOpen_key _ _).mp hk
      · exact (objectComma_key _ _).mp hk
    rw [List.append_assoc] at hk
    rcases json_ok hv .colon st _ hk with ⟨t, rfl, ht⟩ | ⟨h, hb⟩
    · rw [List.singleton_append, scalar_step (.inl .colon) ht] at hk
      simp [OK, Dec.advance, Dec.unexpected] at hk
    · rw [List.cons_append, objectValue_comma] at hb
      obtain ⟨h2, h3⟩ := members_ok hm (.inr rfl) st l hb
      exact ⟨.more v ms h h2, h3⟩
end

/-! ## Nesting -/

/-- The open arrays and objects, by the state and the stack. -/
def opened (d : Dec) : List Kind :=
  match d.state with
  | .root | .rootDone => []
  | .arrayOpen | .arrayValue | .arrayComma => .array :: d.stack
  | _ => .object :: d.stack

/-- The stack is empty if nothing is open. -/
def Good (d : Dec) : Prop := (d.state = .root ∨ d.state = .rootDone) → d.stack = []

theorem nest_append : ∀ (a b : List Item) (st st' : List Kind), nest st a = some st' → nest st (a ++ b) = nest st' b
  | [], b, st, st', h => by simp [nest] at h; subst h; rfl
  | i :: a, b, st, st', h => by
    have ih := nest_append a b
    cases i with
    | error => exact ih st st' (by simpa [nest] using h)
    | prim => exact ih st st' (by simpa [nest] using h)
    | arrayOpen => exact ih _ st' (by simpa [nest] using h)
    | objectOpen => exact ih _ st' (by simpa [nest] using h)
    | arrayClose =>
      match st with
      | [] => simp [nest] at h
      | .array :: st => exact ih _ st' (by simpa [nest] using h)
      | .object :: st => simp [nest] at h
    | objectClose =>
      match st with
      | [] => simp [nest] at h
      | .array :: st => simp [nest] at h
      | .object :: st => exact ih _ st' (by simpa [nest] using h)

theorem opened_back (st : List Kind) : opened (back st) = st ∧ Good (back st) := by
  match st with
  | [] => exact ⟨rfl, fun _ => rfl⟩
  | .array :: st => exact ⟨rfl, fun h => by rcases h with h | h <;> cases h⟩
  | .object :: st => exact ⟨rfl, fun h => by rcases h with h | h <;> cases h⟩

theorem advance_nest (d : Dec) (hg : Good d) (t : Tok) :
    nest (opened d) (d.advance t).2.toList = some (opened (d.advance t).1) ∧ Good (d.advance t).1 := by
  obtain ⟨s, st⟩ := d
  cases s <;> cases t <;>
    simp_all [Good, Dec.advance, Dec.unexpected, Dec.value, Dec.goto, Dec.arrayOpen, Dec.objectOpen, Dec.arrayClose, Dec.objectClose, Dec.enter,
      opened, nest, leave_eq] <;>
    (obtain ⟨h1, h2⟩ := opened_back st; exact ⟨by simpa [opened] using h1.symm, by simpa [Good] using h2⟩)

theorem run_nest : ∀ (toks : List Tok) (d : Dec), Good d →
    nest (opened d) (d.run toks).2 = some (opened (d.run toks).1) ∧ Good (d.run toks).1
  | [], d, hg => ⟨rfl, hg⟩
  | t :: l, d, hg => by
    obtain ⟨h1, h2⟩ := advance_nest d hg t
    obtain ⟨h3, h4⟩ := run_nest l _ h2
    simp only [Dec.run]
    exact ⟨by rw [nest_append _ _ _ _ h1, h3], h4⟩

end Verif.Json.Stream
