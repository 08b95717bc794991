import Verif.Dbus.LemmasRep
/-! # Where parsing stops -/
namespace Verif.Dbus

theorem aloop_opn {total : Nat} {e : Element} {f : Frame} {rest : List UInt8} {i : Nat} {z : List Frame}
    (h : role e = .opn f) : aloop total (e.code :: rest) i z = aloop total rest (i + 1) (f :: z) := by
  rw [aloop_step (o := .inr (f :: z)) (by simp [astep, h])]; rfl

/-- Parsing the bytes of an unfinished type reaches it. -/
theorem aloop_zbytes (total : Nat) (z : List Frame) : ∀ rest, aloop total (zbytes z ++ rest) 0 []
    = aloop total rest (zlen z) z := by
  induction z with
  | nil => intro rest; rfl
  | cons f z ih =>
    intro rest
    match f with
    | .bound m =>
      rw [zbytes, List.append_assoc, ih, List.singleton_append, aloop_opn (f := .bound m) (by cases m <;> rfl)]; rfl
    | .unb d done =>
      rw [zbytes, List.append_assoc, ih, List.cons_append, aloop_opn (f := .unb d []) (by cases d <;> rfl), aloop_tys]
      rw [List.nil_append]
      congr 1
      simp only [zlen, Frame.size]; omega

/-- The situations in which the errors arise: the unfinished type and the remaining bytes. -/
def Stuck (z : List Frame) (rest : List UInt8) : SigError → Prop
  | .signatureEmpty => z = [] ∧ rest = []
  | .signatureIncomplete i => rest = [] ∧ ∃ f z', z = f :: z' ∧ i = zlen z'
  | .elementInvalid i c => i = zlen z ∧ ∃ r, rest = c :: r ∧ c.toNat ≥ 128
  | .elementUnknown i c => i = zlen z ∧ ∃ r, rest = c :: r ∧ ¬ c.toNat ≥ 128 ∧ Element.fromCode c = none
  | .elementUnpaired i => z = [] ∧ i = 0 ∧ ∃ d r, rest = (clsEl d).code :: r
  | .elementMispaired i j x => ∃ f z' d r, z = f :: z' ∧ rest = (clsEl d).code :: r ∧ f.el ≠ opnEl d ∧ j = zlen z
      ∧ x = some (opnEl d) ∧ i = zlen z - offOf z'
  | .dictInvalid i => ∃ done z' r, z = .unb true done :: z' ∧ closed true done = none
      ∧ rest = Element.dictClose.code :: r ∧ i = zlen z'
  | .signatureSequence i => z = [] ∧ ∃ (t : Ty) (r : List UInt8), rest = t.bytes ++ r ∧ r ≠ [] ∧ i = t.size
  | .dataExceeded => False

theorem aclose_mis {i : Nat} {d : Bool} {f : Frame} {z : List Frame} (h : f.el ≠ opnEl d) :
    aclose i d (f :: z) = .error (.elementMispaired (i - offOf z) i (some (opnEl d))) := by
  match f, h with
  | .bound m, _ => rfl
  | .unb d' done, h =>
    have : d' ≠ d := by intro e; subst e; exact h (by cases d' <;> rfl)
    simp only [aclose, if_pos this]; rfl

theorem role_cls (d : Bool) : role (clsEl d) = .cls d := by cases d <;> rfl

/-- A situation determines its error. -/
theorem stuck_error {total : Nat} {z : List Frame} {rest : List UInt8} {e : SigError}
    (ht : total = zlen z + rest.length) (h : Stuck z rest e) : aloop total rest (zlen z) z = .error e := by
  cases e with
  | dataExceeded => exact h.elim
  | signatureEmpty => obtain ⟨rfl, rfl⟩ := h; rfl
  | signatureIncomplete i => obtain ⟨rfl, f, z', rfl, rfl⟩ := h; rfl
  | elementInvalid i c => obtain ⟨rfl, r, rfl, hc⟩ := h; rw [aloop, if_pos hc]
  | elementUnknown i c => obtain ⟨rfl, r, rfl, hc, hn⟩ := h; rw [aloop, if_neg hc, hn]
  | elementUnpaired i =>
    obtain ⟨rfl, rfl, d, r, rfl⟩ := h
    rw [aloop_code, show astep (zlen []) [] (clsEl d) = .error (.elementUnpaired 0) by
      simp only [astep, role_cls]; rfl]
  | elementMispaired i j x =>
    obtain ⟨f, z', d, r, rfl, rfl, hf, rfl, rfl, rfl⟩ := h
    rw [aloop_code]
    simp only [astep, role_cls, aclose_mis hf]
  | dictInvalid i =>
    obtain ⟨done, z', r, rfl, hc, rfl, rfl⟩ := h
    rw [aloop_code]
    have : astep (zlen (.unb true done :: z')) (.unb true done :: z') .dictClose = .error (.dictInvalid (zlen z')) := by
      have := aclose_closed (zlen (.unb true done :: z')) true done z'
      rw [hc] at this
      simp only [astep, role]
      exact this
    rw [this]
  | signatureSequence i =>
    obtain ⟨rfl, t, r, rfl, hr, rfl⟩ := h
    have := aloop_prefix t r hr
    simp only [zlen, Nat.zero_add] at ht ⊢
    rw [ht]; exact this

/-- Every error arises in one of the situations. -/
theorem error_stuck (total : Nat) : ∀ (es : List UInt8) (z : List Frame) (e : SigError),
    total = zlen z + es.length → aloop total es (zlen z) z = .error e →
    ∃ z' rest, zbytes z ++ es = zbytes z' ++ rest ∧ Stuck z' rest e := by
  intro es
  induction es with
  | nil =>
    intro z e _ h
    cases z with
    | nil =>
      simp only [aloop, Except.error.injEq] at h
      subst h
      exact ⟨[], [], rfl, rfl, rfl⟩
    | cons f z =>
      simp only [aloop, Except.error.injEq] at h
      subst h
      exact ⟨f :: z, [], rfl, rfl, f, z, rfl, rfl⟩
  | cons c es ih =>
    intro z e ht h
    rw [aloop] at h
    by_cases hc : c.toNat ≥ 128
    · rw [if_pos hc, Except.error.injEq] at h
      subst h
      exact ⟨z, c :: es, rfl, rfl, es, rfl, hc⟩
    · rw [if_neg hc] at h
      cases he : Element.fromCode c with
      | none =>
        simp only [he, Except.error.injEq] at h
        subst h
        exact ⟨z, c :: es, rfl, rfl, es, rfl, hc, he⟩
      | some el =>
        have hcode := code_of_fromCode he
        simp only [he] at h
        simp only [List.length_cons] at ht
        cases hs : astep (zlen z) z el with
        | error x =>
          simp only [hs, Except.error.injEq] at h
          subst h
          have hr := role_spec el
          cases hrole : role el with
          | leaf t => simp [astep, hrole] at hs
          | opn f => simp [astep, hrole] at hs
          | cls d =>
            simp only [hrole] at hr
            obtain ⟨hel, _, _⟩ := hr
            simp only [astep, hrole] at hs
            rw [hel] at hcode
            cases z with
            | nil =>
              simp only [aclose, Except.error.injEq] at hs
              subst hs
              exact ⟨[], c :: es, rfl, rfl, rfl, d, es, by rw [hcode]⟩
            | cons f z =>
              by_cases hf : f.el = opnEl d
              · match f, hf with
                | .bound m, hf => cases m <;> cases d <;> simp [Frame.el, opnEl] at hf
                | .unb d' done, hf =>
                  have : d' = d := by cases d' <;> cases d <;> simp_all [Frame.el, opnEl]
                  subst this
                  rw [aclose_closed] at hs
                  cases hcl : closed d' done with
                  | some t => simp [hcl] at hs
                  | none =>
                    simp only [hcl, Except.error.injEq] at hs
                    subst hs
                    cases d' with
                    | false => simp [closed] at hcl
                    | true => exact ⟨_, _, rfl, done, z, es, rfl, hcl, by rw [hcode]; rfl, rfl⟩
              · rw [aclose_mis hf, Except.error.injEq] at hs
                subst hs
                exact ⟨f :: z, c :: es, rfl, f, z, d, es, rfl, by rw [hcode], hf, rfl, rfl, rfl⟩
        | ok o =>
          have hb := astep_bytes hs
          cases o with
          | inr z' =>
            simp only [hs] at h
            simp only [obytes] at hb
            have hl : zlen z' = zlen z + 1 := by
              rw [← zbytes_length, hb, List.length_append, zbytes_length]; rfl
            rw [← hl] at h
            obtain ⟨z'', rest, e1, e2⟩ := ih z' e (by omega) h
            refine ⟨z'', rest, ?_, e2⟩
            rw [← e1, hb, hcode]; simp
          | inl t =>
            simp only [hs] at h
            split at h
            · rename_i hne
              simp only [Except.error.injEq] at h
              subst h
              simp only [obytes] at hb
              refine ⟨[], zbytes z ++ c :: es, rfl, rfl, t, es, ?_, ?_, ?_⟩
              · rw [hb, hcode]; simp
              · intro e; subst e; simp at ht; omega
              · rw [← bytes_length, hb, List.length_append, zbytes_length]; rfl
            · cases h

theorem error_iff (bs : List UInt8) (e : SigError) : aloop bs.length bs 0 [] = .error e ↔
    ∃ z rest, bs = zbytes z ++ rest ∧ Stuck z rest e := by
  constructor
  · intro h
    exact error_stuck bs.length bs [] e (by simp [zlen]) h
  · rintro ⟨z, rest, hb, hs⟩
    have := aloop_zbytes bs.length z rest
    rw [hb] at this ⊢
    rw [this]
    exact stuck_error (by simp [zbytes_length]) hs

/-! ## Beginnings -/

/-- The opening code of a frame. -/
def Frame.char : Frame → Char
  | .bound false => 'a'
  | .bound true => 'm'
  | .unb false _ => '('
  | .unb true _ => '{'

/-- Members so far. -/
def Frame.done : Frame → List Ty
  | .bound _ => []
  | .unb _ done => done

theorem char_code (f : Frame) : f.char.toUInt8 = f.el.code := by
  match f with
  | .bound false => decide
  | .bound true => decide
  | .unb false _ => simp only [Frame.char, Frame.el]; decide
  | .unb true _ => simp only [Frame.char, Frame.el]; decide

theorem char_open (f : Frame) : f.char ∈ ['a', 'm', '(', '{'] := by
  match f with
  | .bound false => decide
  | .bound true => decide
  | .unb false _ => simp only [Frame.char]; decide
  | .unb true _ => simp only [Frame.char]; decide

theorem open_frame {c : Char} (h : c ∈ ['a', 'm', '(', '{']) : ∃ f : Frame, f.char = c ∧ f.done = [] := by
  simp only [List.mem_cons, List.not_mem_nil, or_false] at h
  rcases h with rfl | rfl | rfl | rfl
  · exact ⟨.bound false, rfl, rfl⟩
  · exact ⟨.bound true, rfl, rfl⟩
  · exact ⟨.unb false [], rfl, rfl⟩
  · exact ⟨.unb true [], rfl, rfl⟩

theorem zbytes_fresh (f : Frame) (z : List Frame) (h : f.done = []) : zbytes (f :: z) = zbytes z ++ [f.char.toUInt8] := by
  rw [char_code]
  cases f with
  | bound m => rfl
  | unb d done => simp only [Frame.done] at h; subst h; simp [zbytes]

theorem begin_frames {p : List UInt8} {i : Nat} {c : Char} {ts : List Ty} (h : Begin p i c ts) :
    ∃ f z, p = zbytes (f :: z) ∧ i = zlen z ∧ c = f.char ∧ ts = f.done := by
  induction h with
  | first c hc =>
    obtain ⟨f, hf, hd⟩ := open_frame hc
    exact ⟨f, [], by rw [zbytes_fresh f [] hd, hf]; rfl, rfl, hf.symm, hd.symm⟩
  | nest c' _ hc ih =>
    obtain ⟨g, z, rfl, _, _, _⟩ := ih
    obtain ⟨f, hf, hd⟩ := open_frame hc
    exact ⟨f, g :: z, by rw [zbytes_fresh f _ hd, hf], zbytes_length _, hf.symm, hd.symm⟩
  | member t _ hc ih =>
    obtain ⟨f, z, rfl, hi, rfl, rfl⟩ := ih
    match f, hc with
    | .bound false, hc => simp [Frame.char] at hc
    | .bound true, hc => simp [Frame.char] at hc
    | .unb d done, _ => exact ⟨.unb d (done ++ [t]), z, by simp [zbytes, Frame.el], hi, by cases d <;> rfl, rfl⟩

theorem begin_of_frames : ∀ (z : List Frame) (f : Frame), Begin (zbytes (f :: z)) (zlen z) f.char f.done := by
  have fresh : ∀ (z : List Frame) (f : Frame), (∀ g z', z = g :: z' → Begin (zbytes (g :: z')) (zlen z') g.char g.done) →
      f.done = [] → Begin (zbytes (f :: z)) (zlen z) f.char [] := by
    intro z f hz hd
    rw [zbytes_fresh f z hd]
    cases z with
    | nil => exact Begin.first f.char (char_open f)
    | cons g z => rw [← zbytes_length]; exact Begin.nest f.char (hz g z rfl) (char_open f)
  have members : ∀ (z : List Frame) (d : Bool), Begin (zbytes (.unb d [] :: z)) (zlen z) (Frame.unb d []).char [] →
      ∀ done : List Ty, Begin (zbytes (.unb d done.reverse :: z)) (zlen z) (Frame.unb d []).char done.reverse := by
    intro z d h0 done
    induction done with
    | nil => exact h0
    | cons t done ih =>
      have := Begin.member t ih (by cases d <;> simp [Frame.char])
      rw [List.reverse_cons]
      have e : zbytes (.unb d (done.reverse ++ [t]) :: z) = zbytes (.unb d done.reverse :: z) ++ t.bytes := by
        simp [zbytes]
      rw [e]; exact this
  intro z
  induction z with
  | nil =>
    intro f
    match f with
    | .bound m => exact fresh [] _ (by intro _ _ h; cases h) rfl
    | .unb d done =>
      have := members [] d (fresh [] (.unb d []) (by intro _ _ h; cases h) rfl) done.reverse
      rw [List.reverse_reverse] at this
      cases d <;> exact this
  | cons g z ih =>
    intro f
    have hz : ∀ g' z', g :: z = g' :: z' → Begin (zbytes (g' :: z')) (zlen z') g'.char g'.done := by
      intro g' z' h
      simp only [List.cons.injEq] at h
      obtain ⟨rfl, rfl⟩ := h
      exact ih _
    match f with
    | .bound m => exact fresh (g :: z) _ hz rfl
    | .unb d done =>
      have := members (g :: z) d (fresh (g :: z) (.unb d []) hz rfl) done.reverse
      rw [List.reverse_reverse] at this
      cases d <;> exact this

/-- Beginnings, including the empty one. -/
theorem begin_iff (p : List UInt8) : (∃ z, p = zbytes z) ↔ (p = [] ∨ ∃ i c ts, Begin p i c ts) := by
  constructor
  · rintro ⟨z, rfl⟩
    cases z with
    | nil => exact .inl rfl
    | cons f z => exact .inr ⟨_, _, _, begin_of_frames z f⟩
  · rintro (rfl | ⟨i, c, ts, h⟩)
    · exact ⟨[], rfl⟩
    · obtain ⟨f, z, rfl, _⟩ := begin_frames h
      exact ⟨_, rfl⟩

theorem new_err_iff (bs : List UInt8) (h : bs.length ≤ Kind.node64.lengthMax) (e : SigError) :
    Sig.new bs = .err e ↔ ∃ z rest, bs = zbytes z ++ rest ∧ Stuck z rest e := by
  rw [← error_iff, new_eq bs h]
  cases aloop bs.length bs 0 [] <;> simp

end Verif.Dbus
