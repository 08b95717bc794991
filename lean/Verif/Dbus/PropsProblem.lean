import Verif.Dbus.PropsSig
/-! # Property theorems: errors of signatures name the first problem (C53)

PropsSig.lean says for each error when it is reported and with which indices. Here: the byte an error points to is a problem,
and there is none before it, apart from dict entries, whose members are only looked at when the entry is closed. -/
namespace Verif.Dbus

/-- Some valid signature begins like this. -/
def Viable (p : List UInt8) : Prop := ∃ t : Ty, p <+: t.bytes

/-- The index of the byte that an error points to as the problem. The others are about the end of the text, and about a whole dict entry. -/
def SigError.place : SigError → Option Nat
  | .signatureSequence i => some i
  | .elementInvalid i _ => some i
  | .elementUnknown i _ => some i
  | .elementUnpaired i => some i
  | .elementMispaired _ i _ => some i
  | _ => none

/-- Dict entries in this text begin with a basic type and go on with one more type, as far as they go. -/
def EntriesBegin (bs : List UInt8) : Prop :=
  ∀ p j ts, Begin p j '{' ts →
    (p <+: bs → ts = [] ∨ (∃ b, ts = [.basic b]) ∨ ∃ b v, ts = [.basic b, v]) ∧
    ∀ c ∈ ['a', 'm', '(', '{'], p ++ [Char.toUInt8 c] <+: bs → ts.length = 1

/-! ## Lemmas -/

/-- The entries around the innermost container are in order. -/
def FineOuter (z : List Frame) : Prop := ∀ done, Frame.unb true done ∈ z → ∃ b, done = [.basic b]

theorem viable_member (z : List Frame) (hz : FineOuter z) : ∀ u : Ty, Viable (zbytes z ++ u.bytes) := by
  induction z with
  | nil => intro u; exact ⟨u, by simp [zbytes]⟩
  | cons f z ih =>
    intro u
    have hz' : FineOuter z := fun done h => hz done (List.mem_cons_of_mem _ h)
    match f, hz with
    | .bound false, _ =>
      obtain ⟨t, ht⟩ := ih hz' (.array u)
      refine ⟨t, ?_⟩
      rw [bytes_array] at ht
      simpa [zbytes, Frame.el] using ht
    | .bound true, _ =>
      obtain ⟨t, ht⟩ := ih hz' (.maybe u)
      refine ⟨t, ?_⟩
      rw [bytes_maybe] at ht
      simpa [zbytes, Frame.el] using ht
    | .unb false done, _ =>
      obtain ⟨t, ht⟩ := ih hz' (.struct (done ++ [u]))
      refine ⟨t, List.IsPrefix.trans ?_ ht⟩
      rw [bytes_struct]
      exact ⟨[Element.structClose.code], by simp [zbytes, Frame.el]⟩
    | .unb true done, hz =>
      obtain ⟨b, rfl⟩ := hz done List.mem_cons_self
      obtain ⟨t, ht⟩ := ih hz' (.dict b u)
      refine ⟨t, List.IsPrefix.trans ?_ ht⟩
      rw [bytes_dict]
      exact ⟨[Element.dictClose.code], by simp [zbytes, Frame.el]⟩

theorem viable_frames (f : Frame) (z : List Frame) (hz : FineOuter z)
    (hf : ∀ done, f = .unb true done → done = [] ∨ (∃ b, done = [.basic b]) ∨ ∃ b v, done = [.basic b, v]) :
    Viable (zbytes (f :: z)) := by
  have start : ∀ {x} (u : Ty), x <+: zbytes z ++ u.bytes → Viable x := by
    intro x u hx
    obtain ⟨t, ht⟩ := viable_member z hz u
    exact ⟨t, hx.trans ht⟩
  match f, hf with
  | .bound false, _ =>
    refine start (.array .variant) ?_
    rw [bytes_array]
    exact ⟨Ty.variant.bytes, by simp [zbytes, Frame.el]⟩
  | .bound true, _ =>
    refine start (.maybe .variant) ?_
    rw [bytes_maybe]
    exact ⟨Ty.variant.bytes, by simp [zbytes, Frame.el]⟩
  | .unb false done, _ =>
    refine start (.struct done) ?_
    rw [bytes_struct]
    exact ⟨[Element.structClose.code], by simp [zbytes, Frame.el]⟩
  | .unb true done, hf =>
    rcases hf done rfl with rfl | ⟨b, rfl⟩ | ⟨b, v, rfl⟩
    · refine start (.dict .byte .variant) ?_
      rw [bytes_dict]
      exact ⟨bytesOf [.basic .byte, .variant] ++ [Element.dictClose.code], by simp [zbytes, Frame.el]⟩
    · refine start (.dict b .variant) ?_
      rw [bytes_dict]
      exact ⟨Ty.variant.bytes ++ [Element.dictClose.code], by simp [zbytes, Frame.el]⟩
    · refine start (.dict b v) ?_
      rw [bytes_dict]
      exact ⟨[Element.dictClose.code], by simp [zbytes, Frame.el]⟩

theorem zbytes_suffix (f : Frame) (z : List Frame) : zbytes z ++ [f.char.toUInt8] <+: zbytes (f :: z) := by
  rw [char_code]
  cases f with
  | bound m => exact ⟨[], by simp [zbytes]⟩
  | unb d done => exact ⟨bytesOf done, by cases d <;> simp [zbytes, Frame.el]⟩

theorem fineOuter_of (bs : List UInt8) (he : EntriesBegin bs) : ∀ (z : List Frame) (f : Frame), zbytes (f :: z) <+: bs → FineOuter z := by
  intro z
  induction z with
  | nil => intro f _ done h; cases h
  | cons g z ih =>
    intro f hp done hm
    have hs := (zbytes_suffix f (g :: z)).trans hp
    have hg : zbytes (g :: z) <+: bs := List.IsPrefix.trans ⟨_, rfl⟩ hs
    rcases List.mem_cons.mp hm with rfl | hm
    · have hb : Begin (zbytes (.unb true done :: z)) (zlen z) '{' done := begin_of_frames z (.unb true done)
      obtain ⟨h1, h2⟩ := he _ _ _ hb
      have hl := h2 f.char (char_open f) hs
      rcases h1 hg with rfl | ⟨b, rfl⟩ | ⟨b, v, rfl⟩
      · cases hl
      · exact ⟨b, rfl⟩
      · cases hl
    · exact ih g hg done hm

theorem viable_begin (bs : List UInt8) (he : EntriesBegin bs) (z : List Frame) (hp : zbytes z <+: bs) : Viable (zbytes z) := by
  cases z with
  | nil => exact ⟨.variant, List.nil_prefix⟩
  | cons f z =>
    refine viable_frames f z (fineOuter_of bs he z f hp) ?_
    rintro done rfl
    exact (he _ _ _ (begin_of_frames z (.unb true done))).1 hp

/-- The place of an error, in terms of the parser: what is before it was read. -/
theorem place_spec {z : List Frame} {rest : List UInt8} {e : SigError} (h : Stuck z rest e) (i : Nat) (hi : e.place = some i) :
    ∃ c r p, zbytes z ++ rest = p ++ c :: r ∧ p.length = i ∧
      ((p = zbytes z) ∨ ∃ t : Ty, p = t.bytes) ∧ ∀ r', Stuck z ((p ++ c :: r').drop (zlen z)) e ∧ (p ++ c :: r').take (zlen z) = zbytes z := by
  have hdrop : ∀ x : List UInt8, (zbytes z ++ x).drop (zlen z) = x ∧ (zbytes z ++ x).take (zlen z) = zbytes z := by
    intro x
    rw [← zbytes_length]
    exact ⟨List.drop_left, List.take_left⟩
  cases e with
  | dataExceeded => cases hi
  | signatureEmpty => cases hi
  | signatureIncomplete j => cases hi
  | dictInvalid j => cases hi
  | elementInvalid j c =>
    cases hi
    obtain ⟨rfl, r, rfl, hc⟩ := h
    exact ⟨c, r, zbytes z, rfl, zbytes_length z, Or.inl rfl, fun r' => ⟨by rw [(hdrop _).1]; exact ⟨rfl, r', rfl, hc⟩, (hdrop _).2⟩⟩
  | elementUnknown j c =>
    cases hi
    obtain ⟨rfl, r, rfl, hc, hn⟩ := h
    exact ⟨c, r, zbytes z, rfl, zbytes_length z, Or.inl rfl,
      fun r' => ⟨by rw [(hdrop _).1]; exact ⟨rfl, r', rfl, hc, hn⟩, (hdrop _).2⟩⟩
  | elementUnpaired j =>
    cases hi
    obtain ⟨rfl, rfl, d, r, rfl⟩ := h
    exact ⟨_, r, [], rfl, rfl, Or.inl rfl, fun r' => ⟨⟨rfl, rfl, d, r', rfl⟩, rfl⟩⟩
  | elementMispaired j k x =>
    cases hi
    obtain ⟨f, z', d, r, rfl, rfl, hne, rfl, rfl, rfl⟩ := h
    exact ⟨_, r, zbytes (f :: z'), rfl, zbytes_length _, Or.inl rfl,
      fun r' => ⟨by rw [(hdrop _).1]; exact ⟨f, z', d, r', rfl, rfl, hne, rfl, rfl, rfl⟩, (hdrop _).2⟩⟩
  | signatureSequence j =>
    cases hi
    obtain ⟨rfl, t, r, rfl, hr, rfl⟩ := h
    cases r with
    | nil => exact absurd rfl hr
    | cons c r =>
      exact ⟨c, r, t.bytes, rfl, bytes_length t, Or.inr ⟨t, rfl⟩,
        fun r' => ⟨⟨rfl, t, c :: r', rfl, by simp, rfl⟩, rfl⟩⟩

/-! ## Theorems -/

/-- C53. The byte an error points to is a problem: however the text goes on after it, the same error is reported, so that no valid
signature begins like this. -/
theorem problem_real (bs : List UInt8) (h : bs.length ≤ maxLength) (e : SigError) (he : Sig.new bs = .err e) (i : Nat) (hi : e.place = some i) :
    i < bs.length ∧ (∀ r, (bs.take (i + 1) ++ r).length ≤ maxLength → Sig.new (bs.take (i + 1) ++ r) = .err e) ∧
      ∀ t : Ty, t.bytes.length ≤ maxLength → ¬ bs.take (i + 1) <+: t.bytes := by
  obtain ⟨z, rest, rfl, hs⟩ := (new_err_iff bs h e).mp he
  obtain ⟨c, r, p, e1, rfl, _, e3⟩ := place_spec hs i hi
  rw [e1]
  have ht : (p ++ c :: r).take (p.length + 1) = p ++ [c] := by
    rw [List.take_append, List.take_of_length_le (by omega)]; simp
  have hagain : ∀ r', ((p ++ c :: r).take (p.length + 1) ++ r').length ≤ maxLength →
      Sig.new ((p ++ c :: r).take (p.length + 1) ++ r') = .err e := by
    intro r' hl
    rw [ht] at hl ⊢
    have ea : (p ++ [c]) ++ r' = p ++ c :: r' := by simp
    rw [ea] at hl ⊢
    refine (new_err_iff _ hl e).mpr ⟨z, (p ++ c :: r').drop (zlen z), ?_, (e3 r').1⟩
    rw [← (e3 r').2, List.take_append_drop]
  refine ⟨by simp, hagain, ?_⟩
  rintro t hl ⟨r', hr'⟩
  obtain ⟨s, hs'⟩ := (accepts_iff t.bytes hl).mpr ⟨t, rfl⟩
  have := hagain r' (by rw [hr']; exact hl)
  rw [hr', hs'] at this
  cases this

/-- C53, partial. If dict entries in the text begin as they have to, there is no problem before the byte that an error points to; and if an
error points to none, then the text could be continued to a valid signature. Missing: an entry with wrong members is a problem before it is closed
(`problem_late`). -/
theorem first_problem_partial (bs : List UInt8) (h : bs.length ≤ maxLength) (hd : EntriesBegin bs) (e : SigError) (he : Sig.new bs = .err e)
    (hn : ∀ i, e ≠ .dictInvalid i) :
    match e.place with
    | some i => Viable (bs.take i)
    | none => Viable bs := by
  obtain ⟨z, rest, rfl, hs⟩ := (new_err_iff bs h e).mp he
  have hv := viable_begin _ hd z ⟨rest, rfl⟩
  cases hpl : e.place with
  | some i =>
    obtain ⟨c, r, p, e1, rfl, e2, _⟩ := place_spec hs i hpl
    show Viable _
    rw [e1, List.take_left]
    rcases e2 with rfl | ⟨t, rfl⟩
    · exact hv
    · exact ⟨t, List.prefix_refl _⟩
  | none =>
    show Viable _
    cases e with
    | dataExceeded => exact hs.elim
    | signatureEmpty => obtain ⟨rfl, rfl⟩ := hs; exact hv
    | signatureIncomplete j => obtain ⟨rfl, _⟩ := hs; simpa using hv
    | dictInvalid j => exact absurd rfl (hn j)
    | signatureSequence j => cases hpl
    | elementInvalid j c => cases hpl
    | elementUnknown j c => cases hpl
    | elementUnpaired j => cases hpl
    | elementMispaired j k x => cases hpl

/-! ## Exactly where the byte is the first problem -/

/-- The members of an entry so far. -/
def EntryOk (done : List Ty) : Prop := done = [] ∨ (∃ b, done = [.basic b]) ∨ ∃ b v, done = [.basic b, v]

/-- All open entries are in order. -/
def Fine (z : List Frame) : Prop := ∀ f z', z = f :: z' → FineOuter z' ∧ ∀ done, f = .unb true done → EntryOk done

theorem fineOuter_fine {z : List Frame} (h : FineOuter z) : Fine z := by
  rintro f z' rfl
  refine ⟨fun done hm => h done (List.mem_cons_of_mem _ hm), ?_⟩
  rintro done rfl
  exact .inr (.inl (h done List.mem_cons_self))

/-- Completing a type does not repair an entry. -/
theorem fine_complete (z : List Frame) : ∀ t : Ty, (∀ z', complete z t = .inr z' → Fine z') →
    Fine z ∧ ((∀ b, t ≠ .basic b) → FineOuter z) := by
  induction z with
  | nil => intro t _; exact ⟨fun f z' h => (by cases h), fun _ done h => (by cases h)⟩
  | cons f z ih =>
    intro t h
    have hb : ∀ m, f = .bound m → FineOuter z → Fine (f :: z) ∧ ((∀ b, t ≠ .basic b) → FineOuter (f :: z)) := by
      rintro m rfl hz
      have : FineOuter (.bound m :: z) := by
        intro done hm
        rcases List.mem_cons.mp hm with h | h
        · cases h
        · exact hz done h
      exact ⟨fineOuter_fine this, fun _ => this⟩
    match f, h, hb with
    | .bound false, h, hb => exact hb _ rfl ((ih (.array t) h).2 (fun b e => by cases e))
    | .bound true, h, hb => exact hb _ rfl ((ih (.maybe t) h).2 (fun b e => by cases e))
    | .unb d done, h, _ =>
      have h1 := h (.unb d (done ++ [t]) :: z) rfl _ _ rfl
      constructor
      · rintro f' z' e
        cases e
        refine ⟨h1.1, ?_⟩
        intro done' e
        cases e
        rcases h1.2 _ rfl with h2 | ⟨b, h2⟩ | ⟨b, v, h2⟩
        · simp at h2
        · left
          have := congrArg List.length h2
          simp at this
          exact this
        · right; left
          cases hq : done with
          | nil => rw [hq] at h2; cases h2
          | cons x l =>
            rw [hq] at h2
            have hl : l.length = 0 := by have := congrArg List.length h2; simp only [List.length_append, List.length_cons, List.length_nil] at this; omega
            rw [List.length_eq_zero_iff.mp hl] at h2 ⊢
            cases h2
            exact ⟨b, rfl⟩
      · intro hnb done' hm
        rcases List.mem_cons.mp hm with e | hm
        · cases e
          rcases h1.2 _ rfl with h2 | ⟨b, h2⟩ | ⟨b, v, h2⟩
          · simp at h2
          · exfalso
            cases hq : done with
            | nil => rw [hq] at h2; cases h2; exact hnb b rfl
            | cons x l =>
              rw [hq] at h2
              have := congrArg List.length h2
              simp at this
          · cases hq : done with
            | nil => rw [hq] at h2; cases h2
            | cons x l =>
              rw [hq] at h2
              have hl : l.length = 0 := by have := congrArg List.length h2; simp only [List.length_append, List.length_cons, List.length_nil] at this; omega
              rw [List.length_eq_zero_iff.mp hl] at h2 ⊢
              cases h2
              exact ⟨b, rfl⟩
        · exact h1.1 done' hm

theorem fine_of_accepted (total : Nat) : ∀ (es : List UInt8) (i : Nat) (z : List Frame) (t : Ty),
    aloop total es i z = .ok t → Fine z := by
  intro es
  induction es with
  | nil => intro i z t h; cases z <;> simp [aloop] at h
  | cons c es ih =>
    intro i z t h
    rw [aloop] at h
    split at h
    · cases h
    · cases hc : Element.fromCode c with
      | none => simp [hc] at h
      | some e =>
        simp only [hc] at h
        have hnext : ∀ o, astep i z e = .ok o → ∀ z', o = .inr z' → Fine z' := by
          rintro o hs z' rfl
          simp only [hs] at h
          exact ih _ _ _ h
        cases hrole : role e with
        | leaf u => exact (fine_complete z u (hnext _ (by simp [astep, hrole]))).1
        | opn f =>
          have := hnext (.inr (f :: z)) (by simp [astep, hrole]) _ rfl f z rfl
          exact fineOuter_fine this.1
        | cls d =>
          have ha : astep i z e = aclose i d z := by simp [astep, hrole]
          rw [ha] at h hnext
          match z with
          | [] => simp [aclose] at h
          | .bound m :: z => simp [aclose] at h
          | .unb d' done :: z =>
            by_cases hd : d' = d
            · subst hd
              rw [aclose_closed] at h hnext
              cases hcl : closed d' done with
              | none => simp [hcl] at h
              | some u =>
                simp only [hcl] at hnext
                have hnb : ∀ b, u ≠ .basic b := by
                  rintro b rfl
                  cases d' with
                  | false => simp [closed] at hcl
                  | true =>
                    simp only [closed, if_true] at hcl
                    split at hcl
                    · cases hcl
                    · cases hcl
                have hz := (fine_complete z u (hnext _ rfl)).2 hnb
                rintro f z' e'
                cases e'
                refine ⟨hz, ?_⟩
                intro done' e'
                cases e'
                simp only [closed, if_true] at hcl
                split at hcl
                · exact .inr (.inr ⟨_, _, rfl⟩)
                · cases hcl
            · simp [aclose, hd] at h

/-- Entries are in order in every beginning of a valid signature. -/
theorem entries_of_viable (q : List UInt8) (h : Viable q) : EntriesBegin q := by
  obtain ⟨t, ht⟩ := h
  have hfine : ∀ z : List Frame, zbytes z <+: q → Fine z := by
    intro z hz
    obtain ⟨rest, hr⟩ := hz.trans ht
    have h1 := aloop_complete t
    rw [← hr, aloop_zbytes] at h1
    exact fine_of_accepted _ _ _ _ _ h1
  intro p j ts hb
  obtain ⟨f, z, rfl, rfl, hch, rfl⟩ := begin_frames hb
  have hf : f = .unb true f.done := by
    match f, hch with
    | .bound false, hch => simp [Frame.char] at hch
    | .bound true, hch => simp [Frame.char] at hch
    | .unb false _, hch => simp [Frame.char] at hch
    | .unb true done, _ => rfl
  refine ⟨fun hp => (hfine _ hp f z rfl).2 _ hf, ?_⟩
  intro c hc hp
  have hopen : ∃ g : Frame, g.char = c ∧ g.done = [] := by
    simp only [List.mem_cons, List.not_mem_nil, or_false] at hc
    rcases hc with rfl | rfl | rfl | rfl
    · exact ⟨.bound false, rfl, rfl⟩
    · exact ⟨.bound true, rfl, rfl⟩
    · exact ⟨.unb false [], rfl, rfl⟩
    · exact ⟨.unb true [], rfl, rfl⟩
  obtain ⟨g, rfl, hg⟩ := hopen
  have e : zbytes (g :: f :: z) = zbytes (f :: z) ++ [g.char.toUInt8] := zbytes_fresh g (f :: z) hg
  have hout := (hfine (g :: f :: z) (by rw [e]; exact hp) g (f :: z) rfl).1
  obtain ⟨b, hb'⟩ := hout f.done (by rw [← hf]; exact List.mem_cons_self)
  rw [hb']; rfl

/-- C53, exact. The byte that an error points to is the first problem if and only if the entries before it begin as they have to: then what is
before it can be continued to a valid signature. A text that is rejected for being incomplete could be continued if and only if its entries
begin as they have to. An invalid entry is a problem in any case. -/
theorem first_problem_iff (bs : List UInt8) (h : bs.length ≤ maxLength) (e : SigError) (he : Sig.new bs = .err e) :
    match e.place with
    | some i => Viable (bs.take i) ↔ EntriesBegin (bs.take i)
    | none => (∀ i, e ≠ .dictInvalid i) → (Viable bs ↔ EntriesBegin bs) := by
  obtain ⟨z, rest, rfl, hs⟩ := (new_err_iff bs h e).mp he
  cases hpl : e.place with
  | some i =>
    obtain ⟨c, r, p, e1, rfl, e2, _⟩ := place_spec hs i hpl
    show Viable _ ↔ _
    rw [e1, List.take_left]
    rcases e2 with rfl | ⟨t, rfl⟩
    · exact ⟨entries_of_viable _, fun hd => viable_begin _ hd z (List.prefix_refl _)⟩
    · exact ⟨entries_of_viable _, fun _ => ⟨t, List.prefix_refl _⟩⟩
  | none =>
    show _ → (Viable _ ↔ _)
    intro hn
    refine ⟨entries_of_viable _, fun hd => ?_⟩
    have hv := first_problem_partial _ h hd e he hn
    rw [hpl] at hv
    exact hv

/-- Texts without `{` have no dict entries. -/
theorem entries_begin_without (bs : List UInt8) (h : '{'.toUInt8 ∉ bs) : EntriesBegin bs := by
  have key : ∀ p j c ts, Begin p j c ts → c.toUInt8 ∈ p := by
    intro p j c ts hb
    induction hb with
    | first c _ => simp
    | nest c' _ _ _ => simp
    | member t _ _ ih => simp [ih]
  intro p j ts hb
  have hm := key p j '{' ts hb
  exact ⟨fun hp => absurd (hp.subset hm) h, fun c _ hp => absurd (hp.subset (List.mem_append_left _ hm)) h⟩

/-- C53, disagreement. In `a{v?` the problem is the `v`, which cannot be a key: no valid signature begins with `a{v`. The error points to the
question mark. -/
theorem problem_late : Sig.new (sb "a{v?") = .err (.elementUnknown 3 0x3f) ∧ ¬ Viable (sb "a{v") ∧ Viable (sb "a{") := by
  refine ⟨by decide, ?_, ⟨.array (.dict .byte .variant), by decide⟩⟩
  rintro ⟨t, ht⟩
  have e : sb "a{v" = [0x61, 0x7b, 0x76] := by decide
  rw [e] at ht
  have hcode : ∀ (b : Basic), b.el.code ≠ 0x61 ∧ b.el.code ≠ 0x7b ∧ b.el.code ≠ 0x76 := by intro b; cases b <;> decide
  have c1 : ∀ (x : UInt8) (l : List UInt8), [0x61, 0x7b, 0x76] <+: x :: l → x = 0x61 ∧ [0x7b, 0x76] <+: l := by
    intro x l hx
    obtain ⟨h1, h2⟩ := List.cons_prefix_cons.mp hx
    exact ⟨h1.symm, h2⟩
  have c2 : ∀ (x : UInt8) (l : List UInt8), [0x7b, 0x76] <+: x :: l → x = 0x7b ∧ [0x76] <+: l := by
    intro x l hx
    obtain ⟨h1, h2⟩ := List.cons_prefix_cons.mp hx
    exact ⟨h1.symm, h2⟩
  cases t with
  | basic b => rw [bytes_basic] at ht; exact (hcode b).1 (c1 _ _ ht).1
  | variant => rw [bytes_variant] at ht; exact absurd (c1 _ _ ht).1 (by decide)
  | maybe u => rw [bytes_maybe] at ht; exact absurd (c1 _ _ ht).1 (by decide)
  | struct ts => rw [bytes_struct] at ht; exact absurd (c1 _ _ ht).1 (by decide)
  | dict b v => rw [bytes_dict] at ht; exact absurd (c1 _ _ ht).1 (by decide)
  | array u =>
    rw [bytes_array] at ht
    have ht := (c1 _ _ ht).2
    cases u with
    | basic b => rw [bytes_basic] at ht; exact (hcode b).2.1 (c2 _ _ ht).1
    | variant => rw [bytes_variant] at ht; exact absurd (c2 _ _ ht).1 (by decide)
    | maybe u => rw [bytes_maybe] at ht; exact absurd (c2 _ _ ht).1 (by decide)
    | struct ts => rw [bytes_struct] at ht; exact absurd (c2 _ _ ht).1 (by decide)
    | array u => rw [bytes_array] at ht; exact absurd (c2 _ _ ht).1 (by decide)
    | dict b v =>
      rw [bytes_dict] at ht
      have ht := (c2 _ _ ht).2
      rw [bytesOf_cons, bytes_basic] at ht
      obtain ⟨h1, _⟩ := List.cons_prefix_cons.mp ht
      exact (hcode b).2.2 h1.symm

/-! ## The hypotheses are met -/

example : Sig.new (sb "(ya?)") = .err (.elementUnknown 3 0x3f) ∧ SigError.place (.elementUnknown 3 0x3f) = some 3 ∧
    EntriesBegin (sb "(ya?)") := ⟨by decide, rfl, entries_begin_without _ (by decide)⟩

/-- Instances of `problem_real` and `first_problem_partial`: nothing can be a signature that begins with `(ya?`, but one can begin
with `(ya`. -/
example := problem_real (sb "(ya?)") (by decide) (.elementUnknown 3 0x3f) (by decide) 3 rfl
example : Viable ((sb "(ya?)").take 3) :=
  first_problem_partial (sb "(ya?)") (by decide) (entries_begin_without _ (by decide)) (.elementUnknown 3 0x3f) (by decide)
    (fun _ h => nomatch h)

end Verif.Dbus
