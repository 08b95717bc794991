import Verif.Dbus.LemmasPanic2
/-! # Properties of the D-Bus encoder and decoder if writers and readers panic

C111: a panic of the caller's writer or reader goes through the encoder or decoder, which can still be used. -/
namespace Verif.Dbus
open Verif.Io

variable {σ : Type} {I : WriteImplU σ} {J : ReadImpl σ} {data : List UInt8} {s : Sig} {t : Ty}

/-! ## Encoders -/

/-- Both ways to see a history. -/
theorem survives_aux (hI : Tame I.toWriteImpl) (hc : ∀ st n, I.dies st n = false) (hs : View s t) (be : Bool) (w : Writer σ)
    (ops : List Op) (ho : Op.sanes ops) : ∃ e e' w' outs b, Enc.with_ s be = some e ∧ Op.runsU I ops e w = (e', w', outs)
      ∧ Op.runs (calm I.toWriteImpl) ops e w = some (e', w', OutU.calms outs)
      ∧ DoesAll (Blocked (calm I.toWriteImpl)) be [] (St.new t) ops (OutU.calms outs) b
      ∧ Holds w'.mem (Part.bytes be [] b.parts)
      ∧ Calls I.toWriteImpl w.st (if b.committed then [(Part.bytes be [] b.parts).length] else []) w'.st := by
  obtain ⟨e, e', w', outs, b, he, hr, hd, hh, hl⟩ := encoder_refines (tame_exact hI) hs be w ops ho
  obtain ⟨outs', h1, rfl⟩ := runs_like hc ops e w e' w' outs hr
  exact ⟨e, e', w', outs', b, he, h1, hr, hd, hh, calm_calls hl⟩

/-- C111. For every writer that may panic whenever something is to be written, every signature and every history of calls: the
calls that did not panic, taken by themselves, are answered as the specification `Does` says, as if the others had never been
made; all that they wrote is in memory; and the writer was told to commit once, with the whole length, if a commit was accepted,
and never otherwise. -/
theorem encoder_survives (hI : Tame I.toWriteImpl) (hc : ∀ st n, I.dies st n = false) (hs : View s t) (be : Bool) (w : Writer σ)
    (ops : List Op) (ho : Op.sanes ops) : ∃ e e' w' outs b, Enc.with_ s be = some e ∧ Op.runsU I ops e w = (e', w', outs)
      ∧ DoesAll (Blocked (calm I.toWriteImpl)) be [] (St.new t) (Op.keeps ops outs) (OutU.keeps outs) b
      ∧ Holds w'.mem (Part.bytes be [] b.parts)
      ∧ Calls I.toWriteImpl w.st (if b.committed then [(Part.bytes be [] b.parts).length] else []) w'.st := by
  obtain ⟨e, e', w', outs, b, he, h1, _, hd, hh, hl⟩ := survives_aux hI hc hs be w ops ho
  exact ⟨e, e', w', outs, b, he, h1, doesAll_keep _ _ _ _ _ hd, hh, hl⟩

/-- C111. Whatever panicked before and after: if a commit was answered with success then memory begins with the marshalled form
of a value of the type, and this is exactly what the writer was told to commit. -/
theorem committed_survives (hI : Tame I.toWriteImpl) (hc : ∀ st n, I.dies st n = false) (hs : View s t) (be : Bool) (w : Writer σ)
    (ops : List Op) (ho : Op.sanes ops) {e e' : Enc} {w' : Writer σ} {outs : List OutU} (he : Enc.with_ s be = some e)
    (hr : Op.runsU I ops e w = (e', w', outs)) (hok : ∃ i : Nat, ops[i]? = some .commit ∧ outs[i]? = some (.res .ok)) :
    ∃ v : Val, v.has t ∧ v.fits be 0 ∧ Begins w'.mem (v.marshal be 0)
      ∧ Calls I.toWriteImpl w.st [(v.marshal be 0).length] w'.st := by
  obtain ⟨e₁, e₂, w₂, outs₂, b, he₁, h1, h2, _⟩ := survives_aux hI hc hs be w ops ho
  rw [he, Option.some.injEq] at he₁
  subst he₁
  rw [hr] at h1
  cases h1
  have hget : ∀ (l : List OutU) (i : Nat), l[i]? = some (.res .ok) → (OutU.calms l)[i]? = some (.res .ok) := by
    intro l
    induction l with
    | nil => intro i h; cases h
    | cons o l ih =>
      intro i h
      rw [OutU.calms]
      cases i with
      | zero => cases h; rfl
      | succ i => exact ih i h
  obtain ⟨i, hi, hoi⟩ := hok
  obtain ⟨v, hv, hf, hb, hl⟩ := committed_value (tame_exact hI) hs be w ops ho he h2 ⟨i, hi, hget _ _ hoi⟩
  exact ⟨v, hv, hf, hb, calm_calls hl⟩

/-- C111. Calls for a value of which each is made again until it does not panic, also within sub-encoders, write exactly this
value. -/
theorem retried (hI : Tame I.toWriteImpl) (hc : ∀ st n, I.dies st n = false) (hs : View s t) (be : Bool) (w : Writer σ)
    (hist ops : List Op) (ho : Op.sanes hist) (v : Val) (hv : v.has t) (hf : v.fits be 0) (hw : Writes v ops)
    {e e' : Enc} {w' : Writer σ} {outs : List OutU} (he : Enc.with_ s be = some e) (hr : Op.runsU I hist e w = (e', w', outs))
    (hk : Op.keeps hist outs = ops ++ [.commit]) (hg : Out.goods (OutU.keeps outs)) :
    Begins w'.mem (v.marshal be 0) ∧ Calls I.toWriteImpl w.st [(v.marshal be 0).length] w'.st := by
  obtain ⟨e₁, e₂, w₂, outs₂, b, he₁, h1, hd, hh, hl⟩ := encoder_survives hI hc hs be w hist ho
  rw [he, Option.some.injEq] at he₁
  subst he₁
  rw [hr] at h1
  cases h1
  rw [hk] at hd
  have hd := doesAll_good _ _ _ _ _ hg hd
  generalize OutU.keeps outs = os at hd
  obtain ⟨o1, o2, m, rfl, hd1, hd2⟩ := doesAll_append hd
  have hb0 : Part.bytes be [] [⟨.root, [], [], [t]⟩] = [] := by
    simp [Part.bytes, Part.head, Part.body, Val.marshals]
  obtain ⟨g1, rfl⟩ := writes_ok (fun _ => False) be hw (v.marshal be 0).length [] ⟨.root, [], [], [t]⟩ [] false o1 m t
    (fun _ _ h => h) rfl hv (by rw [hb0]; exact hf) (by rw [hb0]; simp) hd1
  obtain ⟨o, rfl, hd3⟩ := doesAll_one hd2
  obtain ⟨rfl, rfl⟩ := does_commit (by rfl) hd3
  have hbytes : Part.bytes be [] [Part.add ⟨.root, [], [], [t]⟩ v] = known (v.marshal be 0) := by
    simp [Part.add, Part.bytes, Part.head, Part.body, Part.start, Val.marshals]
  refine ⟨?_, ?_⟩
  · rw [hbytes] at hh; exact holds_begins hh
  · rw [hbytes] at hl; simpa using hl

/-- C111. In every state that can be reached, a call that panics leaves the encoder as it was. -/
theorem enc_panicked (hI : Tame I.toWriteImpl) (hc : ∀ st n, I.dies st n = false) (hs : View s t) (be : Bool) (w : Writer σ)
    (ops : List Op) (op : Op) (ho : Op.sanes (ops ++ [op])) {e e₁ e₂ : Enc} {w₁ w₂ : Writer σ} {outs : List OutU}
    (he : Enc.with_ s be = some e) (hr : Op.runsU I ops e w = (e₁, w₁, outs)) (hp : op.runU I e₁ w₁ = (e₂, w₂, .res .panic)) :
    e₂ = e₁ := by
  obtain ⟨e', e₃, w₃, os, b, he', hr', _⟩ := encoder_refines (tame_exact hI) hs be w (ops ++ [op]) ho
  rw [he, Option.some.injEq] at he'
  subst he'
  rw [runs_append] at hr'
  cases h1 : Op.runs (calm I.toWriteImpl) ops e w with
  | none => rw [h1] at hr'; cases hr'
  | some x =>
    obtain ⟨e₄, w₄, o₄⟩ := x
    obtain ⟨_, h2, _⟩ := runs_like hc ops e w _ _ _ h1
    rw [hr] at h2
    cases h2
    rw [h1] at hr'
    simp only [Op.runs] at hr'
    cases h3 : op.run (calm I.toWriteImpl) e₁ w₁ with
    | none => rw [h3] at hr'; cases hr'
    | some y =>
      obtain ⟨e₅, w₅, o₅⟩ := y
      obtain ⟨o', h4, h5⟩ := run_like hc op e₁ w₁ _ _ _ h3
      rw [hp] at h4
      cases h4
      subst h5
      exact (rejected op e₁ w₁ h3).1

/-- C111. Opening a variant may panic even if the writer does not, for types of 32 to 42 codes (see `long_variants`): this leaves
the encoder as it was, in every state. -/
theorem variant_panicked (e : Enc) (w : Writer σ) (sig : Sig) {e' : Enc} {w' : Writer σ}
    (h : e.variantU I.toWriteImpl w sig = (e', w', .panic)) : e' = e := by
  have hio : ∀ (r : WriteOut σ) k, (∀ w i, k w i = (e', w', .panic) → e' = e) → e.ioU r k = (e', w', .panic) → e' = e := by
    intro r k hk h
    unfold Enc.ioU at h
    split at h
    · exact hk _ _ h
    · cases h
    · cases h; rfl
  unfold Enc.variantU Enc.expectU at h
  split at h
  · cases h; rfl
  split at h
  · cases h
  split at h
  · cases h; rfl
  split at h
  · refine hio _ _ (fun w i h => hio _ _ (fun w i h => ?_) h) h
    split at h
    · cases h; rfl
    · exact hio _ _ (fun w i h => hio _ _ (fun w i h => by cases h) h) h
  · cases h

/-- C111. If the writer panics when it is told to commit then the encoder is as before, and the next commit tells the writer to
commit again, whatever it has done already. -/
theorem commit_panicked (e : Enc) (w : Writer σ) {e' : Enc} {w' : Writer σ} (h : e.commitU I w = (e', w', .panic)) :
    e' = e ∧ w'.mem = w.mem ∧ (w' = w ∨ (w'.st = I.commit w.st e.level.idx ∧ (I.dies w'.st e.level.idx = false →
      e'.commitU I w' = ({ e with done := true }, ⟨I.commit (I.commit w.st e.level.idx) e.level.idx, w.mem⟩, .ok)))) := by
  unfold Enc.commitU at h
  cases hi : e.cursor.idx_step with
  | none => rw [hi] at h; cases h; exact ⟨rfl, rfl, .inl rfl⟩
  | some step =>
    rw [hi] at h
    simp only [] at h
    split at h
    · cases h
    · rename_i h1
      split at h
      · cases h
      · rename_i h2
        split at h
        · rename_i h3
          split at h
          · cases h
            refine ⟨rfl, rfl, .inr ⟨rfl, fun hd => ?_⟩⟩
            unfold Enc.commitU
            rw [hi]
            simp only []
            rw [if_neg h1, if_neg h2, if_pos h3, hd, if_neg (by decide)]
          · cases h
        · cases h

/-- A vector may panic at any call: it is still a writer. -/
theorem flaky_tame (bad : Nat → Bool) : Tame (flaky bad).toWriteImpl := by
  refine ⟨fun st idx len n h => ?_⟩
  simp only [flaky] at h
  split at h
  · cases h
  · split at h
    · cases h; exact ⟨Nat.le_refl _, ‹_›⟩
    · cases h

/-- Some calls of the writer panic. The array is written with as many calls as it takes. -/
example : ∃ hist outs e' w', Op.runsU (flaky fun n => n == 2 || n == 4 || n == 8) hist ⟨false, true, ⟨ofTy (.array (.basic .string)), 0⟩, ⟨0, 0, 0⟩, [], none, none⟩
      ⟨(0, 0), fun _ => none⟩ = (e', w', outs) ∧ Op.keeps hist outs = [.array, .string [97], .close] ++ [.commit]
    ∧ OutU.keeps outs = [.res .ok, .res .ok, .res .ok, .res .ok] ∧ outs.length = 7 ∧ w'.st.1 = 10
    ∧ (List.range 10).mapM w'.mem = some [0, 0, 0, 6, 0, 0, 0, 1, 97, 0] :=
  ⟨[.array, .string [97], .string [97], .string [97], .close, .close, .commit], _, _, _, rfl, rfl, rfl, rfl, by decide +kernel, by decide +kernel⟩

/-- A writer which panics after it has committed, once: it is told to commit twice. -/
example : ((Op.runsU { flaky (fun _ => false) with dies := fun st _ => st.1 == 0, commit := fun st n => (st.1 + n, st.2) }
      [.u16 7, .commit, .commit] ⟨false, true, ⟨ofTy (.basic .uint16), 0⟩, ⟨0, 0, 0⟩, [], none, none⟩ ⟨(0, 0), fun _ => none⟩).2.1.st.1) = 4 := by
  decide +kernel

/-! ## Decoders -/

/-- C111. The same for decoders: for every reader of some data that may panic at any time, every signature and every history of
calls, those that did not panic are answered as if the others had never been made. -/
theorem decoder_survives (hJ : TameR J data) (hs : View s t) (be : Bool) (st : σ) (l : List Ask) (hl : Ask.sanes l) :
    ∃ d d' st' rs b, Dec.with_ s be = some d ∧ Ask.runsU J l d st = (d', st', rs)
      ∧ GivesAll (Short (calmR J)) be data (DSt.new t 0) (Ask.keeps l rs) (AnsU.keeps rs) b := by
  obtain ⟨d, d', st', rs, b, hd, hr, hg⟩ := decoder_refines (tame_linear hJ) hJ.size hs be st l hl
  obtain ⟨rs', h1, rfl⟩ := asks_like l d st d' st' rs hr
  exact ⟨d, d', st', rs', b, hd, h1, givesAll_keep _ _ _ _ hg⟩

/-- C111. In every state that can be reached, a call that panics leaves the decoder as it was. -/
theorem dec_panicked (hJ : TameR J data) (hs : View s t) (be : Bool) (st : σ) (l : List Ask) (x : Ask) (hl : Ask.sanes (l ++ [x]))
    {d d₁ d₂ : Dec} {st₁ st₂ : σ} {rs : List AnsU} (hd : Dec.with_ s be = some d) (hr : Ask.runsU J l d st = (d₁, st₁, rs))
    (hp : x.runU J d₁ st₁ = (d₂, st₂, .panic)) : d₂ = d₁ := by
  obtain ⟨d', d₃, st₃, os, b, hd', hr', _⟩ := decoder_refines (tame_linear hJ) hJ.size hs be st (l ++ [x]) hl
  rw [hd, Option.some.injEq] at hd'
  subst hd'
  obtain ⟨d₄, st₄, o₄, h1, d₅, st₅, o₅, h3⟩ := asks_split l x d st hr'
  obtain ⟨_, h2, _⟩ := asks_like l d st _ _ _ h1
  rw [hr] at h2
  cases h2
  obtain ⟨o', h4, h5⟩ := (ask_like x d₁ st₁).out _ _ _ h3
  rw [hp] at h4
  cases h4
  subst h5
  exact dec_rejected x d₁ st₁ h3

/-- A slice that may panic at any call is still a reader. -/
theorem flakyR_tame (bad : Nat → Bool) (data : List UInt8) (h : data.length < usizeMax) : TameR (flakyR bad data) data := by
  refine ⟨h, fun st idx len m hm => ?_⟩
  simp only [flakyR] at hm
  split at hm
  · cases hm
  · simp only [sliceRead] at hm
    split at hm
    · split at hm
      · cases hm
      · cases hm; exact List.take_prefix _ _
    · cases hm

/-- The text is read with the third call. -/
example : ∃ l rs d' st', Ask.runsU (flakyR (fun n => n == 0 || n == 2) [0, 0, 0, 2, 104, 105, 0]) l
      ⟨true, ⟨ofTy (.basic .string), 0⟩, ⟨0, 0, 0⟩, [], none, none⟩ 0 = (d', st', rs)
    ∧ rs = [.panic, .panic, .str [104, 105], .ok] ∧ Ask.keeps l rs = [.string, .commit] ∧ AnsU.keeps rs = [.str [104, 105], .ok] :=
  ⟨[.string, .string, .string, .commit], _, _, _, rfl, rfl, rfl, rfl⟩

end Verif.Dbus
