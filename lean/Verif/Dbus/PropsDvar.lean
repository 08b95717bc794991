import Verif.Dbus.LemmasLong
/-! # Properties of the D-Bus encoder

C33: what is written is the marshalled value. C34: rejected calls. -/
namespace Verif.Dbus
open Verif.Io

variable {σ : Type} {I : WriteImpl σ} {be : Bool} {s : Sig} {t : Ty}

/-- C33, C35. The numbers in the marshalled form: `w` bytes, the least significant one first or last. -/
theorem number_bytes (be : Bool) (w v : Nat) : (enNum be w v).length = w ∧
    ∀ i < w, (enNum be w v)[if be then w - 1 - i else i]? = some (UInt8.ofNat (v / 256 ^ i)) := by
  have hl : ∀ w v, (leBytes w v).length = w := fun w v => enNum_length false w v
  have hg : ∀ w v i, i < w → (leBytes w v)[i]? = some (UInt8.ofNat (v / 256 ^ i)) := by
    intro w
    induction w with
    | zero => intro v i h; omega
    | succ w ih =>
      intro v i h
      cases i with
      | zero => simp [leBytes]
      | succ i =>
        rw [leBytes, List.getElem?_cons_succ, ih (v / 256) i (by omega), Nat.div_div_eq_div_mul, Nat.pow_succ, Nat.mul_comm]
  refine ⟨enNum_length be w v, fun i h => ?_⟩
  cases be with
  | false => exact hg w v i h
  | true =>
    show (leBytes w v).reverse[w - 1 - i]? = _
    rw [List.getElem?_reverse (by rw [hl]; omega), hl, show w - 1 - (w - 1 - i) = i by omega]
    exact hg w v i h

example : enNum true 4 0x01020304 = [1, 2, 3, 4] ∧ enNum false 2 0x0102 = [2, 1] := by decide

/-- C33, C34. For every writer which never maps more than asked for, every signature and every history of calls: no
call panics; the answers and their effects are those of the specification `Does`; what was written is in memory;
and the writer was told to commit once, with the whole length, if a commit was accepted, and never otherwise. -/
theorem encoder_refines (hE : Exact I) (hs : View s t) (be : Bool) (w : Writer σ) (ops : List Op) (ho : Op.sanes ops) :
    ∃ e e' w' outs b, Enc.with_ s be = some e ∧ Op.runs I ops e w = some (e', w', outs)
      ∧ DoesAll (Blocked I) be [] (St.new t) ops outs b ∧ Holds w'.mem (Part.bytes be [] b.parts)
      ∧ Calls I w.st (if b.committed then [(Part.bytes be [] b.parts).length] else []) w'.st := by
  obtain ⟨e, he, hsim⟩ := start_sim (I := I) hs be w
  obtain ⟨e', w', outs, b, hr, hd, hb⟩ := runs_sim hE ops ho hsim
  refine ⟨e, e', w', outs, b, he, hr, hd, hb.inv.holds, ?_⟩
  have := hb.log
  rw [hb.inv.idx] at this
  simpa using this

/-! ## Soundness -/

/-- C33. Whatever was called before and after: if a commit was answered with success then memory begins with the
marshalled form of a value of the type, and this is exactly what the writer was told to commit. -/
theorem committed_value (hE : Exact I) (hs : View s t) (be : Bool) (w : Writer σ) (ops : List Op) (ho : Op.sanes ops)
    {e e' : Enc} {w' : Writer σ} {outs : List Out} (he : Enc.with_ s be = some e)
    (hr : Op.runs I ops e w = some (e', w', outs))
    (hc : ∃ i : Nat, ops[i]? = some .commit ∧ outs[i]? = some (.res .ok)) :
    ∃ v : Val, v.has t ∧ v.fits be 0 ∧ Begins w'.mem (v.marshal be 0)
      ∧ Calls I w.st [(v.marshal be 0).length] w'.st := by
  obtain ⟨e₁, he₁, hsim⟩ := start_sim (I := I) hs be w
  rw [he, Option.some.injEq] at he₁
  subst he₁
  obtain ⟨e₂, w₂, outs₂, b, hr₂, hd, hb⟩ := runs_sim hE ops ho hsim
  rw [hr] at hr₂
  simp only [Option.some.injEq, Prod.mk.injEq] at hr₂
  obtain ⟨rfl, rfl, rfl⟩ := hr₂
  have hcom := doesAll_committed hd (.inr hc)
  obtain ⟨_, _, _, p, hp, hf⟩ := hb.old hcom
  obtain ⟨parts, c⟩ := b
  simp only at hp hcom
  subst hp hcom
  obtain ⟨t₂, ht⟩ := hb.inv.track
  have htt : t₂ = t := by
    obtain ⟨_, tys, todo, vals, rfl, e2, _⟩ := ht.single
    have := hb.root
    simp only [rootTys] at this
    rw [this] at e2
    simpa using e2.symm
  subst htt
  obtain ⟨v, hv, hhas, hfit, hbytes⟩ := ht.final hf
  have h1 := hb.inv.holds
  have h2 := hb.log
  rw [hb.inv.idx] at h2
  simp only [hbytes, List.nil_append, List.length_nil, and_self, if_true, known_length] at h1 h2
  exact ⟨v, hhas, hfit, holds_begins h1, h2⟩

/-! ## Completeness -/

/-- C33. (`_partial`: a variant's type has at most 31 codes, see `long_variant`; the API has calls for `q u t s o g v a ( {`
only.) Writing a value, in any of the ways to write it, and committing it succeeds, unless there is not enough room;
memory then begins with the marshalled value, and its length is committed. -/
theorem encodes_partial (hE : Exact I) (hs : View s t) (be : Bool) (w : Writer σ) (v : Val) (ops : List Op) (hv : v.has t)
    (hf : v.fits be 0) (ho : Writes v ops) (hroom : ¬ Blocked I (v.marshal be 0).length) :
    ∃ e e' w' outs, Enc.with_ s be = some e ∧ Op.runs I (ops ++ [.commit]) e w = some (e', w', outs)
      ∧ Out.goods outs ∧ Begins w'.mem (v.marshal be 0) ∧ Calls I w.st [(v.marshal be 0).length] w'.st := by
  obtain ⟨e, e', w', outs, b, he, hr, hd, hh, hc⟩ := encoder_refines hE hs be w (ops ++ [.commit])
    (sanes_append (writes_sane ho) (by simp [Op.sanes, Op.sane]))
  obtain ⟨o1, o2, m, rfl, hd1, hd2⟩ := doesAll_append hd
  have hb0 : Part.bytes be [] [⟨.root, [], [], [t]⟩] = [] := by
    simp [Part.bytes, Part.head, Part.body, Val.marshals]
  obtain ⟨g1, rfl⟩ := writes_ok (Blocked I) be ho (v.marshal be 0).length [] ⟨.root, [], [], [t]⟩ [] false o1 m t
    (fun n hn hb => hroom (hb.mono hn)) rfl hv (by rw [hb0]; exact hf) (by rw [hb0]; simp) hd1
  obtain ⟨o, rfl, hd3⟩ := doesAll_one hd2
  obtain ⟨rfl, rfl⟩ := does_commit (by rfl) hd3
  have hbytes : Part.bytes be [] [Part.add ⟨.root, [], [], [t]⟩ v] = known (v.marshal be 0) := by
    simp [Part.add, Part.bytes, Part.head, Part.body, Part.start, Val.marshals]
  refine ⟨e, e', w', _, he, hr, goods_append g1 ⟨rfl, trivial⟩, ?_, ?_⟩
  · rw [hbytes] at hh; exact holds_begins hh
  · rw [hbytes] at hc; simpa using hc

/-- C33. (`_partial` as above.) Every value, unless its variants have long types, can be written to an empty vector, and this yields exactly
its marshalled form. -/
theorem encodes_vec_partial (hs : View s t) (be : Bool) (v : Val) (hv : v.has t) (hf : v.fits be 0) (hsh : v.short)
    (hl : (v.marshal be 0).length ≤ isizeMax) :
    (∃ ops, Writes v ops) ∧ ∀ ops, Writes v ops → ∃ e e' w' outs, Enc.with_ s be = some e
      ∧ Op.runs vecWrite (ops ++ [.commit]) e (vecOf []) = some (e', w', outs) ∧ Out.goods outs
      ∧ vecBytes w' = some (v.marshal be 0) := by
  refine ⟨writes_exists v hsh, fun ops ho => ?_⟩
  obtain ⟨e, e', w', outs, h1, h2, h3, h4, h5⟩ := encodes_partial vec_write.1 hs be (vecOf []) v ops hv hf ho (vec_room (Nat.le_trans hl (by decide)))
  refine ⟨e, e', w', outs, h1, h2, h3, ?_⟩
  have := vec_calls h5
  simp [vecOf] at this
  unfold vecBytes
  rw [this]
  exact mapM_range _ _ fun i hi => h4 i hi

/-- A value with all kinds of containers, and a way to write it that uses a sub-encoder. -/
example : ∃ (t : Ty) (v : Val) (ops : List Op), View (ofTy t) t ∧ v.has t ∧ v.fits true 0 ∧ v.short ∧ Writes v ops
    ∧ v.marshal true 0 = [0, 7, 0, 0, 0, 0, 0, 6, 0, 0, 0, 1, 97, 0, 1, 116, 0, 0, 0, 0, 0, 0, 0, 0, 0, 0, 0, 0, 0, 0, 0, 9] := by
  refine ⟨.struct [.basic .uint16, .array (.basic .string), .variant], .struct [.u16 7, .array (.basic .string) [.string [97]],
    .variant (.basic .uint64) (.u64 9)], _, view_ofTy _ (by decide), ?_, ?_, ?_, .struct _ _ (.cons _ _ _ _ (.u16 7) (.cons _ _ _ _
      (.sub _ _ (.array _ _ _ (.cons _ _ _ _ (.string [97]) .nil))) (.cons _ _ _ _
      (.variant _ _ _ _ (view_short _ (by decide)).1 (view_short _ (by decide)).2 (.u64 9)) .nil))), ?_⟩
  · exact ⟨trivial, ⟨rfl, trivial, trivial⟩, trivial, trivial⟩
  · exact ⟨trivial, ⟨by decide, by simp [Val.fits], trivial⟩, ⟨by decide, trivial⟩, trivial⟩
  · exact ⟨trivial, ⟨trivial, trivial⟩, ⟨by decide, trivial⟩, trivial⟩
  · decide

/-! ## Rejections -/

/-- C34. In every state of the encoder: a call that is answered with an error leaves the encoder as it was, and if the
error is not one of the writer then also the writer and its memory. -/
theorem rejected (op : Op) (e : Enc) (w : Writer σ) {e' : Enc} {w' : Writer σ} {x : Option DErr}
    (h : op.run I e w = some (e', w', .res (.brk x))) : e' = e ∧ ∀ d, x = some d → d.own → w' = w := by
  have key : ∀ s : Step σ, Steady e w s → s.map (fun (e, w, r) => (e, w, Out.res r)) = some (e', w', .res (.brk x)) →
      e' = e ∧ ∀ d, x = some d → d.own → w' = w := by
    intro s hs hm
    cases s with
    | none => cases hm
    | some y =>
      obtain ⟨a, b, r⟩ := y
      simp only [Option.map_some, Option.some.injEq, Prod.mk.injEq, Out.res.injEq] at hm
      obtain ⟨rfl, rfl, rfl⟩ := hm
      exact hs _ _ _ rfl
  obtain ⟨h1, h2, h3, h4, h5, h6, h7, h8⟩ := steady I e w
  cases op <;> simp only [Op.run] at h
  case sub s ops =>
    split at h
    · cases h
    · cases h; exact ⟨rfl, fun _ _ _ => rfl⟩
    · split at h
      · cases h
      · cases h
  all_goals first
    | exact key _ (h1 _ _) h
    | exact key _ (h2 _ _) h
    | exact key _ (h3 _ _) h
    | exact key _ (h4 _) h
    | exact key _ h5 h
    | exact key _ (h6 _) h
    | exact key _ h7 h
    | exact key _ h8 h

/-- C34. A rejected call can be erased from a history: encoder, writer, memory and all other answers are the same. -/
theorem rejected_erased (before after : List Op) (op : Op) (e : Enc) (w : Writer σ) {e₁ e₂ : Enc} {w₁ w₂ : Writer σ}
    {outs : List Out} {d : DErr} (h : Op.runs I before e w = some (e₁, w₁, outs))
    (hop : op.run I e₁ w₁ = some (e₂, w₂, .res (.brk (some d)))) (hd : d.own) :
    Op.runs I (before ++ op :: after) e w = (Op.runs I (before ++ after) e w).map
      fun (e, w, os) => (e, w, os.take outs.length ++ .res (.brk (some d)) :: os.drop outs.length) := by
  obtain ⟨rfl, hw⟩ := rejected op e₁ w₁ hop
  have hw := hw d rfl hd
  subst hw
  rw [runs_append, runs_append, h]
  simp only [Op.runs, hop]
  cases Op.runs I after e₂ w₂ with
  | none => rfl
  | some y => simp

/-- C34. For every history, and every call for a value that follows: it is rejected as a mismatch exactly if there is no
next value to be written, or its type is not the one of the call. A commit is answered with success exactly if
nothing is missing, and otherwise rejected as pending. -/
theorem answers (hE : Exact I) (hs : View s t) (be : Bool) (w : Writer σ) (ops : List Op) (ho : Op.sanes ops)
    (op : Op) (hop : op.sane) :
    ∃ e e₁ w₁ outs b e₂ w₂ o, Enc.with_ s be = some e ∧ Op.runs I ops e w = some (e₁, w₁, outs)
      ∧ DoesAll (Blocked I) be [] (St.new t) ops outs b ∧ op.run I e₁ w₁ = some (e₂, w₂, o)
      ∧ (op.isValue = true → (o = .res (.brk (some .mismatch)) ↔
          ∀ p ps, b.parts = p :: ps → ∀ u, p.next = some u → op.suits u = false))
      ∧ (op = .commit → (o = .res .ok ↔ ∃ p, b.parts = [p] ∧ p.full = true)
          ∧ (o = .res (.brk (some .pending)) ↔ ¬ ∃ p, b.parts = [p] ∧ p.full = true)) := by
  obtain ⟨e, he, hsim⟩ := start_sim (I := I) hs be w
  obtain ⟨e₁, w₁, outs, b, hr, hd, hb⟩ := runs_sim hE ops ho hsim
  obtain ⟨e₂, w₂, o, b₂, hr₂, hd₂, _⟩ := run_sim hE op hop hb
  refine ⟨e, e₁, w₁, outs, b, e₂, w₂, o, he, hr, hd, hr₂, fun hv => ?_, ?_⟩
  · cases hd₂ with
    | mismatch _ p ps _ _ _ h => exact ⟨fun _ p ps hp => by cases hp; exact h, fun _ => rfl⟩
    | long _ _ _ _ _ u hn hsu =>
      refine ⟨fun h => by simp at h, fun h => ?_⟩
      rw [h _ _ rfl u hn] at hsu; cases hsu
    | value _ _ _ _ _ u _ hn hsu =>
      refine ⟨fun h => by simp at h, fun h => ?_⟩
      rw [h _ _ rfl u hn] at hsu; cases hsu
    | valueIo _ _ _ _ _ u _ r hn hsu _ _ _ hio =>
      refine ⟨fun h => ?_, fun h => ?_⟩
      · simp at h; subst h; cases hio
      · rw [h _ _ rfl u hn] at hsu; cases hsu
    | _ => cases hv
  · rintro rfl
    cases hd₂ with
    | mismatch _ _ _ _ _ h => cases h
    | long _ _ _ _ _ u _ h => cases u <;> simp [Op.suits] at h
    | value _ _ _ _ _ u _ _ h => cases u <;> simp [Op.suits] at h
    | valueIo _ _ _ _ _ u _ _ _ h => cases u <;> simp [Op.suits] at h
    | pending _ p ps _ h =>
      have : ¬ ∃ q, p :: ps = [q] ∧ q.full = true := by
        rintro ⟨q, hq, hf⟩
        simp only [List.cons.injEq] at hq
        obtain ⟨rfl, rfl⟩ := hq
        rw [hf] at h; simp at h
      exact ⟨⟨fun h => by simp at h, fun h => absurd h this⟩, fun _ => this, fun _ => rfl⟩
    | commit _ p _ h =>
      exact ⟨⟨fun _ => ⟨p, rfl, h⟩, fun _ => rfl⟩, fun h => by simp at h, fun h' => absurd ⟨p, rfl, h⟩ h'⟩

example : Op.sanes [.u16 1, .array, .string [97], .commit] := by simp [Op.sanes, Op.sane]
example : encTo false "as" [.array, .u16 1, .string [97], .commit, .close, .close, .commit] = some [6, 0, 0, 0, 1, 0, 0, 0, 97, 0] := by
  decide +kernel

/-! ## Disagreement -/

/-- Structures of `n` times `t`. -/
def wide (n : Nat) : List UInt8 := sb "(" ++ List.replicate n 116 ++ sb ")"

/-- The outcome of `variant` with this signature on an empty vector: panic, or the answer. -/
def tryVariant (n : Nat) : Option (Option DRes) :=
  match Sig.new (sb "v"), Sig.new (wide n) with
  | .ok s, .ok r => (Enc.with_ s false).map fun e => (e.variant vecWrite (vecOf []) r).map (·.2.2)
  | _, _ => none

/-- C33, disagreement. The D-Bus signature in a variant may have 255 codes, and signatures of up to 31 codes work. From
32 codes on `Sig::len` is six times the number of codes; `variant` then panics, since the iterator ends early, or
reports an overflow. -/
theorem long_variant : tryVariant 29 = some (some .ok) ∧ tryVariant 30 = some none
    ∧ tryVariant 41 = some (some (.brk (some .dataOverflow))) := by decide +kernel

/-- C33, disagreement. `variant` with any signature of 32 codes or more, where a variant is expected: it is never
accepted. From 43 codes on the answer is an overflow, and nothing happens. With 32 to 42 codes the call panics on
writers that do not refuse anything, such as vectors. -/
theorem long_variants (bs : List UInt8) (h : bs.length ≤ maxLength) (h8 : 32 ≤ bs.length) (r : Sig)
    (hr : Sig.new bs = .ok r) (e : Enc) (w : Writer σ) (he : e.cursor.element = some (some .variant)) :
    (∀ e' w', e.variant I w r ≠ some (e', w', .ok))
    ∧ (43 ≤ bs.length → e.variant I w r = some (e, w, .brk (some .dataOverflow)))
    ∧ (bs.length ≤ 42 → Willing I → e.level.idx + 256 ≤ usizeMax → e.variant I w r = none) := by
  rw [maxLength_eq] at h
  obtain ⟨t, rfl, rfl⟩ := new_ok h hr
  rw [bytes_length] at h8 ⊢
  have hk : (ofTy t).kind = .node64 := by
    simp only [ofTy]; unfold kindFor; rw [if_neg]; have : Kind.node8.lengthMax = 31 := by decide
    omega
  have ho : 43 ≤ t.size → e.variant I w (ofTy t) = some (e, w, .brk (some .dataOverflow)) := by
    intro h43
    have hl : (ofTy t).len = some (6 * t.size) := by rw [(rep_ofTy t).len, hk]; rfl
    unfold Enc.variant
    rw [expect_ok he, hl]
    simp only
    rw [if_neg (by omega)]
  refine ⟨?_, ho, fun h42 => (long_variant_ne (rep_ofTy t) hk e w he (by omega)).2⟩
  by_cases h42 : t.size ≤ 42
  · exact (long_variant_ne (rep_ofTy t) hk e w he (by omega)).1
  · intro e' w'
    rw [ho (by omega)]
    intro hx; cases hx

example : Willing vecWrite := by
  intro st idx n h x
  show (if _ then _ else _ : Nat × Flow Nat).2 ≠ _
  rw [if_pos h]; intro hx; cases hx
example : ∃ s e, Sig.new (sb "v") = .ok s ∧ Enc.with_ s false = some e ∧ e.cursor.element = some (some .variant)
    ∧ e.level.idx = 0 := ⟨_, _, rfl, rfl, by decide +kernel, rfl⟩
example : ∃ r, Sig.new (wide 33) = .ok r :=
  (accepts_iff _ (by decide)).mpr ⟨.struct (List.replicate 33 (.basic .uint64)), by decide⟩

end Verif.Dbus
