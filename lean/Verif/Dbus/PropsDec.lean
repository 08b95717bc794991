import Verif.Dbus.LemmasReads
import Verif.Dbus.PropsDvar
/-! # Properties of the D-Bus decoder

C35: decoding yields what was encoded. C54: no data panics the decoder, and rejected calls have no effect. -/
namespace Verif.Dbus
open Verif.Io

variable {σ : Type} {I : ReadImpl σ} {data : List UInt8} {s : Sig} {t : Ty}

/-- C54. For every reader of some data, whatever the data is, every signature, and every history of calls: no call panics,
and the answers and their effects are those of the specification `Gives`. -/
theorem decoder_refines (hL : Linear I data) (hd : data.length < usizeMax) (hs : View s t) (be : Bool) (st : σ) (l : List Ask)
    (hl : Ask.sanes l) :
    ∃ d d' st' rs b, Dec.with_ s be = some d ∧ Ask.runs I l d st = some (d', st', rs)
      ∧ GivesAll (Short I) be data (DSt.new t 0) l rs b := by
  obtain ⟨d, h, hsim⟩ := dec_start hs be
  obtain ⟨d', st', rs, b, hr, hg, _⟩ := asks_sim hL hd l st hl hsim
  exact ⟨d, d', st', rs, b, h, hr, hg⟩

/-- C54. A slice refuses exactly what is beyond its end. -/
theorem slice_refuses (data : List UInt8) (h : data.length ≤ usizeMax) (n : Nat) :
    Short (sliceRead data) n ↔ data.length < n := slice_short data h n

/-- Hostile data: a length beyond the end, text that is not UTF-8. -/
example : (decFrom false "s" [255, 255, 255, 255, 97] [.string]).map (·.map Ans.show)
    = some [.inl (some (.io .exceeded))] := by decide +kernel
example : (decFrom false "g" [1, 255, 0] [.u16, .signature, .close]).map (·.map Ans.show)
    = some [.inl (some .mismatch), .inl (some .dataNonUtf8), .inl (some .mismatch)] := by
  decide +kernel
example : ∃ s t, View s t ∧ Ask.sanes [.u16, .sub (some s) [.commit]] :=
  ⟨_, _, view_ofTy (.array .variant) (by decide), trivial, ⟨fun s' h => by cases h; exact ⟨_, view_ofTy (.array .variant) (by decide)⟩,
    trivial, trivial⟩, trivial⟩

/-! ## Rejections -/

/-- C54. In every state of the decoder: a call that is answered with an error leaves the decoder as it was. -/
theorem dec_rejected (x : Ask) (d : Dec) (st : σ) {d' : Dec} {st' : σ} {e : Option DErr}
    (h : x.run I d st = some (d', st', .brk e)) : d' = d := by
  have hio : ∀ (r : ReadOut σ) k, (∀ st i o, k st i o = some (d', st', .brk e) → d' = d) → d.io r k = some (d', st', .brk e) → d' = d := by
    intro r k hk h
    unfold Dec.io at h
    split at h
    · exact hk _ _ _ h
    · cases h; rfl
    · cases h
  have hal : ∀ (st : σ) i x k, (∀ i, k i = some (d', st', .brk e) → d' = d) → d.align st i x k = some (d', st', .brk e) → d' = d := by
    intro st i x k hk h
    unfold Dec.align at h
    split at h
    · cases h
    · split at h
      · cases h; rfl
      · exact hk _ h
  have hex : ∀ (st : σ) el k, (k = some (d', st', .brk e) → d' = d) → d.expect st el k = some (d', st', .brk e) → d' = d := by
    intro st el k hk h
    unfold Dec.expect at h
    split at h
    · cases h
    · split at h
      · cases h; rfl
      · exact hk h
  have had : ∀ (st : σ) i a, d.advance st i a = some (d', st', .brk e) → a = .brk e := by
    intro st i a h
    unfold Dec.advance at h
    split at h
    · cases h
    · cases h; rfl
  have htx : ∀ (st : σ) i n, d.text I st i n = some (d', st', .brk e) → d' = d := by
    intro st i n h
    refine hio _ _ (fun st i o h => ?_) h
    split at h
    · split at h
      · have := had _ _ _ h; cases this
      · cases h
    · cases h; rfl
  have hpop : ∀ (st : σ) a b c, d.pop st a b c ≠ some (d', st', .brk e) := by
    intro st a b c h
    unfold Dec.pop at h
    split at h
    · cases h
    · split at h <;> cases h
  cases x with
  | u16 =>
    exact hex _ _ _ (hal _ _ _ _ fun i => hio _ _ fun st i o h => by have := had _ _ _ h; cases this) h
  | string => exact hex _ _ _ (hal _ _ _ _ fun i => hio _ _ fun st i o h => htx _ _ _ h) h
  | signature => exact hex _ _ _ (hal _ _ _ _ fun i => hio _ _ fun st i o h => htx _ _ _ h) h
  | array =>
    refine hex _ _ _ (fun h => ?_) h
    split at h
    · cases h
    · cases h
    · refine hal _ _ _ _ (fun i => hio _ _ fun st i o => hal _ _ _ _ fun i h => ?_) h
      split at h <;> cases h
  | close =>
    simp only [Ask.run, Dec.close] at h
    split at h
    · cases h
    · cases h; rfl
    · split at h
      · cases h; rfl
      · split at h
        all_goals first
          | exact absurd h (hpop _ _ _ _)
          | cases h
  | commit =>
    simp only [Ask.run, Dec.commit] at h
    split at h
    · cases h
    · split at h
      · cases h; rfl
      · split at h <;> cases h
  | more => simp [Ask.run] at h
  | sub s l =>
    simp only [Ask.run] at h
    split at h
    · cases h
    · cases h; rfl
    · split at h <;> cases h

/-! ## Decoding what was encoded -/

/-- C35. (`_partial`: the API has calls for `q s g a` only, texts must be UTF-8, and the client knows the number of elements,
since `more` does not tell, see `more_wrong`.) If data begins with the marshalled form of a value, the reader has it, and the client
reads along its type, in any of the ways to do so: all calls succeed and yield the value, and so does a commit. -/
theorem decodes_partial (hL : Linear I data) (hd : data.length < usizeMax) (hs : View s t) (be : Bool) (st : σ) (v : Val)
    (l : List Ask) (rs : List Ans) (hv : v.has t) (hf : v.fits be 0) (hr : Reads v l rs) (hp : v.marshal be 0 <+: data)
    (hshort : ¬ Short I (v.marshal be 0).length) :
    ∃ d d' st', Dec.with_ s be = some d ∧ Ask.runs I (l ++ [.commit]) d st = some (d', st', rs ++ [.ok]) := by
  obtain ⟨d, d', st', rs', b, h1, h2, h3⟩ := decoder_refines hL hd hs be st (l ++ [.commit])
    (asks_append (reads_sane hr) (by simp [Ask.sanes, Ask.sane]))
  obtain ⟨rs1, rs2, m, rfl, h4, h5⟩ := givesAll_append h3
  obtain ⟨rfl, rfl⟩ := reads_ok (Short I) be data (Nat.le_of_lt hd) hr (DSt.new t 0) m t rs1 rfl hv hf
    ⟨by simpa [DSt.new] using hp.length_le, by simpa [DSt.new] using hp⟩
    (fun n hn h => hshort (h.mono (by simpa [DSt.new] using hn))) h4
  obtain ⟨r, rfl, h6⟩ := givesAll_one h5
  obtain ⟨rfl, rfl⟩ := gives_commit (by rfl) (by rfl) h6
  exact ⟨d, d', st', h1, h2⟩

/-- C35. (`_partial` as above.) Values that can be read back: writing one to a vector, in any of the ways to do so, and reading the
bytes of that vector, in any of the ways to do so, yields the value. -/
theorem round_trip_partial (hs : View s t) (be : Bool) (v : Val) (hv : v.has t) (hf : v.fits be 0) (hread : v.readable)
    (hl : (v.marshal be 0).length ≤ isizeMax) :
    (∃ l rs, Reads v l rs) ∧ ∀ ops l rs, Writes v ops → Reads v l rs → ∃ e e' w' outs bs d d', Enc.with_ s be = some e
      ∧ Op.runs vecWrite (ops ++ [.commit]) e (vecOf []) = some (e', w', outs) ∧ Out.goods outs
      ∧ vecBytes w' = some bs ∧ Dec.with_ s be = some d ∧ Ask.runs (sliceRead bs) (l ++ [.commit]) d () = some (d', (), rs ++ [.ok]) := by
  replace hl : (v.marshal be 0).length < usizeMax := Nat.lt_of_le_of_lt hl (by decide)
  refine ⟨reads_exists v hread, fun ops l rs ho hr => ?_⟩
  obtain ⟨e, e', w', outs, h1, h2, h3, h4, h5⟩ := encodes_partial vec_write.1 hs be (vecOf []) v ops hv hf ho
    (vec_room (Nat.le_of_lt hl))
  have hb : vecBytes w' = some (v.marshal be 0) := by
    have := vec_calls h5
    simp [vecOf] at this
    unfold vecBytes
    rw [this]
    exact mapM_range _ _ fun i hi => h4 i hi
  obtain ⟨d, d', st', h6, h7⟩ := decodes_partial (slice_read _ (Nat.le_of_lt hl)).1 hl hs be () v l rs hv hf hr (List.prefix_refl _)
    (by rw [slice_short _ (Nat.le_of_lt hl)]; exact Nat.lt_irrefl _)
  exact ⟨e, e', w', outs, _, d, d', h1, h2, h3, hb, h6, h7⟩

/-- A value, one way to write it and another one to read it. -/
example : ∃ (t : Ty) (v : Val) (ops : List Op) (l : List Ask) (rs : List Ans), View (ofTy t) t ∧ v.has t ∧ v.fits true 0 ∧ v.readable
    ∧ Writes v ops ∧ Reads v l rs ∧ v.marshal true 0 = [0, 0, 0, 14, 0, 0, 0, 4, 0, 1, 0, 2, 0, 0, 0, 2, 0, 3] := by
  refine ⟨.array (.array (.basic .uint16)), .array (.array (.basic .uint16)) [.array (.basic .uint16) [.u16 1, .u16 2],
    .array (.basic .uint16) [.u16 3]], _, _, _, view_ofTy _ (by decide), ?_, ?_, ?_,
    .array _ _ _ (.cons _ _ _ _ (.array _ _ _ (.cons _ _ _ _ (.u16 1) (.cons _ _ _ _ (.u16 2) .nil)))
      (.cons _ _ _ _ (.array _ _ _ (.cons _ _ _ _ (.u16 3) .nil)) .nil)),
    .array _ _ _ _ (.cons _ _ _ _ _ _ (.sub _ _ _ (.array _ _ _ _ (.cons _ _ _ _ _ _ (.u16 1) (.cons _ _ _ _ _ _ (.u16 2) .nil))))
      (.cons _ _ _ _ _ _ (.array _ _ _ _ (.cons _ _ _ _ _ _ (.u16 3) .nil)) .nil)), ?_⟩
  · exact ⟨rfl, ⟨rfl, trivial, trivial, trivial⟩, ⟨rfl, trivial, trivial⟩, trivial⟩
  · simp [Val.fits, Val.fit, Val.marshals, Val.marshal, firstElement, pad, padding, enNum, leBytes, Ty.dvarAlign]
  · simp [Val.readable, Val.readables]
  · decide

/-! ## The end of arrays -/

theorem each_left (t : Ty) : ∀ (vs ws : List Val), Val.each (vs ++ ws) t → Val.each vs t
  | [], _, _ => trivial
  | _ :: vs, ws, h => ⟨h.1, each_left t vs ws h.2⟩

/-- C35. (`_partial`: see `more_wrong`.) What `more` answers after some of the elements of an array were read: it compares the
absolute offset of the next element with the length of the array. If the answer is yes, then there are more. -/
theorem more_partial (hL : Linear I data) (hd : data.length < usizeMax) {u : Ty} (hs : View s (.array u)) (be : Bool) (st : σ)
    (vs ws : List Val) (l : List Ask) (rs : List Ans) (hv : Val.each (vs ++ ws) u) (hf : (Val.array u (vs ++ ws)).fits be 0)
    (hr : ReadsAll vs l rs) (hp : (Val.array u (vs ++ ws)).marshal be 0 <+: data)
    (hshort : ¬ Short I ((Val.array u (vs ++ ws)).marshal be 0).length) :
    ∃ d d' st' m, Dec.with_ s be = some d ∧ Ask.runs I (.array :: l ++ [.more]) d st = some (d', st', .ok :: rs ++ [.more m])
      ∧ (m = true ↔ firstElement 0 u + (Val.marshals be (firstElement 0 u) vs).length
          < (Val.marshals be (firstElement 0 u) (vs ++ ws)).length)
      ∧ (m = true → ws ≠ []) := by
  obtain ⟨d, d', st', rs', b, h1, h2, h3⟩ := decoder_refines hL hd hs be st (.array :: l ++ [.more])
    (show Ask.sanes (.array :: (l ++ [.more])) from ⟨trivial, asks_append (readsAll_sane hr) (by simp [Ask.sanes, Ask.sane])⟩)
  have hat : At data 0 ((Val.array u (vs ++ ws)).marshal be 0) := ⟨by simpa using hp.length_le, by simpa using hp⟩
  have hfit := hf.2
  have hlen := hf.1
  simp only [Val.marshal] at hat hshort
  have hle : up 0 4 = 0 + (pad 0 4).length := by simp [up]
  have f1 := hat.left.left.right.field
  rw [← hle, enNum_length] at f1
  have f2 := hat.right
  have hfe : firstElement 0 u = 0 + (pad 0 4 ++ enNum be 4 (Val.marshals be (firstElement 0 u) (vs ++ ws)).length
      ++ pad (0 + padding 0 4 + 4) (2 ^ u.dvarAlign)).length := by
    simp [firstElement]; omega
  rw [← hfe] at f2
  have hR : ∀ n, n ≤ firstElement 0 u + (Val.marshals be (firstElement 0 u) (vs ++ ws)).length → ¬ Short I n := by
    intro n hn h
    refine hshort (h.mono ?_)
    rw [List.length_append]
    omega
  rw [List.cons_append] at h3
  cases h3 with
  | cons _ m _ _ _ r rs1 g1 g2 =>
    obtain ⟨rs2, rs3, m', rfl, g3, g4⟩ := givesAll_append g2
    obtain ⟨r', rfl, g5⟩ := givesAll_one g4
    obtain ⟨rfl, rfl⟩ := gives_array (by rfl) f1
      (hR _ (Nat.le_trans (show up 0 4 + 4 ≤ firstElement 0 u from Nat.le_add_right _ _) (Nat.le_add_right _ _)))
      (Nat.le_trans (Nat.le_trans (Nat.le_add_right _ _) f2.1) (Nat.le_of_lt hd)) g1
    rw [marshals_append] at f2
    obtain ⟨rfl, rfl⟩ := readsAll_ok (Short I) be data (Nat.le_of_lt hd) hr _ m' u _ [] rs2 rfl (each_left _ _ _ hv)
      (((fit_append be vs ws _).mp hfit).1) (Nat.le_trans (Nat.le_add_right _ _) f2.1) f2.left
      (fun n hn => hR n (by rw [marshals_append, List.length_append]; exact Nat.le_trans hn (by simp only [DSt.new]; omega))) g3
    have hde := deNum_enNum be 4 _ (show _ < 256 ^ 4 from hlen)
    cases g5 with
    | mismatch _ _ h => cases h
    | text _ _ _ _ _ _ _ _ h => cases h
    | textBad _ _ _ _ _ _ _ _ h => cases h
    | textIo _ _ _ _ _ _ _ h => cases h
    | more =>
      refine ⟨d, d', st', _, h1, h2, ?_, ?_⟩
      · simp only [DSt.new, decide_eq_true_eq, hde]
      · intro h hw
        subst hw
        simp only [DSt.new, decide_eq_true_eq, hde] at h
        simp only [List.append_nil] at h
        omega

theorem marshals_u16 (be : Bool) : ∀ (vs : List (BitVec 16)) (off : Nat), off % 2 = 0 →
    (Val.marshals be off (vs.map .u16)).length = 2 * vs.length
  | [], _, _ => rfl
  | v :: vs, off, h => by
    have hl : ((Val.u16 v).marshal be off).length = 2 := by simp [Val.marshal, padding, h]
    simp only [List.map_cons, Val.marshals, List.length_append, hl, List.length_cons]
    rw [marshals_u16 be vs (off + 2) (by omega)]; omega

theorem each_u16 : ∀ (vs : List (BitVec 16)), Val.each (vs.map .u16) (.basic .uint16)
  | [] => trivial
  | _ :: vs => ⟨trivial, each_u16 vs⟩

theorem fit_u16 (be : Bool) : ∀ (vs : List (BitVec 16)) (off : Nat), Val.fit be off (vs.map .u16)
  | [], _ => trivial
  | _ :: vs, _ => ⟨trivial, fit_u16 be vs _⟩

theorem reads_u16 : ∀ (vs : List (BitVec 16)), ReadsAll (vs.map .u16) (vs.map fun _ => .u16) (vs.map .u16)
  | [] => .nil
  | v :: vs => .cons _ _ _ _ _ _ (.u16 v) (reads_u16 vs)

/-- C35, disagreement. For every array of 16-bit numbers: after `vs` were read and `ws` are left, `more` answers yes only
if more than two are left. In particular it denies the last two elements, and all elements of short arrays. -/
theorem more_wrong {s : Sig} (hs : View s (.array (.basic .uint16))) (be : Bool) (vs ws : List (BitVec 16))
    (hl : 2 * (vs ++ ws).length < 2 ^ 32) :
    ∃ d d' m, Dec.with_ s be = some d
      ∧ Ask.runs (sliceRead ((Val.array (.basic .uint16) ((vs ++ ws).map .u16)).marshal be 0))
          (.array :: (vs.map fun _ => .u16) ++ [.more]) d () = some (d', (), .ok :: vs.map .u16 ++ [.more m])
      ∧ (m = true ↔ 2 < ws.length) := by
  have hfe : firstElement 0 (.basic .uint16) = 4 := by decide
  have hm := marshals_u16 be (vs ++ ws) 4 (by decide)
  have hlen : ((Val.array (.basic .uint16) ((vs ++ ws).map .u16)).marshal be 0).length = 4 + 2 * (vs ++ ws).length := by
    simp only [Val.marshal, hfe, List.length_append, enNum_length, hm, pad_length]
    simp [padding, Ty.dvarAlign]
  have hu : 2 ^ 32 + 4 < usizeMax := by decide
  have hf : (Val.array (.basic .uint16) ((vs ++ ws).map .u16)).fits be 0 := ⟨by rw [hfe, hm]; exact hl, fit_u16 be _ _⟩
  have hmap := List.map_append (f := Val.u16) (l₁ := vs) (l₂ := ws)
  obtain ⟨d, d', st', m, h1, h2, h3, _⟩ := more_partial (data := (Val.array (.basic .uint16) ((vs ++ ws).map .u16)).marshal be 0)
    (slice_read _ (by omega)).1 (by omega) hs be () (vs.map .u16) (ws.map .u16) _ _ (by rw [← hmap]; exact each_u16 _)
    (by rw [← hmap]; exact hf) (reads_u16 vs) (by rw [← hmap]; exact List.prefix_refl _)
    (by rw [← hmap, slice_short _ (by omega)]; exact Nat.lt_irrefl _)
  refine ⟨d, d', m, h1, h2, h3.trans ?_⟩
  rw [← hmap, hfe, hm, marshals_u16 be vs 4 (by decide), List.length_append]
  omega

example : (decFrom false "aq" [6, 0, 0, 0, 1, 0, 2, 0, 3, 0] [.more, .array, .more, .u16, .more, .u16, .u16, .more, .close]).map
    (·.map Ans.show) = some [.inr [0], .inr [], .inr [1], .inr [1], .inr [0], .inr [2], .inr [3], .inr [0], .inr []] := by decide +kernel

end Verif.Dbus
