import Verif.Dbus.LemmasMem
/-! # Properties of the memory of D-Bus encoders and decoders

C87: dvar.rs 17-20 promises that all operations run in linear space relative to the length of the encoded data, type
signature included. C54 on machines with limits. -/
namespace Verif.Dbus
open Verif.Io

variable {σ : Type} {data : List UInt8} {s : Sig} {t : Ty}

/-! ## Machines -/

/-- C54, C87. If a machine can meet the requests of a history of calls then the history goes as without limits. -/
theorem machine_agrees (m : Machine) (I : ReadImpl σ) (l : List Ask) (d : Dec) (st : σ)
    (h : ∀ n ∈ (Ask.runsM m I l d st).1, n ≤ m.isizeMax ∧ n ≤ m.free) :
    (Ask.runsM m I l d st).2 = match Ask.runs I l d st with | some x => .done x | none => .panic := by
  rw [runsM_met l d st h]
  cases Ask.runs I l d st <;> rfl

/-- C54. (`_partial`: see `hostile_panics` and `hostile_starves` for other machines.) On machines with objects and free
memory of 4 GiB: no data panics the decoder, no history runs out of memory, and the answers are those of the
specification. -/
theorem machine_safe_partial {I : ReadImpl σ} (m : Machine) (hm : 2 ^ 32 ≤ m.isizeMax + 1) (hf : 2 ^ 32 ≤ m.free + 1)
    (hL : Linear I data) (hd : data.length < usizeMax) (hs : View s t) (be : Bool) (st : σ) (l : List Ask) (hl : Ask.sanes l) :
    ∃ d d' st' rs b q, Dec.with_ s be = some d ∧ Ask.runsM m I l d st = (q, .done (d', st', rs))
      ∧ GivesAll (Short I) be data (DSt.new t 0) l rs b := by
  obtain ⟨d, d', st', rs, b, h1, h2, h3⟩ := decoder_refines hL hd hs be st l hl
  have h4 := machine_agrees m I l d st fun n hn => by
    have := runsM_bound hL l d st n hn
    omega
  rw [h2] at h4
  exact ⟨d, d', st', rs, b, (Ask.runsM m I l d st).1, h1, Prod.ext rfl h4, h3⟩

/-! ## Requests -/

/-- C87. (`_partial`: see `length_requested`.) Whatever the machine and the history: unless the reader refuses data, no
call asks for more memory than there is data. -/
theorem requests_partial {I : ReadImpl σ} (m : Machine) (hL : Linear I data) (l : List Ask) (d d' : Dec) (st st' : σ)
    (q : List Nat) (rs : List Ans) (h : Ask.runsM m I l d st = (q, .done (d', st', rs))) (hr : Ans.cleans rs) :
    ∀ n ∈ q, n ≤ data.length :=
  runsM_clean hL l d st q d' st' rs h hr

/-- C87. (`_partial`: see `length_requested`.) If no call of a history without sub-decoders is rejected, then all its
requests together are for no more memory than there is data. -/
theorem total_partial {I : ReadImpl σ} (m : Machine) (hL : Linear I data) (hd : data.length < usizeMax) (hs : View s t) (be : Bool)
    (l : List Ask) (hp : l.all Ask.plain = true) (d d' : Dec) (st st' : σ) (q : List Nat) (rs : List Ans)
    (hw : Dec.with_ s be = some d) (h : Ask.runsM m I l d st = (q, .done (d', st', rs))) (hf : rs.all Ans.fine = true) :
    q.sum ≤ data.length := by
  obtain ⟨d0, h0, hsim⟩ := dec_start hs be
  rw [hw] at h0
  cases h0
  have := sums m hL hd l hsim hp h hf
  omega

/-- Two strings. -/
example : (decFromM ⟨2 ^ 31 - 1, 100⟩ false "as" [16, 0, 0, 0, 3, 0, 0, 0, 102, 111, 111, 0, 3, 0, 0, 0, 98, 97, 114, 0]
    [.array, .string, .string, .close, .commit]).map (·.1) = some [3, 3] := by decide +kernel

/-! ## Hostile lengths -/

/-- C87, C54, disagreement. For every number `n` there are four bytes of data for which the decoder asks for `n` bytes of
memory before it looks for them in the data: it panics if this is more than an object can have, it does not return if
there is not enough memory, and rejects the data otherwise. -/
theorem length_requested (m : Machine) (hs : View s (.basic .string)) (be : Bool) (n : Nat) (h0 : 0 < n) (hn : n < 2 ^ 32) :
    ∃ d, Dec.with_ s be = some d ∧ (enNum be 4 n).length = 4
      ∧ Ask.runsM m (sliceRead (enNum be 4 n)) [.string] d () = ([n],
        if m.isizeMax < n then .panic
        else if m.free < n then .noMemory
        else .done (d, (), [.brk (some (.io .exceeded))])) := by
  have hlen : (enNum be 4 n).length = 4 := by rw [enNum_length]
  have hu : 2 ^ 32 + 4 < usizeMax := by decide
  have hL := slice_read (enNum be 4 n) (by omega)
  obtain ⟨d, hd, hsim⟩ := dec_start hs be
  refine ⟨d, hd, hlen, ?_⟩
  have hel : d.cursor.element = some (some .string) :=
    hsim.track.element (u := .basic .string) (i := 0) (b := false) rfl
  have hidx : d.level.idx = 0 := hsim.idx
  have hr := read_spec _ _ hL.1 () 0 4
  have hc := (hL.2 0 4).mpr (.inr (by omega))
  rw [hc] at hr
  obtain ⟨h1, _, h3⟩ := hr
  rw [List.drop_zero, List.take_of_length_le (by omega)] at h1
  have hde : deNum d.be (read (sliceRead (enNum be 4 n)) () 0 4).out = n := by
    rw [h1, hsim.order, deNum_enNum be 4 n hn]
  have htext : d.text (sliceRead (enNum be 4 n)) () 4 n = some (d, (), .brk (some (.io .exceeded))) := by
    have hr := read_spec _ _ hL.1 () 4 n
    have hc : ¬ (read (sliceRead (enNum be 4 n)) () 4 n).flow = .cont () := by
      rw [hL.2 4 n]; omega
    unfold Dec.text Dec.io
    generalize (read (sliceRead (enNum be 4 n)) () 4 n).flow = f at hr hc
    cases f with
    | cont => exact absurd rfl hc
    | fault => exact hr.elim
    | brk e =>
      obtain ⟨k, _, hk, _, _, _, he⟩ := hr
      simp only [sliceRead] at he
      rw [if_pos (by omega), if_pos (by omega)] at he
      cases he
      rfl
  have hstr : d.strM m (sliceRead (enNum be 4 n)) () .string .u32 4 = withCapacity m n
      ([], .done (d, (), .brk (some (.io .exceeded)))) := by
    have e1 : shl1 Element.u32.dvarExp = some 4 := by decide
    have e2 : checkedNextMultipleOf 0 4 = some 0 := by decide
    unfold Dec.strM
    simp only [hel, ne_eq, not_true_eq_false, if_false, e1, hidx, e2, hc, hde, h3]
    rw [show (read (sliceRead (enNum be 4 n)) () 0 4).st = () from rfl, Nat.zero_add, htext]
    rfl
  simp only [Ask.runsM, Ask.runM, hstr, withCapacity]
  by_cases h4 : m.isizeMax < n
  · simp only [if_pos h4]
  · simp only [if_neg h4]
    by_cases h5 : m.free < n
    · simp only [if_pos h5]
    · simp only [if_neg h5, List.append_nil]

/-- C54, disagreement. Four bytes panic the decoder on machines with 32 bits. -/
theorem hostile_panics (m : Machine) (hm : m.isizeMax = 2 ^ 31 - 1) (hs : View s (.basic .string)) (be : Bool) :
    ∃ d data, Dec.with_ s be = some d ∧ data.length = 4 ∧ (Ask.runsM m (sliceRead data) [.string] d ()).2 = .panic := by
  obtain ⟨d, h1, h2, h3⟩ := length_requested m hs be (2 ^ 31) (by decide) (by decide)
  refine ⟨d, _, h1, h2, ?_⟩
  rw [h3, if_pos (by omega)]

/-- C54, disagreement. On machines with less than 4 GiB of free memory there are four bytes for which the decoder does not
return. -/
theorem hostile_starves (m : Machine) (hm : 2 ^ 32 - 1 ≤ m.isizeMax) (hf : m.free < 2 ^ 32 - 1) (hs : View s (.basic .string))
    (be : Bool) :
    ∃ d data, Dec.with_ s be = some d ∧ data.length = 4 ∧ (Ask.runsM m (sliceRead data) [.string] d ()).2 = .noMemory := by
  obtain ⟨d, h1, h2, h3⟩ := length_requested m hs be (2 ^ 32 - 1) (by decide) (by decide)
  refine ⟨d, _, h1, h2, ?_⟩
  rw [h3, if_neg (by omega), if_pos (by omega)]

/-- C87, disagreement. The memory asked for is not in proportion to the data: for every factor below `2 ^ 30` there is
data for which the decoder asks for more than this multiple of its length and that of the signature. -/
theorem hostile_request (m : Machine) (hs : View s (.basic .string)) (be : Bool) (c : Nat) (hc : c * 5 < 2 ^ 32 - 1) :
    ∃ d data n, Dec.with_ s be = some d ∧ n ∈ (Ask.runsM m (sliceRead data) [.string] d ()).1
      ∧ c * (data.length + (Ty.basic .string).size) < n := by
  obtain ⟨d, h1, h2, h3⟩ := length_requested m hs be (2 ^ 32 - 1) (by decide) (by decide)
  refine ⟨d, _, 2 ^ 32 - 1, h1, by rw [h3]; simp, ?_⟩
  rw [h2, size_basic]
  omega

example : (decFromM ⟨2 ^ 31 - 1, 2 ^ 30⟩ false "s" [0, 0, 0, 128] [.string]).map (·.1) = some [2 ^ 31] := by decide +kernel
example : (decFromM ⟨2 ^ 31 - 1, 2 ^ 30⟩ false "s" [0, 0, 0, 128] [.string]).map
    (fun x => match x.2 with | .panic => true | _ => false) = some true := by decide +kernel
example : ∃ s, View s (.basic .string) := ⟨_, view_ofTy _ (by decide)⟩

/-! ## Depths -/

/-- C87. Whatever the data and the history: the stack of a decoder is no longer than the signature. -/
theorem decoder_depth {I : ReadImpl σ} (hL : Linear I data) (hd : data.length < usizeMax) (hs : View s t) (be : Bool)
    (l : List Ask) (hl : Ask.sanes l) (d d' : Dec) (st st' : σ) (rs : List Ans) (hw : Dec.with_ s be = some d)
    (h : Ask.runs I l d st = some (d', st', rs)) : d'.stack.length ≤ t.size := by
  obtain ⟨d0, h0, hsim⟩ := dec_start hs be
  rw [hw] at h0
  cases h0
  obtain ⟨d1, st1, rs1, b, h1, h2, h3⟩ := asks_sim hL hd l st hl hsim
  rw [h] at h1
  cases h1
  have := h3.track.depth.2
  rwa [givesAll_ty l h2] at this

/-- C87. Whatever the writer and the history: the stack of an encoder is no longer than the signature and what has been
written so far. -/
theorem encoder_depth {I : WriteImpl σ} (hE : Exact I) (hs : View s t) (be : Bool) (w w' : Writer σ) (ops : List Op)
    (ho : Op.sanes ops) (e e' : Enc) (outs : List Out) (he : Enc.with_ s be = some e)
    (hr : Op.runs I ops e w = some (e', w', outs)) : e'.stack.length ≤ t.size + e'.level.idx := by
  obtain ⟨e0, h0, hsim⟩ := start_sim (I := I) hs be w
  rw [he] at h0
  cases h0
  obtain ⟨e1, w1, outs1, b, h1, _, h3⟩ := runs_sim hE ops ho hsim
  rw [hr] at h1
  cases h1
  obtain ⟨t', ht⟩ := h3.inv.track
  have := ht.depth
  rw [h3.root] at this
  rw [h3.inv.idx]
  simpa [sizes, Ty.size, Ty.texts] using this

/-- Depths that are reached. -/
example : (match Sig.new (sb "aaq") with
    | .ok s => (Dec.with_ s false).bind fun d => (Ask.runs (sliceRead [4, 0, 0, 0, 0, 0, 0, 0]) [.array, .array] d ()).map
        (·.1.stack.length)
    | _ => none) = some 2 := by decide +kernel
example : (match Sig.new (sb "v") with
    | .ok s => (Enc.with_ s false).bind fun e => (Op.runs vecWrite [.variant s, .variant s, .variant s] e (vecOf [])).map
        fun x => (x.1.stack.length, x.1.level.idx)
    | _ => none) = some (3, 9) := by decide +kernel

/-- An instance of `machine_agrees`: the requests are for 3 bytes each. -/
example : (Ask.runsM ⟨2 ^ 31 - 1, 100⟩ (sliceRead [3, 0, 0, 0, 102, 111, 111, 0]) [.string, .commit]
      ⟨false, ⟨ofTy (.basic .string), 0⟩, ⟨0, 0, 0⟩, [], none, none⟩ ()).2 =
    match Ask.runs (sliceRead [3, 0, 0, 0, 102, 111, 111, 0]) [.string, .commit]
      ⟨false, ⟨ofTy (.basic .string), 0⟩, ⟨0, 0, 0⟩, [], none, none⟩ () with | some x => .done x | none => .panic :=
  machine_agrees _ _ _ _ _ (by decide +kernel)

end Verif.Dbus
