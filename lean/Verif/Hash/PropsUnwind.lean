import Verif.Hash.LemmasUnwind
/-! # Property theorems: engines after panics (C109)

A client that catches panics and goes on with the same engine. -/
namespace Verif.Hash

/-- What a client sees who catches panics. -/
def seen {α E : Type} (f : α → Out) (r : Option α × E) : Out × E :=
  match r with
  | (none, e) => (.panic, e)
  | (some a, e) => (f a, e)

def callU (e : Engine) : Call → Out × Engine
  | .push d => seen (fun _ => .none) (e.pushU d)
  | .pushZero n => seen (fun _ => .none) (e.push_zeroU n)
  | .finalize => seen .digest e.finalizeU
  | .reset => (.none, e.reset)
  | .isReset => (.flag e.is_reset, e)

/-- Everything that is seen over a history of calls; panics are caught, and the next call is made. -/
def traceU (e : Engine) : List Call → List Out
  | [] => []
  | c :: cs => (callU e c).1 :: traceU (callU e c).2 cs

/-- The engine after a history. -/
def stateU (e : Engine) (cs : List Call) : Engine := cs.foldl (fun e c => (callU e c).2) e

/-- What is seen up to and including the first panic. -/
def cut : List Out → List Out
  | [] => []
  | .panic :: _ => [.panic]
  | o :: l => o :: cut l

theorem traceU_append (e : Engine) (a b : List Call) : traceU e (a ++ b) = traceU e a ++ traceU (stateU e a) b := by
  induction a generalizing e with
  | nil => rfl
  | cons c a ih => simp only [List.cons_append, traceU, ih]; rfl

theorem seen_same {α : Type} (f : α → Out) {x y : Option α × Engine} (h : SameR x y) : (seen f x).1 = (seen f y).1 ∧ Same (seen f x).2 (seen f y).2 := by
  obtain ⟨x1, x2⟩ := x
  obtain ⟨y1, y2⟩ := y
  obtain ⟨h1, h2⟩ := h
  simp only at h1 h2
  subst h1
  cases x1 <;> exact ⟨rfl, h2⟩

theorem callU_same {a b : Engine} (h : Same a b) (c : Call) : (callU a c).1 = (callU b c).1 ∧ Same (callU a c).2 (callU b c).2 := by
  cases c with
  | push d => exact seen_same _ (pushU_same h d)
  | pushZero n => exact seen_same _ (push_zeroU_same h n)
  | finalize => exact seen_same _ (finalizeU_same h)
  | reset =>
    refine ⟨rfl, rfl, rfl, rfl, h.la, h.lb, ?_⟩
    show List.take (64 - 64) _ = List.take (64 - 64) _
    rfl
  | isReset => exact ⟨by simp only [callU, Engine.is_reset, h.total], h⟩

theorem traceU_same {a b : Engine} (h : Same a b) (cs : List Call) : traceU a cs = traceU b cs := by
  induction cs generalizing a b with
  | nil => rfl
  | cons c cs ih =>
    obtain ⟨h1, h2⟩ := callU_same h c
    rw [traceU, traceU, h1, ih h2]

theorem stateU_chunk {e : Engine} (h : e.chunk.length = 64) (cs : List Call) : (stateU e cs).chunk.length = 64 := by
  induction cs generalizing e with
  | nil => exact h
  | cons c cs ih => exact ih (callU_same (Same.refl h) c).2.la

/-- C109. Whatever was done with an engine before, and whichever of these calls panicked: after a reset, everything that is seen is what is seen of a new
engine, including the panics. Missing: what is seen without a reset (`wrong_digest`). -/
theorem reset_after_panics_partial (before after : List Call) :
    traceU Engine.default (before ++ [.reset] ++ after) = traceU Engine.default (before ++ [.reset]) ++ traceU Engine.default after := by
  rw [traceU_append]
  congr 1
  refine traceU_same ?_ after
  have : stateU Engine.default (before ++ [.reset]) = (stateU Engine.default before).reset := by simp [stateU, callU]
  rw [this]
  exact resetU_same (stateU_chunk rfl before)

theorem keep_value {α : Type} {r : Option α × Engine} {v : α} {e : Engine} (h : keep r = some (v, e)) : r = (some v, e) := by
  obtain ⟨r1, r2⟩ := r
  cases r1 with
  | none => cases h
  | some u => cases h; rfl

theorem keep_unit {r : Option Unit × Engine} {e : Engine} (h : (keep r).map (·.2) = some e) : r = (some (), e) := by
  obtain ⟨r1, r2⟩ := r
  cases r1 with
  | none => cases h
  | some u => cases h; rfl

theorem keep_wf {e : Engine} (hw : e.WF) (c : Call) :
    (engineStep e c = none ∧ (callU e c).1 = .panic) ∨ (∃ o e', engineStep e c = some (o, e') ∧ callU e c = (o, e') ∧ o ≠ .panic ∧ e'.WF) := by
  have push : ∀ (r : Option Unit × Engine) (s : Option Engine), (keep r).map (·.2) = s → (∀ e', s = some e' → e'.WF) →
      ((s.map fun e' => (Out.none, e')) = none ∧ (seen (fun _ => Out.none) r).1 = .panic)
      ∨ (∃ o e', (s.map fun e' => (Out.none, e')) = some (o, e') ∧ seen (fun _ => Out.none) r = (o, e') ∧ o ≠ .panic ∧ e'.WF) := by
    intro r s h hs
    obtain ⟨r1, r2⟩ := r
    cases r1 with
    | none => subst h; exact .inl ⟨rfl, rfl⟩
    | some u => subst h; exact .inr ⟨_, _, rfl, rfl, (by intro h; cases h), hs _ rfl⟩
  cases c with
  | push d => exact push _ _ (pushU_keep e hw d) fun _ h => push_wf hw h
  | pushZero n => exact push _ _ (push_zeroU_keep e hw n) fun _ h => push_zero_wf hw h
  | finalize =>
    have hk := finalizeU_keep e hw
    simp only [engineStep, callU]
    rcases hr : e.finalizeU with ⟨r1, r2⟩
    rw [hr] at hk
    cases r1 with
    | none => rw [← hk]; exact .inl ⟨rfl, rfl⟩
    | some v =>
      rw [← hk]
      refine .inr ⟨_, _, rfl, rfl, (by intro h; cases h), ?_⟩
      have hc := (finalizeU_same (Same.refl hw.chunk_len)).2.la
      rw [hr] at hc
      have hf : e.finalize = some (v, r2) := hk.symm
      unfold Engine.finalize at hf
      simp only [Option.bind_eq_bind, Option.bind_eq_some_iff] at hf
      obtain ⟨_, _, _, _, _, _, e1, _, _, _, e2, _, e3, _, _, hg, h⟩ := hf
      simp only [guard, Option.pure_def] at hg
      split at hg
      · rename_i hg
        cases h
        exact ⟨hc, by simp only [] at hc ⊢; omega, by simp only [] at hc ⊢; omega⟩
      · cases hg
  | reset => exact .inr ⟨_, _, rfl, rfl, (by intro h; cases h), hw.chunk_len, (by decide : 0 < CHUNK), (by decide : CHUNK ≤ 64)⟩
  | isReset => exact .inr ⟨_, _, rfl, rfl, (by intro h; cases h), hw⟩

theorem cut_other {o : Out} (h : o ≠ .panic) (l : List Out) : cut (o :: l) = o :: cut l := by
  cases o with
  | panic => exact absurd rfl h
  | _ => rfl

/-- C109. Up to the first panic this is what is seen without catching panics: digests of what was pushed (C01, C02, C03). -/
theorem first_panic (cs : List Call) : cut (traceU Engine.default cs) = refTrace [] cs := by
  rw [← sha256_trace_refines]
  have : ∀ (cs : List Call) (e : Engine), e.WF → cut (traceU e cs) = engineTrace e cs := by
    intro cs
    induction cs with
    | nil => intro e _; rfl
    | cons c cs ih =>
      intro e hw
      rw [traceU, engineTrace]
      rcases keep_wf hw c with ⟨h1, h2⟩ | ⟨o, e', h1, h2, h3, h4⟩
      · rw [h1, h2]
        rfl
      · rw [h1, h2, cut_other h3, ih e' h4]
  exact this cs _ rep_default.wf

/-- C109. So after any history with a reset at its end, what is seen up to the next panic are digests of what was pushed since. -/
theorem reset_then_right (before after : List Call) :
    ∃ l, traceU Engine.default (before ++ [.reset] ++ after) = traceU Engine.default (before ++ [.reset]) ++ l ∧ cut l = refTrace [] after :=
  ⟨_, reset_after_panics_partial before after, first_panic after⟩

/-! ## Without a reset -/

/-- What a panic of `finalize` leaves: the marker is in the buffer, which is full. -/
theorem left_behind {e : Engine} {m : List Byte} (h : Absorbed e m) (h63 : m.length % 64 = 63) (hl : m.length < 2 ^ 61) :
    e.finalizeU = (none, ⟨e.hash, e.chunk.set 63 0x80, 0, e.total⟩) := by
  obtain ⟨hr, ht, -⟩ := h
  have h1 := hr.rem
  have hc := hr.chunk_len
  unfold Engine.finalizeU
  rw [if_neg (by omega), if_neg (by omega), if_neg (by omega)]
  simp only [hc]
  have e1 : e.remaining - 1 = 0 := by omega
  have e2 : 64 - e.remaining = 63 := by omega
  rw [e1, e2, if_pos (by omega), Engine.push_zeroU, dif_pos rfl]
  simp only [andThen]
  rw [if_pos (by omega)]

/-- The next push first processes the buffer with the marker, and then goes on as if nothing had happened. -/
theorem goes_on {e : Engine} {m : List Byte} (h : Absorbed e m) (h63 : m.length % 64 = 63) (hl : m.length < 2 ^ 61) (d : List Byte) (hd : d ≠ [])
    (hb : m.length + d.length < 2 ^ 64) :
    ∃ e', e.finalizeU.2.pushU d = (some (), e') ∧ Rep e' (m ++ [0x80] ++ d) ∧ e'.total = m.length + d.length := by
  rw [left_behind h h63 hl]
  obtain ⟨hr, ht, hlt⟩ := h
  have h1 := hr.rem
  have hc := hr.chunk_len
  obtain ⟨e2, p1, p2, p3⟩ := rep_pushByte e m 0x80 hr (by omega)
  have hset : e.chunk.set 63 (0x80 : Byte) = splice e.chunk 63 [0x80] := by
    rw [splice, List.set_eq_take_append_cons_drop, if_pos (by omega)]
    simp
  have hlen : (e.chunk.set 63 (0x80 : Byte)).length = 64 := by simpa using hc
  have hstore : (⟨e.hash, e.chunk.set 63 0x80, 0, e.total⟩ : Engine).storeU [] = (some (), ⟨e2.hash, e2.chunk, e2.remaining, e.total⟩) := by
    rw [Engine.pushByte, store_eq e hr.wf [0x80] (by simp; omega)] at p1
    have e3 : 64 - e.remaining = 63 := by omega
    rw [if_pos (by simp; omega), if_pos (by simp; omega), e3, ← hset] at p1
    cases p1
    unfold Engine.storeU
    simp only [hlen, copy_at, List.length_nil, Nat.sub_zero, Nat.add_zero, Nat.le_refl, Nat.zero_le, if_true, List.append_nil]
    have e4 : List.take 64 (e.chunk.set 63 0x80) ++ List.drop 64 (e.chunk.set 63 0x80) = e.chunk.set 63 0x80 := List.take_append_drop _ _
    simp only [e4, hlen, dite_true]
    rw [if_pos (by omega)]
    simp only [roundL, hlen, dite_true]
  have hrep : Rep ⟨e2.hash, e2.chunk, e2.remaining, e.total⟩ (m ++ [0x80]) := ⟨p2.chunk_len, p2.rem, p2.hash, p2.tail⟩
  have hpush : (⟨e.hash, e.chunk.set 63 0x80, 0, e.total⟩ : Engine).pushU d = (⟨e2.hash, e2.chunk, e2.remaining, e.total⟩ : Engine).pushU d := by
    rw [Engine.pushU, dif_neg hd]
    simp only [Nat.zero_min, List.drop_zero]
    have ht0 : List.take (min 0 d.length) d = [] := by rw [Nat.zero_min]; rfl
    rw [← ht0] at hstore
    split
    · rename_i h; rw [hstore] at h; cases h
    · rename_i h; rw [hstore] at h; cases h; rfl
  obtain ⟨e3, q1, q2, q3⟩ := rep_foldlM _ _ d hrep (by show e.total + _ < _; omega)
  rw [← push_foldlM _ hrep.wf, ← pushU_keep _ hrep.wf] at q1
  refine ⟨e3, ?_, q2, by rw [q3]; show e.total + _ = _; omega⟩
  rw [hpush]
  exact keep_unit q1

/-- The bytes are not those of any padded message: the marker is followed by another one. -/
theorem not_padded (m d x : List Byte) (hd : d ≠ []) (hl : m.length + d.length < 2 ^ 60) (hx : x.length < 2 ^ 61) :
    padded (m ++ [0x80] ++ d) (m.length + d.length) ≠ Spec.pad x := by
  intro h
  have hle := congrArg List.length h
  have hd' : 0 < d.length := List.length_pos_iff.mpr hd
  rw [← padded_eq] at h
  unfold padded at h hle
  have hb : Spec.be64 (8 * (m.length + d.length)) = Spec.be64 (8 * x.length) := by
    refine (List.append_inj' h ?_).2
    rw [be64_length, be64_length]
  have hn : m.length + d.length = x.length := by
    have i0 : ∀ i < 8, BitVec.ofNat 8 (8 * (m.length + d.length) / 256 ^ (7 - i)) = BitVec.ofNat 8 (8 * x.length / 256 ^ (7 - i)) := by
      intro i hi
      have := congrArg (fun l : List Byte => l[i]?) hb
      simp only [Spec.be64, List.getElem?_map, List.getElem?_range hi, Option.map_some, Option.some.injEq] at this
      exact this
    have j : ∀ i < 8, 8 * (m.length + d.length) / 256 ^ (7 - i) % 256 = 8 * x.length / 256 ^ (7 - i) % 256 := by
      intro i hi
      have := congrArg BitVec.toNat (i0 i hi)
      simpa using this
    have j0 := j 0 (by omega)
    have j1 := j 1 (by omega)
    have j2 := j 2 (by omega)
    have j3 := j 3 (by omega)
    have j4 := j 4 (by omega)
    have j5 := j 5 (by omega)
    have j6 := j 6 (by omega)
    have j7 := j 7 (by omega)
    simp only [Nat.sub_zero, Nat.reduceSub, Nat.reducePow, Nat.div_one, Nat.pow_zero, Nat.pow_one] at j0 j1 j2 j3 j4 j5 j6 j7
    omega
  have hg := congrArg (fun l : List Byte => l[x.length + 1]?) h
  simp only [List.append_assoc] at hg
  have g1 : (m ++ ([(0x80 : Byte)] ++ (d ++ ([0x80] ++ (List.replicate (Spec.padZeros (m ++ ([0x80] ++ d)).length) 0 ++ Spec.be64 (8 * (m.length + d.length)))))))[x.length + 1]?
      = some 0x80 := by
    rw [List.getElem?_append_right (by omega), List.getElem?_append_right (by simp; omega), List.getElem?_append_right (by simp; omega)]
    have : x.length + 1 - m.length - [(0x80 : Byte)].length - d.length = 0 := by simp; omega
    rw [this]
    rfl
  rw [g1, List.getElem?_append_right (by omega), List.getElem?_append_right (by simp)] at hg
  have z : x.length + 1 - x.length - [(0x80 : Byte)].length = 0 := by simp
  rw [z] at hg
  by_cases hz : Spec.padZeros x.length = 0
  · rw [hz] at hg
    simp only [List.replicate_zero, List.nil_append, Spec.be64, List.getElem?_map, List.getElem?_range (show 0 < 8 by omega), Option.map_some,
      Option.some.injEq, Nat.sub_zero] at hg
    have h0 := congrArg BitVec.toNat hg
    have h1 : (0x80 : Byte).toNat = 128 := rfl
    rw [h1] at h0
    simp only [BitVec.toNat_ofNat, Nat.reducePow] at h0
    omega
  · rw [List.getElem?_append_left (by simp; omega), List.getElem?_replicate, if_pos (by omega)] at hg
    exact absurd hg (by decide)

/-- C109, disagreement. If the panic of `finalize` is caught (63 bytes modulo 64) and the engine is used without a reset, it does not panic again, but
returns what is no digest: for every message and everything that is pushed later, that of bytes which are no message with its padding. -/
theorem wrong_digest (m d : List Byte) (h63 : m.length % 64 = 63) (hd : d ≠ []) (hl : m.length + d.length < 2 ^ 60) (hd63 : d.length % 64 ≠ 63) :
    traceU Engine.default [.push m, .finalize, .push d, .finalize]
      = [.none, .panic, .none, .digest (Spec.digestBlocks Spec.H0 (padded (m ++ [0x80] ++ d) (m.length + d.length))).bytes]
    ∧ ∀ x : List Byte, x.length < 2 ^ 61 → padded (m ++ [0x80] ++ d) (m.length + d.length) ≠ Spec.pad x := by
  refine ⟨?_, fun x hx => not_padded m d x hd hl hx⟩
  obtain ⟨e, p1, p2⟩ := push_absorbed _ [] m absorbed_default (by simp; omega)
  rw [List.nil_append] at p2
  rw [← pushU_keep _ rep_default.wf] at p1
  have q1 := keep_unit p1
  have q2 := left_behind p2 h63 (by omega)
  obtain ⟨e3, q3, q4, q5⟩ := goes_on p2 h63 (by omega) d hd (by omega)
  obtain ⟨e4, q6, -⟩ := finalize_total e3 _ q4 (by omega) (by simp; omega)
  rw [q5] at q6
  rw [← finalizeU_keep _ q4.wf] at q6
  have q7 := keep_value q6
  have s1 : callU Engine.default (.push m) = (.none, e) := by rw [callU, q1]; rfl
  have s2 : callU e .finalize = (.panic, e.finalizeU.2) := by rw [callU, q2]; rfl
  have s3 : callU e.finalizeU.2 (.push d) = (.none, e3) := by rw [callU, q3]; rfl
  have s4 : (callU e3 .finalize).1 = .digest (Spec.digestBlocks Spec.H0 (padded (m ++ [0x80] ++ d) (m.length + d.length))).bytes := by rw [callU, q7]; rfl
  simp only [traceU, s1, s2, s3, s4]

/-- C109. The other panics are harmless: `finalize` of too much data, and again after a panic, change nothing. -/
theorem other_panics {e : Engine} (h : 2 ^ 61 ≤ e.total ∨ e.remaining = 0) : e.finalizeU = (none, e) := by
  unfold Engine.finalizeU
  by_cases h1 : e.total * 8 < 2 ^ 64
  · rw [if_neg (not_not_intro h1), if_pos (by omega)]
  · rw [if_pos h1]

theorem storeU_total (e : Engine) (src : List Byte) : e.total ≤ (e.storeU src).2.total := by
  unfold Engine.storeU
  repeat' split
  all_goals first | exact Nat.le_refl _ | exact Nat.le_add_right _ _

theorem pushU_total (e : Engine) (d : List Byte) : e.total ≤ (e.pushU d).2.total := by
  fun_induction Engine.pushU e d with
  | case1 => exact Nat.le_refl _
  | case2 e d _ e' h => have := storeU_total e (d.take (min e.remaining d.length)); rw [h] at this; exact this
  | case3 e d _ e' h ih => have := storeU_total e (d.take (min e.remaining d.length)); rw [h] at this; exact Nat.le_trans this ih

theorem push_zeroU_total (e : Engine) (n : Nat) : e.total ≤ (e.push_zeroU n).2.total := by
  fun_induction Engine.push_zeroU e n with
  | case1 => exact Nat.le_refl _
  | case2 e n _ e' h => have := storeU_total e (List.replicate (min e.remaining n) 0); rw [h] at this; exact this
  | case3 e n _ e' h ih => have := storeU_total e (List.replicate (min e.remaining n) 0); rw [h] at this; exact Nat.le_trans this ih

theorem seen_state {α E : Type} (f : α → Out) (r : Option α × E) : (seen f r).2 = r.2 := by
  obtain ⟨r1, r2⟩ := r
  cases r1 <;> rfl

theorem seen_plain {α E : Type} (r : Option α × E) (v : List Byte) : (seen (fun _ => Out.none) r).1 ≠ .digest v := by
  obtain ⟨r1, r2⟩ := r
  cases r1 <;> exact fun h => by cases h

/-- C109. After too much data there are no digests any more, right or wrong, until there is a reset, whatever panics. -/
theorem too_much {e : Engine} (h : 2 ^ 61 ≤ e.total) (cs : List Call) (hc : .reset ∉ cs) (v : List Byte) : .digest v ∉ traceU e cs := by
  induction cs generalizing e with
  | nil => exact List.not_mem_nil
  | cons c cs ih =>
    have hn : c ≠ .reset ∧ .reset ∉ cs := ⟨fun hh => hc (hh ▸ List.mem_cons_self), fun hh => hc (List.mem_cons_of_mem _ hh)⟩
    have key : (callU e c).1 ≠ .digest v ∧ 2 ^ 61 ≤ (callU e c).2.total := by
      cases c with
      | push d => exact ⟨seen_plain _ v, by rw [callU, seen_state]; exact Nat.le_trans h (pushU_total e d)⟩
      | pushZero n => exact ⟨seen_plain _ v, by rw [callU, seen_state]; exact Nat.le_trans h (push_zeroU_total e n)⟩
      | finalize => rw [callU, other_panics (.inl h)]; exact ⟨fun hh => (by cases hh), h⟩
      | reset => exact absurd rfl hn.1
      | isReset => exact ⟨fun hh => (by cases hh), h⟩
    rw [traceU, List.mem_cons, not_or]
    exact ⟨fun hh => key.1 hh.symm, ih key.2 hn.2⟩

example : 2 ^ 61 ≤ ({ Engine.default with total := 2 ^ 61 } : Engine).total ∧ Call.reset ∉ [Call.push [1], .finalize] := ⟨Nat.le_refl _, by simp⟩

example : (List.replicate 63 0 : List Byte).length % 64 = 63 ∧ ([0] : List Byte).length % 64 ≠ 63
    ∧ (List.replicate 63 0 : List Byte).length + ([0] : List Byte).length < 2 ^ 60 := by decide

#guard traceU Engine.default [.push (List.replicate 63 0), .finalize, .finalize, .reset, .finalize]
  = [.none, .panic, .panic, .none, .digest (Spec.sha256 [])]
#guard (traceU Engine.default [.push (List.replicate 63 0), .finalize, .push [0], .finalize])[3]? ≠ some (.digest (Spec.sha256 (List.replicate 64 0)))

/-! ## HMAC -/

def hcallU (h : Hmac Engine) : HCall → Out × Hmac Engine
  | .push d => seen (fun _ => .none) (h.pushU d)
  | .pushZero n => seen (fun _ => .none) (h.push_zeroU n)
  | .finalize => seen .digest h.finalizeU
  | .reset => (.none, h.reset sha256Ops)

def htraceU (h : Hmac Engine) : List HCall → List Out
  | [] => []
  | c :: cs => (hcallU h c).1 :: htraceU (hcallU h c).2 cs

def hstateU (h : Hmac Engine) (cs : List HCall) : Hmac Engine := cs.foldl (fun h c => (hcallU h c).2) h

theorem htraceU_append (h : Hmac Engine) (a b : List HCall) : htraceU h (a ++ b) = htraceU h a ++ htraceU (hstateU h a) b := by
  induction a generalizing h with
  | nil => rfl
  | cons c a ih => simp only [List.cons_append, htraceU, ih]; rfl

/-- The same key, and engines that are the same. -/
def SameH (a b : Hmac Engine) : Prop := Same a.engine b.engine ∧ a.ipad = b.ipad ∧ a.opad = b.opad

theorem openU_same {a b : Hmac Engine} (h : SameH a b) : SameR a.openU b.openU := by
  unfold Hmac.openU Engine.is_reset
  rw [h.1.total, h.2.1]
  split
  · exact pushU_same h.1 _
  · exact ⟨rfl, h.1⟩

theorem lift_same {α : Type} (f : α → Out) {a b : Hmac Engine} (h : SameH a b) {x y : Option α × Engine} (hx : SameR x y) :
    (seen f (a.lift x)).1 = (seen f (b.lift y)).1 ∧ SameH (seen f (a.lift x)).2 (seen f (b.lift y)).2 := by
  obtain ⟨x1, x2⟩ := x
  obtain ⟨y1, y2⟩ := y
  obtain ⟨h1, h2⟩ := hx
  simp only at h1 h2
  subst h1
  cases x1 <;> exact ⟨rfl, h2, h.2⟩

theorem hcallU_same {a b : Hmac Engine} (h : SameH a b) (c : HCall) : (hcallU a c).1 = (hcallU b c).1 ∧ SameH (hcallU a c).2 (hcallU b c).2 := by
  cases c with
  | push d =>
    simp only [hcallU, Hmac.pushU]
    split
    · exact ⟨rfl, h⟩
    · exact lift_same _ h (andThen_same (openU_same h) fun _ _ _ hs => pushU_same hs d)
  | pushZero n =>
    simp only [hcallU, Hmac.push_zeroU]
    split
    · exact lift_same _ h (andThen_same (openU_same h) fun _ _ _ hs => push_zeroU_same hs n)
    · exact ⟨rfl, h⟩
  | finalize =>
    simp only [hcallU, Hmac.finalizeU]
    refine lift_same _ h (andThen_same (openU_same h) fun _ _ _ hs => ?_)
    refine andThen_same (finalizeU_same hs) fun v _ _ hs => ?_
    rw [h.2.2]
    refine andThen_same (pushU_same hs _) fun _ _ _ hs => ?_
    exact andThen_same (pushU_same hs _) fun _ _ _ hs => finalizeU_same hs
  | reset =>
    refine ⟨rfl, ⟨rfl, rfl, rfl, h.1.la, h.1.lb, ?_⟩, h.2⟩
    show List.take (64 - 64) _ = List.take (64 - 64) _
    rfl

theorem htraceU_same {a b : Hmac Engine} (h : SameH a b) (cs : List HCall) : htraceU a cs = htraceU b cs := by
  induction cs generalizing a b with
  | nil => rfl
  | cons c cs ih =>
    obtain ⟨h1, h2⟩ := hcallU_same h c
    rw [htraceU, htraceU, h1, ih h2]

theorem andThen_some {α β E : Type} {r : Option α × E} {k : α → E → Option β × E} {v : β} {e : E} (h : andThen r k = (some v, e)) :
    ∃ a e', r = (some a, e') ∧ k a e' = (some v, e) := by
  obtain ⟨r1, r2⟩ := r
  cases r1 with
  | none => cases h
  | some a => exact ⟨a, r2, rfl, h⟩

theorem finalizeU_done {e e' : Engine} {v : List Byte} (h : e.finalizeU = (some v, e')) : e'.hash = SHA256_H ∧ e'.total = 0 ∧ e'.remaining = e'.chunk.length := by
  unfold Engine.finalizeU at h
  split at h
  · cases h
  · split at h
    · cases h
    · split at h
      · cases h
      · obtain ⟨_, e1, _, h⟩ := andThen_some h
        split at h
        · cases h
        · obtain ⟨_, e2, _, h⟩ := andThen_some h
          obtain ⟨_, e3, _, h⟩ := andThen_some h
          split at h
          · cases h
          · rename_i hr
            cases h
            exact ⟨rfl, rfl, Decidable.not_not.mp hr⟩

/-- A new `Hmac` has an engine that is as good as new. -/
theorem hmac_new_same {key : List Byte} {h : Hmac Engine} (hn : hmacSha256_new key = some h) : Same h.engine Engine.default := by
  unfold hmacSha256_new Hmac.with_engine at hn
  simp only [Option.bind_eq_bind, Option.bind_eq_some_iff] at hn
  obtain ⟨_, _, ⟨u, e⟩, hk, ⟨i, o⟩, _, hh⟩ := hn
  cases hh
  show Same e _
  split at hk
  · obtain ⟨e1, h1, h2⟩ := Option.bind_eq_some_iff.mp hk
    have w1 := push_wf rep_default.wf h1
    have h3 : e1.finalize = some (u, e) := h2
    rw [← finalizeU_keep _ w1] at h3
    have hr := keep_value h3
    obtain ⟨d1, d2, d3⟩ := finalizeU_done hr
    have hc := (finalizeU_same (Same.refl w1.chunk_len)).2.la
    rw [hr] at hc
    refine ⟨d1, by rw [d3]; exact hc, d2, hc, rfl, ?_⟩
    rw [d3, hc]
    rfl
  · cases hk
    exact Same.refl rfl

/-- C109. The same for authentication codes: after a reset an `Hmac` is as it was when it was made, with its key, whatever calls came before and whichever
of them panicked. -/
theorem hmac_reset_after_panics (key : List Byte) (h : Hmac Engine) (hn : hmacSha256_new key = some h) (before after : List HCall) :
    htraceU h (before ++ [.reset] ++ after) = htraceU h (before ++ [.reset]) ++ htraceU h after := by
  rw [htraceU_append]
  congr 1
  have hs := hmac_new_same hn
  have inv : ∀ (cs : List HCall) (a : Hmac Engine), a.engine.chunk.length = 64 → (hstateU a cs).engine.chunk.length = 64
      ∧ (hstateU a cs).ipad = a.ipad ∧ (hstateU a cs).opad = a.opad := by
    intro cs
    induction cs with
    | nil => intro a h; exact ⟨h, rfl, rfl⟩
    | cons c cs ih =>
      intro a ha
      have hc := (hcallU_same (a := a) (b := a) ⟨Same.refl ha, rfl, rfl⟩ c).2.1.la
      obtain ⟨i1, i2, i3⟩ := ih _ hc
      have hk : (hcallU a c).2.ipad = a.ipad ∧ (hcallU a c).2.opad = a.opad := by
        have hl : ∀ {α : Type} (f : α → Out) (x : Option α × Engine), (seen f (a.lift x)).2.ipad = a.ipad ∧ (seen f (a.lift x)).2.opad = a.opad := by
          intro α f x
          obtain ⟨x1, x2⟩ := x
          cases x1 <;> exact ⟨rfl, rfl⟩
        cases c with
        | push d =>
          simp only [hcallU, Hmac.pushU]
          split
          · exact ⟨rfl, rfl⟩
          · exact hl _ _
        | pushZero n =>
          simp only [hcallU, Hmac.push_zeroU]
          split
          · exact hl _ _
          · exact ⟨rfl, rfl⟩
        | finalize => exact hl _ _
        | reset => exact ⟨rfl, rfl⟩
      exact ⟨i1, i2.trans hk.1, i3.trans hk.2⟩
  refine htraceU_same ?_ after
  obtain ⟨i1, i2, i3⟩ := inv before h hs.la
  have : hstateU h (before ++ [.reset]) = (hstateU h before).reset sha256Ops := by simp [hstateU, hcallU]
  rw [this]
  refine ⟨?_, i2, i3⟩
  have r := resetU_same i1
  exact ⟨r.hash.trans hs.hash.symm, r.rem.trans hs.rem.symm, r.total.trans hs.total.symm, r.la, hs.la, by
    show List.take (64 - 64) _ = List.take (64 - 64) _
    rfl⟩

/-- The two models of a call agree, and the engine that is left if it succeeds is one without panics behind it. -/
def Agree {α : Type} (x : Option α × Engine) (s : Option (α × Engine)) : Prop := keep x = s ∧ ∀ v e, s = some (v, e) → e.WF

theorem agree_andThen {α β : Type} {x : Option α × Engine} {s : Option (α × Engine)} (h : Agree x s) {k : α → Engine → Option β × Engine}
    {l : α → Engine → Option (β × Engine)} (hk : ∀ v e, e.WF → Agree (k v e) (l v e)) : Agree (andThen x k) (s.bind fun p => l p.1 p.2) := by
  obtain ⟨x1, x2⟩ := x
  obtain ⟨h1, h2⟩ := h
  cases x1 with
  | none => subst h1; exact ⟨rfl, fun _ _ h => nomatch h⟩
  | some v => subst h1; exact hk v x2 (h2 v x2 rfl)

/-- A call without result. -/
def plain (s : Option Engine) : Option (Unit × Engine) := s.map fun e => ((), e)

theorem agree_plain {x : Option Unit × Engine} {s : Option Engine} (h : (keep x).map (·.2) = s) (hw : ∀ e, s = some e → e.WF) : Agree x (plain s) := by
  obtain ⟨x1, x2⟩ := x
  cases x1 with
  | none => subst h; exact ⟨rfl, fun _ _ h => nomatch h⟩
  | some v =>
    subst h
    refine ⟨rfl, fun v e h => ?_⟩
    cases h
    exact hw _ rfl

theorem agree_push {e : Engine} (hw : e.WF) (d : List Byte) : Agree (e.pushU d) (plain (e.push d)) := agree_plain (pushU_keep e hw d) fun _ h => push_wf hw h

theorem agree_zero {e : Engine} (hw : e.WF) (n : Nat) : Agree (e.push_zeroU n) (plain (e.push_zero n)) :=
  agree_plain (push_zeroU_keep e hw n) fun _ h => push_zero_wf hw h

theorem agree_finalize {e : Engine} (hw : e.WF) : Agree e.finalizeU e.finalize := by
  refine ⟨finalizeU_keep e hw, fun v e' hf => ?_⟩
  rcases keep_wf hw .finalize with ⟨h1, -⟩ | ⟨o, e1, h1, -, -, h4⟩
  · simp [engineStep, hf] at h1
  · simp [engineStep, hf] at h1
    rw [h1.2]
    exact h4

/-- hmac.rs 80-82 in the model without panics. -/
def opened (h : Hmac Engine) : Option Engine := if sha256Ops.is_reset h.engine then sha256Ops.push h.engine h.ipad else some h.engine

theorem agree_open {h : Hmac Engine} (hw : h.engine.WF) : Agree h.openU (plain (opened h)) := by
  unfold Hmac.openU opened
  show Agree _ (plain (if h.engine.is_reset = true then h.engine.push h.ipad else some h.engine))
  split
  · exact agree_push hw _
  · refine ⟨rfl, fun v e h => ?_⟩
    cases h
    exact hw

theorem agree_seen {α : Type} (f : α → Out) (hf : ∀ v, f v ≠ .panic) (h : Hmac Engine) {x : Option α × Engine} {s : Option (α × Engine)} (ha : Agree x s) :
    (s.map (fun p => (f p.1, (⟨p.2, h.ipad, h.opad⟩ : Hmac Engine))) = none ∧ (seen f (h.lift x)).1 = .panic)
    ∨ (∃ o h', s.map (fun p => (f p.1, (⟨p.2, h.ipad, h.opad⟩ : Hmac Engine))) = some (o, h') ∧ seen f (h.lift x) = (o, h') ∧ o ≠ .panic ∧ h'.engine.WF) := by
  obtain ⟨x1, x2⟩ := x
  obtain ⟨h1, h2⟩ := ha
  cases x1 with
  | none => subst h1; exact .inl ⟨rfl, rfl⟩
  | some v => subst h1; exact .inr ⟨_, _, rfl, rfl, hf v, h2 v x2 rfl⟩

theorem hmac_keep_wf {h : Hmac Engine} (hw : h.engine.WF) (c : HCall) :
    (hmacStep sha256Ops h c = none ∧ (hcallU h c).1 = .panic)
    ∨ (∃ o h', hmacStep sha256Ops h c = some (o, h') ∧ hcallU h c = (o, h') ∧ o ≠ .panic ∧ h'.engine.WF) := by
  cases c with
  | push d =>
    simp only [hmacStep, hcallU, Hmac.push, Hmac.pushU]
    split
    · exact .inr ⟨_, _, rfl, rfl, (by intro h; cases h), hw⟩
    · have t := agree_seen (fun _ => Out.none) (by intro _ h; cases h) h (agree_andThen (agree_open hw) fun _ e he => agree_push he d)
      have q : Option.map (fun h => (Out.none, h)) (do
            let e ← opened h
            let e ← sha256Ops.push e d
            some (⟨e, h.ipad, h.opad⟩ : Hmac Engine))
          = Option.map (fun p => (Out.none, (⟨p.2, h.ipad, h.opad⟩ : Hmac Engine))) ((plain (opened h)).bind fun p => plain (p.2.push d)) := by
        cases opened h with
        | none => rfl
        | some e => show Option.map _ ((e.push d).bind _) = Option.map _ (plain (e.push d)); cases e.push d <;> rfl
      rw [← q] at t
      exact t
  | pushZero n =>
    simp only [hmacStep, hcallU, Hmac.push_zero, Hmac.push_zeroU]
    split
    · have t := agree_seen (fun _ => Out.none) (by intro _ h; cases h) h (agree_andThen (agree_open hw) fun _ e he => agree_zero he n)
      have q : Option.map (fun h => (Out.none, h)) (do
            let e ← opened h
            let e ← sha256Ops.push_zero e n
            some (⟨e, h.ipad, h.opad⟩ : Hmac Engine))
          = Option.map (fun p => (Out.none, (⟨p.2, h.ipad, h.opad⟩ : Hmac Engine))) ((plain (opened h)).bind fun p => plain (p.2.push_zero n)) := by
        cases opened h with
        | none => rfl
        | some e => show Option.map _ ((e.push_zero n).bind _) = Option.map _ (plain (e.push_zero n)); cases e.push_zero n <;> rfl
      rw [← q] at t
      exact t
    · exact .inr ⟨_, _, rfl, rfl, (by intro h; cases h), hw⟩
  | finalize =>
    have t := agree_seen Out.digest (by intro _ h; cases h) h (agree_andThen (agree_open hw) fun _ e he =>
      agree_andThen (agree_finalize he) fun v e he =>
      agree_andThen (agree_push he h.opad) fun _ e he =>
      agree_andThen (agree_push he v) fun _ e he => agree_finalize he)
    have q : hmacStep sha256Ops h .finalize = Option.map (fun p => (Out.digest p.1, (⟨p.2, h.ipad, h.opad⟩ : Hmac Engine)))
        ((plain (opened h)).bind fun p => p.2.finalize.bind fun r => (plain (r.2.push h.opad)).bind fun p => (plain (p.2.push r.1)).bind fun p => p.2.finalize) := by
      show Option.map _ (do
        let e ← opened h
        let (v, e) ← e.finalize
        let e ← e.push h.opad
        let e ← e.push v
        let (r, e) ← e.finalize
        some (r, (⟨e, h.ipad, h.opad⟩ : Hmac Engine))) = _
      cases opened h with
      | none => rfl
      | some e =>
        simp only [plain, Option.bind_eq_bind, Option.bind_some, Option.map_some]
        cases e.finalize with
        | none => rfl
        | some p =>
          simp only [Option.bind_some]
          cases p.2.push h.opad with
          | none => rfl
          | some e =>
            simp only [Option.bind_some, Option.map_some]
            cases e.push p.1 with
            | none => rfl
            | some e =>
              simp only [Option.bind_some, Option.map_some]
              cases e.finalize <;> rfl
    rw [← q] at t
    exact t
  | reset => exact .inr ⟨_, _, rfl, rfl, (by intro h; cases h), hw.chunk_len, (by decide : 0 < CHUNK), (by decide : CHUNK ≤ 64)⟩

/-- C109. Up to the first panic this is what is seen without catching panics, about which C04, C05 and C73 are. -/
theorem hmac_first_panic (key : List Byte) (h : Hmac Engine) (hn : hmacSha256_new key = some h) (cs : List HCall) :
    cut (htraceU h cs) = hmacTrace sha256Ops h cs := by
  have hw0 : h.engine.WF := by
    have s := hmac_new_same hn
    exact ⟨s.la, by rw [s.rem]; decide, by rw [s.rem]; decide⟩
  clear hn key
  induction cs generalizing h with
  | nil => rfl
  | cons c cs ih =>
    rw [htraceU, hmacTrace]
    rcases hmac_keep_wf hw0 c with ⟨h1, h2⟩ | ⟨o, h', h1, h2, h3, h4⟩
    · rw [h1, h2]
      rfl
    · rw [h1, h2, cut_other h3, ih h' h4]

#guard ((hmacSha256_new (List.replicate 8 0x0b)).map fun h => htraceU h [.push (List.replicate 63 0), .finalize, .reset, .finalize])
  = ((hmacSha256_new (List.replicate 8 0x0b)).map fun h => [.none, .panic, .none] ++ htraceU h [.finalize])

end Verif.Hash
