import Verif.Hash.LemmasEngine
/-! # Property theorems: SHA-256 (C01, C02, C03) and hex rendering (C06) -/
namespace Verif.Hash

/-! ## A client of the engine: any sequence of trait calls -/

/-- A call of the engine API. -/
inductive Call where
  | push (data : List Byte)
  | pushZero (n : Nat)
  | finalize
  | reset
  | isReset

/-- What the client sees from a call. -/
inductive Out where
  | none
  | digest (h : List Byte)
  | flag (b : Bool)
  | panic
deriving DecidableEq, Repr

/-- The engine model driven by one call; `none` is a panic. -/
def engineStep (e : Engine) : Call → Option (Out × Engine)
  | .push d => (e.push d).map fun e' => (.none, e')
  | .pushZero n => (e.push_zero n).map fun e' => (.none, e')
  | .finalize => e.finalize.map fun r => (.digest r.1, r.2)
  | .reset => some (.none, e.reset)
  | .isReset => some (.flag e.is_reset, e)

/-- Everything observed over a history of calls (a panic ends it). -/
def engineTrace (e : Engine) : List Call → List Out
  | [] => []
  | c :: cs =>
    match engineStep e c with
    | none => [.panic]
    | some (o, e') => o :: engineTrace e' cs

/-- The reference object: it only remembers the message since creation or the last
finalize/reset, and digests it with FIPS 180-4 SHA-256. A message is limited to what the `u64`
length counter can hold. `finalize` fails on messages of 2^61 bytes or more (bit length does not fit)
and, contrary to the standard, on messages whose length is 63 modulo 64. -/
def refStep (m : List Byte) : Call → Option (Out × List Byte)
  | .push d => if m.length + d.length < 2 ^ 64 then some (.none, m ++ d) else none
  | .pushZero n => if m.length + n < 2 ^ 64 then some (.none, m ++ List.replicate n 0) else none
  | .finalize =>
    if m.length < 2 ^ 61 ∧ m.length % 64 ≠ 63 then some (.digest (Spec.sha256 m), []) else none
  | .reset => some (.none, [])
  | .isReset => some (.flag m.isEmpty, m)

def refTrace (m : List Byte) : List Call → List Out
  | [] => []
  | c :: cs =>
    match refStep m c with
    | none => [.panic]
    | some (o, m') => o :: refTrace m' cs

/-- `e` is an engine that has absorbed `m`. -/
def Absorbed (e : Engine) (m : List Byte) : Prop :=
  Rep e m ∧ e.total = m.length ∧ m.length < 2 ^ 64

theorem absorbed_default : Absorbed Engine.default [] := ⟨rep_default, rfl, by simp⟩

theorem push_absorbed (e : Engine) (m d : List Byte) (h : Absorbed e m)
    (hl : m.length + d.length < 2 ^ 64) : ∃ e', e.push d = some e' ∧ Absorbed e' (m ++ d) := by
  obtain ⟨h1, h2, h3⟩ := h
  rw [push_foldlM e h1.wf]
  obtain ⟨e', a, b, c⟩ := rep_foldlM e m d h1 (by omega)
  exact ⟨e', a, b, by simp; omega, by simp; omega⟩

theorem push_zero_absorbed (e : Engine) (m : List Byte) (n : Nat) (h : Absorbed e m)
    (hl : m.length + n < 2 ^ 64) :
    ∃ e', e.push_zero n = some e' ∧ Absorbed e' (m ++ List.replicate n 0) := by
  obtain ⟨h1, h2, h3⟩ := h
  rw [push_zero_foldlM e h1.wf]
  obtain ⟨e', a, b, c⟩ := rep_foldlM e m (List.replicate n 0) h1 (by simp; omega)
  exact ⟨e', a, b, by simp at c ⊢; omega, by simp; omega⟩

theorem trace_refines_aux (e : Engine) (m : List Byte) (h : Absorbed e m) (cs : List Call) :
    engineTrace e cs = refTrace m cs := by
  induction cs generalizing e m with
  | nil => rfl
  | cons c cs ih =>
    have hstep : (engineStep e c = none ∧ refStep m c = none) ∨
        ∃ o e' m', engineStep e c = some (o, e') ∧ refStep m c = some (o, m') ∧ Absorbed e' m' := by
      cases c with
      | push d =>
        by_cases hl : m.length + d.length < 2 ^ 64
        · obtain ⟨e', a, b⟩ := push_absorbed e m d h hl
          exact Or.inr ⟨.none, e', m ++ d, by simp [engineStep, a], by simp only [refStep, if_pos hl], b⟩
        · refine Or.inl ⟨?_, by simp only [refStep, if_neg hl]⟩
          rw [engineStep, push_foldlM e h.1.wf,
            rep_foldlM_overflow e m d h.1 (by rw [h.2.1]; exact h.2.2) (by rw [h.2.1]; omega)]
          rfl
      | pushZero n =>
        by_cases hl : m.length + n < 2 ^ 64
        · obtain ⟨e', a, b⟩ := push_zero_absorbed e m n h hl
          exact Or.inr ⟨.none, e', _, by simp [engineStep, a], by simp only [refStep, if_pos hl], b⟩
        · refine Or.inl ⟨?_, by simp only [refStep, if_neg hl]⟩
          rw [engineStep, push_zero_foldlM e h.1.wf,
            rep_foldlM_overflow e m _ h.1 (by rw [h.2.1]; exact h.2.2) (by rw [h.2.1]; simp; omega)]
          rfl
      | finalize =>
        by_cases hl : m.length < 2 ^ 61 ∧ m.length % 64 ≠ 63
        · obtain ⟨e', a, b, c⟩ := finalize_ok e m h.1 h.2.1 hl.1 hl.2
          exact Or.inr ⟨.digest (Spec.sha256 m), e', [], by simp [engineStep, a],
            by simp only [refStep, if_pos hl], b, c, by simp⟩
        · refine Or.inl ⟨?_, by simp only [refStep, if_neg hl]⟩
          rw [engineStep, finalize_panic e m h.1 h.2.1 (by omega)]
          rfl
      | reset =>
        refine Or.inr ⟨.none, e.reset, [], rfl, rfl, ⟨h.1.chunk_len, rfl, ?_, rfl⟩, rfl, by simp⟩
        rw [digestBlocks_lt _ _ (by simp)]; exact H_eq
      | isReset =>
        refine Or.inr ⟨.flag e.is_reset, e, m, rfl, ?_, h⟩
        have : e.is_reset = m.isEmpty := by
          rw [Engine.is_reset, h.2.1]; cases m <;> simp
        simp only [refStep, this]
    rcases hstep with ⟨h1, h2⟩ | ⟨o, e', m', h1, h2, h3⟩
    · simp only [engineTrace, refTrace, h1, h2]
    · simp only [engineTrace, refTrace, h1, h2, ih e' m' h3]

/-- **C01/C02/C03.** Over every history of calls, a new engine is indistinguishable from the reference
object that concatenates the pushed bytes and digests them according to FIPS 180-4. In particular
chunking is irrelevant, `push_zero(n)` is a push of `n` zero bytes, and `finalize`/`reset` start
over. The only deviations from the standard are those written in `refStep`. -/
theorem sha256_trace_refines (cs : List Call) :
    engineTrace Engine.default cs = refTrace [] cs :=
  trace_refines_aux _ _ absorbed_default cs

-- A history with several chunks, a digest, a reset and a second digest (and no panic).
example : refTrace [] [.push [1, 2], .pushZero 3, .isReset, .finalize, .isReset, .push [5], .reset, .finalize]
    = [.none, .none, .flag false, .digest (Spec.sha256 [1, 2, 0, 0, 0]), .flag true, .none, .none,
       .digest (Spec.sha256 [])] := rfl

/-- **C01 (partial).** For every message shorter than 2^61 bytes whose length is not 63 modulo 64, the
hash function returns the FIPS 180-4 digest. Missing: lengths 63 modulo 64, where the claim is
false (`sha256_not_standard`). -/
theorem sha256_standard_partial (m : List Byte) (h : m.length < 2 ^ 61) (h63 : m.length % 64 ≠ 63) :
    hash m = some (Spec.sha256 m) := by
  obtain ⟨e, a, b, c, _⟩ := push_absorbed _ _ m absorbed_default (by simp; omega)
  obtain ⟨e', a', _⟩ := finalize_ok e m b c h h63
  simp [hash, a, a']

example : ([0x61, 0x62, 0x63] : List Byte).length < 2 ^ 61 ∧
    ([0x61, 0x62, 0x63] : List Byte).length % 64 ≠ 63 := by decide

/-- **C01 is false as stated**: hashing any message with a length of 63 modulo 64 panics. -/
theorem sha256_panics_63 (m : List Byte) (h : m.length < 2 ^ 64) (h63 : m.length % 64 = 63) :
    hash m = none := by
  obtain ⟨e, a, b, c, _⟩ := push_absorbed _ _ m absorbed_default (by simp; omega)
  have := finalize_panic e m b c (Or.inr h63)
  simp [hash, a, this]

/-- Negation of C01 with a concrete witness: 63 zero bytes. -/
theorem sha256_not_standard :
    ¬ ∀ m : List Byte, m.length < 2 ^ 61 → hash m = some (Spec.sha256 m) := by
  intro h
  have h1 := h (List.replicate 63 0) (by simp)
  have h2 := sha256_panics_63 (List.replicate 63 0) (by simp) (by simp)
  rw [h1] at h2
  exact absurd h2 (by simp)

/-- A push of either kind. -/
inductive Push where
  | data (d : List Byte)
  | zero (n : Nat)

def Push.bytes : Push → List Byte
  | .data d => d
  | .zero n => List.replicate n 0

def Push.run (e : Engine) : Push → Option Engine
  | .data d => e.push d
  | .zero n => e.push_zero n

/-- **C02.** From every engine state reachable by pushes, any sequence of pushes leaves the engine in
*exactly* the state (all fields, including buffered bytes) of a single push of the concatenation,
and panics exactly if that does. -/
theorem sha256_chunking (before after : List Push) (e : Engine)
    (hr : before.foldlM Push.run Engine.default = some e) :
    after.foldlM Push.run e = e.push (after.flatMap Push.bytes) := by
  have step : ∀ (e : Engine) (p : Push), e.WF → p.run e = p.bytes.foldlM Engine.pushByte e := by
    intro e p hw
    cases p with
    | data d => exact push_foldlM e hw d
    | zero n => exact push_zero_foldlM e hw n
  have wf : ∀ (ps : List Push) (e0 e1 : Engine), e0.WF → ps.foldlM Push.run e0 = some e1 → e1.WF := by
    intro ps
    induction ps with
    | nil => intro e0 e1 h0 h; simp at h; subst h; exact h0
    | cons p ps ih =>
      intro e0 e1 h0 h
      rw [List.foldlM_cons] at h
      cases hp : p.run e0 with
      | none => rw [hp] at h; simp at h
      | some e2 =>
        rw [hp] at h
        rw [step e0 p h0] at hp
        exact ih e2 e1 (foldlM_wf _ _ h0 _ hp) h
  have hw := wf before _ e rep_default.wf hr
  rw [push_foldlM e hw]
  clear hr
  induction after generalizing e with
  | nil => rfl
  | cons p ps ih =>
    rw [List.foldlM_cons, List.flatMap_cons, List.foldlM_append, step e p hw]
    cases hp : p.bytes.foldlM Engine.pushByte e with
    | none => rfl
    | some e2 => exact ih e2 (foldlM_wf _ _ hw _ hp)

example : [Push.data [1], .zero 2].foldlM Push.run Engine.default ≠ none := by decide +kernel

theorem refTrace_restart (before after : List Call) (c : Call) (hc : c = .finalize ∨ c = .reset)
    (m : List Byte) (hm : Out.panic ∉ refTrace m (before ++ [c])) :
    refTrace m (before ++ [c] ++ after) = refTrace m (before ++ [c]) ++ refTrace [] after := by
  induction before generalizing m with
  | nil =>
    rcases hc with rfl | rfl
    · simp only [List.nil_append, refTrace, List.cons_append, refStep] at hm ⊢
      by_cases hno : m.length < 2 ^ 61 ∧ m.length % 64 ≠ 63
      · rw [if_pos hno]; rfl
      · rw [if_neg hno] at hm; simp at hm
    · rfl
  | cons b bs ih =>
    simp only [List.cons_append, refTrace] at hm ⊢
    cases hs : refStep m b with
    | none => rw [hs] at hm; simp at hm
    | some r =>
      obtain ⟨o, m'⟩ := r
      rw [hs] at hm
      simp only [List.mem_cons, not_or] at hm
      simp only []
      rw [ih m' hm.2]
      rfl

/-- **C03.** After any history ending in `finalize` or `reset`, everything a client can observe later is
what it would observe from a new engine. -/
theorem sha256_reusable (before after : List Call) (c : Call) (hc : c = .finalize ∨ c = .reset)
    (hok : Out.panic ∉ engineTrace Engine.default (before ++ [c])) :
    engineTrace Engine.default (before ++ [c] ++ after)
      = engineTrace Engine.default (before ++ [c]) ++ engineTrace Engine.default after := by
  simp only [sha256_trace_refines] at hok ⊢
  exact refTrace_restart before after c hc [] hok

example : Out.panic ∉ refTrace [] ([.push [1]] ++ [.finalize]) := by
  simp [refTrace, refStep]

/-! ## C06: hexadecimal rendering -/

/-- Value of a lower-case hex digit. -/
def hexVal (c : Char) : Option Nat :=
  ("0123456789abcdef".toList).idxOf? c

/-- Independent decoder for pairs of lower-case hex digits, most significant first. -/
def fromHex : List Char → Option (List Byte)
  | [] => some []
  | [_] => none
  | hi :: lo :: rest => do
    let h ← hexVal hi
    let l ← hexVal lo
    let r ← fromHex rest
    some (BitVec.ofNat 8 (16 * h + l) :: r)

theorem hex_byte : ∀ b : Byte, ∃ hi lo, digit_to_char ((b >>> 4) &&& 0x0f) = some hi ∧
    digit_to_char ((b >>> 0) &&& 0x0f) = some lo ∧
    (do let h ← hexVal hi; let l ← hexVal lo; some (BitVec.ofNat 8 (16 * h + l))) = some b := by
  have key : ∀ n : Fin 256, ((digit_to_char (((BitVec.ofFin n : Byte) >>> 4) &&& 0x0f)).bind fun hi =>
      (digit_to_char (((BitVec.ofFin n : Byte) >>> 0) &&& 0x0f)).bind fun lo =>
        (do let h ← hexVal hi; let l ← hexVal lo; some (BitVec.ofNat 8 (16 * h + l))))
      = some (BitVec.ofFin n) := by decide +kernel
  intro b
  have := key b.toFin
  simp only [BitVec.ofFin_toFin] at this
  cases h1 : digit_to_char ((b >>> 4) &&& 0x0f) with
  | none => rw [h1] at this; simp at this
  | some hi =>
    cases h2 : digit_to_char ((b >>> 0) &&& 0x0f) with
    | none => rw [h1, h2] at this; simp at this
    | some lo => rw [h1, h2] at this; exact ⟨hi, lo, rfl, rfl, this⟩

/-- **C06.** `to_hex` never panics, yields two lower-case digits per byte, and decodes back. -/
theorem to_hex_faithful (h : List Byte) :
    ∃ s, to_hex h = some s ∧ s.length = 2 * h.length ∧ (∀ c ∈ s, hexVal c ≠ none) ∧
      fromHex s = some h := by
  induction h with
  | nil => exact ⟨[], rfl, rfl, by simp, rfl⟩
  | cons b bs ih =>
    obtain ⟨s, h1, h2, h3, h4⟩ := ih
    obtain ⟨hi, lo, a, b', c⟩ := hex_byte b
    refine ⟨hi :: lo :: s, by simp only [to_hex, a, b', h1]; rfl, by simp [h2]; omega, ?_, ?_⟩
    · cases x : hexVal hi with
      | none => rw [x] at c; simp at c
      | some v =>
        cases y : hexVal lo with
        | none => rw [x, y] at c; simp at c
        | some u =>
          intro ch hch
          simp only [List.mem_cons] at hch
          rcases hch with rfl | rfl | hch
          · simp [x]
          · simp [y]
          · exact h3 ch hch
    · simp only [fromHex, h4]
      cases x : hexVal hi with
      | none => rw [x] at c; simp at c
      | some v =>
        cases y : hexVal lo with
        | none => rw [x, y] at c; simp at c
        | some u => rw [x, y] at c; simp at c ⊢; exact c

/-- **C06.** Equal hex strings come from equal hashes. -/
theorem to_hex_injective (a b : List Byte) (h : to_hex a = to_hex b) : a = b := by
  obtain ⟨s, h1, _, _, h2⟩ := to_hex_faithful a
  obtain ⟨t, h3, _, _, h4⟩ := to_hex_faithful b
  rw [h1, h3] at h
  have := Option.some.inj h
  subst this
  rw [h2] at h4
  exact Option.some.inj h4

end Verif.Hash
