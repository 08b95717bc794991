import Verif.Hash.Props
import Verif.Hash.ModelHmac
/-! # Property theorems: HMAC (C04, C05) -/
namespace Verif.Hash

/-- What HMAC needs from a hash engine: `Abs e m` says that `e` absorbed `m`; `fits`/`fin` say for
which messages pushing/finalizing does not panic; `H` is the hash function computed. -/
structure EngineLaws {E : Type} (ops : EngineOps E) (H : List Byte → List Byte)
    (fits fin : List Byte → Prop) where
  Abs : E → List Byte → Prop
  is_reset : ∀ {e m}, Abs e m → ops.is_reset e = m.isEmpty
  reset : ∀ {e m}, Abs e m → Abs (ops.reset e) []
  push_ok : ∀ {e m} d, Abs e m → fits (m ++ d) → ∃ e', ops.push e d = some e' ∧ Abs e' (m ++ d)
  push_panic : ∀ {e m} d, Abs e m → ¬ fits (m ++ d) → ops.push e d = none
  zero_ok : ∀ {e m} n, Abs e m → fits (m ++ List.replicate n 0) →
    ∃ e', ops.push_zero e n = some e' ∧ Abs e' (m ++ List.replicate n 0)
  zero_panic : ∀ {e m} n, Abs e m → ¬ fits (m ++ List.replicate n 0) → ops.push_zero e n = none
  fin_ok : ∀ {e m}, Abs e m → fin m → ∃ e', ops.finalize e = some (H m, e') ∧ Abs e' []
  fin_panic : ∀ {e m}, Abs e m → ¬ fin m → ops.finalize e = none

/-- SHA-256 is such an engine. -/
def sha256Laws : EngineLaws sha256Ops Spec.sha256 (fun m => m.length < 2 ^ 64)
    (fun m => m.length < 2 ^ 61 ∧ m.length % 64 ≠ 63) where
  Abs := Absorbed
  is_reset := by
    intro e m h
    show e.is_reset = _
    rw [Engine.is_reset, h.2.1]; cases m <;> simp
  reset := by
    intro e m h
    refine ⟨⟨h.1.chunk_len, rfl, ?_, rfl⟩, rfl, by simp⟩
    rw [digestBlocks_lt _ _ (by simp)]; exact H_eq
  push_ok := fun d h hf => push_absorbed _ _ d h (by simpa using hf)
  push_panic := by
    intro e m d h hf
    show e.push d = none
    rw [push_foldlM e h.1.wf]
    exact rep_foldlM_overflow e m d h.1 (by rw [h.2.1]; exact h.2.2) (by rw [h.2.1]; simp at hf; omega)
  zero_ok := fun n h hf => push_zero_absorbed _ _ n h (by simpa using hf)
  zero_panic := by
    intro e m n h hf
    show e.push_zero n = none
    rw [push_zero_foldlM e h.1.wf]
    exact rep_foldlM_overflow e m _ h.1 (by rw [h.2.1]; exact h.2.2)
      (by rw [h.2.1]; simp at hf ⊢; omega)
  fin_ok := by
    intro e m h hf
    obtain ⟨e', a, b, c⟩ := finalize_ok e m h.1 h.2.1 hf.1 hf.2
    exact ⟨e', a, b, c, by simp⟩
  fin_panic := by
    intro e m h hf
    exact finalize_panic e m h.1 h.2.1 (by omega)

/-! ## The padded keys -/

theorem padLoop_eq (key : List Byte) (chunk i : Nat) (pre1 pre2 : List Byte)
    (h1 : pre1.length = i) (h2 : pre2.length = i) (hl : i + key.length ≤ chunk) :
    padLoop (pre1 ++ List.replicate (chunk - i) 0x36#8) (pre2 ++ List.replicate (chunk - i) 0x5c#8) i key
      = some (pre1 ++ key.map (· ^^^ 0x36) ++ List.replicate (chunk - i - key.length) 0x36#8,
              pre2 ++ key.map (· ^^^ 0x5c) ++ List.replicate (chunk - i - key.length) 0x5c#8) := by
  induction key generalizing i pre1 pre2 with
  | nil => simp [padLoop]
  | cons v vs ih =>
    simp only [List.length_cons] at hl
    rw [padLoop, if_pos (by simp [h1, h2]; omega)]
    have e : chunk - i = (chunk - (i + 1)) + 1 := by omega
    have s1 : (pre1 ++ List.replicate (chunk - i) 0x36#8).set i (v ^^^ 0x36)
        = (pre1 ++ [v ^^^ 0x36]) ++ List.replicate (chunk - (i + 1)) 0x36#8 := by
      rw [List.set_append_right _ _ (by omega), e, List.replicate_succ, h1, Nat.sub_self]
      simp
    have s2 : (pre2 ++ List.replicate (chunk - i) 0x5c#8).set i (v ^^^ 0x5c)
        = (pre2 ++ [v ^^^ 0x5c]) ++ List.replicate (chunk - (i + 1)) 0x5c#8 := by
      rw [List.set_append_right _ _ (by omega), e, List.replicate_succ, h2, Nat.sub_self]
      simp
    rw [s1, s2, ih (i + 1) _ _ (by simp [h1]) (by simp [h2]) (by omega)]
    have e2 : chunk - (i + 1) - vs.length = chunk - i - (vs.length + 1) := by omega
    simp [e2]

theorem padLoop_key (key : List Byte) (chunk : Nat) (hl : key.length ≤ chunk) :
    padLoop (List.replicate chunk 0x36#8) (List.replicate chunk 0x5c#8) 0 key
      = some ((key ++ List.replicate (chunk - key.length) 0).map (· ^^^ 0x36),
              (key ++ List.replicate (chunk - key.length) 0).map (· ^^^ 0x5c)) := by
  have := padLoop_eq key chunk 0 [] [] rfl rfl (by omega)
  simpa using this

/-! ## A client of the HMAC engine -/

inductive HCall where
  | push (data : List Byte)
  | pushZero (n : Nat)
  | finalize
  | reset

def hmacStep {E : Type} (ops : EngineOps E) (h : Hmac E) : HCall → Option (Out × Hmac E)
  | .push d => (h.push ops d).map fun h' => (.none, h')
  | .pushZero n => (h.push_zero ops n).map fun h' => (.none, h')
  | .finalize => (h.finalize ops).map fun r => (.digest r.1, r.2)
  | .reset => some (.none, h.reset ops)

def hmacTrace {E : Type} (ops : EngineOps E) (h : Hmac E) : List HCall → List Out
  | [] => []
  | c :: cs =>
    match hmacStep ops h c with
    | none => [.panic]
    | some (o, h') => o :: hmacTrace ops h' cs

/-- Reference object: remembers only the message since creation or the last finalize/reset; the
authentication code is `mac message`. `fits`/`fin` say which messages can be pushed/finalized. -/
def hmacRefStep (mac : List Byte → List Byte) (fits fin : List Byte → Prop)
    [DecidablePred fits] [DecidablePred fin] (m : List Byte) : HCall → Option (Out × List Byte)
  | .push d => if d = [] then some (.none, m) else if fits (m ++ d) then some (.none, m ++ d) else none
  | .pushZero n => if n = 0 then some (.none, m) else
      if fits (m ++ List.replicate n 0) then some (.none, m ++ List.replicate n 0) else none
  | .finalize => if fin m then some (.digest (mac m), []) else none
  | .reset => some (.none, [])

def hmacRefTrace (mac : List Byte → List Byte) (fits fin : List Byte → Prop)
    [DecidablePred fits] [DecidablePred fin] (m : List Byte) : List HCall → List Out
  | [] => []
  | c :: cs =>
    match hmacRefStep mac fits fin m c with
    | none => [.panic]
    | some (o, m') => o :: hmacRefTrace mac fits fin m' cs

section Generic
variable {E : Type} {ops : EngineOps E} {H : List Byte → List Byte} {fits fin : List Byte → Prop}

/-- The engine inside an HMAC with message `m`: untouched if no data was pushed yet. -/
def HAbs (L : EngineLaws ops H fits fin) (ipad opad : List Byte) (h : Hmac E) (m : List Byte) : Prop :=
  h.ipad = ipad ∧ h.opad = opad ∧ L.Abs h.engine (if m = [] then [] else ipad ++ m)

theorem hmac_prepare (L : EngineLaws ops H fits fin) {ipad opad : List Byte} {h : Hmac E}
    {m : List Byte} (ha : HAbs L ipad opad h m) (hp : ipad ≠ []) (hf : fits ipad) :
    ∃ e, (if ops.is_reset h.engine then ops.push h.engine h.ipad else some h.engine) = some e ∧
      L.Abs e (ipad ++ m) := by
  obtain ⟨h1, h2, h3⟩ := ha
  rw [L.is_reset h3]
  by_cases hm : m = []
  · subst hm
    simp only [if_true] at h3 ⊢
    rw [if_pos (by simp)]
    obtain ⟨e, a, b⟩ := L.push_ok h.ipad h3 (by rw [h1]; simpa using hf)
    exact ⟨e, a, by simpa [h1] using b⟩
  · rw [if_neg hm] at h3
    rw [if_neg hm, if_neg (by simp [hp])]
    exact ⟨h.engine, rfl, h3⟩

theorem hmac_trace_aux (L : EngineLaws ops H fits fin) [DecidablePred fits] [DecidablePred fin]
    {ipad opad : List Byte} (hp : ipad ≠ []) (hf : fits ipad)
    (hfo : ∀ x, fits (opad ++ H x)) (hfo1 : fits opad) (hfin : ∀ x, fin (opad ++ H x))
    (h : Hmac E) (m : List Byte) (ha : HAbs L ipad opad h m) (cs : List HCall) :
    hmacTrace ops h cs
      = hmacRefTrace (fun m => H (opad ++ H (ipad ++ m))) (fun m => fits (ipad ++ m))
          (fun m => fin (ipad ++ m)) m cs := by
  induction cs generalizing h m with
  | nil => rfl
  | cons c cs ih =>
    obtain ⟨e, he, hae⟩ := hmac_prepare L ha hp hf
    have h1 := ha.1
    have h2 := ha.2.1
    have hstep : (hmacStep ops h c = none ∧ hmacRefStep (fun m => H (opad ++ H (ipad ++ m)))
          (fun m => fits (ipad ++ m)) (fun m => fin (ipad ++ m)) m c = none) ∨
        ∃ o h' m', hmacStep ops h c = some (o, h') ∧ hmacRefStep (fun m => H (opad ++ H (ipad ++ m)))
          (fun m => fits (ipad ++ m)) (fun m => fin (ipad ++ m)) m c = some (o, m') ∧
          HAbs L ipad opad h' m' := by
      cases c with
      | push d =>
        simp only [hmacStep, hmacRefStep, Hmac.push, he, Option.bind_eq_bind, Option.bind_some]
        by_cases hd : d = []
        · subst hd
          exact Or.inr ⟨.none, h, m, by simp, by simp, ha⟩
        · rw [if_neg (by simpa using hd), if_neg hd]
          by_cases hfit : fits (ipad ++ (m ++ d))
          · obtain ⟨e', a, b⟩ := L.push_ok d hae (by rwa [List.append_assoc])
            rw [if_pos hfit, a]
            refine Or.inr ⟨.none, { h with engine := e' }, m ++ d, rfl, rfl, h1, h2, ?_⟩
            rw [if_neg (by simp [hd])]
            rwa [List.append_assoc] at b
          · rw [if_neg hfit, L.push_panic d hae (by rwa [List.append_assoc])]
            exact Or.inl ⟨rfl, rfl⟩
      | pushZero n =>
        simp only [hmacStep, hmacRefStep, Hmac.push_zero, he, Option.bind_eq_bind, Option.bind_some]
        by_cases hd : n = 0
        · subst hd
          exact Or.inr ⟨.none, h, m, by simp, by simp, ha⟩
        · rw [if_pos (by omega), if_neg hd]
          by_cases hfit : fits (ipad ++ (m ++ List.replicate n 0))
          · obtain ⟨e', a, b⟩ := L.zero_ok n hae (by rwa [List.append_assoc])
            rw [if_pos hfit, a]
            refine Or.inr ⟨.none, { h with engine := e' }, m ++ List.replicate n 0, rfl, rfl, h1, h2, ?_⟩
            rw [if_neg (by simp [hd])]
            rwa [List.append_assoc] at b
          · rw [if_neg hfit, L.zero_panic n hae (by rwa [List.append_assoc])]
            exact Or.inl ⟨rfl, rfl⟩
      | finalize =>
        simp only [hmacStep, hmacRefStep, Hmac.finalize, he, Option.bind_eq_bind, Option.bind_some]
        by_cases hfn : fin (ipad ++ m)
        · obtain ⟨e1, a1, b1⟩ := L.fin_ok hae hfn
          obtain ⟨e2, a2, b2⟩ := L.push_ok h.opad b1 (by rw [h2]; simpa using hfo1)
          obtain ⟨e3, a3, b3⟩ := L.push_ok (H (ipad ++ m)) b2 (by rw [h2]; simpa using hfo _)
          rw [List.nil_append, h2] at b3
          obtain ⟨e4, a4, b4⟩ := L.fin_ok b3 (hfin _)
          rw [if_pos hfn, a1]
          simp only [Option.bind_some]
          rw [a2]
          simp only [Option.bind_some]
          rw [a3]
          simp only [Option.bind_some]
          rw [a4]
          exact Or.inr ⟨_, { h with engine := e4 }, [], rfl, rfl, h1, h2, by simpa using b4⟩
        · rw [if_neg hfn, L.fin_panic hae hfn]
          exact Or.inl ⟨rfl, rfl⟩
      | reset =>
        exact Or.inr ⟨.none, h.reset ops, [], rfl, rfl, h1, h2, L.reset ha.2.2⟩
    rcases hstep with ⟨x1, x2⟩ | ⟨o, h', m', x1, x2, x3⟩
    · simp only [hmacTrace, hmacRefTrace, x1, x2]
    · simp only [hmacTrace, hmacRefTrace, x1, x2, ih h' m' x3]

end Generic

theorem sha256_length (m : List Byte) : (Spec.sha256 m).length = 32 := by
  simp [Spec.sha256, Spec.Vars.bytes, Spec.be32]

/-- Creating an HMAC-SHA-256 engine. -/
theorem hmac_new (key : List Byte)
    (hk : key.length ≤ 64 ∨ (key.length < 2 ^ 61 ∧ key.length % 64 ≠ 63)) :
    ∃ h, hmacSha256_new key = some h ∧
      HAbs sha256Laws ((Spec.hmacKey Spec.sha256 64 key).map (· ^^^ 0x36))
        ((Spec.hmacKey Spec.sha256 64 key).map (· ^^^ 0x5c)) h [] := by
  unfold hmacSha256_new Hmac.with_engine Spec.hmacKey
  have hd : sha256Ops.is_reset Engine.default = true := rfl
  simp only [hd, guard, Option.bind_eq_bind, Option.pure_def, if_true, Option.bind_some]
  by_cases hl : key.length > 64
  · rw [if_pos hl, if_pos hl]
    obtain ⟨e1, a1, b1⟩ := sha256Laws.push_ok key absorbed_default (by simp; omega)
    obtain ⟨e2, a2, b2⟩ := sha256Laws.fin_ok b1 (by simp; omega)
    rw [a1]
    simp only [Option.bind_some]
    rw [a2]
    simp only [Option.bind_some, List.nil_append]
    rw [padLoop_key _ _ (by rw [sha256_length]; decide)]
    exact ⟨_, rfl, rfl, rfl, by simpa using b2⟩
  · rw [if_neg hl, if_neg hl]
    simp only [Option.bind_some]
    rw [padLoop_key _ _ (by omega)]
    exact ⟨_, rfl, rfl, rfl, absorbed_default⟩

/-- RFC 2104 HMAC with SHA-256. -/
def hmacSha256Spec (key text : List Byte) : List Byte := Spec.hmac Spec.sha256 64 key text

theorem hmacKey_length (key : List Byte) : (Spec.hmacKey Spec.sha256 64 key).length = 64 := by
  simp only [Spec.hmacKey]
  split
  · simp [sha256_length]
  · simp; omega

/-- **C04/C05 (partial).** Over every history of calls, an HMAC-SHA-256 engine created with `key` is
indistinguishable from the reference object that concatenates the message bytes and answers
`finalize` with the RFC 2104 code of the message since the last finalize/reset.

Missing with respect to C04: SHA-256 panics for lengths 63 modulo 64, hence the hypothesis on keys
longer than a block and the condition on the message length in the reference object. -/
theorem hmac_trace_refines_partial (key : List Byte)
    (hk : key.length ≤ 64 ∨ (key.length < 2 ^ 61 ∧ key.length % 64 ≠ 63)) (cs : List HCall) :
    ∃ h, hmacSha256_new key = some h ∧
      hmacTrace sha256Ops h cs
        = hmacRefTrace (hmacSha256Spec key) (fun m => 64 + m.length < 2 ^ 64)
            (fun m => 64 + m.length < 2 ^ 61 ∧ m.length % 64 ≠ 63) [] cs := by
  obtain ⟨h, h1, h2⟩ := hmac_new key hk
  refine ⟨h, h1, ?_⟩
  have hkl := hmacKey_length key
  have := hmac_trace_aux sha256Laws (ipad := (Spec.hmacKey Spec.sha256 64 key).map (· ^^^ 0x36))
    (opad := (Spec.hmacKey Spec.sha256 64 key).map (· ^^^ 0x5c))
    (by rw [← List.length_pos_iff]; simp [hkl]) (by simp [hkl]) (by intro x; simp [hkl, sha256_length])
    (by simp [hkl]) (by intro x; simp [hkl, sha256_length]) h [] h2 cs
  rw [this]
  have e1 : (fun m : List Byte => ((Spec.hmacKey Spec.sha256 64 key).map (· ^^^ 0x36) ++ m).length < 2 ^ 64)
      = (fun m => 64 + m.length < 2 ^ 64) := by
    funext m; simp [hkl]
  have e2 : (fun m : List Byte => ((Spec.hmacKey Spec.sha256 64 key).map (· ^^^ 0x36) ++ m).length < 2 ^ 61
      ∧ ((Spec.hmacKey Spec.sha256 64 key).map (· ^^^ 0x36) ++ m).length % 64 ≠ 63)
      = (fun m => 64 + m.length < 2 ^ 61 ∧ m.length % 64 ≠ 63) := by
    funext m; simp [hkl]
  congr 1 <;> first | exact e1 | exact e2 | skip
  all_goals (try rfl)

example : ([1, 2, 3] : List Byte).length ≤ 64 ∨ False := by decide
example : hmacRefTrace (hmacSha256Spec [1]) (fun m => 64 + m.length < 2 ^ 64)
    (fun m => 64 + m.length < 2 ^ 61 ∧ m.length % 64 ≠ 63) []
    [.push [2], .push [3], .finalize, .pushZero 1, .finalize]
    = [.none, .none, .digest (hmacSha256Spec [1] [2, 3]), .none, .digest (hmacSha256Spec [1] [0])] := rfl

/-- **C04 is false as stated**: a 63-byte message makes `finalize` panic, for every short key. -/
theorem hmac_panics_63 (key : List Byte) (hk : key.length ≤ 64) :
    ∃ h, hmacSha256_new key = some h ∧
      hmacTrace sha256Ops h [.push (List.replicate 63 1), .finalize] = [.none, .panic] := by
  obtain ⟨h, h1, h2⟩ := hmac_trace_refines_partial key (Or.inl hk) [.push (List.replicate 63 1), .finalize]
  refine ⟨h, h1, ?_⟩
  rw [h2]
  rfl

/-- **C04 is false as stated**: a 127-byte key makes the constructor panic. -/
theorem hmac_new_panics_127 (key : List Byte) (hk : key.length = 127) : hmacSha256_new key = none := by
  unfold hmacSha256_new Hmac.with_engine
  have hd : sha256Ops.is_reset Engine.default = true := rfl
  simp only [hd, guard, Option.bind_eq_bind, Option.pure_def, if_true, Option.bind_some]
  rw [if_pos (by omega)]
  obtain ⟨e1, a1, b1⟩ := sha256Laws.push_ok key absorbed_default (by simp; omega)
  rw [a1]
  simp only [Option.bind_some]
  rw [sha256Laws.fin_panic b1 (by simp; omega)]
  rfl

/-- **C04 (partial), one-shot form.** A new engine fed with a message in any pieces yields the
RFC 2104 code of the concatenation. Missing: the lengths where SHA-256 panics. -/
theorem hmac_rfc2104_partial (key : List Byte) (pieces : List (List Byte))
    (hk : key.length ≤ 64 ∨ (key.length < 2 ^ 61 ∧ key.length % 64 ≠ 63))
    (hm : 64 + pieces.flatten.length < 2 ^ 61) (hm63 : pieces.flatten.length % 64 ≠ 63) :
    ∃ h, hmacSha256_new key = some h ∧
      hmacTrace sha256Ops h (pieces.map .push ++ [.finalize])
        = pieces.map (fun _ => Out.none) ++ [.digest (Spec.hmac Spec.sha256 64 key pieces.flatten)] := by
  obtain ⟨h, h1, h2⟩ := hmac_trace_refines_partial key hk (pieces.map .push ++ [.finalize])
  refine ⟨h, h1, ?_⟩
  rw [h2]
  clear h1 h2
  have gen : ∀ (ps : List (List Byte)) (m : List Byte), 64 + (m ++ ps.flatten).length < 2 ^ 61 →
      (m ++ ps.flatten).length % 64 ≠ 63 →
      hmacRefTrace (hmacSha256Spec key) (fun m => 64 + m.length < 2 ^ 64)
            (fun m => 64 + m.length < 2 ^ 61 ∧ m.length % 64 ≠ 63) m (ps.map .push ++ [.finalize])
        = ps.map (fun _ => Out.none) ++ [.digest (Spec.hmac Spec.sha256 64 key (m ++ ps.flatten))] := by
    intro ps
    induction ps with
    | nil =>
      intro m a b
      simp at a b
      simp [hmacRefTrace, hmacRefStep, hmacSha256Spec]
      rw [if_pos ⟨a, b⟩]
    | cons p ps ih =>
      intro m a b
      have e : m ++ (p :: ps).flatten = (m ++ p) ++ ps.flatten := by simp
      rw [e] at a b ⊢
      simp only [List.map_cons, List.cons_append, hmacRefTrace, hmacRefStep]
      by_cases hp : p = []
      · subst hp
        simp only [if_true]
        rw [List.append_nil] at a b ⊢
        rw [ih m a b]
      · rw [if_neg hp, if_pos (by simp at a ⊢; omega)]
        simp only []
        rw [ih (m ++ p) a b]
  exact gen pieces [] (by simpa using hm) (by simpa using hm63)

end Verif.Hash
