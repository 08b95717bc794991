import Verif.Hash.PropsHmac
/-! # Property theorems: HMAC and the hash helpers over any hash engine (C73)

`Hmac` and `hash::hash` take the hash engine as a type argument. The theorems here are about every engine that
does what the documentation of the trait says (`EngineLaws`, in PropsHmac.lean): it absorbs what is pushed, says
that it is reset exactly if nothing was absorbed, and `finalize` returns the hash of what was absorbed and starts over.
An engine may panic on some messages (`fits`, `fin`), as long as a message that can be pushed can be pushed in pieces
and a message that can be hashed can be pushed (`Sensible`). -/
namespace Verif.Hash

/-- A prefix of an accepted message is accepted; a message that can be finalized can be pushed. -/
structure Sensible (fits fin : List Byte → Prop) : Prop where
  start : ∀ a b, fits (a ++ b) → fits a
  push : ∀ m, fin m → fits m

section
variable {E : Type} {ops : EngineOps E} {H : List Byte → List Byte} {fits fin : List Byte → Prop}

/-! ## Lemmas -/

theorem nil_fits (S : Sensible fits fin) {m : List Byte} (h : fits m) : fits [] := S.start [] m (by simpa using h)

theorem padLoop_long (key ipad opad : List Byte) (i : Nat) (h1 : ipad.length = opad.length)
    (hl : ipad.length < i + key.length) (hi : i ≤ ipad.length) : padLoop ipad opad i key = none := by
  induction key generalizing ipad opad i with
  | nil => simp at hl; omega
  | cons v vs ih =>
    rw [padLoop]
    by_cases hc : i < ipad.length ∧ i < opad.length
    · rw [if_pos hc]
      exact ih _ _ _ (by simpa using h1) (by simp at hl ⊢; omega) (by simp; omega)
    · rw [if_neg hc]

theorem prepare_ok (L : EngineLaws ops H fits fin) {ipad opad : List Byte} {h : Hmac E} {m : List Byte}
    (ha : HAbs L ipad opad h m) (hf : fits ipad) :
    ∃ e, (if ops.is_reset h.engine then ops.push h.engine h.ipad else some h.engine) = some e ∧
      L.Abs e (ipad ++ m) := by
  obtain ⟨h1, h2, h3⟩ := ha
  rw [L.is_reset h3]
  by_cases hm : m = []
  · subst hm
    simp only [if_true] at h3 ⊢
    rw [if_pos (by simp)]
    obtain ⟨e, a, b⟩ := L.push_ok h.ipad h3 (by rw [h1]; simpa using hf)
    exact ⟨e, a, by simpa [h1] using b⟩
  · rw [if_neg hm] at h3
    rw [if_neg hm, if_neg (by simp [hm])]
    exact ⟨h.engine, rfl, h3⟩

theorem prepare_panic (L : EngineLaws ops H fits fin) {ipad opad : List Byte} {h : Hmac E}
    (ha : HAbs L ipad opad h []) (hf : ¬ fits ipad) :
    (if ops.is_reset h.engine then ops.push h.engine h.ipad else some h.engine) = none := by
  obtain ⟨h1, h2, h3⟩ := ha
  simp only [if_true] at h3
  rw [L.is_reset h3, if_pos (by simp)]
  exact L.push_panic h.ipad h3 (by rw [h1]; simpa using hf)

/-- State of an HMAC in use; a message can only have been pushed if the padded key could be. -/
def InUse (L : EngineLaws ops H fits fin) (ipad opad : List Byte) (h : Hmac E) (m : List Byte) : Prop :=
  HAbs L ipad opad h m ∧ (m ≠ [] → fits ipad)

theorem generic_trace_aux (L : EngineLaws ops H fits fin) (S : Sensible fits fin)
    [DecidablePred fits] [DecidablePred fin] {ipad opad : List Byte}
    (h : Hmac E) (m : List Byte) (hu : InUse L ipad opad h m) (cs : List HCall) :
    hmacTrace ops h cs
      = hmacRefTrace (fun m => H (opad ++ H (ipad ++ m))) (fun m => fits (ipad ++ m))
          (fun m => fin (ipad ++ m) ∧ fin (opad ++ H (ipad ++ m))) m cs := by
  induction cs generalizing h m with
  | nil => rfl
  | cons c cs ih =>
    obtain ⟨ha, hmf⟩ := hu
    have h1 := ha.1
    have h2 := ha.2.1
    have hstep : (hmacStep ops h c = none ∧ hmacRefStep (fun m => H (opad ++ H (ipad ++ m)))
          (fun m => fits (ipad ++ m)) (fun m => fin (ipad ++ m) ∧ fin (opad ++ H (ipad ++ m))) m c = none) ∨
        ∃ o h' m', hmacStep ops h c = some (o, h') ∧ hmacRefStep (fun m => H (opad ++ H (ipad ++ m)))
          (fun m => fits (ipad ++ m)) (fun m => fin (ipad ++ m) ∧ fin (opad ++ H (ipad ++ m))) m c = some (o, m') ∧
          InUse L ipad opad h' m' := by
      by_cases hf : fits ipad
      · obtain ⟨e, he, hae⟩ := prepare_ok L ha hf
        cases c with
        | push d =>
          simp only [hmacStep, hmacRefStep, Hmac.push, he, Option.bind_eq_bind, Option.bind_some]
          by_cases hd : d = []
          · subst hd
            exact Or.inr ⟨.none, h, m, by simp, by simp, ha, hmf⟩
          · rw [if_neg (by simpa using hd), if_neg hd]
            by_cases hfit : fits (ipad ++ (m ++ d))
            · obtain ⟨e', a, b⟩ := L.push_ok d hae (by rwa [List.append_assoc])
              rw [if_pos hfit, a]
              refine Or.inr ⟨.none, { h with engine := e' }, m ++ d, rfl, rfl, ⟨h1, h2, ?_⟩, fun _ => hf⟩
              rw [if_neg (by simp [hd])]
              rwa [List.append_assoc] at b
            · rw [if_neg hfit, L.push_panic d hae (by rwa [List.append_assoc])]
              exact Or.inl ⟨rfl, rfl⟩
        | pushZero n =>
          simp only [hmacStep, hmacRefStep, Hmac.push_zero, he, Option.bind_eq_bind, Option.bind_some]
          by_cases hd : n = 0
          · subst hd
            exact Or.inr ⟨.none, h, m, by simp, by simp, ha, hmf⟩
          · rw [if_pos (by omega), if_neg hd]
            by_cases hfit : fits (ipad ++ (m ++ List.replicate n 0))
            · obtain ⟨e', a, b⟩ := L.zero_ok n hae (by rwa [List.append_assoc])
              rw [if_pos hfit, a]
              refine Or.inr ⟨.none, { h with engine := e' }, m ++ List.replicate n 0, rfl, rfl, ⟨h1, h2, ?_⟩,
                fun _ => hf⟩
              rw [if_neg (by simp [hd])]
              rwa [List.append_assoc] at b
            · rw [if_neg hfit, L.zero_panic n hae (by rwa [List.append_assoc])]
              exact Or.inl ⟨rfl, rfl⟩
        | finalize =>
          simp only [hmacStep, hmacRefStep, Hmac.finalize, he, Option.bind_eq_bind, Option.bind_some]
          by_cases hfn : fin (ipad ++ m)
          · obtain ⟨e1, a1, b1⟩ := L.fin_ok hae hfn
            rw [a1]
            simp only [Option.bind_some]
            by_cases hfo : fits opad
            · obtain ⟨e2, a2, b2⟩ := L.push_ok h.opad b1 (by rw [h2]; simpa using hfo)
              rw [a2]
              simp only [Option.bind_some]
              by_cases hfv : fits (opad ++ H (ipad ++ m))
              · obtain ⟨e3, a3, b3⟩ := L.push_ok (H (ipad ++ m)) b2 (by rw [h2]; simpa using hfv)
                rw [List.nil_append, h2] at b3
                rw [a3]
                simp only [Option.bind_some]
                by_cases hfz : fin (opad ++ H (ipad ++ m))
                · obtain ⟨e4, a4, b4⟩ := L.fin_ok b3 hfz
                  rw [if_pos ⟨hfn, hfz⟩, a4]
                  exact Or.inr ⟨_, { h with engine := e4 }, [], rfl, rfl, ⟨h1, h2, by simpa using b4⟩, by simp⟩
                · rw [if_neg (fun x => hfz x.2), L.fin_panic b3 hfz]
                  exact Or.inl ⟨rfl, rfl⟩
              · rw [if_neg (fun x => hfv (S.push _ x.2)),
                  L.push_panic (H (ipad ++ m)) b2 (by rw [h2]; simpa using hfv)]
                exact Or.inl ⟨rfl, rfl⟩
            · rw [if_neg (fun x => hfo (S.start _ _ (S.push _ x.2))),
                L.push_panic h.opad b1 (by rw [h2]; simpa using hfo)]
              exact Or.inl ⟨rfl, rfl⟩
          · rw [if_neg (fun x => hfn x.1), L.fin_panic hae hfn]
            exact Or.inl ⟨rfl, rfl⟩
        | reset =>
          exact Or.inr ⟨.none, h.reset ops, [], rfl, rfl, ⟨h1, h2, L.reset ha.2.2⟩, by simp⟩
      · have hm : m = [] := by
          apply Decidable.byContradiction
          intro hm; exact hf (hmf hm)
        subst hm
        have he := prepare_panic L ha hf
        cases c with
        | push d =>
          simp only [hmacStep, hmacRefStep, Hmac.push, he, Option.bind_eq_bind, Option.bind_none]
          by_cases hd : d = []
          · subst hd
            exact Or.inr ⟨.none, h, [], by simp, by simp, ha, hmf⟩
          · rw [if_neg (by simpa using hd), if_neg hd, if_neg (fun x => hf (S.start _ _ x))]
            exact Or.inl ⟨rfl, rfl⟩
        | pushZero n =>
          simp only [hmacStep, hmacRefStep, Hmac.push_zero, he, Option.bind_eq_bind, Option.bind_none]
          by_cases hd : n = 0
          · subst hd
            exact Or.inr ⟨.none, h, [], by simp, by simp, ha, hmf⟩
          · rw [if_pos (by omega), if_neg hd, if_neg (fun x => hf (S.start _ _ x))]
            exact Or.inl ⟨rfl, rfl⟩
        | finalize =>
          simp only [hmacStep, hmacRefStep, Hmac.finalize, he, Option.bind_eq_bind, Option.bind_none]
          rw [if_neg (fun x => hf (S.start _ _ (S.push _ x.1)))]
          exact Or.inl ⟨rfl, rfl⟩
        | reset =>
          exact Or.inr ⟨.none, h.reset ops, [], rfl, rfl, ⟨h1, h2, L.reset ha.2.2⟩, by simp⟩
    rcases hstep with ⟨x1, x2⟩ | ⟨o, h', m', x1, x2, x3⟩
    · simp only [hmacTrace, hmacRefTrace, x1, x2]
    · simp only [hmacTrace, hmacRefTrace, x1, x2, ih h' m' x3]

/-! ## Theorems -/

/-- A key can be used with blocks of `chunk` bytes: it fits in a block, or it can be hashed and its hash fits. -/
def KeyOk (H : List Byte → List Byte) (fin : List Byte → Prop) (chunk : Nat) (key : List Byte) : Prop :=
  key.length ≤ chunk ∨ (fin key ∧ (H key).length ≤ chunk)

/-- **C73** (a). For every hash engine, block length and key: if the key can be used, creating an HMAC from a new engine
succeeds, and over every history of calls it is indistinguishable from the reference object that concatenates the
message and answers `finalize` with the RFC 2104 code `H(K ⊕ opad ‖ H(K ⊕ ipad ‖ message))`. It panics exactly where the engine
cannot take one of these two inputs. -/
theorem hmac_any_engine (L : EngineLaws ops H fits fin) (S : Sensible fits fin)
    [DecidablePred fits] [DecidablePred fin] (chunk : Nat) (key : List Byte) (hk : KeyOk H fin chunk key)
    (e : E) (he : L.Abs e []) (cs : List HCall) :
    ∃ h, Hmac.with_engine ops chunk key e = some h ∧
      hmacTrace ops h cs = hmacRefTrace (Spec.hmac H chunk key)
        (fun m => fits ((Spec.hmacKey H chunk key).map (· ^^^ 0x36) ++ m))
        (fun m => fin ((Spec.hmacKey H chunk key).map (· ^^^ 0x36) ++ m) ∧
          fin ((Spec.hmacKey H chunk key).map (· ^^^ 0x5c) ++ H ((Spec.hmacKey H chunk key).map (· ^^^ 0x36) ++ m)))
        [] cs := by
  have hnew : ∃ h, Hmac.with_engine ops chunk key e = some h ∧
      HAbs L ((Spec.hmacKey H chunk key).map (· ^^^ 0x36)) ((Spec.hmacKey H chunk key).map (· ^^^ 0x5c)) h [] := by
    unfold Hmac.with_engine Spec.hmacKey
    have hd : ops.is_reset e = true := by rw [L.is_reset he]; rfl
    simp only [hd, guard, Option.bind_eq_bind, Option.pure_def, if_true, Option.bind_some]
    by_cases hl : key.length > chunk
    · rw [if_pos hl, if_pos hl]
      obtain ⟨hfk, hlen⟩ : fin key ∧ (H key).length ≤ chunk := by
        rcases hk with hk | hk
        · omega
        · exact hk
      obtain ⟨e1, a1, b1⟩ := L.push_ok key he (by simpa using S.push _ hfk)
      obtain ⟨e2, a2, b2⟩ := L.fin_ok b1 (by simpa using hfk)
      rw [a1]
      simp only [Option.bind_some]
      rw [a2]
      simp only [Option.bind_some, List.nil_append]
      rw [padLoop_key _ _ hlen]
      exact ⟨_, rfl, rfl, rfl, by simpa using b2⟩
    · rw [if_neg hl, if_neg hl]
      simp only [Option.bind_some]
      rw [padLoop_key _ _ (by omega)]
      exact ⟨_, rfl, rfl, rfl, he⟩
  obtain ⟨h, h1, h2⟩ := hnew
  exact ⟨h, h1, generic_trace_aux L S h [] ⟨h2, by simp⟩ cs⟩

/-- **C73** (b). Creating an HMAC panics exactly if the engine is in use already, or the key cannot be used: it is longer than
a block and cannot be hashed, or its hash is longer than a block. -/
theorem hmac_new_panics_iff (L : EngineLaws ops H fits fin) (S : Sensible fits fin)
    (chunk : Nat) (key : List Byte) (e : E) (m : List Byte) (he : L.Abs e m) :
    Hmac.with_engine ops chunk key e = none ↔ ¬ (m = [] ∧ KeyOk H fin chunk key) := by
  classical
  constructor
  · rintro hn ⟨rfl, hk⟩
    obtain ⟨h, h1, _⟩ := hmac_any_engine L S chunk key hk e he []
    rw [h1] at hn; cases hn
  · intro hno
    unfold Hmac.with_engine
    by_cases hm : m = []
    · subst hm
      have hd : ops.is_reset e = true := by rw [L.is_reset he]; rfl
      simp only [hd, guard, Option.bind_eq_bind, Option.pure_def, if_true, Option.bind_some]
      have hk : ¬ KeyOk H fin chunk key := fun h => hno ⟨rfl, h⟩
      have hl : key.length > chunk := by
        apply Decidable.byContradiction
        intro h; exact hk (Or.inl (by omega))
      rw [if_pos hl]
      by_cases hfi : fits key
      · obtain ⟨e1, a1, b1⟩ := L.push_ok key he (by simpa using hfi)
        rw [a1]
        simp only [Option.bind_some, List.nil_append] at b1 ⊢
        by_cases hfk : fin key
        · obtain ⟨e2, a2, b2⟩ := L.fin_ok b1 hfk
          rw [a2]
          simp only [Option.bind_some]
          rw [padLoop_long _ _ _ _ (by simp) (by
            simp only [List.length_replicate]
            have : ¬ (H key).length ≤ chunk := fun h => hk (Or.inr ⟨hfk, h⟩)
            omega) (by simp)]
          rfl
        · rw [L.fin_panic b1 hfk]; rfl
      · rw [L.push_panic key he (by simpa using hfi)]; rfl
    · have hd : ops.is_reset e = false := by rw [L.is_reset he]; simpa using hm
      simp [hd, guard]

/-- The reference object starts over with `finalize` and `reset`. -/
theorem hmacRefTrace_restart (mac : List Byte → List Byte) (P Q : List Byte → Prop) [DecidablePred P] [DecidablePred Q]
    (before after : List HCall) (c : HCall) (hc : c = .finalize ∨ c = .reset)
    (m : List Byte) (hm : Out.panic ∉ hmacRefTrace mac P Q m (before ++ [c])) :
    hmacRefTrace mac P Q m (before ++ [c] ++ after)
      = hmacRefTrace mac P Q m (before ++ [c]) ++ hmacRefTrace mac P Q [] after := by
  induction before generalizing m with
  | nil =>
    rcases hc with rfl | rfl
    · simp only [List.nil_append, hmacRefTrace, List.cons_append, hmacRefStep] at hm ⊢
      by_cases hno : Q m
      · rw [if_pos hno]; rfl
      · rw [if_neg hno] at hm; simp at hm
    · rfl
  | cons b bs ih =>
    simp only [List.cons_append, hmacRefTrace] at hm ⊢
    cases hs : hmacRefStep mac P Q m b with
    | none => rw [hs] at hm; simp at hm
    | some r =>
      obtain ⟨o, m'⟩ := r
      rw [hs] at hm
      simp only [List.mem_cons, not_or] at hm
      simp only []
      rw [ih m' hm.2]
      rfl

/-- **C05**, for any engine. Whatever was done with an HMAC before, after `finalize` or `reset` everything a client can
observe is what it would observe from the HMAC directly after its creation with the same key. -/
theorem hmac_reusable_any (L : EngineLaws ops H fits fin) (S : Sensible fits fin) (chunk : Nat) (key : List Byte)
    (e : E) (m : List Byte) (he : L.Abs e m) (h : Hmac E) (hnew : Hmac.with_engine ops chunk key e = some h)
    (before after : List HCall) (c : HCall) (hc : c = .finalize ∨ c = .reset)
    (hok : Out.panic ∉ hmacTrace ops h (before ++ [c])) :
    hmacTrace ops h (before ++ [c] ++ after) = hmacTrace ops h (before ++ [c]) ++ hmacTrace ops h after := by
  classical
  have hk : m = [] ∧ KeyOk H fin chunk key := by
    apply Decidable.byContradiction
    intro hno
    rw [(hmac_new_panics_iff L S chunk key e m he).mpr hno] at hnew
    cases hnew
  obtain ⟨rfl, hk⟩ := hk
  have ref : ∀ cs, hmacTrace ops h cs = hmacRefTrace (Spec.hmac H chunk key)
        (fun m => fits ((Spec.hmacKey H chunk key).map (· ^^^ 0x36) ++ m))
        (fun m => fin ((Spec.hmacKey H chunk key).map (· ^^^ 0x36) ++ m) ∧
          fin ((Spec.hmacKey H chunk key).map (· ^^^ 0x5c) ++ H ((Spec.hmacKey H chunk key).map (· ^^^ 0x36) ++ m)))
        [] cs := by
    intro cs
    obtain ⟨h', h1, h2⟩ := hmac_any_engine L S chunk key hk e he cs
    rw [hnew] at h1
    cases h1
    exact h2
  rw [ref] at hok
  rw [ref, ref, ref]
  exact hmacRefTrace_restart _ _ _ before after c hc [] hok

/-- **C73** (c). `hash::hash` of any engine returns the engine's hash of the argument, or panics if the engine cannot
take it. -/
theorem hash_any_engine (L : EngineLaws ops H fits fin) (S : Sensible fits fin) [DecidablePred fin]
    (e : E) (he : L.Abs e []) (m : List Byte) :
    hashWith ops e m = if fin m then some (H m) else none := by
  classical
  unfold hashWith
  by_cases hfi : fits m
  · obtain ⟨e1, a1, b1⟩ := L.push_ok m he (by simpa using hfi)
    rw [a1]
    simp only [List.nil_append] at b1
    by_cases hfm : fin m
    · obtain ⟨e2, a2, b2⟩ := L.fin_ok b1 hfm
      simp only [Option.bind_eq_bind, Option.bind_some]
      rw [a2, if_pos hfm]; rfl
    · simp only [Option.bind_eq_bind, Option.bind_some]
      rw [L.fin_panic b1 hfm, if_neg hfm]; rfl
  · rw [L.push_panic m he (by simpa using hfi), if_neg (fun h => hfi (S.push _ h))]; rfl

/-- **C73** (d). The default `push_zero` of the trait is a push of that many zero bytes: an engine that does not implement
it is as good as one that does. -/
theorem default_push_zero_is_push (L : EngineLaws ops H fits fin) (S : Sensible fits fin)
    (e : E) (m : List Byte) (he : L.Abs e m) (hm : fits m) (n : Nat) :
    (fits (m ++ List.replicate n 0) →
      ∃ e', default_push_zero ops.push e n = some e' ∧ L.Abs e' (m ++ List.replicate n 0)) ∧
    (¬ fits (m ++ List.replicate n 0) → default_push_zero ops.push e n = none) := by
  induction n using Nat.strongRecOn generalizing e m with
  | ind n ih =>
    rw [default_push_zero]
    by_cases hn : n > 0
    · rw [dif_pos hn]
      have hr : (List.replicate 128 (0 : Byte)).take (min n 128) = List.replicate (min n 128) 0 := by
        rw [List.take_replicate]; congr 1; omega
      have hsplit : m ++ List.replicate n (0 : Byte)
          = (m ++ List.replicate (min n 128) 0) ++ List.replicate (n - min n 128) 0 := by
        rw [List.append_assoc, List.replicate_append_replicate]; congr 2; omega
      simp only [hr]
      rw [hsplit]
      by_cases hf : fits (m ++ List.replicate (min n 128) 0)
      · obtain ⟨e', a, b⟩ := L.push_ok _ he hf
        rw [a]
        exact ih (n - min n 128) (by omega) e' _ b hf
      · rw [L.push_panic _ he hf]
        exact ⟨fun h => absurd (S.start _ _ h) hf, fun _ => rfl⟩
    · have : n = 0 := by omega
      subst this
      rw [dif_neg hn]
      simp only [List.replicate_zero, List.append_nil]
      exact ⟨fun _ => ⟨e, rfl, he⟩, fun h => absurd hm h⟩

end

/-! ## The hypotheses are met -/

-- SHA-256 is such an engine ...
theorem sha256_sensible : Sensible (fun m : List Byte => m.length < 2 ^ 64)
    (fun m => m.length < 2 ^ 61 ∧ m.length % 64 ≠ 63) :=
  ⟨fun a b h => by simp at h; omega, fun m h => by omega⟩
example : sha256Laws.Abs Engine.default [] := absorbed_default

/-- **C05.** For every key with which an HMAC-SHA-256 engine can be created, and every history that ends in `finalize` or
`reset` and did not panic: everything observed afterwards is what is observed from the engine directly after creation. -/
theorem hmac_reusable (key : List Byte) (h : Hmac Engine) (hnew : hmacSha256_new key = some h)
    (before after : List HCall) (c : HCall) (hc : c = .finalize ∨ c = .reset)
    (hok : Out.panic ∉ hmacTrace sha256Ops h (before ++ [c])) :
    hmacTrace sha256Ops h (before ++ [c] ++ after)
      = hmacTrace sha256Ops h (before ++ [c]) ++ hmacTrace sha256Ops h after :=
  hmac_reusable_any sha256Laws sha256_sensible 64 key Engine.default [] absorbed_default h hnew before after c hc hok

-- Creation and such a history exist for every short key.
example (key : List Byte) (hk : key.length ≤ 64) : ∃ h, hmacSha256_new key = some h ∧
    Out.panic ∉ hmacTrace sha256Ops h ([.push [1, 2], .pushZero 3] ++ [.finalize]) := by
  obtain ⟨h, h1, h2⟩ := hmac_trace_refines_partial key (Or.inl hk) ([.push [1, 2], .pushZero 3] ++ [.finalize])
  refine ⟨h, h1, ?_⟩
  rw [h2]
  simp [hmacRefTrace, hmacRefStep]
example : KeyOk Spec.sha256 (fun m => m.length < 2 ^ 61 ∧ m.length % 64 ≠ 63) 64 (List.replicate 65 7) :=
  Or.inr ⟨by simp, by rw [sha256_length]; decide⟩

/-- ... and so is an engine that keeps the whole message and never panics, for any hash function. -/
def keepOps (H : List Byte → List Byte) : EngineOps (List Byte) :=
  { is_reset := List.isEmpty, reset := fun _ => [], push := fun m d => some (m ++ d),
    push_zero := fun m n => some (m ++ List.replicate n 0), finalize := fun m => some (H m, []) }
def keepLaws (H : List Byte → List Byte) : EngineLaws (keepOps H) H (fun _ => True) (fun _ => True) where
  Abs := fun e m => e = m
  is_reset := by rintro e m rfl; rfl
  reset := fun _ => rfl
  push_ok := by rintro e m d rfl _; exact ⟨_, rfl, rfl⟩
  push_panic := fun _ _ h => absurd trivial h
  zero_ok := by rintro e m d rfl _; exact ⟨_, rfl, rfl⟩
  zero_panic := fun _ _ h => absurd trivial h
  fin_ok := by rintro e m rfl _; exact ⟨_, rfl, rfl⟩
  fin_panic := fun _ h => absurd trivial h
example : Sensible (fun _ => True) (fun _ => True) := ⟨fun _ _ _ => trivial, fun _ _ => trivial⟩
-- with blocks shorter than the hash, a long key panics and a short one does not
example : Hmac.with_engine (keepOps fun _ => [1, 2, 3]) 2 [5, 5, 5] [] = none := by decide
example : ((Hmac.with_engine (keepOps fun m => m.take 3) 2 [5] []).map
    fun h => hmacTrace (keepOps fun m => m.take 3) h [.push [9], .finalize])
    = some [.none, .digest [5 ^^^ 0x5c, 0x5c, 5 ^^^ 0x36]] := by decide

/-- Instances of `hmac_any_engine` and `hmac_new_panics_iff`: SHA-256, and a key longer than a block. -/
example (cs : List HCall) := hmac_any_engine sha256Laws sha256_sensible 64 (List.replicate 65 7)
  (Or.inr ⟨by simp, by rw [sha256_length]; decide⟩) Engine.default absorbed_default cs
example := hmac_new_panics_iff sha256Laws sha256_sensible 64 [1, 2, 3] Engine.default [] absorbed_default

end Verif.Hash
