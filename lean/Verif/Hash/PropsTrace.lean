import Verif.Hash.LemmasTrace
/-! # Property theorems: what hashing and authenticating show and cost (C104) -/
namespace Verif.Hash

/-! ## Specification -/

/-- The number of 64-byte blocks of the padded message, FIPS 180-4. -/
def Spec.blocks (m : List Byte) : Nat := (Spec.pad m).length / 64

/-- What remains of a call if the data is blacked out: its kind and its length. -/
inductive Shape where
  | push (n : Nat)
  | pushZero (n : Nat)
  | finalize
  | reset
  | isReset
deriving DecidableEq, Repr

def Call.shape : Call → Shape
  | .push d => .push d.length
  | .pushZero n => .pushZero n
  | .finalize => .finalize
  | .reset => .reset
  | .isReset => .isReset

def HCall.shape : HCall → Shape
  | .push d => .push d.length
  | .pushZero n => .pushZero n
  | .finalize => .finalize
  | .reset => .reset

/-- One call on a SHA-256 engine, with its visible events. -/
def stepT (e : Engine) : Call → Tr (Out × Engine)
  | .push d => do let e' ← e.pushT d; pure (.none, e')
  | .pushZero n => do let e' ← e.push_zeroT n; pure (.none, e')
  | .finalize => do let r ← e.finalizeT; pure (.digest r.1, r.2)
  | .reset => pure (.none, e.reset)
  | .isReset => do let b ← e.is_resetT; pure (.flag b, e)

/-- The visible events of every call of a history (a panic ends it). -/
def engineEvents (e : Engine) : List Call → List (List Ev)
  | [] => []
  | c :: cs => (stepT e c).events :: match (stepT e c).result with
    | none => []
    | some r => engineEvents r.2 cs

/-- One call on an HMAC-SHA-256 engine, with its visible events. -/
def hstepT (h : Hmac Engine) : HCall → Tr (Out × Hmac Engine)
  | .push d => do let h' ← h.pushT d; pure (.none, h')
  | .pushZero n => do let h' ← h.push_zeroT n; pure (.none, h')
  | .finalize => do let r ← h.finalizeT; pure (.digest r.1, r.2)
  | .reset => pure (.none, h.reset sha256Ops)

def hmacEvents (h : Hmac Engine) : List HCall → List (List Ev)
  | [] => []
  | c :: cs => (hstepT h c).events :: match (hstepT h c).result with
    | none => []
    | some r => hmacEvents r.2 cs

/-- The visible events of creating an HMAC-SHA-256 engine and using it. -/
def hmacProgram (key : List Byte) (cs : List HCall) : List (List Ev) :=
  (hmacNewT key).events :: match (hmacNewT key).result with
    | none => []
    | some h => hmacEvents h cs

/-! ## The traced programs are the programs -/

/-- **C104.** Recording the events changes nothing: every call on a SHA-256 engine returns what the
model of the code returns, or panics when it does. -/
theorem trace_faithful (e : Engine) (c : Call) : (stepT e c).result = engineStep e c := by
  cases c with
  | push d =>
    simp only [stepT, engineStep, Tr.result_bind, pushT_result, Tr.result_pure]
    cases e.push d <;> rfl
  | pushZero n =>
    simp only [stepT, engineStep, Tr.result_bind, push_zeroT_result, Tr.result_pure]
    cases e.push_zero n <;> rfl
  | finalize =>
    simp only [stepT, engineStep, Tr.result_bind, finalizeT_result, Tr.result_pure]
    cases e.finalize <;> rfl
  | reset => rfl
  | isReset => rfl

/-- **C104.** The same for every call on an HMAC engine, -/
theorem hmac_trace_faithful (h : Hmac Engine) (c : HCall) :
    (hstepT h c).result = hmacStep sha256Ops h c := by
  cases c with
  | push d =>
    simp only [hstepT, hmacStep, Tr.result_bind, hpushT_result, Tr.result_pure]
    cases h.push sha256Ops d <;> rfl
  | pushZero n =>
    simp only [hstepT, hmacStep, Tr.result_bind, hpush_zeroT_result, Tr.result_pure]
    cases h.push_zero sha256Ops n <;> rfl
  | finalize =>
    simp only [hstepT, hmacStep, Tr.result_bind, hfinalizeT_result, Tr.result_pure]
    cases h.finalize sha256Ops <;> rfl
  | reset => rfl

/-- … and for its creation. -/
theorem hmac_new_trace_faithful (key : List Byte) : (hmacNewT key).result = hmacSha256_new key :=
  hmacWithT_result key Engine.default

/-! ## Only lengths can be seen -/

theorem stepT_alike {e e' : Engine} {c c' : Call} (h : SimE e e') (hc : c.shape = c'.shape) :
    Tr.Alike (fun a b : Out × Engine => SimE a.2 b.2) (stepT e c) (stepT e' c') := by
  cases c <;> cases c' <;> simp only [Call.shape, Shape.push.injEq, Shape.pushZero.injEq, reduceCtorEq] at hc
  · exact Tr.alike_bind (pushT_alike h hc) fun a b hab => Tr.alike_pure hab
  · subst hc
    refine Tr.alike_bind (R := SimE) ?_ fun a b hab => Tr.alike_pure hab
    rw [push_zeroT_eq, push_zeroT_eq]
    exact pushT_alike h rfl
  · exact Tr.alike_bind (finalizeT_alike h) fun a b hab => Tr.alike_pure hab.2
  · exact Tr.alike_pure ⟨rfl, rfl, h.size⟩
  · exact Tr.alike_bind (Tr.alike_ask (by rw [h.total])) fun a b hab => Tr.alike_pure h

/-- **C104.** Whoever watches a SHA-256 engine at work — every condition, every position written, every
run of the compression function — learns the kinds and lengths of the calls and nothing else: two
histories that agree on these look the same. -/
theorem hash_shows_lengths_only (cs cs' : List Call) (h : cs.map Call.shape = cs'.map Call.shape) :
    engineEvents Engine.default cs = engineEvents Engine.default cs' := by
  have gen : ∀ (cs cs' : List Call) (e e' : Engine), SimE e e' →
      cs.map Call.shape = cs'.map Call.shape → engineEvents e cs = engineEvents e' cs' := by
    intro cs
    induction cs with
    | nil =>
      intro cs' e e' _ h
      cases cs' with
      | nil => rfl
      | cons _ _ => simp at h
    | cons c cs ih =>
      intro cs' e e' hs h
      cases cs' with
      | nil => simp at h
      | cons c' cs' =>
        simp only [List.map_cons, List.cons.injEq] at h
        have ha := stepT_alike hs h.1
        rw [engineEvents, engineEvents, ha.events]
        rcases ha.cases with ⟨hx, hy⟩ | ⟨a, b, hx, hy, hr⟩
        · rw [hx, hy]
        · rw [hx, hy]
          simp only []
          rw [ih cs' a.2 b.2 hr h.2]
  exact gen cs cs' _ _ (SimE.refl _) h

-- Two different messages of the same lengths, with a digest and a second message.
example : [Call.push [1, 2], .finalize, .pushZero 3].map Call.shape
    = [Call.push [7, 9], .finalize, .pushZero 3].map Call.shape := by decide
-- The lengths themselves can be seen.
example : engineEvents Engine.default [.push [1]] ≠ engineEvents Engine.default [.push [1, 2]] := by
  decide +kernel

theorem hstepT_alike {h h' : Hmac Engine} {c c' : HCall} (hs : SimH h h') (hc : c.shape = c'.shape) :
    Tr.Alike (fun a b : Out × Hmac Engine => SimH a.2 b.2) (hstepT h c) (hstepT h' c') := by
  cases c <;> cases c' <;> simp only [HCall.shape, Shape.push.injEq, Shape.pushZero.injEq, reduceCtorEq] at hc
  · exact Tr.alike_bind (hpushT_alike hs hc) fun a b hab => Tr.alike_pure hab
  · subst hc
    exact Tr.alike_bind (hpush_zeroT_alike _ hs) fun a b hab => Tr.alike_pure hab
  · exact Tr.alike_bind (hfinalizeT_alike hs) fun a b hab => Tr.alike_pure hab
  · exact Tr.alike_pure ⟨⟨rfl, rfl, hs.engine.size⟩, hs.ipad, hs.opad⟩

/-- **C104.** The same for HMAC-SHA-256, of which the key is the secret: creating an engine and using
it shows the length of the key and the kinds and lengths of the calls, nothing of the key's bytes, of
the messages, or of the codes computed. -/
theorem hmac_shows_lengths_only (key key' : List Byte) (cs cs' : List HCall)
    (hk : key.length = key'.length) (h : cs.map HCall.shape = cs'.map HCall.shape) :
    hmacProgram key cs = hmacProgram key' cs' := by
  have gen : ∀ (cs cs' : List HCall) (e e' : Hmac Engine), SimH e e' →
      cs.map HCall.shape = cs'.map HCall.shape → hmacEvents e cs = hmacEvents e' cs' := by
    intro cs
    induction cs with
    | nil =>
      intro cs' e e' _ h
      cases cs' with
      | nil => rfl
      | cons _ _ => simp at h
    | cons c cs ih =>
      intro cs' e e' hs h
      cases cs' with
      | nil => simp at h
      | cons c' cs' =>
        simp only [List.map_cons, List.cons.injEq] at h
        have ha := hstepT_alike hs h.1
        rw [hmacEvents, hmacEvents, ha.events]
        rcases ha.cases with ⟨hx, hy⟩ | ⟨a, b, hx, hy, hr⟩
        · rw [hx, hy]
        · rw [hx, hy]
          simp only []
          rw [ih cs' a.2 b.2 hr h.2]
  have ha := hmacWithT_alike hk (SimE.refl Engine.default)
  unfold hmacProgram hmacNewT
  rw [ha.events]
  rcases ha.cases with ⟨hx, hy⟩ | ⟨a, b, hx, hy, hr⟩
  · rw [hx, hy]
  · rw [hx, hy]
    simp only []
    rw [gen cs cs' a b hr h]

example : ([1, 2, 3] : List Byte).length = ([4, 5, 6] : List Byte).length ∧
    [HCall.push [1], .finalize].map HCall.shape = [HCall.push [9], .finalize].map HCall.shape := by decide
-- The length of the key can be seen, even if it is not hashed.
example : hmacProgram [1] [] ≠ hmacProgram [1, 2] [] := by decide +kernel

/-! ## Exact costs -/

theorem pad_length (m : List Byte) : (Spec.pad m).length = 64 * ((m.length + 72) / 64) := by
  simp only [Spec.pad, Spec.padZeros, Spec.be64, List.length_append, List.length_replicate,
    List.length_map, List.length_range, List.length_cons, List.length_nil]
  omega

theorem blocks_eq (m : List Byte) : Spec.blocks m = (m.length + 72) / 64 := by
  rw [Spec.blocks, pad_length]; omega

/-- Pushing pieces, as data or as zeros. -/
def feedT (e : Engine) : List Push → Tr Engine
  | [] => pure e
  | .data d :: ps => do let e' ← e.pushT d; feedT e' ps
  | .zero n :: ps => do let e' ← e.push_zeroT n; feedT e' ps

theorem feedT_costs (ps : List Push) (e : Engine) (hw : e.WF)
    (ht : e.total + (ps.flatMap Push.bytes).length < 2 ^ 64) :
    ∃ e', Costs (feedT e ps) e' ((64 - e.remaining + (ps.flatMap Push.bytes).length) / 64)
        (ps.flatMap Push.bytes).length
        (8 * ((64 - e.remaining + (ps.flatMap Push.bytes).length) / 64) + 8 * ps.length) ∧ e'.WF ∧
      e'.total = e.total + (ps.flatMap Push.bytes).length ∧
      e'.remaining = 64 - (64 - e.remaining + (ps.flatMap Push.bytes).length) % 64 := by
  induction ps generalizing e with
  | nil =>
    have := hw.rem_pos
    have := hw.rem_le
    refine ⟨e, Costs.cast (costs_pure e) rfl ?_ rfl (Nat.zero_le _), hw, rfl, ?_⟩
    · simp; omega
    · simp; omega
  | cons p ps ih =>
    have h2 := hw.rem_pos
    have h3 := hw.rem_le
    simp only [List.flatMap_cons, List.length_append] at ht ⊢
    have one : ∃ e1, Costs (match p with | .data d => e.pushT d | .zero n => e.push_zeroT n) e1
        ((64 - e.remaining + p.bytes.length) / 64) p.bytes.length
        (8 * ((64 - e.remaining + p.bytes.length) / 64) + 8) ∧ e1.WF ∧
        e1.total = e.total + p.bytes.length ∧
        e1.remaining = 64 - (64 - e.remaining + p.bytes.length) % 64 := by
      cases p with
      | data d =>
        obtain ⟨e1, c, r⟩ := pushT_costs e hw d (by simp only [Push.bytes] at ht; omega)
        exact ⟨e1, Costs.cast c rfl rfl rfl (by simp only [Push.bytes]; split <;> omega), r⟩
      | zero n =>
        obtain ⟨e1, c, r⟩ := pushT_costs e hw (List.replicate n 0) (by simp only [Push.bytes] at ht; omega)
        simp only [push_zeroT_eq]
        exact ⟨e1, Costs.cast c rfl rfl rfl (by simp only [Push.bytes]; split <;> omega), r⟩
    obtain ⟨e1, c1, w1, t1, r1⟩ := one
    obtain ⟨e2, c2, w2, t2, r2⟩ := ih e1 w1 (by omega)
    refine ⟨e2, ?_, w2, by omega, by omega⟩
    cases p with
    | data d =>
      exact Costs.cast (Costs.bind c1 c2) rfl (by omega) rfl (by simp only [List.length_cons]; omega)
    | zero n =>
      exact Costs.cast (Costs.bind c1 c2) rfl (by omega) rfl (by simp only [List.length_cons]; omega)

/-- Hashing a message given in pieces. -/
def digestT (e : Engine) (ps : List Push) : Tr (List Byte × Engine) := do
  let e ← feedT e ps
  e.finalizeT

/-- Hashing in pieces is a fold of pushes followed by `finalize`. -/
theorem digestT_faithful (e : Engine) (ps : List Push) :
    (digestT e ps).result = (ps.foldlM Push.run e).bind Engine.finalize := by
  have gen : ∀ (ps : List Push) (e : Engine), (feedT e ps).result = ps.foldlM Push.run e := by
    intro ps
    induction ps with
    | nil => intro e; rfl
    | cons p ps ih =>
      intro e
      cases p with
      | data d =>
        simp only [feedT, Tr.result_bind, pushT_result, List.foldlM_cons, Push.run, Option.bind_eq_bind]
        congr 1; funext e'; exact ih e'
      | zero n =>
        simp only [feedT, Tr.result_bind, push_zeroT_result, List.foldlM_cons, Push.run,
          Option.bind_eq_bind]
        congr 1; funext e'; exact ih e'
  simp only [digestT, Tr.result_bind, gen]
  congr 1; funext e'; exact finalizeT_result e'

/-- **C104.** A message costs one run of the compression function for each block of the padded message,
however it is cut into pieces, empty ones included, and however many messages the engine digested before; every
byte of the padded message is written into the buffer exactly once; all other steps together are linear in the number of
blocks and pieces. The engine is ready for the next message. Messages are those that can be
digested at all (C01). -/
theorem hash_cost (e : Engine) (he : e.Ready) (ps : List Push) (m : List Byte)
    (hm : ps.flatMap Push.bytes = m) (hl : m.length < 2 ^ 61) (h63 : m.length % 64 ≠ 63) :
    ∃ d e', (digestT e ps).result = some (d, e') ∧ e'.Ready ∧
      (digestT e ps).rounds = Spec.blocks m ∧
      (digestT e ps).written = (Spec.pad m).length ∧
      (digestT e ps).events.length ≤ 8 * Spec.blocks m + 8 * ps.length + 60 := by
  subst hm
  obtain ⟨e1, c1, w1, t1, r1⟩ := feedT_costs ps e he.wf (by rw [he.total]; omega)
  rw [he.remaining] at c1 r1
  rw [he.total] at t1
  obtain ⟨d, e2, c2, _, h2⟩ := finalizeT_costs e1 w1 (by omega) (by omega)
  have c := Costs.bind (f := fun e => e.finalizeT) c1 c2
  refine ⟨d, e2, c.result, h2, ?_, ?_, ?_⟩
  · rw [blocks_eq]; refine c.rounds.trans ?_; rw [r1]; split <;> omega
  · rw [pad_length]; refine c.written.trans ?_; rw [r1]; split <;> omega
  · rw [blocks_eq]; refine Nat.le_trans c.events ?_; omega

example : Engine.default.Ready := ready_default
example : Spec.blocks (List.replicate 55 0) = 1 ∧ Spec.blocks (List.replicate 56 0) = 2 ∧
    Spec.blocks (List.replicate 120 0) = 3 := by simp [blocks_eq]
example : (digestT Engine.default [.data (List.replicate 30 1), .zero 0, .zero 40]).rounds = 2 := by
  decide +kernel

/-- A reset engine is ready as well, whatever happened before. -/
theorem reset_ready (e : Engine) (hw : e.WF) : e.reset.Ready :=
  ⟨⟨hw.chunk_len, by simp [Engine.reset, CHUNK], by simp [Engine.reset, CHUNK]⟩, rfl, rfl⟩

/-- Authenticating a message given in pieces. -/
def hfeedT (h : Hmac Engine) : List Push → Tr (Hmac Engine)
  | [] => pure h
  | .data d :: ps => do let h' ← h.pushT d; hfeedT h' ps
  | .zero n :: ps => do let h' ← h.push_zeroT n; hfeedT h' ps

def macT (h : Hmac Engine) (ps : List Push) : Tr (List Byte × Hmac Engine) := do
  let h ← hfeedT h ps
  h.finalizeT

/-- A push of either kind on an HMAC engine. -/
def Push.hrun (h : Hmac Engine) : Push → Option (Hmac Engine)
  | .data d => h.push sha256Ops d
  | .zero n => h.push_zero sha256Ops n

/-- Authenticating in pieces is a fold of pushes followed by `finalize`. -/
theorem macT_faithful (h : Hmac Engine) (ps : List Push) :
    (macT h ps).result = (ps.foldlM Push.hrun h).bind (Hmac.finalize sha256Ops) := by
  have gen : ∀ (ps : List Push) (h : Hmac Engine), (hfeedT h ps).result = ps.foldlM Push.hrun h := by
    intro ps
    induction ps with
    | nil => intro e; rfl
    | cons p ps ih =>
      intro e
      cases p with
      | data d =>
        simp only [hfeedT, Tr.result_bind, hpushT_result, List.foldlM_cons, Push.hrun,
          Option.bind_eq_bind]
        congr 1; funext e'; exact ih e'
      | zero n =>
        simp only [hfeedT, Tr.result_bind, hpush_zeroT_result, List.foldlM_cons, Push.hrun,
          Option.bind_eq_bind]
        congr 1; funext e'; exact ih e'
  simp only [macT, Tr.result_bind, gen]
  congr 1; funext e'; exact hfinalizeT_result e'

/-- An HMAC engine at the start of a message. -/
structure HReady (h : Hmac Engine) : Prop where
  engine : h.engine.Ready
  ipad : h.ipad.length = 64
  opad : h.opad.length = 64

/-- An HMAC engine that has absorbed `n` bytes of a message. -/
structure HMid (h : Hmac Engine) (n : Nat) : Prop where
  wf : h.engine.WF
  total : h.engine.total = if n = 0 then 0 else 64 + n
  remaining : h.engine.remaining = 64 - n % 64
  ipad : h.ipad.length = 64
  opad : h.opad.length = 64

theorem HReady.mid {h : Hmac Engine} (hr : HReady h) : HMid h 0 :=
  ⟨hr.engine.wf, hr.engine.total, hr.engine.remaining, hr.ipad, hr.opad⟩

theorem startT_costs (h : Hmac Engine) (n : Nat) (hm : HMid h n) :
    ∃ e, Costs h.startT e (if n = 0 then 1 else 0) (if n = 0 then 64 else 0) 17 ∧ e.WF ∧
      e.total = 64 + n ∧ e.remaining = 64 - n % 64 := by
  unfold Hmac.startT Engine.is_resetT
  have hr := hm.remaining
  have ht := hm.total
  by_cases hn : n = 0
  · rw [if_pos hn] at ht ⊢
    rw [if_pos hn]
    obtain ⟨e, c, w, t, r⟩ := pushT_costs h.engine hm.wf h.ipad (by rw [ht, hm.ipad]; decide)
    rw [hm.ipad, if_neg (show ¬ (64 : Nat) = 0 by decide)] at c
    rw [hm.ipad] at t r
    refine ⟨e, ?_, w, by omega, by omega⟩
    refine Costs.cast (Costs.bind (costs_ask _) (r' := 1) (w' := 64) (l' := 16) ?_) rfl rfl rfl
      (Nat.le_refl _)
    rw [if_pos (by simp [ht])]
    exact Costs.cast c rfl (by omega) rfl (by omega)
  · rw [if_neg hn] at ht ⊢
    rw [if_neg hn]
    refine ⟨h.engine, ?_, hm.wf, ht, hr⟩
    refine Costs.cast (Costs.bind (costs_ask _) (r' := 0) (w' := 0) (l' := 0) ?_) rfl rfl rfl (by omega)
    rw [if_neg (by simp [ht])]
    exact costs_pure _

theorem hpiece_costs (h : Hmac Engine) (n : Nat) (hm : HMid h n) (d : List Byte)
    (hl : 64 + n + d.length < 2 ^ 64) (hd : d ≠ []) :
    ∃ e, Costs (h.startT >>= fun e => e.pushT d >>= fun e => pure { h with engine := e })
        { h with engine := e } ((if n = 0 then 1 else 0) + (n % 64 + d.length) / 64)
        ((if n = 0 then 64 else 0) + d.length) (8 * ((n % 64 + d.length) / 64) + 25) ∧
      HMid { h with engine := e } (n + d.length) := by
  obtain ⟨e1, c1, w1, t1, r1⟩ := startT_costs h n hm
  obtain ⟨e2, c2, w2, t2, r2⟩ := pushT_costs e1 w1 d (by omega)
  have h0 := List.length_pos_iff.mpr hd
  refine ⟨e2, ?_, w2, ?_, ?_, hm.ipad, hm.opad⟩
  · refine Costs.cast (Costs.bind c1 (Costs.bind c2 (costs_pure _))) rfl ?_ rfl ?_
    · rw [r1]; omega
    · rw [r1, if_neg (show ¬ d.length = 0 by omega)]; omega
  · simp only []; rw [if_neg (by omega)]; omega
  · simp only []; omega

theorem rounds_add {n a b r1 r2 : Nat}
    (h1 : r1 = if a = 0 then 0 else (if n = 0 then 1 else 0) + (n % 64 + a) / 64)
    (h2 : r2 + (if n + a = 0 then 0 else 1) = (if n + a + b = 0 then 0 else 1) + ((n + a) % 64 + b) / 64) :
    r1 + r2 + (if n = 0 then 0 else 1)
      = (if n + (a + b) = 0 then 0 else 1) + (n % 64 + (a + b)) / 64 := by
  rcases Nat.eq_zero_or_pos n with hn | hn <;> rcases Nat.eq_zero_or_pos a with ha | ha <;>
    rcases Nat.eq_zero_or_pos b with hb | hb <;>
    simp [hn, ha, hb, Nat.ne_of_gt] at h1 h2 ⊢ <;> omega

theorem written_add {n a b w1 w2 : Nat}
    (h1 : w1 = if a = 0 then 0 else (if n = 0 then 64 else 0) + a)
    (h2 : w2 + (if n + a = 0 then 0 else 64) = (if n + a + b = 0 then 0 else 64) + b) :
    w1 + w2 + (if n = 0 then 0 else 64) = (if n + (a + b) = 0 then 0 else 64) + (a + b) := by
  rcases Nat.eq_zero_or_pos n with hn | hn <;> rcases Nat.eq_zero_or_pos a with ha | ha <;>
    rcases Nat.eq_zero_or_pos b with hb | hb <;>
    simp [hn, ha, hb, Nat.ne_of_gt] at h1 h2 ⊢ <;> omega

theorem hfeedT_costs (ps : List Push) (h : Hmac Engine) (n : Nat) (hm : HMid h n)
    (hl : 64 + n + (ps.flatMap Push.bytes).length < 2 ^ 64) :
    ∃ h' r w l, Costs (hfeedT h ps) h' r w l ∧ HMid h' (n + (ps.flatMap Push.bytes).length) ∧
      r + (if n = 0 then 0 else 1) =
        (if n + (ps.flatMap Push.bytes).length = 0 then 0 else 1)
          + (n % 64 + (ps.flatMap Push.bytes).length) / 64 ∧
      w + (if n = 0 then 0 else 64) =
        (if n + (ps.flatMap Push.bytes).length = 0 then 0 else 64) + (ps.flatMap Push.bytes).length ∧
      l ≤ 8 * ((n % 64 + (ps.flatMap Push.bytes).length) / 64) + 26 * ps.length := by
  induction ps generalizing h n with
  | nil =>
    refine ⟨h, 0, 0, 0, costs_pure h, hm, ?_, ?_, Nat.zero_le _⟩
    · simp only [List.flatMap_nil, List.length_nil, Nat.add_zero, Nat.zero_add]; omega
    · simp
  | cons p ps ih =>
    simp only [List.flatMap_cons, List.length_append] at hl ⊢
    have one : ∃ h1 r w l, Costs (match p with | .data d => h.pushT d | .zero k => h.push_zeroT k) h1 r w l ∧
        HMid h1 (n + p.bytes.length) ∧
        r = (if p.bytes.length = 0 then 0 else (if n = 0 then 1 else 0) + (n % 64 + p.bytes.length) / 64) ∧
        w = (if p.bytes.length = 0 then 0 else (if n = 0 then 64 else 0) + p.bytes.length) ∧
        l = 8 * ((n % 64 + p.bytes.length) / 64) + 26 := by
      by_cases h0 : p.bytes.length = 0
      · refine ⟨h, 0, 0, _, ?_, by rw [h0]; exact hm, by rw [if_pos h0], by rw [if_pos h0], rfl⟩
        cases p with
        | data d =>
          have hd : d = [] := List.length_eq_zero_iff.mp h0
          subst hd
          exact Costs.cast (Costs.bind (costs_ask _) (costs_pure _)) rfl rfl rfl (by omega)
        | zero k =>
          have hk : k = 0 := by simpa [Push.bytes] using h0
          subst hk
          exact Costs.cast (Costs.bind (costs_ask _) (costs_pure _)) rfl rfl rfl (by omega)
      · obtain ⟨e, c, m1⟩ := hpiece_costs h n hm p.bytes (by omega)
          (by intro hn; rw [hn] at h0; exact h0 rfl)
        refine ⟨_, _, _, _, ?_, m1, by rw [if_neg h0], by rw [if_neg h0], rfl⟩
        cases p with
        | data d =>
          simp only [Hmac.pushT]
          have hd : d.isEmpty = false := by cases d with | nil => exact absurd rfl h0 | cons _ _ => rfl
          rw [hd]
          exact Costs.cast (Costs.bind (costs_ask false) c) rfl (by omega) (by omega) (by omega)
        | zero k =>
          have hk : k > 0 := by simp [Push.bytes] at h0; omega
          simp only [Hmac.push_zeroT, push_zeroT_eq]
          rw [decide_eq_true hk]
          exact Costs.cast (Costs.bind (costs_ask true) c) rfl (by omega) (by omega) (by omega)
    obtain ⟨h1, r1, w1, l1, c1, m1, hr1, hw1, hl1⟩ := one
    obtain ⟨h2, r2, w2, l2, c2, m2, hr2, hw2, hl2⟩ := ih h1 _ m1 (by omega)
    refine ⟨h2, r1 + r2, w1 + w2, l1 + l2, ?_, by rw [← Nat.add_assoc]; exact m2, ?_, ?_, ?_⟩
    · cases p with
      | data d => exact Costs.bind c1 c2
      | zero n => exact Costs.bind c1 c2
    · exact rounds_add hr1 hr2
    · exact written_add hw1 hw2
    · simp only [List.length_cons]
      omega

theorem hfinalizeT_costs (h : Hmac Engine) (n : Nat) (hm : HMid h n) (hl : 64 + n < 2 ^ 61)
    (h63 : n % 64 ≠ 63) :
    ∃ d h', Costs h.finalizeT (d, h')
        ((if n = 0 then 1 else 0) + (if 64 - n % 64 < 9 then 2 else 1) + 2)
        ((if n = 0 then 64 else 0) + (if 64 - n % 64 < 9 then 64 - n % 64 + 64 else 64 - n % 64) + 128)
        161 ∧ HReady h' := by
  obtain ⟨e1, c1, w1, t1, r1⟩ := startT_costs h n hm
  obtain ⟨v, e2, c2, hv, y2⟩ := finalizeT_costs e1 w1 (by omega) (by omega)
  obtain ⟨e3, c3, w3, t3, r3⟩ := pushT_costs e2 y2.wf h.opad (by rw [y2.total, hm.opad]; decide)
  rw [hm.opad, y2.remaining] at c3
  rw [hm.opad, y2.total] at t3
  rw [hm.opad, y2.remaining] at r3
  obtain ⟨e4, c4, w4, t4, r4⟩ := pushT_costs e3 w3 v (by rw [t3, hv]; decide)
  rw [hv, r3] at c4
  rw [hv, t3] at t4
  rw [hv, r3] at r4
  obtain ⟨d, e5, c5, hd, y5⟩ := finalizeT_costs e4 w4 (by rw [t4]; decide) (by rw [r4]; decide)
  rw [r4] at c5
  rw [r1] at c2
  refine ⟨d, { h with engine := e5 }, ?_, y5, hm.ipad, hm.opad⟩
  unfold Hmac.finalizeT
  refine Costs.cast (Costs.bind c1 (Costs.bind c2 (Costs.bind c3 (Costs.bind c4 (Costs.bind c5
    (costs_pure _)))))) rfl ?_ ?_ ?_
  · simp; omega
  · simp; omega
  · simp

/-- **C104.** A code costs exactly the compressions of the two messages of RFC 2104 that are hashed
for it, however the message is cut into pieces; the engine does not start from the pads earlier or
more often than once per message. All other steps together are linear. -/
theorem hmac_cost (h : Hmac Engine) (hr : HReady h) (ps : List Push) (m : List Byte)
    (hm : ps.flatMap Push.bytes = m) (hl : 64 + m.length < 2 ^ 61) (h63 : m.length % 64 ≠ 63) :
    ∃ d h', (macT h ps).result = some (d, h') ∧ HReady h' ∧
      (macT h ps).rounds
        = Spec.blocks (h.ipad ++ m) + Spec.blocks (h.opad ++ Spec.sha256 (h.ipad ++ m)) ∧
      (macT h ps).written
        = (Spec.pad (h.ipad ++ m)).length + (Spec.pad (h.opad ++ Spec.sha256 (h.ipad ++ m))).length ∧
      (macT h ps).events.length ≤ 8 * Spec.blocks (h.ipad ++ m) + 26 * ps.length + 161 := by
  subst hm
  obtain ⟨h1, r1, w1, l1, c1, m1, hr1, hw1, hl1⟩ := hfeedT_costs ps h 0 hr.mid (by omega)
  simp only [Nat.zero_add, Nat.add_zero, Nat.zero_mod, if_true] at m1 hr1 hw1 hl1
  obtain ⟨d, h2, c2, y2⟩ := hfinalizeT_costs h1 _ m1 hl h63
  have c := Costs.bind (f := fun h => h.finalizeT) c1 c2
  have e1 : Spec.blocks (h.ipad ++ ps.flatMap Push.bytes) = (64 + (ps.flatMap Push.bytes).length + 72) / 64 := by
    rw [blocks_eq, List.length_append, hr.ipad]
  have e2 : Spec.blocks (h.opad ++ Spec.sha256 (h.ipad ++ ps.flatMap Push.bytes)) = 2 := by
    rw [blocks_eq, List.length_append, hr.opad, sha256_length]
  have e3 : (Spec.pad (h.opad ++ Spec.sha256 (h.ipad ++ ps.flatMap Push.bytes))).length = 128 := by
    rw [pad_length, List.length_append, hr.opad, sha256_length]
  have e4 : (Spec.pad (h.ipad ++ ps.flatMap Push.bytes)).length
      = 64 * ((64 + (ps.flatMap Push.bytes).length + 72) / 64) := by
    rw [pad_length, List.length_append, hr.ipad]
  refine ⟨d, h2, c.result, y2, ?_, ?_, ?_⟩
  · rw [e1, e2]
    refine c.rounds.trans ?_
    clear c c1 c2 hw1 hl1 m1 e1 e2 e3 e4
    generalize (ps.flatMap Push.bytes).length = n at *
    by_cases h0 : n = 0
    · subst h0; simp at hr1 ⊢; omega
    · rw [if_neg h0] at hr1 ⊢
      split <;> omega
  · rw [e3, e4]
    refine c.written.trans ?_
    clear c c1 c2 hr1 hl1 m1 e1 e2 e3 e4
    generalize (ps.flatMap Push.bytes).length = n at *
    by_cases h0 : n = 0
    · subst h0; simp at hw1 ⊢; omega
    · rw [if_neg h0] at hw1 ⊢
      split <;> omega
  · rw [e1]
    refine Nat.le_trans c.events ?_
    omega

theorem padLoopT_costs (key : List Byte) (ip op : List Byte) (i : Nat) (h1 : ip.length = 64)
    (h2 : op.length = 64) (hk : i + key.length ≤ 64) :
    ∃ ip' op', Costs (padLoopT ip op i key) (ip', op') 0 (2 * key.length) (4 * key.length + 1) ∧
      ip'.length = 64 ∧ op'.length = 64 := by
  induction key generalizing ip op i with
  | nil =>
    exact ⟨ip, op, Costs.cast (Costs.bind (costs_ask _) (costs_pure _)) rfl rfl rfl (Nat.le_refl _), h1, h2⟩
  | cons v vs ih =>
    simp only [List.length_cons] at hk ⊢
    obtain ⟨ip', op', c, x1, x2⟩ := ih (ip.set i (v ^^^ 0x36)) (op.set i (v ^^^ 0x5c)) (i + 1)
      (by simp [h1]) (by simp [h2]) (by omega)
    refine ⟨ip', op', ?_, x1, x2⟩
    rw [padLoopT]
    exact Costs.cast (Costs.bind (costs_ask true)
      (Costs.bind (costs_check (decide_eq_true (by omega))) (Costs.bind (costs_write _ _)
        (Costs.bind (costs_write _ _) c)))) rfl (by omega) (by omega) (by omega)

/-- **C104.** Creating an HMAC engine costs nothing but the hashing of a key longer than a block. -/
theorem hmac_new_cost (key : List Byte)
    (hk : key.length ≤ 64 ∨ (key.length < 2 ^ 61 ∧ key.length % 64 ≠ 63)) :
    ∃ h, (hmacNewT key).result = some h ∧ HReady h ∧
      (hmacNewT key).rounds = (if key.length > 64 then Spec.blocks key else 0) ∧
      (hmacNewT key).events.length ≤ 8 * (if key.length > 64 then Spec.blocks key else 0) + 330 := by
  unfold hmacNewT hmacWithT
  have hu : ∃ u e w l, Costs (usedKeyT key Engine.default) (u, e)
      (if key.length > 64 then Spec.blocks key else 0) w l ∧ u.length ≤ 64 ∧ e.Ready ∧
      l ≤ 8 * (if key.length > 64 then Spec.blocks key else 0) + 70 := by
    unfold usedKeyT
    by_cases hg : key.length > 64
    · rw [if_pos hg]
      obtain ⟨e1, c1, w1, t1, r1⟩ := pushT_costs Engine.default ready_default.wf key
        (by rw [ready_default.total]; omega)
      rw [ready_default.remaining] at c1 r1
      rw [ready_default.total] at t1
      obtain ⟨d, e2, c2, hd, y2⟩ := finalizeT_costs e1 w1 (by omega) (by omega)
      rw [if_neg (show ¬ key.length = 0 by omega)] at c1
      have c := Costs.bind (f := fun e => e.finalizeT) c1 c2
      refine ⟨d, e2, _, 1 + (8 * ((64 - 64 + key.length) / 64) + 8 + 60),
        Costs.cast (Costs.bind (costs_ask _) (w' := _) (by rw [if_pos (decide_eq_true hg)]; exact c)) rfl
          ?_ rfl (Nat.le_refl _), by omega, y2, ?_⟩
      · rw [blocks_eq, r1]; split <;> omega
      · rw [blocks_eq]; omega
    · rw [if_neg hg]
      refine ⟨key, Engine.default, 0, 1,
        Costs.cast (Costs.bind (costs_ask _) (r' := 0) (w' := 0) (l' := 0) ?_) rfl rfl rfl
        (Nat.le_refl _), by omega, ready_default, by omega⟩
      rw [if_neg (by simpa using hg)]
      exact costs_pure _
  obtain ⟨u, e, w, l, c1, hul, y, hl⟩ := hu
  obtain ⟨ip, op, c2, x1, x2⟩ := padLoopT_costs u (List.replicate 64 0x36#8) (List.replicate 64 0x5c#8) 0
    (by simp) (by simp) (by omega)
  have c := Costs.bind (f := fun _ => do
      let u ← usedKeyT key Engine.default
      let p ← padLoopT (List.replicate 64 0x36#8) (List.replicate 64 0x5c#8) 0 u.1
      pure ({ engine := u.2, ipad := p.1, opad := p.2 } : Hmac Engine))
    (costs_check (b := Engine.default.is_reset) rfl)
    (Costs.bind c1 (Costs.bind c2 (costs_pure ({ engine := e, ipad := ip, opad := op } : Hmac Engine))))
  refine ⟨_, c.result, ⟨y, x1, x2⟩, ?_, ?_⟩
  · refine c.rounds.trans (by omega)
  · refine Nat.le_trans c.events (by omega)

-- A new engine, its first and its second message: 1 + 1 and 2 compressions, twice.
example : (hmacNewT [1, 2, 3]).result.map
    (fun h => ((macT h [.data [1], .data [], .data [2]]).rounds, (macT h []).rounds)) = some (4, 4) := by
  decide +kernel
example : (hmacNewT (List.replicate 65 1)).rounds = 2 := by decide +kernel

end Verif.Hash
