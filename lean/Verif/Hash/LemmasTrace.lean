import Verif.Hash.ModelTrace
import Verif.Hash.PropsHmac
/-! # Lemmas about the traced SHA-256 and HMAC -/
namespace Verif.Hash
namespace Tr

variable {α β : Type}

theorem bind_def (x : Tr α) (f : α → Tr β) : (x >>= f) = Tr.bind x f := rfl
theorem pure_def (a : α) : (pure a : Tr α) = ⟨[], some a⟩ := rfl

@[simp] theorem result_bind (x : Tr α) (f : α → Tr β) :
    (x >>= f).result = x.result.bind fun a => (f a).result := by
  rw [bind_def, Tr.bind]; cases x.result <;> rfl

@[simp] theorem result_pure (a : α) : (pure a : Tr α).result = some a := rfl
@[simp] theorem result_ask (b : Bool) : (ask b).result = some b := rfl
@[simp] theorem result_check (b : Bool) : (check b).result = if b then some () else none := rfl
@[simp] theorem result_write (p n : Nat) : (write p n).result = some () := rfl
@[simp] theorem result_round : round.result = some () := rfl
@[simp] theorem result_fail : (fail : Tr α).result = none := rfl

theorem bind_some {x : Tr α} {a : α} {f : α → Tr β} (h : x.result = some a) :
    (x >>= f) = ⟨x.events ++ (f a).events, (f a).result⟩ := by
  rw [bind_def, Tr.bind, h]

/-- Two computations an observer cannot tell apart, with related results. -/
structure Alike (R : α → β → Prop) (x : Tr α) (y : Tr β) : Prop where
  events : x.events = y.events
  result : match x.result, y.result with
    | none, none => True
    | some a, some b => R a b
    | _, _ => False

theorem Alike.cases {R : α → β → Prop} {x : Tr α} {y : Tr β} (h : Alike R x y) :
    (x.result = none ∧ y.result = none) ∨ ∃ a b, x.result = some a ∧ y.result = some b ∧ R a b := by
  have h2 := h.result
  cases hx : x.result with
  | none =>
    cases hy : y.result with
    | none => exact Or.inl ⟨rfl, rfl⟩
    | some b => rw [hx, hy] at h2; exact h2.elim
  | some a =>
    cases hy : y.result with
    | none => rw [hx, hy] at h2; exact h2.elim
    | some b => rw [hx, hy] at h2; exact Or.inr ⟨a, b, rfl, rfl, h2⟩

theorem alike_pure {R : α → β → Prop} {a : α} {b : β} (h : R a b) :
    Alike R (pure a : Tr α) (pure b : Tr β) := ⟨rfl, h⟩

theorem alike_fail {R : α → β → Prop} : Alike R (fail : Tr α) (fail : Tr β) := ⟨rfl, trivial⟩

theorem alike_ask {b c : Bool} (h : b = c) : Alike Eq (ask b) (ask c) := by
  subst h; exact ⟨rfl, rfl⟩

theorem alike_check {b c : Bool} (h : b = c) : Alike Eq (check b) (check c) := by
  subst h; cases b <;> exact ⟨rfl, by simp [check]⟩

theorem alike_write {p q n m : Nat} (h1 : p = q) (h2 : n = m) : Alike Eq (write p n) (write q m) := by
  subst h1 h2; exact ⟨rfl, rfl⟩

theorem alike_round : Alike Eq round round := ⟨rfl, rfl⟩

theorem alike_bind {γ δ : Type} {R : α → β → Prop} {S : γ → δ → Prop} {x : Tr α} {y : Tr β}
    {f : α → Tr γ} {g : β → Tr δ} (h : Alike R x y) (hf : ∀ a b, R a b → Alike S (f a) (g b)) :
    Alike S (x >>= f) (y >>= g) := by
  rcases h.cases with ⟨hx, hy⟩ | ⟨a, b, hx, hy, hr⟩
  · rw [bind_def, bind_def, Tr.bind, Tr.bind, hx, hy]
    exact ⟨h.events, trivial⟩
  · rw [bind_some hx, bind_some hy]
    have := hf a b hr
    exact ⟨by rw [h.events, this.events], this.result⟩

/-- The sum of a weight over all events. -/
def sum (w : Ev → Nat) (x : Tr α) : Nat := (x.events.map w).sum

end Tr

/-! ## The traced functions return what the models return -/

theorem copy_atT_result (chunk : List Byte) (idx : Nat) (src : List Byte) :
    (copy_atT chunk idx src).result = copy_at chunk idx src := by
  unfold copy_atT copy_at
  by_cases h : idx + src.length ≤ chunk.length <;> simp [h]

theorem commitT_result (e : Engine) :
    e.commitT.result = if e.remaining = 0 then
        if h : e.chunk.length = 64 then
          some { e with hash := sha256_round ⟨e.chunk.toArray, by simpa using h⟩ e.hash,
                        remaining := e.chunk.length }
        else none
      else some e := by
  unfold Engine.commitT
  by_cases h : e.remaining = 0
  · simp only [decide_eq_true h, Tr.result_bind, Tr.result_ask, Option.bind_some, if_true]
    rw [if_pos h]
    simp only [Tr.result_bind, Tr.result_round, Option.bind_some]
    split <;> rfl
  · simp only [decide_eq_false h, Tr.result_bind, Tr.result_ask, Option.bind_some, Bool.false_eq_true,
      if_false]
    rw [if_neg h]; rfl

theorem storeT_result (e : Engine) (src : List Byte) : (e.storeT src).result = e.store src := by
  unfold Engine.storeT Engine.store
  simp only [Tr.result_bind, Tr.result_check, copy_atT_result, commitT_result, guard,
    decide_eq_true_eq, Option.bind_eq_bind, Option.pure_def]
  rfl

theorem pushT_result (e : Engine) (data : List Byte) : (e.pushT data).result = e.push data := by
  induction hn : data.length using Nat.strongRecOn generalizing e data with
  | ind n ih =>
    rw [Engine.pushT, Engine.push]
    by_cases hd : data.isEmpty
    · rw [if_pos hd, if_pos hd]; rfl
    · rw [if_neg hd, if_neg hd]
      simp only []
      by_cases hz : min e.remaining data.length = 0
      · rw [dif_pos hz, dif_pos hz]; rfl
      · rw [dif_neg hz, dif_neg hz]
        simp only [Tr.result_bind, Tr.result_ask, Option.bind_some, storeT_result]
        cases e.store (data.take (min e.remaining data.length)) with
        | none => rfl
        | some e' =>
          simp only [Option.bind_some]
          exact ih _ (by simp; omega) e' _ rfl

/-- Zeros are pushed exactly as data is. -/
theorem push_zeroT_eq (e : Engine) (n : Nat) : e.push_zeroT n = e.pushT (List.replicate n 0) := by
  induction n using Nat.strongRecOn generalizing e with
  | ind n ih =>
    rw [Engine.pushT, Engine.push_zeroT]
    by_cases hd : n = 0
    · subst hd; rfl
    · rw [if_neg hd, if_neg (by cases n with | zero => exact absurd rfl hd | succ k => simp [List.replicate])]
      simp only [List.length_replicate]
      by_cases hz : min e.remaining n = 0
      · rw [dif_pos hz, dif_pos hz]
      · rw [dif_neg hz, dif_neg hz, List.take_replicate, List.drop_replicate]
        have e1 : min (min e.remaining n) n = min e.remaining n := by omega
        rw [e1]
        congr 1
        funext _
        congr 1
        funext e'
        exact ih _ (by omega) e'

theorem push_zeroT_result (e : Engine) (n : Nat) : (e.push_zeroT n).result = e.push_zero n := by
  induction n using Nat.strongRecOn generalizing e with
  | ind n ih =>
    rw [Engine.push_zeroT, Engine.push_zero]
    by_cases hd : n = 0
    · rw [if_pos hd, if_pos hd]; rfl
    · rw [if_neg hd, if_neg hd]
      simp only []
      by_cases hz : min e.remaining n = 0
      · rw [dif_pos hz, dif_pos hz]; rfl
      · rw [dif_neg hz, dif_neg hz]
        simp only [Tr.result_bind, Tr.result_ask, Option.bind_some, storeT_result]
        cases e.store (List.replicate (min e.remaining n) 0) with
        | none => rfl
        | some e' =>
          simp only [Option.bind_some]
          exact ih _ (by omega) e'

theorem spillT_result (e : Engine) :
    (e.spillT).result = if e.remaining < 8 then e.push_zero e.remaining else some e := by
  unfold Engine.spillT
  by_cases h : e.remaining < 8
  · simp [h, push_zeroT_result]
  · simp [h]

theorem finalizeT_result (e : Engine) : e.finalizeT.result = e.finalize := by
  unfold Engine.finalizeT Engine.finalize
  simp only [Tr.result_bind, Tr.result_check, Tr.result_write, spillT_result, push_zeroT_result,
    pushT_result, guard, decide_eq_true_eq, Option.bind_eq_bind, Option.pure_def,
    Option.bind_some, Tr.result_pure]
  rfl

theorem is_resetT_result (e : Engine) : e.is_resetT.result = some e.is_reset := rfl

theorem hashT_result (data : List Byte) : (hashT data).result = hash data := by
  unfold hashT hash
  simp only [Tr.result_bind, pushT_result, finalizeT_result, Tr.result_pure, Option.bind_eq_bind]

theorem padLoopT_result (ipad opad : List Byte) (i : Nat) (key : List Byte) :
    (padLoopT ipad opad i key).result = padLoop ipad opad i key := by
  induction key generalizing ipad opad i with
  | nil => rfl
  | cons v vs ih =>
    rw [padLoopT, padLoop]
    simp only [Tr.result_bind, Tr.result_ask, Option.bind_some, Tr.result_check, Tr.result_write, ih,
      decide_eq_true_eq]
    by_cases h : i < ipad.length ∧ i < opad.length
    · rw [if_pos h, if_pos h]; rfl
    · rw [if_neg h, if_neg h]; rfl

theorem usedKeyT_result (key : List Byte) (engine : Engine) :
    (usedKeyT key engine).result
      = if key.length > 64 then (engine.push key).bind Engine.finalize else some (key, engine) := by
  unfold usedKeyT
  by_cases h : key.length > 64
  · simp [h, pushT_result, finalizeT_result]
  · simp [h]

theorem hmacWithT_result (key : List Byte) (engine : Engine) :
    (hmacWithT key engine).result = Hmac.with_engine sha256Ops 64 key engine := by
  unfold hmacWithT Hmac.with_engine
  simp only [Tr.result_bind, Tr.result_check, usedKeyT_result, padLoopT_result, Tr.result_pure, guard,
    Option.bind_eq_bind, Option.pure_def]
  rfl

theorem startT_result (h : Hmac Engine) :
    h.startT.result = if sha256Ops.is_reset h.engine then sha256Ops.push h.engine h.ipad
      else some h.engine := by
  unfold Hmac.startT
  simp only [Tr.result_bind, is_resetT_result, Option.bind_some]
  show (if h.engine.is_reset = true then h.engine.pushT h.ipad else pure h.engine).result
    = if h.engine.is_reset = true then h.engine.push h.ipad else some h.engine
  by_cases hr : h.engine.is_reset = true
  · rw [if_pos hr, if_pos hr, pushT_result]
  · rw [if_neg hr, if_neg hr]; rfl

theorem hpushT_result (h : Hmac Engine) (data : List Byte) :
    (h.pushT data).result = h.push sha256Ops data := by
  unfold Hmac.pushT Hmac.push
  simp only [Tr.result_bind, Tr.result_ask, Option.bind_some]
  by_cases hd : data.isEmpty = true
  · rw [if_pos hd, if_pos hd]; rfl
  · rw [if_neg hd, if_neg hd]
    simp only [Tr.result_bind, startT_result, pushT_result, Tr.result_pure, Option.bind_eq_bind]
    rfl

theorem hpush_zeroT_result (h : Hmac Engine) (n : Nat) :
    (h.push_zeroT n).result = h.push_zero sha256Ops n := by
  unfold Hmac.push_zeroT Hmac.push_zero
  simp only [Tr.result_bind, Tr.result_ask, Option.bind_some, decide_eq_true_eq]
  by_cases hd : n > 0
  · rw [if_pos hd, if_pos hd]
    simp only [Tr.result_bind, startT_result, push_zeroT_result, Tr.result_pure, Option.bind_eq_bind]
    rfl
  · rw [if_neg hd, if_neg hd]; rfl

theorem hfinalizeT_result (h : Hmac Engine) :
    h.finalizeT.result = h.finalize sha256Ops := by
  unfold Hmac.finalizeT Hmac.finalize
  simp only [Tr.result_bind, startT_result, pushT_result, finalizeT_result, Tr.result_pure,
    Option.bind_eq_bind]
  rfl

/-! ## Only lengths can be seen -/

/-- Engines an observer cannot tell apart: same counters, same size of the buffer. -/
structure SimE (e e' : Engine) : Prop where
  remaining : e.remaining = e'.remaining
  total : e.total = e'.total
  size : e.chunk.length = e'.chunk.length

theorem SimE.refl (e : Engine) : SimE e e := ⟨rfl, rfl, rfl⟩

theorem isEmpty_of_length {d d' : List Byte} (h : d.length = d'.length) : d.isEmpty = d'.isEmpty := by
  cases d <;> cases d' <;> first | rfl | (simp at h)

theorem copy_atT_alike {c c' s s' : List Byte} {i : Nat} (hc : c.length = c'.length)
    (hs : s.length = s'.length) :
    Tr.Alike (fun a b : List Byte => a.length = b.length) (copy_atT c i s) (copy_atT c' i s') := by
  unfold copy_atT
  rw [hc, hs]
  refine Tr.alike_bind (Tr.alike_check rfl) fun _ _ _ => ?_
  refine Tr.alike_bind (Tr.alike_write rfl rfl) fun _ _ _ => ?_
  exact Tr.alike_pure (by simp [hc, hs])

theorem commitT_alike {e e' : Engine} (h : SimE e e') : Tr.Alike SimE e.commitT e'.commitT := by
  unfold Engine.commitT
  refine Tr.alike_bind (Tr.alike_ask (by rw [h.remaining])) fun x y hxy => ?_
  subst hxy
  cases x with
  | false => exact Tr.alike_pure h
  | true =>
    simp only [if_true]
    refine Tr.alike_bind Tr.alike_round fun _ _ _ => ?_
    have hs := h.size
    by_cases hl : e.chunk.length = 64
    · rw [dif_pos hl, dif_pos (by omega)]
      exact Tr.alike_pure ⟨hs, h.total, hs⟩
    · rw [dif_neg hl, dif_neg (by omega)]
      exact Tr.alike_fail

theorem storeT_alike {e e' : Engine} {s s' : List Byte} (h : SimE e e') (hs : s.length = s'.length) :
    Tr.Alike SimE (e.storeT s) (e'.storeT s') := by
  obtain ⟨h1, h2, h3⟩ := h
  unfold Engine.storeT
  rw [h1, h2, h3, hs]
  refine Tr.alike_bind (Tr.alike_check rfl) fun _ _ _ => ?_
  refine Tr.alike_bind (copy_atT_alike h3 hs) fun a b hab => ?_
  refine Tr.alike_bind (Tr.alike_check rfl) fun _ _ _ => ?_
  refine Tr.alike_bind (Tr.alike_check rfl) fun _ _ _ => ?_
  exact commitT_alike ⟨rfl, rfl, hab⟩

theorem pushT_alike {e e' : Engine} {d d' : List Byte} (h : SimE e e') (hd : d.length = d'.length) :
    Tr.Alike SimE (e.pushT d) (e'.pushT d') := by
  induction hn : d.length using Nat.strongRecOn generalizing e e' d d' with
  | ind n ih =>
    rw [Engine.pushT, Engine.pushT]
    have he : d.isEmpty = d'.isEmpty := isEmpty_of_length hd
    rw [he]
    by_cases hp : d'.isEmpty = true
    · rw [if_pos hp, if_pos hp]
      refine Tr.alike_bind (Tr.alike_ask rfl) fun _ _ _ => ?_
      exact Tr.alike_pure h
    · rw [if_neg hp, if_neg hp]
      have hm : min e.remaining d.length = min e'.remaining d'.length := by rw [h.remaining, hd]
      rw [hm]
      by_cases hz : min e'.remaining d'.length = 0
      · rw [dif_pos hz, dif_pos hz]; exact Tr.alike_fail
      · rw [dif_neg hz, dif_neg hz]
        refine Tr.alike_bind (Tr.alike_ask rfl) fun _ _ _ => ?_
        refine Tr.alike_bind (storeT_alike h (by simp [hd])) fun a b hab => ?_
        exact ih _ (by simp; omega) hab (by simp [hd]) rfl

theorem spillT_alike {e e' : Engine} (h : SimE e e') : Tr.Alike SimE e.spillT e'.spillT := by
  unfold Engine.spillT
  rw [push_zeroT_eq, push_zeroT_eq, h.remaining]
  refine Tr.alike_bind (Tr.alike_ask rfl) fun x y hxy => ?_
  subst hxy
  cases x with
  | false => exact Tr.alike_pure h
  | true => exact pushT_alike h rfl

theorem flatMap_be32_length (l : List Word) : (l.flatMap to_be_bytes32).length = 4 * l.length := by
  induction l with
  | nil => rfl
  | cons a l ih => simp only [List.flatMap_cons, List.length_append, ih, List.length_cons,
      to_be_bytes32, List.length_nil]; omega

theorem digest_length (v : Vector Word 8) : (v.toList.flatMap to_be_bytes32).length = 32 := by
  rw [flatMap_be32_length]; simp

theorem finalizeT_alike {e e' : Engine} (h : SimE e e') :
    Tr.Alike (fun a b : List Byte × Engine => a.1.length = b.1.length ∧ SimE a.2 b.2)
      e.finalizeT e'.finalizeT := by
  unfold Engine.finalizeT
  have h1 := h.remaining
  have h2 := h.total
  have h3 := h.size
  rw [h1, h2, h3]
  refine Tr.alike_bind (Tr.alike_check rfl) fun _ _ _ => ?_
  refine Tr.alike_bind (Tr.alike_check rfl) fun _ _ _ => ?_
  refine Tr.alike_bind (Tr.alike_check rfl) fun _ _ _ => ?_
  refine Tr.alike_bind (Tr.alike_write rfl rfl) fun _ _ _ => ?_
  refine Tr.alike_bind (spillT_alike ⟨rfl, rfl, by simp [h3]⟩) fun a b hab => ?_
  rw [hab.remaining]
  refine Tr.alike_bind (Tr.alike_check rfl) fun _ _ _ => ?_
  rw [push_zeroT_eq, push_zeroT_eq]
  refine Tr.alike_bind (pushT_alike hab rfl) fun a b hab => ?_
  refine Tr.alike_bind (pushT_alike hab rfl) fun a b hab => ?_
  rw [hab.remaining, hab.size]
  refine Tr.alike_bind (Tr.alike_check rfl) fun _ _ _ => ?_
  exact Tr.alike_pure ⟨by rw [digest_length, digest_length], rfl, rfl, hab.size⟩

theorem padLoopT_alike {ip op ip' op' k k' : List Byte} (i : Nat) (h1 : ip.length = ip'.length)
    (h2 : op.length = op'.length) (hk : k.length = k'.length) :
    Tr.Alike (fun a b : List Byte × List Byte => a.1.length = b.1.length ∧ a.2.length = b.2.length)
      (padLoopT ip op i k) (padLoopT ip' op' i k') := by
  induction k generalizing ip op ip' op' k' i with
  | nil =>
    cases k' with
    | cons _ _ => simp at hk
    | nil =>
      refine Tr.alike_bind (Tr.alike_ask rfl) fun _ _ _ => ?_
      exact Tr.alike_pure ⟨h1, h2⟩
  | cons v vs ih =>
    cases k' with
    | nil => simp at hk
    | cons v' vs' =>
      rw [padLoopT, padLoopT, h1, h2]
      refine Tr.alike_bind (Tr.alike_ask rfl) fun _ _ _ => ?_
      refine Tr.alike_bind (Tr.alike_check rfl) fun _ _ _ => ?_
      refine Tr.alike_bind (Tr.alike_write rfl rfl) fun _ _ _ => ?_
      refine Tr.alike_bind (Tr.alike_write rfl rfl) fun _ _ _ => ?_
      exact ih _ (by simp [h1]) (by simp [h2]) (by simpa using hk)

/-- HMAC engines an observer cannot tell apart. -/
structure SimH (h h' : Hmac Engine) : Prop where
  engine : SimE h.engine h'.engine
  ipad : h.ipad.length = h'.ipad.length
  opad : h.opad.length = h'.opad.length

theorem hmacWithT_alike {k k' : List Byte} {e e' : Engine} (hk : k.length = k'.length)
    (h : SimE e e') : Tr.Alike SimH (hmacWithT k e) (hmacWithT k' e') := by
  unfold hmacWithT
  refine Tr.alike_bind (Tr.alike_check (by rw [Engine.is_reset, Engine.is_reset, h.total]))
    fun _ _ _ => ?_
  refine Tr.alike_bind
    (R := fun a b : List Byte × Engine => a.1.length = b.1.length ∧ SimE a.2 b.2) ?_ fun a b hab => ?_
  · unfold usedKeyT
    rw [hk]
    refine Tr.alike_bind (Tr.alike_ask rfl) fun x y hxy => ?_
    subst hxy
    cases x with
    | false => exact Tr.alike_pure ⟨hk, h⟩
    | true =>
      simp only [if_true]
      exact Tr.alike_bind (pushT_alike h hk) fun a b hab => finalizeT_alike hab
  · refine Tr.alike_bind (padLoopT_alike 0 rfl rfl hab.1) fun p q hpq => ?_
    exact Tr.alike_pure ⟨hab.2, hpq.1, hpq.2⟩

theorem startT_alike {h h' : Hmac Engine} (hs : SimH h h') :
    Tr.Alike SimE h.startT h'.startT := by
  unfold Hmac.startT
  refine Tr.alike_bind (Tr.alike_ask (by rw [hs.engine.total])) fun x y hxy => ?_
  subst hxy
  cases x with
  | false => exact Tr.alike_pure hs.engine
  | true => exact pushT_alike hs.engine hs.ipad

theorem hpushT_alike {h h' : Hmac Engine} {d d' : List Byte} (hs : SimH h h')
    (hd : d.length = d'.length) : Tr.Alike SimH (h.pushT d) (h'.pushT d') := by
  unfold Hmac.pushT
  have he : d.isEmpty = d'.isEmpty := isEmpty_of_length hd
  refine Tr.alike_bind (Tr.alike_ask he) fun x y hxy => ?_
  subst hxy
  cases x with
  | true => exact Tr.alike_pure hs
  | false =>
    simp only [Bool.false_eq_true, if_false]
    refine Tr.alike_bind (startT_alike hs) fun a b hab => ?_
    refine Tr.alike_bind (pushT_alike hab hd) fun a b hab => ?_
    exact Tr.alike_pure ⟨hab, hs.ipad, hs.opad⟩

theorem hpush_zeroT_alike {h h' : Hmac Engine} (n : Nat) (hs : SimH h h') :
    Tr.Alike SimH (h.push_zeroT n) (h'.push_zeroT n) := by
  unfold Hmac.push_zeroT
  refine Tr.alike_bind (Tr.alike_ask rfl) fun x y hxy => ?_
  subst hxy
  cases x with
  | false => exact Tr.alike_pure hs
  | true =>
    simp only [if_true]
    refine Tr.alike_bind (startT_alike hs) fun a b hab => ?_
    rw [push_zeroT_eq, push_zeroT_eq]
    refine Tr.alike_bind (pushT_alike hab rfl) fun a b hab => ?_
    exact Tr.alike_pure ⟨hab, hs.ipad, hs.opad⟩

theorem hfinalizeT_alike {h h' : Hmac Engine} (hs : SimH h h') :
    Tr.Alike (fun a b : List Byte × Hmac Engine => SimH a.2 b.2) h.finalizeT h'.finalizeT := by
  unfold Hmac.finalizeT
  refine Tr.alike_bind (startT_alike hs) fun a b hab => ?_
  refine Tr.alike_bind (finalizeT_alike hab) fun v w hvw => ?_
  refine Tr.alike_bind (pushT_alike hvw.2 hs.opad) fun a b hab => ?_
  refine Tr.alike_bind (pushT_alike hab hvw.1) fun a b hab => ?_
  refine Tr.alike_bind (finalizeT_alike hab) fun r s hrs => ?_
  exact Tr.alike_pure ⟨hrs.2, hs.ipad, hs.opad⟩

/-! ## Exact counts -/

/-- The number of runs of the compression function. -/
def Tr.rounds {α : Type} (x : Tr α) : Nat := x.events.count .round

/-- How many bytes an event writes. -/
def Ev.bytes : Ev → Nat
  | .write _ n => n
  | _ => 0

/-- The number of bytes written to buffers. -/
def Tr.written {α : Type} (x : Tr α) : Nat := (x.events.map Ev.bytes).sum

theorem Tr.rounds_bind {α β : Type} {x : Tr α} {a : α} {f : α → Tr β} (h : x.result = some a) :
    (x >>= f).rounds = x.rounds + (f a).rounds := by
  rw [Tr.bind_some h, Tr.rounds, List.count_append]; rfl

theorem Tr.written_bind {α β : Type} {x : Tr α} {a : α} {f : α → Tr β} (h : x.result = some a) :
    (x >>= f).written = x.written + (f a).written := by
  rw [Tr.bind_some h, Tr.written, List.map_append, List.sum_append]; rfl

theorem Tr.length_bind {α β : Type} {x : Tr α} {a : α} {f : α → Tr β} (h : x.result = some a) :
    (x >>= f).events.length = x.events.length + (f a).events.length := by
  rw [Tr.bind_some h, List.length_append]

/-- What a computation costs: compressions, bytes written and events in all. -/
structure Costs {α : Type} (x : Tr α) (a : α) (r w : Nat) (l : Nat) : Prop where
  result : x.result = some a
  rounds : x.rounds = r
  written : x.written = w
  events : x.events.length ≤ l

theorem Costs.bind {α β : Type} {x : Tr α} {a : α} {f : α → Tr β} {b : β} {r w l r' w' l' : Nat}
    (h : Costs x a r w l) (h' : Costs (f a) b r' w' l') :
    Costs (x >>= f) b (r + r') (w + w') (l + l') := by
  refine ⟨?_, ?_, ?_, ?_⟩
  · rw [Tr.result_bind, h.result]; exact h'.result
  · rw [Tr.rounds_bind h.result, h.rounds, h'.rounds]
  · rw [Tr.written_bind h.result, h.written, h'.written]
  · rw [Tr.length_bind h.result]; have := h.events; have := h'.events; omega

theorem Costs.cast {α : Type} {x : Tr α} {a a' : α} {r r' w w' l l' : Nat} (h : Costs x a r w l)
    (ha : a = a') (hr : r = r') (hw : w = w') (hl : l ≤ l') : Costs x a' r' w' l' := by
  subst ha hr hw
  exact ⟨h.result, h.rounds, h.written, Nat.le_trans h.events hl⟩

theorem costs_pure {α : Type} (a : α) : Costs (pure a : Tr α) a 0 0 0 := ⟨rfl, rfl, rfl, Nat.le_refl _⟩
theorem costs_ask (b : Bool) : Costs (Tr.ask b) b 0 0 1 := ⟨rfl, rfl, rfl, Nat.le_refl _⟩
theorem costs_check {b : Bool} (h : b = true) : Costs (Tr.check b) () 0 0 1 := by
  subst h; exact ⟨rfl, rfl, rfl, Nat.le_refl _⟩
theorem costs_write (p n : Nat) : Costs (Tr.write p n) () 0 n 1 := ⟨rfl, rfl, rfl, Nat.le_refl _⟩
theorem costs_round : Costs Tr.round () 1 0 1 := ⟨rfl, rfl, rfl, Nat.le_refl _⟩

theorem commitT_costs (e : Engine) (hc : e.chunk.length = 64) (hr : e.remaining ≤ 64) :
    ∃ e', Costs e.commitT e' (if e.remaining = 0 then 1 else 0) 0 (if e.remaining = 0 then 2 else 1) ∧
      e'.WF ∧ e'.total = e.total ∧ e'.remaining = if e.remaining = 0 then 64 else e.remaining := by
  unfold Engine.commitT
  by_cases h : e.remaining = 0
  · rw [if_pos h, if_pos h, if_pos h]
    refine ⟨{ e with hash := sha256_round ⟨e.chunk.toArray, by simpa using hc⟩ e.hash,
                     remaining := e.chunk.length }, ?_, ⟨hc, ?_, ?_⟩, rfl, hc⟩
    · refine Costs.cast (Costs.bind (costs_ask _) (r' := 1) (w' := 0) (l' := 1) ?_) rfl rfl rfl
        (Nat.le_refl _)
      rw [if_pos (decide_eq_true h)]
      refine Costs.cast (Costs.bind costs_round (r' := 0) (w' := 0) (l' := 0) ?_) rfl rfl rfl
        (Nat.le_refl _)
      rw [dif_pos hc]
      exact costs_pure _
    · show 0 < e.chunk.length
      omega
    · show e.chunk.length ≤ 64
      omega
  · rw [if_neg h, if_neg h, if_neg h]
    refine ⟨e, ?_, ⟨hc, by omega, hr⟩, rfl, rfl⟩
    refine Costs.cast (Costs.bind (costs_ask _) (r' := 0) (w' := 0) (l' := 0) ?_) rfl rfl rfl
      (Nat.le_refl _)
    rw [if_neg (by simp [h])]
    exact costs_pure _

/-- The cost of storing one piece. -/
theorem storeT_costs (e : Engine) (hw : e.WF) (src : List Byte) (hl : src.length ≤ e.remaining)
    (ht : e.total + src.length < 2 ^ 64) :
    ∃ e', Costs (e.storeT src) e' (if e.remaining - src.length = 0 then 1 else 0) src.length
        (5 + if e.remaining - src.length = 0 then 2 else 1) ∧ e'.WF ∧
      e'.total = e.total + src.length ∧
      e'.remaining = if e.remaining - src.length = 0 then 64 else e.remaining - src.length := by
  obtain ⟨h1, h2, h3⟩ := hw
  have hlen := splice_length e.chunk (64 - e.remaining) src (by omega)
  have hcopy : Costs (copy_atT e.chunk (e.chunk.length - e.remaining) src)
      (splice e.chunk (64 - e.remaining) src) 0 src.length 2 := by
    unfold copy_atT
    refine Costs.cast (Costs.bind (costs_check (decide_eq_true (by omega)))
      (Costs.bind (costs_write _ _) (costs_pure _))) ?_ rfl (by simp) (Nat.le_refl _)
    rw [h1]; rfl
  obtain ⟨e', hc, hw', ht', hr'⟩ := commitT_costs { e with
    chunk := splice e.chunk (64 - e.remaining) src, remaining := e.remaining - src.length,
    total := e.total + src.length } (hlen.trans h1) (Nat.le_trans (Nat.sub_le _ _) h3)
  refine ⟨e', ?_, hw', ht', hr'⟩
  unfold Engine.storeT
  refine Costs.cast (Costs.bind (costs_check (decide_eq_true (by omega)))
    (Costs.bind hcopy (Costs.bind (costs_check (decide_eq_true hl))
      (Costs.bind (costs_check (decide_eq_true ht)) hc)))) rfl ?_ ?_ ?_
  · simp only [Nat.zero_add]
  · simp only [Nat.zero_add, Nat.add_zero]
  · simp only []; omega

/-- The cost of a push: one compression for every full block, every byte written once. -/
theorem pushT_costs (e : Engine) (hw : e.WF) (d : List Byte) (ht : e.total + d.length < 2 ^ 64) :
    ∃ e', Costs (e.pushT d) e' ((64 - e.remaining + d.length) / 64) d.length
        (8 * ((64 - e.remaining + d.length) / 64) + if d.length = 0 then 1 else 8) ∧ e'.WF ∧ e'.total = e.total + d.length ∧
      e'.remaining = 64 - (64 - e.remaining + d.length) % 64 := by
  induction hn : d.length using Nat.strongRecOn generalizing e d with
  | ind n ih =>
    subst hn
    have h2 := hw.rem_pos
    have h3 := hw.rem_le
    rw [Engine.pushT]
    by_cases hd : d.isEmpty = true
    · rw [if_pos hd]
      have h0 : d.length = 0 := by simpa using hd
      refine ⟨e, ?_, hw, by omega, by omega⟩
      exact Costs.cast (Costs.bind (costs_ask _) (costs_pure _)) rfl (by omega) (by omega)
        (by rw [if_pos h0]; omega)
    · rw [if_neg hd]
      have h0 : 0 < d.length := List.length_pos_iff.mpr (by simpa using hd)
      rw [dif_neg (by omega)]
      have hlen : (d.take (min e.remaining d.length)).length = min e.remaining d.length := by simp
      obtain ⟨e1, c1, w1, t1, r1⟩ := storeT_costs e hw (d.take (min e.remaining d.length))
        (by rw [hlen]; omega) (by rw [hlen]; omega)
      rw [hlen] at c1 t1 r1
      have hrest : (d.drop (min e.remaining d.length)).length = d.length - min e.remaining d.length := by
        simp
      obtain ⟨e2, c2, w2, t2, r2⟩ := ih _ (by rw [hrest]; omega) e1 w1
        (d.drop (min e.remaining d.length)) (by rw [hrest]; omega) rfl
      rw [hrest] at c2 t2 r2
      refine ⟨e2, ?_, w2, by omega, ?_⟩
      · refine Costs.cast (Costs.bind (costs_ask _) (Costs.bind c1 c2)) rfl ?_ ?_ ?_
        · rw [r1]; split <;> omega
        · omega
        · rw [r1, if_neg (show ¬ d.length = 0 by omega)]; split <;> split <;> omega
      · rw [r2, r1]; split <;> omega

/-- An engine at the start of a message. -/
structure Engine.Ready (e : Engine) : Prop where
  wf : e.WF
  remaining : e.remaining = 64
  total : e.total = 0

theorem ready_default : Engine.default.Ready := ⟨⟨rfl, by decide, by decide⟩, rfl, rfl⟩

/-- The cost of the padding: one or two compressions. -/
theorem finalizeT_costs (e : Engine) (hw : e.WF) (ht : e.total * 8 < 2 ^ 64) (hr : e.remaining ≠ 1) :
    ∃ d e', Costs e.finalizeT (d, e') (if e.remaining < 9 then 2 else 1)
        (if e.remaining < 9 then e.remaining + 64 else e.remaining) 60 ∧ d.length = 32 ∧ e'.Ready := by
  obtain ⟨h1, h2, h3⟩ := hw
  unfold Engine.finalizeT
  have hspill : ∃ e1, Costs (Engine.spillT { e with
      chunk := e.chunk.set (e.chunk.length - e.remaining) 0x80, remaining := e.remaining - 1 }) e1
      (if e.remaining < 9 then 1 else 0) (if e.remaining < 9 then e.remaining - 1 else 0) 17 ∧
      e1.WF ∧ e1.total ≤ e.total + 64 ∧ e1.remaining = if e.remaining < 9 then 64 else e.remaining - 1 := by
    unfold Engine.spillT
    by_cases h8 : e.remaining < 9
    · rw [if_pos h8, if_pos h8, if_pos h8]
      obtain ⟨e1, c1, w1, t1, r1⟩ := pushT_costs { e with
        chunk := e.chunk.set (e.chunk.length - e.remaining) 0x80, remaining := e.remaining - 1 }
        ⟨by simp [h1], by simp only []; omega, by simp only []; omega⟩
        (List.replicate (e.remaining - 1) 0) (by simp only [List.length_replicate]; omega)
      simp only [List.length_replicate] at c1 t1 r1
      refine ⟨e1, ?_, w1, by omega, by omega⟩
      refine Costs.cast (Costs.bind (costs_ask _) (r' := 1) (w' := e.remaining - 1) (l' := 16) ?_) rfl
        rfl (by omega) (Nat.le_refl _)
      rw [if_pos (decide_eq_true (show e.remaining - 1 < 8 by omega)), push_zeroT_eq]
      exact Costs.cast c1 rfl (by omega) rfl (by split <;> omega)
    · rw [if_neg h8, if_neg h8, if_neg h8]
      refine ⟨{ e with chunk := e.chunk.set (e.chunk.length - e.remaining) 0x80,
                       remaining := e.remaining - 1 }, ?_,
        ⟨by simp [h1], by simp only []; omega, by simp only []; omega⟩, by simp only []; omega, rfl⟩
      refine Costs.cast (Costs.bind (costs_ask _) (r' := 0) (w' := 0) (l' := 0) ?_) rfl
        rfl rfl (by omega)
      rw [if_neg (by simp; omega)]
      exact costs_pure _
  obtain ⟨e1, c1, w1, t1, r1⟩ := hspill
  obtain ⟨e2, c2, w2, t2, r2⟩ := pushT_costs e1 w1 (List.replicate (e1.remaining - 8) 0)
    (by have := w1.rem_le; simp only [List.length_replicate]; omega)
  have h8 : 8 ≤ e1.remaining := by rw [r1]; split <;> omega
  have hle := w1.rem_le
  simp only [List.length_replicate] at c2 t2 r2
  rw [← push_zeroT_eq] at c2
  have hbl : (to_be_bytes64 (BitVec.ofNat 64 (e.total * 8))).length = 8 := rfl
  obtain ⟨e3, c3, w3, t3, r3⟩ := pushT_costs e2 w2 (to_be_bytes64 (BitVec.ofNat 64 (e.total * 8)))
    (by rw [hbl]; omega)
  rw [hbl, if_neg (show ¬ (8 : Nat) = 0 by decide)] at c3
  rw [hbl] at t3 r3
  have hr3 : e3.remaining = 64 := by rw [r3, r2]; omega
  refine ⟨e3.hash.toList.flatMap to_be_bytes32, { e3 with hash := SHA256_H, total := 0 }, ?_,
    digest_length _, ⟨w3.chunk_len, w3.rem_pos, w3.rem_le⟩, hr3, rfl⟩
  refine Costs.cast (Costs.bind (costs_check (decide_eq_true ht))
    (Costs.bind (costs_check (decide_eq_true (by omega)))
    (Costs.bind (costs_check (decide_eq_true (by omega)))
    (Costs.bind (costs_write _ _) (Costs.bind c1 (Costs.bind (costs_check (decide_eq_true h8))
    (Costs.bind c2 (Costs.bind c3 (Costs.bind
      (costs_check (decide_eq_true (by rw [hr3, w3.chunk_len]))) (costs_pure _)))))))))) rfl ?_ ?_ ?_
  · rw [r2]; clear c1 c2 c3; split <;> omega
  · clear c1 c2 c3
    by_cases h9 : e.remaining < 9
    · rw [if_pos h9] at r1 ⊢; rw [if_pos h9]; omega
    · rw [if_neg h9] at r1 ⊢; rw [if_neg h9]; omega
  · rw [r2]; clear c1 c2 c3; split <;> omega

end Verif.Hash
