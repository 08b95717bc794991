import Verif.Dbus.PropsGrow
import Verif.Dbus.PropsDvar
/-! # Properties: encoding into vectors that hold something -/
namespace Verif.Dbus
open Verif.Io
variable {s : Sig} {t : Ty}

/-- What vectors keep while everything that is asked for ends at `k`: their length, and the memory from there on. -/
theorem vec_obeys (w₀ : Writer Nat) : Obeys vecWrite fun k w => w.st = w₀.st ∧ ∀ j, k ≤ j → w.mem j = w₀.mem j := by
  intro w s' x i n m k hk hm hx ⟨h1, h2⟩
  simp only [vecWrite] at hm
  split at hm
  · cases hm
    exact ⟨h1, fun j hj => (hx j (by rw [Nat.max_self]; omega)).trans (h2 j hj)⟩
  · cases hm

theorem complete_commit : ∀ {ops : List Op}, Op.complete ops = true → ∃ i : Nat, ops[i]? = some .commit ∧ ops.length = i + 1
  | [], h => by cases h
  | op :: ops, h => by
    rw [Op.complete.eq_def] at h
    split at h
    · cases h
    · rename_i heq
      cases heq
      exact ⟨0, rfl, rfl⟩
    · rename_i heq
      cases heq
      simp only [Bool.and_eq_true] at h
      obtain ⟨i, hi, hl⟩ := complete_commit h.2
      exact ⟨i + 1, by rw [List.getElem?_cons_succ]; exact hi, by rw [List.length_cons]; omega⟩

theorem runs_length {σ : Type} {I : WriteImpl σ} : ∀ {ops : List Op} {e e' : Enc} {w w' : Writer σ} {os : List Out},
    Op.runs I ops e w = some (e', w', os) → os.length = ops.length
  | [], _, _, _, _, _, h => by simp only [Op.runs] at h; cases h; rfl
  | op :: ops, e, e', w, w', os, h => by
    simp only [Op.runs] at h
    split at h
    · cases h
    · split at h
      · cases h
      · rename_i h2
        cases h
        rw [List.length_cons, List.length_cons, runs_length h2]

theorem fines_get : ∀ {os : List Out} {i : Nat} {o : Out}, Out.fines os = true → os[i]? = some o → o.fine = true
  | [], _, _, _, h => by cases h
  | _ :: _, 0, _, hf, h => by
    simp only [Out.fines, Bool.and_eq_true] at hf
    cases h
    exact hf.1
  | _ :: _, i + 1, _, hf, h => by
    simp only [Out.fines, Bool.and_eq_true] at hf
    exact fines_get hf.2 (by rw [List.getElem?_cons_succ] at h; exact h)

/-- The answer to a call other than one for a sub-encoder is no list. -/
theorem runs_commit {σ : Type} {I : WriteImpl σ} : ∀ {ops : List Op} {e e' : Enc} {w w' : Writer σ} {os : List Out} {i : Nat},
    Op.runs I ops e w = some (e', w', os) → ops[i]? = some .commit → Out.fines os = true → os[i]? = some (.res .ok)
  | [], _, _, _, _, _, _, _, hi, _ => by cases hi
  | op :: ops, e, e', w, w', os, i, h, hi, hf => by
    simp only [Op.runs] at h
    split at h
    · cases h
    · rename_i h1
      split at h
      · cases h
      · rename_i h2
        cases h
        simp only [Out.fines, Bool.and_eq_true] at hf
        cases i with
        | zero =>
          cases hi
          rw [Op.run.eq_def] at h1
          simp only [] at h1
          have := hf.1
          simp only [Option.map_eq_some_iff, Prod.mk.injEq] at h1
          obtain ⟨⟨_, _, r⟩, _, _, _, rfl⟩ := h1
          cases r with
          | ok => rfl
          | brk _ => cases this
        | succ i =>
          rw [List.getElem?_cons_succ] at hi ⊢
          exact runs_commit h2 hi hf.2

theorem mapM_none {f : Nat → Option UInt8} {j n : Nat} (hj : j < n) (h : f j = none) : (List.range n).mapM f = none := by
  have key : ∀ (l : List Nat), j ∈ l → l.mapM f = none := by
    intro l
    induction l with
    | nil => intro h; cases h
    | cons a l ih =>
      intro hm
      rw [List.mapM_cons]
      rcases List.mem_cons.mp hm with rfl | hm
      · rw [h]; rfl
      · rw [ih hm]
        cases f a <;> rfl
  exact key _ (List.mem_range.mpr hj)

/-- C106. Any sequence of calls that are all accepted and end with a commit, also those of sub-encoders, on a vector that holds `data`: a message is
encoded. It is put where the vector begins, over what was there, not behind it, but the vector gets longer by the length of the message. So it holds the
message if it was empty, what it had if there was nothing to encode, and otherwise elements that are not initialised. -/
theorem encoded_into (hs : View s t) (be : Bool) (data : List UInt8) (ops : List Op) (ho : Op.sanes ops) {e e' : Enc} {w' : Writer Nat} {os : List Out}
    (he : Enc.with_ s be = some e) (hr : Op.runs vecWrite ops e (vecOf data) = some (e', w', os)) (hc : Op.complete ops = true) (hf : Out.fines os = true) :
    ∃ v : Val, v.has t ∧ v.fits be 0 ∧ w'.st = data.length + (v.marshal be 0).length
      ∧ (∀ i, w'.mem i = (v.marshal be 0 ++ data.drop (v.marshal be 0).length)[i]?)
      ∧ vecBytes w' = if data = [] then some (v.marshal be 0) else if v.marshal be 0 = [] then some data else none := by
  obtain ⟨i, hi, hl⟩ := complete_commit hc
  obtain ⟨v, h1, h2, h3, h4⟩ := committed_value vec_write.1 hs be (vecOf data) ops ho he hr ⟨i, hi, runs_commit hr hi hf⟩
  have h4 := vec_calls h4
  simp only [List.sum_cons, List.sum_nil, Nat.add_zero] at h4
  obtain ⟨hl, hd, hp⟩ := with_fresh he
  obtain ⟨x, ⟨a1, a2⟩, a3⟩ := (runs_held (vec_obeys (vecOf data)) ops _ _ _ _ _ hr hc hf).top hl hd hp e'.level.idx (Nat.le_refl _) ⟨rfl, fun _ _ => rfl⟩
  have hst : (vecOf data).st = data.length := rfl
  have hx : e'.level.idx = (v.marshal be 0).length := by
    have : w'.st = x.st + e'.level.idx := by rw [a3]; rfl
    omega
  refine ⟨v, h1, h2, ?_⟩
  generalize v.marshal be 0 = msg at *
  have hm : ∀ i, w'.mem i = (msg ++ data.drop msg.length)[i]? := by
    intro i
    by_cases hi : i < msg.length
    · rw [h3 i hi, List.getElem?_append_left hi, List.getElem?_eq_getElem hi]
    · rw [List.getElem?_append_right (by omega), List.getElem?_drop, show msg.length + (i - msg.length) = i by omega, a3]
      exact a2 i (by omega)
  refine ⟨by omega, hm, ?_⟩
  rw [hst] at h4
  unfold vecBytes
  rw [h4]
  split
  · rename_i hn
    subst hn
    rw [List.length_nil, Nat.zero_add]
    exact mapM_range _ _ fun i hi => h3 i hi
  · rename_i hn
    have := List.length_pos_iff.mpr hn
    split
    · rename_i hg
      subst hg
      rw [List.length_nil, Nat.add_zero]
      exact mapM_range _ _ fun i hi => by rw [hm i]; simp [List.getElem?_eq_getElem hi]
    · rename_i hg
      have := List.length_pos_iff.mpr hg
      refine mapM_none (j := data.length + msg.length - 1) (by omega) ?_
      rw [hm, List.getElem?_eq_none]
      rw [List.length_append, List.length_drop]
      omega

theorem complete_append : ∀ {ops ops' : List Op}, (∀ op ∈ ops, op.tidy = true) → Op.complete ops' = true → Op.complete (ops ++ ops') = true
  | [], _, _, h => h
  | op :: ops, ops', ht, h => by
    have h1 := ht op List.mem_cons_self
    have h2 := complete_append (fun o ho => ht o (List.mem_cons_of_mem _ ho)) h
    rw [List.cons_append, Op.complete.eq_def]
    split
    · rename_i heq; cases heq
    · rename_i heq; cases (List.cons.inj heq).1; cases h1
    · rename_i heq
      cases heq
      rw [h1, h2]; rfl

mutual
theorem writes_tidy : ∀ {v : Val} {ops : List Op}, Writes v ops → ∀ op ∈ ops, op.tidy = true
  | _, _, .u16 _ | _, _, .u32 _ | _, _, .u64 _ | _, _, .string _ | _, _, .object _ | _, _, .signature _ => by
    intro op h
    cases List.mem_singleton.mp h
    rfl
  | _, _, .variant _ _ _ _ _ _ h => by
    intro op hm
    simp only [List.mem_cons, List.mem_append, List.not_mem_nil, or_false] at hm
    rcases hm with rfl | hm | rfl
    · rfl
    · exact writes_tidy h op hm
    · rfl
  | _, _, .array _ _ _ h | _, _, .struct _ _ h | _, _, .dict _ _ _ h => by
    intro op hm
    simp only [List.mem_cons, List.mem_append, List.not_mem_nil, or_false] at hm
    rcases hm with rfl | hm | rfl
    · rfl
    · exact writes_all_tidy h op hm
    · rfl
  | _, _, .sub _ _ h => by
    intro op hm
    cases List.mem_singleton.mp hm
    exact complete_append (writes_tidy h) rfl
theorem writes_all_tidy : ∀ {vs : List Val} {ops : List Op}, WritesAll vs ops → ∀ op ∈ ops, op.tidy = true
  | _, _, .nil => by intro op h; cases h
  | _, _, .cons _ _ _ _ h h' => by
    intro op hm
    rcases List.mem_append.mp hm with hm | hm
    · exact writes_tidy h op hm
    · exact writes_all_tidy h' op hm
end

mutual
theorem good_fine : ∀ {o : Out}, o.good → o.fine = true
  | .res r, h => by
    simp only [Out.good] at h
    subst h
    rfl
  | .sub os, h => by
    simp only [Out.good] at h
    exact goods_fines h
theorem goods_fines : ∀ {os : List Out}, Out.goods os → Out.fines os = true
  | [], _ => rfl
  | o :: os, h => by
    simp only [Out.goods] at h
    rw [Out.fines, good_fine h.1, goods_fines h.2]
    rfl
end

/-- C106, in terms of values: whichever way a value is written to a vector, all calls are accepted, and it is not appended unless the vector was empty or the
value takes no bytes. -/
theorem encodes_into (hs : View s t) (be : Bool) (data : List UInt8) (v : Val) (ops : List Op) (hv : v.has t) (hf : v.fits be 0) (ho : Writes v ops)
    (hl : (v.marshal be 0).length ≤ isizeMax) :
    ∃ e e' w' outs, Enc.with_ s be = some e ∧ Op.runs vecWrite (ops ++ [.commit]) e (vecOf data) = some (e', w', outs) ∧ Out.goods outs
      ∧ (vecBytes w' = some (data ++ v.marshal be 0) ↔ data = [] ∨ v.marshal be 0 = [])
      ∧ (vecBytes w' = none ↔ data ≠ [] ∧ v.marshal be 0 ≠ []) := by
  obtain ⟨e, e', w', outs, h1, h2, h3, h4, h5⟩ := encodes_partial vec_write.1 hs be (vecOf data) v ops hv hf ho (vec_room (Nat.le_trans hl (by decide)))
  refine ⟨e, e', w', outs, h1, h2, h3, ?_⟩
  obtain ⟨v', -, -, a1, a2, a3⟩ := encoded_into hs be data (ops ++ [.commit]) (sanes_append (writes_sane ho) (by simp [Op.sanes, Op.sane])) h1 h2
    (complete_append (writes_tidy ho) rfl) (goods_fines h3)
  have h5 := vec_calls h5
  simp only [List.sum_cons, List.sum_nil, Nat.add_zero, vecOf] at h5
  have heq : v'.marshal be 0 = v.marshal be 0 := by
    refine List.ext_getElem (by omega) fun i hi hi' => ?_
    have q := h4 i hi'
    rw [a2 i, List.getElem?_append_left hi, List.getElem?_eq_getElem hi] at q
    exact Option.some.inj q
  rw [heq] at a3
  rw [a3]
  by_cases hd : data = []
  · subst hd; simp
  · by_cases hm : v.marshal be 0 = []
    · simp [hd, hm]
    · simp [hd, hm]

/-- C106, disagreement. Two messages that are written to one vector, one after the other: the second one takes the place of the first, and the vector ends
with as many uninitialised elements. -/
theorem second_lost : (do
    let e ← Enc.with_ (sg "(us)") false
    let x ← Op.runs vecWrite [.structure, .u32 7, .string (sb "ab"), .close, .commit] e (vecOf [])
    let y ← Op.runs vecWrite [.structure, .u32 8, .string (sb "cd"), .close, .commit] e x.2.1
    some ((vecBytes x.2.1, Out.fines x.2.2), vecBytes y.2.1, Out.fines y.2.2, (List.range y.2.1.st).map y.2.1.mem))
    = some ((some [7, 0, 0, 0, 2, 0, 0, 0, 97, 98, 0], true), none, true,
        [8, 0, 0, 0, 2, 0, 0, 0, 99, 100, 0].map some ++ List.replicate 11 none) := by decide +kernel

/-- What `encoded_into` is about: three bytes that a vector held, and a message of eight, in a sub-encoder in part. -/
example : (do
    let e ← Enc.with_ (sg "(uau)") true
    let ops := [Op.structure, .u32 7, .sub none [.array, .close, .commit], .close, .commit]
    let x ← Op.runs vecWrite ops e (vecOf [1, 2, 3])
    some (Op.complete ops, Out.fines x.2.2, vecBytes x.2.1, (List.range x.2.1.st).map x.2.1.mem))
    = some (true, true, none, [0, 0, 0, 7, 0, 0, 0, 0].map some ++ List.replicate 3 none) := by decide +kernel

/-- A longer vector keeps the rest of what it held, with uninitialised elements behind. -/
example : (do
    let e ← Enc.with_ (sg "u") true
    let x ← Op.runs vecWrite [Op.u32 7, .commit] e (vecOf [1, 2, 3, 4, 5, 6])
    some (vecBytes x.2.1, (List.range x.2.1.st).map x.2.1.mem)) = some (none, [0, 0, 0, 7, 5, 6].map some ++ List.replicate 4 none) := by decide +kernel

end Verif.Dbus
