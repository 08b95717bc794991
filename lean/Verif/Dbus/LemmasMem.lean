import Verif.Dbus.SpecMem
import Verif.Dbus.PropsDec
/-! # Lemmas about the memory of D-Bus encoders and decoders -/
namespace Verif.Dbus
open Verif.Io

variable {σ : Type} {data : List UInt8}

/-- The end of a call without memory limits. -/
def Fate.ofOption {α : Type} : Option α → Fate α
  | some a => .done a
  | none => .panic

theorem ofStep_eq {α : Type} (x : Option α) : MStep.ofStep x = ([], Fate.ofOption x) := by cases x <;> rfl

/-- Requests a machine can meet. -/
def Met (m : Machine) (q : List Nat) : Prop := ∀ n ∈ q, n ≤ m.isizeMax ∧ n ≤ m.free

theorem withCapacity_met {α : Type} {m : Machine} {n : Nat} {k : MStep α} (h : Met m (withCapacity m n k).1) :
    withCapacity m n k = (n :: k.1, k.2) := by
  have hn : n ∈ (withCapacity m n k).1 := by unfold withCapacity; split <;> (try split) <;> simp
  obtain ⟨h1, h2⟩ := h n hn
  unfold withCapacity
  rw [if_neg (by omega), if_neg (by omega)]

theorem withCapacity_done {α : Type} {m : Machine} {n : Nat} {k : MStep α} {q : List Nat} {a : α}
    (h : withCapacity m n k = (q, .done a)) : q = n :: k.1 ∧ k.2 = .done a ∧ n ≤ m.isizeMax ∧ n ≤ m.free := by
  unfold withCapacity at h
  split at h
  · cases h
  · split at h
    · cases h
    · simp only [Prod.mk.injEq] at h; exact ⟨h.1.symm, h.2, by omega, by omega⟩

/-- A string, without the machine. -/
def Dec.str {σ : Type} (I : ReadImpl σ) (d : Dec) (st : σ) (el lenEl : Element) (w : Nat) : DStep σ :=
  d.expect st el <|
  d.align st d.level.idx lenEl.dvarExp fun idx =>
  d.io (read I st idx w) fun st idx out =>
  d.text I st idx (deNum d.be out)

/-- The ways a request for a string goes. -/
inductive StrWay (m : Machine) (I : ReadImpl σ) (d : Dec) (st : σ) (el lenEl : Element) (w : Nat) : Prop
  | early (r : DStep σ) : d.strM m I st el lenEl w = ([], Fate.ofOption r) → d.str I st el lenEl w = r → StrWay m I d st el lenEl w
  | late (a i : Nat) : shl1 lenEl.dvarExp = some a → checkedNextMultipleOf d.level.idx a = some i →
      (read I st i w).flow = .cont () →
      d.strM m I st el lenEl w = withCapacity m (deNum d.be (read I st i w).out)
        (MStep.ofStep (d.text I (read I st i w).st (read I st i w).idx (deNum d.be (read I st i w).out))) →
      d.str I st el lenEl w = d.text I (read I st i w).st (read I st i w).idx (deNum d.be (read I st i w).out) →
      StrWay m I d st el lenEl w

theorem strM_ways (m : Machine) (I : ReadImpl σ) (d : Dec) (st : σ) (el lenEl : Element) (w : Nat) :
    StrWay m I d st el lenEl w := by
  cases h1 : d.cursor.element with
  | none =>
    refine .early none ?_ ?_
    · simp [Dec.strM, h1, Fate.ofOption]
    · simp [Dec.str, Dec.expect, h1]
  | some x =>
    by_cases h2 : x ≠ some el
    · refine .early (some (d, st, .brk (some .mismatch))) ?_ ?_
      · simp [Dec.strM, h1, Fate.ofOption, h2]
      · simp [Dec.str, Dec.expect, h1, h2]
    · have h2 : x = some el := Classical.byContradiction h2
      subst h2
      cases h3 : shl1 lenEl.dvarExp with
      | none =>
        refine .early none ?_ ?_
        · simp [Dec.strM, h1, h3, Fate.ofOption]
        · simp [Dec.str, Dec.expect, Dec.align, h1, h3]
      | some a =>
        cases h4 : checkedNextMultipleOf d.level.idx a with
        | none =>
          refine .early (some (d, st, .brk (some (.io .overflow)))) ?_ ?_
          · simp [Dec.strM, h1, h3, h4, Fate.ofOption]
          · simp [Dec.str, Dec.expect, Dec.align, h1, h3, h4]
        | some i =>
          cases h5 : (read I st i w).flow with
          | fault =>
            refine .early none ?_ ?_
            · simp [Dec.strM, h1, h3, h4, h5, Fate.ofOption]
            · simp [Dec.str, Dec.expect, Dec.align, Dec.io, h1, h3, h4, h5]
          | brk e =>
            refine .early (some (d, (read I st i w).st, .brk (e.map .io))) ?_ ?_
            · simp [Dec.strM, h1, h3, h4, h5, Fate.ofOption]
            · simp [Dec.str, Dec.expect, Dec.align, Dec.io, h1, h3, h4, h5]
          | cont u =>
            refine .late a i h3 h4 h5 ?_ ?_
            · simp [Dec.strM, h1, h3, h4, h5]
            · simp [Dec.str, Dec.expect, Dec.align, Dec.io, h1, h3, h4, h5]

theorem strM_met {m : Machine} {I : ReadImpl σ} {d : Dec} {st : σ} {el lenEl : Element} {w : Nat}
    (h : Met m (d.strM m I st el lenEl w).1) : (d.strM m I st el lenEl w).2 = Fate.ofOption (d.str I st el lenEl w) := by
  cases strM_ways m I d st el lenEl w with
  | early r h1 h2 => rw [h1, h2]
  | late a i _ _ _ h1 h2 =>
    rw [h1] at h ⊢
    rw [withCapacity_met h, h2, ofStep_eq]

theorem run_sub (I : ReadImpl σ) (s : Option Sig) (l : List Ask) (d : Dec) (st : σ) : Ask.run I (.sub s l) d st =
    match d.subOf s with
    | none => none
    | some none => some (d, st, .brk (some .mismatch))
    | some (some x) =>
      match Ask.runs I l x st with
      | none => none
      | some (x', st, as) => some (d.merge x' (x.link.bind id), st, .sub as) := by
  cases s <;> (simp only [Ask.run, Dec.subOf]; rfl)

theorem Met.left {m : Machine} {a b : List Nat} (h : Met m (a ++ b)) : Met m a := fun n hn => h n (List.mem_append_left _ hn)
theorem Met.right {m : Machine} {a b : List Nat} (h : Met m (a ++ b)) : Met m b := fun n hn => h n (List.mem_append_right _ hn)

mutual
theorem runM_met {m : Machine} {I : ReadImpl σ} : (x : Ask) → (d : Dec) → (st : σ) → Met m (x.runM m I d st).1 →
    (x.runM m I d st).2 = Fate.ofOption (x.run I d st)
  | .u16, d, st, _ => by simp only [Ask.runM, Ask.run, ofStep_eq]
  | .string, d, st, h => by simp only [Ask.runM, Ask.run] at h ⊢; exact strM_met h
  | .signature, d, st, h => by simp only [Ask.runM, Ask.run] at h ⊢; exact strM_met h
  | .array, d, st, _ => by simp only [Ask.runM, Ask.run, ofStep_eq]
  | .close, d, st, _ => by simp only [Ask.runM, Ask.run, ofStep_eq]
  | .commit, d, st, _ => by simp only [Ask.runM, Ask.run, ofStep_eq]
  | .more, d, st, _ => by simp only [Ask.runM, Ask.run, Fate.ofOption]
  | .sub s l, d, st, h => by
    rw [run_sub]
    simp only [Ask.runM] at h ⊢
    generalize d.subOf s = x at h ⊢
    cases x with
    | none => rfl
    | some y =>
      cases y with
      | none => rfl
      | some x =>
        simp only at h ⊢
        have ih := runsM_met (m := m) (I := I) l x st
        generalize Ask.runsM m I l x st = r at h ih ⊢
        obtain ⟨q, f⟩ := r
        have ih := ih (by cases f <;> exact h)
        generalize Ask.runs I l x st = r at ih ⊢
        simp only at ih
        subst ih
        cases r <;> rfl
theorem runsM_met {m : Machine} {I : ReadImpl σ} : (l : List Ask) → (d : Dec) → (st : σ) → Met m (Ask.runsM m I l d st).1 →
    (Ask.runsM m I l d st).2 = Fate.ofOption (Ask.runs I l d st)
  | [], d, st, _ => by simp only [Ask.runsM, Ask.runs, Fate.ofOption]
  | x :: l, d, st, h => by
    simp only [Ask.runsM, Ask.runs] at h ⊢
    have ih := runM_met (m := m) (I := I) x d st
    generalize Ask.runM m I x d st = r at h ih ⊢
    obtain ⟨q, f⟩ := r
    cases f with
    | panic =>
      have ih := ih h
      generalize Ask.run I x d st = r at ih ⊢
      cases r with
      | none => rfl
      | some => cases ih
    | noMemory =>
      have ih := ih h
      generalize Ask.run I x d st = r at ih ⊢
      cases r <;> cases ih
    | done a =>
      obtain ⟨d1, st1, a⟩ := a
      simp only at h ih ⊢
      have ih' := runsM_met (m := m) (I := I) l d1 st1
      generalize Ask.runsM m I l d1 st1 = r at h ih' ⊢
      obtain ⟨q', f'⟩ := r
      have hq : Met m (q ++ q') := by cases f' <;> exact h
      have ih := ih hq.left
      have ih' := ih' hq.right
      generalize Ask.run I x d st = r at ih ⊢
      cases r with
      | none => cases ih
      | some y =>
        cases ih
        simp only at ih' ⊢
        generalize Ask.runs I l d1 st1 = r at ih' ⊢
        subst ih'
        cases r <;> rfl
end

/-! ## What ends, ends as without limits -/

theorem strM_done {m : Machine} {I : ReadImpl σ} {d : Dec} {st : σ} {el lenEl : Element} {w : Nat} {q : List Nat} {x : Dec × σ × Ans}
    (h : d.strM m I st el lenEl w = (q, .done x)) : d.str I st el lenEl w = some x ∧ Met m q := by
  cases strM_ways m I d st el lenEl w with
  | early r h1 h2 =>
    rw [h1] at h
    rw [h2]
    cases r with
    | none => cases h
    | some r => cases h; exact ⟨rfl, fun _ h => by cases h⟩
  | late a i _ _ _ h1 h2 =>
    rw [h1] at h
    obtain ⟨rfl, h3, h4, h5⟩ := withCapacity_done h
    rw [h2]
    rw [ofStep_eq] at h3 ⊢
    generalize d.text I _ _ _ = r at h3
    cases r with
    | none => cases h3
    | some r =>
      cases h3
      refine ⟨rfl, fun n hn => ?_⟩
      rw [List.mem_singleton] at hn
      subst hn
      exact ⟨h4, h5⟩

mutual
theorem runM_done {m : Machine} {I : ReadImpl σ} : (x : Ask) → (d : Dec) → (st : σ) → (q : List Nat) → (y : Dec × σ × Ans) →
    x.runM m I d st = (q, .done y) → x.run I d st = some y ∧ Met m q
  | .u16, d, st, q, y, h => by
    simp only [Ask.runM, Ask.run, ofStep_eq] at h ⊢
    generalize d.u16 I st = r at h; cases r <;> cases h; exact ⟨rfl, fun _ h => by cases h⟩
  | .string, d, st, q, y, h => strM_done h
  | .signature, d, st, q, y, h => strM_done h
  | .array, d, st, q, y, h => by
    simp only [Ask.runM, Ask.run, ofStep_eq] at h ⊢
    generalize d.array I st = r at h; cases r <;> cases h; exact ⟨rfl, fun _ h => by cases h⟩
  | .close, d, st, q, y, h => by
    simp only [Ask.runM, Ask.run, ofStep_eq] at h ⊢
    generalize d.close st = r at h; cases r <;> cases h; exact ⟨rfl, fun _ h => by cases h⟩
  | .commit, d, st, q, y, h => by
    simp only [Ask.runM, Ask.run, ofStep_eq] at h ⊢
    generalize d.commit st = r at h; cases r <;> cases h; exact ⟨rfl, fun _ h => by cases h⟩
  | .more, d, st, q, y, h => by
    simp only [Ask.runM, Ask.run] at h ⊢
    cases h; exact ⟨rfl, fun _ h => by cases h⟩
  | .sub s l, d, st, q, y, h => by
    rw [run_sub]
    simp only [Ask.runM] at h ⊢
    generalize d.subOf s = x at h ⊢
    cases x with
    | none => cases h
    | some z =>
      cases z with
      | none => cases h; exact ⟨rfl, fun _ h => by cases h⟩
      | some x =>
        simp only at h ⊢
        have ih := runsM_done (m := m) (I := I) l x st
        generalize Ask.runsM m I l x st = r at h ih
        obtain ⟨q, f⟩ := r
        cases f with
        | panic => cases h
        | noMemory => cases h
        | done a =>
          obtain ⟨x', st1, as⟩ := a
          cases h
          obtain ⟨h1, h2⟩ := ih _ _ rfl
          rw [h1]
          exact ⟨rfl, h2⟩
theorem runsM_done {m : Machine} {I : ReadImpl σ} : (l : List Ask) → (d : Dec) → (st : σ) → (q : List Nat) →
    (y : Dec × σ × List Ans) → Ask.runsM m I l d st = (q, .done y) → Ask.runs I l d st = some y ∧ Met m q
  | [], d, st, q, y, h => by simp only [Ask.runsM, Ask.runs] at h ⊢; cases h; exact ⟨rfl, fun _ h => by cases h⟩
  | x :: l, d, st, q, y, h => by
    simp only [Ask.runsM, Ask.runs] at h ⊢
    have ih := runM_done (m := m) (I := I) x d st
    generalize Ask.runM m I x d st = r at h ih
    obtain ⟨q1, f⟩ := r
    cases f with
    | panic => cases h
    | noMemory => cases h
    | done a =>
      obtain ⟨d1, st1, a⟩ := a
      simp only at h
      have ih' := runsM_done (m := m) (I := I) l d1 st1
      generalize Ask.runsM m I l d1 st1 = r at h ih'
      obtain ⟨q2, f'⟩ := r
      cases f' with
      | panic => cases h
      | noMemory => cases h
      | done b =>
        obtain ⟨d2, st2, as⟩ := b
        cases h
        obtain ⟨h1, h2⟩ := ih _ _ rfl
        obtain ⟨h3, h4⟩ := ih' _ _ rfl
        rw [h1]
        simp only [h3]
        refine ⟨trivial, fun n hn => ?_⟩
        rcases List.mem_append.mp hn with hn | hn
        · exact h2 n hn
        · exact h4 n hn
end

/-! ## The requests are lengths in the data -/

theorem leNat_lt : ∀ l : List UInt8, leNat l < 256 ^ l.length
  | [] => by simp [leNat]
  | b :: l => by
    have := leNat_lt l
    have hb := b.toNat_lt
    simp only [leNat, List.length_cons, Nat.pow_succ]
    omega

theorem deNum_lt (be : Bool) (l : List UInt8) : deNum be l < 256 ^ l.length := by
  unfold deNum
  cases be
  · exact leNat_lt l
  · have := leNat_lt l.reverse
    rwa [List.length_reverse] at this

theorem withCapacity_mem {α : Type} {m : Machine} {n x : Nat} {k : MStep α} (hk : k.1 = []) (h : x ∈ (withCapacity m n k).1) : x = n := by
  unfold withCapacity at h
  split at h
  · simpa using h
  · split at h
    · simpa using h
    · simpa [hk] using h

theorem strM_bound {m : Machine} {I : ReadImpl σ} (hL : Linear I data) {d : Dec} {st : σ} {el lenEl : Element} {w : Nat}
    {n : Nat} (h : n ∈ (d.strM m I st el lenEl w).1) : n < 256 ^ w := by
  cases strM_ways m I d st el lenEl w with
  | early r h1 h2 => rw [h1] at h; cases h
  | late a i _ _ h3 h1 h2 =>
    rw [h1] at h
    have h := withCapacity_mem (by rw [ofStep_eq]) h
    have hr := read_spec I data hL st i w
    rw [h3] at hr
    have := deNum_lt d.be (read I st i w).out
    rw [hr.2.1] at this
    omega

mutual
theorem runM_bound {m : Machine} {I : ReadImpl σ} (hL : Linear I data) : (x : Ask) → (d : Dec) → (st : σ) →
    ∀ n ∈ (x.runM m I d st).1, n < 2 ^ 32
  | .u16, d, st, n, h => by simp [Ask.runM, ofStep_eq] at h
  | .string, d, st, n, h => strM_bound hL (w := 4) h
  | .signature, d, st, n, h => by
    have : n < 256 ^ 1 := strM_bound hL (w := 1) h
    omega
  | .array, d, st, n, h => by simp [Ask.runM, ofStep_eq] at h
  | .close, d, st, n, h => by simp [Ask.runM, ofStep_eq] at h
  | .commit, d, st, n, h => by simp [Ask.runM, ofStep_eq] at h
  | .more, d, st, n, h => by simp [Ask.runM] at h
  | .sub s l, d, st, n, h => by
    simp only [Ask.runM] at h
    generalize d.subOf s = x at h
    cases x with
    | none => cases h
    | some y =>
      cases y with
      | none => cases h
      | some x =>
        simp only at h
        have ih := runsM_bound hL (m := m) l x st n
        generalize Ask.runsM m I l x st = r at h ih
        obtain ⟨q, f⟩ := r
        cases f <;> exact ih h
theorem runsM_bound {m : Machine} {I : ReadImpl σ} (hL : Linear I data) : (l : List Ask) → (d : Dec) → (st : σ) →
    ∀ n ∈ (Ask.runsM m I l d st).1, n < 2 ^ 32
  | [], d, st, n, h => by simp [Ask.runsM] at h
  | x :: l, d, st, n, h => by
    simp only [Ask.runsM] at h
    have ih := runM_bound hL (m := m) x d st n
    generalize Ask.runM m I x d st = r at h ih
    obtain ⟨q, f⟩ := r
    cases f with
    | panic => exact ih h
    | noMemory => exact ih h
    | done a =>
      obtain ⟨d1, st1, a⟩ := a
      simp only at h
      have ih' := runsM_bound hL (m := m) l d1 st1 n
      generalize Ask.runsM m I l d1 st1 = r at h ih'
      obtain ⟨q', f'⟩ := r
      have hq : n ∈ q ++ q' := by cases f' <;> exact h
      rcases List.mem_append.mp hq with hq | hq
      · exact ih hq
      · exact ih' hq
end

/-! ## Calls that are not refused by the reader -/

theorem text_clean {I : ReadImpl σ} (hL : Linear I data) {d d' : Dec} {st st' : σ} {i n : Nat} {r : Ans}
    (h : d.text I st i n = some (d', st', r)) (hr : r.clean) : n = 0 ∨ i + n ≤ data.length := by
  unfold Dec.text Dec.io at h
  have hs := read_spec I data hL st i n
  generalize hf : (read I st i n).flow = f at h hs
  cases f with
  | fault => exact hs.elim
  | brk e => cases h; cases e <;> exact hr.elim
  | cont _ =>
    obtain ⟨h1, h2, _⟩ := hs
    rw [h1, List.length_take, List.length_drop] at h2
    omega

theorem text_moves {I : ReadImpl σ} (hL : Linear I data) {d d' : Dec} {st st' : σ} {i n : Nat} {r : Ans}
    (h : d.text I st i n = some (d', st', r)) (hr : ∀ e, r ≠ .brk e) : d'.level.idx = i + n + 1 := by
  unfold Dec.text Dec.io at h
  have hs := read_spec I data hL st i n
  generalize hf : (read I st i n).flow = f at h hs
  cases f with
  | fault => exact hs.elim
  | brk e => cases h; exact absurd rfl (hr _)
  | cont _ =>
    obtain ⟨_, _, h3⟩ := hs
    simp only [h3] at h
    split at h
    · split at h
      · unfold Dec.advance at h
        split at h
        · cases h
        · cases h; rfl
      · cases h
    · cases h; exact absurd rfl (hr _)

theorem strM_clean {m : Machine} {I : ReadImpl σ} (hL : Linear I data) {d d' : Dec} {st st' : σ} {el lenEl : Element} {w : Nat}
    {q : List Nat} {r : Ans} (h : d.strM m I st el lenEl w = (q, .done (d', st', r))) (hr : r.clean) : ∀ n ∈ q, n ≤ data.length := by
  cases strM_ways m I d st el lenEl w with
  | early x h1 h2 => rw [h1] at h; cases x <;> cases h; intro n hn; cases hn
  | late a i _ _ _ h1 h2 =>
    rw [h1] at h
    obtain ⟨rfl, h3, _⟩ := withCapacity_done h
    rw [ofStep_eq] at h3 ⊢
    generalize ht : d.text I _ _ _ = x at h3
    cases x with
    | none => cases h3
    | some x =>
      cases h3
      have := text_clean hL ht hr
      intro n hn
      rw [List.mem_singleton] at hn
      omega

mutual
theorem runM_clean {m : Machine} {I : ReadImpl σ} (hL : Linear I data) : (x : Ask) → (d : Dec) → (st : σ) → (q : List Nat) →
    (d' : Dec) → (st' : σ) → (r : Ans) → x.runM m I d st = (q, .done (d', st', r)) → r.clean → ∀ n ∈ q, n ≤ data.length
  | .u16, d, st, q, d', st', r, h, _ => by
    simp only [Ask.runM, ofStep_eq, Prod.mk.injEq] at h; rw [← h.1]; intro n hn; cases hn
  | .string, d, st, q, d', st', r, h, hr => by simp only [Ask.runM] at h; exact strM_clean hL h hr
  | .signature, d, st, q, d', st', r, h, hr => by simp only [Ask.runM] at h; exact strM_clean hL h hr
  | .array, d, st, q, d', st', r, h, _ => by
    simp only [Ask.runM, ofStep_eq, Prod.mk.injEq] at h; rw [← h.1]; intro n hn; cases hn
  | .close, d, st, q, d', st', r, h, _ => by
    simp only [Ask.runM, ofStep_eq, Prod.mk.injEq] at h; rw [← h.1]; intro n hn; cases hn
  | .commit, d, st, q, d', st', r, h, _ => by
    simp only [Ask.runM, ofStep_eq, Prod.mk.injEq] at h; rw [← h.1]; intro n hn; cases hn
  | .more, d, st, q, d', st', r, h, _ => by
    simp only [Ask.runM, Prod.mk.injEq] at h; rw [← h.1]; intro n hn; cases hn
  | .sub s l, d, st, q, d', st', r, h, hr => by
    simp only [Ask.runM] at h
    generalize d.subOf s = x at h
    cases x with
    | none => cases h
    | some z =>
      cases z with
      | none => cases h; intro n hn; cases hn
      | some x =>
        simp only at h
        have ih := runsM_clean hL (m := m) l x st
        generalize Ask.runsM m I l x st = y at h ih
        obtain ⟨q, f⟩ := y
        cases f with
        | panic => cases h
        | noMemory => cases h
        | done a =>
          obtain ⟨x', st1, as⟩ := a
          cases h
          exact ih _ _ _ _ rfl hr
theorem runsM_clean {m : Machine} {I : ReadImpl σ} (hL : Linear I data) : (l : List Ask) → (d : Dec) → (st : σ) → (q : List Nat) →
    (d' : Dec) → (st' : σ) → (rs : List Ans) → Ask.runsM m I l d st = (q, .done (d', st', rs)) → Ans.cleans rs →
    ∀ n ∈ q, n ≤ data.length
  | [], d, st, q, d', st', r, h, _ => by simp only [Ask.runsM] at h; cases h; intro n hn; cases hn
  | x :: l, d, st, q, d', st', r, h, hr => by
    simp only [Ask.runsM] at h
    have ih := runM_clean hL (m := m) x d st
    generalize Ask.runM m I x d st = y at h ih
    obtain ⟨q1, f⟩ := y
    cases f with
    | panic => cases h
    | noMemory => cases h
    | done a =>
      obtain ⟨d1, st1, a⟩ := a
      simp only at h
      have ih' := runsM_clean hL (m := m) l d1 st1
      generalize Ask.runsM m I l d1 st1 = y at h ih'
      obtain ⟨q2, f'⟩ := y
      cases f' with
      | panic => cases h
      | noMemory => cases h
      | done b =>
        obtain ⟨d2, st2, as⟩ := b
        cases h
        intro n hn
        rcases List.mem_append.mp hn with hn | hn
        · exact ih _ _ _ _ rfl hr.1 n hn
        · exact ih' _ _ _ _ rfl hr.2 n hn
end

/-! ## Strings of different calls do not overlap -/

theorem fine_not {r : Ans} (h : r.fine = true) (e : Option DErr) : r ≠ .brk e := by rintro rfl; cases h

theorem fine_clean {x : Ask} {I : ReadImpl σ} {d d' : Dec} {st st' : σ} {r : Ans} (hp : x.plain = true)
    (h : x.run I d st = some (d', st', r)) (hf : r.fine = true) : r.clean := by
  cases r with
  | brk => cases hf
  | sub l =>
    exfalso
    have hg : ∀ {el : Element} {k : DStep σ}, (∀ a b c, k = some (a, b, c) → ∀ l, c ≠ .sub l) → ∀ {st : σ} {a b c},
        d.expect st el k = some (a, b, c) → ∀ l, c ≠ .sub l := by
      intro el k hk st a b c h l
      unfold Dec.expect at h
      split at h
      · cases h
      · split at h
        · cases h; intro h; cases h
        · exact hk _ _ _ h l
    have ha : ∀ {st : σ} {i e : Nat} {k : Nat → DStep σ}, (∀ j a b c, k j = some (a, b, c) → ∀ l, c ≠ .sub l) → ∀ {a b c},
        d.align st i e k = some (a, b, c) → ∀ l, c ≠ .sub l := by
      intro st i e k hk a b c h l
      unfold Dec.align at h
      split at h
      · cases h
      · split at h
        · cases h; intro h; cases h
        · exact hk _ _ _ _ h l
    have hi : ∀ {r : ReadOut σ} {k : σ → Nat → List UInt8 → DStep σ}, (∀ x y z a b c, k x y z = some (a, b, c) → ∀ l, c ≠ .sub l) →
        ∀ {a b c}, d.io r k = some (a, b, c) → ∀ l, c ≠ .sub l := by
      intro r k hk a b c h l
      unfold Dec.io at h
      split at h
      · exact hk _ _ _ _ _ _ h l
      · cases h; intro h; cases h
      · cases h
    have hadv : ∀ {st : σ} {i : Nat} {x : Ans}, (∀ l, x ≠ .sub l) → ∀ {a b c}, d.advance st i x = some (a, b, c) → ∀ l, c ≠ .sub l := by
      intro st i x hx a b c h l
      unfold Dec.advance at h
      split at h
      · cases h
      · cases h; exact hx l
    have htx : ∀ {st : σ} {i n : Nat} {a b c}, d.text I st i n = some (a, b, c) → ∀ l, c ≠ .sub l := by
      intro st i n a b c h l
      refine hi (fun x y z a b c h l => ?_) h l
      split at h
      · split at h
        · exact hadv (fun l h => by cases h) h l
        · cases h
      · cases h; intro h; cases h
    have hpop : ∀ {st : σ} {x y z a b c}, d.pop st x y z = some (a, b, c) → ∀ l, c ≠ .sub l := by
      intro st x y z a b c h l
      unfold Dec.pop at h
      split at h
      · cases h
      · split at h
        · cases h
        · cases h; intro h; cases h
    cases x with
    | sub => cases hp
    | u16 => exact hg (fun _ _ _ => ha fun _ _ _ _ => hi fun _ _ _ _ _ _ h l => hadv (fun l h => by cases h) h l) h l rfl
    | string => exact hg (fun _ _ _ => ha fun _ _ _ _ => hi fun _ _ _ _ _ _ h l => htx h l) h l rfl
    | signature => exact hg (fun _ _ _ => ha fun _ _ _ _ => hi fun _ _ _ _ _ _ h l => htx h l) h l rfl
    | array =>
      refine hg (fun _ _ _ h => ?_) h l rfl
      split at h
      · cases h
      · cases h
      · refine ha (fun _ _ _ _ => hi fun _ _ _ _ _ _ => ha fun _ _ _ _ h l => ?_) h
        split at h
        · cases h
        · cases h; intro h; cases h
    | close =>
      simp only [Ask.run, Dec.close] at h
      split at h
      · cases h
      · cases h
      · split at h
        · cases h
        · split at h
          all_goals first
            | (exact hpop h _ rfl)
            | (cases h; done)
    | commit =>
      simp only [Ask.run, Dec.commit] at h
      split at h
      · cases h
      · split at h
        · cases h
        · split at h <;> cases h
    | more => simp [Ask.run] at h
  | _ => trivial

theorem strM_sum {m : Machine} {I : ReadImpl σ} (hL : Linear I data) {d d' : Dec} {st st' : σ} {el lenEl : Element} {w : Nat}
    {q : List Nat} {r : Ans} (h : d.strM m I st el lenEl w = (q, .done (d', st', r))) (hr : r.fine = true) (hc : r.clean) :
    q = [] ∨ ∃ n, q = [n] ∧ d.level.idx + n ≤ d'.level.idx ∧ (n = 0 ∨ d.level.idx + n ≤ data.length) := by
  cases strM_ways m I d st el lenEl w with
  | early x h1 h2 => rw [h1] at h; cases x <;> cases h; exact .inl rfl
  | late a i ha hi hf h1 h2 =>
    rw [h1] at h
    obtain ⟨rfl, h3, _⟩ := withCapacity_done h
    rw [ofStep_eq] at h3 ⊢
    have hs := read_spec I data hL st i w
    rw [hf] at hs
    have hle : d.level.idx ≤ i := by
      have hpos : 0 < a := by
        unfold shl1 at ha
        split at ha
        · cases ha; exact Nat.two_pow_pos _
        · split at ha
          · cases ha; decide
          · cases ha
      rw [checkedNext_spec _ _ hpos] at hi
      split at hi
      · cases hi; omega
      · cases hi
    generalize ht : d.text I _ _ _ = x at h3
    cases x with
    | none => cases h3
    | some x =>
      cases h3
      have h4 := text_clean hL ht hc
      have h5 := text_moves hL ht (fine_not hr)
      rw [hs.2.2] at h4 h5
      exact .inr ⟨_, rfl, by omega, by omega⟩

/-! ## Depths -/

theorem DTrack.depth {t : Ty} {l : List (Ty × Nat)} {f : Bool} {c : Cursor} {L : Level} {S : List (Element × Level × Option Cursor)}
    (h : DTrack t l f c L S) : S.length ≤ c.idx ∧ S.length ≤ t.size := by
  have h1 : S.length ≤ c.idx := by
    induction h with
    | root => exact Nat.zero_le _
    | full => exact Nat.zero_le _
    | array _ _ _ _ ih => simp only [List.length_cons]; omega
  refine ⟨h1, ?_⟩
  cases h with
  | root => exact Nat.zero_le _
  | full => exact Nat.zero_le _
  | array h0 hn _ _ =>
    have := occ_bound (h0.occ _ _ _ hn)
    simp only [List.length_cons] at h1 ⊢
    simp only [size_array] at this
    omega

theorem bytes_le (be : Bool) (pre : Pat) (p : Part) (ps : List Part) : (Part.bytes be pre ps).length ≤ (Part.bytes be pre (p :: ps)).length := by
  simp only [Part.bytes, List.length_append]; omega

theorem rootTys_next {p : Part} {ps : List Part} {x : Ty} (h : nextOf ps = some x) : rootTys (p :: ps) = rootTys ps := by
  cases ps with
  | nil => cases h
  | cons q qs => rfl

theorem Track.levels {be : Bool} {pre : Pat} {ps : List Part} {t : Ty} {c : Cursor} {L : Level}
    {S : List (Element × Level × Option Cursor)} (h : Track be pre ps t c L S) :
    S.length + t.size + pre.length ≤ sizes (rootTys ps) + (Part.bytes be pre ps).length + c.idx := by
  induction h with
  | @root s t vals tys todo L hv ht _ _ =>
    have h1 := bytes_le be pre ⟨.root, vals, tys, todo⟩ []
    have h2 : sizes (rootTys [⟨.root, vals, tys, todo⟩]) = t.size := by
      simp only [rootTys]; rw [ht]; simp [sizes, Ty.size, Ty.texts]
    simp only [Part.bytes, List.length_nil] at h1 ⊢
    omega
  | @variant ps t₀ c L L' S s t vals tys todo h0 hn hv ht _ _ hsz ih =>
    rw [rootTys_next hn]
    have := occ_bound (h0.occ _ hn)
    rw [Part.bytes]
    simp only [List.length_append, List.length_cons, Part.head, known, List.length_map, enNum_length, bytes_length, List.length_nil] at ih ⊢
    omega
  | @array ps t₀ c L L' S u vals off h0 hn _ _ _ _ _ ih =>
    rw [rootTys_next hn]
    have := bytes_le be pre ⟨.array u, vals, [], []⟩ ps
    simp only [List.length_cons]
    omega
  | @struct ps t₀ c L L' S vals tys todo off h0 hn _ _ _ ih =>
    rw [rootTys_next hn]
    have := bytes_le be pre ⟨.struct, vals, tys, todo⟩ ps
    simp only [List.length_cons]
    omega
  | @dict ps t₀ c L L' S vals tys todo off k u h0 hn _ _ _ _ ih =>
    rw [rootTys_next hn]
    have := bytes_le be pre ⟨.dict, vals, tys, todo⟩ ps
    simp only [List.length_cons]
    omega

theorem Track.depth {be : Bool} {pre : Pat} {ps : List Part} {t : Ty} {c : Cursor} {L : Level}
    {S : List (Element × Level × Option Cursor)} (h : Track be pre ps t c L S) :
    S.length + pre.length ≤ sizes (rootTys ps) + (Part.bytes be pre ps).length := by
  cases h with
  | @root s t vals tys todo L _ _ _ _ =>
    have := bytes_le be pre ⟨.root, vals, tys, todo⟩ []
    simp only [List.length_nil, Part.bytes] at this ⊢
    omega
  | @variant ps t₀ c L L' S s t vals tys todo h0 hn hv ht _ _ hsz =>
    have h1 := occ_bound (h0.occ _ hn)
    have h2 := h0.levels
    rw [rootTys_next hn, Part.bytes]
    simp only [List.length_append, List.length_cons, Part.head, known, List.length_map, enNum_length, bytes_length, List.length_nil] at h2 ⊢
    omega
  | @array ps t₀ c L L' S u vals off h0 hn =>
    have h1 := occ_bound (h0.occ _ hn)
    have h2 := h0.levels
    rw [rootTys_next hn]
    have := bytes_le be pre ⟨.array u, vals, [], []⟩ ps
    simp only [List.length_cons, size_array] at h1 ⊢
    omega
  | @struct ps t₀ c L L' S vals tys todo off h0 hn =>
    have h1 := occ_bound (h0.occ _ hn)
    have h2 := h0.levels
    rw [rootTys_next hn]
    have := bytes_le be pre ⟨.struct, vals, tys, todo⟩ ps
    have := size_pos (.struct (tys ++ todo))
    simp only [List.length_cons] at h1 ⊢
    omega
  | @dict ps t₀ c L L' S vals tys todo off k u h0 hn =>
    have h1 := occ_bound (h0.occ _ hn)
    have h2 := h0.levels
    rw [rootTys_next hn]
    have := bytes_le be pre ⟨.dict, vals, tys, todo⟩ ps
    have := size_pos (.dict k u)
    simp only [List.length_cons] at h1 ⊢
    omega

theorem sums {I : ReadImpl σ} {be : Bool} (m : Machine) (hL : Linear I data) (hd : data.length < usizeMax) :
    ∀ (l : List Ask) {a : DSt} {d d' : Dec} {st st' : σ} {q : List Nat} {rs : List Ans}, DSim be none a d →
    l.all Ask.plain = true → Ask.runsM m I l d st = (q, .done (d', st', rs)) → rs.all Ans.fine = true →
    q.sum = 0 ∨ d.level.idx + q.sum ≤ data.length
  | [], a, d, d', st, st', q, rs, _, _, h, _ => by simp only [Ask.runsM] at h; cases h; exact .inl rfl
  | x :: l, a, d, d', st, st', q, rs, hsim, hp, h, hf => by
    rw [List.all_cons, Bool.and_eq_true] at hp
    simp only [Ask.runsM] at h
    have hdone := runM_done (m := m) (I := I) x d st
    have hstr : ∀ q r d' st', x.runM m I d st = (q, .done (d', st', r)) → r.fine = true → r.clean →
        q = [] ∨ ∃ n, q = [n] ∧ d.level.idx + n ≤ d'.level.idx ∧ (n = 0 ∨ d.level.idx + n ≤ data.length) := by
      intro q r d' st' h hf hc
      cases x with
      | sub => cases hp.1
      | string => simp only [Ask.runM] at h; exact strM_sum hL h hf hc
      | signature => simp only [Ask.runM] at h; exact strM_sum hL h hf hc
      | more => simp only [Ask.runM, Prod.mk.injEq] at h; exact .inl h.1.symm
      | _ => simp only [Ask.runM, ofStep_eq, Prod.mk.injEq] at h; exact .inl h.1.symm
    generalize hr : Ask.runM m I x d st = r at h hdone hstr
    obtain ⟨q1, f⟩ := r
    cases f with
    | panic => cases h
    | noMemory => cases h
    | done y =>
      obtain ⟨d1, st1, r1⟩ := y
      simp only at h
      generalize hr' : Ask.runsM m I l d1 st1 = z at h
      obtain ⟨q2, f2⟩ := z
      cases f2 with
      | panic => cases h
      | noMemory => cases h
      | done y =>
        obtain ⟨d2, st2, rs2⟩ := y
        cases h
        rw [List.all_cons, Bool.and_eq_true] at hf
        obtain ⟨h1, _⟩ := hdone _ _ rfl
        have hsane : x.sane := by
          cases x with
          | sub => cases hp.1
          | _ => trivial
        obtain ⟨d1', st1', r1', b, h2, h3, h4⟩ := ask_sim hL hd x st hsane hsim
        rw [h1] at h2
        cases h2
        have hle := h3.le
        rw [← hsim.idx, ← h4.idx] at hle
        have ih := sums m hL hd l h4 hp.2 hr' hf.2
        rw [List.sum_append]
        rcases hstr _ _ _ _ rfl hf.1 (fine_clean hp.1 h1 hf.1) with rfl | ⟨n, rfl, h5, h6⟩
        · simp only [List.sum_nil, Nat.zero_add]
          omega
        · simp only [List.sum_cons, List.sum_nil, Nat.add_zero]
          omega

theorem givesAll_ty {R : Nat → Prop} {be : Bool} : ∀ (l : List Ask) {a b : DSt} {rs : List Ans}, GivesAll R be data a l rs b →
    b.ty = a.ty
  | [], _, _, _, h => by cases h; rfl
  | _ :: l, _, _, _, h => by
    cases h with
    | cons _ m _ _ _ _ _ h1 h2 =>
      rw [givesAll_ty l h2]
      cases h1 <;> rfl

end Verif.Dbus
