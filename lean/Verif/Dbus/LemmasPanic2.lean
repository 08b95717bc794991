import Verif.Dbus.LemmasPanic
import Verif.Dbus.PropsDec
/-! # Lemmas: histories without the calls that panicked -/
namespace Verif.Dbus
open Verif.Io

variable {σ : Type} {R : Nat → Prop} {be : Bool}

theorem tame_exact {I : WriteImpl σ} (h : Tame I) : Exact (calm I) := by
  refine ⟨⟨fun st idx len hl => ?_⟩, fun st idx len n hn => ?_⟩
  · rw [calm_map]
    have := h.le st idx len
    generalize I.map st idx len = y at this ⊢
    rcases y with ⟨st', n | e | _⟩
    · cases n with
      | zero => trivial
      | succ n => exact ⟨Nat.succ_pos _, (this _ rfl).2⟩
    · trivial
    · trivial
  · rw [calm_map] at hn
    have := h.le st idx len
    generalize I.map st idx len = y at this hn
    rcases y with ⟨st', n' | e | _⟩
    · cases n' with
      | zero => cases hn
      | succ n' => cases hn; exact (this _ rfl).1
    · cases hn
    · cases hn

theorem tame_linear {I : ReadImpl σ} {data : List UInt8} (h : TameR I data) : Linear (calmR I) data := by
  refine ⟨Nat.le_of_lt h.size, fun st idx len hl => ?_⟩
  rw [calmR_map]
  have := h.map st idx len
  generalize I.map st idx len = y at this ⊢
  rcases y with ⟨st', m | e | _⟩
  · cases m with
    | nil => trivial
    | cons b m => exact ⟨by simp, this _ rfl⟩
  · trivial
  · trivial

theorem calm_state (I : WriteImpl σ) (st : σ) (i n : Nat) : ((calm I).map st i n).1 = (I.map st i n).1 := by
  rw [calm_map]
  rcases I.map st i n with ⟨st', n' | e | _⟩
  · cases n' <;> rfl
  · rfl
  · rfl

/-- What was called on the writer does not depend on how its answers are seen. -/
theorem calm_calls {I : WriteImpl σ} {a b : σ} {l : List Nat} (h : Calls (calm I) a l b) : Calls I a l b := by
  induction h with
  | nil => exact .nil
  | map idx len _ ih => rw [calm_state]; exact .map idx len ih
  | commit len _ ih => exact .commit len ih

/-- A refusal changes nothing. -/
theorem does_none {pre : Pat} {a b : St} {op : Op} (h : Does R be pre a op (.res (.brk none)) b) : b = a := by
  cases h <;> rfl

mutual
theorem does_keep : (op : Op) → (pre : Pat) → (a b : St) → (o : OutU) → o ≠ .res .panic → Does R be pre a op o.calm b →
    Does R be pre a (op.keep o) o.keep b
  | .sub s ops, pre, a, b, .sub outs, _, h => by
    rw [Op.keep, OutU.keep]
    rw [OutU.calm] at h
    cases h with
    | subDropped _ p ps c _ _ _ u qs hn hs hd => exact .subDropped _ _ _ _ _ _ _ _ _ hn hs (doesAll_keep _ _ _ _ _ hd)
    | subCommitted _ p ps c _ _ _ u q v hn hs hd hv => exact .subCommitted _ _ _ _ _ _ _ _ _ _ hn hs (doesAll_keep _ _ _ _ _ hd) hv
  | op, pre, a, b, .res r, _, h => by
    have : op.keep (.res r) = op := by cases op <;> rfl
    rw [this, OutU.keep]
    exact h
  | .u16 _, _, _, _, .sub _, _, h => by rw [OutU.calm] at h; cases h
  | .u32 _, _, _, _, .sub _, _, h => by rw [OutU.calm] at h; cases h
  | .u64 _, _, _, _, .sub _, _, h => by rw [OutU.calm] at h; cases h
  | .string _, _, _, _, .sub _, _, h => by rw [OutU.calm] at h; cases h
  | .object _, _, _, _, .sub _, _, h => by rw [OutU.calm] at h; cases h
  | .signature _, _, _, _, .sub _, _, h => by rw [OutU.calm] at h; cases h
  | .variant _, _, _, _, .sub _, _, h => by rw [OutU.calm] at h; cases h
  | .array, _, _, _, .sub _, _, h => by rw [OutU.calm] at h; cases h
  | .structure, _, _, _, .sub _, _, h => by rw [OutU.calm] at h; cases h
  | .dict, _, _, _, .sub _, _, h => by rw [OutU.calm] at h; cases h
  | .close, _, _, _, .sub _, _, h => by rw [OutU.calm] at h; cases h
  | .commit, _, _, _, .sub _, _, h => by rw [OutU.calm] at h; cases h
theorem doesAll_keep : (ops : List Op) → (pre : Pat) → (a b : St) → (outs : List OutU) → DoesAll R be pre a ops (OutU.calms outs) b →
    DoesAll R be pre a (Op.keeps ops outs) (OutU.keeps outs) b
  | [], pre, a, b, [], h => by rw [OutU.calms] at h; cases h; exact .nil _ _
  | [], pre, a, b, _ :: _, h => by rw [OutU.calms] at h; cases h
  | _ :: _, pre, a, b, [], h => by rw [OutU.calms] at h; cases h
  | op :: ops, pre, a, b, o :: outs, h => by
    rw [OutU.calms] at h
    cases h with
    | cons _ _ m _ _ _ _ _ h1 h2 =>
      by_cases ho : o = .res .panic
      · subst ho
        rw [Op.keeps, OutU.keeps]
        rw [does_none h1] at h2
        exact doesAll_keep _ _ _ _ _ h2
      · rw [Op.keeps, OutU.keeps]
        · exact .cons _ _ _ _ _ _ _ _ (does_keep _ _ _ _ _ ho h1) (doesAll_keep _ _ _ _ _ h2)
        · exact fun h => ho h
        · exact fun h => ho h
end

mutual
/-- If all calls succeeded then nothing was refused. -/
theorem does_good : (op : Op) → (pre : Pat) → (a b : St) → (o : Out) → o.good → Does R be pre a op o b → Does (fun _ => False) be pre a op o b
  | .sub s ops, pre, a, b, o, hg, h => by
    cases h with
    | subDropped _ p ps c _ _ _ u qs hn hs hd => exact .subDropped _ _ _ _ _ _ _ _ _ hn hs (doesAll_good _ _ _ _ _ hg hd)
    | subCommitted _ p ps c _ _ _ u q v hn hs hd hv => exact .subCommitted _ _ _ _ _ _ _ _ _ _ hn hs (doesAll_good _ _ _ _ _ hg hd) hv
    | subMismatch => cases hg
    | mismatch _ _ _ _ _ hv => cases hv
    | long _ _ _ _ _ u _ hv => cases hg
    | value _ _ _ _ _ u _ hn hs hl he => exact .value _ _ _ _ _ _ _ hn hs hl he
    | valueIo _ _ _ _ _ u _ _ _ hv => cases u <;> simp [Op.suits] at hv
  | op, pre, a, b, o, hg, h => by
    cases h with
    | mismatch => cases hg
    | long => cases hg
    | value _ _ _ _ _ u _ hn hs hl he => exact .value _ _ _ _ _ _ _ hn hs hl he
    | valueIo _ _ _ _ _ _ _ _ _ _ _ _ _ hr => cases (show _ = DRes.ok from hg); cases hr
    | closeMismatch => cases hg
    | closeLong => cases hg
    | close _ _ _ _ _ _ h1 h2 h3 => exact .close _ _ _ _ _ _ h1 h2 h3
    | closeIo _ _ _ _ _ _ _ _ _ _ _ hr => cases (show _ = DRes.ok from hg); cases hr
    | pending => cases hg
    | commit _ _ _ h1 => exact .commit _ _ _ h1
    | subMismatch => cases hg
    | subDropped _ p ps c _ _ _ u qs hn hs hd => exact .subDropped _ _ _ _ _ _ _ _ _ hn hs (doesAll_good _ _ _ _ _ hg hd)
    | subCommitted _ p ps c _ _ _ u q v hn hs hd hv => exact .subCommitted _ _ _ _ _ _ _ _ _ _ hn hs (doesAll_good _ _ _ _ _ hg hd) hv
theorem doesAll_good : (ops : List Op) → (pre : Pat) → (a b : St) → (outs : List Out) → Out.goods outs → DoesAll R be pre a ops outs b →
    DoesAll (fun _ => False) be pre a ops outs b
  | [], pre, a, b, outs, _, h => by cases h; exact .nil _ _
  | op :: ops, pre, a, b, outs, hg, h => by
    cases h with
    | cons _ _ m _ _ _ o os h1 h2 => exact .cons _ _ _ _ _ _ _ _ (does_good _ _ _ _ _ hg.1 h1) (doesAll_good _ _ _ _ _ hg.2 h2)
end

/-! ## Decoders -/

variable {data : List UInt8}

theorem gives_none {a b : DSt} {x : Ask} (h : Gives R be data a x (.brk none) b) : b = a := by
  cases h <;> rfl

mutual
theorem gives_keep : (x : Ask) → (a b : DSt) → (r : AnsU) → r ≠ .panic → Gives R be data a x r.calm b → Gives R be data a (x.keep r) r.keep b
  | .sub s l, a, b, .sub rs, _, h => by
    rw [Ask.keep, AnsU.keep]
    rw [AnsU.calm] at h
    cases h with
    | subDropped _ _ _ _ u m hn hs hd hc => exact .subDropped _ _ _ _ _ _ hn hs (givesAll_keep _ _ _ _ hd) hc
    | subCommitted _ _ _ _ u m hn hs hd hc => exact .subCommitted _ _ _ _ _ _ hn hs (givesAll_keep _ _ _ _ hd) hc
    | textIo _ _ _ _ _ _ _ _ _ h => cases h
  | x, a, b, .u16 _, _, h => by cases x <;> exact h
  | x, a, b, .str _, _, h => by cases x <;> exact h
  | x, a, b, .ok, _, h => by cases x <;> exact h
  | x, a, b, .brk _, _, h => by cases x <;> exact h
  | x, a, b, .more _, _, h => by cases x <;> exact h
  | _, _, _, .panic, hr, _ => absurd rfl hr
  | .u16, _, _, .sub _, _, h => by
    rw [AnsU.calm] at h
    cases h with
    | u16Io _ _ _ _ h => cases h
    | textIo _ _ _ _ _ _ _ _ _ h => cases h
  | .string, _, _, .sub _, _, h => by
    rw [AnsU.calm] at h
    cases h with
    | textIo _ _ _ _ _ _ _ _ _ h => cases h
  | .signature, _, _, .sub _, _, h => by
    rw [AnsU.calm] at h
    cases h with
    | textIo _ _ _ _ _ _ _ _ _ h => cases h
  | .array, _, _, .sub _, _, h => by
    rw [AnsU.calm] at h
    cases h with
    | arrayIo _ _ _ _ _ h => cases h
    | textIo _ _ _ _ _ _ _ _ _ h => cases h
  | .close, _, _, .sub _, _, h => by
    rw [AnsU.calm] at h
    cases h with
    | textIo _ _ _ _ _ _ _ _ _ h => cases h
  | .commit, _, _, .sub _, _, h => by
    rw [AnsU.calm] at h
    cases h with
    | textIo _ _ _ _ _ _ _ _ _ h => cases h
  | .more, _, _, .sub _, _, h => by
    rw [AnsU.calm] at h
    cases h with
    | textIo _ _ _ _ _ _ _ _ _ h => cases h
theorem givesAll_keep : (l : List Ask) → (a b : DSt) → (rs : List AnsU) → GivesAll R be data a l (AnsU.calms rs) b →
    GivesAll R be data a (Ask.keeps l rs) (AnsU.keeps rs) b
  | [], a, b, [], h => by rw [AnsU.calms] at h; cases h; exact .nil _
  | [], a, b, _ :: _, h => by rw [AnsU.calms] at h; cases h
  | _ :: _, a, b, [], h => by rw [AnsU.calms] at h; cases h
  | x :: l, a, b, r :: rs, h => by
    rw [AnsU.calms] at h
    cases h with
    | cons _ m _ _ _ _ _ h1 h2 =>
      by_cases hr : r = .panic
      · subst hr
        rw [Ask.keeps, AnsU.keeps]
        rw [gives_none h1] at h2
        exact givesAll_keep _ _ _ _ h2
      · rw [Ask.keeps, AnsU.keeps]
        · exact .cons _ _ _ _ _ _ _ (gives_keep _ _ _ _ hr h1) (givesAll_keep _ _ _ _ h2)
        · exact hr
        · exact hr
end

theorem asks_split {J : ReadImpl σ} : (l : List Ask) → (x : Ask) → (d : Dec) → (st : σ) → {r : Dec × σ × List Ans} →
    Ask.runs J (l ++ [x]) d st = some r → ∃ d' st' os, Ask.runs J l d st = some (d', st', os)
      ∧ ∃ d'' st'' a, x.run J d' st' = some (d'', st'', a)
  | [], x, d, st, r, h => by
    refine ⟨d, st, [], rfl, ?_⟩
    simp only [List.nil_append, Ask.runs] at h
    cases hx : x.run J d st with
    | none => rw [hx] at h; cases h
    | some y => exact ⟨_, _, _, rfl⟩
  | y :: l, x, d, st, r, h => by
    simp only [List.cons_append, Ask.runs] at h ⊢
    cases hy : y.run J d st with
    | none => rw [hy] at h; cases h
    | some z =>
      obtain ⟨d₁, st₁, a⟩ := z
      rw [hy] at h
      simp only [] at h ⊢
      cases hz : Ask.runs J (l ++ [x]) d₁ st₁ with
      | none => rw [hz] at h; cases h
      | some q =>
        obtain ⟨d', st', os, h1, h2⟩ := asks_split l x d₁ st₁ hz
        rw [h1]
        exact ⟨d', st', _, rfl, h2⟩

end Verif.Dbus
