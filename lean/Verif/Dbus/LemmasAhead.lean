import Verif.Dbus.SpecAhead
import Verif.Dbus.LemmasRetry
/-! # Helper lemmas: data that goes on -/
namespace Verif.Dbus.Ahead
open Verif.Io
variable {σ : Type}

/-- A reader of some data is one of everything that begins with it. -/
theorem linear_more {I : ReadImpl σ} {data rest : List UInt8} (h : Linear I data) (hl : (data ++ rest).length ≤ usizeMax) : Linear I (data ++ rest) := by
  refine ⟨hl, fun st idx len hp => ?_⟩
  have := h.map st idx len hp
  split
  · rename_i m hm
    rw [hm] at this
    refine ⟨this.1, this.2.trans ?_⟩
    rw [List.drop_append]
    exact List.prefix_append ..
  · trivial
  · rename_i hm
    rw [hm] at this
    exact this

mutual
theorem ans_kept : (r : Ans) → Answered r → r.kept = r
  | .sub rs, h => by rw [Ans.kept, ans_kepts rs h]
  | .u16 _, _ => by unfold Ans.kept; rfl
  | .str _, _ => by unfold Ans.kept; rfl
  | .ok, _ => by unfold Ans.kept; rfl
  | .brk _, _ => by unfold Ans.kept; rfl
  | .more _, _ => by unfold Ans.kept; rfl
theorem ans_kepts : (rs : List Ans) → AllAnswered rs → Ans.kepts rs = rs
  | [], _ => by rw [Ans.kepts]
  | r :: rs, h => by
    have hw : r.waits = false := by
      cases r with
      | sub l => rfl
      | _ => exact h.1
    rw [Ans.kepts, hw, ans_kept r h.1, ans_kepts rs h.2]
    rfl
end

theorem runs_cons {I : ReadImpl σ} {x : Ask} {l : List Ask} {d d' : Dec} {st st' : σ} {rs : List Ans} (h : Ask.runs I (x :: l) d st = some (d', st', rs)) :
    ∃ d₁ st₁ r rs', x.run I d st = some (d₁, st₁, r) ∧ Ask.runs I l d₁ st₁ = some (d', st', rs') ∧ rs = r :: rs' := by
  rw [Ask.runs] at h
  cases h1 : x.run I d st with
  | none => rw [h1] at h; cases h
  | some p =>
    obtain ⟨d₁, st₁, r⟩ := p
    rw [h1] at h
    cases h2 : Ask.runs I l d₁ st₁ with
    | none => simp [h2] at h
    | some q =>
      obtain ⟨d₂, st₂, rs'⟩ := q
      simp [h2] at h
      obtain ⟨rfl, rfl, rfl⟩ := h
      exact ⟨_, _, _, _, rfl, h2, rfl⟩

mutual
theorem ask_kept {I : ReadImpl σ} : (x : Ask) → ∀ {d d' : Dec} {st st' : σ} {r : Ans}, x.run I d st = some (d', st', r) → Answered r → x.kept r = x
  | .sub s l, d, d', st, st', r, h, ha => by
    unfold Ask.run at h
    split at h
    · cases h
    · cases h; unfold Ask.kept; rfl
    · rename_i y hy
      split at h
      · cases h
      · rename_i z st₁ rs hz
        cases h
        rw [Ask.kept, ask_kepts l hz ha]
  | .u16, _, _, _, _, _, _, _ => by unfold Ask.kept; rfl
  | .string, _, _, _, _, _, _, _ => by unfold Ask.kept; rfl
  | .signature, _, _, _, _, _, _, _ => by unfold Ask.kept; rfl
  | .array, _, _, _, _, _, _, _ => by unfold Ask.kept; rfl
  | .close, _, _, _, _, _, _, _ => by unfold Ask.kept; rfl
  | .commit, _, _, _, _, _, _, _ => by unfold Ask.kept; rfl
  | .more, _, _, _, _, _, _, _ => by unfold Ask.kept; rfl
theorem ask_kepts {I : ReadImpl σ} : (l : List Ask) → ∀ {d d' : Dec} {st st' : σ} {rs : List Ans}, Ask.runs I l d st = some (d', st', rs) →
    AllAnswered rs → Ask.kepts l rs = l
  | [], _, _, _, _, _, _, _ => by unfold Ask.kepts; rfl
  | x :: l, d, d', st, st', rs, h, ha => by
    obtain ⟨d₁, st₁, r, rs', h1, h2, rfl⟩ := runs_cons h
    have hw : r.waits = false := by
      cases r with
      | sub l => rfl
      | _ => exact ha.1
    rw [Ask.kepts, hw, ask_kept x h1 ha.1, ask_kepts l h2 ha.2]
    rfl
end

end Verif.Dbus.Ahead
