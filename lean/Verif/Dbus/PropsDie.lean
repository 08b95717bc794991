import Verif.Dbus.LemmasDie
/-! # C111: histories in which the writer may also panic when it is told to commit -/
namespace Verif.Dbus.Die
open Verif.Io
variable {σ : Type} {I : WriteImplU σ} {s : Sig} {t : Ty}

/-- C111. For every writer that may panic at any of its calls, `commit` included: the calls that did not panic, taken by themselves, are answered as
the specification `Does` says, as if the others had never been made, and all that they wrote is in memory. The writer was told to
commit once for each commit that panicked, and once if a commit was accepted, always with the length of the whole value; a commit can only panic when the
value is complete. -/
theorem commits_survive (hI : Tame I.toWriteImpl) (hs : View s t) (be : Bool) (w : Writer σ) (ops : List Op) (ho : Op.sanes ops) :
    ∃ e e' w' outs b, Enc.with_ s be = some e ∧ Op.runsU I ops e w = (e', w', outs)
      ∧ DoesAll (Blocked (calm I.toWriteImpl)) be [] (St.new t) (Op.keeps ops outs) (OutU.keeps outs) b
      ∧ Holds w'.mem (Part.bytes be [] b.parts)
      ∧ Calls I.toWriteImpl w.st (List.replicate (deaths ops outs + if b.committed then 1 else 0) (Part.bytes be [] b.parts).length) w'.st
      ∧ (deaths ops outs ≠ 0 → ∃ p, b.parts = [p] ∧ p.full = true) := by
  obtain ⟨e, he, _⟩ := start_sim (I := calm I.toWriteImpl) hs be w
  obtain ⟨e', w', outs, st', b, lens, h1, h2, h3, h5, h7, h8⟩ := survives_die_aux hI hs be w ops ho he
  refine ⟨e, e', w', outs, b, he, h1, h2, h3.inv.holds, h8, fun h => h7 fun hl => h ?_⟩
  rw [← h5, hl]; rfl

/-- C111. If a commit was accepted, whatever panicked before and after, commits included: memory begins with the marshalled form of a value of the type, and
the writer was told to commit exactly this, once for each commit that panicked and once for the accepted one. -/
theorem committed_despite (hI : Tame I.toWriteImpl) (hs : View s t) (be : Bool) (w : Writer σ) (ops : List Op) (ho : Op.sanes ops)
    {e e' : Enc} {w' : Writer σ} {outs : List OutU} (he : Enc.with_ s be = some e) (hr : Op.runsU I ops e w = (e', w', outs))
    (hok : ∃ i : Nat, ops[i]? = some .commit ∧ outs[i]? = some (.res .ok)) :
    ∃ v : Val, v.has t ∧ v.fits be 0 ∧ Begins w'.mem (v.marshal be 0)
      ∧ Calls I.toWriteImpl w.st (List.replicate (deaths ops outs + 1) (v.marshal be 0).length) w'.st := by
  obtain ⟨e₂, w₂, outs₂, st', b, lens, h1, h2, hb, _, _, h8⟩ := survives_die_aux hI hs be w ops ho he
  rw [hr] at h1
  cases h1
  have hcom := doesAll_committed h2 (.inr (keeps_commit ops outs hok))
  rw [hcom] at h8
  obtain ⟨_, _, _, p, hp, hf⟩ := hb.old hcom
  obtain ⟨parts, c⟩ := b
  simp only at hp hcom
  subst hp hcom
  obtain ⟨t₂, ht⟩ := hb.inv.track
  have htt : t₂ = t := by
    obtain ⟨_, tys, todo, vals, rfl, e2, _⟩ := ht.single
    have := hb.root
    simp only [rootTys] at this
    rw [this] at e2
    simpa using e2.symm
  subst htt
  obtain ⟨v, hv, hhas, hfit, hbytes⟩ := ht.final hf
  have h1 := hb.inv.holds
  simp only [hbytes, List.nil_append, List.length_nil, if_true, known_length] at h1 h8
  exact ⟨v, hhas, hfit, holds_begins h1, h8⟩

/-- C111. In every state that can be reached, with panics of commits among others before, a call that panics leaves the encoder as it was. -/
theorem panic_changes_nothing (hI : Tame I.toWriteImpl) (hs : View s t) (be : Bool) (w : Writer σ) (ops : List Op) (op : Op) (ho : Op.sanes (ops ++ [op]))
    {e e₁ e₂ : Enc} {w₁ w₂ : Writer σ} {outs : List OutU} (he : Enc.with_ s be = some e) (hr : Op.runsU I ops e w = (e₁, w₁, outs))
    (hp : op.runU I e₁ w₁ = (e₂, w₂, .res .panic)) : e₂ = e₁ := by
  obtain ⟨ho1, ho2⟩ := sanes_append ops [op] ho
  obtain ⟨e₃, w₃, outs₃, st', b, lens, h1, _, hb, _⟩ := survives_die_aux hI hs be w ops ho1 he
  rw [hr] at h1
  cases h1
  have calmly : op.runU I e₁ w₁ = op.runU (bold I) e₁ w₁ → e₂ = e₁ := by
    intro heq
    obtain ⟨e4, w4, o, a1, hrun, _, _⟩ := run_sim (tame_exact hI) op ho2.1 hb
    obtain ⟨o', hu, ho'⟩ := run_like (I := bold I) (fun _ _ => rfl) op e₁ w₁ e4 w4 o hrun
    rw [heq, hu] at hp
    cases hp
    subst ho'
    exact (rejected op e₁ w₁ hrun).1
  by_cases hop : op = .commit
  · subst hop
    rcases commit_cases I e₁ w₁ with hc | ⟨hc1, _⟩
    · refine calmly ?_
      rw [Op.runU, Op.runU]
      simp only [hc]
    · rw [Op.runU] at hp
      simp only [hc1] at hp
      cases hp
      rfl
  · exact calmly (runU_bold I op e₁ w₁ (.inr hop)).1

/-- A writer which panics the first three times when something is committed: the value is committed the fourth time, and is all there. The calls for another value are refused in
between. -/
example : ∃ hist outs e' w', Op.runsU { flaky (fun n => n == 1) with dies := fun st _ => decide (st.1 < 6), commit := fun st n => (st.1 + n, st.2) } hist
      ⟨false, true, ⟨ofTy (.basic .uint16), 0⟩, ⟨0, 0, 0⟩, [], none, none⟩ ⟨(0, 1), fun _ => none⟩ = (e', w', outs)
    ∧ Op.keeps hist outs = [.u16 7, .u16 8, .commit, .commit] ∧ OutU.keeps outs = [.res .ok, .res (.brk (some .mismatch)), .res .ok, .res .ok]
    ∧ deaths hist outs = 3 ∧ w'.st.1 = 8 ∧ (List.range 2).mapM w'.mem = some [0, 7] :=
  ⟨[.u16 7, .u16 7, .commit, .u16 8, .commit, .commit, .commit, .commit], _, _, _, rfl, rfl, rfl, rfl, by decide +kernel, by decide +kernel⟩

end Verif.Dbus.Die
