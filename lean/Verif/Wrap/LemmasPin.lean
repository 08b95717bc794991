import Verif.Wrap.PropsOwn
import Verif.Wrap.SpecPin
/-! # Lemma on pins -/
namespace Verif.Wrap
variable {V : Type}

/-- The call is that of dropping the pointer. -/
theorem call_drop {s : Prog V} (hr : Reach s) {h : Handle} (hm : h ∈ s.handles) (f : PinFn) (hf : f.takes h.kind) :
    ∃ objs', dropObj s.objs h = some objs' ∧ f.call s.objs ⟨h⟩ = .ok objs' h.ptr := by
  obtain ⟨x, hx, hk, hd⟩ := inv_handle (reach_inv hr) hm
  have hu : deref s.objs h = some h.ptr := by rw [deref, use_some hx hk hd]
  have hn := own_no_ub hr (.drop h) trivial
  simp only [Prog.step, if_pos hm] at hn
  cases e : dropObj s.objs h with
  | none => rw [e] at hn; exact absurd rfl hn
  | some objs' =>
    refine ⟨objs', rfl, ?_⟩
    have h1 : as_ptr s.objs ⟨h⟩ = .ok objs' h.ptr := by
      simp only [as_ptr, Pin.into_inner_unchecked, hu, e]
    have h2 : h.kind = .excl ∨ h.kind = .box → as_mut_ptr s.objs ⟨h⟩ = .ok objs' h.ptr := by
      intro hk
      have hb : derefsMut h.kind = true := by rcases hk with hk | hk <;> rw [hk] <;> rfl
      simp only [as_mut_ptr, Pin.into_inner_unchecked, hu, e, hb, if_true]
    cases f with
    | asPtr => exact h1
    | asMutPtr => exact h2 hf
    | nonnullRef => exact h1
    | nonnullMut => exact h2 hf

end Verif.Wrap
