import Verif.Dbus.SpecRetry
import Verif.Dbus.PropsDec
/-! # Lemmas: refused calls -/
namespace Verif.Dbus.Retry
open Verif.Io

variable {σ τ : Type} {I : WriteImpl σ} {J : WriteImpl τ}

/-! ## Writers -/

/-- If one write succeeds then so does the other, with the same index. -/
def Goes (r : WriteOut σ) (r' : WriteOut τ) : Prop := r.flow = .cont () → r'.flow = .cont () ∧ r'.idx = r.idx

theorem wrote_goes (hw : Willing J) {w : Writer σ} {x : Writer τ} {idx : Nat} {d : List UInt8} {r : WriteOut σ} {r' : WriteOut τ}
    (h : Wrote I w idx d r) (h' : Wrote J x idx d r') : Goes r r' := by
  intro hf
  cases h with
  | refused => cases hf
  | all st hl =>
    cases h' with
    | all => exact ⟨rfl, rfl⟩
    | refused st st' k e hk hm =>
      have : idx + d.length ≤ usizeMax := by
        rcases hl with rfl | hl
        · cases hk
        · exact hl
      exact absurd (congrArg Prod.snd hm) (hw st (idx + k) (d.length - k) (by omega) e)

theorem write_goes (hE : Exact I) (hJ : Exact J) (hw : Willing J) (w : Writer σ) (x : Writer τ) (idx : Nat) (d : List UInt8) :
    Goes (write I w idx d) (write J x idx d) :=
  wrote_goes hw (write_spec I hE.toGood w idx d) (write_spec J hJ.toGood x idx d)

theorem zero_goes (hE : Exact I) (hJ : Exact J) (hw : Willing J) (w : Writer σ) (x : Writer τ) (idx n : Nat) :
    Goes (zero I w idx n) (zero J x idx n) :=
  wrote_goes hw (fill_spec I hE.toGood w idx n 0) (fill_spec J hJ.toGood x idx n 0)

theorem align_goes (hE : Exact I) (hJ : Exact J) (hw : Willing J) (w : Writer σ) (x : Writer τ) (idx exp : Nat) :
    Goes (alignExp2 I w idx exp) (alignExp2 J x idx exp) := by
  unfold alignExp2
  split
  · exact fun h => nomatch h
  · split
    · exact fun h => nomatch h
    · exact zero_goes hE hJ hw w x idx _

theorem iter_goes {ι : Type} (hE : Exact I) (hJ : Exact J) (hw : Willing J) (w : Writer σ) (x : Writer τ) (idx : Nat) (T : Iter ι)
    (it : ι) (l : List UInt8) (h : Yields T it l) : Goes (writeIter I T w idx it) (writeIter J T x idx it) :=
  wrote_goes hw (writeIter_spec I hE T w idx it l h) (writeIter_spec J hJ T x idx it l h)

/-! ## Encoders -/

/-- Refused results. -/
def no : DRes → Bool
  | .brk none => true
  | .brk (some (.io _)) => true
  | _ => false

/-- If a call is answered and not refused with one writer, then the same happens with the other one. -/
def Keeps (a : Step σ) (b : Step τ) : Prop :=
  ∀ e w r, a = some (e, w, r) → no r = false → ∃ x, b = some (e, x, r)

theorem Keeps.same (e : Enc) (w : Writer σ) (x : Writer τ) (r : DRes) : Keeps (some (e, w, r)) (some (e, x, r)) := by
  intro e' w' r' h _
  cases h
  exact ⟨x, rfl⟩

theorem Keeps.panics (b : Step τ) : Keeps (σ := σ) none b := fun _ _ _ h => nomatch h

theorem io_keeps (e : Enc) {r : WriteOut σ} {r' : WriteOut τ} (h : Goes r r') {k : Writer σ → Nat → Step σ}
    {k' : Writer τ → Nat → Step τ} (hk : ∀ w x idx, Keeps (k w idx) (k' x idx)) : Keeps (e.io r k) (e.io r' k') := by
  unfold Enc.io
  cases hf : r.flow with
  | cont u =>
    obtain ⟨h1, h2⟩ := h hf
    simp only [h1, h2]
    exact hk _ _ _
  | brk x =>
    intro e' w' r' h hn
    cases h
    cases x <;> cases hn
  | fault => exact .panics _

theorem expect_keeps (e : Enc) (w : Writer σ) (x : Writer τ) (el : Element) {k : Step σ} {k' : Step τ} (h : Keeps k k') :
    Keeps (e.expect w el k) (e.expect x el k') := by
  unfold Enc.expect
  split
  · exact .panics _
  · split
    · exact .same _ _ _ _
    · exact h

theorem advance_keeps (e : Enc) (w : Writer σ) (x : Writer τ) (idx : Nat) : Keeps (e.advance w idx) (e.advance x idx) := by
  unfold Enc.advance
  split
  · exact .panics _
  · exact .same _ _ _ _

theorem pop_keeps (e : Enc) (w : Writer σ) (x : Writer τ) (l : Level) (c : Option Cursor) (st : List (Element × Level × Option Cursor)) :
    Keeps (e.pop w l c st) (e.pop x l c st) := by
  unfold Enc.pop
  split
  · exact .panics _
  · split
    · exact .panics _
    · exact .same _ _ _ _

section
variable (hE : Exact I) (hJ : Exact J) (hw : Willing J)
include hE hJ hw

theorem fixed_keeps (e : Enc) (w : Writer σ) (x : Writer τ) (el : Element) (d : List UInt8) :
    Keeps (e.fixed I w el d) (e.fixed J x el d) :=
  expect_keeps e w x el <| io_keeps e (align_goes hE hJ hw _ _ _ _) fun w x _ =>
    io_keeps e (write_goes hE hJ hw _ _ _ _) fun w x _ => advance_keeps e w x _

theorem str8_keeps (e : Enc) (w : Writer σ) (x : Writer τ) (el : Element) (d : List UInt8) :
    Keeps (e.str8 I w el d) (e.str8 J x el d) := by
  unfold Enc.str8
  refine expect_keeps e w x el ?_
  split
  · exact io_keeps e (align_goes hE hJ hw _ _ _ _) fun w x _ => io_keeps e (write_goes hE hJ hw _ _ _ _) fun w x _ =>
      io_keeps e (write_goes hE hJ hw _ _ _ _) fun w x _ => io_keeps e (zero_goes hE hJ hw _ _ _ _) fun w x _ => advance_keeps e w x _
  · exact .same _ _ _ _

theorem str32_keeps (e : Enc) (w : Writer σ) (x : Writer τ) (el : Element) (d : List UInt8) :
    Keeps (e.str32 I w el d) (e.str32 J x el d) := by
  unfold Enc.str32
  refine expect_keeps e w x el ?_
  split
  · exact io_keeps e (align_goes hE hJ hw _ _ _ _) fun w x _ => io_keeps e (write_goes hE hJ hw _ _ _ _) fun w x _ =>
      io_keeps e (write_goes hE hJ hw _ _ _ _) fun w x _ => io_keeps e (zero_goes hE hJ hw _ _ _ _) fun w x _ => advance_keeps e w x _
  · exact .same _ _ _ _

theorem array_keeps (e : Enc) (w : Writer σ) (x : Writer τ) : Keeps (e.array I w) (e.array J x) := by
  unfold Enc.array
  refine expect_keeps e w x _ ?_
  split
  · exact .panics _
  · exact .panics _
  · refine io_keeps e (align_goes hE hJ hw _ _ _ _) fun w x _ => io_keeps e (write_goes hE hJ hw _ _ _ _) fun w x _ =>
      io_keeps e (align_goes hE hJ hw _ _ _ _) fun w x _ => ?_
    split
    · exact .panics _
    · exact .same _ _ _ _

theorem bracket_keeps (e : Enc) (w : Writer σ) (x : Writer τ) (el : Element) : Keeps (e.bracket I w el) (e.bracket J x el) := by
  unfold Enc.bracket
  refine expect_keeps e w x _ ?_
  split
  · exact .panics _
  · exact .panics _
  · refine io_keeps e (align_goes hE hJ hw _ _ _ _) fun w x _ => ?_
    split
    · exact .panics _
    · exact .same _ _ _ _

theorem variant_keeps (e : Enc) (w : Writer σ) (x : Writer τ) (s : Sig) (hs : (Op.variant s).sane) :
    Keeps (e.variant I w s) (e.variant J x s) := by
  obtain ⟨t, hv, hk⟩ := hs
  have hl := hv.rep.len
  unfold Enc.variant
  refine expect_keeps e w x _ ?_
  rw [hl]
  simp only
  split
  · rename_i hn
    have hk8 : s.kind = .node8 := by
      rcases hk with hk | hk
      · exact hk
      · cases hkk : s.kind with
        | node8 => rfl
        | node64 => rw [hkk] at hn; simp [Kind.coeff] at hn; omega
    refine io_keeps e (align_goes hE hJ hw _ _ _ _) fun w x _ => io_keeps e (write_goes hE hJ hw _ _ _ _) fun w x _ => ?_
    rw [hv.rep.new]
    have hy := codes_yield hv hk8 t.size 0 (by omega)
    exact io_keeps e (iter_goes hE hJ hw _ _ _ _ _ _ hy) fun w x _ => io_keeps e (zero_goes hE hJ hw _ _ _ _) fun w x _ => .same _ _ _ _
  · exact .same _ _ _ _

theorem close_keeps (e : Enc) (w : Writer σ) (x : Writer τ) : Keeps (e.close I w) (e.close J x) := by
  unfold Enc.close
  split
  · exact .panics _
  · exact .same _ _ _ _
  · split
    · exact .same _ _ _ _
    · split
      · exact pop_keeps _ _ _ _ _ _
      · split
        · exact .panics _
        · split
          · split
            · exact io_keeps e (write_goes hE hJ hw _ _ _ _) fun w x _ => pop_keeps _ _ _ _ _ _
            · exact .same _ _ _ _
          · exact pop_keeps _ _ _ _ _ _
      · exact pop_keeps _ _ _ _ _ _
      · exact pop_keeps _ _ _ _ _ _
      · exact .panics _
end

theorem commit_keeps (e : Enc) (w : Writer σ) (x : Writer τ) : Keeps (e.commit I w) (e.commit J x) := by
  unfold Enc.commit
  split
  · exact .panics _
  · split
    · exact .same _ _ _ _
    · split
      · exact .same _ _ _ _
      · split
        · exact .same _ _ _ _
        · exact .same _ _ _ _

theorem Keeps.out {a : Step σ} {b : Step τ} (h : Keeps a b) {e : Enc} {w : Writer σ} {o : Out}
    (ha : (a.map fun (e, w, r) => (e, w, Out.res r)) = some (e, w, o)) (hn : o.refused = false) :
    ∃ x, (b.map fun (e, w, r) => (e, w, Out.res r)) = some (e, x, o.kept) := by
  match a with
  | none => cases ha
  | some (e, w, r) =>
    cases ha
    have hr : no r = false := by
      cases r with
      | ok => rfl
      | brk x =>
        cases x with
        | none => cases hn
        | some y => cases y <;> first | rfl | cases hn
    obtain ⟨x, rfl⟩ := h e w r rfl hr
    exact ⟨x, rfl⟩

mutual
theorem run_keeps (hE : Exact I) (hJ : Exact J) (hw : Willing J) : (op : Op) → op.sane → ∀ (e : Enc) (w : Writer σ) (x : Writer τ)
    {e' : Enc} {w' : Writer σ} {o : Out}, op.run I e w = some (e', w', o) → o.refused = false →
    ∃ x', (op.kept o).run J e x = some (e', x', o.kept)
  | .u16 v, _, e, w, x, e', w', o, h, hn => (fixed_keeps hE hJ hw e w x _ _).out h hn
  | .u32 v, _, e, w, x, e', w', o, h, hn => (fixed_keeps hE hJ hw e w x _ _).out h hn
  | .u64 v, _, e, w, x, e', w', o, h, hn => (fixed_keeps hE hJ hw e w x _ _).out h hn
  | .string v, _, e, w, x, e', w', o, h, hn => (str32_keeps hE hJ hw e w x _ _).out h hn
  | .object v, _, e, w, x, e', w', o, h, hn => (str32_keeps hE hJ hw e w x _ _).out h hn
  | .signature v, _, e, w, x, e', w', o, h, hn => (str8_keeps hE hJ hw e w x _ _).out h hn
  | .variant s, hs, e, w, x, e', w', o, h, hn => (variant_keeps hE hJ hw e w x s hs).out h hn
  | .array, _, e, w, x, e', w', o, h, hn => (array_keeps hE hJ hw e w x).out h hn
  | .structure, _, e, w, x, e', w', o, h, hn => (bracket_keeps hE hJ hw e w x _).out h hn
  | .dict, _, e, w, x, e', w', o, h, hn => (bracket_keeps hE hJ hw e w x _).out h hn
  | .close, _, e, w, x, e', w', o, h, hn => (close_keeps hE hJ hw e w x).out h hn
  | .commit, _, e, w, x, e', w', o, h, hn => (commit_keeps e w x).out h hn
  | .sub s ops, hs, e, w, x, e', w', o, h, hn => by
    unfold Op.run at h
    have key : ∀ sub : Option (Option Enc), (match sub with
        | none => none
        | some none => some (e, w, Out.res (.brk (some .mismatch)))
        | some (some y) => match Op.runs I ops y w with
          | none => none
          | some (y', w, outs) => some (e.merge y' (y.link.bind id), w, Out.sub outs)) = some (e', w', o) →
        (∃ ops' x', o = .res (.brk (some .mismatch)) ∧ ops' = ops ∧ x' = x ∧ sub = some none ∧ e' = e) ∨
        ∃ y y' x' outs, sub = some (some y) ∧ o = .sub outs ∧ Op.runs J (Op.kepts ops outs) y x = some (y', x', Out.kepts outs)
          ∧ e' = e.merge y' (y.link.bind id) := by
      intro sub h
      match sub with
      | none => cases h
      | some none =>
        cases h
        exact .inl ⟨_, _, rfl, rfl, rfl, rfl, rfl⟩
      | some (some y) =>
        simp only at h
        match hr : Op.runs I ops y w with
        | none => rw [hr] at h; cases h
        | some (y', w₁, outs) =>
          rw [hr] at h
          cases h
          obtain ⟨x', hx⟩ := runs_keeps hE hJ hw ops hs.2 y w x hr
          exact .inr ⟨y, y', x', outs, rfl, rfl, hx, rfl⟩
    rcases key _ h with ⟨_, _, rfl, -, -, ho, rfl⟩ | ⟨y, y', x', outs, ho, rfl, hx, rfl⟩
    · refine ⟨x, ?_⟩
      simp only [Op.kept, Out.kept]
      unfold Op.run
      rw [ho]
    · refine ⟨x', ?_⟩
      simp only [Op.kept, Out.kept]
      unfold Op.run
      rw [ho]
      simp only [hx]
theorem runs_keeps (hE : Exact I) (hJ : Exact J) (hw : Willing J) : (ops : List Op) → Op.sanes ops → ∀ (e : Enc) (w : Writer σ) (x : Writer τ)
    {e' : Enc} {w' : Writer σ} {outs : List Out}, Op.runs I ops e w = some (e', w', outs) →
    ∃ x', Op.runs J (Op.kepts ops outs) e x = some (e', x', Out.kepts outs)
  | [], _, e, w, x, e', w', outs, h => by
    cases h
    exact ⟨x, rfl⟩
  | op :: ops, hs, e, w, x, e', w', outs, h => by
    unfold Op.runs at h
    match hr : op.run I e w with
    | none => rw [hr] at h; cases h
    | some (e₁, w₁, o) =>
      rw [hr] at h
      simp only at h
      match hr' : Op.runs I ops e₁ w₁ with
      | none => rw [hr'] at h; cases h
      | some (e₂, w₂, os) =>
        rw [hr'] at h
        cases h
        simp only [Op.kepts, Out.kepts]
        by_cases hn : o.refused = true
        · rw [if_pos hn, if_pos hn]
          have he : e₁ = e := by
            cases o with
            | sub => cases hn
            | res r =>
              cases r with
              | ok => cases hn
              | brk y => exact (rejected op e w hr).1
          subst he
          exact runs_keeps hE hJ hw ops hs.2 e₁ w₁ x hr'
        · rw [if_neg hn, if_neg hn]
          obtain ⟨x₁, h₁⟩ := run_keeps hE hJ hw op hs.1 e w x hr (Bool.eq_false_iff.mpr hn)
          obtain ⟨x₂, h₂⟩ := runs_keeps hE hJ hw ops hs.2 e₁ w₁ x₁ hr'
          refine ⟨x₂, ?_⟩
          unfold Op.runs
          simp only [h₁, h₂]
end

/-! ## What the specification says -/

variable {R R' : Nat → Prop} {be : Bool}

theorem not_io {r : DRes} (h : (Out.res r).refused = false) : ¬ r.isIo := by
  cases r with
  | ok => exact id
  | brk x =>
    cases x with
    | none => cases h
    | some y => cases y <;> first | exact id | cases h

theorem does_refused {pre : Pat} {a b : St} {op : Op} {o : Out} (hn : o.refused = true) (h : Does R be pre a op o b) : b = a := by
  cases h with
  | mismatch => rfl
  | long => rfl
  | value => cases hn
  | valueIo => rfl
  | closeMismatch => rfl
  | closeLong => rfl
  | close => cases hn
  | closeIo => rfl
  | pending => rfl
  | commit => cases hn
  | subMismatch => rfl
  | subDropped => rfl
  | subCommitted => cases hn

theorem suits_sub {s : Option Sig} {ops : List Op} {u : Ty} (h : (Op.sub s ops).suits u = true) : False := by
  cases u <;> simp [Op.suits] at h

mutual
theorem does_kept : (op : Op) → (pre : Pat) → (a b : St) → (o : Out) → o.refused = false → Does R be pre a op o b →
    Does (fun _ => False) be pre a (op.kept o) o.kept b
  | .sub s ops, pre, a, b, o, hn, h => by
    cases h with
    | mismatch _ _ _ _ _ hv => cases hv
    | long _ _ _ _ _ u _ hv => exact (suits_sub hv).elim
    | value _ _ _ _ _ u _ _ hv => exact (suits_sub hv).elim
    | valueIo _ _ _ _ _ u _ _ _ hv => exact (suits_sub hv).elim
    | subMismatch _ p ps c _ _ hs => exact .subMismatch _ _ _ _ _ _ hs
    | subDropped _ p ps c _ _ _ u qs hu hs hd => exact .subDropped _ _ _ _ _ _ _ _ _ hu hs (doesAll_kepts _ _ _ _ _ hd)
    | subCommitted _ p ps c _ _ _ u q v hu hs hd hv =>
      exact .subCommitted _ _ _ _ _ _ _ _ _ _ hu hs (doesAll_kepts _ _ _ _ _ hd) hv
  | op, pre, a, b, .res r, hn, h => by
    have e : op.kept (.res r) = op := by cases op <;> rfl
    rw [e, Out.kept]
    cases h with
    | mismatch _ _ _ _ _ hv hs => exact .mismatch _ _ _ _ _ hv hs
    | long _ _ _ _ _ u hu hs hl => exact .long _ _ _ _ _ _ hu hs hl
    | value _ _ _ _ _ u _ hu hs hl he => exact .value _ _ _ _ _ _ _ hu hs hl he
    | valueIo _ _ _ _ _ _ _ _ _ _ _ _ _ hr => exact (not_io hn hr).elim
    | closeMismatch _ _ _ _ h1 => exact .closeMismatch _ _ _ _ h1
    | closeLong _ _ _ _ h1 h2 => exact .closeLong _ _ _ _ h1 h2
    | close _ _ _ _ _ _ h1 h2 h3 => exact .close _ _ _ _ _ _ h1 h2 h3
    | closeIo _ _ _ _ _ _ _ _ _ _ _ hr => exact (not_io hn hr).elim
    | pending _ _ _ _ h1 => exact .pending _ _ _ _ h1
    | commit _ _ _ h1 => exact .commit _ _ _ h1
    | subMismatch _ p ps c _ _ hs => exact .subMismatch _ _ _ _ _ _ hs
  | .u16 _, _, _, _, .sub _, _, h => by cases h
  | .u32 _, _, _, _, .sub _, _, h => by cases h
  | .u64 _, _, _, _, .sub _, _, h => by cases h
  | .string _, _, _, _, .sub _, _, h => by cases h
  | .object _, _, _, _, .sub _, _, h => by cases h
  | .signature _, _, _, _, .sub _, _, h => by cases h
  | .variant _, _, _, _, .sub _, _, h => by cases h
  | .array, _, _, _, .sub _, _, h => by cases h
  | .structure, _, _, _, .sub _, _, h => by cases h
  | .dict, _, _, _, .sub _, _, h => by cases h
  | .close, _, _, _, .sub _, _, h => by cases h
  | .commit, _, _, _, .sub _, _, h => by cases h
theorem doesAll_kepts : (ops : List Op) → (pre : Pat) → (a b : St) → (outs : List Out) → DoesAll R be pre a ops outs b →
    DoesAll (fun _ => False) be pre a (Op.kepts ops outs) (Out.kepts outs) b
  | [], pre, a, b, outs, h => by cases h; exact .nil _ _
  | op :: ops, pre, a, b, outs, h => by
    cases h with
    | cons _ _ m _ _ _ o outs h1 h2 =>
      simp only [Op.kepts, Out.kepts]
      by_cases hn : o.refused = true
      · rw [if_pos hn, if_pos hn]
        rw [does_refused hn h1] at h2
        exact doesAll_kepts _ _ _ _ _ h2
      · rw [if_neg hn, if_neg hn]
        exact .cons _ _ _ _ _ _ _ _ (does_kept _ _ _ _ _ (Bool.eq_false_iff.mpr hn) h1) (doesAll_kepts _ _ _ _ _ h2)
end

theorem effect_det {op : Op} {u : Ty} {ps qs rs : List Part} (h : Effect op u ps qs) (h' : Effect op u ps rs) : qs = rs := by
  cases h with
  | variant _ _ _ _ hv => cases h' with | variant _ _ _ _ hv' => rw [view_unique hv hv']
  | _ => cases h'; rfl

mutual
theorem does_det : (op : Op) → (pre : Pat) → (a b b' : St) → (o : Out) → Does R be pre a op o b → Does R' be pre a op o b' → b = b'
  | op, pre, a, b, b', o, h, h' => by
    by_cases hn : o.refused = true
    · rw [does_refused hn h, does_refused hn h']
    · cases h with
      | mismatch => cases h' <;> rfl
      | long => cases h' <;> rfl
      | value _ _ _ _ _ u _ hu _ _ he =>
        cases h' with
        | value _ _ _ _ _ u' _ hu' _ _ he' =>
          rw [hu, Option.some.injEq] at hu'
          subst hu'
          rw [effect_det he he']
        | valueIo _ _ _ _ _ _ _ _ _ _ _ _ _ hr => cases hr
        | close => cases he
        | closeIo _ _ _ _ _ _ _ _ _ _ _ hr => cases hr
        | commit => cases he
      | valueIo _ _ _ _ _ _ _ _ _ _ _ _ _ hr => exact (not_io (Bool.eq_false_iff.mpr hn) hr).elim
      | closeMismatch => cases h' <;> rfl
      | closeLong => cases h' <;> rfl
      | close _ _ _ _ _ v _ _ hv =>
        cases h' with
        | value _ _ _ _ _ u' _ hu' _ _ he' => cases he'
        | valueIo _ _ _ _ _ _ _ _ _ _ _ _ _ hr => cases hr
        | close _ _ _ _ _ v' _ _ hv' =>
          rw [hv, Option.some.injEq] at hv'
          rw [hv']
        | closeIo _ _ _ _ _ _ _ _ _ _ _ hr => cases hr
      | closeIo _ _ _ _ _ _ _ _ _ _ _ hr => exact (not_io (Bool.eq_false_iff.mpr hn) hr).elim
      | pending => cases h' <;> rfl
      | commit =>
        cases h' with
        | value _ _ _ _ _ u' _ hu' _ _ he' => cases he'
        | valueIo _ _ _ _ _ _ _ _ _ _ _ _ _ hr => cases hr
        | commit => rfl
      | subMismatch => cases h' <;> rfl
      | subDropped _ p ps c _ _ _ u qs hu _ hd =>
        cases h' with
        | subDropped => rfl
        | subCommitted _ _ _ _ _ _ _ u' q v hu' _ hd' _ =>
          rw [hu, Option.some.injEq] at hu'
          subst hu'
          have := doesAll_det _ _ _ _ _ _ hd hd'
          cases this
      | subCommitted _ p ps c _ _ _ u q v hu _ hd hv =>
        cases h' with
        | subDropped _ _ _ _ _ _ _ u' qs hu' _ hd' =>
          rw [hu, Option.some.injEq] at hu'
          subst hu'
          have := doesAll_det _ _ _ _ _ _ hd hd'
          cases this
        | subCommitted _ _ _ _ _ _ _ u' q' v' hu' _ hd' hv' =>
          rw [hu, Option.some.injEq] at hu'
          subst hu'
          have := doesAll_det _ _ _ _ _ _ hd hd'
          cases this
          rw [hv] at hv'
          cases hv'
          rfl
theorem doesAll_det : (ops : List Op) → (pre : Pat) → (a b b' : St) → (outs : List Out) → DoesAll R be pre a ops outs b →
    DoesAll R' be pre a ops outs b' → b = b'
  | [], pre, a, b, b', outs, h, h' => by cases h; cases h'; rfl
  | op :: ops, pre, a, b, b', outs, h, h' => by
    cases h with
    | cons _ _ m _ _ _ o outs h1 h2 =>
      cases h' with
      | cons _ _ m' _ _ _ _ _ h1' h2' =>
        have := does_det _ _ _ _ _ _ h1 h1'
        subst this
        exact doesAll_det _ _ _ _ _ _ h2 h2'
end

mutual
theorem kept_sane : (op : Op) → op.sane → ∀ o, (op.kept o).sane
  | .sub _ ops, h, .sub outs => ⟨h.1, kepts_sane ops h.2 outs⟩
  | .sub _ _, h, .res _ => h
  | .u16 _, h, _ | .u32 _, h, _ | .u64 _, h, _ | .string _, h, _ | .object _, h, _ | .signature _, h, _ | .variant _, h, _
  | .array, h, _ | .structure, h, _ | .dict, h, _ | .close, h, _ | .commit, h, _ => h
theorem kepts_sane : (ops : List Op) → Op.sanes ops → ∀ outs, Op.sanes (Op.kepts ops outs)
  | [], _, _ => trivial
  | _ :: _, _, [] => trivial
  | op :: ops, h, o :: outs => by
    simp only [Op.kepts]
    split
    · exact kepts_sane ops h.2 outs
    · exact ⟨kept_sane op h.1 o, kepts_sane ops h.2 outs⟩
end

/-! ## Readers -/

section
variable {I : ReadImpl σ} {J : ReadImpl τ} {data : List UInt8}

/-- If one read succeeds then so does the other, with the same data and index. -/
def GoesR (r : ReadOut σ) (r' : ReadOut τ) : Prop := r.flow = .cont () → r'.flow = .cont () ∧ r'.idx = r.idx ∧ r'.out = r.out

theorem read_goes (hI : Linear I data) (hJ : Linear J data) (hr : Ready J data) (st : σ) (st' : τ) (idx len : Nat) :
    GoesR (read I st idx len) (read J st' idx len) := by
  intro hf
  have h1 := read_spec I data hI st idx len
  rw [hf] at h1
  obtain ⟨ho, hl, hi⟩ := h1
  have h2 := read_spec J data hJ st' idx len
  cases hf' : (read J st' idx len).flow with
  | cont u =>
    rw [hf'] at h2
    exact ⟨rfl, h2.2.2.trans hi.symm, h2.1.trans ho.symm⟩
  | brk e =>
    rw [hf'] at h2
    obtain ⟨k, s, hk, -, -, -, hm⟩ := h2
    have : idx + len ≤ data.length := by
      rw [ho, List.length_take, List.length_drop] at hl
      omega
    exact absurd hm (hr s (idx + k) (len - k) (by omega) e)
  | fault => rw [hf'] at h2; cases h2

/-- If a call is answered and not refused with one reader, then the same happens with the other one. -/
def KeepsR (a : DStep σ) (b : DStep τ) : Prop :=
  ∀ d st r, a = some (d, st, r) → r.waits = false → ∃ st', b = some (d, st', r)

theorem KeepsR.same (d : Dec) (st : σ) (st' : τ) (r : Ans) : KeepsR (some (d, st, r)) (some (d, st', r)) := by
  intro e' w' r' h _
  cases h
  exact ⟨st', rfl⟩

theorem KeepsR.panics (b : DStep τ) : KeepsR (σ := σ) none b := fun _ _ _ h => nomatch h

theorem dio_keeps (d : Dec) {r : ReadOut σ} {r' : ReadOut τ} (h : GoesR r r') {k : σ → Nat → List UInt8 → DStep σ}
    {k' : τ → Nat → List UInt8 → DStep τ} (hk : ∀ st st' idx out, KeepsR (k st idx out) (k' st' idx out)) :
    KeepsR (d.io r k) (d.io r' k') := by
  unfold Dec.io
  cases hf : r.flow with
  | cont u =>
    obtain ⟨h1, h2, h3⟩ := h hf
    simp only [h1, h2, h3]
    exact hk _ _ _ _
  | brk x =>
    intro e' w' r' h hn
    cases h
    cases x <;> cases hn
  | fault => exact .panics _

theorem dalign_keeps (d : Dec) (st : σ) (st' : τ) (idx exp : Nat) {k : Nat → DStep σ} {k' : Nat → DStep τ}
    (hk : ∀ i, KeepsR (k i) (k' i)) : KeepsR (d.align st idx exp k) (d.align st' idx exp k') := by
  unfold Dec.align
  split
  · exact .panics _
  · split
    · exact .same _ _ _ _
    · exact hk _

theorem dexpect_keeps (d : Dec) (st : σ) (st' : τ) (el : Element) {k : DStep σ} {k' : DStep τ} (h : KeepsR k k') :
    KeepsR (d.expect st el k) (d.expect st' el k') := by
  unfold Dec.expect
  split
  · exact .panics _
  · split
    · exact .same _ _ _ _
    · exact h

theorem dadvance_keeps (d : Dec) (st : σ) (st' : τ) (idx : Nat) (a : Ans) : KeepsR (d.advance st idx a) (d.advance st' idx a) := by
  unfold Dec.advance
  split
  · exact .panics _
  · exact .same _ _ _ _

theorem dpop_keeps (d : Dec) (st : σ) (st' : τ) (l : Level) (c : Option Cursor) (s : List (Element × Level × Option Cursor)) :
    KeepsR (d.pop st l c s) (d.pop st' l c s) := by
  unfold Dec.pop
  split
  · exact .panics _
  · split
    · exact .panics _
    · exact .same _ _ _ _

theorem dclose_keeps (d : Dec) (st : σ) (st' : τ) : KeepsR (d.close st) (d.close st') := by
  unfold Dec.close
  split
  · exact .panics _
  · exact .same _ _ _ _
  · split
    · exact .same _ _ _ _
    · split
      · exact dpop_keeps _ _ _ _ _ _
      · exact dpop_keeps _ _ _ _ _ _
      · exact dpop_keeps _ _ _ _ _ _
      · exact dpop_keeps _ _ _ _ _ _
      · exact .panics _

theorem dcommit_keeps (d : Dec) (st : σ) (st' : τ) : KeepsR (d.commit st) (d.commit st') := by
  unfold Dec.commit
  split
  · exact .panics _
  · split
    · exact .same _ _ _ _
    · split
      · exact .same _ _ _ _
      · exact .same _ _ _ _

variable (hI : Linear I data) (hJ : Linear J data) (hr : Ready J data)
include hI hJ hr

theorem text_keeps (d : Dec) (st : σ) (st' : τ) (idx len : Nat) : KeepsR (d.text I st idx len) (d.text J st' idx len) := by
  unfold Dec.text
  refine dio_keeps d (read_goes hI hJ hr _ _ _ _) fun st st' idx out => ?_
  split
  · split
    · exact dadvance_keeps _ _ _ _ _
    · exact .panics _
  · exact .same _ _ _ _

theorem du16_keeps (d : Dec) (st : σ) (st' : τ) : KeepsR (d.u16 I st) (d.u16 J st') :=
  dexpect_keeps d st st' _ <| dalign_keeps d _ _ _ _ fun _ => dio_keeps d (read_goes hI hJ hr _ _ _ _) fun _ _ _ _ =>
    dadvance_keeps d _ _ _ _

theorem dstr8_keeps (d : Dec) (st : σ) (st' : τ) (el : Element) : KeepsR (d.str8 I st el) (d.str8 J st' el) :=
  dexpect_keeps d st st' _ <| dalign_keeps d _ _ _ _ fun _ => dio_keeps d (read_goes hI hJ hr _ _ _ _) fun _ _ _ _ =>
    text_keeps hI hJ hr d _ _ _ _

theorem dstr32_keeps (d : Dec) (st : σ) (st' : τ) (el : Element) : KeepsR (d.str32 I st el) (d.str32 J st' el) :=
  dexpect_keeps d st st' _ <| dalign_keeps d _ _ _ _ fun _ => dio_keeps d (read_goes hI hJ hr _ _ _ _) fun _ _ _ _ =>
    text_keeps hI hJ hr d _ _ _ _

theorem darray_keeps (d : Dec) (st : σ) (st' : τ) : KeepsR (d.array I st) (d.array J st') := by
  unfold Dec.array
  refine dexpect_keeps d st st' _ ?_
  split
  · exact .panics _
  · exact .panics _
  · refine dalign_keeps d _ _ _ _ fun i => dio_keeps d (read_goes hI hJ hr _ _ _ _) fun st st' idx out =>
      dalign_keeps d _ _ _ _ fun i => ?_
    split
    · exact .panics _
    · exact .same _ _ _ _
end

theorem KeepsR.out {a : DStep σ} {b : DStep τ} (h : KeepsR a b) {d : Dec} {st : σ} {r : Ans} (ha : a = some (d, st, r))
    (hn : r.waits = false) (hs : r.kept = r) : ∃ st', b = some (d, st', r.kept) := by
  obtain ⟨st', hb⟩ := h _ _ _ ha hn
  exact ⟨st', by rw [hs]; exact hb⟩

section
variable {I : ReadImpl σ} {J : ReadImpl τ} {data : List UInt8}

/-- Only sub-decoders have answers within answers. -/
def Flat (a : DStep σ) : Prop := ∀ d st r, a = some (d, st, r) → r.kept = r

theorem flat_io (d : Dec) (r : ReadOut σ) {k : σ → Nat → List UInt8 → DStep σ} (hk : ∀ st i o, Flat (k st i o)) : Flat (d.io r k) := by
  unfold Dec.io
  split
  · exact hk _ _ _
  · intro _ _ _ h; cases h; rfl
  · intro _ _ _ h; cases h

theorem flat_align (d : Dec) (st : σ) (i e : Nat) {k : Nat → DStep σ} (hk : ∀ i, Flat (k i)) : Flat (d.align st i e k) := by
  unfold Dec.align
  split
  · intro _ _ _ h; cases h
  · split
    · intro _ _ _ h; cases h; rfl
    · exact hk _

theorem flat_expect (d : Dec) (st : σ) (el : Element) {k : DStep σ} (hk : Flat k) : Flat (d.expect st el k) := by
  unfold Dec.expect
  split
  · intro _ _ _ h; cases h
  · split
    · intro _ _ _ h; cases h; rfl
    · exact hk

theorem flat_advance (d : Dec) (st : σ) (i : Nat) (a : Ans) (ha : a.kept = a) : Flat (d.advance st i a) := by
  unfold Dec.advance
  split
  · intro _ _ _ h; cases h
  · intro _ _ _ h; cases h; exact ha

theorem flat_text (d : Dec) (st : σ) (i n : Nat) : Flat (d.text I st i n) := by
  unfold Dec.text
  refine flat_io d _ fun st i o => ?_
  split
  · split
    · exact flat_advance _ _ _ _ rfl
    · intro _ _ _ h; cases h
  · intro _ _ _ h; cases h; rfl

theorem flat_u16 (d : Dec) (st : σ) : Flat (d.u16 I st) :=
  flat_expect d st _ (flat_align d _ _ _ fun _ => flat_io d _ fun _ _ _ => flat_advance d _ _ _ rfl)

theorem flat_str8 (d : Dec) (st : σ) (el : Element) : Flat (d.str8 I st el) :=
  flat_expect d st _ (flat_align d _ _ _ fun _ => flat_io d _ fun _ _ _ => flat_text d _ _ _)

theorem flat_str32 (d : Dec) (st : σ) (el : Element) : Flat (d.str32 I st el) :=
  flat_expect d st _ (flat_align d _ _ _ fun _ => flat_io d _ fun _ _ _ => flat_text d _ _ _)

theorem flat_array (d : Dec) (st : σ) : Flat (d.array I st) := by
  unfold Dec.array
  refine flat_expect d st _ ?_
  split
  · intro _ _ _ h; cases h
  · intro _ _ _ h; cases h
  · refine flat_align d _ _ _ fun i => flat_io d _ fun st i o => flat_align d _ _ _ fun i => ?_
    split
    · intro _ _ _ h; cases h
    · intro _ _ _ h; cases h; rfl

theorem flat_pop (d : Dec) (st : σ) (l : Level) (c : Option Cursor) (s : List (Element × Level × Option Cursor)) :
    Flat (d.pop st l c s) := by
  unfold Dec.pop
  split
  · intro _ _ _ h; cases h
  · split
    · intro _ _ _ h; cases h
    · intro _ _ _ h; cases h; rfl

theorem flat_close (d : Dec) (st : σ) : Flat (d.close st) := by
  unfold Dec.close
  split
  · intro _ _ _ h; cases h
  · intro _ _ _ h; cases h; rfl
  · split
    · intro _ _ _ h; cases h; rfl
    · split
      · exact flat_pop _ _ _ _ _
      · exact flat_pop _ _ _ _ _
      · exact flat_pop _ _ _ _ _
      · exact flat_pop _ _ _ _ _
      · intro _ _ _ h; cases h

theorem flat_commit (d : Dec) (st : σ) : Flat (d.commit st) := by
  unfold Dec.commit
  split
  · intro _ _ _ h; cases h
  · split
    · intro _ _ _ h; cases h; rfl
    · split
      · intro _ _ _ h; cases h; rfl
      · intro _ _ _ h; cases h; rfl

mutual
theorem ask_keeps (hI : Linear I data) (hJ : Linear J data) (hr : Ready J data) : (x : Ask) → ∀ (d : Dec) (st : σ) (st' : τ)
    {d' : Dec} {st₁ : σ} {r : Ans}, x.run I d st = some (d', st₁, r) → r.waits = false →
    ∃ st₁', (x.kept r).run J d st' = some (d', st₁', r.kept)
  | .u16, d, st, st', d', st₁, r, h, hn => (du16_keeps hI hJ hr d st st').out h hn (flat_u16 d st _ _ _ h)
  | .string, d, st, st', d', st₁, r, h, hn => (dstr32_keeps hI hJ hr d st st' _).out h hn (flat_str32 d st _ _ _ _ h)
  | .signature, d, st, st', d', st₁, r, h, hn => (dstr8_keeps hI hJ hr d st st' _).out h hn (flat_str8 d st _ _ _ _ h)
  | .array, d, st, st', d', st₁, r, h, hn => (darray_keeps hI hJ hr d st st').out h hn (flat_array d st _ _ _ h)
  | .close, d, st, st', d', st₁, r, h, hn => (dclose_keeps d st st').out h hn (flat_close d st _ _ _ h)
  | .commit, d, st, st', d', st₁, r, h, hn => (dcommit_keeps d st st').out h hn (flat_commit d st _ _ _ h)
  | .more, d, st, st', d', st₁, r, h, hn => by cases h; exact ⟨st', rfl⟩
  | .sub s l, d, st, st', d', st₁, r, h, hn => by
    unfold Ask.run at h
    have key : ∀ sub : Option (Option Dec), (match sub with
        | none => none
        | some none => some (d, st, Ans.brk (some .mismatch))
        | some (some y) => match Ask.runs I l y st with
          | none => none
          | some (y', st, rs) => some (d.merge y' (y.link.bind id), st, Ans.sub rs)) = some (d', st₁, r) →
        (r = .brk (some .mismatch) ∧ sub = some none ∧ d' = d) ∨
        ∃ y y' x' rs, sub = some (some y) ∧ r = .sub rs ∧ Ask.runs J (Ask.kepts l rs) y st' = some (y', x', Ans.kepts rs)
          ∧ d' = d.merge y' (y.link.bind id) := by
      intro sub h
      match sub with
      | none => cases h
      | some none =>
        cases h
        exact .inl ⟨rfl, rfl, rfl⟩
      | some (some y) =>
        simp only at h
        match hx : Ask.runs I l y st with
        | none => rw [hx] at h; cases h
        | some (y', w₁, rs) =>
          rw [hx] at h
          cases h
          obtain ⟨x', hx⟩ := asks_keeps hI hJ hr l y st st' hx
          exact .inr ⟨y, y', x', rs, rfl, rfl, hx, rfl⟩
    rcases key _ h with ⟨rfl, ho, rfl⟩ | ⟨y, y', x', rs, ho, rfl, hx, rfl⟩
    · refine ⟨st', ?_⟩
      simp only [Ask.kept, Ans.kept]
      unfold Ask.run
      rw [ho]
    · refine ⟨x', ?_⟩
      simp only [Ask.kept, Ans.kept]
      unfold Ask.run
      rw [ho]
      simp only [hx]
theorem asks_keeps (hI : Linear I data) (hJ : Linear J data) (hr : Ready J data) : (l : List Ask) → ∀ (d : Dec) (st : σ) (st' : τ)
    {d' : Dec} {st₁ : σ} {rs : List Ans}, Ask.runs I l d st = some (d', st₁, rs) →
    ∃ st₁', Ask.runs J (Ask.kepts l rs) d st' = some (d', st₁', Ans.kepts rs)
  | [], d, st, st', d', st₁, rs, h => by
    cases h
    exact ⟨st', rfl⟩
  | x :: l, d, st, st', d', st₁, rs, h => by
    unfold Ask.runs at h
    match hx : x.run I d st with
    | none => rw [hx] at h; cases h
    | some (d₁, st₂, r) =>
      rw [hx] at h
      simp only at h
      match hx' : Ask.runs I l d₁ st₂ with
      | none => rw [hx'] at h; cases h
      | some (d₂, st₃, os) =>
        rw [hx'] at h
        cases h
        simp only [Ask.kepts, Ans.kepts]
        by_cases hn : r.waits = true
        · rw [if_pos hn, if_pos hn]
          have he : d₁ = d := by
            cases r with
            | brk y => exact dec_rejected x d st hx
            | _ => cases hn
          subst he
          exact asks_keeps hI hJ hr l d₁ st₂ st' hx'
        · rw [if_neg hn, if_neg hn]
          obtain ⟨x₁, h₁⟩ := ask_keeps hI hJ hr x d st st' hx (Bool.eq_false_iff.mpr hn)
          obtain ⟨x₂, h₂⟩ := asks_keeps hI hJ hr l d₁ st₂ x₁ hx'
          refine ⟨x₂, ?_⟩
          unfold Ask.runs
          simp only [h₁, h₂]
end
end

end Verif.Dbus.Retry
