import Verif.Dbus.LemmasEnc
import Verif.Io.LemmasCalls
/-! # Lemmas: the encoder refines its specification -/
namespace Verif.Dbus
open Verif.Io

variable {σ : Type} {I : WriteImpl σ} {be : Bool} {pre : Pat} {ps qs : List Part} {p : Part} {t u : Ty} {e : Enc}
  {w : Writer σ}

/-! ## Only a commit commits -/

/-- A step which only maps. -/
def Quiet (I : WriteImpl σ) (st : σ) (s : Step σ) : Prop := ∀ e' w' r, s = some (e', w', r) → Calls I st [] w'.st

theorem Quiet.here (e : Enc) (w : Writer σ) (r : DRes) : Quiet I w.st (some (e, w, r)) := by
  intro e' w' r' h; cases h; exact .nil

theorem Quiet.none (st : σ) : Quiet I st none := by intro e' w' r' h; cases h

theorem Quiet.io {st : σ} {r : WriteOut σ} {k : Writer σ → Nat → Step σ} (h : Calls I st [] r.w.st)
    (hk : ∀ w n, Quiet I w.st (k w n)) : Quiet I st (e.io r k) := by
  intro e' w' r' h'
  unfold Enc.io at h'
  split at h'
  · exact h.trans (hk _ _ _ _ _ h')
  · cases h'; exact h
  · cases h'

theorem Quiet.expect {el : Element} {k : Step σ} (hk : Quiet I w.st k) : Quiet I w.st (e.expect w el k) := by
  unfold Enc.expect
  split
  · exact .none _
  · split
    · exact .here _ _ _
    · exact hk

theorem Quiet.advance (n : Nat) : Quiet I w.st (e.advance w n) := by
  unfold Enc.advance
  split
  · exact .none _
  · intro e' w' r' h; cases h; exact .nil

theorem Quiet.fixed (el : Element) (d : List UInt8) : Quiet I w.st (e.fixed I w el d) :=
  .expect <| .io (align_calls I _ _ _) fun _ _ => .io (write_calls I _ _ _) fun _ _ => .advance _

theorem Quiet.str8 (el : Element) (d : List UInt8) : Quiet I w.st (e.str8 I w el d) := by
  refine .expect ?_
  split
  · exact .io (align_calls I _ _ _) fun _ _ => .io (write_calls I _ _ _) fun _ _ => .io (write_calls I _ _ _) fun _ _ =>
      .io (zero_calls I _ _ _) fun _ _ => .advance _
  · exact .here _ _ _

theorem Quiet.str32 (el : Element) (d : List UInt8) : Quiet I w.st (e.str32 I w el d) := by
  refine .expect ?_
  split
  · exact .io (align_calls I _ _ _) fun _ _ => .io (write_calls I _ _ _) fun _ _ => .io (write_calls I _ _ _) fun _ _ =>
      .io (zero_calls I _ _ _) fun _ _ => .advance _
  · exact .here _ _ _

theorem Quiet.variant (s : Sig) : Quiet I w.st (e.variant I w s) := by
  refine .expect ?_
  split
  · exact .none _
  · split
    · refine .io (align_calls I _ _ _) fun _ _ => .io (write_calls I _ _ _) fun _ _ => ?_
      split
      · exact .none _
      · exact .io (writeIter_calls I _ _ _ _) fun _ _ => .io (zero_calls I _ _ _) fun _ _ => .here _ _ _
    · exact .here _ _ _

theorem Quiet.array : Quiet I w.st (e.array I w) := by
  refine .expect ?_
  split
  · exact .none _
  · exact .none _
  · refine .io (align_calls I _ _ _) fun _ _ => .io (write_calls I _ _ _) fun _ _ => .io (align_calls I _ _ _) fun _ _ => ?_
    split
    · exact .none _
    · exact .here _ _ _

theorem Quiet.bracket (el : Element) : Quiet I w.st (e.bracket I w el) := by
  refine .expect ?_
  split
  · exact .none _
  · exact .none _
  · refine .io (align_calls I _ _ _) fun _ _ => ?_
    split
    · exact .none _
    · exact .here _ _ _

theorem Quiet.pop (L : Level) (oc : Option Cursor) (S : List (Element × Level × Option Cursor)) :
    Quiet I w.st (e.pop w L oc S) := by
  unfold Enc.pop
  split
  · exact .none _
  · split
    · exact .none _
    · exact .here _ _ _

theorem Quiet.close : Quiet I w.st (e.close I w) := by
  unfold Enc.close
  split
  · exact .none _
  · exact .here _ _ _
  · split
    · exact .here _ _ _
    · split
      · exact .pop _ _ _
      · split
        · exact .none _
        · split
          · split
            · exact .io (write_calls I _ _ _) fun _ _ => .pop _ _ _
            · exact .here _ _ _
          · exact .pop _ _ _
      · exact .pop _ _ _
      · exact .pop _ _ _
      · exact .none _

theorem value_quiet (op : Op) (hv : op.isValue = true) {e' : Enc} {w' : Writer σ} {o : Out}
    (h : op.run I e w = some (e', w', o)) : Calls I w.st [] w'.st := by
  have key : ∀ s : Step σ, Quiet I w.st s → s.map (fun (e, w, r) => (e, w, Out.res r)) = some (e', w', o) →
      Calls I w.st [] w'.st := by
    intro s hs hm
    cases s with
    | none => cases hm
    | some x =>
      obtain ⟨a, b, c⟩ := x
      simp only [Option.map_some, Option.some.injEq, Prod.mk.injEq] at hm
      exact hm.2.1 ▸ hs a b c rfl
  cases op <;> simp only [Op.run] at h <;> first
    | (cases hv; done)
    | exact key _ (.fixed _ _) h
    | exact key _ (.str32 _ _) h
    | exact key _ (.str8 _ _) h
    | exact key _ (.variant _) h
    | exact key _ .array h
    | exact key _ (.bracket _) h

/-! ## The type of the whole encoding does not change -/

/-- The types of the outermost part. -/
def rootTys : List Part → List Ty
  | [] => []
  | [p] => p.tys ++ p.todo
  | _ :: p :: ps => rootTys (p :: ps)

theorem rootTys_cons (p q : Part) (ps : List Part) : rootTys (p :: q :: ps) = rootTys (q :: ps) := rfl

theorem rootTys_add (p : Part) (v : Val) (ps : List Part) : rootTys (p.add v :: ps) = rootTys (p :: ps) := by
  cases ps with
  | cons q qs => rfl
  | nil =>
    obtain ⟨k, vs, tys, todo⟩ := p
    cases k <;> cases todo <;> simp [rootTys, Part.add]

theorem rootTys_effect {op : Op} {u : Ty} (h : Effect op u (p :: ps) qs) : rootTys qs = rootTys (p :: ps) := by
  cases h <;> first
    | exact rootTys_add _ _ _
    | rfl

theorem bytes_prefix (be : Bool) (pre : Pat) : ∀ ps : List Part, ∃ y, Part.bytes be pre ps = pre ++ y
  | [] => ⟨[], by simp [Part.bytes]⟩
  | p :: ps => by
    obtain ⟨y, hy⟩ := bytes_prefix be pre ps
    refine ⟨y ++ (p.head be (Part.bytes be pre ps).length ++ known (p.body be (Part.bytes be pre ps).length)), ?_⟩
    rw [← List.append_assoc, ← hy]; rfl

/-! ## The simulation -/

/-- What relates an encoder to a state of its specification. The state of the writer at the beginning was `st`.
`link` is the initial value of the field. -/
structure Sim (I : WriteImpl σ) (be : Bool) (pre : Pat) (t : Ty) (st : σ) (link : Option (Option Nat)) (a : St) (e : Enc)
    (w : Writer σ) : Prop where
  inv : Inv be pre a.parts e w
  root : rootTys a.parts = [t]
  log : Calls I st (if a.committed = true ∧ link = none then [e.level.idx] else []) w.st
  new : a.committed = false → e.done = false ∧ e.link = link ∧ e.handed = none
  old : a.committed = true → e.link = none ∧ (link.isSome = true → e.handed = some e.level.idx) ∧ e.done = true
    ∧ ∃ p, a.parts = [p] ∧ p.full = true

theorem Track.single {c L S} (h : Track be pre [p] t c L S) : ∃ s tys todo vals, p = ⟨.root, vals, tys, todo⟩
    ∧ tys ++ todo = [t] ∧ Val.all vals tys ∧ Val.fit be pre.length vals ∧ c = ⟨s, sizes tys⟩ := by
  cases h with
  | root hv ht ha hf => exact ⟨_, _, _, _, rfl, ht, ha, hf, rfl⟩
  | variant _ h0 => cases h0
  | array _ h0 => cases h0
  | struct _ h0 => cases h0
  | dict _ h0 => cases h0

theorem Track.parts {c L S} (h : Track be pre ps t c L S) : ∃ q qs, ps = q :: qs := by
  cases h <;> exact ⟨_, _, rfl⟩

/-- A full outermost part has nothing to come. -/
theorem Track.ended_root {c L S} (h : Track be pre [p] t c L S) (hf : p.full = true) : p.next = none ∧ p.closes = false := by
  obtain ⟨_, tys, todo, vals, rfl, _⟩ := h.single
  simp [Part.full] at hf
  simp [Part.next, Part.closes, hf]

/-- The value of a full outermost part. -/
theorem Track.final {c L S} (h : Track be pre [p] t c L S) (hf : p.full = true) : ∃ v, p.vals = [v] ∧ v.has t
    ∧ v.fits be pre.length ∧ Part.bytes be pre [p] = pre ++ known (v.marshal be pre.length) := by
  obtain ⟨_, tys, todo, vals, rfl, ht, ha, hfit, _⟩ := h.single
  simp [Part.full] at hf
  subst hf
  rw [List.append_nil] at ht
  subst ht
  match vals, ha with
  | [v], ha => exact ⟨v, rfl, ha.1, hfit.1, by simp [Part.bytes, Part.head, Part.body, Part.start, Val.marshals]⟩
  | _ :: _ :: _, ha => exact ha.2.elim

theorem commit_sim {a : St} {st : σ} {link : Option (Option Nat)} (h : Sim I be pre t st link a e w) :
    ∃ e' w' o b, Op.run I .commit e w = some (e', w', o) ∧ Does (Blocked I) be pre a .commit o b ∧ Sim I be pre t st link b e' w' := by
  obtain ⟨parts, c⟩ := a
  obtain ⟨t', ht⟩ := h.inv.track
  obtain ⟨p, ps, hp⟩ := ht.parts
  simp only at hp
  subst hp
  obtain ⟨x, hx, hxs⟩ := ht.step
  simp only [Op.run, Enc.commit, hx, hxs]
  by_cases hpend : ps ≠ [] ∨ p.full = false
  · have : ((!p.full) || !e.stack.isEmpty) = true := by
      rcases hpend with h1 | h1
      · have : e.stack.isEmpty = false := by
          cases hs : e.stack.isEmpty with
          | false => rfl
          | true => exact absurd (ht.stack.mp hs) h1
        simp [this]
      · simp [h1]
    rw [if_pos this]
    exact ⟨_, _, _, _, rfl, .pending _ _ _ _ hpend, h⟩
  · have hps : ps = [] := by
      cases ps with
      | nil => rfl
      | cons _ _ => simp at hpend
    subst hps
    have hf : p.full = true := by cases hf : p.full <;> simp_all
    rw [if_neg (by rw [hf, ht.stack.mpr rfl]; simp)]
    cases c with
    | true =>
      obtain ⟨h1, h2, h3, _⟩ := h.old rfl
      rw [h1, h3]
      exact ⟨_, _, _, _, rfl, .commit _ _ _ hf, h⟩
    | false =>
      obtain ⟨h1, h2, h3⟩ := h.new rfl
      have hlog := h.log
      simp only [Bool.false_eq_true, false_and, if_false] at hlog
      rw [h2, h1]
      cases link with
      | some l =>
        refine ⟨_, _, _, _, rfl, .commit _ _ _ hf, ⟨⟨h.inv.order, ⟨t', ?_⟩, h.inv.idx, h.inv.holds, h.inv.max⟩, h.root, ?_,
          by simp, fun _ => ⟨rfl, fun _ => rfl, rfl, p, rfl, hf⟩⟩⟩
        · exact ht
        · simpa using hlog
      | none =>
        refine ⟨_, _, _, _, rfl, .commit _ _ _ hf, ⟨⟨h.inv.order, ⟨t', ?_⟩, h.inv.idx, h.inv.holds, h.inv.max⟩, h.root, ?_,
          by simp, fun _ => ⟨rfl, by simp, rfl, p, rfl, hf⟩⟩⟩
        · exact ht
        · simpa using hlog.commit e.level.idx

/-- A step that changes the parts, or is refused. -/
theorem Outcome.sim {s : Step σ} {st : σ} {link : Option (Option Nat)} {c : Bool} (h : Sim I be pre t st link ⟨ps, c⟩ e w)
    (hq : Quiet I w.st s) (hc : c = false) (hr : rootTys qs = rootTys ps) (ho : Outcome I be pre ps qs e s) :
    ∃ e' w' r, s = some (e', w', r) ∧ ((r = .ok ∧ Sim I be pre t st link ⟨qs, c⟩ e' w')
      ∨ (r.isIo ∧ Blocked I (Part.bytes be pre qs).length ∧ Sim I be pre t st link ⟨ps, c⟩ e' w')) := by
  obtain ⟨e', w', r, rfl, ho⟩ := ho
  have hcall := hq _ _ _ rfl
  subst hc
  have hlog := h.log
  simp only [Bool.false_eq_true, false_and, if_false] at hlog
  have hlog := hlog.trans hcall
  obtain ⟨h1, h2, h3⟩ := h.new rfl
  refine ⟨e', w', r, rfl, ?_⟩
  rcases ho with ⟨rfl, hi, e1, e2, e3⟩ | ⟨hio, rfl, hh, hb⟩
  · refine .inl ⟨rfl, hi, hr.trans h.root, by simpa using hlog, fun _ => ⟨e1.trans h1, e2.trans h2, e3.trans h3⟩, by simp⟩
  · exact .inr ⟨hio, hb, ⟨h.inv.order, h.inv.track, h.inv.idx, hh, h.inv.max⟩, h.root, by simpa using hlog, h.new, by simp⟩

theorem sig_eq {s s' : Sig} {t u : Ty} (h : View s t) (h' : View s' u) : s.eq s' = some (decide (s.text = some u.bytes)) := by
  unfold Sig.eq
  rw [h.rep.elements, h'.rep.elements, h.rep.text]
  simp only [Option.bind_eq_bind, Option.bind_some, Option.some.injEq]
  rw [Bool.eq_iff_iff, beq_iff_eq, decide_eq_true_iff]
  constructor
  · intro h; rw [els_inj h]
  · intro h; rw [bytes_inj h]

/-- The beginning of a sub-encoder. -/
theorem sub_start (hi : Inv be pre (p :: ps) e w) (hn : p.next = some u) :
    ∃ x step, e.sub = some (some x) ∧ e.cursor.idx_step = some step ∧ x.link = some step
      ∧ Sim I be (Part.bytes be pre (p :: ps)) u w.st (some step) (St.new u) x w := by
  obtain ⟨t, ht⟩ := hi.track
  obtain ⟨step, hs, _⟩ := ht.step
  obtain ⟨s, h1, h2⟩ := ht.sigAt hn
  refine ⟨⟨false, e.be, ⟨s, 0⟩, ⟨e.level.idx, e.level.idx, e.level.idx⟩, [], some step, none⟩, step, ?_, hs, rfl, ?_⟩
  · unfold Enc.sub
    rw [hs, h1]
    simp only [Option.bind_eq_bind, Option.bind_some, h2.rep.new]
  · have hb : Part.bytes be (Part.bytes be pre (p :: ps)) (St.new u).parts = Part.bytes be pre (p :: ps) := by
      generalize Part.bytes be pre (p :: ps) = x
      simp [St.new, Part.bytes, Part.head, Part.body, Val.marshals]
    refine ⟨⟨hi.order, ⟨u, ?_⟩, by rw [hb]; exact hi.idx, by rw [hb]; exact hi.holds, hi.max⟩, rfl, ?_, fun _ => ⟨rfl, rfl, rfl⟩, ?_⟩
    · exact .root (tys := []) (todo := [u]) h2 rfl trivial trivial
    · simp; exact .nil
    · intro h; cases h

theorem value_sim (hE : Exact I) (op : Op) {st : σ} {link : Option (Option Nat)} {a : St} (hs : op.sane)
    (hv : op.isValue = true) (h : Sim I be pre t st link a e w) :
    ∃ e' w' o b, op.run I e w = some (e', w', o) ∧ Does (Blocked I) be pre a op o b ∧ Sim I be pre t st link b e' w' := by
  obtain ⟨parts, c⟩ := a
  obtain ⟨t', ht⟩ := h.inv.track
  obtain ⟨p, ps, hp⟩ := ht.parts
  simp only at hp
  subst hp
  rcases value_step hE h.inv op hs hv with ⟨h1, h2⟩ | ⟨u, hn, hsu, ⟨h1, h2⟩ | ⟨h1, qs, s, he, hr, ho⟩⟩
  · exact ⟨_, _, _, _, h2, .mismatch _ _ _ _ _ hv h1, h⟩
  · exact ⟨_, _, _, _, h2, .long _ _ _ _ _ _ hn hsu h1, h⟩
  · have hcf : c = false := by
      cases c with
      | false => rfl
      | true =>
        obtain ⟨_, _, _, q, hq, hf⟩ := h.old rfl
        simp only [List.cons.injEq] at hq
        obtain ⟨rfl, rfl⟩ := hq
        rw [(ht.ended_root hf).1] at hn; cases hn
    have hq : Quiet I w.st s := by
      intro e' w' r hs'
      rw [hs'] at hr
      exact value_quiet op hv hr
    obtain ⟨e', w', r, rfl, hcase⟩ := ho.sim h hq hcf (rootTys_effect he)
    rw [hr]
    rcases hcase with ⟨rfl, hs⟩ | ⟨hio, hb, hs⟩
    · exact ⟨_, _, _, _, rfl, .value _ _ _ _ _ _ _ hn hsu h1 he, hs⟩
    · exact ⟨_, _, _, _, rfl, .valueIo _ _ _ _ _ _ _ _ hn hsu h1 he hb hio, hs⟩

mutual
/-- A call does what its specification says. -/
theorem run_sim (hE : Exact I) : (op : Op) → {be : Bool} → {pre : Pat} → {t : Ty} → {st : σ} → {link : Option (Option Nat)} →
    {a : St} → {e : Enc} → {w : Writer σ} → op.sane → Sim I be pre t st link a e w →
    ∃ e' w' o b, op.run I e w = some (e', w', o) ∧ Does (Blocked I) be pre a op o b ∧ Sim I be pre t st link b e' w'
  | .commit, _, _, _, _, _, _, _, _, _, h => commit_sim h
  | .close, be, pre, t, st, link, ⟨parts, c⟩, e, w, _, h => by
    obtain ⟨t', ht⟩ := h.inv.track
    obtain ⟨p, ps, hp⟩ := ht.parts
    simp only at hp
    subst hp
    cases hc : p.closes with
    | false =>
      refine ⟨e, w, _, _, ?_, .closeMismatch _ _ _ _ hc, h⟩
      simp only [Op.run]
      rw [close_reject h.inv hc]; rfl
    | true =>
      have hcf : c = false := by
        cases c with
        | false => rfl
        | true =>
          obtain ⟨_, _, _, q, hq, hf⟩ := h.old rfl
          simp only [List.cons.injEq] at hq
          obtain ⟨rfl, rfl⟩ := hq
          rw [(ht.ended_root hf).2] at hc; cases hc
      obtain ⟨h1, h2⟩ := close_step hE h.inv hc
      by_cases hl : p.tooLong be (Part.bytes be pre ps).length
      · refine ⟨e, w, _, _, ?_, .closeLong _ _ _ _ hc hl, h⟩
        simp only [Op.run]
        rw [h1 hl]; rfl
      · obtain ⟨q, qs, v, rfl, hv, ho⟩ := h2 hl
        obtain ⟨e', w', r, hr, hcase⟩ := ho.sim h .close hcf (by rw [rootTys_add]; rfl)
        simp only [Op.run]
        rw [hr]
        rcases hcase with ⟨rfl, hs⟩ | ⟨hio, hb, hs⟩
        · exact ⟨_, _, _, _, rfl, .close _ _ _ _ _ _ hc hl hv, hs⟩
        · exact ⟨_, _, _, _, rfl, .closeIo _ _ _ _ _ _ _ hc hl hv hb hio, hs⟩
  | .sub s ops, be, pre, t, st, link, ⟨parts, c⟩, e, w, hs, h => by
    obtain ⟨t', ht⟩ := h.inv.track
    obtain ⟨p, ps, hp⟩ := ht.parts
    simp only at hp
    subst hp
    obtain ⟨hs1, hs2⟩ := hs
    by_cases hmis : ∀ u, p.next = some u → ∃ s', s = some s' ∧ s'.text ≠ some u.bytes
    · refine ⟨e, w, _, _, ?_, .subMismatch _ _ _ _ _ _ hmis, h⟩
      have hx : (match s with | none => e.sub | some s => e.subWith s) = some none := by
        cases hn : p.next with
        | none =>
          obtain ⟨_, h2, h3⟩ := ht.ended hn
          cases s with
          | none => simp only [Enc.sub, h2, h3, Option.bind_eq_bind, Option.bind_some]
          | some s => simp only [Enc.subWith, h3, Option.bind_eq_bind, Option.bind_some]
        | some u =>
          obtain ⟨s', rfl, htx⟩ := hmis u hn
          obtain ⟨t1, hv1⟩ := hs1 s' rfl
          obtain ⟨s2, h2, hv2⟩ := ht.sigAt hn
          simp only [Enc.subWith, h2, Option.bind_eq_bind, Option.bind_some, sig_eq hv1 hv2]
          simp [htx]
      simp only [Op.run]
      cases s <;> simp only [] at hx <;> simp only [hx]
    · have ⟨u, hn, htx⟩ : ∃ u, p.next = some u ∧ ∀ s', s = some s' → s'.text = some u.bytes := by
        apply Classical.byContradiction
        intro hne
        apply hmis
        intro u hn
        apply Classical.byContradiction
        intro hne'
        apply hne
        refine ⟨u, hn, fun s' hs' => ?_⟩
        apply Classical.byContradiction
        intro h'
        exact hne' ⟨s', hs', h'⟩
      obtain ⟨x, step, hx, hst, hlink, hsim⟩ := sub_start (I := I) h.inv hn
      have hx : (match s with | none => e.sub | some s => e.subWith s) = some (some x) := by
        cases s with
        | none => exact hx
        | some s =>
          obtain ⟨t1, hv1⟩ := hs1 s rfl
          obtain ⟨s2, h2, hv2⟩ := ht.sigAt hn
          simp only [Enc.subWith, h2, Option.bind_eq_bind, Option.bind_some, sig_eq hv1 hv2]
          simp [htx s rfl, hx]
      have hcf : c = false := by
        cases c with
        | false => rfl
        | true =>
          obtain ⟨_, _, _, q, hq, hf⟩ := h.old rfl
          simp only [List.cons.injEq] at hq
          obtain ⟨rfl, rfl⟩ := hq
          rw [(ht.ended_root hf).1] at hn; cases hn
      subst hcf
      obtain ⟨x', w', outs, b, hr, hd, hb⟩ := runs_sim hE ops hs2 hsim
      have hrun : Op.run I (.sub s ops) e w = some (e.merge x' step, w', .sub outs) := by
        simp only [Op.run]
        cases s <;> simp only [] at hx <;> simp only [hx, hr, hlink] <;> rfl
      obtain ⟨bp, bc⟩ := b
      have hlog := h.log
      simp only [Bool.false_eq_true, false_and, if_false] at hlog
      have hl2 := hb.log
      rw [if_neg (by simp)] at hl2
      have hlog := hlog.trans hl2
      obtain ⟨n1, n2, n3⟩ := h.new rfl
      obtain ⟨y, hy⟩ := bytes_prefix be (Part.bytes be pre (p :: ps)) bp
      have hh : Holds w'.mem (Part.bytes be pre (p :: ps)) := by
        have := hb.inv.holds
        simp only [hy] at this
        exact this.left
      cases bc with
      | false =>
        refine ⟨_, _, _, _, hrun, .subDropped _ _ _ _ _ _ _ _ _ hn htx hd, ?_⟩
        rw [show e.merge x' step = e by unfold Enc.merge; rw [(hb.new rfl).2.2]]
        exact ⟨⟨h.inv.order, h.inv.track, h.inv.idx, hh, h.inv.max⟩, h.root, by simpa using hlog, h.new, by simp⟩
      | true =>
        obtain ⟨_, o2, _, q, hq, hf⟩ := hb.old rfl
        simp only at hq
        subst hq
        obtain ⟨t2, ht2⟩ := hb.inv.track
        have htt : t2 = u := by
          obtain ⟨_, tys, todo, vals, rfl, e2, _⟩ := ht2.single
          have := hb.root
          simp only [rootTys] at this
          rw [this] at e2
          simpa using e2.symm
        subst htt
        obtain ⟨v, hv, hhas, hfit, hbytes⟩ := ht2.final hf
        refine ⟨_, _, _, _, hrun, .subCommitted _ _ _ _ _ _ _ _ _ _ hn htx hd hv, ?_⟩
        obtain ⟨x, hx', _, hadd⟩ := ht.add hn
        rw [hst, Option.some.injEq] at hx'
        subst hx'
        have hw := bytes_add be pre p ps v
        have hm : e.merge x' step = { e with level := { e.level with idx := x'.level.idx }, cursor := e.cursor.maybe_move step } := by
          unfold Enc.merge; rw [o2 rfl]
        rw [hm]
        have hholds := hb.inv.holds
        have hidx := hb.inv.idx
        simp only [hbytes] at hholds hidx
        refine ⟨⟨h.inv.order, ⟨t', hadd v _ hhas hfit rfl rfl⟩, ?_, hw.holds hholds, hb.inv.max⟩, ?_, by simpa using hlog,
          fun _ => ⟨n1, n2, n3⟩, by simp⟩
        · rw [hw.1]; exact hidx
        · rw [rootTys_add]; exact h.root
  | .u16 v, be, pre, t, st, link, a, e, w, hs, h => value_sim hE (.u16 v) hs rfl h
  | .u32 v, be, pre, t, st, link, a, e, w, hs, h => value_sim hE (.u32 v) hs rfl h
  | .u64 v, be, pre, t, st, link, a, e, w, hs, h => value_sim hE (.u64 v) hs rfl h
  | .string v, be, pre, t, st, link, a, e, w, hs, h => value_sim hE (.string v) hs rfl h
  | .object v, be, pre, t, st, link, a, e, w, hs, h => value_sim hE (.object v) hs rfl h
  | .signature v, be, pre, t, st, link, a, e, w, hs, h => value_sim hE (.signature v) hs rfl h
  | .variant v, be, pre, t, st, link, a, e, w, hs, h => value_sim hE (.variant v) hs rfl h
  | .array, be, pre, t, st, link, a, e, w, hs, h => value_sim hE .array hs rfl h
  | .structure, be, pre, t, st, link, a, e, w, hs, h => value_sim hE .structure hs rfl h
  | .dict, be, pre, t, st, link, a, e, w, hs, h => value_sim hE .dict hs rfl h

/-- Several calls do what their specifications say. -/
theorem runs_sim (hE : Exact I) : (ops : List Op) → {be : Bool} → {pre : Pat} → {t : Ty} → {st : σ} →
    {link : Option (Option Nat)} → {a : St} → {e : Enc} → {w : Writer σ} → Op.sanes ops → Sim I be pre t st link a e w →
    ∃ e' w' os b, Op.runs I ops e w = some (e', w', os) ∧ DoesAll (Blocked I) be pre a ops os b ∧ Sim I be pre t st link b e' w'
  | [], _, _, _, _, _, _, _, _, _, h => ⟨_, _, _, _, rfl, .nil _ _, h⟩
  | op :: ops, _, _, _, _, _, _, _, _, hs, h => by
    obtain ⟨e1, w1, o, b, hr, hd, hb⟩ := run_sim hE op hs.1 h
    obtain ⟨e2, w2, os, c, hr', hd', hc⟩ := runs_sim hE ops hs.2 hb
    refine ⟨e2, w2, o :: os, c, ?_, .cons _ _ _ _ _ _ _ _ hd hd', hc⟩
    simp only [Op.runs, hr, hr']
end

end Verif.Dbus
