import Verif.Dbus.LemmasScript
/-! # Lemmas about histories of encoder calls: the beginning, commits, rejections, vectors -/
namespace Verif.Dbus
open Verif.Io

variable {σ : Type} {I : WriteImpl σ} {be : Bool} {s : Sig} {t : Ty}

theorem holds_begins {m : Mem} {bs : List UInt8} (h : Holds m (known bs)) : Begins m bs := by
  intro i hi
  apply h i
  simp [known, hi]

/-- The beginning. -/
theorem start_sim (hs : View s t) (be : Bool) (w : Writer σ) :
    ∃ e, Enc.with_ s be = some e ∧ Sim I be [] t w.st none (St.new t) e w := by
  refine ⟨⟨false, be, ⟨s, 0⟩, ⟨0, 0, 0⟩, [], none, none⟩, ?_, ?_⟩
  · unfold Enc.with_
    rw [hs.rep.new]
    rfl
  · refine ⟨⟨rfl, ⟨t, ?_⟩, ?_, ?_, Nat.zero_le _⟩, rfl, ?_, fun _ => ⟨rfl, rfl, rfl⟩, ?_⟩
    · exact .root (tys := []) (todo := [t]) hs rfl trivial trivial
    · simp [St.new, Part.bytes, Part.head, Part.body, Val.marshals]
    · intro i b h
      simp [St.new, Part.bytes, Part.head, Part.body, Val.marshals] at h
    · simp [St.new]; exact .nil
    · intro h; cases h

theorem does_committed {R : Nat → Prop} {pre : Pat} {a b : St} {op : Op} {o : Out} (h : Does R be pre a op o b) :
    (a.committed = true → b.committed = true) ∧ (op = .commit → o = .res .ok → b.committed = true) := by
  cases h with
  | mismatch _ _ _ _ _ hv => exact ⟨id, by rintro rfl; cases hv⟩
  | long _ _ _ _ _ u _ hv => exact ⟨id, by rintro rfl; cases u <;> simp [Op.suits] at hv⟩
  | value _ _ _ _ _ u _ _ hv => exact ⟨id, by rintro rfl; cases u <;> simp [Op.suits] at hv⟩
  | valueIo _ _ _ _ _ u _ _ _ hv => exact ⟨id, by rintro rfl; cases u <;> simp [Op.suits] at hv⟩
  | commit => exact ⟨fun _ => rfl, fun _ _ => rfl⟩
  | pending => exact ⟨id, fun _ h => by simp at h⟩
  | _ => exact ⟨id, fun h => by cases h⟩

theorem doesAll_committed {R : Nat → Prop} {pre : Pat} : ∀ {ops : List Op} {a b : St} {outs : List Out},
    DoesAll R be pre a ops outs b →
    (a.committed = true ∨ ∃ i : Nat, ops[i]? = some .commit ∧ outs[i]? = some (.res .ok)) → b.committed = true
  | [], _, _, _, h, hc => by
    cases h
    rcases hc with h | ⟨i, h, _⟩
    · exact h
    · simp at h
  | op :: ops, a, b, outs, h, hc => by
    cases h with
    | cons _ _ m _ _ _ o os h1 h2 =>
      obtain ⟨k1, k2⟩ := does_committed h1
      apply doesAll_committed h2
      rcases hc with h | ⟨i, h3, h4⟩
      · exact .inl (k1 h)
      · cases i with
        | zero =>
          simp only [List.getElem?_cons_zero, Option.some.injEq] at h3 h4
          exact .inl (k2 h3 h4)
        | succ i => exact .inr ⟨i, by simpa using h3, by simpa using h4⟩

theorem vec_calls {a b : Nat} {l : List Nat} (h : Calls vecWrite a l b) : b = a + l.sum := by
  induction h with
  | nil => simp
  | @map l b idx len _ ih =>
    have : (vecWrite.map b idx len).1 = b := by simp only [vecWrite]; split <;> rfl
    rw [this, ih]
  | commit len _ ih =>
    show _ + len = _
    rw [ih]; simp; omega

theorem vec_room {n : Nat} (h : n ≤ usizeMax) : ¬ Blocked vecWrite n := by
  rintro (h' | ⟨st, i, k, e, h1, h2⟩)
  · omega
  · simp only [vecWrite] at h2
    rw [if_pos (by omega)] at h2
    cases h2

/-- Steps which change the encoder only on success, and the writer not even on errors of the encoder. -/
def Steady (e : Enc) (w : Writer σ) (s : Step σ) : Prop :=
  ∀ e' w' x, s = some (e', w', .brk x) → e' = e ∧ ∀ d, x = some d → d.own → w' = w

theorem Steady.none (e : Enc) (w : Writer σ) : Steady e w none := by intro _ _ _ h; cases h
theorem Steady.ok (e e' : Enc) (w w' : Writer σ) : Steady e w (some (e', w', .ok)) := by intro _ _ _ h; cases h
theorem Steady.stop (e : Enc) (w : Writer σ) (x : Option DErr) : Steady e w (some (e, w, .brk x)) := by
  intro _ _ _ h; cases h; exact ⟨rfl, fun _ _ _ => rfl⟩

/-- From here on, there are only errors of the writer. -/
def Later (e : Enc) (s : Step σ) : Prop := ∀ e' w' x, s = some (e', w', .brk x) → e' = e ∧ ∀ d, x = some d → ¬ d.own

theorem Later.steady {e : Enc} {w : Writer σ} {s : Step σ} (h : Later e s) : Steady e w s := fun e' w' x hs =>
  ⟨(h e' w' x hs).1, fun d hd ho => absurd ho ((h e' w' x hs).2 d hd)⟩

theorem Later.io {e : Enc} {r : WriteOut σ} {k : Writer σ → Nat → Step σ} (hk : ∀ w n, Later e (k w n)) :
    Later e (e.io r k) := by
  intro e' w' x h
  unfold Enc.io at h
  split at h
  · exact hk _ _ _ _ _ h
  · cases h
    refine ⟨rfl, fun d hd => ?_⟩
    rename_i y _
    cases y with
    | none => cases hd
    | some y => simp at hd; subst hd; exact id
  · cases h

theorem Later.none (e : Enc) : Later (σ := σ) e none := by intro _ _ _ h; cases h
theorem Later.ok (e e' : Enc) (w' : Writer σ) : Later e (some (e', w', .ok)) := by intro _ _ _ h; cases h

theorem Later.advance (e : Enc) (w : Writer σ) (n : Nat) : Later e (e.advance w n) := by
  unfold Enc.advance
  split
  · exact .none e
  · exact .ok _ _ _

theorem Later.pop (e : Enc) (w : Writer σ) (L : Level) (oc : Option Cursor) (S : List (Element × Level × Option Cursor)) :
    Later e (e.pop w L oc S) := by
  unfold Enc.pop
  split
  · exact .none _
  · split
    · exact .none _
    · exact .ok _ _ _

theorem Steady.expect {e : Enc} {w : Writer σ} {el : Element} {k : Step σ} (hk : Steady e w k) :
    Steady e w (e.expect w el k) := by
  unfold Enc.expect
  split
  · exact .none _ _
  · split
    · exact .stop _ _ _
    · exact hk

theorem steady (I : WriteImpl σ) (e : Enc) (w : Writer σ) :
    (∀ el d, Steady e w (e.fixed I w el d)) ∧ (∀ el d, Steady e w (e.str8 I w el d)) ∧ (∀ el d, Steady e w (e.str32 I w el d))
    ∧ (∀ s, Steady e w (e.variant I w s)) ∧ Steady e w (e.array I w) ∧ (∀ el, Steady e w (e.bracket I w el))
    ∧ Steady e w (e.close I w) ∧ Steady e w (e.commit I w) := by
  refine ⟨fun el d => ?_, fun el d => ?_, fun el d => ?_, fun s => ?_, ?_, fun el => ?_, ?_, ?_⟩
  · exact .expect (Later.steady (.io fun _ _ => .io fun _ _ => .advance _ _ _))
  · refine .expect ?_
    split
    · exact Later.steady (.io fun _ _ => .io fun _ _ => .io fun _ _ => .io fun _ _ => .advance _ _ _)
    · exact .stop _ _ _
  · refine .expect ?_
    split
    · exact Later.steady (.io fun _ _ => .io fun _ _ => .io fun _ _ => .io fun _ _ => .advance _ _ _)
    · exact .stop _ _ _
  · refine .expect ?_
    split
    · exact .none _ _
    · split
      · refine Later.steady (.io fun _ _ => .io fun _ _ => ?_)
        split
        · exact .none _
        · exact .io fun _ _ => .io fun _ _ => .ok _ _ _
      · exact .stop _ _ _
  · refine .expect ?_
    split
    · exact .none _ _
    · exact .none _ _
    · refine Later.steady (.io fun _ _ => .io fun _ _ => .io fun _ _ => ?_)
      split
      · exact .none _
      · exact .ok _ _ _
  · refine .expect ?_
    split
    · exact .none _ _
    · exact .none _ _
    · refine Later.steady (.io fun _ _ => ?_)
      split
      · exact .none _
      · exact .ok _ _ _
  · unfold Enc.close
    split
    · exact .none _ _
    · exact .stop _ _ _
    · split
      · exact .stop _ _ _
      · split
        · exact (Later.pop _ _ _ _ _).steady
        · split
          · exact .none _ _
          · split
            · split
              · exact Later.steady (.io fun _ _ => .pop _ _ _ _ _)
              · exact .stop _ _ _
            · exact (Later.pop _ _ _ _ _).steady
        · exact (Later.pop _ _ _ _ _).steady
        · exact (Later.pop _ _ _ _ _).steady
        · exact .none _ _
  · unfold Enc.commit
    split
    · exact .none _ _
    · split
      · exact .stop _ _ _
      · split
        · exact .ok _ _ _ _
        · split
          · exact .ok _ _ _ _
          · exact .ok _ _ _ _

theorem runs_append (I : WriteImpl σ) : ∀ (a b : List Op) (e : Enc) (w : Writer σ), Op.runs I (a ++ b) e w
    = match Op.runs I a e w with
      | none => none
      | some (e, w, os) => match Op.runs I b e w with
        | none => none
        | some (e, w, os') => some (e, w, os ++ os')
  | [], b, e, w => by
    simp only [List.nil_append, Op.runs]
    cases Op.runs I b e w <;> rfl
  | op :: a, b, e, w => by
    simp only [List.cons_append, Op.runs]
    cases Op.run I op e w with
    | none => rfl
    | some x =>
      obtain ⟨e1, w1, o⟩ := x
      simp only [runs_append I a b e1 w1]
      cases Op.runs I a e1 w1 with
      | none => rfl
      | some y =>
        obtain ⟨e2, w2, os⟩ := y
        simp only []
        cases Op.runs I b e2 w2 <;> rfl

end Verif.Dbus
