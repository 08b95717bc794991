import Verif.Dbus.SpecDvar
import Verif.Dbus.LemmasSum
import Verif.Io.PropsMap
/-! # Lemmas about the D-Bus encoder -/
namespace Verif.Dbus
open Verif.Io

/-! ## Marshalling -/

@[simp] theorem leBytes_length (w v : Nat) : (leBytes w v).length = w := by
  induction w generalizing v with
  | zero => rfl
  | succ w ih => simp [leBytes, ih]

@[simp] theorem enNum_length (be : Bool) (w v : Nat) : (enNum be w v).length = w := by
  unfold enNum; split <;> simp

@[simp] theorem pad_length (o a : Nat) : (pad o a).length = padding o a := by simp [pad]

@[simp] theorem known_length (bs : List UInt8) : (known bs).length = bs.length := by simp [known]

@[simp] theorem known_append (a b : List UInt8) : known (a ++ b) = known a ++ known b := by simp [known]

@[simp] theorem known_nil : known [] = [] := rfl

theorem marshals_append (be : Bool) (vs ws : List Val) : ∀ off, Val.marshals be off (vs ++ ws)
    = Val.marshals be off vs ++ Val.marshals be (off + (Val.marshals be off vs).length) ws := by
  induction vs with
  | nil => intro off; simp [Val.marshals]
  | cons v vs ih => intro off; simp only [List.cons_append, Val.marshals, ih, List.length_append, List.append_assoc, Nat.add_assoc]

theorem marshals_one (be : Bool) (off : Nat) (v : Val) : Val.marshals be off [v] = v.marshal be off := by
  simp [Val.marshals]

theorem fit_append (be : Bool) (vs ws : List Val) : ∀ off, Val.fit be off (vs ++ ws)
    ↔ Val.fit be off vs ∧ Val.fit be (off + (Val.marshals be off vs).length) ws := by
  induction vs with
  | nil => intro off; simp [Val.fit, Val.marshals]
  | cons v vs ih =>
    intro off
    simp only [List.cons_append, Val.fit, Val.marshals, ih, List.length_append, Nat.add_assoc, and_assoc]

theorem each_append (t : Ty) (vs : List Val) (v : Val) : Val.each (vs ++ [v]) t ↔ Val.each vs t ∧ v.has t := by
  induction vs with
  | nil => simp [Val.each]
  | cons w vs ih => simp only [List.cons_append, Val.each, ih, and_assoc]

theorem all_append (v : Val) (t : Ty) : ∀ (vs : List Val) (ts : List Ty), Val.all vs ts → v.has t →
    Val.all (vs ++ [v]) (ts ++ [t])
  | [], [], _, h => by simp [Val.all, h]
  | [], _ :: _, h, _ => by simp [Val.all] at h
  | _ :: _, [], h, _ => by simp [Val.all] at h
  | w :: vs, u :: ts, h, hv => by
    simp only [List.cons_append, Val.all] at h ⊢
    exact ⟨h.1, all_append v t vs ts h.2 hv⟩

theorem head_length (p : Part) (be : Bool) (off : Nat) : off + (p.head be off).length = p.start off := by
  obtain ⟨k, vs, tys, todo⟩ := p
  cases k <;> simp [Part.head, Part.start, firstElement, bytes_length] <;> omega

theorem bytes_cons_length (be : Bool) (pre : Pat) (p : Part) (ps : List Part) :
    (Part.bytes be pre (p :: ps)).length
      = p.start (Part.bytes be pre ps).length + (p.body be (Part.bytes be pre ps).length).length := by
  rw [Part.bytes, ← head_length p be]
  simp [Nat.add_assoc]

/-! ## Memory -/

theorem Holds.append {m : Mem} {x y : Pat} (hx : Holds m x) (hy : ∀ i b, y[i]? = some (some b) → m (x.length + i) = some b) :
    Holds m (x ++ y) := by
  intro i b h
  by_cases hi : i < x.length
  · rw [List.getElem?_append_left hi] at h; exact hx i b h
  · rw [List.getElem?_append_right (by omega)] at h
    have := hy _ _ h
    rwa [show x.length + (i - x.length) = i by omega] at this

theorem Holds.left {m : Mem} {x y : Pat} (h : Holds m (x ++ y)) : Holds m x := by
  intro i b hi
  have hl : i < x.length := by
    rcases Nat.lt_or_ge i x.length with h | h
    · exact h
    · rw [List.getElem?_eq_none h] at hi; cases hi
  exact h i b (by rw [List.getElem?_append_left hl]; exact hi)

theorem Holds.right {m : Mem} {x y : Pat} (h : Holds m (x ++ y)) (i : Nat) (b : UInt8) (hi : y[i]? = some (some b)) :
    m (x.length + i) = some b :=
  h _ b (by rw [List.getElem?_append_right (by omega), Nat.add_sub_cancel_left]; exact hi)

/-- A pattern is weaker than another one of the same length if it knows less. -/
def Weaker (x y : Pat) : Prop := x.length = y.length ∧ ∀ (i : Nat) (b : UInt8), x[i]? = some (some b) → y[i]? = some (some b)

theorem Weaker.refl (x : Pat) : Weaker x x := ⟨rfl, fun _ _ h => h⟩

theorem Weaker.append {x y x' y' : Pat} (h : Weaker x x') (h' : Weaker y y') : Weaker (x ++ y) (x' ++ y') := by
  refine ⟨by rw [List.length_append, List.length_append, h.1, h'.1], fun i b hi => ?_⟩
  by_cases hl : i < x.length
  · rw [List.getElem?_append_left hl] at hi
    rw [List.getElem?_append_left (by rw [← h.1]; exact hl)]
    exact h.2 i b hi
  · rw [List.getElem?_append_right (by omega)] at hi
    rw [List.getElem?_append_right (by rw [← h.1]; omega), ← h.1]
    exact h'.2 _ b hi

theorem Weaker.holds {m : Mem} {x y : Pat} (h : Weaker x y) (hy : Holds m y) : Holds m x :=
  fun i b hi => hy i b (h.2 i b hi)

theorem put_before {m : Mem} {i j : Nat} {d : List UInt8} (h : j < i) : put m i d j = m j := by
  unfold put; rw [if_neg (by omega)]

theorem put_behind {m : Mem} {i j : Nat} {d : List UInt8} (h : i + d.length ≤ j) : put m i d j = m j := by
  unfold put; rw [if_neg (by omega)]

theorem put_at {m : Mem} {i j : Nat} {d : List UInt8} (h : j < d.length) : put m i d (i + j) = d[j]? := by
  unfold put; rw [if_pos (by omega), Nat.add_sub_cancel_left]

theorem getElem_lt {α : Type} {x : List α} {i : Nat} {b : α} (h : x[i]? = some b) : i < x.length := by
  rcases Nat.lt_or_ge i x.length with h' | h'
  · exact h'
  · rw [List.getElem?_eq_none h'] at h; cases h

theorem Holds.put {m : Mem} {x : Pat} (h : Holds m x) (d : List UInt8) : Holds (put m x.length d) (x ++ known d) := by
  refine Holds.append (fun i b hi => ?_) (fun i b hi => ?_)
  · rw [put_before (getElem_lt hi)]; exact h i b hi
  · have := getElem_lt hi
    simp at this
    rw [put_at this]
    simpa [known, List.getElem?_map] using hi

theorem Holds.put_left {m : Mem} {x : Pat} (h : Holds m x) (d : List UInt8) : Holds (Verif.Io.put m x.length d) x :=
  (h.put d).left

/-- Overwriting in the middle. -/
theorem Holds.patch {m : Mem} {x y z : Pat} (h : Holds m (x ++ y ++ z)) (d : List UInt8) (hd : d.length = y.length) :
    Holds (Verif.Io.put m x.length d) (x ++ known d ++ z) := by
  refine Holds.append (h.left.left.put d) (fun i b hi => ?_)
  rw [put_behind (by simp)]
  have := h.right i b hi
  simp only [List.length_append, known_length, hd] at this ⊢
  exact this

/-- Overwriting what is not known. -/
theorem Holds.scratch {m : Mem} {x z : Pat} {n : Nat} (h : Holds m (x ++ List.replicate n none ++ z)) (d : List UInt8)
    (hd : d.length ≤ n) : Holds (Verif.Io.put m x.length d) (x ++ List.replicate n none ++ z) := by
  refine Holds.append (Holds.append (h.left.left.put_left d) (fun i b hi => ?_)) (fun i b hi => ?_)
  · rw [List.getElem?_replicate] at hi
    split at hi <;> cases hi
  · rw [put_behind (by simp; omega)]
    exact h.right i b hi

/-! ## The bytes of open containers -/

theorem body_add (p : Part) (v : Val) (be : Bool) (off : Nat) :
    (p.add v).body be off = p.body be off ++ v.marshal be (p.start off + (p.body be off).length)
    ∧ (p.add v).start off = p.start off := by
  obtain ⟨k, vs, tys, todo⟩ := p
  cases k <;> simp [Part.add, Part.body, Part.start, marshals_append, marshals_one]

theorem bytes_add (be : Bool) (pre : Pat) (p : Part) (ps : List Part) (v : Val) :
    Weaker (Part.bytes be pre (p.add v :: ps))
      (Part.bytes be pre (p :: ps) ++ known (v.marshal be (Part.bytes be pre (p :: ps)).length)) := by
  rw [bytes_cons_length]
  obtain ⟨hb, hs⟩ := body_add p v be (Part.bytes be pre ps).length
  simp only [Part.bytes, List.append_assoc]
  refine (Weaker.refl _).append ?_
  rw [hb, known_append]
  generalize (Part.bytes be pre ps).length = off at *
  refine Weaker.append ?_ (Weaker.refl _)
  obtain ⟨k, vs, tys, todo⟩ := p
  cases k <;> try exact Weaker.refl _
  rename_i t
  refine Weaker.append (Weaker.append (Weaker.refl _) ⟨by simp, fun i b h => ?_⟩) (Weaker.refl _)
  rw [List.getElem?_replicate] at h ⊢
  split at h
  · rename_i hi
    rw [if_pos hi]
    simp only [Option.some.injEq] at h ⊢
    by_cases he : (Part.add ⟨.array t, vs, tys, todo⟩ v).body be off = []
    · rw [if_pos he] at h
      rw [hb] at he
      rw [if_pos (List.append_eq_nil_iff.mp he).1]
      exact h
    · rw [if_neg he] at h; cases h
  · cases h

theorem bytes_value (be : Bool) (pre : Pat) (p : Part) (ps : List Part) (v : Val) (hv : p.value = some v)
    (hk : ∀ t, p.kind ≠ .array t) :
    Part.bytes be pre (p :: ps) = Part.bytes be pre ps ++ known (v.marshal be (Part.bytes be pre ps).length) := by
  simp only [Part.bytes]
  congr 1
  generalize (Part.bytes be pre ps).length = off
  obtain ⟨k, vs, tys, todo⟩ := p
  cases k with
  | array t => exact absurd rfl (hk t)
  | root => cases hv
  | struct =>
    simp only [Part.value, Option.some.injEq] at hv
    subst hv
    simp [Part.head, Part.body, Part.start, Val.marshal]
  | dict =>
    match vs, hv with
    | [a, b], hv =>
      simp only [Part.value, Option.some.injEq] at hv
      subst hv
      simp [Part.head, Part.body, Part.start, Val.marshal, Val.marshals]
  | variant t =>
    match vs, hv with
    | [a], hv =>
      simp only [Part.value, Option.some.injEq] at hv
      subst hv
      simp [Part.head, Part.body, Part.start, Val.marshal, Val.marshals, known]

theorem array_bytes (be : Bool) (pre : Pat) (p : Part) (ps : List Part) (t : Ty) (hk : p.kind = .array t) (off : Nat)
    (ho : off = (Part.bytes be pre ps).length) :
    Part.bytes be pre (p :: ps) = (Part.bytes be pre ps ++ known (pad off 4))
      ++ List.replicate 4 (if p.body be off = [] then some 0 else none)
      ++ (known (pad (off + padding off 4 + 4) (2 ^ t.dvarAlign)) ++ known (p.body be off))
    ∧ p.value = some (.array t p.vals)
    ∧ (Val.array t p.vals).marshal be off = pad off 4 ++ enNum be 4 (p.body be off).length
      ++ (pad (off + padding off 4 + 4) (2 ^ t.dvarAlign) ++ p.body be off) := by
  subst ho
  obtain ⟨k, vs, tys, todo⟩ := p
  simp only at hk
  subst hk
  refine ⟨by simp [Part.bytes, Part.head], rfl, by simp [Val.marshal, Part.body, Part.start]⟩

theorem enNum_zero (be : Bool) : known (enNum be 4 0) = List.replicate 4 (some 0) := by cases be <;> decide

/-! ## Where the encoder is -/

/-- The type of the next value. -/
def nextOf : List Part → Option Ty
  | [] => none
  | p :: _ => p.next

/-- How the cursor, the positions and the stack of an encoder belong to the containers being written. -/
inductive Track (be : Bool) (pre : Pat) : List Part → Ty → Cursor → Level → List (Element × Level × Option Cursor) → Prop
  | root {s : Sig} {t : Ty} {vals : List Val} {tys todo : List Ty} {L : Level} : View s t → tys ++ todo = [t] →
      Val.all vals tys → Val.fit be pre.length vals →
      Track be pre [⟨.root, vals, tys, todo⟩] t ⟨s, sizes tys⟩ L []
  | variant {ps : List Part} {t₀ : Ty} {c : Cursor} {L L' : Level} {S : List (Element × Level × Option Cursor)} {s : Sig}
      {t : Ty} {vals : List Val} {tys todo : List Ty} : Track be pre ps t₀ c L S → nextOf ps = some .variant → View s t →
      tys ++ todo = [t] → Val.all vals tys → Val.fit be ((Part.bytes be pre ps).length + t.size + 2) vals → t.size < 2 ^ 8 →
      Track be pre (⟨.variant t, vals, tys, todo⟩ :: ps) t ⟨s, sizes tys⟩ L' ((.variant, L, some c) :: S)
  | array {ps : List Part} {t₀ : Ty} {c : Cursor} {L L' : Level} {S : List (Element × Level × Option Cursor)} {u : Ty}
      {vals : List Val} {off : Nat} : Track be pre ps t₀ c L S → nextOf ps = some (.array u) → Val.each vals u →
      off = (Part.bytes be pre ps).length → Val.fit be (firstElement off u) vals →
      L'.meta_ = off + padding off 4 → L'.from_ = firstElement off u →
      Track be pre (⟨.array u, vals, [], []⟩ :: ps) t₀ ⟨c.sig, c.idx + 1⟩ L' ((.array, L, none) :: S)
  | struct {ps : List Part} {t₀ : Ty} {c : Cursor} {L L' : Level} {S : List (Element × Level × Option Cursor)}
      {vals : List Val} {tys todo : List Ty} {off : Nat} : Track be pre ps t₀ c L S →
      nextOf ps = some (.struct (tys ++ todo)) → Val.all vals tys →
      off = (Part.bytes be pre ps).length → Val.fit be (off + padding off 8) vals →
      Track be pre (⟨.struct, vals, tys, todo⟩ :: ps) t₀ ⟨c.sig, c.idx + 1 + sizes tys⟩ L' ((.structOpen, L, none) :: S)
  | dict {ps : List Part} {t₀ : Ty} {c : Cursor} {L L' : Level} {S : List (Element × Level × Option Cursor)}
      {vals : List Val} {tys todo : List Ty} {off : Nat} {k : Basic} {u : Ty} : Track be pre ps t₀ c L S →
      nextOf ps = some (.dict k u) → tys ++ todo = [.basic k, u] → Val.all vals tys →
      off = (Part.bytes be pre ps).length → Val.fit be (off + padding off 8) vals →
      Track be pre (⟨.dict, vals, tys, todo⟩ :: ps) t₀ ⟨c.sig, c.idx + 1 + sizes tys⟩ L' ((.dictOpen, L, none) :: S)

variable {be : Bool} {pre : Pat} {ps : List Part} {p : Part} {t u : Ty} {c : Cursor} {L L' : Level}
  {S : List (Element × Level × Option Cursor)}

theorem Track.view (h : Track be pre ps t c L S) : View c.sig t := by
  induction h <;> assumption

theorem append_singleton_cases {α : Type} {a b : List α} {x : α} (h : a ++ b = [x]) :
    (a = [] ∧ b = [x]) ∨ (a = [x] ∧ b = []) := by
  cases a with
  | nil => exact .inl ⟨rfl, h⟩
  | cons y a => simp at h; right; simp [h]

theorem append_pair_cases {α : Type} {a b : List α} {x y : α} (h : a ++ b = [x, y]) :
    (a = [] ∧ b = [x, y]) ∨ (a = [x] ∧ b = [y]) ∨ (a = [x, y] ∧ b = []) := by
  match a with
  | [] => exact .inl ⟨rfl, h⟩
  | [z] => simp at h; simp [h]
  | z :: w :: a => simp at h; simp [h]

/-- The cursor is at the next type. -/
theorem Track.occ (h : Track be pre ps t c L S) : ∀ u, nextOf ps = some u → Occ t c.idx u := by
  induction h with
  | root hv ht _ _ =>
    intro u hu
    rcases append_singleton_cases ht with ⟨rfl, rfl⟩ | ⟨rfl, rfl⟩
    · simp [nextOf, Part.next] at hu; subst hu; exact .root _
    · simp [nextOf, Part.next] at hu
  | variant _ _ hv ht =>
    intro u hu
    rcases append_singleton_cases ht with ⟨rfl, rfl⟩ | ⟨rfl, rfl⟩
    · simp [nextOf, Part.next] at hu; subst hu; exact .root _
    · simp [nextOf, Part.next] at hu
  | array _ hn _ _ _ _ _ ih =>
    intro u hu
    simp [nextOf, Part.next] at hu; subst hu
    exact .child (ih _ hn) (.array _)
  | @struct ps t₀ c L L' S vals tys todo off _ hn _ _ _ ih =>
    intro u hu
    simp [nextOf, Part.next] at hu
    cases todo with
    | nil => simp at hu
    | cons x todo =>
      simp at hu; subst hu
      have := Occ.child (ih _ hn) (.member tys x todo)
      rwa [← Nat.add_assoc] at this
  | dict _ hn ht _ _ _ ih =>
    intro u hu
    simp [nextOf, Part.next] at hu
    rcases append_pair_cases ht with ⟨rfl, rfl⟩ | ⟨rfl, rfl⟩ | ⟨rfl, rfl⟩
    · simp at hu; subst hu
      have := Occ.child (ih _ hn) (.key _ _)
      simpa using this
    · simp at hu; subst hu
      have := Occ.child (ih _ hn) (.value _ _)
      simpa using this
    · simp at hu

/-- The offset of the next value. -/
theorem start_length (be : Bool) (pre : Pat) (p : Part) (ps : List Part) (off : Nat) (ho : off = (Part.bytes be pre ps).length) :
    (Part.bytes be pre (p :: ps)).length = p.start off + (Val.marshals be (p.start off) p.vals).length := by
  subst ho; exact bytes_cons_length be pre p ps

/-- Adding a value of the next type, and moving on. -/
theorem Track.add (h : Track be pre (p :: ps) t c L S) (hn : p.next = some u) :
    ∃ x, c.idx_step = some x ∧ x.isSome = !p.full ∧ ∀ v L', v.has u →
      v.fits be (Part.bytes be pre (p :: ps)).length → L'.meta_ = L.meta_ → L'.from_ = L.from_ →
      Track be pre (p.add v :: ps) t (c.maybe_move x) L' S := by
  have hlen := start_length be pre p ps _ rfl
  cases h with
  | root hv ht ha hf =>
    rcases append_singleton_cases ht with ⟨rfl, rfl⟩ | ⟨rfl, rfl⟩
    · simp [Part.next] at hn; subst hn
      refine ⟨_, (at_root hv).2.2.2.2, by simp [Part.full], fun v L' hv' hvf _ _ => ?_⟩
      have := Track.root (be := be) (pre := pre) (L := L') (tys := [t]) (todo := []) hv rfl (all_append v t _ _ ha hv') ((fit_append be _ _ _).mpr
        ⟨hf, by rw [hlen] at hvf; simp only [Val.fit, and_true]; exact hvf⟩)
      simpa [Part.add, Cursor.maybe_move, bytes_length] using this
    · simp [Part.next] at hn
  | variant h0 hn0 hv ht ha hf hs =>
    rcases append_singleton_cases ht with ⟨rfl, rfl⟩ | ⟨rfl, rfl⟩
    · simp [Part.next] at hn; subst hn
      refine ⟨_, (at_root hv).2.2.2.2, by simp [Part.full], fun v L' hv' hvf _ _ => ?_⟩
      have := Track.variant (L' := L') (tys := [t]) (todo := []) h0 hn0 hv rfl (all_append v t _ _ ha hv') ((fit_append be _ _ _).mpr
        ⟨hf, by rw [hlen] at hvf; simp only [Val.fit, and_true]; exact hvf⟩) hs
      simpa [Part.add, Cursor.maybe_move, bytes_length] using this
    · simp [Part.next] at hn
  | array h0 hn0 he ho hf hm hfr =>
    simp [Part.next] at hn; subst hn
    refine ⟨_, (at_member h0.view (h0.occ _ hn0) (.array _)).2.2.2.2.1, by simp [Ty.bracketed, Part.full], fun v L' hv hvf h1 h2 => ?_⟩
    have := Track.array (L' := L') h0 hn0 ((each_append _ _ v).mpr ⟨he, hv⟩) ho ((fit_append be _ _ _).mpr
      ⟨hf, by rw [hlen, ← ho] at hvf; simp only [Val.fit, and_true]; exact hvf⟩) (h1.trans hm) (h2.trans hfr)
    simpa [Part.add, Cursor.maybe_move, Ty.bracketed] using this
  | @struct _ _ c L₀ _ _ vals tys todo off h0 hn0 ha ho hf =>
    cases todo with
    | nil => simp [Part.next] at hn
    | cons x todo =>
      simp [Part.next] at hn; subst hn
      have hm := (at_member h0.view (h0.occ _ hn0) (.member tys x todo)).2.2.2.2.1
      rw [← Nat.add_assoc] at hm
      refine ⟨_, hm, by simp [Ty.bracketed, Part.full], fun v L' hv hvf h1 h2 => ?_⟩
      have := Track.struct (L' := L') (tys := tys ++ [x]) (todo := todo) h0 (by rw [List.append_assoc]; exact hn0)
        (all_append v x _ _ ha hv) ho ((fit_append be _ _ _).mpr
        ⟨hf, by rw [hlen, ← ho] at hvf; simp only [Val.fit, and_true]; exact hvf⟩)
      simp only [Part.add, Cursor.maybe_move, Ty.bracketed, if_true, List.take, List.tail, bytes_length]
      have e : c.idx + 1 + sizes (tys ++ [x]) = c.idx + 1 + (Ty.texts tys).length + x.size := by simp; unfold sizes; omega
      rw [e] at this
      exact this
  | @dict _ _ c L₀ _ _ vals tys todo off k w h0 hn0 ht ha ho hf =>
    rcases append_pair_cases ht with ⟨rfl, rfl⟩ | ⟨rfl, rfl⟩ | ⟨rfl, rfl⟩
    · simp [Part.next] at hn; subst hn
      refine ⟨_, (at_member h0.view (h0.occ _ hn0) (.key _ _)).2.2.2.2.1, by simp [Ty.bracketed, Part.full], fun v L' hv hvf h1 h2 => ?_⟩
      have := Track.dict (L' := L') (tys := [.basic k]) (todo := [w]) h0 hn0 rfl
        (all_append v _ _ _ ha hv) ho ((fit_append be _ _ _).mpr
        ⟨hf, by rw [hlen, ← ho] at hvf; simp only [Val.fit, and_true]; exact hvf⟩)
      simpa [Part.add, Cursor.maybe_move, Ty.bracketed, bytes_length] using this
    · simp [Part.next] at hn; subst hn
      have hm := (at_member h0.view (h0.occ _ hn0) (.value k w)).2.2.2.2.1
      refine ⟨some (c.idx + 2 + w.size), by simpa [Ty.bracketed, bytes_length] using hm, by simp [Part.full], fun v L' hv hvf h1 h2 => ?_⟩
      have := Track.dict (L' := L') (tys := [.basic k, w]) (todo := []) h0 hn0 rfl
        (all_append v w vals [.basic k] ha hv) ho ((fit_append be _ _ _).mpr
        ⟨hf, by rw [hlen, ← ho] at hvf; simp only [Val.fit, and_true]; exact hvf⟩)
      simp [Part.add, Cursor.maybe_move, bytes_length] at this ⊢
      rw [show c.idx + 1 + (1 + w.size) = c.idx + 2 + w.size by omega] at this
      exact this
    · simp [Part.next] at hn

theorem Track.element (h : Track be pre (p :: ps) t c L S) (hn : p.next = some u) : c.element = some (some u.el) := by
  unfold Cursor.element
  rw [h.view.rep.element_at c.idx, occ_el (h.occ u hn)]

theorem Track.down (h : Track be pre (p :: ps) t c L S) (hn : p.next = some (.array u)) : c.down = some (some u.el) := by
  have ho := h.occ _ hn
  unfold Cursor.down
  rw [(move_down h.view ho).1]
  simp only [Ty.container, if_true, Option.bind_eq_bind, Option.bind_some]
  rw [h.view.rep.element_at, occ_el (.child ho (.array u))]

theorem Track.dvarExp (h : Track be pre (p :: ps) t c L S) (hn : p.next = some u) :
    c.dvarExp = some (some u.dvarAlign) := by
  have ho := h.occ _ hn
  obtain ⟨n, hn', hc⟩ := h.view.rep.node (occ_el ho)
  unfold Cursor.dvarExp Cursor.flags_at
  simp only [h.view.rep.node_at, hn', Option.bind_eq_bind, Option.bind_some, Option.map_some]
  rw [dvarExp_core hc, mkF_dvarExp, el_dvar]

theorem Track.move_down (h : Track be pre (p :: ps) t c L S) (hn : p.next = some u) (hc : u.container = true) :
    c.move_down = some ⟨c.sig, c.idx + 1⟩ := by
  have := (Verif.Dbus.move_down h.view (h.occ _ hn)).2
  rw [hc] at this
  exact this

theorem Track.sigAt (h : Track be pre (p :: ps) t c L S) (hn : p.next = some u) :
    ∃ s, c.sigAt = some (some s) ∧ View s u := by
  obtain ⟨⟨s, h1, _⟩, _⟩ := sub_signature h.view (h.occ _ hn)
  exact ⟨s, h1, .sub h.view (h.occ _ hn) h1⟩

theorem el_pair (u w : Ty) : u.el.pair ≠ some w.el := by
  have he : ∀ w : Ty, w.el ≠ .structClose ∧ w.el ≠ .dictClose := by
    intro w
    cases w with
    | basic b => cases b <;> decide
    | _ => simp only [Ty.el]; decide
  have : ∀ e x : Element, e ≠ .structClose → e ≠ .dictClose → x ≠ .structClose → x ≠ .dictClose → e.pair ≠ some x := by
    intro e x
    cases e <;> cases x <;> decide
  exact this _ _ (he u).1 (he u).2 (he w).1 (he w).2

/-- Nothing is missing in a container other than an array: the cursor is at its end. -/
theorem Track.ended (h : Track be pre (p :: ps) t c L S) (hn : p.next = none) :
    (∃ x, c.element = some x ∧ ∀ u : Ty, x ≠ some u.el) ∧ c.idx_step = some none ∧ c.sigAt = some none := by
  have hclose : ∀ {i : Nat} {w : Ty}, Occ t i w → w.bracketed = true → c = ⟨c.sig, i + (w.size - 1)⟩ →
      (∃ x, c.element = some x ∧ ∀ u : Ty, x ≠ some u.el) ∧ c.idx_step = some none ∧ c.sigAt = some none := by
    intro i w ho hb hc
    have h1 := at_close h.view ho hb
    have h2 := (sub_signature h.view ho).2.1 hb
    rw [bytes_length] at h1
    rw [← hc] at h1 h2
    obtain ⟨_, h3, _, _, _, e, he, hp⟩ := h1
    refine ⟨⟨_, he, fun u hu => ?_⟩, h3, h2⟩
    rw [Option.some.injEq] at hu
    subst hu
    exact el_pair _ _ hp
  have hend : c = ⟨c.sig, t.size⟩ →
      (∃ x, c.element = some x ∧ ∀ u : Ty, x ≠ some u.el) ∧ c.idx_step = some none ∧ c.sigAt = some none := by
    intro hc
    have h1 := at_end h.view (i := t.size) (by rw [bytes_length]; exact Nat.le_refl _)
    have h2 := (sub_signature h.view (.root t)).2.2 t.size (Nat.le_refl _)
    rw [← hc] at h1 h2
    exact ⟨⟨_, h1.1, fun u => by simp⟩, h1.2.2.2.1, h2⟩
  cases h with
  | root hv ht ha hf =>
    rcases append_singleton_cases ht with ⟨rfl, rfl⟩ | ⟨rfl, rfl⟩
    · simp [Part.next] at hn
    · exact hend (by simp)
  | variant h0 hn0 hv ht ha hf hs =>
    rcases append_singleton_cases ht with ⟨rfl, rfl⟩ | ⟨rfl, rfl⟩
    · simp [Part.next] at hn
    · exact hend (by simp)
  | array => simp [Part.next] at hn
  | struct h0 hn0 ha ho hf =>
    simp [Part.next] at hn
    subst hn
    rw [List.append_nil] at hn0
    exact hclose (h0.occ _ hn0) rfl (by simp; omega)
  | dict h0 hn0 ht ha ho hf =>
    rcases append_pair_cases ht with ⟨rfl, rfl⟩ | ⟨rfl, rfl⟩ | ⟨rfl, rfl⟩
    · simp [Part.next] at hn
    · simp [Part.next] at hn
    · exact hclose (h0.occ _ hn0) rfl (by simp; omega)

theorem next_of_not_full (h : p.full = false) : ∃ u, p.next = some u := by
  obtain ⟨k, vs, tys, todo⟩ := p
  cases k <;> cases todo <;> simp_all [Part.full, Part.next]

/-- `idx_step` yields something exactly if something is missing. -/
theorem Track.step (h : Track be pre (p :: ps) t c L S) : ∃ x, c.idx_step = some x ∧ x.isSome = !p.full := by
  cases hn : p.next with
  | some u => obtain ⟨x, h1, h2, _⟩ := h.add hn; exact ⟨x, h1, h2⟩
  | none =>
    refine ⟨none, (h.ended hn).2.1, ?_⟩
    cases hf : p.full with
    | true => rfl
    | false => obtain ⟨u, hu⟩ := next_of_not_full hf; rw [hu] at hn; cases hn

theorem Track.stack (h : Track be pre (p :: ps) t c L S) : S.isEmpty = true ↔ ps = [] := by
  cases h with
  | root => simp
  | variant h0 hn0 => simp; rintro rfl; cases hn0
  | array h0 hn0 => simp; rintro rfl; cases hn0
  | struct h0 hn0 => simp; rintro rfl; cases hn0
  | dict h0 hn0 => simp; rintro rfl; cases hn0

/-- What closing a container finds on the stack. -/
theorem Track.closing (h : Track be pre (p :: ps) t c L S) (hc : p.closes = true) :
    ∃ q qs el L₀ oc S₀ t₀ c₀ v u, ps = q :: qs ∧ S = (el, L₀, oc) :: S₀ ∧ Track be pre (q :: qs) t₀ c₀ L₀ S₀
      ∧ (match oc with | some c => some c | none => c.move_up) = some c₀ ∧ q.next = some u ∧ p.value = some v ∧ v.has u
      ∧ (¬ p.tooLong be (Part.bytes be pre ps).length → v.fits be (Part.bytes be pre ps).length)
      ∧ ((∃ w, el = .array ∧ p.kind = .array w ∧ L.meta_ = (Part.bytes be pre ps).length + padding (Part.bytes be pre ps).length 4
            ∧ L.from_ = firstElement (Part.bytes be pre ps).length w)
        ∨ (el = .variant ∨ el = .structOpen ∨ el = .dictOpen) ∧ ∀ w, p.kind ≠ .array w) := by
  have hne : ∀ {ps : List Part} {u : Ty}, nextOf ps = some u → ∃ q qs, ps = q :: qs := by
    intro ps u h
    cases ps with
    | nil => cases h
    | cons q qs => exact ⟨q, qs, rfl⟩
  cases h with
  | root => cases hc
  | variant h0 hn0 hv ht ha hf hs =>
    obtain ⟨q, qs, rfl⟩ := hne hn0
    rcases append_singleton_cases ht with ⟨rfl, rfl⟩ | ⟨rfl, rfl⟩
    · simp [Part.closes, Part.full] at hc
    · rename_i t₀ c₀ L₀ S₀ s vals
      match vals, ha, hf with
      | [v], ha, hf =>
        simp only [Val.all, and_true] at ha
        simp only [Val.fit, and_true] at hf
        exact ⟨q, qs, _, _, _, _, _, _, .variant t v, .variant, rfl, rfl, h0, rfl, hn0, rfl, ha, fun _ => ⟨hs, hf⟩,
          .inr ⟨.inl rfl, by simp⟩⟩
  | array h0 hn0 he ho hf hm hfr =>
    obtain ⟨q, qs, rfl⟩ := hne hn0
    subst ho
    refine ⟨q, qs, _, _, _, _, _, _, _, _, rfl, rfl, h0, (at_member h0.view (h0.occ _ hn0) (.array _)).2.1, hn0, rfl, ⟨rfl, he⟩,
      fun hl => ⟨?_, hf⟩, .inl ⟨_, rfl, rfl, hm, hfr⟩⟩
    simp only [Part.tooLong] at hl
    exact Nat.lt_of_not_le hl
  | struct h0 hn0 ha ho hf =>
    obtain ⟨q, qs, rfl⟩ := hne hn0
    subst ho
    simp [Part.closes, Part.full] at hc
    subst hc
    rw [List.append_nil] at hn0
    refine ⟨q, qs, _, _, _, _, _, _, _, _, rfl, rfl, h0, ?_, hn0, rfl, ha, fun hl => hf, .inr ⟨.inr (.inl rfl), by simp⟩⟩
    have := (at_close h0.view (h0.occ _ hn0) rfl).1
    rw [bytes_length] at this
    show Cursor.move_up _ = _
    unfold Cursor.move_up
    rename_i c₀ _ _ _ tys
    rw [show (⟨c₀.sig, c₀.idx + 1 + sizes tys⟩ : Cursor) = ⟨c₀.sig, c₀.idx + ((Ty.struct tys).size - 1)⟩ by simp; omega, this]
    rfl
  | dict h0 hn0 ht ha ho hf =>
    obtain ⟨q, qs, rfl⟩ := hne hn0
    subst ho
    rcases append_pair_cases ht with ⟨rfl, rfl⟩ | ⟨rfl, rfl⟩ | ⟨rfl, rfl⟩
    · simp [Part.closes, Part.full] at hc
    · simp [Part.closes, Part.full] at hc
    · rename_i c₀ L₀ S₀ vals k w
      match vals, ha, hf with
      | [a, b], ha, hf =>
        simp only [Val.all, and_true] at ha
        simp only [Val.fit, and_true] at hf
        refine ⟨q, qs, _, _, _, _, _, _, .dict a b, _, rfl, rfl, h0, ?_, hn0, rfl, ha, fun hl => hf, .inr ⟨.inr (.inr rfl), by simp⟩⟩
        have := (at_close h0.view (h0.occ _ hn0) rfl).1
        rw [bytes_length] at this
        show Cursor.move_up _ = _
        unfold Cursor.move_up
        rw [show (⟨c₀.sig, c₀.idx + 1 + sizes [.basic k, w]⟩ : Cursor) = ⟨c₀.sig, c₀.idx + ((Ty.dict k w).size - 1)⟩ by
          simp; omega, this]
        rfl

end Verif.Dbus
