import Verif.Dbus.LemmasRun
/-! # Lemmas: writing a value, in terms of the specification -/
namespace Verif.Dbus
open Verif.Io

variable {R : Nat → Prop} {be : Bool} {pre : Pat} {ps qs : List Part} {p : Part} {t u : Ty} {c : Bool}

theorem goods_append : ∀ {a b : List Out}, Out.goods a → Out.goods b → Out.goods (a ++ b)
  | [], _, _, h => h
  | _ :: _, _, h, h' => ⟨h.1, goods_append h.2 h'⟩

theorem doesAll_append : ∀ {x y : List Op} {a b : St} {outs : List Out}, DoesAll R be pre a (x ++ y) outs b →
    ∃ o1 o2 m, outs = o1 ++ o2 ∧ DoesAll R be pre a x o1 m ∧ DoesAll R be pre m y o2 b
  | [], _, a, _, outs, h => ⟨[], outs, a, rfl, .nil _ _, h⟩
  | op :: x, y, a, b, outs, h => by
    cases h with
    | cons _ _ b' _ _ _ out outs' h1 h2 =>
      obtain ⟨o1, o2, m, rfl, h3, h4⟩ := doesAll_append h2
      exact ⟨out :: o1, o2, m, rfl, .cons _ _ _ _ _ _ _ _ h1 h3, h4⟩

theorem doesAll_one {a b : St} {op : Op} {outs : List Out} (h : DoesAll R be pre a [op] outs b) :
    ∃ o, outs = [o] ∧ Does R be pre a op o b := by
  cases h with
  | cons _ _ _ _ _ _ out _ h1 h2 => cases h2; exact ⟨out, rfl, h1⟩

/-- A call that suits. -/
theorem does_value {op : Op} {o : Out} {b : St} (hv : op.isValue = true) (hn : p.next = some u) (hs : op.suits u = true)
    (hl : ¬ op.long) (hr : ∀ qs, Effect op u (p :: ps) qs → ¬ R (Part.bytes be pre qs).length)
    (h : Does R be pre ⟨p :: ps, c⟩ op o b) : ∃ qs, Effect op u (p :: ps) qs ∧ o = .res .ok ∧ b = ⟨qs, c⟩ := by
  cases h with
  | mismatch _ _ _ _ _ _ h => rw [h u hn] at hs; cases hs
  | long _ _ _ _ _ _ _ _ h => exact absurd h hl
  | value _ _ _ _ _ u' qs hn' _ _ he =>
    rw [hn, Option.some.injEq] at hn'
    subst hn'
    exact ⟨qs, he, rfl, rfl⟩
  | valueIo _ _ _ _ _ u' qs _ hn' _ _ he hr' =>
    rw [hn, Option.some.injEq] at hn'
    subst hn'
    exact absurd hr' (hr qs he)
  | _ => cases hv

/-- Closing. -/
theorem does_close {q : Part} {v : Val} {o : Out} {b : St} (hc : p.closes = true)
    (hl : ¬ p.tooLong be (Part.bytes be pre (q :: ps)).length) (hv : p.value = some v)
    (hr : ¬ R (Part.bytes be pre (q.add v :: ps)).length) (h : Does R be pre ⟨p :: q :: ps, c⟩ .close o b) :
    o = .res .ok ∧ b = ⟨q.add v :: ps, c⟩ := by
  cases h with
  | mismatch _ _ _ _ _ h => cases h
  | long _ _ _ _ _ u _ h => cases u <;> simp [Op.suits] at h
  | value _ _ _ _ _ u _ _ h => cases u <;> simp [Op.suits] at h
  | valueIo _ _ _ _ _ u _ _ _ h => cases u <;> simp [Op.suits] at h
  | closeMismatch _ _ _ _ h => rw [hc] at h; cases h
  | closeLong _ _ _ _ _ h => exact absurd h hl
  | close _ _ _ _ _ v' _ _ hv' =>
    rw [hv, Option.some.injEq] at hv'
    subst hv'
    exact ⟨rfl, rfl⟩
  | closeIo _ _ _ _ _ v' _ _ _ hv' hr' =>
    rw [hv, Option.some.injEq] at hv'
    subst hv'
    exact absurd hr' hr

/-- Committing something complete. -/
theorem does_commit {o : Out} {b : St} (hf : p.full = true) (h : Does R be pre ⟨[p], c⟩ .commit o b) :
    o = .res .ok ∧ b = ⟨[p], true⟩ := by
  cases h with
  | mismatch _ _ _ _ _ h => cases h
  | long _ _ _ _ _ u _ h => cases u <;> simp [Op.suits] at h
  | value _ _ _ _ _ u _ _ h => cases u <;> simp [Op.suits] at h
  | valueIo _ _ _ _ _ u _ _ _ h => cases u <;> simp [Op.suits] at h
  | pending _ _ _ _ h => rw [hf] at h; simp at h
  | commit => exact ⟨rfl, rfl⟩

/-- The values suit the part. -/
def Accepts : Part → List Val → Prop
  | _, [] => True
  | q, v :: vs => (∃ u, q.next = some u ∧ v.has u) ∧ Accepts (q.add v) vs

theorem accepts_array (t : Ty) : ∀ (vs xs : List Val), Val.each vs t → Accepts ⟨.array t, xs, [], []⟩ vs
  | [], _, _ => trivial
  | v :: vs, xs, h => ⟨⟨t, rfl, h.1⟩, accepts_array t vs (xs ++ [v]) h.2⟩

theorem fold_array (t : Ty) : ∀ (vs xs : List Val), vs.foldl Part.add ⟨.array t, xs, [], []⟩ = ⟨.array t, xs ++ vs, [], []⟩
  | [], xs => by simp
  | v :: vs, xs => by
    show vs.foldl Part.add ⟨.array t, xs ++ [v], [], []⟩ = _
    rw [fold_array t vs]; simp

theorem accepts_list {k : Open} (hk : ∀ t, k ≠ .array t) : ∀ (vs xs : List Val) (tys todo : List Ty), Val.all vs todo →
    Accepts ⟨k, xs, tys, todo⟩ vs ∧ vs.foldl Part.add ⟨k, xs, tys, todo⟩ = ⟨k, xs ++ vs, tys ++ todo, []⟩
  | [], xs, tys, [], _ => by simp [Accepts]
  | v :: vs, xs, tys, u :: todo, h => by
    have hadd : Part.add ⟨k, xs, tys, u :: todo⟩ v = ⟨k, xs ++ [v], tys ++ [u], todo⟩ := by
      cases k <;> first
        | rfl
        | exact absurd rfl (hk _)
    have hnext : Part.next ⟨k, xs, tys, u :: todo⟩ = some u := by
      cases k <;> first
        | rfl
        | exact absurd rfl (hk _)
    obtain ⟨h1, h2⟩ := accepts_list hk vs (xs ++ [v]) (tys ++ [u]) todo h.2
    refine ⟨⟨⟨u, hnext, h.1⟩, ?_⟩, ?_⟩
    · rw [hadd]; exact h1
    · rw [List.foldl_cons, hadd, h2]; simp

/-- What the two mutual statements below are about. -/
def Written (R : Nat → Prop) (be : Bool) (v : Val) (ops : List Op) : Prop :=
  ∀ (N : Nat) (pre : Pat) (p : Part) (ps : List Part) (c : Bool) (outs : List Out) (b : St) (u : Ty), (∀ n, n ≤ N → ¬ R n) →
    p.next = some u → v.has u → v.fits be (Part.bytes be pre (p :: ps)).length →
    (Part.bytes be pre (p :: ps)).length + (v.marshal be (Part.bytes be pre (p :: ps)).length).length ≤ N →
    DoesAll R be pre ⟨p :: ps, c⟩ ops outs b → Out.goods outs ∧ b = ⟨p.add v :: ps, c⟩

def WrittenAll (R : Nat → Prop) (be : Bool) (vs : List Val) (ops : List Op) : Prop :=
  ∀ (N : Nat) (pre : Pat) (p : Part) (ps : List Part) (c : Bool) (outs : List Out) (b : St), (∀ n, n ≤ N → ¬ R n) →
    Accepts p vs → Val.fit be (Part.bytes be pre (p :: ps)).length vs →
    (Part.bytes be pre (p :: ps)).length + (Val.marshals be (Part.bytes be pre (p :: ps)).length vs).length ≤ N →
    DoesAll R be pre ⟨p :: ps, c⟩ ops outs b → Out.goods outs ∧ b = ⟨vs.foldl Part.add p :: ps, c⟩

theorem written_basic {op : Op} {v : Val} (hv : op.isValue = true)
    (hs : ∀ be off u, v.has u → v.fits be off → op.suits u = true ∧ ¬ op.long)
    (he : ∀ (p : Part) u ps qs, Effect op u (p :: ps) qs → qs = p.add v :: ps) : Written R be v [op] := by
  intro N pre p ps c outs b u hN hn hh hf hl h
  obtain ⟨o, rfl, hd⟩ := doesAll_one h
  obtain ⟨h1, h2⟩ := hs be _ u hh hf
  obtain ⟨qs, h3, rfl, rfl⟩ := does_value hv hn h1 h2 (fun qs hq => by
    rw [he p u ps qs hq]
    apply hN
    rw [add_length]; exact hl) hd
  rw [he p u ps qs h3]
  exact ⟨⟨rfl, trivial⟩, rfl⟩

theorem written_container {op : Op} {ops : List Op} {v : Val} {vs : List Val} (q : Ty → Part) (hv : op.isValue = true)
    (hall : WrittenAll R be vs ops)
    (hq : ∀ off u, v.has u → v.fits be off →
      op.suits u = true ∧ ¬ op.long
      ∧ (∀ ps qs, Effect op u ps qs → qs = q u :: ps)
      ∧ (q u).vals = [] ∧ Accepts (q u) vs ∧ Val.fit be ((q u).start off) vs
      ∧ (vs.foldl Part.add (q u)).closes = true ∧ (vs.foldl Part.add (q u)).value = some v
      ∧ ¬ (vs.foldl Part.add (q u)).tooLong be off
      ∧ off + (v.marshal be off).length = (q u).start off + (Val.marshals be ((q u).start off) vs).length) :
    Written R be v (op :: (ops ++ [.close])) := by
  intro N pre p ps c outs b u hN hn hh hf hl h
  obtain ⟨h1, h2, h3, h4, h5, h6, h7, h8, h9, h10⟩ := hq _ u hh hf
  have hlen : (Part.bytes be pre (q u :: p :: ps)).length = (q u).start (Part.bytes be pre (p :: ps)).length := by
    rw [bytes_cons_length, Part.body, h4]; simp [Val.marshals]
  cases h with
  | cons _ _ m _ _ _ out outs' hd1 hd2 =>
    obtain ⟨qs, he, rfl, rfl⟩ := does_value hv hn h1 h2 (fun qs hq' => by
      rw [h3 _ _ hq']
      apply hN
      omega) hd1
    rw [h3 _ _ he] at hd2
    obtain ⟨o1, o2, m, rfl, hd3, hd4⟩ := doesAll_append hd2
    obtain ⟨g1, rfl⟩ := hall N pre (q u) (p :: ps) c o1 m hN h5 (by rw [hlen]; exact h6) (by rw [hlen]; omega) hd3
    obtain ⟨o, rfl, hd5⟩ := doesAll_one hd4
    obtain ⟨rfl, rfl⟩ := does_close h7 h9 h8 (hN _ (by rw [add_length]; exact hl)) hd5
    exact ⟨⟨rfl, goods_append g1 ⟨rfl, trivial⟩⟩, rfl⟩

theorem view_unique {s : Sig} {t u : Ty} (h : View s t) (h' : View s u) : t = u := by
  have := h.rep.text
  rw [h'.rep.text, Option.some.injEq] at this
  exact (bytes_inj this).symm

theorem ty_u16 {v u} (h : (Val.u16 v).has u) : u = .basic .uint16 := match u, h with | .basic .uint16, _ => rfl
theorem ty_u32 {v u} (h : (Val.u32 v).has u) : u = .basic .uint32 := match u, h with | .basic .uint32, _ => rfl
theorem ty_u64 {v u} (h : (Val.u64 v).has u) : u = .basic .uint64 := match u, h with | .basic .uint64, _ => rfl
theorem ty_string {v u} (h : (Val.string v).has u) : u = .basic .string := match u, h with | .basic .string, _ => rfl
theorem ty_object {v u} (h : (Val.object v).has u) : u = .basic .objectPath := match u, h with | .basic .objectPath, _ => rfl
theorem ty_signature {v u} (h : (Val.signature v).has u) : u = .basic .signature := match u, h with | .basic .signature, _ => rfl
theorem ty_variant {t v u} (h : (Val.variant t v).has u) : u = .variant ∧ v.has t := match u, h with | .variant, h => ⟨rfl, h⟩
theorem ty_array {t vs u} (h : (Val.array t vs).has u) : u = .array t ∧ Val.each vs t :=
  match u, h with | .array _, h => ⟨by rw [h.1], h.2⟩
theorem ty_struct {vs u} (h : (Val.struct vs).has u) : ∃ ts, u = .struct ts ∧ Val.all vs ts :=
  match u, h with | .struct ts, h => ⟨ts, rfl, h⟩
theorem ty_dict {k v u} (h : (Val.dict k v).has u) : ∃ kt vt, u = .dict kt vt ∧ k.has (.basic kt) ∧ v.has vt :=
  match u, h with | .dict kt vt, h => ⟨kt, vt, rfl, h⟩

mutual
theorem writes_ok (R : Nat → Prop) (be : Bool) : {v : Val} → {ops : List Op} → Writes v ops → Written R be v ops
  | _, _, .u16 v => written_basic rfl (fun _ _ u hh _ => by rw [ty_u16 hh]; exact ⟨rfl, id⟩)
      (fun p u ps qs h => by cases h; rfl)
  | _, _, .u32 v => written_basic rfl (fun _ _ u hh _ => by rw [ty_u32 hh]; exact ⟨rfl, id⟩)
      (fun p u ps qs h => by cases h; rfl)
  | _, _, .u64 v => written_basic rfl (fun _ _ u hh _ => by rw [ty_u64 hh]; exact ⟨rfl, id⟩)
      (fun p u ps qs h => by cases h; rfl)
  | _, _, .string s => written_basic rfl (fun _ _ u hh hf => by rw [ty_string hh]; exact ⟨rfl, Nat.not_le.mpr hf⟩)
      (fun p u ps qs h => by cases h; rfl)
  | _, _, .object s => written_basic rfl (fun _ _ u hh hf => by rw [ty_object hh]; exact ⟨rfl, Nat.not_le.mpr hf⟩)
      (fun p u ps qs h => by cases h; rfl)
  | _, _, .signature s => written_basic rfl (fun _ _ u hh hf => by rw [ty_signature hh]; exact ⟨rfl, Nat.not_le.mpr hf⟩)
      (fun p u ps qs h => by cases h; rfl)
  | _, _, .variant s t v ops hs hk h => by
    refine written_container (vs := [v]) (fun _ => ⟨.variant t, [], [], [t]⟩) rfl ?_ ?_
    · intro N pre p ps c outs b hN ha hf hl hd
      obtain ⟨⟨u, hn, hh⟩, _⟩ := ha
      exact writes_ok R be h N pre p ps c outs b u hN hn hh hf.1 (by simpa [Val.marshals] using hl) hd
    · intro off u hh hf
      obtain ⟨rfl, hh⟩ := ty_variant hh
      · refine ⟨rfl, ?_, ?_, rfl, ⟨⟨t, rfl, hh⟩, trivial⟩, ⟨hf.2, trivial⟩, rfl, rfl, id, ?_⟩
        · rintro ⟨n, h1, h2⟩
          rw [hs.rep.len, hk, Option.some.injEq] at h1
          simp [Kind.coeff] at h1
          have := hf.1
          omega
        · intro ps qs he
          cases he with
          | variant _ t' _ _ hs' => rw [view_unique hs' hs]
        · simp [Val.marshal, Val.marshals, Part.start, bytes_length]; omega
  | _, _, .array t vs ops h => by
    refine written_container (vs := vs) (fun _ => ⟨.array t, [], [], []⟩) rfl (writesAll_ok R be h) ?_
    intro off u hh hf
    obtain ⟨rfl, he⟩ := ty_array hh
    refine ⟨rfl, id, ?_, rfl, accepts_array t vs [] he, hf.2, ?_, ?_, ?_, ?_⟩
    · intro ps qs he; cases he; rfl
    · rw [fold_array]; rfl
    · rw [fold_array]; rfl
    · rw [fold_array]
      show ¬ 2 ^ 32 ≤ (Val.marshals be (firstElement off t) vs).length
      have := hf.1; omega
    · simp [Val.marshal, Part.start]
      unfold firstElement; omega
  | _, _, .struct vs ops h => by
    refine written_container (vs := vs) (fun u => ⟨.struct, [], [], match u with | .struct ts => ts | _ => []⟩) rfl
      (writesAll_ok R be h) ?_
    intro off u hh hf
    obtain ⟨ts, rfl, hh⟩ := ty_struct hh
    obtain ⟨h1, h2⟩ := accepts_list (k := .struct) (by simp) vs [] [] ts hh
    refine ⟨rfl, id, ?_, rfl, h1, hf, ?_, ?_, ?_, ?_⟩
    · intro ps qs he; cases he; rfl
    · rw [h2]; rfl
    · rw [h2]; rfl
    · rw [h2]; exact id
    · simp [Val.marshal, Part.start]; omega
  | _, _, .dict k v ops h => by
    refine written_container (vs := [k, v])
      (fun u => ⟨.dict, [], [], match u with | .dict kt vt => [.basic kt, vt] | _ => []⟩) rfl (writesAll_ok R be h) ?_
    intro off u hh hf
    obtain ⟨kt, vt, rfl, hh⟩ := ty_dict hh
    obtain ⟨h1, h2⟩ := accepts_list (k := .dict) (by simp) [k, v] [] [] [.basic kt, vt] ⟨hh.1, hh.2, trivial⟩
    refine ⟨rfl, id, ?_, rfl, h1, ⟨hf.1, hf.2, trivial⟩, ?_, ?_, ?_, ?_⟩
    · intro ps qs he; cases he; rfl
    · rw [h2]; rfl
    · rw [h2]; rfl
    · rw [h2]; exact id
    · simp [Val.marshal, Val.marshals, Part.start]; omega
  | _, _, .sub v ops h => by
    intro N pre p ps c outs b u hN hn hh hf hl hd
    obtain ⟨o, rfl, hdo⟩ := doesAll_one hd
    have hb : Part.bytes be (Part.bytes be pre (p :: ps)) [⟨.root, [], [], [u]⟩] = Part.bytes be pre (p :: ps) := by
      generalize Part.bytes be pre (p :: ps) = x
      simp [Part.bytes, Part.head, Part.body, Val.marshals]
    have key : ∀ outs b, DoesAll R be (Part.bytes be pre (p :: ps)) (St.new u) (ops ++ [.commit]) outs b →
        Out.goods outs ∧ b = ⟨[⟨.root, [v], [u], []⟩], true⟩ := by
      intro outs b hd
      obtain ⟨o1, o2, m, rfl, hd1, hd2⟩ := doesAll_append hd
      obtain ⟨g1, rfl⟩ := writes_ok R be h N (Part.bytes be pre (p :: ps)) ⟨.root, [], [], [u]⟩ [] false o1 m u hN rfl hh
        (by rw [hb]; exact hf) (by rw [hb]; exact hl) hd1
      obtain ⟨o, rfl, hd3⟩ := doesAll_one hd2
      obtain ⟨rfl, rfl⟩ := does_commit (by rfl) hd3
      exact ⟨goods_append g1 ⟨rfl, trivial⟩, rfl⟩
    cases hdo with
    | mismatch _ _ _ _ _ h => cases h
    | long _ _ _ _ _ u _ h => cases u <;> simp [Op.suits] at h
    | value _ _ _ _ _ u _ _ h => cases u <;> simp [Op.suits] at h
    | valueIo _ _ _ _ _ u _ _ _ h => cases u <;> simp [Op.suits] at h
    | subMismatch _ _ _ _ _ _ h => obtain ⟨_, h, _⟩ := h u hn; cases h
    | subDropped _ _ _ _ _ _ outs u' qs hn' _ hd =>
      rw [hn, Option.some.injEq] at hn'
      subst hn'
      obtain ⟨_, h⟩ := key _ _ hd
      cases h
    | subCommitted _ _ _ _ _ _ outs u' q v' hn' _ hd hv =>
      rw [hn, Option.some.injEq] at hn'
      subst hn'
      obtain ⟨g, h⟩ := key _ _ hd
      simp only [St.mk.injEq, List.cons.injEq, and_true] at h
      subst h
      simp only [List.cons.injEq, and_true] at hv
      subst hv
      exact ⟨⟨g, trivial⟩, rfl⟩

theorem writesAll_ok (R : Nat → Prop) (be : Bool) : {vs : List Val} → {ops : List Op} → WritesAll vs ops → WrittenAll R be vs ops
  | _, _, .nil => by
    intro N pre p ps c outs b _ _ _ _ hd
    cases hd
    exact ⟨trivial, rfl⟩
  | _, _, .cons v vs ops ops' h h' => by
    intro N pre p ps c outs b hN ha hf hl hd
    obtain ⟨⟨u, hn, hh⟩, ha⟩ := ha
    obtain ⟨o1, o2, m, rfl, hd1, hd2⟩ := doesAll_append hd
    simp only [Val.marshals, List.length_append] at hl
    obtain ⟨g1, rfl⟩ := writes_ok R be h N pre p ps c o1 m u hN hn hh hf.1 (by omega) hd1
    obtain ⟨g2, rfl⟩ := writesAll_ok R be h' N pre (p.add v) ps c o2 b hN ha (by rw [add_length]; exact hf.2)
      (by rw [add_length]; omega) hd2
    exact ⟨goods_append g1 g2, rfl⟩
end

/-! ## Every value can be written -/

theorem sanes_append : ∀ {a b : List Op}, Op.sanes a → Op.sanes b → Op.sanes (a ++ b)
  | [], _, _, h => h
  | _ :: _, _, h, h' => ⟨h.1, sanes_append h.2 h'⟩

mutual
theorem writes_sane : {v : Val} → {ops : List Op} → Writes v ops → Op.sanes ops
  | _, _, .u16 _ => ⟨trivial, trivial⟩
  | _, _, .u32 _ => ⟨trivial, trivial⟩
  | _, _, .u64 _ => ⟨trivial, trivial⟩
  | _, _, .string _ => ⟨trivial, trivial⟩
  | _, _, .object _ => ⟨trivial, trivial⟩
  | _, _, .signature _ => ⟨trivial, trivial⟩
  | _, _, .variant _ t _ _ hs hk h => ⟨⟨t, hs, .inl hk⟩, sanes_append (writes_sane h) ⟨trivial, trivial⟩⟩
  | _, _, .array _ _ _ h => ⟨trivial, sanes_append (writesAll_sane h) ⟨trivial, trivial⟩⟩
  | _, _, .struct _ _ h => ⟨trivial, sanes_append (writesAll_sane h) ⟨trivial, trivial⟩⟩
  | _, _, .dict _ _ _ h => ⟨trivial, sanes_append (writesAll_sane h) ⟨trivial, trivial⟩⟩
  | _, _, .sub _ _ h => ⟨⟨fun _ h => by (cases h), sanes_append (writes_sane h) ⟨trivial, trivial⟩⟩, trivial⟩
theorem writesAll_sane : {vs : List Val} → {ops : List Op} → WritesAll vs ops → Op.sanes ops
  | _, _, .nil => trivial
  | _, _, .cons _ _ _ _ h h' => sanes_append (writes_sane h) (writesAll_sane h')
end

theorem view_ofTy (t : Ty) (h : t.bytes.length ≤ maxLength) : View (ofTy t) t :=
  .parsed h (new_bytes t (by rwa [maxLength_eq, bytes_length] at h))

theorem view_short (t : Ty) (h : t.size ≤ 31) : View (ofTy t) t ∧ (ofTy t).kind = .node8 := by
  have e : Kind.node8.lengthMax = 31 := by decide
  refine ⟨view_ofTy t ?_, ?_⟩
  · have : 31 ≤ maxLength := by decide
    rw [bytes_length]; omega
  · simp only [ofTy]; unfold kindFor; rw [if_pos (by omega)]

mutual
theorem writes_exists : (v : Val) → v.short → ∃ ops, Writes v ops
  | .u16 v, _ => ⟨_, .u16 v⟩
  | .u32 v, _ => ⟨_, .u32 v⟩
  | .u64 v, _ => ⟨_, .u64 v⟩
  | .string s, _ => ⟨_, .string s⟩
  | .object s, _ => ⟨_, .object s⟩
  | .signature s, _ => ⟨_, .signature s⟩
  | .variant t v, h => by
    obtain ⟨ops, ho⟩ := writes_exists v h.2
    exact ⟨_, .variant _ t v ops (view_short t h.1).1 (view_short t h.1).2 ho⟩
  | .array t vs, h => by
    obtain ⟨ops, ho⟩ := writesAll_exists vs h
    exact ⟨_, .array t vs ops ho⟩
  | .struct vs, h => by
    obtain ⟨ops, ho⟩ := writesAll_exists vs h
    exact ⟨_, .struct vs ops ho⟩
  | .dict k v, h => by
    obtain ⟨o1, h1⟩ := writes_exists k h.1
    obtain ⟨o2, h2⟩ := writes_exists v h.2
    exact ⟨_, .dict k v _ (.cons k [v] o1 _ h1 (.cons v [] o2 [] h2 .nil))⟩
theorem writesAll_exists : (vs : List Val) → Val.shorts vs → ∃ ops, WritesAll vs ops
  | [], _ => ⟨[], .nil⟩
  | v :: vs, h => by
    obtain ⟨o1, h1⟩ := writes_exists v h.1
    obtain ⟨o2, h2⟩ := writesAll_exists vs h.2
    exact ⟨_, .cons v vs o1 o2 h1 h2⟩
end

end Verif.Dbus
