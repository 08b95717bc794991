import Verif.Dbus.SpecFinish
import Verif.Dbus.PropsDvar
/-! # Lemmas: encoders can be completed -/
namespace Verif.Dbus.Finish
open Verif.Dbus Verif.Io

/-! ## A value of every type -/

def dfltB : Basic → Val
  | .uint16 => .u16 0
  | .uint32 => .u32 0
  | .uint64 => .u64 0
  | .objectPath => .object []
  | .signature => .signature []
  | _ => .string []

mutual
def dflt : Ty → Val
  | .basic b => dfltB b
  | .variant => .variant (.basic .uint16) (.u16 0)
  | .array t => .array t []
  | .maybe _ => .u16 0
  | .struct ts => .struct (dflts ts)
  | .dict k v => .dict (dfltB k) (dflt v)
def dflts : List Ty → List Val
  | [] => []
  | t :: ts => dflt t :: dflts ts
end

theorem dfltB_has {b : Basic} (h : known b = true) : (dfltB b).has (.basic b) := by
  cases b <;> first
    | (cases h; done)
    | (unfold dfltB Val.has; trivial)

mutual
theorem dflt_has : (t : Ty) → Inhabited t → (dflt t).has t
  | .basic b, h => by unfold dflt; exact dfltB_has h
  | .variant, _ => by unfold dflt Val.has; unfold Val.has; trivial
  | .array t, _ => by unfold dflt Val.has; exact ⟨rfl, by unfold Val.each; trivial⟩
  | .struct ts, h => by unfold dflt Val.has; exact dflts_all ts (by unfold Inhabited at h; exact h)
  | .dict k v, h => by
    unfold Inhabited at h
    unfold dflt Val.has
    exact ⟨dfltB_has h.1, dflt_has v h.2⟩
theorem dflts_all : (ts : List Ty) → Inhabiteds ts → Val.all (dflts ts) ts
  | [], _ => by unfold dflts Val.all; trivial
  | t :: ts, h => by
    unfold Inhabiteds at h
    unfold dflts Val.all
    exact ⟨dflt_has t h.1, dflts_all ts h.2⟩
end

mutual
theorem Callable.inhabited : (t : Ty) → Callable t → Inhabited t
  | .basic b, h => by unfold Callable at h; unfold Inhabited; exact h
  | .variant, _ => by unfold Inhabited; trivial
  | .array t, _ => by unfold Inhabited; trivial
  | .maybe _, h => by unfold Callable at h; exact h.elim
  | .struct ts, h => by unfold Callable at h; unfold Inhabited; exact Callables.inhabited ts h
  | .dict k v, h => by unfold Callable at h; unfold Inhabited; exact ⟨h.1, Callable.inhabited v h.2⟩
theorem Callables.inhabited : (ts : List Ty) → Callables ts → Inhabiteds ts
  | [], _ => by unfold Inhabiteds; trivial
  | t :: ts, h => by unfold Callables at h; unfold Inhabiteds; exact ⟨Callable.inhabited t h.1, Callables.inhabited ts h.2⟩
end

mutual
theorem has_inhabited : (v : Val) → (t : Ty) → v.has t → Inhabited t
  | .u16 _, u, h => by rw [ty_u16 h]; unfold Inhabited; rfl
  | .u32 _, u, h => by rw [ty_u32 h]; unfold Inhabited; rfl
  | .u64 _, u, h => by rw [ty_u64 h]; unfold Inhabited; rfl
  | .string _, u, h => by rw [ty_string h]; unfold Inhabited; rfl
  | .object _, u, h => by rw [ty_object h]; unfold Inhabited; rfl
  | .signature _, u, h => by rw [ty_signature h]; unfold Inhabited; rfl
  | .variant t v, u, h => by rw [(ty_variant h).1]; unfold Inhabited; trivial
  | .array t vs, u, h => by rw [(ty_array h).1]; unfold Inhabited; trivial
  | .struct vs, u, h => by
    obtain ⟨ts, rfl, h⟩ := ty_struct h
    unfold Inhabited
    exact all_inhabited vs ts h
  | .dict k v, u, h => by
    obtain ⟨kt, vt, rfl, hk, hv⟩ := ty_dict h
    have := has_inhabited k _ hk
    unfold Inhabited at this ⊢
    exact ⟨this, has_inhabited v vt hv⟩
theorem all_inhabited : (vs : List Val) → (ts : List Ty) → Val.all vs ts → Inhabiteds ts
  | [], [], _ => by unfold Inhabiteds; trivial
  | [], _ :: _, h => by unfold Val.all at h; exact h.elim
  | _ :: _, [], h => by unfold Val.all at h; exact h.elim
  | v :: vs, t :: ts, h => by
    unfold Val.all at h
    unfold Inhabiteds
    exact ⟨has_inhabited v t h.1, all_inhabited vs ts h.2⟩
end

theorem dfltB_short (b : Basic) : (dfltB b).short := by
  cases b <;> (unfold dfltB Val.short; trivial)

mutual
theorem dflt_short : (t : Ty) → (dflt t).short
  | .basic b => by unfold dflt; exact dfltB_short b
  | .variant => by unfold dflt Val.short; exact ⟨by decide, by unfold Val.short; trivial⟩
  | .array t => by unfold dflt Val.short; unfold Val.shorts; trivial
  | .maybe _ => by unfold dflt Val.short; trivial
  | .struct ts => by unfold dflt Val.short; exact dflts_short ts
  | .dict k v => by unfold dflt Val.short; exact ⟨dfltB_short k, dflt_short v⟩
theorem dflts_short : (ts : List Ty) → Val.shorts (dflts ts)
  | [] => by unfold dflts Val.shorts; trivial
  | t :: ts => by unfold dflts Val.shorts; exact ⟨dflt_short t, dflts_short ts⟩
end

theorem dfltB_fits (be : Bool) (off : Nat) (b : Basic) : (dfltB b).fits be off := by
  cases b <;> (unfold dfltB Val.fits; first | trivial | decide)

mutual
theorem dflt_fits (be : Bool) : (t : Ty) → (off : Nat) → (dflt t).fits be off
  | .basic b, off => by unfold dflt; exact dfltB_fits be off b
  | .variant, off => by unfold dflt Val.fits; exact ⟨by decide, by unfold Val.fits; trivial⟩
  | .array t, off => by
    unfold dflt Val.fits
    exact ⟨by unfold Val.marshals; decide, by unfold Val.fit; trivial⟩
  | .maybe _, off => by unfold dflt Val.fits; trivial
  | .struct ts, off => by unfold dflt Val.fits; exact dflts_fit be ts _
  | .dict k v, off => by unfold dflt Val.fits; exact ⟨dfltB_fits be _ k, dflt_fits be v _⟩
theorem dflts_fit (be : Bool) : (ts : List Ty) → (off : Nat) → Val.fit be off (dflts ts)
  | [], _ => by unfold dflts Val.fit; trivial
  | t :: ts, off => by unfold dflts Val.fit; exact ⟨dflt_fits be t off, dflts_fit be ts _⟩
end

/-! ## Their length -/

theorem padding_lt (off : Nat) {a : Nat} (h : 0 < a) : padding off a < a := by
  unfold padding; exact Nat.mod_lt _ h

theorem align_le (t : Ty) : 2 ^ t.dvarAlign ≤ 8 := by
  have : t.dvarAlign ≤ 3 := by cases t with
    | basic b => cases b <;> decide
    | variant => decide
    | array _ => show 2 ≤ 3; decide
    | maybe _ => simp [Ty.dvarAlign]
    | struct _ => show 3 ≤ 3; decide
    | dict _ _ => show 3 ≤ 3; decide
  exact Nat.pow_le_pow_right (by decide) this

theorem dfltB_length (be : Bool) (off : Nat) (b : Basic) : ((dfltB b).marshal be off).length ≤ 16 := by
  have h2 := padding_lt off (a := 2) (by decide)
  have h4 := padding_lt off (a := 4) (by decide)
  have h8 := padding_lt off (a := 8) (by decide)
  cases b <;> (simp [dfltB, Val.marshal, pad, enNum_length]; try omega)

mutual
theorem dflt_length (be : Bool) : (t : Ty) → (off : Nat) → ((dflt t).marshal be off).length ≤ 16 * t.size
  | .basic b, off => by unfold dflt; exact dfltB_length be off b
  | .variant, off => by
    have h2 := padding_lt (off + (Ty.basic .uint16).size + 2) (a := 2) (by decide)
    simp [dflt, Val.marshal, pad, enNum_length, Ty.size, Ty.text, Ty.bytes] at h2 ⊢
    omega
  | .array t, off => by
    have h4 := padding_lt off (a := 4) (by decide)
    have h8 := padding_lt (off + padding off 4 + 4) (a := 2 ^ t.dvarAlign) (Nat.pow_pos (by decide))
    have := align_le t
    simp [dflt, Val.marshal, Val.marshals, pad, enNum_length, Ty.size, Ty.text]
    omega
  | .maybe _, off => by
    have h2 := padding_lt off (a := 2) (by decide)
    simp [dflt, Val.marshal, pad, enNum_length, Ty.size, Ty.text]
    omega
  | .struct ts, off => by
    have h8 := padding_lt off (a := 8) (by decide)
    have := dflts_length be ts (off + padding off 8)
    have hs : (Ty.struct ts).size = codes ts + 2 := by
      simp [Ty.size, Ty.text, texts_codes ts]
    unfold dflt Val.marshal
    simp only [pad, List.length_append, List.length_replicate]
    omega
  | .dict k v, off => by
    have h8 := padding_lt off (a := 8) (by decide)
    have h1 := dfltB_length be (off + padding off 8) k
    have h2 := dflt_length be v (off + padding off 8 + ((dfltB k).marshal be (off + padding off 8)).length)
    have hs : (Ty.dict k v).size = v.size + 3 := by
      simp [Ty.size, Ty.text]
    unfold dflt Val.marshal
    simp only [pad, List.length_append, List.length_replicate]
    omega
theorem dflts_length (be : Bool) : (ts : List Ty) → (off : Nat) → (Val.marshals be off (dflts ts)).length ≤ 16 * codes ts
  | [], _ => by simp [dflts, Val.marshals]
  | t :: ts, off => by
    have h1 := dflt_length be t off
    have h2 := dflts_length be ts (off + ((dflt t).marshal be off).length)
    simp [dflts, Val.marshals, codes]
    omega
theorem texts_codes : (ts : List Ty) → (Ty.texts ts).length = codes ts
  | [] => rfl
  | t :: ts => by simp [Ty.texts, codes, texts_codes ts, Ty.size]
end

/-! ## Open containers -/

/-- As many values as there should be, and the rest can be written. -/
def Fine (p : Part) : Prop :=
  match p.kind with
  | .root => False
  | .array t => Callable t ∧ p.todo = []
  | .variant _ => p.vals.length + p.todo.length = 1 ∧ Callables p.todo
  | .dict => p.vals.length + p.todo.length = 2 ∧ Callables p.todo
  | .struct => Callables p.todo

def Sound : List Part → Prop
  | [] => False
  | [p] => p.kind = .root ∧ Callables p.todo
  | p :: q :: ps => Fine p ∧ Sound (q :: ps)

theorem Callables.tail : {ts : List Ty} → Callables ts → Callables ts.tail
  | [], h => h
  | _ :: _, h => by unfold Callables at h; exact h.2

theorem Fine.add {p : Part} (h : Fine p) {u : Ty} (hn : p.next = some u) (v : Val) : Fine (p.add v) := by
  obtain ⟨k, vals, tys, todo⟩ := p
  cases k with
  | root => exact h
  | array t => exact h
  | struct => exact Callables.tail h
  | variant t =>
    cases todo with
    | nil => cases hn
    | cons t ts =>
      simp only [Fine, Part.add, List.length_append, List.length_cons, List.length_nil, List.tail_cons] at h ⊢
      exact ⟨by omega, Callables.tail h.2⟩
  | dict =>
    cases todo with
    | nil => cases hn
    | cons t ts =>
      simp only [Fine, Part.add, List.length_append, List.length_cons, List.length_nil, List.tail_cons] at h ⊢
      exact ⟨by omega, Callables.tail h.2⟩

theorem Sound.add : {p : Part} → {ps : List Part} → Sound (p :: ps) → {u : Ty} → p.next = some u → (v : Val) → Sound (p.add v :: ps)
  | ⟨k, vals, tys, todo⟩, [], h, _, _, v => by
    obtain ⟨h1, h2⟩ := h
    simp only at h1
    subst h1
    exact ⟨rfl, Callables.tail h2⟩
  | _, _ :: _, h, _, hn, v => ⟨h.1.add hn v, h.2⟩

/-- The type of the next value. -/
theorem Sound.next : {p : Part} → {ps : List Part} → Sound (p :: ps) → {u : Ty} → p.next = some u → Callable u := by
  have key : ∀ (ts : List Ty) (u : Ty), Callables ts → ts.head? = some u → Callable u := by
    intro ts u h hh
    cases ts with
    | nil => cases hh
    | cons t ts =>
      simp only [List.head?_cons, Option.some.injEq] at hh
      subst hh
      unfold Callables at h
      exact h.1
  intro p ps h u hn
  obtain ⟨k, vals, tys, todo⟩ := p
  cases ps with
  | nil =>
    obtain ⟨h1, h2⟩ := h
    simp only at h1
    subst h1
    exact key _ _ h2 hn
  | cons q ps =>
    obtain ⟨h, _⟩ := h
    cases k with
    | root => exact h.elim
    | array t =>
      simp only [Part.next, Option.some.injEq] at hn
      subst hn
      exact h.1
    | struct => exact key _ _ h hn
    | variant t => exact key _ _ h.2 hn
    | dict => exact key _ _ h.2 hn

/-- What a container has to wait for: its outer container still counts it. -/
def Awaits : List Part → Prop
  | [] => True
  | [_] => True
  | _ :: q :: ps => (∃ u, q.next = some u) ∧ Awaits (q :: ps)

theorem Awaits.swap {p p' : Part} : {ps : List Part} → Awaits (p :: ps) → Awaits (p' :: ps)
  | [], _ => trivial
  | _ :: _, h => h

theorem effect_sound {op : Op} {u : Ty} {p : Part} {ps qs : List Part} (hs : Sound (p :: ps)) (ha : Awaits (p :: ps))
    (hn : p.next = some u) (hp : Plain op) (hsu : op.suits u = true) (h : Effect op u (p :: ps) qs) : Sound qs ∧ Awaits qs := by
  have hu := hs.next hn
  cases h with
  | u16 => exact ⟨hs.add hn _, ha.swap⟩
  | u32 => exact ⟨hs.add hn _, ha.swap⟩
  | u64 => exact ⟨hs.add hn _, ha.swap⟩
  | string => exact ⟨hs.add hn _, ha.swap⟩
  | object => exact ⟨hs.add hn _, ha.swap⟩
  | signature => exact ⟨hs.add hn _, ha.swap⟩
  | variant s t _ _ hv =>
    refine ⟨⟨⟨rfl, ?_⟩, hs⟩, ⟨_, hn⟩, ha⟩
    unfold Callables Callables
    exact ⟨hp t hv, trivial⟩
  | array t => exact ⟨⟨⟨by unfold Callable at hu; exact hu, rfl⟩, hs⟩, ⟨_, hn⟩, ha⟩
  | struct ts => exact ⟨⟨by unfold Callable at hu; exact hu, hs⟩, ⟨_, hn⟩, ha⟩
  | dict k v =>
    refine ⟨⟨⟨rfl, ?_⟩, hs⟩, ⟨_, hn⟩, ha⟩
    unfold Callable at hu
    unfold Callables Callables Callables
    exact ⟨by unfold Callable; exact hu.1, hu.2, trivial⟩

variable {R : Nat → Prop} {be : Bool} {pre : Pat}

theorem does_sound {a b : St} {op : Op} {o : Out} (hp : Plain op) (hs : Sound a.parts) (ha : Awaits a.parts)
    (h : Does R be pre a op o b) : Sound b.parts ∧ Awaits b.parts := by
  cases h with
  | value _ p ps c _ u qs hn hsu _ he => exact effect_sound hs ha hn hp hsu he
  | close _ p q ps c v =>
    obtain ⟨u, hn⟩ := ha.1
    exact ⟨hs.2.add hn v, ha.2.swap⟩
  | subCommitted _ p ps c s ops outs u q v hn => exact ⟨hs.add hn v, ha.swap⟩
  | commit => exact ⟨hs, ha⟩
  | _ => exact ⟨hs, ha⟩

theorem doesAll_sound : ∀ {ops : List Op} {a b : St} {outs : List Out}, (∀ op ∈ ops, Plain op) → Sound a.parts → Awaits a.parts →
    DoesAll R be pre a ops outs b → Sound b.parts ∧ Awaits b.parts
  | [], _, _, _, _, hs, ha, h => by cases h; exact ⟨hs, ha⟩
  | op :: ops, _, _, _, hp, hs, ha, h => by
    cases h with
    | cons _ _ b' _ _ _ out outs' h1 h2 =>
      obtain ⟨hs', ha'⟩ := does_sound (hp op (by simp)) hs ha h1
      exact doesAll_sound (fun o ho => hp o (by simp [ho])) hs' ha' h2

/-! ## Completing -/

/-- The rest of a container. -/
def rest (p : Part) : List Val := match p.kind with
  | .array _ => []
  | _ => dflts p.todo

def filled (p : Part) : Part := (rest p).foldl Part.add p

theorem todo_callable {p : Part} {ps : List Part} (h : Sound (p :: ps)) : Callables p.todo := by
  cases ps with
  | nil => exact h.2
  | cons q ps =>
    obtain ⟨h, _⟩ := h
    obtain ⟨k, vals, tys, todo⟩ := p
    cases k with
    | root => exact h.elim
    | array t => rw [h.2]; unfold Callables; trivial
    | struct => exact h
    | variant t => exact h.2
    | dict => exact h.2

theorem dflts_len : ∀ ts : List Ty, (dflts ts).length = ts.length
  | [] => by simp [dflts]
  | t :: ts => by simp [dflts, dflts_len ts]

theorem fill {p : Part} {ps : List Part} (h : Sound (p :: ps)) : Accepts p (rest p)
    ∧ filled p = (match p.kind with
      | .array _ => p
      | k => ⟨k, p.vals ++ dflts p.todo, p.tys ++ p.todo, []⟩) := by
  have hc := dflts_all _ (Callables.inhabited _ (todo_callable h))
  obtain ⟨k, vals, tys, todo⟩ := p
  cases k with
  | array t => exact ⟨trivial, rfl⟩
  | root => exact accepts_list (by simp) _ _ _ _ hc
  | struct => exact accepts_list (by simp) _ _ _ _ hc
  | variant t => exact accepts_list (by simp) _ _ _ _ hc
  | dict => exact accepts_list (by simp) _ _ _ _ hc

theorem rest_length (be : Bool) (off : Nat) (p : Part) : (Val.marshals be off (rest p)).length ≤ 16 * codes p.todo := by
  unfold rest
  split
  · simp [Val.marshals]
  · exact dflts_length be _ off

theorem rest_fit (be : Bool) (off : Nat) (p : Part) : Val.fit be off (rest p) := by
  unfold rest
  split
  · unfold Val.fit; trivial
  · exact dflts_fit be _ off

theorem rest_short (p : Part) : Val.shorts (rest p) := by
  unfold rest
  split
  · unfold Val.shorts; trivial
  · exact dflts_short _

theorem fold_length (be : Bool) (pre : Pat) (ps : List Part) : ∀ (vs : List Val) (p : Part),
    (Part.bytes be pre (vs.foldl Part.add p :: ps)).length
      = (Part.bytes be pre (p :: ps)).length + (Val.marshals be (Part.bytes be pre (p :: ps)).length vs).length
  | [], p => by simp [Val.marshals]
  | v :: vs, p => by
    rw [List.foldl_cons, fold_length be pre ps vs, add_length]
    simp [Val.marshals, Nat.add_assoc]

/-- A container that is full has a value, which takes the same space. -/
theorem full_value (be : Bool) {p q : Part} {ps : List Part} (h : Sound (p :: q :: ps)) : (filled p).closes = true ∧ ∃ v, (filled p).value = some v
    ∧ ∀ off, off + (v.marshal be off).length = (filled p).start off + ((filled p).body be off).length := by
  obtain ⟨_, hf⟩ := fill h
  obtain ⟨h, _⟩ := h
  rw [hf]
  obtain ⟨k, vals, tys, todo⟩ := p
  cases k with
  | root => exact h.elim
  | array t =>
    refine ⟨rfl, _, rfl, fun off => ?_⟩
    simp [Part.start, Part.body, Val.marshal, pad, enNum_length, firstElement]
    omega
  | struct =>
    refine ⟨rfl, _, rfl, fun off => ?_⟩
    simp [Part.start, Part.body, Val.marshal, pad]
    omega
  | variant t =>
    have hl : (vals ++ dflts todo).length = 1 := by
      simp only [Fine] at h
      rw [List.length_append, dflts_len]; exact h.1
    simp only
    generalize vals ++ dflts todo = xs at hl
    match xs, hl with
    | [v], _ =>
      refine ⟨rfl, _, rfl, fun off => ?_⟩
      simp [Part.start, Part.body, Val.marshal, Val.marshals, enNum_length, bytes_length]
      omega
  | dict =>
    have hl : (vals ++ dflts todo).length = 2 := by
      simp only [Fine] at h
      rw [List.length_append, dflts_len]; exact h.1
    simp only
    generalize vals ++ dflts todo = xs at hl
    match xs, hl with
    | [k, v], _ =>
      refine ⟨rfl, _, rfl, fun off => ?_⟩
      simp [Part.start, Part.body, Val.marshal, Val.marshals, pad]
      omega

theorem start_ge (p : Part) (off : Nat) : off ≤ p.start off := by
  unfold Part.start
  split <;> first | omega | (unfold firstElement; omega)

theorem codes_tail : ∀ ts : List Ty, codes ts.tail ≤ codes ts
  | [] => Nat.le_refl _
  | t :: ts => by simp [codes]

theorem add_codes (q : Part) (v : Val) : codes (q.add v).todo ≤ codes q.todo := by
  obtain ⟨k, vals, tys, todo⟩ := q
  cases k <;> first | exact Nat.le_refl _ | exact codes_tail todo

theorem closeAll_congr {p p' : Part} (hk : p.kind = p'.kind) (hv : p.vals = p'.vals) (ps : List Part) (xss : List (List Val)) :
    closeAll (p :: ps) xss = closeAll (p' :: ps) xss := by
  have hval : ∀ xs, Part.value { p with vals := p.vals ++ xs } = Part.value { p' with vals := p'.vals ++ xs } := by
    intro xs
    unfold Part.value
    simp only [hk, hv]
  cases ps with
  | nil =>
    match xss with
    | [] => rfl
    | [xs] => simp only [closeAll, hv]
    | _ :: _ :: _ => rfl
  | cons q ps =>
    cases xss with
    | nil => rfl
    | cons xs xss => simp only [closeAll, hval]

theorem add_shape (q : Part) (v : Val) : (q.add v).kind = q.kind ∧ (q.add v).vals = q.vals ++ [v] := by
  obtain ⟨k, vals, tys, todo⟩ := q
  cases k <;> exact ⟨rfl, rfl⟩

theorem filled_shape {p : Part} {ps : List Part} (h : Sound (p :: ps)) : (filled p).kind = p.kind ∧ (filled p).vals = p.vals ++ rest p := by
  rw [(fill h).2]
  obtain ⟨k, vals, tys, todo⟩ := p
  cases k <;> simp [rest]

theorem filled_value {p : Part} {ps : List Part} (h : Sound (p :: ps)) : Part.value { p with vals := p.vals ++ rest p } = (filled p).value := by
  obtain ⟨h1, h2⟩ := filled_shape h
  unfold Part.value
  simp only [h1, h2]

/-- There are calls that complete everything. -/
theorem finish (N : Nat) (hN : ∀ n, n ≤ N → ¬ R n) (h32 : N < 2 ^ 32) (c : Bool) : ∀ (ps : List Part) (p : Part), Sound (p :: ps) → Awaits (p :: ps) →
    (Part.bytes be pre (p :: ps)).length + 16 * missing (p :: ps) ≤ N →
    ∃ ops, Op.sanes ops ∧ ∀ outs b, DoesAll R be pre ⟨p :: ps, c⟩ (ops ++ [.commit]) outs b → Out.goods outs
      ∧ ∃ q, b = ⟨[q], true⟩ ∧ ∀ v, q.vals = [v] → ∃ mores, closeAll (p :: ps) mores = some v
  | [], p, hs, ha, hl => by
    obtain ⟨ops, ho⟩ := writesAll_exists (rest p) (rest_short p)
    refine ⟨ops, writesAll_sane ho, fun outs b hd => ?_⟩
    obtain ⟨o1, o2, m, rfl, hd1, hd2⟩ := doesAll_append hd
    have hr := rest_length be (Part.bytes be pre [p]).length p
    simp only [missing] at hl
    obtain ⟨g1, rfl⟩ := writesAll_ok R be ho N pre p [] c o1 m hN (fill hs).1 (rest_fit be _ p) (by omega) hd1
    obtain ⟨o, rfl, hd3⟩ := doesAll_one hd2
    have hfull : (filled p).full = true := by
      rw [(fill hs).2, hs.1]; rfl
    obtain ⟨rfl, rfl⟩ := does_commit hfull hd3
    refine ⟨goods_append g1 ⟨rfl, trivial⟩, filled p, rfl, fun v hv => ⟨[rest p], ?_⟩⟩
    rw [(filled_shape hs).2] at hv
    simp only [closeAll, hv]
  | q :: ps, p, hs, ha, hl => by
    obtain ⟨ops, ho⟩ := writesAll_exists (rest p) (rest_short p)
    obtain ⟨hc, v, hv, hlen⟩ := full_value be hs
    obtain ⟨u, hn⟩ := ha.1
    have hr := rest_length be (Part.bytes be pre (p :: q :: ps)).length p
    have hf := fold_length be pre (q :: ps) (rest p) p
    have hb := bytes_cons_length be pre (filled p) (q :: ps)
    have hv' := hlen (Part.bytes be pre (q :: ps)).length
    have hst := start_ge (filled p) (Part.bytes be pre (q :: ps)).length
    have hadd := add_length be pre q ps v
    have hcod := add_codes q v
    simp only [missing] at hl
    change (Part.bytes be pre (filled p :: q :: ps)).length = _ at hf
    obtain ⟨more, hm, hfin⟩ := finish N hN h32 c ps (q.add v) (hs.2.add hn v) ha.2.swap (by
      simp only [missing]; omega)
    refine ⟨ops ++ (.close :: more), sanes_append (writesAll_sane ho) ⟨trivial, hm⟩, fun outs b hd => ?_⟩
    rw [List.append_assoc] at hd
    obtain ⟨o1, o2, m, rfl, hd1, hd2⟩ := doesAll_append hd
    obtain ⟨g1, rfl⟩ := writesAll_ok R be ho N pre p (q :: ps) c o1 m hN (fill hs).1 (rest_fit be _ p) (by omega) hd1
    cases hd2 with
    | cons _ _ m _ _ _ out outs' hd3 hd4 =>
      obtain ⟨rfl, rfl⟩ := does_close (p := filled p) (v := v) hc (by
        intro hlong
        unfold Part.tooLong at hlong
        split at hlong
        · omega
        · exact hlong) hv (hN _ (by omega)) hd3
      obtain ⟨hg, r, rfl, hr⟩ := hfin _ _ hd4
      refine ⟨goods_append g1 ⟨rfl, hg⟩, r, rfl, fun x hx => ?_⟩
      obtain ⟨mores, hmo⟩ := hr x hx
      refine ⟨rest p :: mores, ?_⟩
      simp only [closeAll, filled_value hs, hv]
      rw [← hmo]
      exact closeAll_congr (p := { q with vals := q.vals ++ [v] }) (add_shape q v).1.symm (add_shape q v).2.symm ps mores

theorem doesAll_len : ∀ {ops : List Op} {a b : St} {outs : List Out}, DoesAll R be pre a ops outs b → ops.length = outs.length
  | [], _, _, _, h => by cases h; rfl
  | op :: ops, _, _, _, h => by
    cases h with
    | cons _ _ b' _ _ _ out outs' h1 h2 => simp [doesAll_len h2]

theorem commit_sane : Op.sanes [.commit] := by simp [Op.sanes, Op.sane]

theorem goods_right : ∀ {x y : List Out}, Out.goods (x ++ y) → Out.goods y
  | [], _, h => h
  | _ :: _, _, h => goods_right h.2

/-! ## Dead ends -/

theorem all_last : ∀ {vs : List Val} {ts : List Ty} {v : Val} {u : Ty}, Val.all vs ts → Val.all (vs ++ [v]) (ts ++ [u]) → v.has u
  | [], [], _, _, _, h => by
    simp only [List.nil_append] at h
    unfold Val.all at h
    exact h.1
  | [], _ :: _, _, _, h, _ => by unfold Val.all at h; exact h.elim
  | _ :: _, [], _, _, h, _ => by unfold Val.all at h; exact h.elim
  | _ :: vs, _ :: ts, _, _, h, h' => by
    simp only [List.cons_append] at h'
    unfold Val.all at h h'
    exact all_last h.2 h'.2

variable {ps qs : List Part} {t t' : Ty} {cu cu' : Cursor} {L L' : Level} {S S' : List (Element × Level × Option Cursor)}

theorem track_typed {p : Part} (h : Track be pre (p :: ps) t cu L S) : (∃ u, p.kind = .array u ∧ p.todo = [])
    ∨ ((∀ u, p.kind ≠ .array u) ∧ Val.all p.vals p.tys) := by
  cases h with
  | array => exact .inl ⟨_, rfl, rfl⟩
  | root _ _ ha => exact .inr ⟨by simp, ha⟩
  | variant _ _ _ _ ha => exact .inr ⟨by simp, ha⟩
  | struct _ _ ha => exact .inr ⟨by simp, ha⟩
  | dict _ _ _ ha => exact .inr ⟨by simp, ha⟩

/-- Something is needed which cannot be written. -/
def Stuck (ps : List Part) : Prop := ∃ p ∈ ps, ∃ u ∈ p.todo, ¬ Inhabited u

theorem stuck_add {p : Part} {v : Val} (h : Track be pre (p :: ps) t cu L S) (h' : Track be pre (p.add v :: ps) t' cu' L' S')
    (hs : Stuck (p :: ps)) : Stuck (p.add v :: ps) := by
  obtain ⟨q, hq, u, hu, hn⟩ := hs
  rcases List.mem_cons.mp hq with rfl | hq
  · obtain ⟨k, vals, tys, todo⟩ := q
    rcases track_typed h with ⟨_, _, hnil⟩ | ⟨hk, ha⟩
    · simp only at hnil
      rw [hnil] at hu; cases hu
    · cases todo with
      | nil => cases hu
      | cons x xs =>
        have hadd : Part.add ⟨k, vals, tys, x :: xs⟩ v = ⟨k, vals ++ [v], tys ++ [x], xs⟩ := by
          cases k <;> first | rfl | exact absurd rfl (hk _)
        rw [hadd] at h' ⊢
        rcases track_typed h' with ⟨y, hy, _⟩ | ⟨_, ha'⟩
        · exact absurd hy (hk y)
        · rcases List.mem_cons.mp hu with rfl | hu
          · exact absurd (has_inhabited v _ (all_last ha ha')) hn
          · exact ⟨_, List.mem_cons_self, u, hu, hn⟩
  · exact ⟨q, List.mem_cons_of_mem _ hq, u, hu, hn⟩

theorem stuck_open {p : Part} (hs : Stuck ps) : Stuck (p :: ps) := by
  obtain ⟨q, hq, h⟩ := hs
  exact ⟨q, List.mem_cons_of_mem _ hq, h⟩

theorem track_tail {p q : Part} (h : Track be pre (p :: q :: ps) t cu L S) : ∃ t' cu' L' S', Track be pre (q :: ps) t' cu' L' S' := by
  cases h with
  | array h => exact ⟨_, _, _, _, h⟩
  | variant h => exact ⟨_, _, _, _, h⟩
  | struct h => exact ⟨_, _, _, _, h⟩
  | dict h => exact ⟨_, _, _, _, h⟩

theorem stuck_step {a b : St} {op : Op} {o : Out} (h : Track be pre a.parts t cu L S) (h' : Track be pre b.parts t' cu' L' S')
    (hd : Does R be pre a op o b) (hs : Stuck a.parts) : Stuck b.parts ∧ ¬ (op = .commit ∧ o = .res .ok) := by
  cases hd with
  | value _ p ps c _ u qs hn hsu _ he =>
    refine ⟨?_, by rintro ⟨rfl, _⟩; cases u <;> simp [Op.suits] at hsu⟩
    cases he with
    | u16 => exact stuck_add h h' hs
    | u32 => exact stuck_add h h' hs
    | u64 => exact stuck_add h h' hs
    | string => exact stuck_add h h' hs
    | object => exact stuck_add h h' hs
    | signature => exact stuck_add h h' hs
    | variant => exact stuck_open hs
    | array => exact stuck_open hs
    | struct => exact stuck_open hs
    | dict => exact stuck_open hs
  | close _ p q ps c v hc =>
    refine ⟨?_, by simp⟩
    obtain ⟨_, _, _, _, hq⟩ := track_tail h
    refine stuck_add hq h' ?_
    obtain ⟨r, hr, u, hu, hn⟩ := hs
    rcases List.mem_cons.mp hr with rfl | hr
    · rcases track_typed h with ⟨_, _, hnil⟩ | ⟨hk, _⟩
      · rw [hnil] at hu; cases hu
      · obtain ⟨k, vals, tys, todo⟩ := r
        cases k <;> first
          | (cases hc; done)
          | exact absurd rfl (hk _)
          | (simp [Part.closes, Part.full] at hc; subst hc; cases hu)
    · exact ⟨r, hr, u, hu, hn⟩
  | subCommitted => exact ⟨stuck_add h h' hs, by simp⟩
  | commit _ p c hf =>
    exfalso
    obtain ⟨_, tys, todo, vals, rfl, _⟩ := h.single
    obtain ⟨r, hr, u, hu, hn⟩ := hs
    cases List.mem_singleton.mp hr
    simp [Part.full] at hf
    subst hf
    cases hu
  | pending => exact ⟨hs, by simp⟩
  | mismatch => exact ⟨hs, by simp⟩
  | long => exact ⟨hs, by simp⟩
  | valueIo _ p ps c _ u qs r hn hsu => exact ⟨hs, by rintro ⟨rfl, _⟩; cases u <;> simp [Op.suits] at hsu⟩
  | closeMismatch => exact ⟨hs, by simp⟩
  | closeLong => exact ⟨hs, by simp⟩
  | closeIo => exact ⟨hs, by simp⟩
  | subMismatch => exact ⟨hs, by simp⟩
  | subDropped => exact ⟨hs, by simp⟩

theorem stuck_runs {σ : Type} {I : WriteImpl σ} (hE : Exact I) {st : σ} {link : Option (Option Nat)} : ∀ (ops : List Op) {a : St} {e e' : Enc}
    {w w' : Writer σ} {outs : List Out}, Op.sanes ops → Sim I be pre t st link a e w → Stuck a.parts →
    Op.runs I ops e w = some (e', w', outs) → ¬ ∃ i : Nat, ops[i]? = some .commit ∧ outs[i]? = some (.res .ok)
  | [], _, _, _, _, _, _, _, _, _, _ => by simp
  | op :: ops, a, e, e', w, w', outs, ho, hsim, hs, hr => by
    obtain ⟨e₁, w₁, o, b, hr₁, hd, hb⟩ := run_sim hE op ho.1 hsim
    obtain ⟨_, h1⟩ := hsim.inv.track
    obtain ⟨_, h2⟩ := hb.inv.track
    obtain ⟨hs', hne⟩ := stuck_step h1 h2 hd hs
    obtain ⟨e₂, w₂, os, b₂, hr₂, _⟩ := runs_sim hE ops ho.2 hb
    have hall : Op.runs I (op :: ops) e w = some (e₂, w₂, o :: os) := by
      simp only [Op.runs, hr₁, hr₂]
    rw [hall] at hr
    simp only [Option.some.injEq, Prod.mk.injEq] at hr
    obtain ⟨rfl, rfl, rfl⟩ := hr
    rintro ⟨i, hi, hi'⟩
    cases i with
    | zero =>
      simp only [List.getElem?_cons_zero, Option.some.injEq] at hi hi'
      exact hne ⟨hi, hi'⟩
    | succ i =>
      simp only [List.getElem?_cons_succ] at hi hi'
      exact stuck_runs hE ops ho.2 hb hs' hr₂ ⟨i, hi, hi'⟩

end Verif.Dbus.Finish
