import Verif.Wrap.LemmasOwn
/-! # Property theorems: smart pointers converted to `OnceRef` and back (C69) -/
namespace Verif.Wrap
variable {V : Type}

/-- **C69** (a). Conversion to a `OnceRef` and back yields the same smart pointer, to the same object; counters do not
change. -/
theorem deref_roundtrip (objs : List (Obj V)) (h : Handle) :
    from_deref objs h.kind (into_deref h) = (use objs h).map fun _ => h := by
  rcases h with ⟨k, p⟩
  cases k <;> simp only [from_deref, into_deref, into_raw, from_raw] <;>
    first | rfl | (cases use objs ⟨_, p⟩ <;> rfl)

/-- **C69** (b). No history of creating, cloning, dropping, reading and converting that keeps to the safety requirement of
`from_deref` has undefined behaviour. -/
theorem own_no_ub {s : Prog V} (h : Reach s) (op : Op V) (hl : Legal s op) : s.step op ≠ .ub := by
  have hi := reach_inv h
  cases op with
  | new k v => simp [Prog.step]
  | clone h =>
    simp only [Prog.step]
    by_cases hc : h ∈ s.handles ∧ h.kind ≠ .excl ∧ h.kind ≠ .box
    · rw [if_pos hc]
      obtain ⟨x, hx, hk, hd⟩ := inv_handle hi hc.1
      simp only [cloneObj, use_some hx hk hd]
      cases h.kind <;> simp
    · rw [if_neg hc]; simp
  | drop h =>
    simp only [Prog.step]
    by_cases hm : h ∈ s.handles
    · rw [if_pos hm]
      obtain ⟨x, hx, hk, hd⟩ := inv_handle hi hm
      have : ∃ objs, dropObj s.objs h = some objs := by
        simp only [dropObj, use_some hx hk hd]
        cases h.kind
        · exact ⟨_, rfl⟩
        · exact ⟨_, rfl⟩
        · exact ⟨_, rfl⟩
        · by_cases e : x.strong = 1
          · exact ⟨_, if_pos e⟩
          · exact ⟨_, if_neg e⟩
        · by_cases e : x.strong = 1
          · exact ⟨_, if_pos e⟩
          · exact ⟨_, if_neg e⟩
      obtain ⟨objs, e⟩ := this
      rw [e]; simp
    · rw [if_neg hm]; simp
  | read h =>
    simp only [Prog.step]
    by_cases hm : h ∈ s.handles
    · rw [if_pos hm]
      obtain ⟨x, hx, hk, hd⟩ := inv_handle hi hm
      rw [read_some hx hd]; simp
    · rw [if_neg hm]; simp
  | into h =>
    simp only [Prog.step]
    by_cases hm : h ∈ s.handles
    · rw [if_pos hm]; simp
    · rw [if_neg hm]; simp
  | restore k o =>
    simp only [Prog.step]
    by_cases hm : o ∈ s.onces
    · rw [if_pos hm]
      obtain ⟨x, hx, hd⟩ := inv_once hi hm
      rw [from_deref_some hx (hl x hx) hd]; simp
    · rw [if_neg hm]; simp
  | readOnce o =>
    simp only [Prog.step]
    by_cases hm : o ∈ s.onces
    · rw [if_pos hm]
      obtain ⟨x, hx, hd⟩ := inv_once hi hm
      rw [read_some hx hd]; simp
    · rw [if_neg hm]; simp
  | forget o =>
    simp only [Prog.step]
    by_cases hm : o ∈ s.onces
    · rw [if_pos hm]; simp
    · rw [if_neg hm]; simp
  | intoRef o =>
    simp only [Prog.step]
    by_cases hm : o ∈ s.onces
    · rw [if_pos hm]
      obtain ⟨x, hx, hd⟩ := inv_once hi hm
      rw [read_some hx hd]; simp
    · rw [if_neg hm]; simp

/-- **C69** (c). An owned object is destroyed at most once, and it is destroyed exactly if no smart pointer and no
`OnceRef` to it is left and none was given up; borrowed ones are never destroyed. -/
theorem own_destroyed_once {s : Prog V} (h : Reach s) (p : Nat) (x : Obj V) (hx : s.objs[p]? = some x) :
    x.dropped ≤ 1 ∧
    (x.kind = .ref ∨ x.kind = .excl → x.dropped = 0) ∧
    (x.kind = .box ∨ x.kind = .rc ∨ x.kind = .arc →
      (x.dropped = 1 ↔ (∀ h ∈ s.handles, h.ptr ≠ p) ∧ (∀ o ∈ s.onces, o.ptr ≠ p) ∧ ∀ o ∈ s.lost, o.ptr ≠ p)) := by
  have hi := reach_inv h
  have hobj := hi.objs p x hx
  have zero : owners s x.kind p = 0 ↔
      (∀ h ∈ s.handles, h.ptr ≠ p) ∧ (∀ o ∈ s.onces, o.ptr ≠ p) ∧ ∀ o ∈ s.lost, o.ptr ≠ p := by
    constructor
    · intro hz
      unfold owners at hz
      have z1 : s.handles.count ⟨x.kind, p⟩ = 0 := by omega
      have z2 : s.onces.count ⟨p⟩ = 0 := by omega
      have z3 : s.lost.count ⟨p⟩ = 0 := by omega
      rw [List.count_eq_zero] at z1 z2 z3
      refine ⟨?_, ?_, ?_⟩
      · intro h hm e
        obtain ⟨y, hy, hk⟩ := hi.handles h hm
        rw [e, hx] at hy; cases hy
        apply z1
        rw [hk, ← e]; exact hm
      · intro o hm e; apply z2; rw [← e]; exact hm
      · intro o hm e; apply z3; rw [← e]; exact hm
    · rintro ⟨h1, h2, h3⟩
      unfold owners
      rw [List.count_eq_zero.mpr (fun hm => h1 _ hm rfl), List.count_eq_zero.mpr (fun hm => h2 _ hm rfl),
        List.count_eq_zero.mpr (fun hm => h3 _ hm rfl)]
  unfold ObjInv at hobj
  refine ⟨?_, ?_, ?_⟩
  · cases hk : x.kind <;> simp only [hk] at hobj
    · omega
    · omega
    · omega
    · rw [hobj.2]; split <;> omega
    · rw [hobj.2]; split <;> omega
  · rintro (hk | hk)
    · simp only [hk] at hobj; exact hobj
    · simp only [hk] at hobj; exact hobj
  · intro hk
    rw [← zero]
    rcases hk with hk | hk | hk <;> simp only [hk] at hobj ⊢
    · omega
    · rw [hobj.2]; by_cases e : owners s .rc p = 0
      · simp [e]
      · simp [e]
    · rw [hobj.2]; by_cases e : owners s .arc p = 0
      · simp [e]
      · simp [e]

/-- **C69** (d). Objects keep their place and value: a step only adds the object it creates; and what is read
through a smart pointer or a `OnceRef` is the value of the object it was made from, whatever conversions and drops came
between. -/
theorem own_values (s s' : Prog V) (op : Op V) (out : Option V) (h : s.step op = .ok s' out) :
    (values s' = values s ++ (match op with | .new _ v => [v] | _ => [])) ∧
    out = (match op with
      | .read h => (values s)[h.ptr]?
      | .readOnce o => (values s)[o.ptr]?
      | .intoRef o => (values s)[o.ptr]?
      | _ => none) := by
  cases op with
  | new k v =>
    simp only [Prog.step, Res.ok.injEq] at h
    obtain ⟨rfl, rfl⟩ := h
    simp [values]
  | clone g =>
    simp only [Prog.step] at h
    by_cases c : g ∈ s.handles ∧ g.kind ≠ .excl ∧ g.kind ≠ .box
    · rw [if_pos c] at h
      cases e : cloneObj s.objs g with
      | none => rw [e] at h; cases h
      | some objs =>
        rw [e] at h
        simp only [Res.ok.injEq] at h
        obtain ⟨rfl, rfl⟩ := h
        exact ⟨by simpa [values] using cloneObj_values e, rfl⟩
    · rw [if_neg c] at h; cases h
  | drop g =>
    simp only [Prog.step] at h
    by_cases c : g ∈ s.handles
    · rw [if_pos c] at h
      cases e : dropObj s.objs g with
      | none => rw [e] at h; cases h
      | some objs =>
        rw [e] at h
        simp only [Res.ok.injEq] at h
        obtain ⟨rfl, rfl⟩ := h
        exact ⟨by simpa [values] using dropObj_values e, rfl⟩
    · rw [if_neg c] at h; cases h
  | read g =>
    simp only [Prog.step] at h
    by_cases c : g ∈ s.handles
    · rw [if_pos c] at h
      cases e : Wrap.read s.objs g.ptr with
      | none => rw [e] at h; cases h
      | some v =>
        rw [e] at h
        simp only [Res.ok.injEq] at h
        obtain ⟨rfl, rfl⟩ := h
        exact ⟨by simp, (read_get e).symm⟩
    · rw [if_neg c] at h; cases h
  | into g =>
    simp only [Prog.step] at h
    by_cases c : g ∈ s.handles
    · rw [if_pos c] at h
      simp only [Res.ok.injEq] at h
      obtain ⟨rfl, rfl⟩ := h
      exact ⟨by simp [values], rfl⟩
    · rw [if_neg c] at h; cases h
  | restore k o =>
    simp only [Prog.step] at h
    by_cases c : o ∈ s.onces
    · rw [if_pos c] at h
      cases e : from_deref s.objs k o with
      | none => rw [e] at h; cases h
      | some g =>
        rw [e] at h
        simp only [Res.ok.injEq] at h
        obtain ⟨rfl, rfl⟩ := h
        exact ⟨by simp [values], rfl⟩
    · rw [if_neg c] at h; cases h
  | readOnce o =>
    simp only [Prog.step] at h
    by_cases c : o ∈ s.onces
    · rw [if_pos c] at h
      cases e : Wrap.read s.objs o.ptr with
      | none => rw [e] at h; cases h
      | some v =>
        rw [e] at h
        simp only [Res.ok.injEq] at h
        obtain ⟨rfl, rfl⟩ := h
        exact ⟨by simp, (read_get e).symm⟩
    · rw [if_neg c] at h; cases h
  | forget o =>
    simp only [Prog.step] at h
    by_cases c : o ∈ s.onces
    · rw [if_pos c] at h
      simp only [Res.ok.injEq] at h
      obtain ⟨rfl, rfl⟩ := h
      exact ⟨by simp [values], rfl⟩
    · rw [if_neg c] at h; cases h
  | intoRef o =>
    simp only [Prog.step] at h
    by_cases c : o ∈ s.onces
    · rw [if_pos c] at h
      cases e : Wrap.read s.objs o.ptr with
      | none => rw [e] at h; cases h
      | some v =>
        rw [e] at h
        simp only [Res.ok.injEq] at h
        obtain ⟨rfl, rfl⟩ := h
        exact ⟨by simp [values], (read_get e).symm⟩
    · rw [if_neg c] at h; cases h

/-- **C69** (e). The requirement is necessary: a `Box` restored as an `Rc` is undefined behaviour. -/
theorem own_wrong_kind :
    ∃ s : Prog Nat, Reach s ∧ (⟨0⟩ : OnceRef) ∈ s.onces ∧
      (∃ s', s.step (.restore .box ⟨0⟩) = .ok s' none) ∧ s.step (.restore .rc ⟨0⟩) = .ub := by
  refine ⟨⟨[⟨.box, 7, 1, 0⟩], [], [⟨0⟩], []⟩, ?_, by simp, ⟨_, rfl⟩, rfl⟩
  have h1 : Reach (⟨[⟨.box, 7, 1, 0⟩], [⟨.box, 0⟩], [], []⟩ : Prog Nat) :=
    .step (op := .new .box 7) (out := none) .start trivial rfl
  exact .step (op := .into ⟨.box, 0⟩) (out := none) h1 trivial rfl

/-! ## Non-vacuity -/

/-- A counted object: cloned, one of the two converted, the other dropped, the first restored and dropped. -/
def story : List (Op Nat) :=
  [.new .rc 5, .clone ⟨.rc, 0⟩, .into ⟨.rc, 0⟩, .drop ⟨.rc, 0⟩, .readOnce ⟨0⟩, .restore .rc ⟨0⟩, .drop ⟨.rc, 0⟩]

/-- All operations in order. -/
def runAll (s : Prog V) : List (Op V) → Option (Prog V)
  | [] => some s
  | op :: ops => match s.step op with
    | .ok s' _ => runAll s' ops
    | _ => none

-- It is alive until the last step, and then destroyed once.
example : (runAll ⟨[], [], [], []⟩ (story.take 6)).map (·.objs) = some [⟨.rc, 5, 1, 0⟩] ∧
    (runAll ⟨[], [], [], []⟩ story).map (·.objs) = some [⟨.rc, 5, 0, 1⟩] := by decide

-- A forgotten `OnceRef` keeps the object for good.
example : (runAll (⟨[], [], [], []⟩ : Prog Nat) [.new .box 5, .into ⟨.box, 0⟩, .forget ⟨0⟩]).map (·.objs)
    = some [⟨.box, 5, 1, 0⟩] := by decide

end Verif.Wrap
