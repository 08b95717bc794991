import Verif.Dbus.LemmasGrammar
import Verif.Dbus.SpecTree
/-! # Signatures representing a type -/
namespace Verif.Dbus

/-- A signature represents a type. The offset and position of the first node do not matter. -/
structure Rep (s : Sig) (t : Ty) : Prop where
  nodes : s.nodes.tail = tailN s.kind t
  ne : s.nodes ≠ []
  core : ∀ n, s.nodes.head? = some n → n.flags &&& CORE = mkF s.kind t.el &&& CORE ∧ n.length = t.size

/-- The signature of a type. -/
def ofTy (t : Ty) : Sig := ⟨kindFor t.size, headN (kindFor t.size) t 0 0 :: tailN (kindFor t.size) t⟩

theorem rep_ofTy (t : Ty) : Rep (ofTy t) t := by
  refine ⟨rfl, by simp [ofTy], ?_⟩
  intro n hn
  simp only [ofTy, List.head?_cons, Option.some.injEq] at hn
  subst hn
  exact ⟨headN_core _ _ _ _, headN_length _ _ _ _⟩

theorem assumeInit_some (ns : List Node) : Buf.assumeInit (ns.map some) = some ns := by
  induction ns with
  | nil => rfl
  | cons n ns ih => simp [Buf.assumeInit, ih]

theorem sizeFor_ok {n : Nat} (h : n ≤ Kind.node64.lengthMax) : sizeForLength n = some (n * (kindFor n).coeff) := by
  unfold sizeForLength kindFor
  split
  · rfl
  · have : n * Kind.node64.coeff < 2 ^ 64 := by
      have e : Kind.node64.lengthMax = 2 ^ 61 - 1 := by decide
      have e2 : Kind.node64.coeff = 6 := rfl
      rw [e2]; omega
    rw [if_pos this]

theorem kindFor_le {n : Nat} (h : n ≤ Kind.node64.lengthMax) : n ≤ (kindFor n).lengthMax := by
  unfold kindFor; split <;> assumption

theorem coeff_pos (k : Kind) : 0 < k.coeff := by cases k <;> decide

/-- `Sig::new` on all byte strings within the limit. -/
theorem new_eq (bs : List UInt8) (h : bs.length ≤ Kind.node64.lengthMax) :
    Sig.new bs = (match aloop bs.length bs 0 [] with
      | .ok t => .ok (ofTy t)
      | .error e => .err e) := by
  have hk := coeff_pos (kindFor bs.length)
  unfold Sig.new
  rw [sizeFor_ok h]
  simp only [Res.ofOption, Res.bind]
  unfold sigParse
  simp only [Nat.mul_mod_left, Nat.sub_zero, Nat.mul_div_cancel _ hk, Nat.lt_irrefl, if_false, gt_iff_lt]
  rw [parse_ok _ _ _ (by simp), if_neg (Nat.not_lt.mpr (kindFor_le h))]
  cases ha : aloop bs.length bs 0 [] with
  | error e => rfl
  | ok t =>
    have hb := (aloop_iff bs t).mp ha
    have hs : bs.length = t.size := by rw [hb, bytes_length]
    simp only [toRes, Res.bind]
    have : bufT (kindFor bs.length) t 0 0 ++ List.drop bs.length (List.replicate bs.length none)
      = (headN (kindFor t.size) t 0 0 :: tailN (kindFor t.size) t).map some := by simp [bufT, hs]
    rw [this, assumeInit_some]
    simp [ofTy, Res.ofOption, Res.bind, hs]

theorem new_bytes (t : Ty) (h : t.size ≤ Kind.node64.lengthMax) : Sig.new t.bytes = .ok (ofTy t) := by
  rw [new_eq _ (by rw [bytes_length]; exact h), aloop_complete]

theorem new_ok {bs : List UInt8} {s : Sig} (h : bs.length ≤ Kind.node64.lengthMax) (hn : Sig.new bs = .ok s) :
    ∃ t : Ty, bs = t.bytes ∧ s = ofTy t := by
  rw [new_eq _ h] at hn
  cases ha : aloop bs.length bs 0 [] with
  | error e => simp [ha] at hn
  | ok t =>
    simp only [ha, Res.ok.injEq] at hn
    exact ⟨t, (aloop_iff bs t).mp ha, hn.symm⟩

/-! ## Elements -/

mutual
/-- The elements of a type. -/
def Ty.els : Ty → List Element
  | .basic b => [b.el]
  | .variant => [.variant]
  | .array t => .array :: t.els
  | .maybe t => .maybe :: t.els
  | .struct ts => .structOpen :: (Ty.elss ts ++ [.structClose])
  | .dict b v => .dictOpen :: b.el :: (v.els ++ [.dictClose])
def Ty.elss : List Ty → List Element
  | [] => []
  | t :: ts => t.els ++ Ty.elss ts
end

mutual
theorem els_code : (t : Ty) → t.els.map Element.code = t.bytes
  | .basic b => by rw [bytes_basic]; rfl
  | .variant => by rw [bytes_variant]; rfl
  | .array t => by rw [bytes_array, ← els_code t]; rfl
  | .maybe t => by rw [bytes_maybe, ← els_code t]; rfl
  | .struct ts => by rw [bytes_struct, ← elss_code ts]; simp [Ty.els]
  | .dict b v => by rw [bytes_dict]; simp [Ty.els, els_code v, bytes_basic]
theorem elss_code : (ts : List Ty) → (Ty.elss ts).map Element.code = bytesOf ts
  | [] => by simp [Ty.elss]
  | t :: ts => by simp [Ty.elss, els_code t, elss_code ts]
end

theorem els_length (t : Ty) : t.els.length = t.size := by
  rw [← bytes_length, ← els_code, List.length_map]

theorem els_head (t : Ty) : t.els = t.el :: t.els.tail := by cases t <;> simp [Ty.els, Ty.el]

/-- The part of the flags fixed by the element. -/
def coreOf (k : Kind) (e : Element) : Flag := mkF k e &&& CORE

theorem closeN_core (k : Kind) (d : Bool) (o p : Nat) : (closeN k d o p).flags &&& CORE = coreOf k (clsEl d) := by
  unfold closeN coreOf clsEl
  simp only []
  split
  · simp only [mkN]; rw [set_and (by decide)]
  · rfl

mutual
theorem tailN_core (k : Kind) : (t : Ty) → (tailN k t).map (fun n => n.flags &&& CORE) = t.els.tail.map (coreOf k)
  | .basic _ => by simp [tailN, Ty.els]
  | .variant => by simp [tailN, Ty.els]
  | .array t => by
    have := tailN_core k t
    rw [tailN, List.map_cons, this]
    simp only [liftN, liftF_core, headN_core, Ty.els, List.tail_cons]
    rw [els_head t]; rfl
  | .maybe t => by
    have := tailN_core k t
    rw [tailN, List.map_cons, this]
    simp only [liftN, liftF_core, headN_core, Ty.els, List.tail_cons]
    rw [els_head t]; rfl
  | .struct ts => by
    have := kidsN_core k ts 1 0
    rw [tailN, List.map_append, this]
    simp [Ty.els, closeN_core, clsEl]
  | .dict b v => by
    have := tailN_core k v
    rw [tailN, List.cons_append, List.cons_append, List.map_cons, List.map_cons, List.map_append, this]
    simp only [liftN, liftF_core, headN_core, Ty.els, List.tail_cons, List.map_cons, List.map_nil, closeN_core, mkN]
    rw [els_head v]; simp [coreOf, clsEl]
theorem kidsN_core (k : Kind) : (ts : List Ty) → (o p : Nat) →
    (kidsN k ts o p).map (fun n => n.flags &&& CORE) = (Ty.elss ts).map (coreOf k)
  | [], _, _ => by simp [kidsN, Ty.elss]
  | t :: ts, o, p => by
    have h1 := tailN_core k t
    have h2 := kidsN_core k ts (o + t.size) (p + 1)
    rw [kidsN, List.cons_append, List.map_cons, List.map_append, h1, h2]
    simp only [liftN, liftF_core, headN_core, Ty.elss]
    rw [els_head t]; simp [coreOf]
end

namespace Rep

variable {s : Sig} {t : Ty}

theorem split (h : Rep s t) : ∃ n, s.nodes = n :: tailN s.kind t ∧ n.flags &&& CORE = mkF s.kind t.el &&& CORE
    ∧ n.length = t.size := by
  cases hn : s.nodes with
  | nil => exact absurd hn h.ne
  | cons n l =>
    have := h.nodes
    rw [hn, List.tail_cons] at this
    have hc := h.core n (by rw [hn]; rfl)
    exact ⟨n, by rw [this], hc⟩

theorem length (h : Rep s t) : s.nodes.length = t.size := by
  obtain ⟨n, hn, _⟩ := h.split
  rw [hn, List.length_cons, tailN_length]

theorem cores (h : Rep s t) : s.nodes.map (fun n => n.flags &&& CORE) = t.els.map (coreOf s.kind) := by
  obtain ⟨n, hn, hc, _⟩ := h.split
  rw [hn, List.map_cons, tailN_core, hc, els_head t]; rfl

theorem flags (h : Rep s t) : ∃ f, s.flags = some f ∧ f &&& CORE = mkF s.kind t.el &&& CORE := by
  obtain ⟨n, hn, hc, _⟩ := h.split
  exact ⟨n.flags, by simp [Sig.flags, hn], hc⟩

theorem node_at (h : Rep s t) (i : Nat) : s.node_at i = some s.nodes[i]? := by
  obtain ⟨f, hf, hc⟩ := h.flags
  unfold Sig.node_at
  rw [hf]
  simp only [Option.bind_eq_bind, Option.bind_some]
  rw [if_pos]
  rw [node_core hc, mkF_node]

theorem len (h : Rep s t) : s.len = some (s.kind.coeff * t.size) := by
  obtain ⟨f, hf, hc⟩ := h.flags
  unfold Sig.len Sig.words
  rw [hf]
  simp only [Option.bind_eq_bind, Option.bind_some, h.length]
  rw [node_core hc, mkF_node]
  cases s.kind <;> simp [Kind.id, Kind.coeff]

theorem size_le_len (h : Rep s t) : t.size ≤ s.kind.coeff * t.size := by
  have := coeff_pos s.kind
  exact Nat.le_mul_of_pos_left _ this

/-- The node at an index. -/
theorem node (h : Rep s t) {i : Nat} {e : Element} (he : t.els[i]? = some e) :
    ∃ n, s.nodes[i]? = some n ∧ n.flags &&& CORE = mkF s.kind e &&& CORE := by
  have := congrArg (fun l => l[i]?) h.cores
  simp only [List.getElem?_map, he, Option.map_some] at this
  cases hn : s.nodes[i]? with
  | none => simp [hn] at this
  | some n =>
    simp only [hn, Option.map_some, Option.some.injEq] at this
    exact ⟨n, rfl, this⟩

theorem element_at (h : Rep s t) (j i : Nat) : Cursor.element_at ⟨s, j⟩ i = some t.els[i]? := by
  unfold Cursor.element_at
  simp only [h.node_at, Option.bind_eq_bind, Option.bind_some]
  cases he : t.els[i]? with
  | none =>
    have : s.nodes[i]? = none := by
      rw [List.getElem?_eq_none_iff] at he ⊢; rw [h.length, ← els_length]; exact he
    rw [this]
  | some e =>
    obtain ⟨n, hn, hc⟩ := h.node he
    rw [hn]
    simp only []
    rw [element_core hc, mkF_element]; rfl

theorem collect (h : Rep s t) (fuel : Nat) : ∀ i, i ≤ t.size → t.size - i < fuel →
    Cursor.collect fuel ⟨s, i⟩ = some (t.els.drop i) := by
  have hsz := h.size_le_len
  induction fuel with
  | zero => intro i _ hf; omega
  | succ fuel ih =>
    intro i hi hf
    unfold Cursor.collect Cursor.next Cursor.element Cursor.move_next Cursor.idx_next
    simp only [h.element_at, h.len, Option.bind_eq_bind, Option.bind_some, Option.map_some]
    by_cases hlt : i < t.size
    · have hlt' : i < t.els.length := by rw [els_length]; exact hlt
      have hl : i < s.kind.coeff * t.size := by omega
      rw [if_pos hl, List.getElem?_eq_getElem hlt']
      simp only [Cursor.maybe_move]
      rw [ih (i + 1) hlt (by omega), List.drop_eq_getElem_cons hlt']
      rfl
    · have : i = t.size := by omega
      rw [List.getElem?_eq_none (by rw [els_length]; omega), List.drop_of_length_le (by rw [els_length]; omega)]

theorem new (h : Rep s t) : Cursor.new s = some ⟨s, 0⟩ := by
  unfold Cursor.new Cursor.with_
  rw [h.len]
  have := size_pos t; have := h.size_le_len
  simp only [Option.bind_eq_bind, Option.bind_some]
  rw [if_pos (by omega)]

theorem elements (h : Rep s t) : s.elements = some t.els := by
  unfold Sig.elements
  rw [h.new]
  simp only [Option.bind_eq_bind, Option.bind_some, h.length]
  rw [h.collect _ 0 (by omega) (by omega), List.drop_zero]

theorem text (h : Rep s t) : s.text = some t.bytes := by
  unfold Sig.text; rw [h.elements, Option.map_some, els_code]

end Rep

theorem code_inj {e f : Element} (h : e.code = f.code) : e = f := by
  have := fromCode_code e; rw [h, fromCode_code] at this; exact (Option.some.inj this).symm

theorem id_inj {e f : Element} (h : e.id = f.id) : e = f := by
  cases e <;> cases f <;> first | rfl | (simp [Element.id] at h)

theorem map_inj {α β : Type} (f : α → β) (hf : ∀ a b, f a = f b → a = b) : ∀ l m : List α, l.map f = m.map f → l = m := by
  intro l
  induction l with
  | nil => intro m h; cases m with
    | nil => rfl
    | cons => simp at h
  | cons a l ih => intro m h; cases m with
    | nil => simp at h
    | cons b m =>
      simp only [List.map_cons, List.cons.injEq] at h
      rw [hf _ _ h.1, ih _ h.2]

theorem els_inj {t u : Ty} (h : t.els = u.els) : t = u := by
  apply bytes_inj; rw [← els_code, ← els_code, h]

/-! ## Occurrences -/

theorem kids_split (k : Kind) (as : List Ty) (t : Ty) (bs : List Ty) : ∀ o p : Nat,
    kidsN k (as ++ t :: bs) o p = kidsN k as o p ++ (liftN (headN k t (o + sizes as) (p + as.length)) :: tailN k t
      ++ kidsN k bs (o + sizes as + t.size) (p + as.length + 1)) := by
  induction as with
  | nil => intro o p; simp [kidsN]
  | cons a as ih =>
    intro o p
    rw [List.cons_append, kidsN, ih, kidsN]
    simp only [sizes_cons, List.length_cons, List.append_assoc, List.cons_append, Nat.add_assoc, Nat.add_comm 1]

theorem child_nodes (k : Kind) {u w : Ty} {o p : Nat} (h : Child u o p w) :
    ∃ pre post, tailN k u = pre ++ (liftN (headN k w o p) :: tailN k w ++ post) ∧ pre.length + 1 = o := by
  cases h with
  | array t => exact ⟨[], [], by simp [tailN], rfl⟩
  | maybe t => exact ⟨[], [], by simp [tailN], rfl⟩
  | member as t bs =>
    refine ⟨kidsN k as 1 0, kidsN k bs (1 + sizes as + w.size) (0 + as.length + 1)
      ++ [closeN k false (1 + sizes (as ++ w :: bs)) (as ++ w :: bs).length], ?_, ?_⟩
    · rw [tailN, kids_split]
      simp only [List.append_assoc, List.cons_append, Nat.zero_add]; rfl
    · rw [kidsN_length]; simp [sizes]; omega
  | key b v => exact ⟨[], liftN (headN k v 2 1) :: tailN k v ++ [closeN k true (2 + v.size) 2], by simp [tailN, headN], rfl⟩
  | value b v => exact ⟨[liftN (mkN k b.el 1 0)], [closeN k true (2 + w.size) 2], by simp [tailN], rfl⟩

theorem child_els {u w : Ty} {o p : Nat} (h : Child u o p w) :
    ∃ pre post, u.els = pre ++ (w.els ++ post) ∧ pre.length = o := by
  cases h with
  | array t => exact ⟨[.array], [], by simp [Ty.els], rfl⟩
  | maybe t => exact ⟨[.maybe], [], by simp [Ty.els], rfl⟩
  | member as t bs =>
    have : ∀ as : List Ty, Ty.elss (as ++ w :: bs) = Ty.elss as ++ (w.els ++ Ty.elss bs) := by
      intro as; induction as with
      | nil => simp [Ty.elss]
      | cons a as ih => simp [Ty.elss, ih]
    refine ⟨.structOpen :: Ty.elss as, Ty.elss bs ++ [.structClose], by simp [Ty.els, this], ?_⟩
    have e : (Ty.elss as).length = sizes as := by
      rw [← bytesOf_length, ← elss_code, List.length_map]
    simp [e, sizes]; omega
  | key b v => exact ⟨[.dictOpen], v.els ++ [.dictClose], by simp [Ty.els], rfl⟩
  | value b v => exact ⟨[.dictOpen, b.el], [.dictClose], by simp [Ty.els], rfl⟩

/-- The nodes of an occurrence. -/
theorem occ_nodes {s : Sig} {t : Ty} (hr : Rep s t) {i : Nat} {u : Ty} (h : Occ t i u) :
    ∃ pre n post, s.nodes = pre ++ (n :: tailN s.kind u ++ post) ∧ pre.length = i
      ∧ n.flags &&& CORE = mkF s.kind u.el &&& CORE ∧ n.length = u.size := by
  induction h with
  | root =>
    obtain ⟨n, hn, hc, hl⟩ := hr.split
    exact ⟨[], n, [], by simp [hn], rfl, hc, hl⟩
  | @child u w i o p _ hc ih =>
    obtain ⟨pre, n, post, hn, hp, _, _⟩ := ih
    obtain ⟨pre', post', ht, hp'⟩ := child_nodes s.kind hc
    refine ⟨pre ++ n :: pre', liftN (headN s.kind w o p), post' ++ post, ?_, ?_, ?_, ?_⟩
    · rw [hn, ht]; simp
    · simp; omega
    · simp only [liftN, liftF_core, headN_core]
    · simp only [liftN, headN_length]

theorem occ_child_node {s : Sig} {t : Ty} (hr : Rep s t) {i o p : Nat} {u w : Ty} (h : Occ t i u) (hc : Child u o p w) :
    s.nodes[i + o]? = some (liftN (headN s.kind w o p)) := by
  obtain ⟨pre, n, post, hn, hp, _, _⟩ := occ_nodes hr h
  obtain ⟨pre', post', ht, hp'⟩ := child_nodes s.kind hc
  rw [hn, ht]
  have : pre ++ (n :: (pre' ++ (liftN (headN s.kind w o p) :: tailN s.kind w ++ post')) ++ post)
    = (pre ++ n :: pre') ++ (liftN (headN s.kind w o p) :: (tailN s.kind w ++ post' ++ post)) := by simp
  rw [this, List.getElem?_append_right (by simp; omega)]
  simp only [List.length_append, List.length_cons]
  rw [show i + o - (pre.length + (pre'.length + 1)) = 0 by omega]
  rfl

/-- The last node of a bracketed type. -/
theorem tail_close (k : Kind) {u : Ty} (h : u.bracketed = true) :
    ∃ pre d, tailN k u = pre ++ [closeN k d (u.size - 1) u.count] ∧ u.el = opnEl d ∧ pre.length + 2 = u.size := by
  cases u with
  | struct ts =>
    refine ⟨kidsN k ts 1 0, false, ?_, rfl, by simp [kidsN_length]⟩
    rw [tailN]; simp [Ty.count]; congr 1; omega
  | dict b v =>
    refine ⟨liftN (mkN k b.el 1 0) :: liftN (headN k v 2 1) :: tailN k v, true, ?_, rfl, ?_⟩
    · rw [tailN]; simp [Ty.count]; congr 1; omega
    · have := tailN_length k v; simp; omega
  | _ => simp [Ty.bracketed] at h

theorem occ_close_node {s : Sig} {t : Ty} (hr : Rep s t) {i : Nat} {u : Ty} (h : Occ t i u) (hb : u.bracketed = true) :
    ∃ d, s.nodes[i + (u.size - 1)]? = some (closeN s.kind d (u.size - 1) u.count) ∧ u.el = opnEl d := by
  obtain ⟨pre, n, post, hn, hp, _, _⟩ := occ_nodes hr h
  obtain ⟨pre', d, ht, hd, hl⟩ := tail_close s.kind hb
  refine ⟨d, ?_, hd⟩
  rw [hn, ht]
  have : pre ++ (n :: (pre' ++ [closeN s.kind d (u.size - 1) u.count]) ++ post)
    = (pre ++ n :: pre') ++ (closeN s.kind d (u.size - 1) u.count :: post) := by simp
  rw [this, List.getElem?_append_right (by simp; omega)]
  simp only [List.length_append, List.length_cons]
  rw [show i + (u.size - 1) - (pre.length + (pre'.length + 1)) = 0 by omega]
  rfl

theorem occ_els {t : Ty} {i : Nat} {u : Ty} (h : Occ t i u) :
    ∃ pre post, t.els = pre ++ (u.els ++ post) ∧ pre.length = i := by
  induction h with
  | root => exact ⟨[], [], by simp, rfl⟩
  | child _ hc ih =>
    obtain ⟨pre, post, e, hp⟩ := ih
    obtain ⟨pre', post', e', hp'⟩ := child_els hc
    exact ⟨pre ++ pre', post' ++ post, by rw [e, e']; simp, by simp [hp, hp']⟩

theorem occ_bound {t : Ty} {i : Nat} {u : Ty} (h : Occ t i u) : i + u.size ≤ t.size := by
  obtain ⟨pre, post, e, hp⟩ := occ_els h
  have := congrArg List.length e
  simp only [List.length_append, els_length] at this
  omega

theorem occ_el {t : Ty} {i : Nat} {u : Ty} (h : Occ t i u) : t.els[i]? = some u.el := by
  obtain ⟨pre, post, e, hp⟩ := occ_els h
  rw [e, els_head u, List.getElem?_append_right (by omega), hp, Nat.sub_self]
  rfl

/-- A sub-signature represents the sub-type. -/
theorem occ_at {s : Sig} {t : Ty} (hr : Rep s t) {i : Nat} {u : Ty} (h : Occ t i u) :
    ∃ s', s.at_ i = some (some s') ∧ s'.kind = s.kind ∧ Rep s' u := by
  obtain ⟨pre, n, post, hn, hp, hc, hl⟩ := occ_nodes hr h
  have hb := occ_bound h
  have h1 : s.nodes[i]? = some n := by
    rw [hn, List.getElem?_append_right (by omega), hp, Nat.sub_self]; rfl
  have hpre : FlagSet.all n.flags FLAG_PREFIX = true := by
    rw [all_core hc (by decide), mkF_all _ _ (by decide)]
    cases u with
    | basic b => cases b <;> decide
    | _ => simp only [Ty.el]; decide
  have h2 : (s.nodes.drop i).take n.length = n :: tailN s.kind u := by
    rw [hn, ← hp, List.drop_left, hl]
    rw [List.take_left' (by simp; exact tailN_length _ _)]
  refine ⟨{ s with nodes := n :: tailN s.kind u }, ?_, rfl, ⟨rfl, by simp, ?_⟩⟩
  · unfold Sig.at_
    rw [hr.node_at, h1]
    simp only [Option.bind_eq_bind, Option.bind_some, hpre, Bool.not_true, Bool.false_eq_true, if_false]
    rw [if_pos (by rw [hr.length, hl]; exact hb), h2]
  · intro m hm
    simp only [List.head?_cons, Option.some.injEq] at hm
    subst hm
    exact ⟨hc, hl⟩

end Verif.Dbus
