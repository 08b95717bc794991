import Verif.Dbus.LemmasTree
/-! # The parser refines a parser on trees -/
namespace Verif.Dbus

theorem rd_mid {pre post : Buf} {n : Node} {i : Nat} (h : i = pre.length) :
    Buf.rd (pre ++ some n :: post) i = some n := by
  subst h; simp [Buf.rd]

theorem wr_mid {pre post : Buf} {n : Option Node} {m : Node} {i : Nat} (h : i = pre.length) :
    Buf.wr (pre ++ n :: post) i m = some (pre ++ some m :: post) := by
  subst h
  unfold Buf.wr
  rw [if_pos (by simp)]
  simp

/-- The buffer of an unfinished type. -/
def bufZ (k : Kind) (z : List Frame) : Buf := (nodesZ k z).map some

theorem bufZ_length (k : Kind) (z : List Frame) : (bufZ k z).length = zlen z := by simp [bufZ, nodesZ_length]

/-- The buffer of a complete type. -/
def bufT (k : Kind) (t : Ty) (o p : Nat) : Buf := some (headN k t o p) :: (tailN k t).map some

theorem bufT_length (k : Kind) (t : Ty) (o p : Nat) : (bufT k t o p).length = t.size := by
  simp [bufT]; exact tailN_length k t

theorem offOf_le (z : List Frame) : offOf z ≤ zlen z := by
  cases z with
  | nil => exact Nat.le_refl _
  | cons f z => simp [offOf, zlen]

theorem count_le_sizes (ts : List Ty) : ts.length ≤ sizes ts := by
  induction ts with
  | nil => simp
  | cons t ts ih => have := size_pos t; simp; omega

theorem posOf_le (z : List Frame) : posOf z ≤ zlen z := by
  cases z with
  | nil => exact Nat.le_refl _
  | cons f z =>
    cases f with
    | bound => simp [posOf, zlen, Frame.count]
    | unb d done => have := count_le_sizes done; simp [posOf, zlen, Frame.count, Frame.size]; omega

theorem goto_mid {z : List Frame} {pre post : Buf} {n : Node} (hp : pre.length = zlen z)
    (ho : n.offset = offOf z) : goto (pre ++ some n :: post) (zlen z) = some (upIdx z) := by
  unfold goto
  rw [rd_mid hp.symm]
  simp only [Option.bind_eq_bind, Option.bind_some, ho]
  cases z with
  | nil => simp [offOf, upIdx]
  | cons f z =>
    have := f.size_pos
    have e0 : offOf (f :: z) = f.size := rfl
    have e1 : strictSub (zlen (f :: z)) f.size = some (zlen z) := by
      have e : zlen (f :: z) = zlen z + f.size := rfl
      unfold strictSub
      rw [e, if_pos (by omega)]
      congr 1; omega
    rw [e0, if_neg (by omega), e1]
    simp only [Option.bind_some]
    rw [if_pos]
    · rfl
    · simp only [zlen] at hp
      simp; omega

theorem pair_of_core {n : Node} {k : Kind} {e : Element} (h : n.flags &&& CORE = mkF k e &&& CORE) :
    n.pair = some e.pair := by
  unfold Node.pair; rw [element_core h, mkF_element]; rfl

theorem open_of_core {n : Node} {k : Kind} {e : Element} (h : n.flags &&& CORE = mkF k e &&& CORE) :
    FlagSet.all n.flags FLAG_OPEN = FlagSet.all e.flags FLAG_OPEN := by
  rw [all_core h (by decide), mkF_all _ _ (by decide)]

theorem close_of_core {n : Node} {k : Kind} {e : Element} (h : n.flags &&& CORE = mkF k e &&& CORE) :
    FlagSet.all n.flags FLAG_CLOSE = FlagSet.all e.flags FLAG_CLOSE := by
  rw [all_core h (by decide), mkF_all _ _ (by decide)]

theorem frame_open (f : Frame) : FlagSet.all f.el.flags FLAG_OPEN = true := by
  cases f with
  | bound m => cases m <;> decide
  | unb d ts => cases d <;> (simp only [Frame.el]; decide)

theorem bufZ_cons (k : Kind) (f : Frame) (z : List Frame) :
    bufZ k (f :: z) = bufZ k z ++ some (f.node k (offOf z) (posOf z)) :: (f.kids k).map some := by
  simp [bufZ, nodesZ]

/-- What a complete type becomes. -/
def outcome (k : Kind) (junk : Buf) : Ty ⊕ List Frame → Buf × Option Nat × Nat
  | .inl t => (bufT k t 0 0 ++ junk, none, 1)
  | .inr z => (bufZ k z ++ junk, upIdx z, posOf z)

/-- The number of turns it takes to propagate a complete type: one for every bound container it completes, and one for the container
it is a member of then. -/
def turns : List Frame → Nat
  | [] => 0
  | .bound _ :: z => turns z + 1
  | .unb _ _ :: _ => 1

theorem turns_le (z : List Frame) : turns z ≤ z.length := by
  induction z with
  | nil => exact Nat.le_refl 0
  | cons f z ih => cases f <;> simp only [turns, List.length_cons] <;> omega

theorem climb_ok (k : Kind) (z : List Frame) : ∀ (t : Ty) (junk : Buf) (fuel : Nat), turns z ≤ fuel →
    zlen z + t.size ≤ k.lengthMax →
    climb k fuel (bufZ k z ++ (bufT k t (offOf z) (posOf z) ++ junk)) (zlen z) (upIdx z) (upIdx z) (posOf z + 1)
      = some (outcome k junk (complete z t)) := by
  induction z with
  | nil =>
    intro t junk fuel hf hb
    simp [bufZ, nodesZ, upIdx, climb, complete, outcome, offOf, posOf]
  | cons f z ih =>
    intro t junk fuel hf hb
    obtain ⟨fuel, rfl⟩ : ∃ n, fuel = n + 1 := ⟨fuel - 1, by cases f <;> simp only [turns] at hf <;> omega⟩
    have hmax := lengthMax_max k
    have hol := offOf_le z
    have hpl := posOf_le z
    simp only [zlen] at hb
    have htp := size_pos t
    -- reading both nodes
    have hsplit : bufZ k (f :: z) ++ (bufT k t (offOf (f :: z)) (posOf (f :: z)) ++ junk)
        = (bufZ k z ++ some (f.node k (offOf z) (posOf z)) :: (f.kids k).map some)
          ++ some (headN k t f.size f.count) :: ((tailN k t).map some ++ junk) := by
      rw [bufZ_cons]; simp [bufT, offOf, posOf]
    have hthis : Buf.rd (bufZ k (f :: z) ++ (bufT k t (offOf (f :: z)) (posOf (f :: z)) ++ junk)) (zlen (f :: z))
        = some (headN k t f.size f.count) := by
      rw [hsplit]; apply rd_mid; rw [← bufZ_cons, bufZ_length]
    have hsplit2 : bufZ k (f :: z) ++ (bufT k t (offOf (f :: z)) (posOf (f :: z)) ++ junk)
        = bufZ k z ++ some (f.node k (offOf z) (posOf z)) :: ((f.kids k).map some
          ++ some (headN k t f.size f.count) :: ((tailN k t).map some ++ junk)) := by
      rw [hsplit]; simp
    have hup : Buf.rd (bufZ k (f :: z) ++ (bufT k t (offOf (f :: z)) (posOf (f :: z)) ++ junk)) (zlen z)
        = some (f.node k (offOf z) (posOf z)) := by
      rw [hsplit2]; apply rd_mid; rw [bufZ_length]
    have habs : absorb k (f.node k (offOf z) (posOf z)) (headN k t f.size f.count)
        = some (absN (f.node k (offOf z) (posOf z)) (headN k t f.size f.count), liftN (headN k t f.size f.count)) := by
      apply absorb_ok
      · rw [Frame.node_offset]; omega
      · rw [Frame.node_position]; omega
      · rw [Frame.node_length, headN_length]; omega
    -- writing both nodes
    have hw1 : Buf.wr (bufZ k (f :: z) ++ (bufT k t (offOf (f :: z)) (posOf (f :: z)) ++ junk)) (zlen (f :: z))
        (liftN (headN k t f.size f.count))
        = some (bufZ k z ++ some (f.node k (offOf z) (posOf z)) :: ((f.kids k).map some
          ++ some (liftN (headN k t f.size f.count)) :: ((tailN k t).map some ++ junk))) := by
      rw [hsplit, wr_mid (by rw [← bufZ_cons, bufZ_length])]; simp
    have hw2 : ∀ (m : Node), Buf.wr (bufZ k z ++ some (f.node k (offOf z) (posOf z)) :: ((f.kids k).map some
          ++ some (liftN (headN k t f.size f.count)) :: ((tailN k t).map some ++ junk))) (zlen z) m
        = some (bufZ k z ++ some m :: ((f.kids k).map some
          ++ some (liftN (headN k t f.size f.count)) :: ((tailN k t).map some ++ junk))) := by
      intro m; rw [wr_mid (by rw [bufZ_length])]
    have hcore : (absN (f.node k (offOf z) (posOf z)) (headN k t f.size f.count)).flags &&& CORE
        = mkF k f.el &&& CORE := by
      simp only [absN, absF_core, Frame.node_core]
    have hopen : FlagSet.all (absN (f.node k (offOf z) (posOf z)) (headN k t f.size f.count)).flags FLAG_OPEN = true := by
      rw [open_of_core hcore, frame_open]
    have hpair : (absN (f.node k (offOf z) (posOf z)) (headN k t f.size f.count)).pair = some f.el.pair :=
      pair_of_core hcore
    have hun : climb k (fuel + 1) (bufZ k (f :: z) ++ (bufT k t (offOf (f :: z)) (posOf (f :: z)) ++ junk))
        (zlen (f :: z)) (upIdx (f :: z)) (upIdx (f :: z)) (posOf (f :: z) + 1)
      = climb k (fuel + 1) (bufZ k (f :: z) ++ (bufT k t (offOf (f :: z)) (posOf (f :: z)) ++ junk))
        (zlen (f :: z)) (some (zlen z)) (some (zlen z)) (posOf (f :: z) + 1) := rfl
    rw [hun]
    unfold climb
    simp only [hthis, hup, habs, hpair, hopen, Option.bind_eq_bind, Option.bind_some, Bool.true_and]
    cases f with
    | bound m =>
      have hp : (Frame.bound m).el.pair = none := by cases m <;> decide
      simp only [hp, Option.isNone_none, if_true, hw1, hw2, Option.bind_some]
      -- the container is complete
      have hb' : bufZ k z ++ some (absN ((Frame.bound m).node k (offOf z) (posOf z)) (headN k t (Frame.bound m).size (Frame.bound m).count))
            :: (((Frame.bound m).kids k).map some ++ some (liftN (headN k t (Frame.bound m).size (Frame.bound m).count))
              :: ((tailN k t).map some ++ junk))
          = bufZ k z ++ (bufT k (if m then .maybe t else .array t) (offOf z) (posOf z) ++ junk) := by
        cases m <;> simp [bufT, headN, tailN, Frame.node, Frame.kids, Frame.el, Frame.size, Frame.count]
      rw [hb']
      have hg : goto (bufZ k z ++ (bufT k (if m then .maybe t else .array t) (offOf z) (posOf z) ++ junk)) (zlen z)
          = some (upIdx z) := by
        rw [bufT, List.cons_append]; exact goto_mid (bufZ_length k z) (by simp)
      have hr : Buf.rd (bufZ k z ++ (bufT k (if m then .maybe t else .array t) (offOf z) (posOf z) ++ junk)) (zlen z)
          = some (headN k (if m then .maybe t else .array t) (offOf z) (posOf z)) := by
        rw [bufT, List.cons_append]; exact rd_mid (bufZ_length k z).symm
      simp only [hg, hr, Option.bind_some, headN_position]
      rw [strictAdd_ok k (by simp [Frame.size] at hb; omega)]
      simp only [Option.bind_some]
      rw [ih _ junk fuel (by simp only [turns] at hf; omega) (by cases m <;> simp [Frame.size] at hb ⊢ <;> omega)]
      cases m <;> simp [complete]
    | unb d done =>
      have hp : ∃ e, (Frame.unb d done).el.pair = some e := by
        cases d
        · exact ⟨.structClose, by simp only [Frame.el]; decide⟩
        · exact ⟨.dictClose, by simp only [Frame.el]; decide⟩
      obtain ⟨e, hp⟩ := hp
      simp only [hp, Option.isNone_some, Option.isSome_some, if_true, Bool.false_eq_true, if_false]
      rw [grow_ok k (Frame.node_sizes k _ _ _) (headN_sizes k t _ _) (by omega)]
      simp only [hw1, hw2, Option.bind_some]
      simp only [complete, outcome, Option.some.injEq, Prod.mk.injEq]
      refine ⟨?_, rfl, by simp [posOf, Frame.count]⟩
      rw [bufZ_cons]
      simp only [Frame.node, Frame.kids, Frame.size, Frame.count, foldN_snoc, kidsN_snoc, Frame.el,
        List.map_append, List.map_cons, List.append_assoc, List.cons_append, Nat.zero_add]
      cases d <;> rfl

/-! ## The parser on trees -/

/-- What an element does. -/
inductive Role
  | leaf (t : Ty)
  | opn (f : Frame)
  | cls (dict : Bool)

def role : Element → Role
  | .u8 => .leaf (.basic .byte) | .u16 => .leaf (.basic .uint16) | .i16 => .leaf (.basic .int16)
  | .u32 => .leaf (.basic .uint32) | .i32 => .leaf (.basic .int32) | .u64 => .leaf (.basic .uint64)
  | .i64 => .leaf (.basic .int64) | .f64 => .leaf (.basic .double) | .bool => .leaf (.basic .boolean)
  | .string => .leaf (.basic .string) | .object => .leaf (.basic .objectPath)
  | .signature => .leaf (.basic .signature) | .handle => .leaf (.basic .unixFd)
  | .variant => .leaf .variant
  | .array => .opn (.bound false) | .maybe => .opn (.bound true)
  | .structOpen => .opn (.unb false []) | .dictOpen => .opn (.unb true [])
  | .structClose => .cls false | .dictClose => .cls true

/-- Closing the innermost container at index `i`. -/
def aclose (i : Nat) (dict : Bool) : List Frame → Except SigError (Ty ⊕ List Frame)
  | [] => .error (.elementUnpaired i)
  | .bound _ :: z =>
    .error (.elementMispaired (i - offOf z) i (some (if dict then .dictOpen else .structOpen)))
  | .unb d done :: z =>
    if d ≠ dict then .error (.elementMispaired (i - offOf z) i (some (if dict then .dictOpen else .structOpen)))
    else if dict then
      match done with
      | [.basic b, v] => .ok (complete z (.dict b v))
      | _ => .error (.dictInvalid (zlen z))
    else .ok (complete z (.struct done))

/-- One element. -/
def astep (i : Nat) (z : List Frame) (e : Element) : Except SigError (Ty ⊕ List Frame) :=
  match role e with
  | .leaf t => .ok (complete z t)
  | .opn f => .ok (.inr (f :: z))
  | .cls d => aclose i d z

/-- All elements. -/
def aloop (total : Nat) : List UInt8 → Nat → List Frame → Except SigError Ty
  | [], _, [] => .error .signatureEmpty
  | [], _, _ :: z => .error (.signatureIncomplete (zlen z))
  | c :: rest, i, z =>
    if c.toNat ≥ 128 then .error (.elementInvalid i c) else
    match Element.fromCode c with
    | none => .error (.elementUnknown i c)
    | some e =>
      match astep i z e with
      | .error err => .error err
      | .ok (.inr z) => aloop total rest (i + 1) z
      | .ok (.inl t) => if i + 1 ≠ total then .error (.signatureSequence (i + 1)) else .ok t


/-! ## Closing elements -/

/-- Whether a type is basic. -/
def Ty.isBasic : Ty → Bool
  | .basic _ => true
  | _ => false

theorem basic_flag (t : Ty) : FlagSet.all t.el.flags FLAG_BASIC = t.isBasic := by
  cases t with
  | basic b => cases b <;> decide
  | _ => simp only [Ty.el, Ty.isBasic] <;> decide

theorem headN_basic (k : Kind) (t : Ty) (o p : Nat) :
    FlagSet.all (liftF (headN k t o p).flags) FLAG_BASIC = t.isBasic := by
  rw [all_core (liftF_core _) (by decide), all_core (headN_core k t o p) (by decide), mkF_all _ _ (by decide), basic_flag]

theorem addN_dict (k : Kind) (up : Node) (t : Ty) (o p : Nat) :
    (addN up (headN k t o p)).flags.getLsbD 20 = (up.flags.getLsbD 20 && (p != 0 || t.isBasic)) := by
  simp only [addN, absN, absF_dict, headN_basic, headN_position]
  cases up.flags.getLsbD 20 <;> cases t.isBasic <;> cases p <;> rfl

theorem foldN_dict_pos (k : Kind) (ts : List Ty) : ∀ (up : Node) (o p : Nat),
    (foldN k up ts o (p + 1)).flags.getLsbD 20 = up.flags.getLsbD 20 := by
  induction ts with
  | nil => intros; simp [foldN]
  | cons t ts ih =>
    intro up o p
    rw [foldN, ih, addN_dict]
    simp

/-- The dict flag of an open container. -/
theorem foldN_dict (k : Kind) (up : Node) (ts : List Ty) (o : Nat) (h : up.flags.getLsbD 20 = true) :
    (foldN k up ts o 0).flags.getLsbD 20 = (match ts with | [] => true | t :: _ => t.isBasic) := by
  cases ts with
  | nil => simpa [foldN] using h
  | cons t ts => rw [foldN, foldN_dict_pos, addN_dict, h]; simp

theorem dict_all (f : Flag) : FlagSet.all f FLAG_DICT = f.getLsbD 20 := all_bit f 20 (by decide)

theorem mk_dict (k : Kind) (d : Bool) (o p : Nat) (done : List Ty) :
    (mkN k (Frame.unb d done).el o p).flags.getLsbD 20 = true := by
  rw [← dict_all]
  simp only [mkN]
  rw [mkF_all _ _ (by decide)]
  cases d <;> (simp only [Frame.el]; decide)

/-- The closing element of a kind. -/
def clsEl (dict : Bool) : Element := if dict then .dictClose else .structClose
def opnEl (dict : Bool) : Element := if dict then .dictOpen else .structOpen

theorem cls_pair (d : Bool) : (clsEl d).pair = some (opnEl d) := by cases d <;> decide

theorem ne_id (d : Bool) (f : Frame) (h : f.el ≠ opnEl d) : (opnEl d).id ≠ f.el.id := by
  intro e
  apply h
  cases d <;> cases f with
  | bound m => cases m <;> simp_all [opnEl, Frame.el, Element.id]
  | unb d' ts => cases d' <;> simp_all [opnEl, Frame.el, Element.id]

theorem close_mismatch (k : Kind) (f : Frame) (z : List Frame) (d : Bool) (junk : Buf) (h : f.el ≠ opnEl d)
    (hb : zlen (f :: z) < k.lengthMax) :
    close k (bufZ k (f :: z) ++ some (mkN k (clsEl d) (offOf (f :: z)) (posOf (f :: z))) :: junk) (zlen (f :: z)) (zlen z)
      (posOf (f :: z) + 1)
      = .err (.elementMispaired (zlen (f :: z) - offOf z) (zlen (f :: z)) (some (opnEl d))) := by
  have hol := offOf_le z
  have hthis : Buf.rd (bufZ k (f :: z) ++ some (mkN k (clsEl d) (offOf (f :: z)) (posOf (f :: z))) :: junk) (zlen (f :: z))
      = some (mkN k (clsEl d) (offOf (f :: z)) (posOf (f :: z))) := rd_mid (bufZ_length k _).symm
  have hup : Buf.rd (bufZ k (f :: z) ++ some (mkN k (clsEl d) (offOf (f :: z)) (posOf (f :: z))) :: junk) (zlen z)
      = some (f.node k (offOf z) (posOf z)) := by
    rw [bufZ_cons, List.append_assoc, List.cons_append]; exact rd_mid (bufZ_length k _).symm
  have hpair : (mkN k (clsEl d) (offOf (f :: z)) (posOf (f :: z))).pair = some (some (opnEl d)) := by
    rw [pair_of_core (k := k) (e := clsEl d) rfl, cls_pair]
  have hel : FlagSet.element (f.node k (offOf z) (posOf z)).flags = some f.el := by
    rw [element_core (Frame.node_core k f _ _), mkF_element]
  have hel2 : FlagSet.element (mkN k (clsEl d) (offOf (f :: z)) (posOf (f :: z))).flags = some (clsEl d) := mkF_element ..
  unfold close
  simp only [hthis, hup, hpair, hel, hel2, Res.ofOption, Res.bind, Option.bind_some, id]
  rw [if_pos (ne_id d f h), Frame.node_offset]
  have hs : strictSub (zlen (f :: z)) (offOf z) = some (zlen (f :: z) - offOf z) := by
    unfold strictSub
    rw [if_pos (by simp only [zlen]; omega)]
  rw [hs]

/-- The type of a closed container, if it is valid. -/
def closed (d : Bool) (done : List Ty) : Option Ty :=
  if d then match done with
    | [.basic b, v] => some (.dict b v)
    | _ => none
  else some (.struct done)

theorem closed_dict (done : List Ty) :
    (closed true done).isSome = ((match done with | [] => true | t :: _ => t.isBasic) && done.length == 2) := by
  unfold closed
  match done with
  | [] => rfl
  | [t] => cases t <;> rfl
  | [t, u] => cases t <;> rfl
  | t :: u :: v :: ts => cases t <;> simp

theorem close_ok (k : Kind) (z : List Frame) (d : Bool) (done : List Ty) (junk : Buf)
    (hb : zlen (.unb d done :: z) < k.lengthMax) :
    close k (bufZ k (.unb d done :: z) ++ some (mkN k (clsEl d) (offOf (.unb d done :: z)) (posOf (.unb d done :: z))) :: junk)
      (zlen (.unb d done :: z)) (zlen z) (posOf (.unb d done :: z) + 1)
      = (match closed d done with
        | none => .err (.dictInvalid (zlen z))
        | some t => .ok (bufZ k z ++ (bufT k t (offOf z) (posOf z) ++ junk), zlen z, upIdx z, posOf z + 1)) := by
  have hol := offOf_le z
  have hpl := posOf_le z
  have hmax := lengthMax_max k
  have hthis : Buf.rd (bufZ k (.unb d done :: z) ++ some (mkN k (clsEl d) (offOf (.unb d done :: z)) (posOf (.unb d done :: z))) :: junk) (zlen (.unb d done :: z))
      = some (mkN k (clsEl d) (offOf (.unb d done :: z)) (posOf (.unb d done :: z))) := rd_mid (bufZ_length k _).symm
  have hup : Buf.rd (bufZ k (.unb d done :: z) ++ some (mkN k (clsEl d) (offOf (.unb d done :: z)) (posOf (.unb d done :: z))) :: junk) (zlen z)
      = some ((Frame.unb d done).node k (offOf z) (posOf z)) := by
    rw [bufZ_cons, List.append_assoc, List.cons_append]; exact rd_mid (bufZ_length k _).symm
  have hpair : (mkN k (clsEl d) (offOf (.unb d done :: z)) (posOf (.unb d done :: z))).pair = some (some (opnEl d)) := by
    rw [pair_of_core (k := k) (e := clsEl d) rfl, cls_pair]
  have hel : FlagSet.element ((Frame.unb d done).node k (offOf z) (posOf z)).flags = some (Frame.unb d done).el := by
    rw [element_core (Frame.node_core k _ _ _), mkF_element]
  have hel2 : FlagSet.element (mkN k (clsEl d) (offOf (.unb d done :: z)) (posOf (.unb d done :: z))).flags = some (clsEl d) := mkF_element ..
  have hee : (Frame.unb d done).el = opnEl d := by cases d <;> rfl
  unfold close
  simp only [hthis, hup, hpair, hel, hel2, Res.ofOption, Res.bind, Option.bind_some, id]
  rw [if_neg (by rw [hee]; simp)]
  -- the two updated nodes
  have hcl : (if clsEl d = .structClose ∧ posOf (.unb d done :: z) + 1 = 1 then
      { mkN k (clsEl d) (offOf (.unb d done :: z)) (posOf (.unb d done :: z)) with
        flags := FlagSet.set (mkN k (clsEl d) (offOf (.unb d done :: z)) (posOf (.unb d done :: z))).flags FLAG_DVAR_UNSUPPORTED }
      else mkN k (clsEl d) (offOf (.unb d done :: z)) (posOf (.unb d done :: z)))
      = closeN k d (1 + sizes done) done.length := by
    unfold closeN
    have h1 : (clsEl d = .structClose ∧ posOf (.unb d done :: z) + 1 = 1) ↔ (d = false ∧ done.length = 0) := by
      cases d <;> simp [clsEl, posOf, Frame.count]
    by_cases h : d = false ∧ done.length = 0
    · rw [if_pos (h1.mpr h)]; simp only []; rw [if_pos h]; rfl
    · rw [if_neg (fun x => h (h1.mp x))]; simp only []; rw [if_neg h]; rfl
  rw [hcl]
  have hpos : posOf (.unb d done :: z) = done.length := rfl
  have hn : (done.length + 1 != 3) = (done.length != 2) := by
    rw [Bool.eq_iff_iff]; simp
  have hsh : (if (FlagSet.all ((Frame.unb d done).node k (offOf z) (posOf z)).flags FLAG_DICT && (posOf (.unb d done :: z) + 1 != 3)) = true then
      { (Frame.unb d done).node k (offOf z) (posOf z) with
        flags := FlagSet.clear ((Frame.unb d done).node k (offOf z) (posOf z)).flags FLAG_DICT }
      else (Frame.unb d done).node k (offOf z) (posOf z))
      = { (Frame.unb d done).node k (offOf z) (posOf z) with
        flags := (shutN ((Frame.unb d done).node k (offOf z) (posOf z)) done.length).flags } := by
    rw [hpos, hn]
    simp only [shutN]
    split <;> rfl
  rw [hsh]
  have hoff : (closeN k d (1 + sizes done) done.length).offset = 1 + sizes done := by
    unfold closeN; simp only []; split <;> rfl
  have hlen1 : (closeN k d (1 + sizes done) done.length).length = 1 := by
    unfold closeN; simp only []; split <;> rfl
  have hs : strictSub (zlen (.unb d done :: z)) (1 + sizes done) = some (zlen z) := by
    unfold strictSub
    rw [if_pos (by simp only [zlen, Frame.size]; omega)]
    simp [zlen, Frame.size]
  rw [hoff, hs]
  simp only []
  -- the dict flag
  have hbit : FlagSet.all (shutN ((Frame.unb d done).node k (offOf z) (posOf z)) done.length).flags FLAG_DICT
      = (closed true done).isSome := by
    have h0 : ((Frame.unb d done).node k (offOf z) (posOf z)).flags.getLsbD 20
        = (match done with | [] => true | t :: _ => t.isBasic) := foldN_dict k _ done 1 (mk_dict k d _ _ done)
    rw [closed_dict, ← h0, dict_all]
    simp only [shutN, dict_all]
    by_cases h2 : done.length = 2
    · simp [h2]
    · have h3 : (done.length != 2) = true := by simpa using h2
      have h4 : (done.length == 2) = false := by simpa using h2
      rw [h3, h4]
      simp only [Bool.and_true, Bool.and_false]
      split
      · rw [clear_bit _ _ _ (by decide) (by decide)]
        have : FLAG_DICT.getLsbD 20 = true := by decide
        rw [this]; simp
      · rename_i h5; simpa using h5
  rw [hbit]
  have hc : (clsEl d = .dictClose ∧ (closed true done).isSome = false) ↔ closed d done = none := by
    cases d
    · simp [clsEl, closed]
    · cases closed true done <;> simp [clsEl]
  cases hcd : closed d done with
  | none => rw [if_pos (hc.mpr hcd)]
  | some t =>
    rw [if_neg (by rw [hc, hcd]; simp)]
    simp only [Frame.node_length, hlen1]
    have hsz : (Frame.unb d done).size + 1 ≤ k.lengthMax := by simp only [zlen] at hb; omega
    rw [strictAdd_ok k (by omega), Option.bind_some, set_length_ok k]
    rotate_left
    · simp only [Frame.node_offset]; simp only [zlen] at hb; omega
    · simp only [Frame.node_position]; simp only [zlen] at hb; omega
    · exact hsz
    simp only []
    rw [wr_mid (bufZ_length k _).symm]
    simp only []
    have e1 : bufZ k (.unb d done :: z) ++ some (closeN k d (1 + sizes done) done.length) :: junk
        = bufZ k z ++ some ((Frame.unb d done).node k (offOf z) (posOf z)) ::
          (((Frame.unb d done).kids k).map some ++ some (closeN k d (1 + sizes done) done.length) :: junk) := by
      rw [bufZ_cons, List.append_assoc, List.cons_append]
    rw [e1, wr_mid (bufZ_length k _).symm]
    simp only []
    have e2 : ({ (Frame.unb d done).node k (offOf z) (posOf z) with
          flags := (shutN ((Frame.unb d done).node k (offOf z) (posOf z)) done.length).flags
          length := (Frame.unb d done).size + 1 } : Node)
        = shutN ((Frame.unb d done).node k (offOf z) (posOf z)) done.length := by
      simp only [shutN, Frame.node_length]
    have e3 : some (shutN ((Frame.unb d done).node k (offOf z) (posOf z)) done.length) ::
          (((Frame.unb d done).kids k).map some ++ some (closeN k d (1 + sizes done) done.length) :: junk)
        = bufT k t (offOf z) (posOf z) ++ junk := by
      cases d with
      | false =>
        simp only [closed, Bool.false_eq_true, if_false, Option.some.injEq] at hcd
        subst hcd
        simp [bufT, headN, tailN, Frame.node, Frame.kids, Frame.el]
      | true =>
        simp only [closed, if_true] at hcd
        split at hcd
        · rename_i b v
          simp only [Option.some.injEq] at hcd
          subst hcd
          simp only [bufT, headN_dict, tailN_dict, Frame.node, Frame.kids, Frame.el]
          simp
        · cases hcd
    have e4 : (⟨(shutN ((Frame.unb d done).node k (offOf z) (posOf z)) done.length).flags,
        ((Frame.unb d done).node k (offOf z) (posOf z)).offset, ((Frame.unb d done).node k (offOf z) (posOf z)).position,
        (Frame.unb d done).size + 1, ((Frame.unb d done).node k (offOf z) (posOf z)).dvarSize,
        ((Frame.unb d done).node k (offOf z) (posOf z)).gvarSize⟩ : Node)
        = shutN ((Frame.unb d done).node k (offOf z) (posOf z)) done.length := e2
    rw [e4, e3]
    have hg : goto (bufZ k z ++ (bufT k t (offOf z) (posOf z) ++ junk)) (zlen z) = some (upIdx z) := by
      rw [bufT, List.cons_append]; exact goto_mid (bufZ_length k z) (by simp)
    have hr : Buf.rd (bufZ k z ++ (bufT k t (offOf z) (posOf z) ++ junk)) (zlen z)
        = some (headN k t (offOf z) (posOf z)) := by
      rw [bufT, List.cons_append]; exact rd_mid (bufZ_length k z).symm
    rw [hg, hr]
    simp only [headN_position]
    rw [strictAdd_ok k (by simp only [zlen] at hb; omega)]


/-! ## The whole parser -/

/-- Sizes add up. -/
def osize : Ty ⊕ List Frame → Nat
  | .inl t => t.size
  | .inr z => zlen z

theorem complete_size (z : List Frame) : ∀ t, osize (complete z t) = zlen z + t.size := by
  induction z with
  | nil => intro t; simp [complete, osize, zlen]
  | cons f z ih =>
    intro t
    match f with
    | .bound false => simp [complete, ih, zlen, Frame.size]; omega
    | .bound true => simp [complete, ih, zlen, Frame.size]; omega
    | .unb d done => simp [complete, osize, zlen, Frame.size]; omega

theorem complete_ne_nil (z : List Frame) : ∀ t, complete z t ≠ .inr [] := by
  induction z with
  | nil => intro t; simp [complete]
  | cons f z ih =>
    intro t
    match f with
    | .bound false => exact ih _
    | .bound true => exact ih _
    | .unb d done => simp [complete]

/-- `aclose` by the type of the closed container. -/
theorem aclose_closed (i : Nat) (d : Bool) (done : List Ty) (z : List Frame) :
    aclose i d (.unb d done :: z) = (match closed d done with
      | none => .error (.dictInvalid (zlen z))
      | some t => .ok (complete z t)) := by
  cases d with
  | false => simp [aclose, closed]
  | true =>
    unfold aclose closed
    simp only [ne_eq, not_true, if_false, if_true]
    match done with
    | [] => rfl
    | [t] => cases t <;> rfl
    | [t, u] => cases t <;> rfl
    | t :: u :: v :: ts => cases t <;> rfl

theorem closed_size {d : Bool} {done : List Ty} {t : Ty} (h : closed d done = some t) : t.size = sizes done + 2 := by
  cases d with
  | false => simp [closed] at h; subst h; simp
  | true =>
    simp only [closed, if_true] at h
    split at h
    · simp only [Option.some.injEq] at h; subst h; simp; omega
    · cases h

/-- Outcome of the parser by the outcome of the parser on trees. -/
def toRes (k : Kind) (rest : Buf) : Except SigError Ty → Res Buf
  | .error e => .err e
  | .ok t => .ok (bufT k t 0 0 ++ rest)

theorem role_spec (e : Element) : (match role e with
    | .leaf t => e = t.el ∧ t.size = 1 ∧ tailN .node8 t = [] ∧ FlagSet.all e.flags FLAG_OPEN = false
      ∧ FlagSet.all e.flags FLAG_CLOSE = false
    | .opn f => e = f.el ∧ f.size = 1 ∧ f.count = 0 ∧ FlagSet.all e.flags FLAG_OPEN = true
    | .cls d => e = clsEl d ∧ FlagSet.all e.flags FLAG_OPEN = false ∧ FlagSet.all e.flags FLAG_CLOSE = true) := by
  cases e <;> simp [role, Ty.el, Basic.el, tailN, Frame.el, Frame.size, Frame.count, clsEl] <;> decide

theorem leaf_buf (k : Kind) {e : Element} {t : Ty} (h : role e = .leaf t) (o p : Nat) :
    bufT k t o p = [some (mkN k e o p)] := by
  cases e <;> simp [role] at h <;> subst h <;> rfl

theorem opn_buf (k : Kind) {e : Element} {f : Frame} (h : role e = .opn f) (z : List Frame) :
    bufZ k (f :: z) = bufZ k z ++ [some (mkN k e (offOf z) (posOf z))] := by
  rw [bufZ_cons]
  cases e <;> simp [role] at h <;> subst h <;> simp [Frame.node, Frame.kids, Frame.el, foldN, kidsN]

theorem offset_ok (z : List Frame) : offsetFrom (zlen z) (upIdx z) = some (offOf z) := by
  cases z with
  | nil => rfl
  | cons f z =>
    simp only [upIdx, offOf, offsetFrom]
    have e : zlen (f :: z) = zlen z + f.size := rfl
    unfold strictSub
    rw [e, if_pos (by omega)]
    congr 1; omega

theorem ofOption_some {α} (a : α) : Res.ofOption (some a) = .ok a := rfl
theorem bind_ok {α β} (a : α) (f : α → Res β) : Res.bind (.ok a) f = f a := rfl
theorem bind_err {α β} (e : SigError) (f : α → Res β) : Res.bind (.err e) f = .err e := rfl

theorem loop_ok (k : Kind) (total : Nat) (hT : total ≤ k.lengthMax) : ∀ (rest : List UInt8) (z : List Frame) (junk : Buf),
    zlen z + rest.length = total → rest.length ≤ junk.length → (rest = [] → z ≠ []) →
    parseLoop k total rest (zlen z) (bufZ k z ++ junk) (posOf z) (upIdx z)
      = toRes k (junk.drop rest.length) (aloop total rest (zlen z) z) := by
  intro rest
  induction rest with
  | nil =>
    intro z junk _ _ hz
    cases z with
    | nil => exact absurd rfl (hz rfl)
    | cons f z => simp [parseLoop, aloop, upIdx, Res.ofOption, Res.bind, toRes]
  | cons c rest ih =>
    intro z junk hlen hjunk _
    have hmax := lengthMax_max k
    have hol := offOf_le z
    have hpl := posOf_le z
    simp only [List.length_cons] at hlen hjunk
    obtain ⟨x, junk, rfl⟩ : ∃ x j, junk = x :: j := by
      cases junk with
      | nil => simp at hjunk
      | cons x j => exact ⟨x, j, rfl⟩
    simp only [List.length_cons] at hjunk
    unfold parseLoop aloop
    by_cases hasc : c.toNat ≥ 128
    · rw [if_pos hasc, if_pos hasc]; rfl
    rw [if_neg hasc, if_neg hasc]
    cases hcode : Element.fromCode c with
    | none => rfl
    | some e =>
      simp only []
      have hmod : zlen z % (k.max + 1) = zlen z := Nat.mod_eq_of_lt (by omega)
      rw [hmod, offset_ok]
      rw [ofOption_some, bind_ok, with_ok k e (by omega) (by omega), ofOption_some, bind_ok,
        wr_mid (bufZ_length k z).symm, ofOption_some, bind_ok, goto_mid (bufZ_length k z) rfl, ofOption_some, bind_ok,
        strictAdd_ok k (by omega), ofOption_some, bind_ok]
      have hO : FlagSet.all (mkN k e (offOf z) (posOf z)).flags FLAG_OPEN = FlagSet.all e.flags FLAG_OPEN :=
        open_of_core (k := k) rfl
      have hC : FlagSet.all (mkN k e (offOf z) (posOf z)).flags FLAG_CLOSE = FlagSet.all e.flags FLAG_CLOSE :=
        close_of_core (k := k) rfl
      rw [hO, hC]
      have hdrop : (x :: junk).drop (c :: rest).length = junk.drop rest.length := by simp
      rw [hdrop]
      -- the common end of leaf and closing elements
      have tail_ok : ∀ (z' : List Frame) (t : Ty), zlen z' + t.size = zlen z + 1 →
          Res.bind (Res.ofOption (climb k ((bufZ k z' ++ (bufT k t (offOf z') (posOf z') ++ junk)).length + 1)
              (bufZ k z' ++ (bufT k t (offOf z') (posOf z') ++ junk)) (zlen z') (upIdx z') (upIdx z') (posOf z' + 1)))
            (fun (b, oUpIdx, position) =>
              if oUpIdx.isNone = true then
                if zlen z + 1 ≠ total then .err (.signatureSequence (zlen z + 1)) else .ok b
              else parseLoop k total rest (zlen z + 1) b position oUpIdx)
          = toRes k (junk.drop rest.length) (match complete z' t with
            | .inr z => aloop total rest (zlen z) z
            | .inl t => if zlen z + 1 ≠ total then .error (.signatureSequence (zlen z + 1)) else .ok t) := by
        intro z' t hs
        have hzl := length_le_zlen z'
        have htl := turns_le z'
        rw [climb_ok k z' t junk _ (by simp [bufZ_length, bufT_length]; omega) (by omega)]
        have hcs := complete_size z' t
        cases hc : complete z' t with
        | inl t' =>
          simp only [ofOption_some, bind_ok, outcome, Option.isNone_none, if_true]
          by_cases h : zlen z + 1 = total
          · rw [if_neg (by simp [h]), if_neg (by simp [h])]
            have : rest = [] := List.eq_nil_of_length_eq_zero (by omega)
            subst this; rfl
          · rw [if_pos h, if_pos h]; rfl
        | inr z'' =>
          rw [hc] at hcs
          simp only [osize] at hcs
          have hne : z'' ≠ [] := fun h => complete_ne_nil z' t (by rw [hc, h])
          simp only [ofOption_some, bind_ok, outcome]
          have hsome : (upIdx z'').isNone = false := by cases z'' with
            | nil => exact absurd rfl hne
            | cons => rfl
          rw [hsome]
          simp only [Bool.false_eq_true, if_false]
          have : zlen z + 1 = zlen z'' := by omega
          rw [this]
          exact ih z'' junk (by omega) (by omega) (fun _ => hne)
      have hrole := role_spec e
      unfold astep
      cases hr : role e with
      | leaf t =>
        rw [hr] at hrole
        obtain ⟨_, hsz, _, ho, hc⟩ := hrole
        rw [ho, hc]
        simp only [Bool.false_eq_true, if_false, leave]
        have hb : bufZ k z ++ some (mkN k e (offOf z) (posOf z)) :: junk
            = bufZ k z ++ (bufT k t (offOf z) (posOf z) ++ junk) := by rw [leaf_buf k hr]; rfl
        rw [hb]
        have := tail_ok z t (by omega)
        have hcs := complete_size z t
        rw [bind_ok]
        refine Eq.trans this ?_
        · congr 1
          cases hc : complete z t with
          | inl t => rfl
          | inr z'' => simp only []; rw [hc] at hcs; simp only [osize] at hcs; rw [hcs, hsz]
      | opn f =>
        rw [hr] at hrole
        obtain ⟨_, hsz, hcnt, ho⟩ := hrole
        rw [ho]
        simp only [if_true]
        have hb : bufZ k z ++ some (mkN k e (offOf z) (posOf z)) :: junk = bufZ k (f :: z) ++ junk := by
          rw [opn_buf k hr]; simp
        have h1 : zlen (f :: z) = zlen z + 1 := by simp only [zlen, hsz]
        have h2 : posOf (f :: z) = 0 := hcnt
        have := ih (f :: z) junk (by omega) (by omega) (fun _ => by simp)
        rw [h1, h2] at this
        rw [hb]
        exact this
      | cls d =>
        rw [hr] at hrole
        obtain ⟨hel, ho, hc⟩ := hrole
        rw [ho, hc]
        simp only [Bool.false_eq_true, if_false, if_true, leave]
        subst hel
        cases z with
        | nil => rfl
        | cons f z =>
          simp only [upIdx]
          by_cases hm : f.el = opnEl d
          · -- matching
            obtain ⟨done, rfl⟩ : ∃ done, f = .unb d done := by
              match f, hm with
              | .bound m, hm => cases m <;> cases d <;> simp [Frame.el, opnEl] at hm
              | .unb d' done, hm => cases d' <;> cases d <;> simp [Frame.el, opnEl] at hm <;> exact ⟨done, rfl⟩
            rw [close_ok k z d done junk (by omega), aclose_closed]
            cases hcl : closed d done with
            | none => rfl
            | some t =>
              have hts := closed_size hcl
              have := tail_ok z t (by simp only [zlen, Frame.size]; omega)
              have hcs := complete_size z t
              simp only [bind_ok]
              refine Eq.trans this ?_
              · congr 1
                cases hc : complete z t with
                | inl t => rfl
                | inr z'' =>
                  simp only []; rw [hc] at hcs; simp only [osize] at hcs
                  have : zlen z'' = zlen (.unb d done :: z) + 1 := by simp only [zlen, Frame.size]; omega
                  rw [this]
          · rw [close_mismatch k f z d junk hm (by omega)]
            have : aclose (zlen (f :: z)) d (f :: z)
                = .error (.elementMispaired (zlen (f :: z) - offOf z) (zlen (f :: z)) (some (opnEl d))) := by
              match f, hm with
              | .bound m, _ => rfl
              | .unb d' done, hm =>
                have : d' ≠ d := by
                  intro h; subst h; exact hm (by cases d' <;> rfl)
                simp only [aclose, if_pos this]; rfl
            rw [this]
            rfl

/-- `parse` of a node type, for a buffer with enough nodes. -/
theorem parse_ok (k : Kind) (sig : List UInt8) (b : Buf) (hb : sig.length ≤ b.length) :
    k.parse b sig = (if sig.length > k.lengthMax then .err .dataExceeded
      else toRes k (b.drop sig.length) (aloop sig.length sig 0 [])) := by
  unfold Kind.parse
  split
  · rfl
  · rename_i h
    cases sig with
    | nil => simp [aloop, toRes]
    | cons c sig =>
      rw [if_neg (by simp)]
      exact loop_ok k _ (by omega) (c :: sig) [] b (by simp [zlen]) hb (by simp)

end Verif.Dbus
