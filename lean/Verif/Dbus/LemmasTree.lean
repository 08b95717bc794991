import Verif.Dbus.Spec
import Verif.Dbus.LemmasFlag
/-! # The nodes of a type and of an unfinished type

`headN` and `tailN` are the nodes of a complete type. An unfinished type is a list of open containers (`Frame`),
innermost first, each with the members completed so far. -/
namespace Verif.Dbus

/-- The element of a basic type. -/
def Basic.el : Basic → Element
  | .byte => .u8 | .uint16 => .u16 | .int16 => .i16 | .uint32 => .u32 | .int32 => .i32 | .uint64 => .u64
  | .int64 => .i64 | .double => .f64 | .boolean => .bool | .string => .string | .objectPath => .object
  | .signature => .signature | .unixFd => .handle

/-- The first element of a type. -/
def Ty.el : Ty → Element
  | .basic b => b.el
  | .variant => .variant
  | .array _ => .array
  | .maybe _ => .maybe
  | .struct _ => .structOpen
  | .dict .. => .dictOpen

/-- Total size of several types. -/
def sizes (ts : List Ty) : Nat := (Ty.texts ts).length

@[simp] theorem size_basic (b : Basic) : (Ty.basic b).size = 1 := by simp [Ty.size, Ty.text]
@[simp] theorem size_variant : Ty.variant.size = 1 := by simp [Ty.size, Ty.text]
@[simp] theorem size_array (t : Ty) : (Ty.array t).size = t.size + 1 := by simp [Ty.size, Ty.text]
@[simp] theorem size_maybe (t : Ty) : (Ty.maybe t).size = t.size + 1 := by simp [Ty.size, Ty.text]
@[simp] theorem size_struct (ts : List Ty) : (Ty.struct ts).size = sizes ts + 2 := by simp [Ty.size, Ty.text, sizes]
@[simp] theorem size_dict (b : Basic) (v : Ty) : (Ty.dict b v).size = v.size + 3 := by simp [Ty.size, Ty.text]
@[simp] theorem sizes_nil : sizes [] = 0 := by simp [sizes, Ty.texts]
@[simp] theorem sizes_cons (t : Ty) (ts : List Ty) : sizes (t :: ts) = t.size + sizes ts := by
  simp [sizes, Ty.texts, Ty.size]
@[simp] theorem sizes_append (as bs : List Ty) : sizes (as ++ bs) = sizes as + sizes bs := by
  induction as with
  | nil => simp
  | cons a as ih => simp [ih]; omega

theorem size_pos (t : Ty) : 0 < t.size := by cases t <;> simp

/-- A fresh node. -/
def mkN (k : Kind) (e : Element) (o p : Nat) : Node := ⟨mkF k e, o, p, 1, e.dvarSize, e.gvarSize⟩

theorem with_ok (k : Kind) (e : Element) {o p : Nat} (ho : o ≤ k.lengthMax) (hp : p ≤ k.lengthMax) :
    Node.with k e o p = some (mkN k e o p) := by
  have h1 : 1 ≤ k.lengthMax := by cases k <;> decide
  unfold Node.with
  simp only [pack_ok k ho hp h1, set_node_ok, Option.bind_eq_bind, Option.bind_some]
  rfl

/-- A node inside a container. -/
def liftN (n : Node) : Node := { n with flags := liftF n.flags }

/-- A container with one more member (lengths and flags). -/
def absN (up this : Node) : Node :=
  { up with length := up.length + this.length, flags := absF up.flags (liftF this.flags) this.position }

/-- Rounding up. -/
def roundUp (v m : Nat) : Nat := if v % m = 0 then v else v + (m - v % m)

/-- An unbound container with one more member. -/
def addN (up this : Node) : Node :=
  { absN up this with
    dvarSize := roundUp up.dvarSize (2 ^ FlagSet.dvarExp this.flags) + this.dvarSize
    gvarSize := roundUp up.gvarSize (2 ^ FlagSet.gvarExp this.flags) + this.gvarSize }

/-- An unbound container with `n` members after its closing element. -/
def shutN (up : Node) (n : Nat) : Node :=
  { up with
    flags := if FlagSet.all up.flags FLAG_DICT && n != 2 then FlagSet.clear up.flags FLAG_DICT else up.flags
    length := up.length + 1 }

/-- The node of a closing element. -/
def closeN (k : Kind) (dict : Bool) (o p : Nat) : Node :=
  let n := mkN k (if dict then .dictClose else .structClose) o p
  if dict = false ∧ p = 0 then { n with flags := FlagSet.set n.flags FLAG_DVAR_UNSUPPORTED } else n

mutual
/-- The first node of a complete type. -/
def headN (k : Kind) : Ty → Nat → Nat → Node
  | .basic b, o, p => mkN k b.el o p
  | .variant, o, p => mkN k .variant o p
  | .array t, o, p => absN (mkN k .array o p) (headN k t 1 0)
  | .maybe t, o, p => absN (mkN k .maybe o p) (headN k t 1 0)
  | .struct ts, o, p => shutN (foldN k (mkN k .structOpen o p) ts 1 0) ts.length
  | .dict b v, o, p => shutN (addN (addN (mkN k .dictOpen o p) (mkN k b.el 1 0)) (headN k v 2 1)) 2
/-- The node of an unbound container after some members. -/
def foldN (k : Kind) : Node → List Ty → Nat → Nat → Node
  | up, [], _, _ => up
  | up, t :: ts, o, p => foldN k (addN up (headN k t o p)) ts (o + t.size) (p + 1)
end

mutual
/-- The other nodes of a complete type. -/
def tailN (k : Kind) : Ty → List Node
  | .basic _ => []
  | .variant => []
  | .array t => liftN (headN k t 1 0) :: tailN k t
  | .maybe t => liftN (headN k t 1 0) :: tailN k t
  | .struct ts => kidsN k ts 1 0 ++ [closeN k false (1 + sizes ts) ts.length]
  | .dict b v =>
    liftN (mkN k b.el 1 0) :: liftN (headN k v 2 1) :: tailN k v ++ [closeN k true (2 + v.size) 2]
/-- The nodes of the members of a container. -/
def kidsN (k : Kind) : List Ty → Nat → Nat → List Node
  | [], _, _ => []
  | t :: ts, o, p => liftN (headN k t o p) :: tailN k t ++ kidsN k ts (o + t.size) (p + 1)
end

theorem headN_dict (k : Kind) (b : Basic) (v : Ty) (o p : Nat) :
    headN k (.dict b v) o p = shutN (foldN k (mkN k .dictOpen o p) [.basic b, v] 1 0) 2 := by
  simp [headN, foldN]

theorem tailN_dict (k : Kind) (b : Basic) (v : Ty) :
    tailN k (.dict b v) = kidsN k [.basic b, v] 1 0 ++ [closeN k true (1 + sizes [.basic b, v]) 2] := by
  simp [tailN, kidsN, headN]
  congr 1; omega

theorem foldN_snoc (k : Kind) (ts : List Ty) (t : Ty) : ∀ (up : Node) (o p : Nat),
    foldN k up (ts ++ [t]) o p = addN (foldN k up ts o p) (headN k t (o + sizes ts) (p + ts.length)) := by
  induction ts with
  | nil => intro up o p; simp [foldN]
  | cons a ts ih =>
    intro up o p
    simp only [List.cons_append, foldN, ih, sizes_cons, List.length_cons]
    congr 2 <;> omega

theorem kidsN_snoc (k : Kind) (ts : List Ty) (t : Ty) : ∀ (o p : Nat),
    kidsN k (ts ++ [t]) o p = kidsN k ts o p ++ liftN (headN k t (o + sizes ts) (p + ts.length)) :: tailN k t := by
  induction ts with
  | nil => intro o p; simp [kidsN]
  | cons a ts ih =>
    intro o p
    simp only [List.cons_append, kidsN, ih, sizes_cons, List.length_cons, List.append_assoc]
    congr 6 <;> omega

mutual
theorem tailN_length (k : Kind) : (t : Ty) → (tailN k t).length + 1 = t.size
  | .basic _ => by simp [tailN]
  | .variant => by simp [tailN]
  | .array t => by have := tailN_length k t; simp [tailN]; omega
  | .maybe t => by have := tailN_length k t; simp [tailN]; omega
  | .struct ts => by have := kidsN_length k ts 1 0; simp [tailN]; omega
  | .dict b v => by have := tailN_length k v; simp [tailN]; omega
theorem kidsN_length (k : Kind) : (ts : List Ty) → (o p : Nat) → (kidsN k ts o p).length = sizes ts
  | [], _, _ => by simp [kidsN]
  | t :: ts, o, p => by
    have := tailN_length k t; have := kidsN_length k ts (o + t.size) (p + 1); simp [kidsN]; omega
end

@[simp] theorem foldN_offset (k : Kind) (ts : List Ty) : ∀ (up : Node) (o p : Nat),
    (foldN k up ts o p).offset = up.offset := by
  induction ts with
  | nil => intros; simp [foldN]
  | cons t ts ih => intros; simp [foldN, ih, addN, absN]

@[simp] theorem foldN_position (k : Kind) (ts : List Ty) : ∀ (up : Node) (o p : Nat),
    (foldN k up ts o p).position = up.position := by
  induction ts with
  | nil => intros; simp [foldN]
  | cons t ts ih => intros; simp [foldN, ih, addN, absN]

@[simp] theorem headN_offset (k : Kind) (t : Ty) (o p : Nat) : (headN k t o p).offset = o := by
  cases t <;> simp [headN, mkN, absN, shutN, addN]

@[simp] theorem headN_position (k : Kind) (t : Ty) (o p : Nat) : (headN k t o p).position = p := by
  cases t <;> simp [headN, mkN, absN, shutN, addN]

mutual
theorem headN_length (k : Kind) : (t : Ty) → (o p : Nat) → (headN k t o p).length = t.size
  | .basic _, _, _ => by simp [headN, mkN]
  | .variant, _, _ => by simp [headN, mkN]
  | .array t, _, _ => by have := headN_length k t 1 0; simp [headN, mkN, absN]; omega
  | .maybe t, _, _ => by have := headN_length k t 1 0; simp [headN, mkN, absN]; omega
  | .struct ts, o, p => by
    have := foldN_length k ts (mkN k .structOpen o p) 1 0
    have e : (mkN k .structOpen o p).length = 1 := rfl
    simp only [headN, shutN, this, e, size_struct]; omega
  | .dict b v, _, _ => by have := headN_length k v 2 1; simp [headN, mkN, absN, addN, shutN, this]; omega
theorem foldN_length (k : Kind) : (ts : List Ty) → (up : Node) → (o p : Nat) →
    (foldN k up ts o p).length = up.length + sizes ts
  | [], _, _, _ => by simp [foldN]
  | t :: ts, up, o, p => by
    have h1 := headN_length k t o p
    have h2 := foldN_length k ts (addN up (headN k t o p)) (o + t.size) (p + 1)
    have e : (addN up (headN k t o p)).length = up.length + t.size := by simp only [addN, absN, h1]
    simp only [foldN, h2, e, sizes_cons]; omega
end

theorem foldN_core (k : Kind) (ts : List Ty) : ∀ (up : Node) (o p : Nat),
    (foldN k up ts o p).flags &&& CORE = up.flags &&& CORE := by
  induction ts with
  | nil => intros; simp [foldN]
  | cons t ts ih => intros; simp [foldN, ih, addN, absN, absF_core]

theorem shutN_core (n : Node) (m : Nat) : (shutN n m).flags &&& CORE = n.flags &&& CORE := by
  simp only [shutN]; split
  · exact clear_and (by decide)
  · rfl

theorem headN_core (k : Kind) (t : Ty) (o p : Nat) : (headN k t o p).flags &&& CORE = mkF k t.el &&& CORE := by
  cases t with
  | basic b => simp [headN, mkN, Ty.el]
  | variant => simp [headN, mkN, Ty.el]
  | array t => simp [headN, mkN, absN, absF_core, Ty.el]
  | maybe t => simp [headN, mkN, absN, absF_core, Ty.el]
  | struct ts => rw [headN, shutN_core, foldN_core]; rfl
  | dict b v => rw [headN_dict, shutN_core, foldN_core]; rfl

/-- An open container. -/
inductive Frame
  | bound (maybe : Bool)
  | unb (dict : Bool) (done : List Ty)
deriving Repr

namespace Frame

/-- Number of nodes so far. -/
def size : Frame → Nat
  | .bound _ => 1
  | .unb _ done => 1 + sizes done

/-- Number of members so far. -/
def count : Frame → Nat
  | .bound _ => 0
  | .unb _ done => done.length

/-- The opening element. -/
def el : Frame → Element
  | .bound false => .array
  | .bound true => .maybe
  | .unb false _ => .structOpen
  | .unb true _ => .dictOpen

/-- Its own node. -/
def node (k : Kind) (f : Frame) (o p : Nat) : Node :=
  match f with
  | .bound _ => mkN k f.el o p
  | .unb _ done => foldN k (mkN k f.el o p) done 1 0

/-- The nodes of its members. -/
def kids (k : Kind) : Frame → List Node
  | .bound _ => []
  | .unb _ done => kidsN k done 1 0

theorem kids_length (k : Kind) (f : Frame) : (f.kids k).length + 1 = f.size := by
  cases f with
  | bound => simp [kids, size]
  | unb d done => simp [kids, size, kidsN_length]; omega

theorem size_pos (f : Frame) : 0 < f.size := by cases f <;> simp [size]; omega

@[simp] theorem node_offset (k : Kind) (f : Frame) (o p : Nat) : (f.node k o p).offset = o := by
  cases f <;> simp [node, mkN]
@[simp] theorem node_position (k : Kind) (f : Frame) (o p : Nat) : (f.node k o p).position = p := by
  cases f <;> simp [node, mkN]
theorem node_length (k : Kind) (f : Frame) (o p : Nat) : (f.node k o p).length = f.size := by
  cases f <;> simp [node, mkN, size, foldN_length]
theorem node_core (k : Kind) (f : Frame) (o p : Nat) : (f.node k o p).flags &&& CORE = mkF k f.el &&& CORE := by
  cases f with
  | bound => rfl
  | unb d done => simp only [node, foldN_core]; rfl
end Frame

/-- Nodes before the current position relative to the innermost container: the next offset. -/
def offOf : List Frame → Nat
  | [] => 0
  | f :: _ => f.size

/-- The next position. -/
def posOf : List Frame → Nat
  | [] => 0
  | f :: _ => f.count

/-- Number of nodes so far. -/
def zlen : List Frame → Nat
  | [] => 0
  | f :: z => zlen z + f.size

/-- Index of the innermost container. -/
def upIdx : List Frame → Option Nat
  | [] => none
  | _ :: z => some (zlen z)

/-- The nodes so far. -/
def nodesZ (k : Kind) : List Frame → List Node
  | [] => []
  | f :: z => nodesZ k z ++ f.node k (offOf z) (posOf z) :: f.kids k

theorem nodesZ_length (k : Kind) : (z : List Frame) → (nodesZ k z).length = zlen z
  | [] => rfl
  | f :: z => by
    have := nodesZ_length k z; have := f.kids_length k
    simp [nodesZ, zlen]; omega

theorem length_le_zlen : (z : List Frame) → z.length ≤ zlen z
  | [] => Nat.le_refl _
  | f :: z => by have := length_le_zlen z; have := f.size_pos; simp [zlen]; omega

/-- A complete type is handed to the innermost container: either the whole is complete, or there still are open
containers. -/
def complete : List Frame → Ty → Ty ⊕ List Frame
  | [], t => .inl t
  | .bound false :: z, t => complete z (.array t)
  | .bound true :: z, t => complete z (.maybe t)
  | .unb d done :: z, t => .inr (.unb d (done ++ [t]) :: z)

/-! ## Bounds -/

theorem roundUp_le {v m l : Nat} (hv : v ≤ 8 * l) (hm : m ∣ 8) (hp : 0 < m) : roundUp v m ≤ 8 * l := by
  obtain ⟨c, hc⟩ := hm
  unfold roundUp
  split
  · exact hv
  · have h1 := Nat.mod_add_div v m
    have h2 := Nat.mod_lt v hp
    -- v = m * q + r, so the next multiple is m * (q + 1)
    have : v + (m - v % m) = m * (v / m + 1) := by rw [Nat.mul_add]; omega
    rw [this]
    have h3 : 8 * l = m * (c * l) := by rw [hc, Nat.mul_assoc]
    rw [h3] at hv ⊢
    apply Nat.mul_le_mul_left
    have : m * (v / m) < m * (c * l) := by omega
    exact Nat.lt_of_mul_lt_mul_left this

theorem pow_dvd_8 {e : Nat} (h : e < 4) : 2 ^ e ∣ 8 := by
  have : e = 0 ∨ e = 1 ∨ e = 2 ∨ e = 3 := by omega
  rcases this with rfl | rfl | rfl | rfl <;> decide

theorem addN_sizes {up this : Node} {l m : Nat} (h1 : up.dvarSize ≤ 8 * l ∧ up.gvarSize ≤ 8 * l)
    (h2 : this.dvarSize ≤ 8 * m ∧ this.gvarSize ≤ 8 * m) :
    (addN up this).dvarSize ≤ 8 * (l + m) ∧ (addN up this).gvarSize ≤ 8 * (l + m) := by
  have a := roundUp_le h1.1 (pow_dvd_8 (dvarExp_lt this.flags)) (Nat.two_pow_pos _)
  have b := roundUp_le h1.2 (pow_dvd_8 (gvarExp_lt this.flags)) (Nat.two_pow_pos _)
  simp only [addN]; omega

theorem el_sizes (e : Element) : e.dvarSize ≤ 8 ∧ e.gvarSize ≤ 8 := by cases e <;> decide

mutual
theorem headN_sizes (k : Kind) : (t : Ty) → (o p : Nat) →
    (headN k t o p).dvarSize ≤ 8 * t.size ∧ (headN k t o p).gvarSize ≤ 8 * t.size
  | .basic b, _, _ => by have := el_sizes b.el; simpa [headN, mkN] using this
  | .variant, _, _ => by have := el_sizes .variant; simpa [headN, mkN] using this
  | .array t, _, _ => by have := el_sizes .array; simp [headN, mkN, absN]; omega
  | .maybe t, _, _ => by have := el_sizes .maybe; simp [headN, mkN, absN]; omega
  | .struct ts, o, p => by
    have := foldN_sizes k ts (mkN k .structOpen o p) 1 0 1 (el_sizes _)
    simp only [headN, shutN, size_struct]; omega
  | .dict b v, o, p => by
    have h1 := headN_sizes k v 2 1
    have h2 := addN_sizes (up := mkN k .dictOpen o p) (this := mkN k b.el 1 0) (l := 1) (m := 1) (el_sizes _) (el_sizes _)
    have h3 := addN_sizes h2 h1
    simp only [headN, shutN, size_dict]; omega
theorem foldN_sizes (k : Kind) : (ts : List Ty) → (up : Node) → (o p l : Nat) →
    (up.dvarSize ≤ 8 * l ∧ up.gvarSize ≤ 8 * l) →
    (foldN k up ts o p).dvarSize ≤ 8 * (l + sizes ts) ∧ (foldN k up ts o p).gvarSize ≤ 8 * (l + sizes ts)
  | [], _, _, _, _, h => by simpa [foldN] using h
  | t :: ts, up, o, p, l, h => by
    have h1 := headN_sizes k t o p
    have h2 := foldN_sizes k ts (addN up (headN k t o p)) (o + t.size) (p + 1) _ (addN_sizes h h1)
    simp only [foldN, sizes_cons]; omega
end

theorem Frame.node_sizes (k : Kind) (f : Frame) (o p : Nat) :
    (f.node k o p).dvarSize ≤ 8 * f.size ∧ (f.node k o p).gvarSize ≤ 8 * f.size := by
  cases f with
  | bound m => have := el_sizes (Frame.bound m).el; simpa [Frame.node, mkN, Frame.size] using this
  | unb d done => exact foldN_sizes k done _ 1 0 1 (el_sizes _)

theorem lengthMax_max (k : Kind) : 8 * k.lengthMax ≤ k.max := by cases k <;> decide

/-! ## The partial operations succeed within bounds -/

theorem set_length_ok (k : Kind) (n : Node) {v : Nat} (ho : n.offset ≤ k.lengthMax) (hp : n.position ≤ k.lengthMax)
    (hv : v ≤ k.lengthMax) : n.set_length k v = some { n with length := v } := by
  unfold Node.set_length
  simp only [pack_ok k ho hp hv, Option.bind_eq_bind, Option.bind_some]

theorem strictAdd_ok (k : Kind) {a b : Nat} (h : a + b ≤ k.max) : strictAdd k a b = some (a + b) := if_pos h

theorem absorb_ok (k : Kind) {up this : Node} (ho : up.offset ≤ k.lengthMax) (hp : up.position ≤ k.lengthMax)
    (hl : up.length + this.length ≤ k.lengthMax) : absorb k up this = some (absN up this, liftN this) := by
  have hm := lengthMax_max k
  unfold absorb
  rw [strictAdd_ok k (by omega)]
  simp only [Option.bind_eq_bind, Option.bind_some]
  rw [set_length_ok k up ho hp hl]
  simp only [Option.bind_some]
  have e1 : (if FlagSet.dvarExp this.flags ≥ 3 then FlagSet.clear this.flags FLAG_DVAR_MISALIGNED else this.flags)
    = liftF this.flags := rfl
  rw [e1]
  have e2 : (if FlagSet.dvarExp (liftF this.flags) > FlagSet.dvarExp up.flags then
    FlagSet.set up.flags FLAG_DVAR_MISALIGNED else up.flags) = absF1 up.flags (liftF this.flags) := rfl
  rw [e2, set_gvarExp_ok _ (gvarExp_lt _)]
  simp only [Option.bind_some]
  have e3 : absF up.flags (liftF this.flags) this.position
    = absF4 (absF3 (absF2 (absF1 up.flags (liftF this.flags)) (liftF this.flags)) (liftF this.flags))
      (liftF this.flags) this.position := rfl
  unfold absN
  rw [e3]
  unfold absF2
  by_cases h : FlagSet.gvarExp (liftF this.flags) > FlagSet.gvarExp (absF1 up.flags (liftF this.flags))
  · rw [if_pos h, if_pos h]; rfl
  · rw [if_neg h, if_neg h]; rfl

theorem nextMultiple_ok (k : Kind) {v m : Nat} (h : roundUp v m ≤ k.max) : nextMultiple k v m = some (roundUp v m) := by
  unfold nextMultiple roundUp at *
  split
  · rfl
  · rename_i hne
    rw [if_neg hne] at h
    exact strictAdd_ok k h

theorem one_shl (k : Kind) {e : Nat} (h : e < 4) : (1 <<< e) % (k.max + 1) = 2 ^ e := by
  have : e = 0 ∨ e = 1 ∨ e = 2 ∨ e = 3 := by omega
  rcases this with rfl | rfl | rfl | rfl <;> cases k <;> decide

theorem grow_ok (k : Kind) {up this : Node} {l m : Nat} (h1 : up.dvarSize ≤ 8 * l ∧ up.gvarSize ≤ 8 * l)
    (h2 : this.dvarSize ≤ 8 * m ∧ this.gvarSize ≤ 8 * m) (hb : l + m ≤ k.lengthMax) :
    grow k (absN up this) (liftN this) = some (addN up this) := by
  have hm := lengthMax_max k
  have h3 := addN_sizes h1 h2
  simp only [addN] at h3
  unfold grow
  simp only [liftN, liftF_dvarExp, liftF_gvarExp, one_shl k (dvarExp_lt this.flags), one_shl k (gvarExp_lt this.flags)]
  have d : (absN up this).dvarSize = up.dvarSize := rfl
  have g : (absN up this).gvarSize = up.gvarSize := rfl
  rw [d, g]
  simp only [Option.bind_eq_bind]
  rw [nextMultiple_ok k (by omega)]
  simp only [Option.bind_some]
  rw [strictAdd_ok k (by omega)]
  simp only [Option.bind_some]
  rw [nextMultiple_ok k (by omega)]
  simp only [Option.bind_some]
  rw [strictAdd_ok k (by omega)]
  rfl

end Verif.Dbus
