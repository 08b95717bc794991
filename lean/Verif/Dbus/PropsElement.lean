import Verif.Dbus.LemmasSum
/-! # Properties of elements and flag sets (C32) -/
namespace Verif.Dbus

/-- The codes of the elements, D-Bus Specification, "Summary of types", and `m` of GVariant. -/
def codeSpec : Element → Char
  | .u8 => 'y' | .u16 => 'q' | .i16 => 'n' | .u32 => 'u' | .i32 => 'i' | .u64 => 't' | .i64 => 'x' | .f64 => 'd'
  | .bool => 'b' | .string => 's' | .object => 'o' | .signature => 'g' | .handle => 'h' | .variant => 'v'
  | .array => 'a' | .maybe => 'm' | .structOpen => '(' | .structClose => ')' | .dictOpen => '{' | .dictClose => '}'

/-- Sizes of the fixed-size elements in the D-Bus format (0: none), D-Bus Specification, "Marshalling". -/
def dvarSizeSpec : Element → Nat
  | .u8 => 1 | .u16 => 2 | .i16 => 2 | .u32 => 4 | .i32 => 4 | .u64 => 8 | .i64 => 8 | .f64 => 8 | .bool => 4
  | .handle => 4 | _ => 0

/-- The same in the GVariant format, where a boolean is one byte. -/
def gvarSizeSpec : Element → Nat
  | .bool => 1 | e => dvarSizeSpec e

/-- C32. The code of every element is the one specified. -/
theorem code_spec (e : Element) : e.code = (codeSpec e).toUInt8 ∧ e.char = codeSpec e := by cases e <;> decide

/-- C32. A code belongs to an element exactly if the element has that code. -/
theorem fromCode_iff (c : UInt8) (e : Element) : Element.fromCode c = some e ↔ e.code = c :=
  ⟨fun h => (code_of_fromCode h).symm, fun h => h ▸ fromCode_code e⟩

example : Element.fromCode 'a'.toUInt8 = some .array := by decide
example : Element.fromCode 'z'.toUInt8 = none := by decide

/-- C32. Identifiers identify elements, and are never 0. -/
theorem fromId_iff (i : Nat) (e : Element) : (Element.fromId i = some e ↔ e.id = i) ∧ e.id ≠ 0 ∧ e.id ≤ 20 := by
  refine ⟨⟨fun h => ?_, fun h => ?_⟩, ?_⟩
  · have := List.find?_some h
    simpa using this
  · subst h; cases e <;> decide
  · cases e <;> decide

/-- C32. The table is in the order of the identifiers, and the compile-time assertions hold for every row. -/
theorem table_consistent (e : Element) : e.row.element = e
    ∧ FlagSet_with_asserts e.row.element e.row.dvarAlign e.row.gvarAlign e.row.flags = true := by
  cases e <;> decide

/-- C32. The compile-time assertions on a combination of element, alignments and further flags hold exactly if the alignments
fit in their two bits and the flags leave the fields alone. Then the element, both alignments and the flags can be read back. -/
theorem with_spec (e : Element) (dv gv : Nat) (f : Flag) :
    (FlagSet_with_asserts e dv gv f = true ↔
      dv < 4 ∧ gv < 4 ∧ f &&& (FLAG_ELEMENT_MASK ||| FLAG_DVAR_ALIGNMENT_MASK ||| FLAG_GVAR_ALIGNMENT_MASK) = 0#32)
    ∧ (FlagSet_with_asserts e dv gv f = true → FlagSet.element (FlagSet_with e dv gv f) = some e
      ∧ FlagSet.dvarExp (FlagSet_with e dv gv f) = dv ∧ FlagSet.gvarExp (FlagSet_with e dv gv f) = gv
      ∧ FlagSet_with e dv gv f &&& ~~~(FLAG_ELEMENT_MASK ||| FLAG_DVAR_ALIGNMENT_MASK ||| FLAG_GVAR_ALIGNMENT_MASK) = f) := by
  have h1 : FlagSet_with_asserts e dv gv f = true ↔
      dv < 4 ∧ gv < 4 ∧ f &&& (FLAG_ELEMENT_MASK ||| FLAG_DVAR_ALIGNMENT_MASK ||| FLAG_GVAR_ALIGNMENT_MASK) = 0#32 := by
    rw [and_or_zero, and_or_zero]
    have he : ((elMask e).toNat % 256 == e.id) = true ∧ (elMask e &&& ~~~FLAG_ELEMENT_MASK == 0#32) = true := by
      cases e <;> decide
    simp only [FlagSet_with_asserts, Bool.and_eq_true, he.1, he.2, and_true]
    have hd := dv_fits dv
    have hg := gv_fits gv
    simp only [Bool.and_eq_true] at hd hg
    rw [← hd, ← hg]
    simp only [beq_iff_eq]
    constructor
    · rintro ⟨⟨⟨⟨⟨⟨a, b⟩, c⟩, d⟩, e⟩, g⟩, h⟩
      exact ⟨⟨d, g⟩, ⟨e, h⟩, ⟨a, b⟩, c⟩
    · rintro ⟨⟨d, g⟩, ⟨e, h⟩, ⟨a, b⟩, c⟩
      exact ⟨⟨⟨⟨⟨⟨a, b⟩, c⟩, d⟩, e⟩, g⟩, h⟩
  refine ⟨h1, fun h => ?_⟩
  obtain ⟨hd, hg, hf⟩ := h1.mp h
  rw [and_or_zero, and_or_zero] at hf
  obtain ⟨⟨f1, f2⟩, f3⟩ := hf
  obtain ⟨d1, d2, d3, d4⟩ := dv_in ⟨dv, hd⟩
  obtain ⟨g1, g2, g3, g4⟩ := gv_in ⟨gv, hg⟩
  obtain ⟨e1, e2, e3, e4⟩ := el_in e
  simp only [] at d1 d2 d3 d4 g1 g2 g3 g4
  refine ⟨?_, ?_, ?_, ?_⟩
  · unfold FlagSet.element FlagSet_with
    rw [or_and, or_and, or_and, f1, d2, g2]
    simpa using e1
  · unfold FlagSet.dvarExp FlagSet_with
    rw [or_and, or_and, or_and, f2, e2, g3]
    simpa using d1
  · unfold FlagSet.gvarExp FlagSet_with
    rw [or_and, or_and, or_and, f3, e3, d3]
    simpa using g1
  · unfold FlagSet_with
    rw [or_and, or_and, or_and, e4, d4, g4]
    simp only [BitVec.or_zero]
    exact and_not_of_zero (by rw [and_or_zero, and_or_zero]; exact ⟨⟨f1, f2⟩, f3⟩)

example : FlagSet_with_asserts .maybe 2 0 FLAG_DVAR_UNSUPPORTED = true ∧ FlagSet_with_asserts .maybe 4 0 FLAG_OPEN = false := by decide

/-- C32. Pairing is symmetric, and pairs an opening with a closing element. -/
theorem pair_symm (e f : Element) : (e.pair = some f ↔ f.pair = some e)
    ∧ (e.pair = some f → (FlagSet.all e.flags FLAG_OPEN = true ∧ FlagSet.all f.flags FLAG_CLOSE = true
      ∨ FlagSet.all e.flags FLAG_CLOSE = true ∧ FlagSet.all f.flags FLAG_OPEN = true)) := by
  revert f; cases e <;> (intro f; cases f <;> decide)

example : Element.structOpen.pair = some .structClose := by decide

/-- C32. The flags of an element: a type begins with it exactly if it is not a closing element; it opens a
container exactly if it is one of `a m ( {`; basic elements are the basic types. -/
theorem flags_spec (e : Element) :
    FlagSet.element e.flags = some e
    ∧ (FlagSet.all e.flags FLAG_PREFIX = true ↔ ∃ t : Ty, t.bytes.head? = some e.code)
    ∧ (FlagSet.all e.flags FLAG_BASIC = true ↔ ∃ b : Basic, (Ty.basic b).bytes = [e.code])
    ∧ FlagSet.all e.flags FLAG_OPEN = decide (codeSpec e ∈ ['a', 'm', '(', '{'])
    ∧ FlagSet.all e.flags FLAG_CLOSE = decide (codeSpec e ∈ [')', '}'])
    ∧ FlagSet.all e.flags FLAG_DYNAMIC = decide (codeSpec e ∈ ['s', 'o', 'g', 'v', 'a', 'm'])
    ∧ FlagSet.all e.flags FLAG_VARIANT = (codeSpec e == 'v')
    ∧ FlagSet.all e.flags FLAG_HANDLE = (codeSpec e == 'h')
    ∧ FlagSet.all e.flags FLAG_DVAR_UNSUPPORTED = (codeSpec e == 'm')
    ∧ FlagSet.all e.flags FLAG_DVAR_MISALIGNED = (codeSpec e == 'v') := by
  refine ⟨by cases e <;> decide, ?_, ?_, by cases e <;> decide, by cases e <;> decide, by cases e <;> decide,
    by cases e <;> decide, by cases e <;> decide, by cases e <;> decide, by cases e <;> decide⟩
  · constructor
    · intro h
      have ht : ∃ t : Ty, t.el = e := by
        cases e with
        | u8 => exact ⟨.basic .byte, rfl⟩ | u16 => exact ⟨.basic .uint16, rfl⟩ | i16 => exact ⟨.basic .int16, rfl⟩
        | u32 => exact ⟨.basic .uint32, rfl⟩ | i32 => exact ⟨.basic .int32, rfl⟩ | u64 => exact ⟨.basic .uint64, rfl⟩
        | i64 => exact ⟨.basic .int64, rfl⟩ | f64 => exact ⟨.basic .double, rfl⟩ | bool => exact ⟨.basic .boolean, rfl⟩
        | string => exact ⟨.basic .string, rfl⟩ | object => exact ⟨.basic .objectPath, rfl⟩
        | signature => exact ⟨.basic .signature, rfl⟩ | handle => exact ⟨.basic .unixFd, rfl⟩
        | variant => exact ⟨.variant, rfl⟩ | array => exact ⟨.array .variant, rfl⟩ | maybe => exact ⟨.maybe .variant, rfl⟩
        | structOpen => exact ⟨.struct [], rfl⟩ | dictOpen => exact ⟨.dict .byte .variant, rfl⟩
        | structClose => exact absurd h (by decide) | dictClose => exact absurd h (by decide)
      obtain ⟨t, ht⟩ := ht
      refine ⟨t, ?_⟩
      rw [← els_code, els_head, List.map_cons, List.head?_cons, ht]
    · rintro ⟨t, ht⟩
      rw [← els_code, els_head, List.map_cons, List.head?_cons, Option.some.injEq] at ht
      rw [← code_inj ht]
      cases t with
      | basic b => cases b <;> decide
      | _ => simp only [Ty.el]; decide
  · constructor
    · intro h
      cases e with
      | u8 => exact ⟨.byte, by decide⟩ | u16 => exact ⟨.uint16, by decide⟩ | i16 => exact ⟨.int16, by decide⟩
      | u32 => exact ⟨.uint32, by decide⟩ | i32 => exact ⟨.int32, by decide⟩ | u64 => exact ⟨.uint64, by decide⟩
      | i64 => exact ⟨.int64, by decide⟩ | f64 => exact ⟨.double, by decide⟩ | bool => exact ⟨.boolean, by decide⟩
      | string => exact ⟨.string, by decide⟩ | object => exact ⟨.objectPath, by decide⟩
      | signature => exact ⟨.signature, by decide⟩ | handle => exact ⟨.unixFd, by decide⟩
      | variant => exact absurd h (by decide) | array => exact absurd h (by decide) | maybe => exact absurd h (by decide)
      | structOpen => exact absurd h (by decide) | structClose => exact absurd h (by decide)
      | dictOpen => exact absurd h (by decide) | dictClose => exact absurd h (by decide)
    · rintro ⟨b, hb⟩
      rw [bytes_basic, List.cons.injEq] at hb
      rw [← code_inj hb.1]
      cases b <;> decide

/-- C32. Alignments and sizes are those of the two formats. -/
theorem sizes_spec (t : Ty) (e : Element) (h : t.bytes.head? = some e.code) :
    e.dvarExp = t.dvarAlign ∧ e.gvarExp = gvarOfCode (codeSpec e)
    ∧ e.dvarSize = dvarSizeSpec e ∧ e.gvarSize = gvarSizeSpec e := by
  rw [← els_code, els_head, List.map_cons, List.head?_cons, Option.some.injEq] at h
  have := code_inj h
  refine ⟨by rw [← this, el_dvar], ?_, ?_, ?_⟩ <;> cases e <;> decide

example : Element.bool.dvarSize = 4 ∧ Element.bool.gvarSize = 1 := by decide

/-- C32. Setting flags sets exactly these flags and keeps the element; clearing clears exactly these. -/
theorem set_clear_spec (f g : Flag) :
    FlagSet.element (FlagSet.set f g) = FlagSet.element f ∧ FlagSet.element (FlagSet.clear f g) = FlagSet.element f
    ∧ ∀ i, 7 ≤ i → i < 32 → (FlagSet.set f g).getLsbD i = (f.getLsbD i || g.getLsbD i)
      ∧ (FlagSet.clear f g).getLsbD i = (f.getLsbD i && !g.getLsbD i) := by
  refine ⟨?_, ?_, fun i h hi => ⟨set_bit f g i h hi, clear_bit f g i h hi⟩⟩
  · unfold FlagSet.element FlagSet.set
    rw [or_and, and3]; simp
  · unfold FlagSet.element FlagSet.clear
    have : f &&& ~~~(g &&& ~~~FLAG_ELEMENT_MASK) &&& FLAG_ELEMENT_MASK = f &&& FLAG_ELEMENT_MASK := by
      apply BitVec.eq_of_getLsbD_eq
      intro i hi
      simp only [BitVec.getLsbD_and, BitVec.getLsbD_not, hi, decide_true, Bool.true_and]
      cases f.getLsbD i <;> cases g.getLsbD i <;> cases FLAG_ELEMENT_MASK.getLsbD i <;> rfl
    rw [this]

/-- C32. The GVariant alignment stored is the one read back; nothing else changes. Values that do not fit are
refused. -/
theorem gvar_spec (f : Flag) (v : Nat) :
    (v < 4 → ∃ g, FlagSet.set_gvarExp f v = some g ∧ FlagSet.gvarExp g = v
      ∧ ∀ m : Flag, FLAG_GVAR_ALIGNMENT_MASK &&& m = 0#32 → g &&& m = f &&& m)
    ∧ (4 ≤ v → v < 256 → FlagSet.set_gvarExp f v = none) := by
  refine ⟨fun h => ⟨setGv f v, set_gvarExp_ok f h, setGv_gv f h, fun m hm => setGv_and f h hm⟩, fun h h' => ?_⟩
  unfold FlagSet.set_gvarExp
  have : ∀ w : Fin 256, (decide (w.val < 4) || (BitVec.ofNat 32 w.val <<< FLAG_GVAR_ALIGNMENT_SHIFT)
      &&& ~~~FLAG_GVAR_ALIGNMENT_MASK != 0#32) = true := by decide +kernel
  have := this ⟨v, h'⟩
  simp only [Bool.or_eq_true, decide_eq_true_eq, bne_iff_ne, Nat.not_lt.mpr h, false_or] at this
  simp only []
  split
  · rfl
  · rfl

example : ∃ g, FlagSet.set_gvarExp Element.structOpen.flags 3 = some g ∧ FlagSet.gvarExp g = 3 :=
  ⟨_, rfl, by decide⟩

/-- C32. The same for the kind of node. -/
theorem node_spec (f : Flag) (v : Nat) :
    (v < 4 → ∃ g, FlagSet.set_node f v = some g ∧ FlagSet.node g = v ∧ ∀ m : Flag, FLAG_NODE_MASK &&& m = 0#32 → g &&& m = f &&& m)
    ∧ (4 ≤ v → v < 256 → FlagSet.set_node f v = none) := by
  have tab : ∀ w : Fin 4, ((BitVec.ofNat 32 w.val <<< FLAG_NODE_SHIFT) >>> FLAG_NODE_SHIFT).toNat % 256 = w.val
      ∧ (BitVec.ofNat 32 w.val <<< FLAG_NODE_SHIFT) &&& ~~~FLAG_NODE_MASK = 0#32
      ∧ (BitVec.ofNat 32 w.val <<< FLAG_NODE_SHIFT) &&& FLAG_NODE_MASK = BitVec.ofNat 32 w.val <<< FLAG_NODE_SHIFT := by decide +kernel
  refine ⟨fun h => ?_, fun h h' => ?_⟩
  · obtain ⟨h1, h2, h3⟩ := tab ⟨v, h⟩
    simp only [] at h1 h2 h3
    refine ⟨(f &&& ~~~FLAG_NODE_MASK) ||| (BitVec.ofNat 32 v <<< FLAG_NODE_SHIFT), ?_, ?_, ?_⟩
    · unfold FlagSet.set_node
      rw [if_neg (by rw [h1]; simp), if_neg (by rw [h2]; simp)]
    · unfold FlagSet.node
      have : ((f &&& ~~~FLAG_NODE_MASK) ||| (BitVec.ofNat 32 v <<< FLAG_NODE_SHIFT)) &&& FLAG_NODE_MASK = BitVec.ofNat 32 v <<< FLAG_NODE_SHIFT := by
        rw [or_and, h3]
        apply BitVec.eq_of_getLsbD_eq
        intro i hi
        simp only [BitVec.getLsbD_and, BitVec.getLsbD_or, BitVec.getLsbD_not, hi, decide_true, Bool.true_and]
        cases f.getLsbD i <;> cases FLAG_NODE_MASK.getLsbD i <;> simp
      rw [this, h1]
    · intro m hm
      generalize hx : BitVec.ofNat 32 v <<< FLAG_NODE_SHIFT = x at *
      apply BitVec.eq_of_getLsbD_eq
      intro i hi
      have e1 := congrArg (fun b : BitVec 32 => b.getLsbD i) hm
      have e2 := congrArg (fun b : BitVec 32 => b.getLsbD i) h3
      simp only [BitVec.getLsbD_and, BitVec.getLsbD_or, BitVec.getLsbD_not, hi, decide_true, Bool.true_and, BitVec.getLsbD_zero] at e1 e2 ⊢
      revert e1 e2
      cases f.getLsbD i <;> cases FLAG_NODE_MASK.getLsbD i <;> cases m.getLsbD i <;> cases x.getLsbD i <;> simp
  · have : ∀ w : Fin 256, (decide (w.val < 4) || (BitVec.ofNat 32 w.val <<< FLAG_NODE_SHIFT) &&& ~~~FLAG_NODE_MASK != 0#32) = true := by
      decide +kernel
    have := this ⟨v, h'⟩
    simp only [Bool.or_eq_true, decide_eq_true_eq, bne_iff_ne, Nat.not_lt.mpr h, false_or] at this
    unfold FlagSet.set_node
    simp only []
    split
    · rfl
    · rfl

example : ∃ g, FlagSet.set_node Element.array.flags 2 = some g ∧ FlagSet.node g = 2 ∧ FlagSet.element g = some .array :=
  ⟨_, rfl, by decide, by decide⟩

/-- C32. `str` is the code as UTF-8. -/
theorem str_spec (e : Element) : e.str = String.utf8EncodeChar (codeSpec e) := by cases e <;> decide

/-- C32. `all` asks for all flags of a set, `any` for one of them; for none, `all` is true and `any` is false. Flag sets of elements are never 0. -/
theorem all_any_spec (e : Element) (m : Flag) :
    (e.hasAll m = true ↔ ∀ i, i < 32 → m.getLsbD i = true → e.flags.getLsbD i = true)
    ∧ (e.hasAny m = true ↔ ∃ i, i < 32 ∧ m.getLsbD i = true ∧ e.flags.getLsbD i = true)
    ∧ e.flags ≠ 0#32 := by
  refine ⟨?_, ?_, by cases e <;> decide⟩
  · unfold Element.hasAll FlagSet.all
    rw [beq_iff_eq]
    constructor
    · intro h i hi hm
      have := congrArg (fun b : BitVec 32 => b.getLsbD i) h
      simp only [BitVec.getLsbD_and, hm, Bool.and_true] at this
      exact this
    · intro h
      apply BitVec.eq_of_getLsbD_eq
      intro i hi
      rw [BitVec.getLsbD_and]
      cases hm : m.getLsbD i
      · simp
      · simp [h i hi hm]
  · unfold Element.hasAny FlagSet.any
    rw [bne_iff_ne]
    constructor
    · intro h
      refine Classical.byContradiction fun hn => h ?_
      apply BitVec.eq_of_getLsbD_eq
      intro i hi
      rw [BitVec.getLsbD_and, BitVec.getLsbD_zero]
      cases hm : m.getLsbD i
      · simp
      · cases he : e.flags.getLsbD i
        · simp
        · exact absurd ⟨i, hi, hm, he⟩ hn
    · rintro ⟨i, hi, hm, he⟩ h
      have := congrArg (fun b : BitVec 32 => b.getLsbD i) h
      simp only [BitVec.getLsbD_and, BitVec.getLsbD_zero, hm, he] at this
      cases this

example : Element.string.hasAll (FLAG_BASIC ||| FLAG_DYNAMIC) = true ∧ Element.string.hasAll (FLAG_BASIC ||| FLAG_HANDLE) = false
    ∧ Element.string.hasAny (FLAG_BASIC ||| FLAG_HANDLE) = true := by decide

end Verif.Dbus
