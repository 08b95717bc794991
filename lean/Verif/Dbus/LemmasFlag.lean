import Verif.Dbus.ModelSig
/-! # Bits of flag sets -/
namespace Verif.Dbus

theorem opl_bits : ∀ o : Fin 32,
    (BitVec.ofNat 16 o <<< 0) &&& ~~~(0x1f#16 <<< 0) = 0#16 ∧ (BitVec.ofNat 16 o <<< 5) &&& ~~~(0x1f#16 <<< 5) = 0#16
    ∧ (BitVec.ofNat 16 o <<< 10) &&& ~~~(0x1f#16 <<< 10) = 0#16
    ∧ (BitVec.ofNat 16 o <<< 0) >>> 0 &&& 0x1f#16 = BitVec.ofNat 16 o ∧ (BitVec.ofNat 16 o <<< 5) >>> 0 &&& 0x1f#16 = 0#16
    ∧ (BitVec.ofNat 16 o <<< 10) >>> 0 &&& 0x1f#16 = 0#16
    ∧ (BitVec.ofNat 16 o <<< 0) >>> 5 &&& 0x1f#16 = 0#16 ∧ (BitVec.ofNat 16 o <<< 5) >>> 5 &&& 0x1f#16 = BitVec.ofNat 16 o
    ∧ (BitVec.ofNat 16 o <<< 10) >>> 5 &&& 0x1f#16 = 0#16
    ∧ (BitVec.ofNat 16 o <<< 0) >>> 10 &&& 0x1f#16 = 0#16 ∧ (BitVec.ofNat 16 o <<< 5) >>> 10 &&& 0x1f#16 = 0#16
    ∧ (BitVec.ofNat 16 o <<< 10) >>> 10 &&& 0x1f#16 = BitVec.ofNat 16 o ∧ (BitVec.ofNat 16 o).toNat = o.val := by
  decide +kernel

theorem and_or3 (a b c m : BitVec 16) : (a ||| b ||| c) &&& m = (a &&& m) ||| (b &&& m) ||| (c &&& m) := by
  apply BitVec.eq_of_getLsbD_eq
  intro i hi
  simp only [BitVec.getLsbD_and, BitVec.getLsbD_or]
  cases a.getLsbD i <;> cases b.getLsbD i <;> cases c.getLsbD i <;> cases m.getLsbD i <;> rfl

theorem shr_or3 (a b c : BitVec 16) (n : Nat) : (a ||| b ||| c) >>> n = (a >>> n) ||| (b >>> n) ||| (c >>> n) := by
  rw [BitVec.ushiftRight_or_distrib, BitVec.ushiftRight_or_distrib]

theorem opl_all (o p l : Fin 32) : (opl o p l).map (fun v => (opl_offset v, opl_position v, opl_length v))
    = some (o.val, p.val, l.val) := by
  obtain ⟨o1, _, _, o4, _, _, o7, _, _, o10, _, _, o13⟩ := opl_bits o
  obtain ⟨_, p2, _, _, p5, _, _, p8, _, _, p11, _, p13⟩ := opl_bits p
  obtain ⟨_, _, l3, _, _, l6, _, _, l9, _, _, l12, l13⟩ := opl_bits l
  unfold opl
  simp only []
  rw [if_neg (by rw [o1]; simp), if_neg (by rw [p2]; simp), if_neg (by rw [l3]; simp)]
  unfold opl_offset opl_position opl_length
  simp only [Option.map_some, shr_or3, and_or3, o4, o7, o10, p5, p8, p11, l6, l9, l12, BitVec.or_zero,
    BitVec.zero_or, o13, p13, l13]

theorem pack_ok (k : Kind) {o p l : Nat} (ho : o ≤ k.lengthMax) (hp : p ≤ k.lengthMax) (hl : l ≤ k.lengthMax) :
    k.pack o p l = some (o, p, l) := by
  cases k with
  | node8 =>
    have e : Kind.node8.lengthMax = 31 := by decide
    rw [e] at ho hp hl
    exact opl_all ⟨o, by omega⟩ ⟨p, by omega⟩ ⟨l, by omega⟩
  | node64 => rfl

/-- The single bits. -/
theorem all_bit (f : Flag) (i : Nat) (hi : i < 32) : FlagSet.all f (1#32 <<< i) = f.getLsbD i := by
  unfold FlagSet.all
  rw [Bool.eq_iff_iff, beq_iff_eq]
  constructor
  · intro h
    have := congrArg (fun v => v.getLsbD i) h
    simpa [BitVec.getLsbD_and, BitVec.getLsbD_shiftLeft, hi] using this
  · intro h
    apply BitVec.eq_of_getLsbD_eq
    intro j hj
    by_cases e : j = i
    · subst e; simp [BitVec.getLsbD_and, BitVec.getLsbD_shiftLeft, h]
    · simp only [BitVec.getLsbD_and, BitVec.getLsbD_shiftLeft, BitVec.getLsbD_one, hj]
      have : ¬ (j < i) → ¬ (j - i = 0) := by omega
      by_cases h1 : j < i <;> simp [h1, this]

theorem and3 (a b c : Flag) : a &&& b &&& c = a &&& (b &&& c) := BitVec.and_assoc ..

theorem or_and (a b m : Flag) : (a ||| b) &&& m = (a &&& m) ||| (b &&& m) := by
  apply BitVec.eq_of_getLsbD_eq
  intro i hi
  simp only [BitVec.getLsbD_and, BitVec.getLsbD_or]
  cases a.getLsbD i <;> cases b.getLsbD i <;> cases m.getLsbD i <;> rfl

/-- Setting flags disjoint from a mask. -/
theorem set_and {f g m : Flag} (h : g &&& m = 0#32) : FlagSet.set f g &&& m = f &&& m := by
  unfold FlagSet.set
  rw [or_and, and3, BitVec.and_comm (~~~FLAG_ELEMENT_MASK), ← and3, h]
  simp

/-- Clearing flags disjoint from a mask. -/
theorem clear_and {f g m : Flag} (h : g &&& m = 0#32) : FlagSet.clear f g &&& m = f &&& m := by
  apply BitVec.eq_of_getLsbD_eq
  intro i hi
  have := congrArg (fun v => v.getLsbD i) h
  simp only [BitVec.getLsbD_and, BitVec.getLsbD_zero] at this
  unfold FlagSet.clear
  simp only [BitVec.getLsbD_and, BitVec.getLsbD_not, hi]
  revert this
  cases f.getLsbD i <;> cases g.getLsbD i <;> cases m.getLsbD i <;> simp

theorem mask_bit (i : Nat) (h : 7 ≤ i) : FLAG_ELEMENT_MASK.getLsbD i = false := by
  unfold FLAG_ELEMENT_MASK
  exact Nat.testBit_lt_two_pow (x := 127) (i := i) (Nat.lt_of_lt_of_le (by decide) (Nat.pow_le_pow_right (by decide) h))

theorem set_bit (f g : Flag) (i : Nat) (h : 7 ≤ i) (hi : i < 32) :
    (FlagSet.set f g).getLsbD i = (f.getLsbD i || g.getLsbD i) := by
  unfold FlagSet.set
  rw [BitVec.getLsbD_or, BitVec.getLsbD_and, BitVec.getLsbD_not, mask_bit i h, decide_eq_true hi]
  cases f.getLsbD i <;> cases g.getLsbD i <;> rfl

theorem clear_bit (f g : Flag) (i : Nat) (h : 7 ≤ i) (hi : i < 32) :
    (FlagSet.clear f g).getLsbD i = (f.getLsbD i && !g.getLsbD i) := by
  unfold FlagSet.clear
  rw [BitVec.getLsbD_and, BitVec.getLsbD_not, BitVec.getLsbD_and, BitVec.getLsbD_not, mask_bit i h, decide_eq_true hi]
  cases f.getLsbD i <;> cases g.getLsbD i <;> rfl

/-- The two bits of the GVariant alignment. -/
def setGv (f : Flag) (v : Nat) : Flag :=
  (f &&& ~~~FLAG_GVAR_ALIGNMENT_MASK) ||| (BitVec.ofNat 32 v <<< FLAG_GVAR_ALIGNMENT_SHIFT)

theorem gv_small : ∀ v : Fin 4, ((BitVec.ofNat 32 v <<< FLAG_GVAR_ALIGNMENT_SHIFT) >>> FLAG_GVAR_ALIGNMENT_SHIFT).toNat % 256 = v.val
    ∧ (BitVec.ofNat 32 v <<< FLAG_GVAR_ALIGNMENT_SHIFT) &&& ~~~FLAG_GVAR_ALIGNMENT_MASK = 0#32
    ∧ (BitVec.ofNat 32 v <<< FLAG_GVAR_ALIGNMENT_SHIFT) &&& FLAG_GVAR_ALIGNMENT_MASK
      = (BitVec.ofNat 32 v <<< FLAG_GVAR_ALIGNMENT_SHIFT) := by decide +kernel

theorem set_gvarExp_ok (f : Flag) {v : Nat} (h : v < 4) : FlagSet.set_gvarExp f v = some (setGv f v) := by
  obtain ⟨h1, h2, _⟩ := gv_small ⟨v, h⟩
  simp only [] at h1 h2
  unfold FlagSet.set_gvarExp
  simp only []
  rw [if_neg (by rw [h1]; simp), if_neg (by rw [h2]; simp)]
  rfl

theorem setGv_gv (f : Flag) {v : Nat} (h : v < 4) : FlagSet.gvarExp (setGv f v) = v := by
  obtain ⟨h1, _, h3⟩ := gv_small ⟨v, h⟩
  simp only [] at h1 h3
  unfold FlagSet.gvarExp setGv
  rw [or_and, and3, h3]
  have : ~~~FLAG_GVAR_ALIGNMENT_MASK &&& FLAG_GVAR_ALIGNMENT_MASK = 0#32 := by decide
  rw [this, BitVec.and_zero, BitVec.zero_or, h1]

/-- Setting the alignment leaves other bits alone. -/
theorem setGv_and (f : Flag) {v : Nat} (h : v < 4) {m : Flag} (hm : FLAG_GVAR_ALIGNMENT_MASK &&& m = 0#32) :
    setGv f v &&& m = f &&& m := by
  obtain ⟨_, _, h3⟩ := gv_small ⟨v, h⟩
  simp only [] at h3
  unfold setGv
  rw [or_and, ← h3, and3 _ FLAG_GVAR_ALIGNMENT_MASK, hm, BitVec.and_zero, BitVec.or_zero]
  apply BitVec.eq_of_getLsbD_eq
  intro i hi
  have := congrArg (fun v => v.getLsbD i) hm
  simp only [BitVec.getLsbD_and, BitVec.getLsbD_zero] at this
  simp only [BitVec.getLsbD_and, BitVec.getLsbD_not, hi]
  revert this
  cases f.getLsbD i <;> cases FLAG_GVAR_ALIGNMENT_MASK.getLsbD i <;> cases m.getLsbD i <;> simp

/-- Equal below a mask implies equal bits. -/
theorem bit_of_and {f g m : Flag} (h : f &&& m = g &&& m) (i : Nat) (hm : m.getLsbD i = true) :
    f.getLsbD i = g.getLsbD i := by
  have := congrArg (fun v => v.getLsbD i) h
  simpa [BitVec.getLsbD_and, hm] using this

theorem and_of_and {f g m n : Flag} (h : f &&& m = g &&& m) (hm : m &&& n = n) : f &&& n = g &&& n := by
  rw [← hm, ← and3, h, and3]

theorem shr_small (f : Flag) : ∀ s : Nat, (f &&& (3#32 <<< s)) >>> s &&& 3#32 = (f &&& (3#32 <<< s)) >>> s := by
  intro s
  apply BitVec.eq_of_getLsbD_eq
  intro i hi
  simp only [BitVec.getLsbD_and, BitVec.getLsbD_ushiftRight, BitVec.getLsbD_shiftLeft]
  have : s + i - s = i := by omega
  rw [this]
  by_cases h1 : s + i < 32
  · cases f.getLsbD (s + i) <;> cases (3#32).getLsbD i <;> simp
  · simp [h1]

theorem lt_four (f : Flag) (s : Nat) : ((f &&& (3#32 <<< s)) >>> s).toNat % 256 < 4 := by
  rw [← shr_small, BitVec.toNat_and]
  have : Nat.land ((f &&& 3#32 <<< s) >>> s).toNat 3 ≤ 3 := Nat.and_le_right
  exact Nat.lt_of_le_of_lt (Nat.mod_le _ _) (Nat.lt_succ_of_le this)

theorem gvarExp_lt (f : Flag) : FlagSet.gvarExp f < 4 := lt_four f 11
theorem dvarExp_lt (f : Flag) : FlagSet.dvarExp f < 4 := lt_four f 9

/-- The bits fixed by the element. -/
def CORE : Flag := FLAG_ELEMENT_MASK ||| FLAG_NODE_MASK ||| FLAG_DVAR_ALIGNMENT_MASK ||| FLAG_PREFIX ||| FLAG_OPEN
  ||| FLAG_CLOSE ||| FLAG_BASIC ||| FLAG_VARIANT

/-- Flags handed to the container. -/
def PROP : Flag := FLAG_DYNAMIC ||| FLAG_HANDLE ||| FLAG_DVAR_UNSUPPORTED ||| FLAG_DVAR_MISALIGNED

/-- Effect of being contained. -/
def liftF (f : Flag) : Flag := if FlagSet.dvarExp f ≥ 3 then FlagSet.clear f FLAG_DVAR_MISALIGNED else f

def absF1 (up this : Flag) : Flag :=
  if FlagSet.dvarExp this > FlagSet.dvarExp up then FlagSet.set up FLAG_DVAR_MISALIGNED else up
def absF2 (up this : Flag) : Flag :=
  if FlagSet.gvarExp this > FlagSet.gvarExp up then setGv up (FlagSet.gvarExp this) else up
def absF3 (up this : Flag) : Flag := FlagSet.set up (this &&& PROP)
def absF4 (up this : Flag) (pos : Nat) : Flag :=
  if FlagSet.all up FLAG_DICT && pos == 0 && !FlagSet.all this FLAG_BASIC then FlagSet.clear up FLAG_DICT else up

/-- Effect of a member on the flags of its container. -/
def absF (up this : Flag) (pos : Nat) : Flag :=
  absF4 (absF3 (absF2 (absF1 up this) this) this) this pos

theorem liftF_and {m : Flag} (h : FLAG_DVAR_MISALIGNED &&& m = 0#32) (f : Flag) : liftF f &&& m = f &&& m := by
  unfold liftF; split
  · exact clear_and h
  · rfl

theorem absF1_and {m : Flag} (h : FLAG_DVAR_MISALIGNED &&& m = 0#32) (f g : Flag) : absF1 f g &&& m = f &&& m := by
  unfold absF1; split
  · exact set_and h
  · rfl

theorem absF2_and {m : Flag} (h : FLAG_GVAR_ALIGNMENT_MASK &&& m = 0#32) (f g : Flag) : absF2 f g &&& m = f &&& m := by
  unfold absF2; split
  · exact setGv_and f (gvarExp_lt g) h
  · rfl

theorem absF3_and {m : Flag} (h : PROP &&& m = 0#32) (f g : Flag) : absF3 f g &&& m = f &&& m := by
  unfold absF3
  exact set_and (by rw [and3, h, BitVec.and_zero])

theorem absF4_and {m : Flag} (h : FLAG_DICT &&& m = 0#32) (f g : Flag) (p : Nat) : absF4 f g p &&& m = f &&& m := by
  unfold absF4; split
  · exact clear_and h
  · rfl

/-- Core bits do not change. -/
theorem absF_core (up this : Flag) (pos : Nat) : absF up this pos &&& CORE = up &&& CORE := by
  unfold absF
  rw [absF4_and (by decide), absF3_and (by decide), absF2_and (by decide), absF1_and (by decide)]

theorem liftF_core (f : Flag) : liftF f &&& CORE = f &&& CORE := liftF_and (by decide) f

theorem element_core {f g : Flag} (h : f &&& CORE = g &&& CORE) : FlagSet.element f = FlagSet.element g := by
  unfold FlagSet.element; rw [and_of_and h (by decide)]
theorem node_core {f g : Flag} (h : f &&& CORE = g &&& CORE) : FlagSet.node f = FlagSet.node g := by
  unfold FlagSet.node; rw [and_of_and h (by decide)]
theorem dvarExp_core {f g : Flag} (h : f &&& CORE = g &&& CORE) : FlagSet.dvarExp f = FlagSet.dvarExp g := by
  unfold FlagSet.dvarExp; rw [and_of_and h (by decide)]
theorem all_core {f g : Flag} (h : f &&& CORE = g &&& CORE) {m : Flag} (hm : CORE &&& m = m) :
    FlagSet.all f m = FlagSet.all g m := by
  unfold FlagSet.all; rw [and_of_and h hm]

theorem set_node_ok (f : Flag) (k : Kind) :
    FlagSet.set_node f k.id = some ((f &&& ~~~FLAG_NODE_MASK) ||| (BitVec.ofNat 32 k.id <<< FLAG_NODE_SHIFT)) := by
  cases k <;> rfl

/-- The flags of a fresh node. -/
def mkF (k : Kind) (e : Element) : Flag :=
  (e.flags &&& ~~~FLAG_NODE_MASK) ||| (BitVec.ofNat 32 k.id <<< FLAG_NODE_SHIFT)

theorem mkF_element (k : Kind) (e : Element) : FlagSet.element (mkF k e) = some e := by
  cases k <;> cases e <;> decide
theorem mkF_node (k : Kind) (e : Element) : FlagSet.node (mkF k e) = k.id := by
  cases k <;> cases e <;> decide
theorem mkF_and (k : Kind) (e : Element) {m : Flag} (hm : FLAG_NODE_MASK &&& m = 0#32) :
    mkF k e &&& m = e.flags &&& m := by
  have h3 : (BitVec.ofNat 32 k.id <<< FLAG_NODE_SHIFT) &&& FLAG_NODE_MASK
      = (BitVec.ofNat 32 k.id <<< FLAG_NODE_SHIFT) := by cases k <;> decide
  unfold mkF
  rw [or_and, ← h3, and3 _ FLAG_NODE_MASK, hm, BitVec.and_zero, BitVec.or_zero]
  apply BitVec.eq_of_getLsbD_eq
  intro i hi
  have := congrArg (fun v => v.getLsbD i) hm
  simp only [BitVec.getLsbD_and, BitVec.getLsbD_zero] at this
  simp only [BitVec.getLsbD_and, BitVec.getLsbD_not, hi]
  revert this
  cases e.flags.getLsbD i <;> cases FLAG_NODE_MASK.getLsbD i <;> cases m.getLsbD i <;> simp

theorem mkF_all (k : Kind) (e : Element) {m : Flag} (hm : FLAG_NODE_MASK &&& m = 0#32) :
    FlagSet.all (mkF k e) m = FlagSet.all e.flags m := by
  unfold FlagSet.all; rw [mkF_and k e hm]

theorem mkF_dvarExp (k : Kind) (e : Element) : FlagSet.dvarExp (mkF k e) = e.dvarExp := by
  cases k <;> cases e <;> decide
theorem mkF_gvarExp (k : Kind) (e : Element) : FlagSet.gvarExp (mkF k e) = e.gvarExp := by
  cases k <;> cases e <;> decide

/-- Bits of a lifted set. -/
theorem liftF_bit (f : Flag) (i : Nat) (h : 7 ≤ i) (hi : i < 32) (h22 : i ≠ 22) : (liftF f).getLsbD i = f.getLsbD i := by
  unfold liftF; split
  · rw [clear_bit _ _ _ h hi]
    have : FLAG_DVAR_MISALIGNED.getLsbD i = false := by
      unfold FLAG_DVAR_MISALIGNED
      simp only [BitVec.getLsbD_shiftLeft, BitVec.getLsbD_one]
      by_cases h1 : i < 22
      · simp [h1]
      · have : i - 22 ≠ 0 := by omega
        simp [this]
    rw [this]; simp
  · rfl

theorem liftF_gvarExp (f : Flag) : FlagSet.gvarExp (liftF f) = FlagSet.gvarExp f := by
  unfold FlagSet.gvarExp; rw [liftF_and (by decide)]

theorem liftF_dvarExp (f : Flag) : FlagSet.dvarExp (liftF f) = FlagSet.dvarExp f := dvarExp_core (liftF_core f)

theorem liftF_mis (f : Flag) : (liftF f).getLsbD 22 = (f.getLsbD 22 && decide (FlagSet.dvarExp f < 3)) := by
  unfold liftF; split
  · rename_i h
    rw [clear_bit _ _ _ (by decide) (by decide)]
    have : FLAG_DVAR_MISALIGNED.getLsbD 22 = true := by decide
    rw [this]; have : ¬ FlagSet.dvarExp f < 3 := by omega
    simp [this]
  · rename_i h
    have : FlagSet.dvarExp f < 3 := by omega
    simp [this]

theorem absF4_bit (f g : Flag) (p i : Nat) (h : 7 ≤ i) (hi : i < 32) (h20 : FLAG_DICT.getLsbD i = false) :
    (absF4 f g p).getLsbD i = f.getLsbD i := by
  unfold absF4; split
  · rw [clear_bit _ _ _ h hi, h20]; simp
  · rfl

theorem absF2_bit (f g : Flag) (i : Nat) (hi : FLAG_GVAR_ALIGNMENT_MASK &&& (1#32 <<< i) = 0#32)
    (h : (1#32 <<< i).getLsbD i = true) : (absF2 f g).getLsbD i = f.getLsbD i :=
  bit_of_and (absF2_and hi f g) i h

theorem absF1_bit (f g : Flag) (i : Nat) (hi : FLAG_DVAR_MISALIGNED &&& (1#32 <<< i) = 0#32)
    (h : (1#32 <<< i).getLsbD i = true) : (absF1 f g).getLsbD i = f.getLsbD i :=
  bit_of_and (absF1_and hi f g) i h

/-- The propagated flags. -/
theorem absF_prop (up this : Flag) (pos i : Nat) (h : i = 17 ∨ i = 19 ∨ i = 21) :
    (absF up this pos).getLsbD i = (up.getLsbD i || this.getLsbD i) := by
  unfold absF
  rcases h with rfl | rfl | rfl <;>
  · rw [absF4_bit _ _ _ _ (by decide) (by decide) (by decide)]
    unfold absF3
    rw [set_bit _ _ _ (by decide) (by decide), absF2_bit _ _ _ (by decide) (by decide),
      absF1_bit _ _ _ (by decide) (by decide), BitVec.getLsbD_and]
    congr 1
    have : PROP.getLsbD 17 = true ∧ PROP.getLsbD 19 = true ∧ PROP.getLsbD 21 = true := by decide
    simp [this]

theorem absF_mis (up this : Flag) (pos : Nat) : (absF up this pos).getLsbD 22
    = (up.getLsbD 22 || this.getLsbD 22 || decide (FlagSet.dvarExp this > FlagSet.dvarExp up)) := by
  unfold absF
  rw [absF4_bit _ _ _ _ (by decide) (by decide) (by decide)]
  unfold absF3
  rw [set_bit _ _ _ (by decide) (by decide), absF2_bit _ _ _ (by decide) (by decide), BitVec.getLsbD_and]
  have : PROP.getLsbD 22 = true := by decide
  rw [this]
  unfold absF1
  split
  · rename_i h
    rw [set_bit _ _ _ (by decide) (by decide)]
    have : FLAG_DVAR_MISALIGNED.getLsbD 22 = true := by decide
    simp [this, h]
  · rename_i h
    simp [h]

theorem absF_dict (up this : Flag) (pos : Nat) : (absF up this pos).getLsbD 20
    = (up.getLsbD 20 && !(pos == 0 && !FlagSet.all this FLAG_BASIC)) := by
  have h3 : (absF3 (absF2 (absF1 up this) this) this).getLsbD 20 = up.getLsbD 20 := by
    unfold absF3
    rw [set_bit _ _ _ (by decide) (by decide), absF2_bit _ _ _ (by decide) (by decide),
      absF1_bit _ _ _ (by decide) (by decide), BitVec.getLsbD_and]
    have : PROP.getLsbD 20 = false := by decide
    rw [this, Bool.and_false, Bool.or_false]
  unfold absF absF4
  have hd : ∀ f, FlagSet.all f FLAG_DICT = f.getLsbD 20 := fun f => all_bit f 20 (by decide)
  rw [hd, h3]
  split
  · rename_i h
    rw [clear_bit _ _ _ (by decide) (by decide)]
    have : FLAG_DICT.getLsbD 20 = true := by decide
    simp only [Bool.and_eq_true] at h
    rw [h3, this, h.1.1, h.1.2, h.2]; rfl
  · rename_i h
    rw [h3]
    revert h
    cases up.getLsbD 20 <;> cases (pos == 0) <;> cases FlagSet.all this FLAG_BASIC <;> simp

theorem absF_gvarExp (up this : Flag) (pos : Nat) :
    FlagSet.gvarExp (absF up this pos) = max (FlagSet.gvarExp up) (FlagSet.gvarExp this) := by
  have e1 : FlagSet.gvarExp (absF1 up this) = FlagSet.gvarExp up := by
    unfold FlagSet.gvarExp; rw [absF1_and (by decide)]
  have e : FlagSet.gvarExp (absF up this pos) = FlagSet.gvarExp (absF2 (absF1 up this) this) := by
    unfold FlagSet.gvarExp absF; rw [absF4_and (by decide), absF3_and (by decide)]
  rw [e]
  unfold absF2
  split
  · rename_i h
    rw [setGv_gv _ (gvarExp_lt this)]
    rw [e1] at h; omega
  · rename_i h
    rw [e1] at h ⊢; omega

theorem and_or_zero (f a b : Flag) : f &&& (a ||| b) = 0#32 ↔ f &&& a = 0#32 ∧ f &&& b = 0#32 := by
  have e : f &&& (a ||| b) = (f &&& a) ||| (f &&& b) := by
    rw [BitVec.and_comm, or_and, BitVec.and_comm a, BitVec.and_comm b]
  rw [e]
  constructor
  · intro h
    have hb : ∀ i, ((f &&& a).getLsbD i || (f &&& b).getLsbD i) = false := by
      intro i
      have := congrArg (fun v => v.getLsbD i) h
      simpa only [BitVec.getLsbD_or, BitVec.getLsbD_zero] using this
    constructor
    · apply BitVec.eq_of_getLsbD_eq
      intro i _
      have := hb i
      rw [Bool.or_eq_false_iff] at this
      rw [this.1, BitVec.getLsbD_zero]
    · apply BitVec.eq_of_getLsbD_eq
      intro i _
      have := hb i
      rw [Bool.or_eq_false_iff] at this
      rw [this.2, BitVec.getLsbD_zero]
  · rintro ⟨h1, h2⟩
    rw [h1, h2]; rfl

theorem and_not_of_zero {f m : Flag} (h : f &&& m = 0#32) : f &&& ~~~m = f := by
  apply BitVec.eq_of_getLsbD_eq
  intro i hi
  have := congrArg (fun v => v.getLsbD i) h
  simp only [BitVec.getLsbD_and, BitVec.getLsbD_zero] at this
  rw [BitVec.getLsbD_and, BitVec.getLsbD_not, decide_eq_true hi]
  cases h1 : f.getLsbD i <;> cases h2 : m.getLsbD i <;> simp_all

theorem dv_fits (v : Nat) : (((dvMask v >>> FLAG_DVAR_ALIGNMENT_SHIFT).toNat % 256 == v)
    && (dvMask v &&& ~~~FLAG_DVAR_ALIGNMENT_MASK == 0#32)) = true ↔ v < 4 := by
  have tab : ∀ w : Fin 256, (((dvMask w.val >>> FLAG_DVAR_ALIGNMENT_SHIFT).toNat % 256 == w.val)
    && (dvMask w.val &&& ~~~FLAG_DVAR_ALIGNMENT_MASK == 0#32)) = decide (w.val < 4) := by decide +kernel
  by_cases h : v < 256
  · rw [tab ⟨v, h⟩, decide_eq_true_iff]
  · constructor
    · intro hh
      simp only [Bool.and_eq_true, beq_iff_eq] at hh
      have := Nat.mod_lt (dvMask v >>> FLAG_DVAR_ALIGNMENT_SHIFT).toNat (y := 256) (by decide)
      omega
    · intro hh; omega

theorem gv_fits (v : Nat) : (((gvMask v >>> FLAG_GVAR_ALIGNMENT_SHIFT).toNat % 256 == v)
    && (gvMask v &&& ~~~FLAG_GVAR_ALIGNMENT_MASK == 0#32)) = true ↔ v < 4 := by
  have tab : ∀ w : Fin 256, (((gvMask w.val >>> FLAG_GVAR_ALIGNMENT_SHIFT).toNat % 256 == w.val)
    && (gvMask w.val &&& ~~~FLAG_GVAR_ALIGNMENT_MASK == 0#32)) = decide (w.val < 4) := by decide +kernel
  by_cases h : v < 256
  · rw [tab ⟨v, h⟩, decide_eq_true_iff]
  · constructor
    · intro hh
      simp only [Bool.and_eq_true, beq_iff_eq] at hh
      have := Nat.mod_lt (gvMask v >>> FLAG_GVAR_ALIGNMENT_SHIFT).toNat (y := 256) (by decide)
      omega
    · intro hh; omega

theorem dv_in : ∀ v : Fin 4, ((dvMask v.val &&& FLAG_DVAR_ALIGNMENT_MASK) >>> FLAG_DVAR_ALIGNMENT_SHIFT).toNat % 256 = v.val
    ∧ dvMask v.val &&& FLAG_ELEMENT_MASK = 0#32 ∧ dvMask v.val &&& FLAG_GVAR_ALIGNMENT_MASK = 0#32
    ∧ dvMask v.val &&& ~~~(FLAG_ELEMENT_MASK ||| FLAG_DVAR_ALIGNMENT_MASK ||| FLAG_GVAR_ALIGNMENT_MASK) = 0#32 := by decide +kernel

theorem gv_in : ∀ v : Fin 4, ((gvMask v.val &&& FLAG_GVAR_ALIGNMENT_MASK) >>> FLAG_GVAR_ALIGNMENT_SHIFT).toNat % 256 = v.val
    ∧ gvMask v.val &&& FLAG_ELEMENT_MASK = 0#32 ∧ gvMask v.val &&& FLAG_DVAR_ALIGNMENT_MASK = 0#32
    ∧ gvMask v.val &&& ~~~(FLAG_ELEMENT_MASK ||| FLAG_DVAR_ALIGNMENT_MASK ||| FLAG_GVAR_ALIGNMENT_MASK) = 0#32 := by decide +kernel

theorem el_in (e : Element) : Element.fromId ((elMask e &&& FLAG_ELEMENT_MASK).toNat % 256) = some e
    ∧ elMask e &&& FLAG_DVAR_ALIGNMENT_MASK = 0#32 ∧ elMask e &&& FLAG_GVAR_ALIGNMENT_MASK = 0#32
    ∧ elMask e &&& ~~~(FLAG_ELEMENT_MASK ||| FLAG_DVAR_ALIGNMENT_MASK ||| FLAG_GVAR_ALIGNMENT_MASK) = 0#32 := by
  cases e <;> decide

end Verif.Dbus
