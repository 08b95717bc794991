import Verif.Dbus.LemmasRep
/-! # Summaries kept in the flags -/
namespace Verif.Dbus

/-- The codes setting a propagated flag. -/
def bitChar (i : Nat) (c : Char) : Bool :=
  if i = 17 then decide (c ∈ ['s', 'o', 'g', 'v', 'a', 'm']) else if i = 19 then c == 'h' else c == 'm'

def Ty.has (i : Nat) (t : Ty) : Bool := t.text.any (bitChar i)

theorem shutN_bit (n : Node) (m i : Nat) (h : 7 ≤ i) (hi : i < 32) (hd : FLAG_DICT.getLsbD i = false) :
    (shutN n m).flags.getLsbD i = n.flags.getLsbD i := by
  simp only [shutN]; split
  · rw [clear_bit _ _ _ h hi, hd]; simp
  · rfl

theorem addN_flags (up this : Node) : (addN up this).flags = absF up.flags (liftF this.flags) this.position := rfl

theorem mkF_bit {k : Kind} {e : Element} {i : Nat} (hi : FLAG_NODE_MASK &&& (1#32 <<< i) = 0#32)
    (h : (1#32 <<< i).getLsbD i = true) : (mkF k e).getLsbD i = e.flags.getLsbD i :=
  bit_of_and (mkF_and k e hi) i h

theorem has_array (i : Nat) (t : Ty) : (Ty.array t).has i = (bitChar i 'a' || t.has i) := by simp [Ty.has, Ty.text]
theorem has_maybe (i : Nat) (t : Ty) : (Ty.maybe t).has i = (bitChar i 'm' || t.has i) := by simp [Ty.has, Ty.text]
theorem has_struct (i : Nat) (ts : List Ty) : (Ty.struct ts).has i
    = (bitChar i '(' || ((Ty.texts ts).any (bitChar i) || bitChar i ')')) := by simp [Ty.has, Ty.text]
theorem has_dict (i : Nat) (b : Basic) (v : Ty) : (Ty.dict b v).has i
    = (bitChar i '{' || (bitChar i b.code || (v.has i || bitChar i '}'))) := by simp [Ty.has, Ty.text]

theorem prop_basic (b : Basic) (i : Nat) (h : i = 17 ∨ i = 19 ∨ i = 21) :
    b.el.flags.getLsbD i = bitChar i b.code := by
  rcases h with rfl | rfl | rfl <;> cases b <;> decide

theorem prop_els (i : Nat) (h : i = 17 ∨ i = 19 ∨ i = 21) :
    Element.variant.flags.getLsbD i = bitChar i 'v' ∧ Element.array.flags.getLsbD i = bitChar i 'a'
    ∧ Element.maybe.flags.getLsbD i = bitChar i 'm' ∧ Element.structOpen.flags.getLsbD i = bitChar i '('
    ∧ Element.dictOpen.flags.getLsbD i = bitChar i '{' ∧ bitChar i ')' = false ∧ bitChar i '}' = false := by
  rcases h with rfl | rfl | rfl <;> decide

theorem prop_side (i : Nat) (h : i = 17 ∨ i = 19 ∨ i = 21) : 7 ≤ i ∧ i < 32 ∧ i ≠ 22 ∧ FLAG_DICT.getLsbD i = false
    ∧ FLAG_NODE_MASK &&& (1#32 <<< i) = 0#32 ∧ (1#32 <<< i).getLsbD i = true := by
  rcases h with rfl | rfl | rfl <;> decide

mutual
theorem headN_bit (k : Kind) (i : Nat) (h : i = 17 ∨ i = 19 ∨ i = 21) : (t : Ty) → (o p : Nat) →
    (headN k t o p).flags.getLsbD i = t.has i
  | .basic b, o, p => by
    obtain ⟨_, _, _, _, h5, h6⟩ := prop_side i h
    simp only [headN, mkN, mkF_bit h5 h6, prop_basic b i h, Ty.has, Ty.text, List.any_cons, List.any_nil, Bool.or_false]
  | .variant, o, p => by
    obtain ⟨_, _, _, _, h5, h6⟩ := prop_side i h
    simp only [headN, mkN, mkF_bit h5 h6, (prop_els i h).1, Ty.has, Ty.text, List.any_cons, List.any_nil, Bool.or_false]
  | .array t, o, p => by
    obtain ⟨h1, h2, h3, h4, h5, h6⟩ := prop_side i h
    have := headN_bit k i h t 1 0
    simp only [headN, absN, mkN, absF_prop _ _ _ _ h, liftF_bit _ _ h1 h2 h3, this, mkF_bit h5 h6, (prop_els i h).2.1,
      has_array]
  | .maybe t, o, p => by
    obtain ⟨h1, h2, h3, h4, h5, h6⟩ := prop_side i h
    have := headN_bit k i h t 1 0
    simp only [headN, absN, mkN, absF_prop _ _ _ _ h, liftF_bit _ _ h1 h2 h3, this, mkF_bit h5 h6, (prop_els i h).2.2.1,
      has_maybe]
  | .struct ts, o, p => by
    obtain ⟨h1, h2, h3, h4, h5, h6⟩ := prop_side i h
    obtain ⟨_, _, _, e4, _, e6, _⟩ := prop_els i h
    rw [headN, shutN_bit _ _ _ h1 h2 h4, foldN_bit k i h ts, has_struct, e6, Bool.or_false]
    simp only [mkN, mkF_bit h5 h6, e4]
  | .dict b v, o, p => by
    obtain ⟨h1, h2, h3, h4, h5, h6⟩ := prop_side i h
    obtain ⟨_, _, _, _, e5, _, e7⟩ := prop_els i h
    have := headN_bit k i h v 2 1
    rw [headN, shutN_bit _ _ _ h1 h2 h4, addN_flags, absF_prop _ _ _ _ h, addN_flags, absF_prop _ _ _ _ h,
      liftF_bit _ _ h1 h2 h3, liftF_bit _ _ h1 h2 h3, this, has_dict, e7, Bool.or_false]
    simp only [mkN, mkF_bit h5 h6, e5, prop_basic b i h, Bool.or_assoc]
theorem foldN_bit (k : Kind) (i : Nat) (h : i = 17 ∨ i = 19 ∨ i = 21) : (ts : List Ty) → (up : Node) → (o p : Nat) →
    (foldN k up ts o p).flags.getLsbD i = (up.flags.getLsbD i || (Ty.texts ts).any (bitChar i))
  | [], up, o, p => by simp [foldN, Ty.texts]
  | t :: ts, up, o, p => by
    obtain ⟨h1, h2, h3, h4, h5, h6⟩ := prop_side i h
    have e1 := headN_bit k i h t o p
    rw [foldN, foldN_bit k i h ts, addN_flags, absF_prop _ _ _ _ h, liftF_bit _ _ h1 h2 h3, e1, Ty.texts, List.any_append,
      Bool.or_assoc]
    rfl
end

/-! ## Alignment -/

def gmax (l : List Char) : Nat := (l.map gvarOfCode).foldr max 0

@[simp] theorem gmax_nil : gmax [] = 0 := rfl
@[simp] theorem gmax_cons (c : Char) (l : List Char) : gmax (c :: l) = max (gvarOfCode c) (gmax l) := rfl
@[simp] theorem gmax_append (l m : List Char) : gmax (l ++ m) = max (gmax l) (gmax m) := by
  induction l with
  | nil => simp
  | cons c l ih => simp only [List.cons_append, gmax_cons, ih]; omega

theorem shutN_gvar (n : Node) (m : Nat) : FlagSet.gvarExp (shutN n m).flags = FlagSet.gvarExp n.flags := by
  simp only [shutN]; split
  · unfold FlagSet.gvarExp; rw [clear_and (by decide)]
  · rfl

theorem gvar_basic (b : Basic) : b.el.gvarExp = gvarOfCode b.code := by cases b <;> decide

theorem gvar_els : Element.variant.gvarExp = gvarOfCode 'v' ∧ Element.array.gvarExp = gvarOfCode 'a'
    ∧ Element.maybe.gvarExp = gvarOfCode 'm' ∧ Element.structOpen.gvarExp = gvarOfCode '('
    ∧ Element.dictOpen.gvarExp = gvarOfCode '{' ∧ gvarOfCode ')' = 0 ∧ gvarOfCode '}' = 0 := by decide

mutual
theorem headN_gvar (k : Kind) : (t : Ty) → (o p : Nat) → FlagSet.gvarExp (headN k t o p).flags = gmax t.text
  | .basic b, o, p => by simp [headN, mkN, mkF_gvarExp, gvar_basic, Ty.text]
  | .variant, o, p => by simp [headN, mkN, mkF_gvarExp, gvar_els.1, Ty.text]
  | .array t, o, p => by
    have := headN_gvar k t 1 0
    simp only [headN, absN, mkN, absF_gvarExp, liftF_gvarExp, this, mkF_gvarExp, gvar_els.2.1, Ty.text, gmax_cons]
  | .maybe t, o, p => by
    have := headN_gvar k t 1 0
    simp only [headN, absN, mkN, absF_gvarExp, liftF_gvarExp, this, mkF_gvarExp, gvar_els.2.2.1, Ty.text, gmax_cons]
  | .struct ts, o, p => by
    rw [headN, shutN_gvar, foldN_gvar k ts, Ty.text]
    simp only [mkN, mkF_gvarExp, gvar_els.2.2.2.1, gmax_cons, gmax_append, gvar_els.2.2.2.2.2.1, gmax_nil]
    omega
  | .dict b v, o, p => by
    have := headN_gvar k v 2 1
    rw [headN, shutN_gvar, addN_flags, absF_gvarExp, addN_flags, absF_gvarExp, liftF_gvarExp, liftF_gvarExp, this, Ty.text]
    simp only [mkN, mkF_gvarExp, gvar_els.2.2.2.2.1, gvar_basic, gmax_cons, gmax_append, gvar_els.2.2.2.2.2.2, gmax_nil]
    omega
theorem foldN_gvar (k : Kind) : (ts : List Ty) → (up : Node) → (o p : Nat) →
    FlagSet.gvarExp (foldN k up ts o p).flags = max (FlagSet.gvarExp up.flags) (gmax (Ty.texts ts))
  | [], up, o, p => by simp [foldN, Ty.texts]
  | t :: ts, up, o, p => by
    have e1 := headN_gvar k t o p
    rw [foldN, foldN_gvar k ts, addN_flags, absF_gvarExp, liftF_gvarExp, e1, Ty.texts, gmax_append]
    omega
end

theorem el_dvar (t : Ty) : t.el.dvarExp = t.dvarAlign := by
  cases t with
  | basic b => cases b <;> decide
  | _ => simp only [Ty.el, Ty.dvarAlign]; decide

theorem headN_dvar (k : Kind) (t : Ty) (o p : Nat) : FlagSet.dvarExp (headN k t o p).flags = t.dvarAlign := by
  rw [dvarExp_core (headN_core k t o p), mkF_dvarExp, el_dvar]

/-! ## Position dependence -/

theorem mis_els : (∀ b : Basic, b.el.flags.getLsbD 22 = false) ∧ Element.variant.flags.getLsbD 22 = true
    ∧ Element.array.flags.getLsbD 22 = false ∧ Element.maybe.flags.getLsbD 22 = false := by
  refine ⟨fun b => ?_, by decide, by decide, by decide⟩
  cases b <;> decide

theorem mis_side : FLAG_NODE_MASK &&& (1#32 <<< 22) = 0#32 ∧ (1#32 <<< 22).getLsbD 22 = true := by decide

theorem bracketed_align {t : Ty} (h : t.bracketed = true) : t.dvarAlign = 3 := by
  cases t <;> first | rfl | cases h
theorem bracketed_posDep {t : Ty} (h : t.bracketed = true) : t.posDep = false := by
  cases t <;> first | rfl | cases h

theorem posDep_align (t : Ty) : (t.posDep && decide (t.dvarAlign < 3)) = t.posDep := by
  cases t with
  | basic b => rfl
  | variant => rfl
  | array t => exact Bool.and_true _
  | maybe t => exact Bool.and_true _
  | struct ts => rfl
  | dict b v => rfl

/-- Types other than structures and dict entries. -/
theorem headN_mis (k : Kind) : (t : Ty) → t.bracketed = false → (o p : Nat) →
    (headN k t o p).flags.getLsbD 22 = t.posDep
  | .basic b, _, o, p => by simp only [headN, mkN, mkF_bit mis_side.1 mis_side.2, mis_els.1, Ty.posDep]
  | .variant, _, o, p => by simp only [headN, mkN, mkF_bit mis_side.1 mis_side.2, mis_els.2.1, Ty.posDep]
  | .array t, _, o, p => by
    simp only [headN, absN, absF_mis, liftF_mis, mkN, mkF_bit mis_side.1 mis_side.2, mis_els.2.2.1, Ty.posDep,
      Bool.false_or, liftF_dvarExp, headN_dvar, mkF_dvarExp]
    have e : Element.array.dvarExp = 2 := by decide
    rw [e, Bool.or_comm]
    congr 1
    cases hb : t.bracketed with
    | false => rw [headN_mis k t hb 1 0, posDep_align]
    | true => rw [bracketed_align hb, (bracketed_posDep hb)]; simp
  | .maybe t, _, o, p => by
    simp only [headN, absN, absF_mis, liftF_mis, mkN, mkF_bit mis_side.1 mis_side.2, mis_els.2.2.2, Ty.posDep,
      Bool.false_or, liftF_dvarExp, headN_dvar, mkF_dvarExp]
    have e : Element.maybe.dvarExp = 2 := by decide
    rw [e, Bool.or_comm]
    congr 1
    cases hb : t.bracketed with
    | false => rw [headN_mis k t hb 1 0, posDep_align]
    | true => rw [bracketed_align hb, (bracketed_posDep hb)]; simp
  | .struct _, h, _, _ => by simp [Ty.bracketed] at h
  | .dict .., h, _, _ => by simp [Ty.bracketed] at h

theorem lift_mis (k : Kind) (t : Ty) (o p : Nat) : (liftN (headN k t o p)).flags.getLsbD 22 = t.posDep := by
  simp only [liftN, liftF_mis, headN_dvar]
  cases hb : t.bracketed with
  | false => rw [headN_mis k t hb, posDep_align]
  | true => rw [bracketed_align hb, bracketed_posDep hb]; simp

/-- Members of an aligned container mark it. -/
theorem foldN_mis (k : Kind) : (ts : List Ty) → (up : Node) → FlagSet.dvarExp up.flags = 3 → (o p : Nat) →
    (foldN k up ts o p).flags.getLsbD 22 = (up.flags.getLsbD 22 || ts.any Ty.posDep)
  | [], up, _, o, p => by simp [foldN]
  | t :: ts, up, hu, o, p => by
    have e1 : (liftF (headN k t o p).flags).getLsbD 22 = t.posDep := lift_mis k t o p
    have e2 : FlagSet.dvarExp (addN up (headN k t o p)).flags = 3 := by
      rw [addN_flags, dvarExp_core (absF_core _ _ _), hu]
    have e3 : ¬ FlagSet.dvarExp (liftF (headN k t o p).flags) > 3 := by
      rw [liftF_dvarExp, headN_dvar]
      cases t with
      | basic b => cases b <;> decide
      | _ => simp only [Ty.dvarAlign]; decide
    rw [foldN, foldN_mis k ts _ e2, addN_flags, absF_mis, e1, hu, decide_eq_false e3, Bool.or_false, List.any_cons,
      Bool.or_assoc]

theorem headN_mis_struct (k : Kind) (ts : List Ty) (o p : Nat) :
    (headN k (.struct ts) o p).flags.getLsbD 22 = ts.any Ty.posDep := by
  have e : (mkN k .structOpen o p).flags.getLsbD 22 = false := by
    simp only [mkN, mkF_bit mis_side.1 mis_side.2]; decide
  rw [headN, shutN_bit _ _ _ (by decide) (by decide) (by decide),
    foldN_mis k ts _ (by simp only [mkN, mkF_dvarExp]; decide), e, Bool.false_or]

theorem headN_mis_dict (k : Kind) (b : Basic) (v : Ty) (o p : Nat) :
    (headN k (.dict b v) o p).flags.getLsbD 22 = v.posDep := by
  have e : (mkN k .dictOpen o p).flags.getLsbD 22 = false := by
    simp only [mkN, mkF_bit mis_side.1 mis_side.2]; decide
  rw [headN_dict, shutN_bit _ _ _ (by decide) (by decide) (by decide),
    foldN_mis k _ _ (by simp only [mkN, mkF_dvarExp]; decide), e, Bool.false_or]
  simp [Ty.posDep]

/-! ## Dict entries -/

theorem shutN_dict (n : Node) (m : Nat) : (shutN n m).flags.getLsbD 20 = (n.flags.getLsbD 20 && m == 2) := by
  simp only [shutN, dict_all]
  split
  · rename_i h
    rw [clear_bit _ _ _ (by decide) (by decide)]
    have : FLAG_DICT.getLsbD 20 = true := by decide
    simp only [Bool.and_eq_true, bne_iff_ne] at h
    rw [this, h.1]
    simp [h.2]
  · rename_i h
    revert h
    cases n.flags.getLsbD 20 <;> simp

theorem mk_dict' (k : Kind) (o p : Nat) : (mkN k .structOpen o p).flags.getLsbD 20 = true
    ∧ (mkN k .dictOpen o p).flags.getLsbD 20 = true := ⟨mk_dict k false o p [], mk_dict k true o p []⟩

theorem bit20_els : (∀ b : Basic, b.el.flags.getLsbD 20 = false) ∧ Element.variant.flags.getLsbD 20 = false
    ∧ Element.array.flags.getLsbD 20 = false ∧ Element.maybe.flags.getLsbD 20 = false := by
  refine ⟨fun b => ?_, by decide, by decide, by decide⟩
  cases b <;> decide

theorem side20 : FLAG_NODE_MASK &&& (1#32 <<< 20) = 0#32 ∧ (1#32 <<< 20).getLsbD 20 = true := by decide

theorem headN_entry (k : Kind) (t : Ty) (o p : Nat) : (headN k t o p).flags.getLsbD 20 = t.entryLike := by
  cases t with
  | basic b => simp only [headN, mkN, mkF_bit side20.1 side20.2, bit20_els.1, Ty.entryLike]
  | variant => simp only [headN, mkN, mkF_bit side20.1 side20.2, bit20_els.2.1, Ty.entryLike]
  | array t => simp only [headN, absN, absF_dict, mkN, mkF_bit side20.1 side20.2, bit20_els.2.2.1, Ty.entryLike, Bool.false_and]
  | maybe t => simp only [headN, absN, absF_dict, mkN, mkF_bit side20.1 side20.2, bit20_els.2.2.2, Ty.entryLike, Bool.false_and]
  | struct ts =>
    rw [headN, shutN_dict, foldN_dict _ _ _ _ (mk_dict' k o p).1]
    match ts with
    | [] => rfl
    | [a] => simp [Ty.entryLike]
    | [a, b] => cases a <;> rfl
    | a :: b :: c :: ts => simp [Ty.entryLike]
  | dict b v => rw [headN_dict, shutN_dict, foldN_dict _ _ _ _ (mk_dict' k o p).2]; rfl

end Verif.Dbus
