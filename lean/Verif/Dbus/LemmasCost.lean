import Verif.Dbus.ModelCost
import Verif.Dbus.LemmasParse
/-! # Lemmas: the time of the parser -/
namespace Verif.Dbus

/-! ## The same results -/

theorem timed_bind {α β : Type} (x : Timed α) (f : α → Timed β) : (Timed.bind x f).1 = Res.bind x.1 (fun a => (f a).1) := by
  obtain ⟨r, n⟩ := x
  cases r <;> rfl

theorem res_option {α β : Type} (x : Option α) (f : α → Option β) :
    Res.ofOption (x.bind f) = Res.bind (Res.ofOption x) fun a => Res.ofOption (f a) := by
  cases x <;> rfl

theorem res_ite {α : Type} (c : Prop) [Decidable c] (x y : Option α) :
    Res.ofOption (if c then x else y) = if c then Res.ofOption x else Res.ofOption y := by split <;> rfl

theorem bind_ite {α β : Type} (c : Prop) [Decidable c] (x y : Res α) (f : α → Res β) :
    Res.bind (if c then x else y) f = if c then Res.bind x f else Res.bind y f := by split <;> rfl

theorem fst_ite {α : Type} (c : Prop) [Decidable c] (x y : Timed α) : (if c then x else y).1 = if c then x.1 else y.1 := by
  split <;> rfl

theorem climb_fst (k : Kind) : ∀ (fuel : Nat) (b : Buf) (i : Nat) (u v : Option Nat) (p : Nat),
    (climbT k fuel b i u v p).1 = Res.ofOption (climb k fuel b i u v p) := by
  intro fuel
  induction fuel with
  | zero => intro b i u v p; cases v <;> rfl
  | succ fuel ih =>
    intro b i u v p
    cases v with
    | none => rfl
    | some v =>
      unfold climbT climb
      simp only [Timed.turn, timed_bind, Timed.step, fst_ite, Option.bind_eq_bind, res_option, res_ite, bind_ite, ih]
      rfl

theorem loop_fst (k : Kind) (total : Nat) : ∀ (rest : List UInt8) (i : Nat) (b : Buf) (p : Nat) (u : Option Nat),
    (parseLoopT k total rest i b p u).1 = parseLoop k total rest i b p u := by
  intro rest
  induction rest with
  | nil => intro i b p u; rfl
  | cons c rest ih =>
    intro i b p u
    unfold parseLoopT parseLoop
    simp only [Timed.turn, fst_ite]
    split
    · rfl
    · cases Element.fromCode c with
      | none => rfl
      | some e =>
        simp only [timed_bind, Timed.step, fst_ite, climb_fst, ih]

theorem parse_fst (k : Kind) (b : Buf) (bs : List UInt8) : (k.parseT b bs).1 = k.parse b bs := by
  unfold Kind.parseT Kind.parse
  simp only [fst_ite, loop_fst, Timed.step]

theorem new_fst (bs : List UInt8) : (Sig.newT bs).1 = Sig.new bs := by
  unfold Sig.newT Sig.new sigParseT sigParse
  simp only [timed_bind, fst_ite, parse_fst, Timed.step]

/-! ## The time -/

theorem step_bind {α β : Type} (a : α) (f : α → Timed β) : Timed.bind (.step (.ok a)) f = f a := by
  simp [Timed.bind, Timed.step]

theorem climb_fuel (k : Kind) : ∀ (fuel n : Nat) (b : Buf) (i : Nat) (u v : Option Nat) (p : Nat) (x : Buf × Option Nat × Nat),
    climb k n b i u v p = some x → n ≤ fuel → (climbT k fuel b i u v p).2 ≤ n := by
  intro fuel
  induction fuel with
  | zero =>
    intro n b i u v p x h hn
    cases v with
    | none => exact Nat.zero_le _
    | some v =>
      cases n with
      | zero => simp [climb] at h
      | succ n => omega
  | succ fuel ih =>
    intro n b i u v p x h hn
    cases v with
    | none => exact Nat.zero_le _
    | some v =>
      cases n with
      | zero => simp [climb] at h
      | succ n =>
        unfold climb at h
        simp only [Option.bind_eq_bind, Option.bind_eq_some_iff] at h
        obtain ⟨this, h1, up, h2, ⟨up', this'⟩, h3, pair, h4, h⟩ := h
        unfold climbT
        simp only [h1, h2, h3, h4, ofOption_some, step_bind]
        split at h
        · rename_i hc
          simp only [Option.bind_eq_some_iff] at h
          obtain ⟨b1, h5, b2, h6, idx, h7, next, h8, t, h9, q, h10, h⟩ := h
          rw [if_pos hc]
          simp only [h5, h6, h7, h8, h9, h10, ofOption_some, step_bind, Timed.turn]
          have := ih n _ _ _ _ _ _ h (by omega)
          omega
        · rename_i hc
          rw [if_neg hc]
          split at h
          · rename_i hc2
            simp only [Option.bind_eq_some_iff] at h
            obtain ⟨up2, h5, b1, h6, b2, h7, h⟩ := h
            rw [if_pos hc2]
            simp only [h5, h6, h7, ofOption_some, step_bind, Timed.turn]
            simp only [Timed.step]
            omega
          · rename_i hc2
            simp only [Option.bind_some, Option.bind_eq_some_iff] at h
            obtain ⟨b1, h6, b2, h7, h⟩ := h
            rw [if_neg hc2]
            simp only [h6, h7, ofOption_some, step_bind, Timed.turn]
            simp only [Timed.step]
            omega

/-- How many containers are left. -/
def left : Ty ⊕ List Frame → Nat
  | .inl _ => 0
  | .inr z => z.length

theorem turns_left (z : List Frame) : ∀ t, turns z + left (complete z t) ≤ z.length + 1 := by
  induction z with
  | nil => intro t; simp [turns, complete, left]
  | cons f z ih =>
    intro t
    cases f with
    | bound m =>
      have := ih (if m then .maybe t else .array t)
      cases m <;> simp [turns, complete] at this ⊢ <;> omega
    | unb d done => simp [turns, complete, left]; omega

theorem climb_time (k : Kind) (z : List Frame) (t : Ty) (junk : Buf) (h : zlen z + t.size ≤ k.lengthMax) :
    (climbT k ((bufZ k z ++ (bufT k t (offOf z) (posOf z) ++ junk)).length + 1)
        (bufZ k z ++ (bufT k t (offOf z) (posOf z) ++ junk)) (zlen z) (upIdx z) (upIdx z) (posOf z + 1)).1
      = .ok (outcome k junk (complete z t))
    ∧ (climbT k ((bufZ k z ++ (bufT k t (offOf z) (posOf z) ++ junk)).length + 1)
        (bufZ k z ++ (bufT k t (offOf z) (posOf z) ++ junk)) (zlen z) (upIdx z) (upIdx z) (posOf z + 1)).2 ≤ turns z := by
  have hzl := length_le_zlen z
  have htl := turns_le z
  have hfuel : turns z ≤ (bufZ k z ++ (bufT k t (offOf z) (posOf z) ++ junk)).length + 1 := by
    simp [bufZ_length, bufT_length]; omega
  refine ⟨?_, climb_fuel k _ _ _ _ _ _ _ _ (climb_ok k z t junk _ (Nat.le_refl _) h) hfuel⟩
  rw [climb_fst, climb_ok k z t junk _ hfuel h]
  rfl

theorem timed_cost {α β : Type} (x : Timed α) (f : α → Timed β) (a : α) (h : x.1 = .ok a) :
    (Timed.bind x f).2 = x.2 + (f a).2 := by
  obtain ⟨r, n⟩ := x
  cases h
  rfl

theorem loop_time (k : Kind) (total : Nat) (hT : total ≤ k.lengthMax) : ∀ (rest : List UInt8) (z : List Frame) (junk : Buf),
    zlen z + rest.length = total → rest.length ≤ junk.length → (rest = [] → z ≠ []) →
    (parseLoopT k total rest (zlen z) (bufZ k z ++ junk) (posOf z) (upIdx z)).2 ≤ 2 * rest.length + z.length := by
  intro rest
  induction rest with
  | nil => intro z junk _ _ _; exact Nat.zero_le _
  | cons c rest ih =>
    intro z junk hlen hjunk _
    have hmax := lengthMax_max k
    have hol := offOf_le z
    have hpl := posOf_le z
    simp only [List.length_cons] at hlen hjunk
    obtain ⟨x, junk, rfl⟩ : ∃ x j, junk = x :: j := by
      cases junk with
      | nil => simp at hjunk
      | cons x j => exact ⟨x, j, rfl⟩
    simp only [List.length_cons] at hjunk
    unfold parseLoopT
    simp only [Timed.turn, List.length_cons]
    by_cases hasc : c.toNat ≥ 128
    · rw [if_pos hasc]; simp only [Timed.step]; omega
    rw [if_neg hasc]
    cases hcode : Element.fromCode c with
    | none => simp only [Timed.step]; omega
    | some e =>
      simp only []
      have hmod : zlen z % (k.max + 1) = zlen z := Nat.mod_eq_of_lt (by omega)
      rw [hmod, offset_ok]
      rw [ofOption_some, step_bind, with_ok k e (by omega) (by omega), ofOption_some, step_bind,
        wr_mid (bufZ_length k z).symm, ofOption_some, step_bind, goto_mid (bufZ_length k z) rfl, ofOption_some, step_bind,
        strictAdd_ok k (by omega), ofOption_some, step_bind]
      have hO : FlagSet.all (mkN k e (offOf z) (posOf z)).flags FLAG_OPEN = FlagSet.all e.flags FLAG_OPEN :=
        open_of_core (k := k) rfl
      have hC : FlagSet.all (mkN k e (offOf z) (posOf z)).flags FLAG_CLOSE = FlagSet.all e.flags FLAG_CLOSE :=
        close_of_core (k := k) rfl
      rw [hO, hC]
      -- the common end of leaf and closing elements
      have tail_time : ∀ (z' : List Frame) (t : Ty), zlen z' + t.size = zlen z + 1 →
          (Timed.bind (climbT k ((bufZ k z' ++ (bufT k t (offOf z') (posOf z') ++ junk)).length + 1)
              (bufZ k z' ++ (bufT k t (offOf z') (posOf z') ++ junk)) (zlen z') (upIdx z') (upIdx z') (posOf z' + 1))
            (fun (b, oUpIdx, position) =>
              if oUpIdx.isNone = true then
                if zlen z + 1 ≠ total then .step (.err (.signatureSequence (zlen z + 1))) else .step (.ok b)
              else parseLoopT k total rest (zlen z + 1) b position oUpIdx)).2
          ≤ 2 * rest.length + z'.length + 1 := by
        intro z' t hs
        obtain ⟨h1, h2⟩ := climb_time k z' t junk (by omega)
        have hcs := complete_size z' t
        have htl := turns_left z' t
        rw [timed_cost _ _ _ h1]
        cases hc : complete z' t with
        | inl t' =>
          rw [hc] at htl
          simp only [left] at htl
          simp only [outcome, Option.isNone_none, if_true]
          have h0 : ∀ b : Buf, (if zlen z + 1 ≠ total then (Timed.step (.err (.signatureSequence (zlen z + 1))) : Timed Buf)
              else .step (.ok b)).2 = 0 := fun b => by split <;> rfl
          rw [h0]; omega
        | inr z'' =>
          rw [hc] at hcs htl
          simp only [osize] at hcs
          simp only [left] at htl
          have hne : z'' ≠ [] := fun h => complete_ne_nil z' t (by rw [hc, h])
          have hsome : (upIdx z'').isNone = false := by cases z'' with
            | nil => exact absurd rfl hne
            | cons => rfl
          show _ + (if (upIdx z'').isNone = true then
              if zlen z + 1 ≠ total then .step (.err (.signatureSequence (zlen z + 1))) else .step (.ok (bufZ k z'' ++ junk))
            else parseLoopT k total rest (zlen z + 1) (bufZ k z'' ++ junk) (posOf z'') (upIdx z'') : Timed Buf).2 ≤ _
          rw [if_neg (by rw [hsome]; decide)]
          have e1 : zlen z + 1 = zlen z'' := by omega
          rw [e1]
          have := ih z'' junk (by omega) (by omega) (fun _ => hne)
          omega
      have hrole := role_spec e
      cases hr : role e with
      | leaf t =>
        rw [hr] at hrole
        obtain ⟨_, hsz, _, ho, hc⟩ := hrole
        rw [ho, hc]
        simp only [Bool.false_eq_true, if_false, leave]
        have hb : bufZ k z ++ some (mkN k e (offOf z) (posOf z)) :: junk
            = bufZ k z ++ (bufT k t (offOf z) (posOf z) ++ junk) := by rw [leaf_buf k hr]; rfl
        rw [hb]
        have := tail_time z t (by omega)
        rw [step_bind]
        refine Nat.le_trans (Nat.add_le_add_right this 1) (by omega)
      | opn f =>
        rw [hr] at hrole
        obtain ⟨_, hsz, hcnt, ho⟩ := hrole
        rw [ho]
        simp only [if_true]
        have hb : bufZ k z ++ some (mkN k e (offOf z) (posOf z)) :: junk = bufZ k (f :: z) ++ junk := by
          rw [opn_buf k hr]; simp
        have h1 : zlen (f :: z) = zlen z + 1 := by simp only [zlen, hsz]
        have h2 : posOf (f :: z) = 0 := hcnt
        have := ih (f :: z) junk (by omega) (by omega) (fun _ => by simp)
        rw [h1, h2] at this
        rw [hb]
        simp only [List.length_cons] at this
        exact Nat.le_trans (Nat.add_le_add_right this 1) (by omega)
      | cls d =>
        rw [hr] at hrole
        obtain ⟨hel, ho, hc⟩ := hrole
        rw [ho, hc]
        simp only [Bool.false_eq_true, if_false, if_true, leave]
        subst hel
        cases z with
        | nil => simp only [upIdx, Timed.bind, Timed.step]; omega
        | cons f z =>
          simp only [upIdx]
          by_cases hm : f.el = opnEl d
          · obtain ⟨done, rfl⟩ : ∃ done, f = .unb d done := by
              match f, hm with
              | .bound m, hm => cases m <;> cases d <;> simp [Frame.el, opnEl] at hm
              | .unb d' done, hm => cases d' <;> cases d <;> simp [Frame.el, opnEl] at hm <;> exact ⟨done, rfl⟩
            rw [close_ok k z d done junk (by omega)]
            cases hcl : closed d done with
            | none => simp only [Res.bind, Timed.bind, Timed.step]; omega
            | some t =>
              have hts := closed_size hcl
              have := tail_time z t (by simp only [zlen, Frame.size]; omega)
              simp only [bind_ok, step_bind, List.length_cons]
              exact Nat.le_trans (Nat.add_le_add_right this 1) (by omega)
          · rw [close_mismatch k f z d junk hm (by omega)]
            simp only [Res.bind, Timed.bind, Timed.step]; omega

theorem parse_time (k : Kind) (bs : List UInt8) (b : Buf) (hb : bs.length ≤ b.length) : (k.parseT b bs).2 ≤ 2 * bs.length := by
  unfold Kind.parseT
  split
  · exact Nat.zero_le _
  · rename_i h
    cases bs with
    | nil => exact Nat.zero_le _
    | cons c bs =>
      rw [if_neg (by simp)]
      have := loop_time k (c :: bs).length (by omega) (c :: bs) [] b (by simp [zlen]) hb (by simp)
      simpa [bufZ, nodesZ, upIdx, posOf, zlen] using this

theorem bind_time {α β : Type} (x : Timed α) (f : α → Timed β) (h : ∀ a, (f a).2 = 0) : (Timed.bind x f).2 = x.2 := by
  obtain ⟨r, n⟩ := x
  cases r <;> simp [Timed.bind, h]

theorem step_time {α β : Type} (x : Res α) (f : α → Timed β) (n : Nat) (h : ∀ a, x = .ok a → (f a).2 ≤ n) : (Timed.bind (.step x) f).2 ≤ n := by
  cases x with
  | ok a => simpa [Timed.bind, Timed.step] using h a rfl
  | _ => simp [Timed.bind, Timed.step]

theorem new_time (bs : List UInt8) : (Sig.newT bs).2 ≤ 2 * bs.length := by
  unfold Sig.newT
  refine step_time _ _ _ fun size hs => ?_
  rw [bind_time _ _ fun b => ?_]
  · unfold sigParseT
    rw [bind_time _ _ fun b => by split <;> rfl]
    refine parse_time _ _ _ ?_
    rw [List.length_replicate]
    have hc : size = bs.length * (kindFor bs.length).coeff := by
      unfold sizeForLength at hs
      unfold kindFor
      split at hs
      · rw [if_pos ‹_›]; cases hs; rfl
      · rw [if_neg ‹_›]
        split at hs
        · split at hs
          · cases hs; rfl
          · cases hs
        · cases hs
    have hpos : 0 < (kindFor bs.length).coeff := by cases kindFor bs.length <;> decide
    rw [hc, Nat.mul_mod_left, Nat.sub_zero, Nat.mul_div_cancel _ hpos]
    exact Nat.le_refl _
  · cases b.assumeInit <;> rfl

end Verif.Dbus
