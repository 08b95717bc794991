import Verif.Args.ModelMetered
import Verif.Args.SpecMetered
import Verif.Args.PropsLookup
import Verif.Args.LemmasRefine
/-! # Lemmas: comparisons of a whole run -/
namespace Verif.Args
variable {σ R : Type} (h : σ → Event → σ × Option R)

theorem bindM_fst {α β : Type} (x : Out σ R α) (f : σ → α → Out σ R β × Nat) (g : σ → α → Out σ R β)
    (hg : ∀ s a, (f s a).1 = g s a) : (x.bindM f).1 = x.bind g := by
  cases x with
  | cont s a => exact hg s a
  | brk s r => rfl
  | panic => rfl

theorem parse_longM_fst (sc : Schema) (cur : Cursor) (args : List Bytes) (s : σ) (flag : Bytes) (value : Option Bytes) :
    (parse_longM h sc cur args s flag value).1 = parse_long h stdSearcher sc cur args s flag value := by
  rw [parse_longM, parse_long, ← resolve_flagM_fst]
  rfl

theorem parse_commandM_fst (sc : Schema) (p : Parser) (s : σ) (arg : Bytes) (o : Option Bytes) :
    (parse_commandM h sc p s arg o).1 = parse_command h stdSearcher sc p s arg o := by
  cases o with
  | none => rfl
  | some v =>
    show orPanic (enterM sc p.cursor v).1 _ = orPanic (enter stdSearcher sc p.cursor v) _
    rw [enterM_fst]
    rfl

theorem parse_cursorM_fst (sc : Schema) (fuel : Nat) (p : Parser) (args : List Bytes) (s : σ) :
    (parse_cursorM h sc fuel p args s).1 = parse_cursor h stdSearcher sc fuel p args s := by
  induction fuel generalizing p args s with
  | zero => rfl
  | succ fuel ih =>
    cases args with
    | nil => rfl
    | cons arg args =>
      rw [parse_cursorM, parse_cursor]
      split
      · exact bindM_fst _ _ _ fun s _ => ih p args s
      · cases hs : (if p.flags_finalized then none else split_flag arg) with
        | none =>
          simp only []
          split
          · exact bindM_fst _ _ _ fun s _ => ih p args s
          · split
            · simp only [charge]
              rw [← parse_commandM_fst]
              exact bindM_fst _ _ _ fun s p => ih p args s
            · exact bindM_fst _ _ _ fun s _ => ih p args s
        | some x =>
          obtain ⟨flag, bad, value⟩ := x
          cases bad with
          | true => exact bindM_fst _ _ _ fun s _ => ih p args s
          | false =>
            have hlong : (charge (parse_longM h sc p.cursor args s flag value).2
                ((parse_longM h sc p.cursor args s flag value).1.bindM fun s args => parse_cursorM h sc fuel p args s)).1
                = (parse_long h stdSearcher sc p.cursor args s flag value).bind fun s args =>
                    parse_cursor h stdSearcher sc fuel p args s := by
              simp only [charge]
              rw [← parse_longM_fst]
              exact bindM_fst _ _ _ fun s args => ih p args s
            cases flag with
            | nil =>
              cases value with
              | none => exact ih _ args s
              | some v => exact hlong
            | cons a f => cases value <;> exact hlong

theorem bindM_le {α β : Type} (x : Out σ R α) (f : σ → α → Out σ R β × Nat) (B : Nat)
    (hB : ∀ s a, x = .cont s a → (f s a).2 ≤ B) : (x.bindM f).2 ≤ B := by
  cases x with
  | cont s a => exact hB s a rfl
  | brk s r => exact Nat.zero_le _
  | panic => exact Nat.zero_le _

theorem reach_length {S : List Command} {words : Path} (hr : Reach S words) {D : Nat} (hD : ∀ c ∈ S, c.path.length ≤ D) :
    words.length ≤ D := by
  rcases hr with rfl | hr
  · exact Nat.zero_le _
  · obtain ⟨c, hc, hp⟩ := List.any_eq_true.mp hr
    exact Nat.le_trans (List.isPrefixOf_iff_prefix.mp hp).length_le (hD c hc)

theorem longOutcome_sublist (S : List Command) (find : Path → Bytes → Option (Nat × Nat)) (words : Path) (name : Bytes)
    (value : Option Bytes) (args : List Bytes) : (longOutcome S find words name value args).2.Sublist args := by
  unfold longOutcome
  split
  · exact List.Sublist.refl _
  · simp only []
    split <;> try exact List.Sublist.refl _
    split
    · exact List.Sublist.refl _
    · exact List.sublist_cons_self ..

theorem dashed_sublist {l l' : List Bytes} (h : l.Sublist l') : dashed l ≤ dashed l' := h.countP_le

theorem split_dashed {arg : Bytes} {x : Bytes × Bool × Option Bytes} (h : split_flag arg = some x) (args : List Bytes) :
    dashed (arg :: args) = dashed args + 1 := by
  rw [dashed, List.countP_cons, if_pos]
  · rfl
  · rw [split_flag, Option.map_eq_some_iff] at h
    obtain ⟨dd, h1, _⟩ := h
    match arg, h1 with
    | [], h1 => rw [List.take_nil] at h1; cases h1
    | a :: rest, h1 =>
      generalize validUpTo (a :: rest) = n at h1
      match n, rest, h1 with
      | 0, _, h1 => cases h1
      | 1, _, h1 =>
        simp only [List.take, sDD, stripPrefix] at h1
        split at h1 <;> cases h1
      | n + 2, [], h1 =>
        simp only [List.take, sDD, stripPrefix] at h1
        split at h1 <;> cases h1
      | n + 2, b :: rest, h1 =>
        simp only [List.take, sDD, stripPrefix] at h1
        split at h1
        · split at h1
          · rename_i ha hb
            subst ha; subst hb
            simp [List.isPrefixOf]
          · cases h1
        · cases h1

/-- What words can cost from here on. -/
def wordsLeft (N D n : Nat) : Bool → Nat
  | true => (D - n + 1) * (clog N + 1) + (D - n) * N
  | false => 0

theorem parse_cursorM_le {sc : Schema} (hc : Compiled sc) (hd : (sc.cmds.map (·.path)).Nodup) {F D : Nat}
    (hF : ∀ c ∈ sc.cmds, c.flags.length ≤ F) (hD : ∀ c ∈ sc.cmds, c.path.length ≤ D) (fuel : Nat) (words : Path)
    (hr : Reach sc.cmds words) (cmds flags : Bool) (args : List Bytes) (s : σ) :
    (parse_cursorM h sc fuel ⟨!cmds, !flags, cursorOf sc.cmds words⟩ args s).2
      ≤ dashed args * (2 * ((D + 2) * (clog F + 1))) + wordsLeft sc.cmds.length D words.length cmds := by
  induction fuel generalizing words cmds flags args s with
  | zero => exact Nat.zero_le _
  | succ fuel ih =>
    cases args with
    | nil => exact Nat.zero_le _
    | cons arg args =>
      have hlen := reach_length hr hD
      have hmono : dashed args ≤ dashed (arg :: args) := dashed_sublist (List.sublist_cons_self ..)
      generalize hL : 2 * ((D + 2) * (clog F + 1)) = L at *
      have step : ∀ s, (parse_cursorM h sc fuel ⟨!cmds, !flags, cursorOf sc.cmds words⟩ args s).2
          ≤ dashed (arg :: args) * L + wordsLeft sc.cmds.length D words.length cmds := by
        intro s
        exact Nat.le_trans (ih words hr cmds flags args s) (Nat.add_le_add_right (Nat.mul_le_mul_right L hmono) _)
      have hmonoL := Nat.mul_le_mul_right L hmono
      have hlong : ∀ x, split_flag arg = some x → ∀ flag value, (charge (parse_longM h sc (cursorOf sc.cmds words) args s flag value).2
          ((parse_longM h sc (cursorOf sc.cmds words) args s flag value).1.bindM fun s args =>
            parse_cursorM h sc fuel ⟨!cmds, !flags, cursorOf sc.cmds words⟩ args s)).2
          ≤ dashed (arg :: args) * L + wordsLeft sc.cmds.length D words.length cmds := by
        intro x hx flag value
        rw [split_dashed hx, Nat.succ_mul]
        have h1 : (parse_longM h sc (cursorOf sc.cmds words) args s flag value).2 ≤ L := by
          refine Nat.le_trans (flag_fast hc hd F hF words flag) ?_
          rw [← hL]
          exact Nat.mul_le_mul_left 2 (Nat.mul_le_mul_right _ (by omega))
        have h2 := bindM_le (parse_longM h sc (cursorOf sc.cmds words) args s flag value).1
          (fun s args => parse_cursorM h sc fuel ⟨!cmds, !flags, cursorOf sc.cmds words⟩ args s)
          (dashed args * L + wordsLeft sc.cmds.length D words.length cmds) (by
            intro s' args' hx
            rw [parse_longM_fst, parse_long_eq h stdSearcher hc hr, andThen] at hx
            have hl := longOutcome_sublist sc.cmds (codeFind stdSearcher sc) words flag value args
            have he : args' = (longOutcome sc.cmds (codeFind stdSearcher sc) words flag value args).2 := by
              split at hx
              · injection hx with _ hx2
                exact hx2.symm
              · cases hx
            rw [← he] at hl
            exact Nat.le_trans (ih words hr cmds flags args' s') (Nat.add_le_add_right (Nat.mul_le_mul_right L (dashed_sublist hl)) _))
        simp only [charge]
        omega
      have hcommand : cmds = true → (charge (parse_commandM h sc ⟨!cmds, !flags, cursorOf sc.cmds words⟩ s arg
            (if isUtf8 arg then some arg else none)).2
          ((parse_commandM h sc ⟨!cmds, !flags, cursorOf sc.cmds words⟩ s arg
            (if isUtf8 arg then some arg else none)).1.bindM fun s p => parse_cursorM h sc fuel p args s)).2
          ≤ dashed (arg :: args) * L + wordsLeft sc.cmds.length D words.length cmds := by
        intro hcm
        subst hcm
        have hparam : ∀ n, n ≤ clog sc.cmds.length + 1 →
            (charge n (((report_parameter h sc (cursorOf sc.cmds words) s (some arg)).bind fun s _ =>
                (.cont s ⟨true, !flags, cursorOf sc.cmds words⟩ : Out σ R Parser)).bindM
              fun s p => parse_cursorM h sc fuel p args s)).2
            ≤ dashed (arg :: args) * L + wordsLeft sc.cmds.length D words.length true := by
          intro n hn
          have h2 := bindM_le ((report_parameter h sc (cursorOf sc.cmds words) s (some arg)).bind fun s _ =>
                (.cont s ⟨true, !flags, cursorOf sc.cmds words⟩ : Out σ R Parser))
            (fun s p => parse_cursorM h sc fuel p args s) (dashed args * L) (by
              intro s' p' hx
              have hp : p' = ⟨!false, !flags, cursorOf sc.cmds words⟩ := by
                generalize report_parameter h sc (cursorOf sc.cmds words) s (some arg) = y at hx
                cases y with
                | cont s2 a =>
                  injection hx with _ hx2
                  exact hx2.symm
                | brk s2 r => cases hx
                | panic => cases hx
              rw [hp]
              exact ih words hr false flags args s')
          simp only [charge, wordsLeft]
          rw [Nat.succ_mul]
          omega
        cases hu : isUtf8 arg with
        | false =>
          rw [if_neg (by simp)]
          exact hparam 0 (Nat.zero_le _)
        | true =>
          rw [if_pos rfl]
          have hw := word_comparisons hc hr arg
          have hw2 := (word_fast_partial hc hr arg).1
          have hcost : (parse_commandM h sc ⟨!true, !flags, cursorOf sc.cmds words⟩ s arg (some arg)).2
              = (enterM sc (cursorOf sc.cmds words) arg).2 := rfl
          have hfst : (parse_commandM h sc ⟨!true, !flags, cursorOf sc.cmds words⟩ s arg (some arg)).1
              = parse_command h stdSearcher sc ⟨!true, !flags, cursorOf sc.cmds words⟩ s arg (some arg) := parse_commandM_fst ..
          rw [hcost, hfst, parse_command]
          simp only []
          rw [enter_eq stdSearcher hc.sorted hr]
          cases hx : Extends sc.cmds (words ++ [arg]) with
          | false =>
            rw [if_neg (by simp)]
            refine hparam _ ?_
            have h0 : matching sc.cmds (words ++ [arg]) = 0 := by
              rw [matching, List.countP_eq_zero]
              exact List.any_eq_false.mp hx
            omega
          | true =>
            rw [if_pos rfl]
            have hlen2 := reach_length (Or.inr hx : Reach sc.cmds (words ++ [arg])) hD
            rw [List.length_append] at hlen2
            have hm : matching sc.cmds (words ++ [arg]) ≤ sc.cmds.length := List.countP_le_length
            have h2 := ih (words ++ [arg]) (Or.inr hx) true flags args s
            show (enterM sc (cursorOf sc.cmds words) arg).2
              + (parse_cursorM h sc fuel ⟨!true, !flags, cursorOf sc.cmds (words ++ [arg])⟩ args s).2 ≤ _
            rw [List.length_append] at h2
            simp only [wordsLeft, List.length_cons, List.length_nil, Nat.zero_add] at h2 hlen2 ⊢
            have e : D - words.length = D - (words.length + 1) + 1 := by omega
            rw [e, Nat.succ_mul (D - (words.length + 1) + 1), Nat.succ_mul (D - (words.length + 1)) sc.cmds.length]
            omega
      rw [parse_cursorM]
      cases flags with
      | false =>
        cases cmds with
        | false =>
          rw [if_pos (by simp)]
          exact bindM_le _ _ _ fun s _ _ => step s
        | true =>
          rw [if_neg (by simp)]
          simp only [Bool.not_false, if_true, Bool.not_true, Bool.false_and, if_false, Bool.false_eq_true]
          exact hcommand rfl
      | true =>
        rw [if_neg (by simp)]
        simp only [Bool.not_true, Bool.false_eq_true, if_false, Bool.not_false, Bool.true_and]
        cases hs : split_flag arg with
        | none =>
          simp only []
          split
          · exact bindM_le _ _ _ fun s _ _ => step s
          · split
            · exact hcommand (by simpa using ‹(!!cmds) = true›)
            · exact bindM_le _ _ _ fun s _ _ => step s
        | some x =>
          obtain ⟨flag, bad, value⟩ := x
          cases bad with
          | true => exact bindM_le _ _ _ fun s _ _ => step s
          | false =>
            cases flag with
            | nil =>
              cases value with
              | none =>
                have := ih words hr false false args s
                simp only [wordsLeft] at this
                exact Nat.le_trans this (by omega)
              | some v => exact hlong _ hs [] (some v)
            | cons a f => cases value <;> exact hlong _ hs (a :: f) _

end Verif.Args
