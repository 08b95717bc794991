import Verif.Cfg.SpecCfg
/-! # Lemmas on the compile-time configuration -/
namespace Verif.Cfg

mutual
theorem eval_iff (cfg : Config) : (p : Pred) → (p.eval cfg = true ↔ p.Holds cfg) ∧ (p.eval cfg = false ↔ (Pred.not p).Holds cfg)
  | .name n => by
    simp only [Pred.eval, List.contains_iff_mem]
    refine ⟨⟨fun h => .name n h, fun h => by cases h; assumption⟩, ?_⟩
    rw [← Bool.not_eq_true, List.contains_iff_mem]
    exact ⟨fun h => .notName n h, fun h => by cases h; assumption⟩
  | .pair k v => by
    simp only [Pred.eval, List.contains_iff_mem]
    refine ⟨⟨fun h => .pair k v h, fun h => by cases h; assumption⟩, ?_⟩
    rw [← Bool.not_eq_true, List.contains_iff_mem]
    exact ⟨fun h => .notPair k v h, fun h => by cases h; assumption⟩
  | .all ps => by
    have h := evalAll_iff cfg ps
    simp only [Pred.eval]
    refine ⟨⟨fun e => .all ps (h.1.mp e), fun e => h.1.mpr (by cases e; assumption)⟩, ?_⟩
    refine ⟨fun e => ?_, fun e => h.2.mpr (by cases e with | notAll _ p hp hn => exact ⟨p, hp, hn⟩)⟩
    obtain ⟨p, hp, hn⟩ := h.2.mp e
    exact .notAll ps p hp hn
  | .any ps => by
    have h := evalAny_iff cfg ps
    simp only [Pred.eval]
    refine ⟨⟨fun e => ?_, fun e => h.1.mpr (by cases e with | any _ p hp hn => exact ⟨p, hp, hn⟩)⟩, ?_⟩
    · obtain ⟨p, hp, hn⟩ := h.1.mp e
      exact .any ps p hp hn
    · exact ⟨fun e => .notAny ps (h.2.mp e), fun e => h.2.mpr (by cases e; assumption)⟩
  | .not p => by
    have h := eval_iff cfg p
    simp only [Pred.eval]
    refine ⟨by rw [Bool.not_eq_true']; exact h.2, ?_⟩
    rw [Bool.not_eq_false']
    exact ⟨fun e => .notNot p (h.1.mp e), fun e => h.1.mpr (by cases e; assumption)⟩
theorem evalAll_iff (cfg : Config) : (ps : List Pred) →
    (Pred.evalAll cfg ps = true ↔ ∀ p ∈ ps, p.Holds cfg) ∧ (Pred.evalAll cfg ps = false ↔ ∃ p ∈ ps, (Pred.not p).Holds cfg)
  | [] => by simp [Pred.evalAll]
  | p :: ps => by
    have h := eval_iff cfg p
    have hs := evalAll_iff cfg ps
    simp only [Pred.evalAll, Bool.and_eq_true, Bool.and_eq_false_iff, List.mem_cons, forall_eq_or_imp, exists_eq_or_imp]
    exact ⟨by rw [h.1, hs.1], by rw [h.2, hs.2]⟩
theorem evalAny_iff (cfg : Config) : (ps : List Pred) →
    (Pred.evalAny cfg ps = true ↔ ∃ p ∈ ps, p.Holds cfg) ∧ (Pred.evalAny cfg ps = false ↔ ∀ p ∈ ps, (Pred.not p).Holds cfg)
  | [] => by simp [Pred.evalAny]
  | p :: ps => by
    have h := eval_iff cfg p
    have hs := evalAny_iff cfg ps
    simp only [Pred.evalAny, Bool.or_eq_true, Bool.or_eq_false_iff, List.mem_cons, forall_eq_or_imp, exists_eq_or_imp]
    exact ⟨by rw [h.1, hs.1], by rw [h.2, hs.2]⟩
end

/-- Every predicate holds or does not hold. -/
theorem holds_not (cfg : Config) (p : Pred) : (Pred.not p).Holds cfg ↔ ¬ p.Holds cfg := by
  rw [← (eval_iff cfg p).2, ← (eval_iff cfg p).1, Bool.not_eq_true]

theorem evalAny_append (cfg : Config) (a b : List Pred) : Pred.evalAny cfg (a ++ b) = (Pred.evalAny cfg a || Pred.evalAny cfg b) := by
  induction a with
  | nil => simp [Pred.evalAny]
  | cons p a ih => simp [Pred.evalAny, ih, Bool.or_assoc]

/-- What the macro keeps: nothing once a condition before held, else the first arm whose condition holds or that has none. -/
theorem kept_internal {β : Type} (cfg : Config) (arms : List (Option Pred × β)) : ∀ acc,
    kept cfg (internal acc arms) =
      if Pred.evalAny cfg acc = true then []
      else kept cfg (internal [] arms) := by
  induction arms with
  | nil => intro acc; simp [internal, kept]
  | cons x arms ih =>
    intro acc
    obtain ⟨c, v⟩ := x
    have e : ∀ acc, kept cfg (internal acc ((c, v) :: arms)) =
        (if (Pred.evalAll cfg c.toList && !Pred.evalAny cfg acc) = true then [v] else []) ++ kept cfg (internal (acc ++ c.toList) arms) := by
      intro acc
      have e1 : (Pred.all (c.toList ++ [.not (.any acc)])).eval cfg = (Pred.evalAll cfg c.toList && !Pred.evalAny cfg acc) := by
        cases c <;> simp [Pred.eval, Pred.evalAll]
      simp only [internal, kept, List.filter_cons, e1]
      split <;> simp
    rw [e acc, e [], ih (acc ++ c.toList), ih ([] ++ c.toList), evalAny_append, List.nil_append]
    cases Pred.evalAny cfg acc <;> simp [Pred.evalAny]

theorem kept_cons {β : Type} (cfg : Config) (c : Option Pred) (v : β) (arms : List (Option Pred × β)) :
    kept cfg (internal [] ((c, v) :: arms)) =
      (if Pred.evalAll cfg c.toList = true then [v] else []) ++
        (if Pred.evalAny cfg c.toList = true then [] else kept cfg (internal [] arms)) := by
  have e1 : (Pred.all (c.toList ++ [.not (.any [])])).eval cfg = Pred.evalAll cfg c.toList := by
    cases c <;> simp [Pred.eval, Pred.evalAll, Pred.evalAny]
  have e2 : kept cfg (internal [] ((c, v) :: arms)) =
      (if Pred.evalAll cfg c.toList = true then [v] else []) ++ kept cfg (internal c.toList arms) := by
    simp only [internal, kept, List.filter_cons, e1]
    split <;> simp
  rw [e2, kept_internal cfg arms c.toList]

/-- Either some condition is the first one that holds, or none holds. -/
theorem first_or_none {β : Type} (cfg : Config) (arms : List (Pred × β)) :
    (∃ before c b after, arms = before ++ (c, b) :: after ∧ c.Holds cfg ∧ ∀ x ∈ before, ¬ x.1.Holds cfg) ∨
      ∀ x ∈ arms, ¬ x.1.Holds cfg := by
  induction arms with
  | nil => exact .inr (fun _ h => nomatch h)
  | cons x arms ih =>
    cases hx : x.1.eval cfg with
    | true => exact .inl ⟨[], x.1, x.2, arms, rfl, (eval_iff cfg x.1).1.mp hx, fun _ h => nomatch h⟩
    | false =>
      have hn : ¬ x.1.Holds cfg := (holds_not cfg x.1).mp ((eval_iff cfg x.1).2.mp hx)
      rcases ih with ⟨bf, c, b, af, rfl, hc, hb⟩ | ih
      · refine .inl ⟨x :: bf, c, b, af, rfl, hc, fun y hy => ?_⟩
        rcases List.mem_cons.mp hy with rfl | hy
        · exact hn
        · exact hb y hy
      · refine .inr (fun y hy => ?_)
        rcases List.mem_cons.mp hy with rfl | hy
        · exact hn
        · exact ih y hy

theorem eval_arch (p : Platform) (a : String) : (Pred.pair "target_arch" a).eval p.config = decide (a = p.arch) := by
  simp [Pred.eval, Platform.config]

theorem eval_env (p : Platform) (a : String) : (Pred.pair "target_env" a).eval p.config = decide (a = p.env) := by
  simp [Pred.eval, Platform.config]

theorem eval_width (p : Platform) (a : String) : (Pred.pair "target_pointer_width" a).eval p.config = decide (a = widthText p.target.ptr) := by
  simp [Pred.eval, Platform.config]

theorem eval_family (p : Platform) (a : String) : (Pred.pair "target_family" a).eval p.config = decide (a ∈ p.families) := by
  simp [Pred.eval, Platform.config]

theorem eval_feature (p : Platform) (a : String) : (Pred.pair "feature" a).eval p.config = decide (a ∈ p.features) := by
  simp [Pred.eval, Platform.config]

end Verif.Cfg
