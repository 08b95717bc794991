import Verif.Build.Lemmas
/-! # Properties of builds with Meson -/
namespace Verif.Build
variable {osi sys tmp : Text} {c r : List (Text × Lint)}

theorem plain_break {k : Text} (h : Plain k) : ∀ x ∈ k, isBreak x = false := fun x hx => (h x hx).2

theorem named_plain {t : List (Text × Lint)} (h : Tidy t) : ∀ a ∈ named t, a ≠ [] ∧ Plain a := by
  intro a ha
  simp only [named, allows, List.mem_map] at ha
  obtain ⟨k, ⟨kv, hk, rfl⟩, rfl⟩ := ha
  refine ⟨by simp, ?_⟩
  intro x hx
  rcases List.mem_append.mp hx with hx' | hx
  · clear hx
    revert x
    decide
  · exact (h kv (List.mem_filter.mp hk).1).1 x hx

theorem joined_break : ∀ (l : List Text), (∀ a ∈ l, Plain a) → ∀ x ∈ joined l, isBreak x = false
  | [], _, x, hx => by cases hx
  | [a], h, x, hx => plain_break (h a List.mem_cons_self) x hx
  | a :: b :: l, h, x, hx => by
    rw [joined] at hx
    · rcases List.mem_append.mp hx with hx | hx
      · exact plain_break (h a List.mem_cons_self) x hx
      · rcases List.mem_cons.mp hx with rfl | hx
        · decide
        · exact joined_break (b :: l) (fun y hy => h y (List.mem_cons_of_mem _ hy)) x hx
    · simp

theorem toml_lints_eq (hc : Tidy c) (hr : Tidy r) : toml_lints ⟨some c, some r⟩ = some (joined (named c ++ named r)) := by
  have h1 := lintLoop_eq c [] (fun kv hk => (hc kv hk).2) (by simp)
  have h2 := lintLoop_eq r (named c) (fun kv hk => (hr kv hk).2) fun a ha => (named_plain hc a ha).1
  rw [List.nil_append] at h1
  show (lintLoop c (joined [])).bind (fun acc => lintLoop r acc) = _
  rw [h1]
  exact h2

theorem queried_eq (ho : Plain osi) (hs : Plain sys) (ht : Plain tmp) {l : Text} (hl : ∀ x ∈ l, isBreak x = false) :
    queried (osi ++ ['\n'] ++ (sys ++ ['\n']) ++ (tmp ++ ['\n']) ++ (l ++ ['\n'])) = some ⟨(osi, sys, tmp), (major osi, major sys, major tmp), l⟩ := by
  have : splitlines [] (osi ++ ['\n'] ++ (sys ++ ['\n']) ++ (tmp ++ ['\n']) ++ (l ++ ['\n'])) = [osi, sys, tmp, l] := by
    simp only [List.append_assoc, List.cons_append, List.nil_append]
    rw [lines_line osi _ _ (plain_break ho), lines_line sys _ _ (plain_break hs), lines_line tmp _ _ (plain_break ht), lines_line l _ _ hl]
    simp [splitlines]
  simp only [queried, this]
  rfl

/-- C107. What Meson tells the compiler, for all tables whose names have no commas and no line breaks: every allowed lint of both groups, all of them with the
prefix of clippy; and an empty name if there are none. -/
theorem lints_passed (ho : Plain osi) (hs : Plain sys) (ht : Plain tmp) (hc : Tidy c) (hr : Tidy r) :
    mesonArgs osi sys tmp ⟨some c, some r⟩ =
      some (allowArgs (if named c ++ named r = [] then [[]] else named c ++ named r)) := by
  have hp : ∀ a ∈ named c ++ named r, a ≠ [] ∧ Plain a := by
    intro a ha
    rcases List.mem_append.mp ha with ha | ha
    · exact named_plain hc a ha
    · exact named_plain hr a ha
  have hq := queried_eq ho hs ht (joined_break _ fun a ha => (hp a ha).2)
  simp only [mesonArgs, query, toml_lints_eq hc hr, Option.bind_eq_bind, Option.bind_some, hq]
  unfold lintArgs allowArgs
  by_cases h : named c ++ named r = []
  · rw [h]; rfl
  · rw [if_neg h, split_joined _ h fun a ha x hx => ((hp a ha).2 x hx).1]

theorem allowArgs_inj : ∀ {a b : List Text}, allowArgs a = allowArgs b → a = b
  | [], [], _ => rfl
  | [], _ :: _, h => by simp [allowArgs] at h
  | _ :: _, [], h => by simp [allowArgs] at h
  | x :: a, y :: b, h => by
    simp only [allowArgs, List.flatMap_cons, List.cons_append, List.nil_append, List.cons.injEq, true_and] at h
    rw [h.1, allowArgs_inj h.2]

/-- C107, exact. Meson passes on the lints of the workspace as Cargo does if and only if no lint of the compiler itself is allowed, and some lint of clippy
is. -/
theorem lints_right_iff (ho : Plain osi) (hs : Plain sys) (ht : Plain tmp) (hc : Tidy c) (hr : Tidy r) :
    mesonArgs osi sys tmp ⟨some c, some r⟩ = some (allowArgs (cargoAllows c r)) ↔ allows r = [] ∧ allows c ≠ [] := by
  rw [lints_passed ho hs ht hc hr, Option.some.injEq]
  have hx : cargoAllows c r = named c ++ allows r := rfl
  have hnil : ∀ t, named t = [] ↔ allows t = [] := fun t => by simp [named]
  constructor
  · intro h
    have h := allowArgs_inj h
    rw [hx] at h
    split at h
    · rename_i hn
      obtain ⟨h1, h2⟩ := List.append_eq_nil_iff.mp hn
      rw [h1, (hnil r).mp h2] at h
      cases h
    · rename_i hn
      have h := List.append_cancel_left h
      have hr0 : allows r = [] := by
        cases ha : allows r with
        | nil => rfl
        | cons k l =>
          rw [named, ha, List.map_cons] at h
          have := congrArg List.length (List.cons.inj h).1
          rw [List.length_append] at this
          exact absurd this (by simp only [List.length_cons, List.length_nil]; omega)
      refine ⟨hr0, fun h0 => hn ?_⟩
      rw [(hnil c).mpr h0, (hnil r).mpr hr0]; rfl
  · intro ⟨h1, h2⟩
    rw [hx, (hnil r).mpr h1, h1, if_neg]
    rw [List.append_nil]
    exact fun h => h2 ((hnil c).mp h)

/-- C107. The part that holds. -/
theorem lints_partial (ho : Plain osi) (hs : Plain sys) (ht : Plain tmp) (hc : Tidy c) (hr : Tidy r) (hn : allows r = []) (hy : allows c ≠ []) :
    mesonArgs osi sys tmp ⟨some c, some r⟩ = some (allowArgs (cargoAllows c r)) := (lints_right_iff ho hs ht hc hr).mpr ⟨hn, hy⟩

/-- C107. Without one of the tables there is no build, whatever else there is. -/
theorem lints_missing (t : Option (List (Text × Lint))) : mesonArgs osi sys tmp ⟨none, t⟩ = none ∧ mesonArgs osi sys tmp ⟨t, none⟩ = none := by
  refine ⟨rfl, ?_⟩
  cases t with
  | none => rfl
  | some c =>
    have : toml_lints ⟨some c, none⟩ = none := by
      show (lintLoop c []).bind (fun _ => none) = none
      cases lintLoop c [] <;> rfl
    simp [mesonArgs, query, this]

theorem lintLoop_level : ∀ (t : List (Text × Lint)) (acc : Text) (k : Text), (k, Lint.table none) ∈ t → lintLoop t acc = none
  | (k', v) :: t, acc, k, h => by
    rcases List.mem_cons.mp h with h | h
    · cases h
      rfl
    · unfold lintLoop
      split
      · rfl
      · split
        · exact lintLoop_level t _ k h
        · exact lintLoop_level t _ k h

/-- C107. A lint whose table has no level ends the build as well, whatever else there is. -/
theorem lints_level (k : Text) (h : (k, Lint.table none) ∈ c ∨ (k, Lint.table none) ∈ r) : mesonArgs osi sys tmp ⟨some c, some r⟩ = none := by
  have : toml_lints ⟨some c, some r⟩ = none := by
    show (lintLoop c []).bind (fun acc => lintLoop r acc) = none
    rcases h with h | h
    · rw [lintLoop_level c [] k h]; rfl
    · cases lintLoop c [] with
      | none => rfl
      | some acc => exact lintLoop_level r acc k h
  simp [mesonArgs, query, this]

/-- C107. Libraries get the versions of their packages, and dependencies are named after what is before the first dot. -/
theorem versions_right (ho : Plain osi) (hs : Plain sys) (ht : Plain tmp) (hc : Tidy c) (hr : Tidy r) :
    ((query osi sys tmp ⟨some c, some r⟩).bind queried).map (fun q => (q.versions, q.majors))
      = some ((osi, sys, tmp), (osi.takeWhile (· ≠ '.'), sys.takeWhile (· ≠ '.'), tmp.takeWhile (· ≠ '.'))) := by
  have hp : ∀ a ∈ named c ++ named r, Plain a := by
    intro a ha
    rcases List.mem_append.mp ha with ha | ha
    · exact (named_plain hc a ha).2
    · exact (named_plain hr a ha).2
  have hq := queried_eq ho hs ht (joined_break _ hp)
  have hm : ∀ v : Text, major v = v.takeWhile (· ≠ '.') := by
    have key : ∀ (v cur : Text), (split '.' cur v).headD [] = cur ++ v.takeWhile (· ≠ '.') := by
      intro v
      induction v with
      | nil => intro cur; simp [split]
      | cons x v ih =>
        intro cur
        rw [split]
        by_cases hx : x = '.'
        · rw [if_pos hx]; simp [hx]
        · rw [if_neg hx, ih]; simp [hx]
    intro v
    exact (key v []).trans (List.nil_append _)
  simp only [query, toml_lints_eq hc hr, Option.bind_eq_bind, Option.bind_some, hq, Option.map_some, hm]

/-- The tables of the repository, Cargo.toml 35-49. -/
def repoClippy : List (Text × Lint) := [
  (chars! "assertions_on_constants", .text (chars! "allow")),
  (chars! "explicit_auto_deref", .text (chars! "allow")),
  (chars! "identity_op", .text (chars! "allow")),
  (chars! "inherent_to_string_shadow_display", .text (chars! "allow")),
  (chars! "len_zero", .text (chars! "allow")),
  (chars! "manual_range_contains", .text (chars! "allow")),
  (chars! "needless_late_init", .text (chars! "allow")),
  (chars! "new_without_default", .text (chars! "allow")),
  (chars! "should_implement_trait", .text (chars! "allow")),
  (chars! "redundant_field_names", .text (chars! "allow"))]

def repoRust : List (Text × Lint) := [(chars! "unexpected_cfgs", .table (some (chars! "warn")))]

instance (k : Text) : Decidable (Plain k) := inferInstanceAs (Decidable (∀ c ∈ k, _))
instance (t : List (Text × Lint)) : Decidable (Tidy t) := inferInstanceAs (Decidable (∀ kv ∈ t, _))

/-- The conditions hold for what is in the repository. -/
example : Tidy repoClippy ∧ Tidy repoRust ∧ Plain (chars! "1.0.0") ∧ allows repoRust = [] ∧ (allows repoClippy).length = 10 := by decide +kernel

/-- C107, disagreement. An allowed lint of the compiler is passed on as one of clippy, which does not exist. With no allowed lints at all, the compiler is told
to allow a lint without a name. A comma in a (quoted) name makes two of one. -/
theorem lints_wrong :
    mesonArgs (chars! "1.0.0") (chars! "1.0.0") (chars! "1.0.0") ⟨some repoClippy, some [(chars! "dead_code", .text (chars! "allow"))]⟩
        = some (allowArgs (named repoClippy ++ [chars! "clippy::dead_code"]))
    ∧ mesonArgs (chars! "1.0.0") (chars! "1.0.0") (chars! "1.0.0") ⟨some [], some []⟩ = some [chars! "-A", []]
    ∧ mesonArgs (chars! "1.0.0") (chars! "1.0.0") (chars! "1.0.0") ⟨some [(chars! "a,b", .text (chars! "allow"))], some []⟩
        = some [chars! "-A", chars! "clippy::a", chars! "-A", chars! "b"] := by decide +kernel

/-! ## Options -/

/-- C107. Apart from Polonius, options do what they say: for each choice there are features of the packages that Cargo compiles in the same way. -/
theorem options_partial (o : Options) : ∃ f : Features, f.polonius = false ∧ ∀ l, mesonCfg o l = cargoCfg f l := by
  refine ⟨⟨o.std, o.libc, o.std, false⟩, rfl, ?_⟩
  intro l
  cases l <;> simp [mesonCfg, cargoCfg]

/-- C107, exact: what Cargo can build and Meson can as well. -/
theorem options_iff (f : Features) : (∃ o : Options, ∀ l, mesonCfg o l = cargoCfg f l) ↔ f.polonius = false ∧ f.osiStd = f.sysStd := by
  obtain ⟨a, b, c, d⟩ := f
  constructor
  · intro ⟨⟨o1, o2, o3, o4⟩, h⟩
    have h1 := h .osi
    have h2 := h .sys
    have h3 := h .tmp
    clear h
    revert a b c d o1 o2 o3 o4
    decide +kernel
  · intro ⟨h1, h2⟩
    simp only at h1 h2
    subst h1 h2
    exact ⟨⟨false, b, false, a⟩, fun l => by cases l <;> simp [mesonCfg, cargoCfg]⟩

/-- C107, disagreement. The option for Polonius has no effect on any library. -/
theorem polonius_ignored (o : Options) (p : Bool) (l : Lib) : mesonCfg { o with polonius := p } l = mesonCfg o l ∧ Cfg.polonius ∉ mesonCfg o l := by
  refine ⟨rfl, ?_⟩
  obtain ⟨o1, o2, o3, o4⟩ := o
  revert o1 o2 o3 o4
  cases l <;> decide

/-! ## Reconfiguration -/

/-- C107, disagreement. Of the files that the script reads, those of the packages are not watched, whatever files there are. So a new version of a package is
not noticed. -/
theorem stale (exists_ : Text → Bool) (f : Text) (hf : f ∈ filesRead) : f ∈ filesWatched exists_ ↔ f = chars! "Cargo.toml" ∧ exists_ f = true := by
  have h : f ∈ filesNamed ↔ f = chars! "Cargo.toml" := by revert f; decide +kernel
  rw [filesWatched, List.mem_filter, h]

/-! ## The hypotheses are met -/

/-- Instances of `lints_passed`, `lints_right_iff`, `lints_partial`, `versions_right`, `lints_level` and `stale`, for what is in
the repository. -/
example := lints_passed (osi := chars! "1.0.0") (sys := chars! "1.0.0") (tmp := chars! "1.0.0") (c := repoClippy) (r := repoRust)
  (by decide +kernel) (by decide +kernel) (by decide +kernel) (by decide +kernel) (by decide +kernel)
example := lints_right_iff (osi := chars! "1.0.0") (sys := chars! "1.0.0") (tmp := chars! "1.0.0") (c := repoClippy) (r := repoRust)
  (by decide +kernel) (by decide +kernel) (by decide +kernel) (by decide +kernel) (by decide +kernel)
example := lints_partial (osi := chars! "1.0.0") (sys := chars! "1.0.0") (tmp := chars! "1.0.0") (c := repoClippy) (r := repoRust)
  (by decide +kernel) (by decide +kernel) (by decide +kernel) (by decide +kernel) (by decide +kernel) (by decide +kernel)
  (by decide +kernel)
example := versions_right (osi := chars! "1.0.0") (sys := chars! "1.0.0") (tmp := chars! "1.0.0") (c := repoClippy) (r := repoRust)
  (by decide +kernel) (by decide +kernel) (by decide +kernel) (by decide +kernel) (by decide +kernel)
example := lints_level (osi := chars! "1.0.0") (sys := chars! "1.0.0") (tmp := chars! "1.0.0") (c := repoClippy)
  (r := [(chars! "dead_code", .table none)]) (chars! "dead_code") (.inr List.mem_cons_self)
example : ∃ f ∈ filesRead, f ∉ filesWatched fun _ => true := by decide +kernel

end Verif.Build
