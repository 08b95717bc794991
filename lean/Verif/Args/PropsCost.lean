import Verif.Args.LemmasCost
/-! # Properties: linking commands takes linear time

C88: layout.rs 422-423 says that the computation is linear, since the nested loop never visits an element twice, except if it
terminates. -/
namespace Verif.Args

variable {paths : List Path}

/-- C88. The loop that is counted is the loop that makes the links. -/
theorem visits_links (rest : List Path) : ∀ ups, compileUps paths rest ups = ups ++ (compileVisits paths rest ups).map (·.2) := by
  induction rest with
  | nil => intro ups; simp [compileUps, compileVisits]
  | cons p rest ih =>
    intro ups
    have e : compileUps paths (p :: rest) ups = compileUps paths rest (ups ++ [walkUp paths ups p (ups.length + 1) (prev ups.length)]) := by
      cases h : ups.length <;> simp only [compileUps, h, prev]
    rw [e, ih, compileVisits]
    simp

/-- C88. The visits that are counted are those of the walk: it visits the command it starts with, goes on from one that is
no prefix with the link of that one, and ends with the link it yields. -/
theorem visits_walk (ups : List (Option Nat)) (path : Path) (f k : Nat) (p : Path) (hp : paths[k]? = some p) :
    (p.isPrefixOf path = true → walkVisits paths ups path (f + 1) (some k) = [k] ∧ walkUp paths ups path (f + 1) (some k) = some k)
    ∧ (p.isPrefixOf path = false → walkVisits paths ups path (f + 1) (some k) = k :: walkVisits paths ups path f (ups[k]?.getD none)
        ∧ walkUp paths ups path (f + 1) (some k) = walkUp paths ups path f (ups[k]?.getD none)) := by
  rw [walkVisits, walkUp, hp]
  constructor <;> intro h <;> simp [h]

/-- C88. The last visit is to the command that is linked. -/
theorem visits_last (ups : List (Option Nat)) (path : Path) (f : Nat) :
    ∀ o u, walkUp paths ups path f o = some u → (walkVisits paths ups path f o).getLast? = some u := by
  induction f with
  | zero => intro o u h; simp [walkUp] at h
  | succ f ih =>
    intro o u h
    cases o with
    | none => simp [walkUp] at h
    | some k =>
      rw [walkUp] at h
      rw [walkVisits]
      cases hp : paths[k]? with
      | none => simp [hp] at h
      | some p =>
        rw [hp] at h
        simp only [] at h ⊢
        by_cases hq : p.isPrefixOf path = true
        · rw [if_pos hq] at h ⊢
          simpa using h
        · rw [if_neg hq] at h ⊢
          have := ih _ _ h
          rw [List.getLast?_cons, this]
          rfl

/-- C88. Whatever the commands: no command is visited twice by the loops which make the links, except if it ends the loop. -/
theorem never_twice (paths : List Path) : ((compileVisits paths paths []).map passed).flatten.Nodup := by
  have := (passes (paths := paths) paths [] [] (fun k j h => by simp at h) (by simp) List.nodup_nil (by simp) (by simp)).1
  simpa using this

/-- C88. Whatever the commands: making the links takes at most twice as many visits as there are commands. -/
theorem links_linear (paths : List Path) : ((compileVisits paths paths []).map (·.1.length)).sum ≤ 2 * paths.length := by
  have h1 := (passes (paths := paths) paths [] [] (fun k j h => by simp at h) (by simp) List.nodup_nil (by simp) (by simp)).2
  have h2 := nodup_length paths.length _ (never_twice paths) fun k hk => by
    obtain ⟨l, hl, hk⟩ := List.mem_flatten.mp hk
    obtain ⟨x, hx, rfl⟩ := List.mem_map.mp hl
    exact passed_below paths [] x hx k hk
  have h3 : (compileVisits paths paths []).length = paths.length := by
    have : ∀ (rest : List Path) (ups : List (Option Nat)), (compileVisits paths rest ups).length = rest.length := by
      intro rest
      induction rest with
      | nil => intro ups; rfl
      | cons p rest ih => intro ups; simp [compileVisits, ih]
    exact this _ _
  have h4 : ∀ xs : List (List Nat × Option Nat), (∀ x ∈ xs, x.1.length ≤ (passed x).length + 1) →
      (xs.map (·.1.length)).sum ≤ (xs.map passed).flatten.length + xs.length := by
    intro xs
    induction xs with
    | nil => intro _; simp
    | cons x xs ih =>
      intro h
      have h5 := h x List.mem_cons_self
      have h6 := ih fun y hy => h y (List.mem_cons_of_mem _ hy)
      simp only [List.map_cons, List.sum_cons, List.flatten_cons, List.length_append, List.length_cons]
      omega
  have := h4 _ h1
  omega

/-- A schema with nested commands: the last one passes over two others. -/
example : compileVisits [[], [[97]], [[97], [98]], [[98]]] [[], [[97]], [[97], [98]], [[98]]] []
    = [([], none), ([0], some 0), ([1], some 1), ([2, 1, 0], some 0)] := by decide +kernel

end Verif.Args
