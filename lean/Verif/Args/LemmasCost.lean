import Verif.Args.ModelCost
/-! # Lemmas about the steps it takes to link commands -/
namespace Verif.Args

/-- The commands reached by following the links from a command. -/
inductive Chain (ups : List (Option Nat)) : Option Nat → List Nat → Prop
  | nil : Chain ups none []
  | cons (k : Nat) (l : List Nat) : Chain ups (ups[k]?.getD none) l → Chain ups (some k) (k :: l)

variable {ups : List (Option Nat)} {paths : List Path}

/-- Links lead back. -/
def Back (ups : List (Option Nat)) : Prop := ∀ k j : Nat, ups[k]?.getD none = some j → j < k

theorem Chain.bound (hb : Back ups) {o : Option Nat} {l : List Nat} (h : Chain ups o l) : ∀ k, o = some k → ∀ j ∈ l, j ≤ k := by
  induction h with
  | nil => intro k h; cases h
  | cons k l h ih =>
    intro k' hk j hj
    cases hk
    rcases List.mem_cons.mp hj with rfl | hj
    · exact Nat.le_refl _
    · generalize ho : ups[k]?.getD none = o at h ih
      cases o with
      | none => cases h; cases hj
      | some i =>
        have := hb k i ho
        have := ih i rfl j hj
        omega

theorem Chain.nodup (hb : Back ups) {o : Option Nat} {l : List Nat} (h : Chain ups o l) : l.Nodup := by
  induction h with
  | nil => exact List.nodup_nil
  | cons k l h ih =>
    refine List.nodup_cons.mpr ⟨fun hk => ?_, ih⟩
    generalize ho : ups[k]?.getD none = o at h
    cases o with
    | none => cases h; cases hk
    | some i =>
      have := hb k i ho
      have := h.bound hb i rfl k hk
      omega

theorem Chain.length_le (hb : Back ups) {o : Option Nat} {l : List Nat} (h : Chain ups o l) : ∀ k, o = some k → l.length ≤ k + 1 := by
  induction h with
  | nil => intro k h; cases h
  | cons k l h ih =>
    intro k' hk
    cases hk
    generalize ho : ups[k]?.getD none = o at h ih
    cases o with
    | none => cases h; simp
    | some i =>
      have := hb k i ho
      have := ih i rfl
      simp only [List.length_cons]; omega

/-- The links of commands before the end stay when there are more. -/
theorem Chain.snoc (hb : Back ups) (x : Option Nat) {o : Option Nat} {l : List Nat} (h : Chain ups o l) :
    (∀ k, o = some k → k < ups.length) → Chain (ups ++ [x]) o l := by
  induction h with
  | nil => intro _; exact .nil
  | cons k l h ih =>
    intro hk
    have hk := hk k rfl
    have e : (ups ++ [x])[k]?.getD none = ups[k]?.getD none := by rw [List.getElem?_append_left hk]
    refine .cons k l ?_
    rw [e]
    refine ih fun j hj => ?_
    have := hb k j hj
    omega

theorem chain_exists (hb : Back ups) : ∀ n k, k < n → ∃ l, Chain ups (some k) l
  | 0, k, h => by omega
  | n + 1, k, h => by
    cases ho : ups[k]?.getD none with
    | none => exact ⟨[k], .cons k [] (by rw [ho]; exact .nil)⟩
    | some j =>
      have := hb k j ho
      obtain ⟨l, hl⟩ := chain_exists hb n j (by omega)
      exact ⟨k :: l, .cons k l (by rw [ho]; exact hl)⟩

/-- A walk passes over a part of the chain and ends at what follows. -/
theorem walk_split (path : Path) {o : Option Nat} {l : List Nat} (h : Chain ups o l) : ∀ fuel, l.length < fuel →
    (∀ k ∈ l, k < paths.length) → ∃ a b, l = a ++ b ∧ walkVisits paths ups path fuel o = a ++ b.take 1
      ∧ walkUp paths ups path fuel o = b.head? ∧ Chain ups b.head? b := by
  induction h with
  | nil =>
    intro fuel hf _
    cases fuel with
    | zero => cases hf
    | succ f => exact ⟨[], [], rfl, rfl, rfl, .nil⟩
  | cons k l h ih =>
    intro fuel hf hp
    cases fuel with
    | zero => cases hf
    | succ f =>
      have hk := hp k List.mem_cons_self
      have e : paths[k]? = some paths[k] := List.getElem?_eq_getElem hk
      rw [walkVisits, walkUp, e]
      simp only []
      by_cases hq : paths[k].isPrefixOf path = true
      · refine ⟨[], k :: l, rfl, ?_, ?_, .cons k l h⟩
        · rw [if_pos hq]; rfl
        · rw [if_pos hq]; rfl
      · rw [if_neg hq, if_neg hq]
        obtain ⟨a, b, h1, h2, h3, h4⟩ := ih f (by simp at hf; omega) fun j hj => hp j (List.mem_cons_of_mem _ hj)
        refine ⟨k :: a, b, by rw [h1]; rfl, by rw [h2]; rfl, h3, h4⟩

theorem passes (rest : List Path) : ∀ (ups : List (Option Nat)) (P : List Nat), Back ups → ups.length + rest.length = paths.length →
    P.Nodup → (∀ k ∈ P, k < ups.length) → (∀ i l, ups.length = i + 1 → Chain ups (some i) l → ∀ k ∈ l, k ∉ P) →
    (P ++ ((compileVisits paths rest ups).map passed).flatten).Nodup
    ∧ ∀ x ∈ compileVisits paths rest ups, x.1.length ≤ (passed x).length + 1 := by
  induction rest with
  | nil => intro ups P _ _ hn _ _; exact ⟨by simpa [compileVisits] using hn, by intro x hx; cases hx⟩
  | cons p rest ih =>
    intro ups P hb hlen hn hP hc
    -- the chain of the previous command
    have ⟨l, hl, hlt, hdis⟩ : ∃ l, Chain ups (prev ups.length) l ∧ (∀ k ∈ l, k < ups.length)
        ∧ ∀ k ∈ l, k ∉ P := by
      cases hi : ups.length with
      | zero => exact ⟨[], .nil, by simp, by simp⟩
      | succ i =>
        obtain ⟨l, hl⟩ := chain_exists hb (i + 1) i (by omega)
        refine ⟨l, hl, fun k hk => ?_, hc i l hi hl⟩
        have := hl.bound hb i rfl k hk
        omega
    have hfuel : l.length < ups.length + 1 := by
      cases hi : ups.length with
      | zero => rw [hi] at hl; cases hl; simp
      | succ i =>
        rw [hi] at hl
        have := hl.length_le hb i rfl
        omega
    obtain ⟨a, b, h1, h2, h3, h4⟩ := walk_split (paths := paths) p hl (ups.length + 1) hfuel fun k hk => by
      have := hlt k hk
      simp only [List.length_cons] at hlen
      omega
    have hnd := hl.nodup hb
    rw [h1] at hnd hlt hdis
    have hpass : passed (a ++ b.take 1, b.head?) = a := by
      cases b with
      | nil => simp [passed]
      | cons x b => simp [passed]
    have e : compileVisits paths (p :: rest) ups = (a ++ b.take 1, b.head?) :: compileVisits paths rest (ups ++ [b.head?]) := by
      rw [compileVisits, h2, h3]
    rw [e]
    have hb' : Back (ups ++ [b.head?]) := by
      intro k j hkj
      rcases Nat.lt_trichotomy k ups.length with hk | hk | hk
      · rw [List.getElem?_append_left hk] at hkj
        exact hb k j hkj
      · subst hk
        rw [List.getElem?_append_right (Nat.le_refl _), Nat.sub_self] at hkj
        simp only [List.getElem?_cons_zero, Option.getD_some] at hkj
        cases b with
        | nil => cases hkj
        | cons x b =>
          cases hkj
          exact hlt _ (List.mem_append_right _ List.mem_cons_self)
      · rw [List.getElem?_eq_none (by simp; omega)] at hkj
        cases hkj
    have key := ih (ups ++ [b.head?]) (P ++ a) hb' (by simp only [List.length_append, List.length_cons, List.length_nil] at hlen ⊢; omega)
      (by
        rw [List.nodup_append] at hnd ⊢
        refine ⟨hn, hnd.1, fun x hx y hy hxy => ?_⟩
        subst hxy
        exact hdis x (List.mem_append_left _ hy) hx)
      (by
        intro k hk
        rw [List.length_append]
        rcases List.mem_append.mp hk with hk | hk
        · have := hP k hk; omega
        · have := hlt k (List.mem_append_left _ hk); omega)
      (by
        intro i l' hi hl' k hk hmem
        simp only [List.length_append, List.length_cons, List.length_nil, Nat.add_right_cancel_iff] at hi
        subst hi
        cases hl' with
        | cons _ l' hl' =>
          rw [List.getElem?_append_right (Nat.le_refl _), Nat.sub_self] at hl'
          simp only [List.getElem?_cons_zero, Option.getD_some] at hl'
          have hbl : l' = b := by
            have h5 := h4.snoc hb b.head? fun k hk => by
              cases b with
              | nil => cases hk
              | cons x b => cases hk; exact hlt _ (List.mem_append_right _ List.mem_cons_self)
            have huniq : ∀ {o : Option Nat} {x y : List Nat}, Chain (ups ++ [b.head?]) o x → Chain (ups ++ [b.head?]) o y → x = y := by
              intro o x y hx
              induction hx generalizing y with
              | nil => intro hy; cases hy; rfl
              | cons k x _ ih => intro hy; cases hy with | cons _ _ hy => rw [ih hy]
            exact huniq hl' h5
          subst hbl
          rcases List.mem_cons.mp hk with rfl | hk
          · rcases List.mem_append.mp hmem with hm | hm
            · have := hP _ hm; omega
            · have := hlt _ (List.mem_append_left _ hm); omega
          · rcases List.mem_append.mp hmem with hm | hm
            · exact hdis k (List.mem_append_right _ hk) hm
            · rw [List.nodup_append] at hnd
              exact hnd.2.2 k hm k hk rfl)
    refine ⟨?_, ?_⟩
    · rw [List.map_cons, List.flatten_cons, hpass, ← List.append_assoc]
      exact key.1
    · intro x hx
      rcases List.mem_cons.mp hx with rfl | hx
      · rw [hpass]
        simp only [List.length_append, List.length_take]
        omega
      · exact key.2 x hx

theorem passed_below (rest : List Path) : ∀ (ups : List (Option Nat)), ∀ x ∈ compileVisits paths rest ups, ∀ k ∈ passed x,
    k < paths.length := by
  have hw : ∀ (fuel : Nat) (ups : List (Option Nat)) (p : Path) (o : Option Nat), ∀ k ∈ walkVisits paths ups p fuel o, k < paths.length := by
    intro fuel
    induction fuel with
    | zero => intro ups p o k hk; simp [walkVisits] at hk
    | succ f ih =>
      intro ups p o k hk
      cases o with
      | none => simp [walkVisits] at hk
      | some u =>
        rw [walkVisits] at hk
        cases hu : paths[u]? with
        | none => rw [hu] at hk; cases hk
        | some q =>
          rw [hu] at hk
          rcases List.mem_cons.mp hk with rfl | hk
          · exact (List.getElem?_eq_some_iff.mp hu).1
          · split at hk
            · cases hk
            · exact ih _ _ _ k hk
  induction rest with
  | nil => intro ups x hx; cases hx
  | cons p rest ih =>
    intro ups x hx k hk
    rcases List.mem_cons.mp hx with rfl | hx
    · have hsub : k ∈ walkVisits paths ups p (ups.length + 1) (prev ups.length) := by
        unfold passed at hk
        split at hk
        · exact List.dropLast_subset _ hk
        · exact hk
      exact hw _ _ _ _ k hsub
    · exact ih _ x hx k hk

theorem nodup_length (n : Nat) : ∀ l : List Nat, l.Nodup → (∀ k ∈ l, k < n) → l.length ≤ n := by
  induction n with
  | zero =>
    intro l _ h
    cases l with
    | nil => exact Nat.le_refl _
    | cons x l => exact absurd (h x List.mem_cons_self) (Nat.not_lt_zero _)
  | succ n ih =>
    intro l hn h
    have h1 := ih (l.erase n) (hn.erase n) fun k hk => by
      have h2 := h k (List.mem_of_mem_erase hk)
      have h3 : k ≠ n := (hn.mem_erase_iff.mp hk).1
      omega
    by_cases hm : n ∈ l
    · rw [List.length_erase_of_mem hm] at h1; omega
    · rw [List.erase_of_not_mem hm] at h1; omega

end Verif.Args
