import Verif.Str.SpecSort
import Verif.Str.PropsNatural
import Verif.Str.PropsScan
/-! # Helper lemmas: lists in natural order, symbols -/
namespace Verif.Str

theorem le_of_gt {cc : CharClass} {a b : List Char} (h : cmp_natural cc a b = .gt) : cmp_natural cc b a ≠ .gt := by
  rw [cmp_natural_antisymm cc a b, h]
  decide

theorem isLE_iff (o : Ordering) : o ≠ .gt ↔ o.isLE = true := by cases o <;> decide

theorem le_trans_sortable {cc : CharClass} {a b c : List Char} (ha : Sortable cc a) (hb : Sortable cc b) (hc : Sortable cc c)
    (h1 : cmp_natural cc a b ≠ .gt) (h2 : cmp_natural cc b c ≠ .gt) : cmp_natural cc a c ≠ .gt := by
  rw [isLE_iff] at *
  exact (cmp_natural_sortable_trans cc a b c ha hb hc).1 h1 h2

theorem insert_sorted (cc : CharClass) (s : List Char) (hs : Sortable cc s) : ∀ l : List (List Char), (∀ x ∈ l, Sortable cc x) → InOrder cc l →
    ∃ l', Sorted cc (s :: l) l'
  | [], _, _ => ⟨[s], List.Perm.refl _, by unfold InOrder; simp⟩
  | a :: l, hl, ho => by
    have ha := hl a (List.mem_cons_self ..)
    have hl' : ∀ x ∈ l, Sortable cc x := fun x h => hl x (List.mem_cons_of_mem _ h)
    unfold InOrder at ho
    rw [List.pairwise_cons] at ho
    by_cases h : cmp_natural cc s a = .gt
    · obtain ⟨l', hp, hi⟩ := insert_sorted cc s hs l hl' ho.2
      refine ⟨a :: l', (hp.cons a).trans (List.Perm.swap s a l), ?_⟩
      unfold InOrder
      rw [List.pairwise_cons]
      refine ⟨fun x hx => ?_, hi⟩
      rcases List.mem_cons.mp (hp.mem_iff.mp hx) with rfl | hx
      · exact le_of_gt h
      · exact ho.1 x hx
    · refine ⟨s :: a :: l, List.Perm.refl _, ?_⟩
      unfold InOrder
      rw [List.pairwise_cons, List.pairwise_cons]
      refine ⟨fun x hx => ?_, ho⟩
      rcases List.mem_cons.mp hx with rfl | hx
      · exact h
      · exact le_trans_sortable hs ha (hl' x hx) h (ho.1 x hx)

theorem blank_iff (cc : CharClass) (c : Char) : Blank cc c ↔ (if cc.alnum c then c else '_') = '_' := by
  unfold Blank CharClass.alnum
  cases cc.alpha c <;> cases cc.num c <;> simp

theorem alike_map (cc : CharClass) : ∀ a b : List Char, Alike cc a b ↔
    a.map (fun c => if cc.alnum c then c else '_') = b.map (fun c => if cc.alnum c then c else '_')
  | [], [] => ⟨fun _ => rfl, fun _ => .nil⟩
  | [], d :: b => ⟨nofun, nofun⟩
  | c :: a, [] => ⟨nofun, nofun⟩
  | c :: a, d :: b => by
    rw [List.map_cons, List.map_cons, List.cons.injEq, ← alike_map cc a b]
    constructor
    · intro h
      cases h with
      | same c h => exact ⟨rfl, h⟩
      | blank hc hd h => exact ⟨((blank_iff cc c).mp hc).trans ((blank_iff cc d).mp hd).symm, h⟩
    · rintro ⟨h, h'⟩
      by_cases h1 : cc.alnum c = true
      · by_cases h2 : cc.alnum d = true
        · rw [if_pos h1, if_pos h2] at h
          subst h
          exact .same c h'
        · rw [if_neg h2] at h
          exact .blank ((blank_iff cc c).mpr h) ((blank_iff cc d).mpr (if_neg h2)) h'
      · rw [if_neg h1] at h
        exact .blank ((blank_iff cc c).mpr (if_neg h1)) ((blank_iff cc d).mpr h.symm) h'

/-- Whether an underscore is put in front. -/
def prefixed (cc : CharClass) (s : List Char) : Bool := (s.head?.map cc.num).getD true

theorem prefixed_iff (cc : CharClass) (s : List Char) : prefixed cc s = true ↔ (s = [] ∨ ∃ d s', s = d :: s' ∧ cc.num d = true) := by
  cases s with
  | nil => simp [prefixed]
  | cons c s => simp [prefixed]

theorem blank_not_num (cc : CharClass) (c : Char) (h : Blank cc c) : cc.num c = false := by
  rcases h with rfl | h
  · exact cc.num_underscore
  · exact h.2

theorem symbolize_prefixed (cc : CharClass) (s : List Char) :
    symbolize cc s = (if prefixed cc s then ['_'] else []) ++ s.map (fun c => if cc.alnum c then c else '_') := rfl

theorem shifted_symbol {cc : CharClass} {a b : List Char} (ha : prefixed cc a = true) (hb : prefixed cc b = false) :
    symbolize cc a = symbolize cc b ↔ ∃ c b', b = c :: b' ∧ Blank cc c ∧ Alike cc a b' := by
  rw [symbolize_prefixed, symbolize_prefixed, ha, hb]
  cases b with
  | nil => simp [prefixed] at hb
  | cons c b =>
    simp only [if_true, Bool.false_eq_true, if_false, List.nil_append, List.singleton_append, List.map_cons, List.cons.injEq, alike_map, blank_iff]
    constructor
    · rintro ⟨h1, h2⟩; exact ⟨c, b, ⟨rfl, rfl⟩, h1.symm, h2⟩
    · rintro ⟨_, _, ⟨rfl, rfl⟩, h1, h2⟩; exact ⟨h1.symm, h2⟩

end Verif.Str
