import Verif.Args.SpecSame
import Verif.Args.LemmasOrder
import Verif.Args.Spec
/-! # Lemmas: the same commands in another order -/
namespace Verif.Args

theorem nodup_inj {α β : Type} (key : α → β) : ∀ (l : List α), (l.map key).Nodup → ∀ a ∈ l, ∀ b ∈ l, key a = key b → a = b
  | [], _, _, ha, _, _, _ => by cases ha
  | x :: l, hnd, a, ha, b, hb, e => by
    rw [List.map_cons, List.nodup_cons] at hnd
    rcases List.mem_cons.mp ha with rfl | ha1 <;> rcases List.mem_cons.mp hb with rfl | hb1
    · rfl
    · exact absurd (e ▸ List.mem_map_of_mem hb1) hnd.1
    · exact absurd (e ▸ List.mem_map_of_mem ha1) hnd.1
    · exact nodup_inj key l hnd.2 a ha1 b hb1 e

/-- There is only one sorted order of elements with distinct keys. -/
theorem sorted_same {α β : Type} (cmp : β → β → Ordering) [Std.TransCmp cmp] [Std.LawfulEqCmp cmp] (key : α → β) (l₁ l₂ : List α)
    (hd : (l₂.map key).Nodup) (hp : l₁.Perm l₂) (h1 : l₁.Pairwise fun a b => cmp (key a) (key b) ≠ .gt)
    (h2 : l₂.Pairwise fun a b => cmp (key a) (key b) ≠ .gt) : l₁ = l₂ := by
  refine List.Perm.eq_of_pairwise (le := fun a b => cmp (key a) (key b) ≠ .gt) ?_ h1 h2 hp
  intro a b ha hb hab hba
  refine nodup_inj key l₂ hd a (hp.mem_iff.mp ha) b hb ?_
  cases hc : cmp (key a) (key b) with
  | lt => exact absurd (Std.OrientedCmp.gt_of_lt hc) hba
  | eq => exact Std.LawfulEqCmp.eq_of_compare hc
  | gt => exact absurd hc hab

theorem flags_same (so so' : Sorter) (fs gs : List Flag) (hp : fs.Perm gs) (hd : (fs.map (·.name)).Nodup) :
    FlagSet_compile so fs = FlagSet_compile so' gs := by
  have p1 := so.perm (fun a b : Flag => cmpStr a.name b.name) fs
  have p2 := so'.perm (fun a b : Flag => cmpStr a.name b.name) gs
  refine sorted_same cmpStr (·.name) _ _ ?_ (p1.trans (hp.trans p2.symm)) (so.sorted (fun a b : Flag => cmpStr a.name b.name) _)
    (so'.sorted (fun a b : Flag => cmpStr a.name b.name) _)
  exact ((p2.trans hp.symm).map _).nodup_iff.mpr hd

theorem reflagged_stored (so so' : Sorter) : ∀ {cs ds : List Command}, Reflagged cs ds → (∀ c ∈ cs, (c.flags.map (·.name)).Nodup) →
    cs.map (fun c => { c with flags := FlagSet_compile so c.flags }) = ds.map (fun c => { c with flags := FlagSet_compile so' c.flags })
  | _, _, .nil, _ => rfl
  | _, _, .cons c d cs ds h1 h2 h3 h, hn => by
    rw [List.map_cons, List.map_cons, reflagged_stored so so' h fun x hx => hn x (List.mem_cons_of_mem _ hx)]
    rw [flags_same so so' c.flags d.flags h3 (hn c (List.mem_cons_self ..)), h1, h2]

theorem compile_same (so so' : Sorter) (cs ds : List Command) (hs : SameCommands cs ds) (hu : Unambiguous cs) :
    compile so cs = compile so' ds := by
  obtain ⟨es, hp, hr⟩ := hs
  have he := reflagged_stored so so' hr fun c hc => hu.2 c (hp.mem_iff.mpr hc)
  have p1 := so.perm (fun a b : Command => cmpPath a.path b.path) (cs.map fun c => { c with flags := FlagSet_compile so c.flags })
  have p2 := so'.perm (fun a b : Command => cmpPath a.path b.path) (ds.map fun c => { c with flags := FlagSet_compile so' c.flags })
  have p3 := hp.map (fun c : Command => ({ c with flags := FlagSet_compile so c.flags } : Command))
  rw [he] at p3
  have hc : so.run (fun a b : Command => cmpPath a.path b.path) (cs.map fun c => { c with flags := FlagSet_compile so c.flags })
      = so'.run (fun a b : Command => cmpPath a.path b.path) (ds.map fun c => { c with flags := FlagSet_compile so' c.flags }) := by
    refine sorted_same cmpPath (·.path) _ _ ?_ (p1.trans (p3.trans p2.symm)) (so.sorted (fun a b : Command => cmpPath a.path b.path) _)
      (so'.sorted (fun a b : Command => cmpPath a.path b.path) _)
    refine ((p2.trans p3.symm).map _).nodup_iff.mpr ?_
    rw [List.map_map]
    exact hu.1
  simp only [compile, hc]

/-- If the names of the flags of each command are distinct, there is only one way to look up flags. -/
theorem lookup_unique {S : List Command} {find find' : Path → Bytes → Option (Nat × Nat)} (hn : ∀ c ∈ S, (c.flags.map (·.name)).Nodup)
    (hf : FlagLookup S find) (hf' : FlagLookup S find') : find = find' := by
  funext words name
  cases ha : anchor S words with
  | none => rw [hf.2 words name ha, hf'.2 words name ha]
  | some i =>
    obtain ⟨⟨a, hi, _⟩, _⟩ := anchor_some.mp ha
    have h := hf.1 words name i a ha hi
    have h' := hf'.1 words name i a ha hi
    have key : ∀ (c : Command) (f : Nat) (fl : Flag), c.flags[f]? = some fl → fl.name = name → hasFlag name c = true := by
      intro c f fl h1 h2
      rw [hasFlag, List.any_eq_true]
      exact ⟨fl, List.mem_of_getElem? h1, by simp [h2]⟩
    generalize find words name = x at h
    generalize find' words name = y at h'
    match x, y, h, h' with
    | none, none, _, _ => rfl
    | none, some (j, f), h, ⟨c, fl, h1, h2, h3, h4, h5, _⟩ =>
      have := h j c h2 h1 h3
      rw [key c f fl h4 h5] at this; cases this
    | some (j, f), none, ⟨c, fl, h1, h2, h3, h4, h5, _⟩, h' =>
      have := h' j c h2 h1 h3
      rw [key c f fl h4 h5] at this; cases this
    | some (j, f), some (k, g), ⟨c, fl, h1, h2, h3, h4, h5, h6⟩, ⟨d, gl, g1, g2, g3, g4, g5, g6⟩ =>
      have hjk : j = k := by
        rcases Nat.lt_trichotomy j k with hlt | heq | hlt
        · have := h6 k d hlt g2 g1 g3
          rw [key d g gl g4 g5] at this; cases this
        · exact heq
        · have := g6 j c hlt h2 h1 h3
          rw [key c f fl h4 h5] at this; cases this
      subst hjk
      rw [h1] at g1; cases g1
      have hnd := hn c (List.mem_of_getElem? h1)
      have e1 : (c.flags.map (·.name))[f]? = some name := by rw [List.getElem?_map, h4]; simp [h5]
      have e2 : (c.flags.map (·.name))[g]? = some name := by rw [List.getElem?_map, g4]; simp [g5]
      obtain ⟨b1, e1⟩ := List.getElem?_eq_some_iff.mp e1
      obtain ⟨b2, e2⟩ := List.getElem?_eq_some_iff.mp e2
      have := (List.getElem_inj (h₀ := b1) (h₁ := b2) hnd).mp (e1.trans e2.symm)
      rw [this]

theorem compile_names (so : Sorter) (cs : List Command) (hn : ∀ c ∈ cs, (c.flags.map (·.name)).Nodup) :
    ∀ c ∈ (compile so cs).cmds, (c.flags.map (·.name)).Nodup := by
  intro c hc
  have := (so.perm (fun a b : Command => cmpPath a.path b.path) _).mem_iff.mp hc
  rw [List.mem_map] at this
  obtain ⟨c0, h0, rfl⟩ := this
  exact ((so.perm _ _).map _).nodup_iff.mpr (hn c0 h0)

end Verif.Args
