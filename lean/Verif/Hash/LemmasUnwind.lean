import Verif.Hash.ModelUnwind
import Verif.Hash.PropsGeneric
/-! # Engines that are left behind by panics -/
namespace Verif.Hash

/-- Engines that differ at most in what is left in the buffer from earlier. -/
structure Same (a b : Engine) : Prop where
  hash : a.hash = b.hash
  rem : a.remaining = b.remaining
  total : a.total = b.total
  la : a.chunk.length = 64
  lb : b.chunk.length = 64
  pre : a.chunk.take (64 - a.remaining) = b.chunk.take (64 - a.remaining)

theorem Same.refl {a : Engine} (h : a.chunk.length = 64) : Same a a := ⟨rfl, rfl, rfl, h, h, rfl⟩

/-- The same answer, and the same engine. -/
def SameR {α : Type} (x y : Option α × Engine) : Prop := x.1 = y.1 ∧ Same x.2 y.2

theorem storeU_same {a b : Engine} (h : Same a b) (src : List Byte) : SameR (a.storeU src) (b.storeU src) := by
  obtain ⟨ha, hr, ht, la, lb, hp⟩ := h
  obtain ⟨ah, ac, ar, at'⟩ := a
  obtain ⟨bh, bc, br, bt⟩ := b
  simp only at ha hr ht la lb hp
  subst ha hr ht
  unfold Engine.storeU
  simp only [la, lb]
  by_cases h1 : ar ≤ 64
  · rw [if_pos h1, if_pos h1]
    unfold copy_at
    rw [la, lb]
    by_cases h2 : 64 - ar + src.length ≤ 64
    · rw [if_pos h2, if_pos h2]
      simp only []
      have e1 : (ac.take (64 - ar) ++ src).length = 64 - ar + src.length := by simp [la]
      have e2 : (bc.take (64 - ar) ++ src).length = 64 - ar + src.length := by simp [lb]
      have l1 : (ac.take (64 - ar) ++ src ++ ac.drop (64 - ar + src.length)).length = 64 := by
        rw [List.length_append, e1, List.length_drop, la]; omega
      have l2 : (bc.take (64 - ar) ++ src ++ bc.drop (64 - ar + src.length)).length = 64 := by
        rw [List.length_append, e2, List.length_drop, lb]; omega
      have hs : src.length ≤ ar := by omega
      have hq : (ac.take (64 - ar) ++ src ++ ac.drop (64 - ar + src.length)).take (64 - (ar - src.length))
          = (bc.take (64 - ar) ++ src ++ bc.drop (64 - ar + src.length)).take (64 - (ar - src.length)) := by
        rw [List.take_left' (by omega), List.take_left' (by omega), hp]
      rw [if_pos hs, if_pos hs]
      by_cases h3 : at' + src.length < 2 ^ 64
      · rw [if_pos h3, if_pos h3]
        by_cases h4 : ar - src.length = 0
        · rw [if_pos h4, if_pos h4, dif_pos l1, dif_pos l2]
          have hc : ac.take (64 - ar) ++ src ++ ac.drop (64 - ar + src.length) = bc.take (64 - ar) ++ src ++ bc.drop (64 - ar + src.length) := by
            have f1 := List.take_of_length_le (i := 64) (Nat.le_of_eq l1)
            have f2 := List.take_of_length_le (i := 64) (Nat.le_of_eq l2)
            rw [h4] at hq
            exact (f1.symm.trans hq).trans f2
          refine ⟨rfl, ?_, ?_, rfl, l1, l2, ?_⟩
          · simp only [hc]
          · simp only [hc]
          · simp only [hc]
        · rw [if_neg h4, if_neg h4]
          exact ⟨rfl, rfl, rfl, rfl, l1, l2, hq⟩
      · rw [if_neg h3, if_neg h3]
        exact ⟨rfl, rfl, rfl, rfl, l1, l2, hq⟩
    · rw [if_neg h2, if_neg h2]
      exact ⟨rfl, rfl, rfl, rfl, la, lb, hp⟩
  · rw [if_neg h1, if_neg h1]
    exact ⟨rfl, rfl, rfl, rfl, la, lb, hp⟩

theorem pushU_same : ∀ {a b : Engine} (_ : Same a b) (data : List Byte), SameR (a.pushU data) (b.pushU data) := by
  intro a b h data
  induction hn : a.turns data.length using Nat.strongRecOn generalizing a b data with
  | ind n ih =>
    rw [Engine.pushU, Engine.pushU]
    by_cases hd : data = []
    · rw [dif_pos hd, dif_pos hd]
      exact ⟨rfl, h⟩
    · rw [dif_neg hd, dif_neg hd]
      have hs := storeU_same h (data.take (min a.remaining data.length))
      rw [← h.rem]
      split
      · rename_i e1 h1
        split
        · rename_i e2 h2
          rw [h1, h2] at hs
          exact ⟨rfl, hs.2⟩
        · rename_i e2 h2
          rw [h1, h2] at hs
          cases hs.1
      · rename_i e1 h1
        split
        · rename_i e2 h2
          rw [h1, h2] at hs
          cases hs.1
        · rename_i e2 h2
          rw [h1, h2] at hs
          refine ih _ ?_ hs.2 _ rfl
          rw [← hn, List.length_drop]
          exact Engine.turns_lt (List.length_pos_iff.mpr hd) (by simp [List.length_take]) h1

theorem push_zeroU_same : ∀ {a b : Engine} (_ : Same a b) (len : Nat), SameR (a.push_zeroU len) (b.push_zeroU len) := by
  intro a b h len
  induction hn : a.turns len using Nat.strongRecOn generalizing a b len with
  | ind n ih =>
    rw [Engine.push_zeroU, Engine.push_zeroU]
    by_cases hd : len = 0
    · rw [dif_pos hd, dif_pos hd]
      exact ⟨rfl, h⟩
    · rw [dif_neg hd, dif_neg hd]
      have hs := storeU_same h (List.replicate (min a.remaining len) 0)
      rw [← h.rem]
      split
      · rename_i e1 h1
        split
        · rename_i e2 h2
          rw [h1, h2] at hs
          exact ⟨rfl, hs.2⟩
        · rename_i e2 h2
          rw [h1, h2] at hs
          cases hs.1
      · rename_i e1 h1
        split
        · rename_i e2 h2
          rw [h1, h2] at hs
          cases hs.1
        · rename_i e2 h2
          rw [h1, h2] at hs
          refine ih _ ?_ hs.2 _ rfl
          rw [← hn]
          exact Engine.turns_lt (by omega) (by simp) h1

theorem andThen_same {α β : Type} {x y : Option α × Engine} (h : SameR x y) {k l : α → Engine → Option β × Engine}
    (hk : ∀ v a b, Same a b → SameR (k v a) (l v b)) : SameR (andThen x k) (andThen y l) := by
  obtain ⟨x1, x2⟩ := x
  obtain ⟨y1, y2⟩ := y
  obtain ⟨h1, h2⟩ := h
  simp only at h1 h2
  subst h1
  cases x1 with
  | none => exact ⟨rfl, h2⟩
  | some v => exact hk v _ _ h2

theorem finalizeU_same {a b : Engine} (h : Same a b) : SameR a.finalizeU b.finalizeU := by
  have hh := h
  obtain ⟨ha, hr, ht, la, lb, hp⟩ := h
  obtain ⟨ah, ac, ar, at'⟩ := a
  obtain ⟨bh, bc, br, bt⟩ := b
  simp only at ha hr ht la lb hp
  subst ha hr ht
  unfold Engine.finalizeU
  simp only [la, lb]
  split
  · exact ⟨rfl, hh⟩
  · split
    · exact ⟨rfl, hh⟩
    · rename_i h0
      split
      · exact ⟨rfl, hh⟩
      · rename_i hle
        have hle : ar ≤ 64 := by omega
        have hm : Same ⟨ah, ac.set (64 - ar) 0x80, ar - 1, at'⟩ ⟨ah, bc.set (64 - ar) 0x80, ar - 1, at'⟩ := by
          refine ⟨rfl, rfl, rfl, by simpa using la, by simpa using lb, ?_⟩
          have e : 64 - (ar - 1) = (64 - ar) + 1 := by omega
          simp only [e]
          rw [List.take_add_one, List.take_add_one, List.take_set, List.take_set, List.getElem?_set_self (by omega),
            List.getElem?_set_self (by omega), hp]
        refine andThen_same ?_ ?_
        · split
          · exact push_zeroU_same hm _
          · exact ⟨rfl, hm⟩
        · intro _ a b hs
          rw [hs.rem]
          split
          · exact ⟨rfl, hs⟩
          · refine andThen_same (push_zeroU_same hs _) ?_
            intro _ a b hs
            refine andThen_same (pushU_same hs _) ?_
            intro _ a b hs
            rw [hs.rem, hs.la, hs.lb]
            split
            · exact ⟨rfl, hs⟩
            · refine ⟨by rw [hs.hash], rfl, rfl, rfl, hs.la, hs.lb, ?_⟩
              have q := hs.pre
              rw [hs.rem] at q
              exact q

theorem resetU_same {a : Engine} (h : a.chunk.length = 64) : Same a.reset Engine.default := by
  refine ⟨rfl, rfl, rfl, h, rfl, ?_⟩
  show List.take (64 - 64) _ = List.take (64 - 64) _
  rfl

/-! ## Agreement with the model without panics -/

/-- What is left of an answer if panics end everything. -/
def keep {α E : Type} (r : Option α × E) : Option (α × E) := r.1.map (·, r.2)

theorem storeU_keep (e : Engine) (src : List Byte) : (keep (e.storeU src)).map (·.2) = e.store src := by
  unfold Engine.storeU Engine.store
  simp only [Option.bind_eq_bind, guard, Option.pure_def]
  by_cases h1 : e.remaining ≤ e.chunk.length
  · rw [if_pos h1, if_pos h1]
    simp only [Option.bind_some]
    cases copy_at e.chunk (e.chunk.length - e.remaining) src with
    | none => rfl
    | some chunk =>
      simp only [Option.bind_some]
      by_cases h2 : src.length ≤ e.remaining
      · rw [if_pos h2, if_pos h2]
        simp only [Option.bind_some]
        by_cases h3 : e.total + src.length < 2 ^ 64
        · rw [if_pos h3, if_pos h3]
          simp only [Option.bind_some]
          split
          · split
            · rfl
            · rfl
          · rfl
        · rw [if_neg h3, if_neg h3]; rfl
      · rw [if_neg h2, if_neg h2]; rfl
  · rw [if_neg h1, if_neg h1]; rfl

theorem keep_none {E : Type} {r : Option Unit × E} {e : E} (h : r = (none, e)) : (keep r).map (·.2) = none := by rw [h]; rfl
theorem keep_some {E : Type} {r : Option Unit × E} {e : E} (h : r = (some (), e)) : (keep r).map (·.2) = some e := by rw [h]; rfl

theorem pushU_keep (e : Engine) (hw : e.WF) (data : List Byte) : (keep (e.pushU data)).map (·.2) = e.push data := by
  induction hn : data.length using Nat.strongRecOn generalizing e data with
  | ind n ih =>
    rw [Engine.pushU, Engine.push]
    by_cases hd : data = []
    · subst hd
      rfl
    · have hd' : 0 < data.length := List.length_pos_iff.mpr hd
      have hp := hw.rem_pos
      rw [dif_neg hd, if_neg (by simpa using hd)]
      simp only []
      rw [dif_neg (by omega)]
      have hs := storeU_keep e (data.take (min e.remaining data.length))
      split
      · rename_i e' h'
        rw [keep_none h'] at hs
        rw [← hs]
        rfl
      · rename_i e' h'
        rw [keep_some h'] at hs
        rw [← hs]
        exact ih _ (by simp; omega) e' (store_some_wf hw (by simp [List.length_take]; omega) hs.symm) _ rfl

theorem push_zeroU_keep (e : Engine) (hw : e.WF) (len : Nat) : (keep (e.push_zeroU len)).map (·.2) = e.push_zero len := by
  induction len using Nat.strongRecOn generalizing e with
  | ind n ih =>
    rw [Engine.push_zeroU, Engine.push_zero]
    by_cases hd : n = 0
    · subst hd
      rfl
    · have hp := hw.rem_pos
      rw [dif_neg hd, if_neg hd]
      simp only []
      rw [dif_neg (by omega)]
      have hs := storeU_keep e (List.replicate (min e.remaining n) 0)
      split
      · rename_i e' h'
        rw [keep_none h'] at hs
        rw [← hs]
        rfl
      · rename_i e' h'
        rw [keep_some h'] at hs
        rw [← hs]
        exact ih _ (by omega) e' (store_some_wf hw (by simp; omega) hs.symm)

theorem keep_andThen {β : Type} {E : Type} {x : Option Unit × E} {y : Option E} (h : (keep x).map (·.2) = y)
    {k : Unit → E → Option β × E} {l : E → Option (β × E)} (hk : ∀ e, y = some e → keep (k () e) = l e) :
    keep (andThen x k) = y.bind l := by
  obtain ⟨x1, x2⟩ := x
  cases x1 with
  | none =>
    simp only [keep, Option.map_none] at h
    subst h
    rfl
  | some u =>
    simp only [keep, Option.map_some] at h
    subst h
    exact hk x2 rfl

theorem push_zero_wf {e e' : Engine} {n : Nat} (hw : e.WF) (h : e.push_zero n = some e') : e'.WF := by
  rw [push_zero_foldlM e hw] at h
  exact foldlM_wf _ _ hw _ h

theorem push_wf {e e' : Engine} {d : List Byte} (hw : e.WF) (h : e.push d = some e') : e'.WF := by
  rw [push_foldlM e hw] at h
  exact foldlM_wf _ _ hw _ h

theorem finalizeU_keep (e : Engine) (hw : e.WF) : keep e.finalizeU = e.finalize := by
  obtain ⟨hc, hp, hl⟩ := hw
  unfold Engine.finalizeU Engine.finalize
  simp only [Option.bind_eq_bind, guard, Option.pure_def]
  by_cases h1 : e.total * 8 < 2 ^ 64
  · have hz : e.remaining ≠ 0 := by omega
    have hz' : e.remaining ≤ e.chunk.length := by omega
    rw [if_neg (not_not_intro h1), if_pos h1, if_neg hz, if_neg (not_not_intro hz'), if_pos hz, if_pos hz']
    simp only [Option.bind_some]
    generalize he : (⟨e.hash, e.chunk.set (e.chunk.length - e.remaining) 0x80, e.remaining - 1, e.total⟩ : Engine) = e1
    have hr1 : e1.remaining = e.remaining - 1 := by rw [← he]
    have hw1 : 0 < e1.remaining → e1.WF := fun h => ⟨by rw [← he]; simpa using hc, h, by omega⟩
    rw [← hr1]
    refine keep_andThen ?_ ?_
    · split
      · by_cases h0 : e1.remaining = 0
        · rw [h0, Engine.push_zeroU, Engine.push_zero]
          rfl
        · exact push_zeroU_keep _ (hw1 (by omega)) _
      · rfl
    · intro e2 h2
      by_cases h8 : 8 ≤ e2.remaining
      · rw [if_neg (not_not_intro h8), if_pos h8]
        simp only [Option.bind_some]
        have hw2 : e2.WF := by
          split at h2
          · by_cases h0 : e1.remaining = 0
            · rw [h0, Engine.push_zero, if_pos rfl] at h2
              cases h2
              omega
            · exact push_zero_wf (hw1 (by omega)) h2
          · cases h2
            exact hw1 (by omega)
        refine keep_andThen (push_zeroU_keep _ hw2 _) ?_
        intro e3 h3
        have hw3 := push_zero_wf hw2 h3
        refine keep_andThen (pushU_keep _ hw3 _) ?_
        intro e4 h4
        by_cases h5 : e4.remaining = e4.chunk.length
        · rw [if_neg (not_not_intro h5), if_pos h5]
          rfl
        · rw [if_pos h5, if_neg h5]
          rfl
      · rw [if_pos h8, if_neg h8]
        rfl
  · rw [if_pos h1, if_neg h1]
    rfl

end Verif.Hash
