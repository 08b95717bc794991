import Verif.Dbus.LemmasCost3
import Verif.Io.PropsGrow
/-! # Lemmas: encoders ask for no more of a buffer than they encode -/
namespace Verif.Dbus
open Verif.Io
variable {σ : Type} {I : WriteImpl σ} {P : Nat → Writer σ → Prop}

/-- What is kept by a writer, and its memory, as long as nothing beyond `k` is asked for. -/
def Obeys (I : WriteImpl σ) (P : Nat → Writer σ → Prop) : Prop :=
  ∀ w s' x i n m k, i + n ≤ k → I.map w.st i n = (s', .cont m) → (∀ j, i + max n m ≤ j → x j = w.mem j) → P k w → P k ⟨s', x⟩

/-- What a primitive does that is completed. -/
structure Ends (P : Nat → Writer σ → Prop) (w : Writer σ) (i n : Nat) (r : WriteOut σ) : Prop where
  idx : r.flow = .cont () → r.idx = i + n
  keep : r.flow = .cont () → ∀ k, i + n ≤ k → P k w → P k r.w

theorem ends_same {s : σ} {m : Mem} {idx : Nat} {f : Flow Unit} : Ends P ⟨s, m⟩ idx 0 ⟨⟨s, m⟩, idx, f⟩ := ⟨fun _ => rfl, fun _ _ _ h => h⟩

theorem ends_stop {s w : Writer σ} {idx idx' n : Nat} {f : Flow Unit} (hf : f ≠ .cont ()) : Ends P s idx n ⟨w, idx', f⟩ :=
  ⟨fun h => absurd h hf, fun h => absurd h hf⟩

theorem ends_turn (hI : Obeys I P) {s s' : σ} {x x' : Mem} {idx n m j : Nat} {r : WriteOut σ} (h : I.map s idx n = (s', .cont m)) (hj : j ≤ n)
    (hx : ∀ j, idx + max n m ≤ j → x' j = x j) (hr : Ends P ⟨s', x'⟩ (idx + j) (n - j) r) : Ends P ⟨s, x⟩ idx n r :=
  ⟨fun hf => by have := hr.idx hf; omega, fun hf k hk hp => hr.keep hf k (by omega) (hI ⟨s, x⟩ _ _ _ _ _ _ hk h hx hp)⟩

theorem put_beyond {x : Mem} {i : Nat} {d : List UInt8} {j : Nat} (h : i + d.length ≤ j) : put x i d j = x j := by
  unfold put
  rw [if_neg (by omega)]

theorem inner_beyond {ι : Type} {T : Iter ι} (stop : Nat) : ∀ (k : Nat) (it : ι) (m : Mem) (idx : Nat) (j : Nat), k ≤ stop → stop ≤ j →
    (iterInner T stop k it m idx).mem j = m j := by
  intro k
  induction k with
  | zero => intro _ _ _ _ _ _; rfl
  | succ k ih =>
    intro it m idx j hs hj
    have hp : ∀ b, put m (stop - (k + 1)) [b] j = m j := fun b => put_beyond (by simp only [List.length_cons, List.length_nil]; omega)
    unfold iterInner
    cases T.next it with
    | none => rfl
    | some y =>
      obtain ⟨y, it'⟩ := y
      cases y with
      | none => rfl
      | some b =>
        simp only []
        split
        · rw [ih _ _ _ _ (by omega) hj, hp]
        · exact hp b

theorem ends_write (hI : Obeys I P) : ∀ (fuel : Nat) (s : σ) (m : Mem) (idx : Nat) (d : List UInt8),
    Ends P ⟨s, m⟩ idx d.length (writeLoop I fuel ⟨s, m⟩ idx d) := by
  intro fuel
  induction fuel with
  | zero =>
    intro s m idx d
    unfold writeLoop
    split
    · exact ends_stop (by simp)
    · rw [show d.length = 0 by omega]; exact ends_same
  | succ fuel ih =>
    intro s m idx d
    unfold writeLoop
    split
    · cases h : I.map s idx d.length with
      | mk st f =>
        simp only [h]
        cases f with
        | cont n =>
          simp only []
          split
          · split
            · have := ih st (put m idx (d.take (min n d.length))) (idx + min n d.length) (d.drop (min n d.length))
              rw [List.length_drop] at this
              exact ends_turn hI h (Nat.min_le_right _ _) (fun j hj => put_beyond (by rw [List.length_take]; omega)) this
            · exact ends_stop (by simp)
          · exact ends_stop (by simp)
        | brk e => exact ends_stop (by simp)
        | fault => exact ends_stop (by simp)
    · rw [show d.length = 0 by omega]; exact ends_same

theorem ends_fill (hI : Obeys I P) : ∀ (fuel : Nat) (s : σ) (m : Mem) (idx len : Nat) (b : UInt8),
    Ends P ⟨s, m⟩ idx len (fillLoop I fuel ⟨s, m⟩ idx len b) := by
  intro fuel
  induction fuel with
  | zero =>
    intro s m idx len b
    unfold fillLoop
    split
    · exact ends_stop (by simp)
    · rw [show len = 0 by omega]; exact ends_same
  | succ fuel ih =>
    intro s m idx len b
    unfold fillLoop
    split
    · cases h : I.map s idx len with
      | mk st f =>
        simp only [h]
        cases f with
        | cont n =>
          simp only []
          split
          · split
            · exact ends_turn hI h (Nat.min_le_right _ _) (fun j hj => put_beyond (by rw [List.length_replicate]; omega)) (ih st _ _ _ _)
            · exact ends_stop (by simp)
          · exact ends_stop (by simp)
        | brk e => exact ends_stop (by simp)
        | fault => exact ends_stop (by simp)
    · rw [show len = 0 by omega]; exact ends_same

theorem ends_iter (hI : Obeys I P) {ι : Type} {T : Iter ι} (hT : Falls T) : ∀ (fuel : Nat) (s : σ) (m : Mem) (idx : Nat) (it : ι) (N : Nat),
    T.hint it = some N → Ends P ⟨s, m⟩ idx N (writeIterLoop I T fuel ⟨s, m⟩ idx it) := by
  intro fuel
  induction fuel with
  | zero => intro s m idx it N _; exact ends_stop (by simp)
  | succ fuel ih =>
    intro s m idx it N hN
    unfold writeIterLoop
    rw [hN]
    cases N with
    | zero =>
      simp only []
      cases T.next it with
      | none => exact ends_stop (by simp)
      | some x =>
        obtain ⟨x, it'⟩ := x
        cases x with
        | none => exact ends_same
        | some _ => exact ends_stop (by simp)
    | succ n =>
      cases h : I.map s idx (n + 1) with
      | mk st f =>
        simp only [h]
        cases f with
        | cont k =>
          simp only []
          split
          · split
            · rename_i hok
              have hm : min (n + 1) k ≤ n + 1 := Nat.min_le_left _ _
              have hf := inner_falls hT (idx + k) (min (n + 1) k) it m idx (n + 1 - min (n + 1) k) (by rw [hN]; congr 1; omega) hok
              have := ih st (iterInner T (idx + k) (min (n + 1) k) it m idx).mem (iterInner T (idx + k) (min (n + 1) k) it m idx).idx
                (iterInner T (idx + k) (min (n + 1) k) it m idx).it _ hf.1
              rw [hf.2] at this ⊢
              exact ends_turn hI h hm (fun j hj => inner_beyond _ _ _ _ _ _ (by omega) (by omega)) this
            · exact ends_stop (by simp)
          · exact ends_stop (by simp)
        | brk e => exact ends_stop (by simp)
        | fault => exact ends_stop (by simp)

theorem ends_w (hI : Obeys I P) (w : Writer σ) (idx : Nat) (d : List UInt8) : Ends P w idx d.length (write I w idx d) := ends_write hI _ _ _ _ _

theorem ends_z (hI : Obeys I P) (w : Writer σ) (idx n : Nat) : Ends P w idx n (zero I w idx n) := ends_fill hI _ _ _ _ _ _

theorem ends_a (hI : Obeys I P) (w : Writer σ) (idx exp : Nat) : ∃ n, Ends P w idx n (alignExp2 I w idx exp) := by
  unfold alignExp2
  split
  · exact ⟨0, ends_stop (by simp)⟩
  · split
    · exact ⟨0, ends_stop (by simp)⟩
    · exact ⟨_, ends_z hI _ _ _⟩

theorem ends_i (hI : Obeys I P) (w : Writer σ) (idx : Nat) (c : Cursor) : ∃ n, Ends P w idx n (writeIter I codeIter w idx c) := by
  unfold writeIter
  cases hh : codeIter.hint c with
  | none => exact ⟨0, ends_stop (by simp)⟩
  | some N => exact ⟨N, ends_iter hI falls_code _ _ _ _ _ _ hh⟩

/-! ## Calls -/

/-- Where the lengths of open arrays are. -/
def places : Level → List (Element × Level × Option Cursor) → List Nat
  | _, [] => []
  | l, (el, up, _) :: st => (if el = .array then [l.meta_] else []) ++ places up st

/-- They have been reserved. -/
def Placed (e : Enc) : Prop := ∀ p ∈ places e.level e.stack, p + 4 ≤ e.level.idx

theorem places_idx : ∀ (l : Level) (n : Nat) (st : List (Element × Level × Option Cursor)), places { l with idx := n } st = places l st
  | _, _, [] => rfl
  | _, _, _ :: _ => rfl

/-- What an accepted call does, other than to commit. -/
structure Sits (P : Nat → Writer σ → Prop) (e e' : Enc) (s s' : Writer σ) : Prop where
  idx : e.level.idx ≤ e'.level.idx
  placed : Placed e → Placed e'
  keep : Placed e → ∀ k, e'.level.idx ≤ k → P k s → P k s'
  link : e'.link = e.link
  done : e'.done = e.done

theorem placed_more {e e' : Enc} (hi : e.level.idx ≤ e'.level.idx) (hs : places e'.level e'.stack = places e.level e.stack) (h : Placed e) :
    Placed e' := by
  intro p hp
  have := h p (hs ▸ hp)
  omega

theorem grow_io {e e' : Enc} {w' : Writer σ} {r : WriteOut σ} {k : Writer σ → Nat → Step σ}
    (h : e.io r k = some (e', w', .ok)) {s : Writer σ} {idx n : Nat} (hp : Ends P s idx n r) :
    k r.w r.idx = some (e', w', .ok) ∧ r.idx = idx + n ∧ ∀ k, r.idx ≤ k → P k s → P k r.w := by
  unfold Enc.io at h
  cases hf : r.flow with
  | cont u =>
    rw [hf] at h
    have hi := hp.idx hf
    exact ⟨h, hi, fun k hk => hp.keep hf k (by omega)⟩
  | brk x => rw [hf] at h; cases h
  | fault => rw [hf] at h; cases h

theorem grow_expect {e e' : Enc} {w w' : Writer σ} {el : Element} {k : Step σ}
    (h : e.expect w el k = some (e', w', .ok)) : k = some (e', w', .ok) := by
  unfold Enc.expect at h
  split at h
  · cases h
  · split at h
    · cases h
    · exact h

theorem grow_advance {e e' : Enc} {w w' : Writer σ} {idx : Nat} (h : e.advance w idx = some (e', w', .ok)) :
    w' = w ∧ e'.level.idx = idx ∧ places e'.level e'.stack = places e.level e.stack ∧ e'.link = e.link ∧ e'.done = e.done := by
  unfold Enc.advance at h
  split at h
  · cases h
  · cases h; exact ⟨rfl, rfl, places_idx _ _ _, rfl, rfl⟩

theorem sits_fixed (hI : Obeys I P) {e e' : Enc} {w w' : Writer σ} {el : Element} {d : List UInt8}
    (h : e.fixed I w el d = some (e', w', .ok)) : Sits P e e' w w' := by
  obtain ⟨n, hp⟩ := ends_a hI w e.level.idx el.dvarExp
  obtain ⟨h, i1, k1⟩ := grow_io (grow_expect h) hp
  obtain ⟨h, i2, k2⟩ := grow_io h (ends_w hI _ _ _)
  obtain ⟨rfl, hi, hs, hl, hd⟩ := grow_advance h
  exact ⟨by omega, placed_more (by omega) hs, fun _ k hk hp => k2 k (by omega) (k1 k (by omega) hp), hl, hd⟩

theorem sits_str (hI : Obeys I P) {e e' : Enc} {w w' : Writer σ} {x j : Nat} {d : List UInt8}
    (h : (e.io (alignExp2 I w e.level.idx x) fun w idx =>
      e.io (write I w idx (enNum e.be j d.length)) fun w idx =>
      e.io (write I w idx d) fun w idx =>
      e.io (zero I w idx 1) fun w idx => e.advance w idx) = some (e', w', .ok)) : Sits P e e' w w' := by
  obtain ⟨n, hp⟩ := ends_a hI w e.level.idx x
  obtain ⟨h, i1, k1⟩ := grow_io h hp
  obtain ⟨h, i2, k2⟩ := grow_io h (ends_w hI _ _ _)
  obtain ⟨h, i3, k3⟩ := grow_io h (ends_w hI _ _ _)
  obtain ⟨h, i4, k4⟩ := grow_io h (ends_z hI _ _ _)
  obtain ⟨rfl, hi, hs, hl, hd⟩ := grow_advance h
  exact ⟨by omega, placed_more (by omega) hs, fun _ k hk hp => k4 k (by omega) (k3 k (by omega) (k2 k (by omega) (k1 k (by omega) hp))), hl, hd⟩

theorem sits_str8 (hI : Obeys I P) {e e' : Enc} {w w' : Writer σ} {el : Element} {d : List UInt8}
    (h : e.str8 I w el d = some (e', w', .ok)) : Sits P e e' w w' := by
  have h := grow_expect h
  split at h
  · exact sits_str hI h
  · cases h

theorem sits_str32 (hI : Obeys I P) {e e' : Enc} {w w' : Writer σ} {el : Element} {d : List UInt8}
    (h : e.str32 I w el d = some (e', w', .ok)) : Sits P e e' w w' := by
  have h := grow_expect h
  split at h
  · exact sits_str hI h
  · cases h

theorem sits_variant (hI : Obeys I P) {e e' : Enc} {w w' : Writer σ} {s : Sig}
    (h : e.variant I w s = some (e', w', .ok)) : Sits P e e' w w' := by
  have h := grow_expect h
  split at h
  · cases h
  · split at h
    · obtain ⟨n, hp⟩ := ends_a hI w e.level.idx Element.u8.dvarExp
      obtain ⟨h, i1, k1⟩ := grow_io h hp
      obtain ⟨h, i2, k2⟩ := grow_io h (ends_w hI _ _ _)
      split at h
      · cases h
      · rename_i c hc
        obtain ⟨j, hi⟩ := ends_i hI _ _ c
        obtain ⟨h, i3, k3⟩ := grow_io h hi
        obtain ⟨h, i4, k4⟩ := grow_io h (ends_z hI _ _ _)
        cases h
        refine ⟨by simp only []; omega, fun hq => placed_more (by simp only []; omega) ?_ hq,
          fun _ k hk hp => k4 k hk (k3 k ?_ (k2 k ?_ (k1 k ?_ hp))), rfl, rfl⟩
        · simp only [places, if_neg (show ¬ Element.variant = Element.array by decide), List.nil_append]
        all_goals simp only [] at hk; omega
    · cases h

theorem sits_array (hI : Obeys I P) {e e' : Enc} {w w' : Writer σ} (h : e.array I w = some (e', w', .ok)) : Sits P e e' w w' := by
  have h := grow_expect h
  split at h
  · cases h
  · cases h
  · rename_i el _
    obtain ⟨n, hp⟩ := ends_a hI w e.level.idx Element.u32.dvarExp
    obtain ⟨h, i1, k1⟩ := grow_io h hp
    obtain ⟨h, i2, k2⟩ := grow_io h (ends_w hI _ _ _)
    obtain ⟨n', hp'⟩ := ends_a hI _ _ el.dvarExp
    obtain ⟨h, i3, k3⟩ := grow_io h hp'
    split at h
    · cases h
    · cases h
      rw [enNum_len] at i2
      refine ⟨by simp only []; omega, fun hq => ?_, fun _ k hk hp => k3 k hk (k2 k ?_ (k1 k ?_ hp)), rfl, rfl⟩
      · intro p hp
        simp only [places, if_true, List.singleton_append, List.mem_cons] at hp ⊢
        rcases hp with rfl | hp
        · omega
        · have := hq p hp
          omega
      all_goals simp only [] at hk; omega

theorem sits_bracket (hI : Obeys I P) {e e' : Enc} {w w' : Writer σ} {el : Element} (hel : el ≠ .array)
    (h : e.bracket I w el = some (e', w', .ok)) : Sits P e e' w w' := by
  have h := grow_expect h
  split at h
  · cases h
  · cases h
  · rename_i exp hx
    obtain ⟨n, hp⟩ := ends_a hI w e.level.idx exp
    obtain ⟨h, i1, k1⟩ := grow_io h hp
    split at h
    · cases h
    · cases h
      refine ⟨by simp only []; omega, fun hq => placed_more (by simp only []; omega) ?_ hq, fun _ k hk hp => k1 k hk hp, rfl, rfl⟩
      simp only [places, if_neg hel, List.nil_append]

theorem grow_pop {e e' : Enc} {w w' : Writer σ} {l : Level} {c : Option Cursor} {st : List (Element × Level × Option Cursor)}
    (h : e.pop w l c st = some (e', w', .ok)) :
    w' = w ∧ e'.level.idx = e.level.idx ∧ places e'.level e'.stack = places l st ∧ e'.link = e.link ∧ e'.done = e.done := by
  unfold Enc.pop at h
  split at h
  · cases h
  · split at h
    · cases h
    · cases h; exact ⟨rfl, rfl, places_idx _ _ _, rfl, rfl⟩

theorem placed_pop {e e' : Enc} {l : Level} {c : Option Cursor} {st : List (Element × Level × Option Cursor)} {el : Element}
    (hst : e.stack = (el, l, c) :: st) (hi : e'.level.idx = e.level.idx) (hs : places e'.level e'.stack = places l st) (h : Placed e) : Placed e' := by
  intro p hp
  rw [hi]
  refine h p ?_
  rw [hst, places]
  exact List.mem_append_right _ (hs ▸ hp)

theorem sits_pop {e e' : Enc} {w w' : Writer σ} {l : Level} {c : Option Cursor} {st : List (Element × Level × Option Cursor)} {el : Element}
    (hst : e.stack = (el, l, c) :: st) (h : e.pop w l c st = some (e', w', .ok)) : Sits P e e' w w' := by
  obtain ⟨rfl, hi, hs, hl, hd⟩ := grow_pop h
  exact ⟨by omega, placed_pop hst hi hs, fun _ _ _ h => h, hl, hd⟩

theorem sits_close (hI : Obeys I P) {e e' : Enc} {w w' : Writer σ} (h : e.close I w = some (e', w', .ok)) : Sits P e e' w w' := by
  unfold Enc.close at h
  split at h
  · cases h
  · cases h
  · split at h
    · cases h
    · rename_i el l c st hst
      split at h
      · exact sits_pop hst h
      · split at h
        · cases h
        · split at h
          · split at h
            · obtain ⟨h, i1, k1⟩ := grow_io h (ends_w hI _ _ _)
              obtain ⟨rfl, hi, hs, hl, hd⟩ := grow_pop h
              rw [enNum_len] at i1
              refine ⟨by omega, placed_pop hst hi hs, fun hq k hk hp => k1 k ?_ hp, hl, hd⟩
              have := hq e.level.meta_ (by rw [hst, places, if_pos rfl]; exact List.mem_append_left _ (List.mem_singleton.mpr rfl))
              omega
            · cases h
          · exact sits_pop hst h
      · exact sits_pop hst h
      · exact sits_pop hst h
      · cases h

theorem grow_res {s : Step σ} {e : Enc} {w : Writer σ} {o : Out}
    (hs : (s.map fun (x : Enc × Writer σ × DRes) => (x.1, x.2.1, Out.res x.2.2)) = some (e, w, o)) (ho : o.fine = true) :
    s = some (e, w, .ok) := by
  cases s with
  | none => cases hs
  | some x =>
    obtain ⟨e', w', r⟩ := x
    cases hs
    cases r with
    | ok => rfl
    | brk _ => cases ho

/-- What a complete encoding does. -/
structure Held (I : WriteImpl σ) (P : Nat → Writer σ → Prop) (e e' : Enc) (s s' : Writer σ) : Prop where
  idx : e.level.idx ≤ e'.level.idx
  top : e.link = none → e.done = false → Placed e → ∀ k, e'.level.idx ≤ k → P k s → ∃ x, P k x ∧ s' = ⟨I.commit x.st e'.level.idx, x.mem⟩
  sub : e.link.isSome = true → Placed e → (∀ k, e'.level.idx ≤ k → P k s → P k s')
  handed : e.link.isSome = true → e'.handed = some e'.level.idx

theorem held_commit {e e' : Enc} {w w' : Writer σ} (h : e.commit I w = some (e', w', .ok)) : Held I P e e' w w' := by
  unfold Enc.commit at h
  split at h
  · cases h
  · split at h
    · cases h
    · split at h
      · rename_i hl
        cases h
        exact ⟨Nat.le_refl _, fun hn => (by rw [hn] at hl; cases hl), fun _ _ _ _ h => h, fun _ => rfl⟩
      · rename_i hl
        split at h
        · cases h
          exact ⟨Nat.le_refl _, fun _ _ _ k _ hp => ⟨_, hp, rfl⟩, fun hs => absurd hs hl, fun hs => absurd hs hl⟩
        · rename_i hd
          cases h
          exact ⟨Nat.le_refl _, fun _ hn => (by rw [hn] at hd; exact absurd rfl hd), fun hs => absurd hs hl, fun hs => absurd hs hl⟩

theorem held_step {e e' e'' : Enc} {s s' s'' : Writer σ} (h : Sits P e e' s s') (h' : Held I P e' e'' s' s'') : Held I P e e'' s s'' := by
  obtain ⟨a1, a2, a3, a4, a5⟩ := h
  obtain ⟨b1, b2, b3, b4⟩ := h'
  refine ⟨by omega, fun hl hd hq k hk hp => ?_, fun hl hq k hk hp => ?_, fun hl => b4 (a4 ▸ hl)⟩
  · exact b2 (a4.trans hl) (a5.trans hd) (a2 hq) k hk (a3 hq k (by omega) hp)
  · exact b3 (a4 ▸ hl) (a2 hq) k hk (a3 hq k (by omega) hp)

theorem sits_merge {e x x' : Enc} {s s' : Writer σ} {st : Option Nat} (hi : x.level.idx = e.level.idx) (hs : x.stack = [])
    (hl : x.link.isSome = true) (h : Held I P x x' s s') : Sits P e (e.merge x' st) s s' := by
  have hx : Placed x := by intro p hp; rw [hs] at hp; cases hp
  have hh := h.handed hl
  have hle := h.idx
  unfold Enc.merge
  rw [hh]
  exact ⟨by simp only []; omega, placed_more (by simp only []; omega) (places_idx _ _ _), fun _ k hk hp => h.sub hl hx k hk hp, rfl, rfl⟩

mutual
theorem run_sits (hI : Obeys I P) : ∀ (op : Op) (e e' : Enc) (w w' : Writer σ) (o : Out), Op.run I op e w = some (e', w', o) →
    op.tidy = true → o.fine = true → Sits P e e' w w'
  | .u16 _, _, _, _, _, _, h, _, ho => sits_fixed hI (grow_res h ho)
  | .u32 _, _, _, _, _, _, h, _, ho => sits_fixed hI (grow_res h ho)
  | .u64 _, _, _, _, _, _, h, _, ho => sits_fixed hI (grow_res h ho)
  | .string _, _, _, _, _, _, h, _, ho => sits_str32 hI (grow_res h ho)
  | .object _, _, _, _, _, _, h, _, ho => sits_str32 hI (grow_res h ho)
  | .signature _, _, _, _, _, _, h, _, ho => sits_str8 hI (grow_res h ho)
  | .variant _, _, _, _, _, _, h, _, ho => sits_variant hI (grow_res h ho)
  | .array, _, _, _, _, _, h, _, ho => sits_array hI (grow_res h ho)
  | .structure, _, _, _, _, _, h, _, ho => sits_bracket hI (by decide) (grow_res h ho)
  | .dict, _, _, _, _, _, h, _, ho => sits_bracket hI (by decide) (grow_res h ho)
  | .close, _, _, _, _, _, h, _, ho => sits_close hI (grow_res h ho)
  | .commit, _, _, _, _, _, _, ht, _ => by cases ht
  | .sub s ops, e, e', w, w', o, h, ht, ho => by
    rw [Op.run.eq_def] at h
    simp only [] at h
    split at h
    · cases h
    · cases h; cases ho
    · rename_i x hx
      split at h
      · cases h
      · rename_i hr
        cases h
        obtain ⟨hi, hs, hl⟩ := with_start hx
        exact sits_merge hi hs hl (runs_held hI ops _ _ _ _ _ hr ht ho)
theorem runs_held (hI : Obeys I P) : ∀ (ops : List Op) (e e' : Enc) (w w' : Writer σ) (os : List Out),
    Op.runs I ops e w = some (e', w', os) → Op.complete ops = true → Out.fines os = true → Held I P e e' w w'
  | [], _, _, _, _, _, _, ht, _ => by cases ht
  | op :: ops, e, e', w, w', os, h, ht, ho => by
    simp only [Op.runs] at h
    split at h
    · cases h
    · rename_i e1 w1 o h1
      split at h
      · cases h
      · rename_i h2
        cases h
        simp only [Out.fines, Bool.and_eq_true] at ho
        rw [Op.complete.eq_def] at ht
        split at ht
        · cases ht
        · rename_i heq
          cases heq
          cases h2
          exact held_commit (grow_res h1 ho.1)
        · rename_i heq
          cases heq
          simp only [Bool.and_eq_true] at ht
          exact held_step (run_sits hI op _ _ _ _ _ h1 ht.1 ho.1) (runs_held hI ops _ _ _ _ _ h2 ht.2 ho.2)
end

/-! ## Vectors -/

/-- What is kept by a vector, but for its length. -/
theorem grow_obeys {A : Alloc} {Q : Nat → Nat → Nat → Prop} (hQ : ∀ k, Kept A k (Q k)) (n : Nat) :
    Obeys (growWrite A) fun k (w : Writer (RawVec × Nat)) => Q k w.st.1.cap w.st.2 ∧ w.st.1.len = n := by
  intro ⟨s, y⟩ s' x i len m k hk hm _ h
  simp only [growWrite] at hm
  cases hr : s.1.mmap A i len with
  | none => rw [hr] at hm; cases hm
  | some x =>
    rw [hr] at hm
    cases x with
    | none => cases hm
    | some v =>
      cases hm
      refine ⟨(hQ k).mmap h.1 hk hr, ?_⟩
      rw [← h.2]
      unfold RawVec.mmap at hr
      split at hr
      · split at hr
        · split at hr
          · cases hr
          · rename_i w hw
            split at hr
            · cases hr
              exact (reserve_some hw).1
            · cases hr
        · split at hr
          · cases hr; rfl
          · cases hr
      · cases hr

end Verif.Dbus
