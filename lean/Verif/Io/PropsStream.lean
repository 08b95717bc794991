import Verif.Io.ModelStream
import Verif.Io.PropsMap
/-! # Properties of streaming I/O (C37) -/
namespace Verif.Io
variable {σ τ : Type}

/-! ## Specification -/

/-- Testing the bytes of `l`, the first of which has index `n`, until one of them fails: the index of the one that
failed, or of the end, the state of the predicate, and whether one failed. -/
def scan (pred : τ → Nat → UInt8 → τ × Bool) : List UInt8 → Nat → τ → Nat × τ × Bool
  | [], n, t => (n, t, false)
  | b :: l, n, t =>
    match pred t n b with
    | (t, false) => (n, t, true)
    | (t, true) => scan pred l (n + 1) t

/-- A stream with `data` in it, of which any part may have been buffered so far: maps are beginnings of the data
of at least the length asked for. -/
def Streams (I : StreamImpl σ) (data : List UInt8) : Prop :=
  ∀ st min max, match I.map st min max with
    | .cont m => m <+: data ∧ min ≤ m.length
    | .brk _ => True
    | .fault => False

/-- Calling `read_map_while` again and again with the same offset variable while it asks for more. In between the
stream gets into the states of the list. -/
def calls (I : StreamImpl σ) (max : Option Nat) (pred : τ → Nat → UInt8 → τ × Bool) (fuel : Nat) :
    List σ → Nat → τ → WhileOut τ
  | [], n, t => ⟨n, t, .brk ⟨n + 1, max⟩⟩
  | st :: sts, n, t =>
    match readMapWhile I st n max pred t fuel with
    | ⟨n, t, .brk _⟩ => calls I max pred fuel sts n t
    | r => r

/-! ## Helpers -/

theorem scan_append (pred : τ → Nat → UInt8 → τ × Bool) : ∀ (a b : List UInt8) (n : Nat) (t : τ),
    scan pred (a ++ b) n t = match scan pred a n t with
      | (n', t', true) => (n', t', true)
      | (n', t', false) => scan pred b n' t'
  | [], b, n, t => rfl
  | x :: a, b, n, t => by
    simp only [List.cons_append, scan]
    generalize pred t n x = r
    obtain ⟨t', ok⟩ := r
    cases ok with
    | false => rfl
    | true => exact scan_append pred a b (n + 1) t'

theorem scan_index (pred : τ → Nat → UInt8 → τ × Bool) : ∀ (l : List UInt8) (n : Nat) (t : τ),
    match scan pred l n t with
    | (n', _, true) => n ≤ n' ∧ n' < n + l.length
    | (n', _, false) => n' = n + l.length
  | [], n, t => rfl
  | b :: l, n, t => by
    simp only [scan]
    generalize pred t n b = r
    obtain ⟨t', ok⟩ := r
    cases ok with
    | false => simp
    | true =>
      have := scan_index pred l (n + 1) t'
      simp only []
      generalize scan pred l (n + 1) t' = r at this
      obtain ⟨n', t'', f⟩ := r
      cases f <;> simp only [List.length_cons] at * <;> omega

theorem testLoop_spec (pred : τ → Nat → UInt8 → τ × Bool) (map : List UInt8) : ∀ (left n : Nat) (t : τ),
    map.length - n ≤ left → n ≤ map.length →
    testLoop pred map left n t = match scan pred (map.drop n) n t with | (n', t', f) => (n', t', some f)
  | left, n, t, hl, hn => by
    unfold testLoop
    by_cases h : n < map.length
    · rw [if_pos h]
      cases left with
      | zero => omega
      | succ left =>
        rw [List.drop_eq_getElem_cons h, List.getElem?_eq_getElem h]
        simp only [scan]
        generalize pred t n map[n] = r
        obtain ⟨t', ok⟩ := r
        cases ok with
        | false => rfl
        | true => exact testLoop_spec pred map left (n + 1) t' (by omega) h
    · rw [if_neg h, List.drop_of_length_le (by omega)]; rfl

/-- `Good` outcomes of a call that starts at offset `n`: the bytes up to the new offset were tested once each, in
order. -/
def Tested (data : List UInt8) (maxV : Nat) (pred : τ → Nat → UInt8 → τ × Bool) (n : Nat) (t : τ) (r : WhileOut τ) : Prop :=
  match r.flow with
  | .cont m => m <+: data ∧ m.length ≤ maxV ∧ n ≤ r.n ∧
      ((r.n < m.length ∧ scan pred ((data.drop n).take (maxV - n)) n t = (r.n, r.pred, true))
      ∨ (r.n = maxV ∧ m.length = maxV ∧ scan pred ((data.drop n).take (maxV - n)) n t = (maxV, r.pred, false)))
  | .brk _ => n ≤ r.n ∧ r.n ≤ data.length ∧ r.n < maxV ∧ scan pred ((data.drop n).take (r.n - n)) n t = (r.n, r.pred, false)
  | .fault => False

theorem take_split (l : List UInt8) (n m k : Nat) (h1 : n ≤ m) (h2 : m ≤ k) :
    (l.drop n).take (k - n) = (l.drop n).take (m - n) ++ (l.drop m).take (k - m) := by
  rw [show k - n = (m - n) + (k - m) by omega, List.take_add, List.drop_drop, show n + (m - n) = m by omega]

theorem whileLoop_spec (I : StreamImpl σ) (data : List UInt8) (h : Streams I data) (st : σ) (max : Option Nat)
    (hmax : max.getD usizeMax ≤ usizeMax)
    (pred : τ → Nat → UInt8 → τ × Bool) : ∀ (fuel n : Nat) (t : τ), data.length - n < fuel → n ≤ data.length →
    n < max.getD usizeMax → Tested data (max.getD usizeMax) pred n t (whileLoop I st max pred fuel n t)
  | 0, n, t, hf, _, _ => by omega
  | fuel + 1, n, t, hf, hd, hn => by
    unfold whileLoop
    simp only []
    rw [if_pos (by omega)]
    have hm := h st (n + 1) max
    generalize hr : I.map st (n + 1) max = r at hm
    cases r with
    | fault => exact hm.elim
    | brk e => exact ⟨Nat.le_refl _, hd, hn, by simp [scan]⟩
    | cont map =>
      obtain ⟨⟨tl, htl⟩, hlen⟩ := hm
      simp only []
      generalize hV : max.getD usizeMax = maxV at *
      generalize hM : map.take (min map.length maxV) = m
      have hml : m.length = min map.length maxV := by rw [← hM, List.length_take]; omega
      have hmp : m <+: data := by
        rw [← hM, ← htl]; exact (List.take_prefix _ _).trans (List.prefix_append _ _)
      have hmd : m = data.take m.length := by
        obtain ⟨x, hx⟩ := hmp; rw [← hx, List.take_left' rfl]
      rw [if_pos (by omega), testLoop_spec _ _ _ _ _ (by omega) (by omega)]
      have hdrop : m.drop n = (data.drop n).take (m.length - n) := by
        conv => lhs; rw [hmd]
        rw [List.drop_take]
      rw [hdrop]
      have hmlen := hmp.length_le
      have hidx := scan_index pred ((data.drop n).take (m.length - n)) n t
      have hl2 : ((data.drop n).take (m.length - n)).length = m.length - n := by
        rw [List.length_take, List.length_drop]; omega
      rw [hl2] at hidx
      have hsp := take_split data n m.length maxV (by omega) (by omega)
      have happ := scan_append pred ((data.drop n).take (m.length - n)) ((data.drop m.length).take (maxV - m.length)) n t
      rw [← hsp] at happ
      generalize hs : scan pred ((data.drop n).take (m.length - n)) n t = r at hidx happ
      obtain ⟨n', t', f⟩ := r
      cases f with
      | true =>
        simp only [] at hidx happ ⊢
        exact ⟨hmp, by omega, hidx.1, .inl ⟨by show n' < m.length; omega, happ⟩⟩
      | false =>
        simp only [] at hidx happ ⊢
        have hn' : n' = m.length := by omega
        subst hn'
        by_cases hge : m.length ≥ maxV
        · rw [if_pos hge]
          have : m.length = maxV := by omega
          refine ⟨hmp, by omega, by show n ≤ m.length; omega, .inr ⟨this, this, ?_⟩⟩
          rw [happ, this, Nat.sub_self, List.take_zero]; rfl
        · rw [if_neg hge]
          have := whileLoop_spec I data h st max (by omega) pred fuel m.length t' (by omega) (by omega) (by omega)
          rw [hV] at this
          generalize whileLoop I st max pred fuel m.length t' = r at this
          obtain ⟨n2, t2, fl⟩ := r
          cases fl with
          | fault => exact this.elim
          | brk e =>
            obtain ⟨h1, h2, h3, h4⟩ := this
            simp only [] at h1 h2 h3 h4
            refine ⟨by show n ≤ n2; omega, h2, h3, ?_⟩
            simp only []
            rw [take_split data n m.length n2 (by omega) h1, scan_append, hs]
            exact h4
          | cont m2 =>
            obtain ⟨h1, h2, h3, h4⟩ := this
            simp only [] at h1 h2 h3 h4
            refine ⟨h1, h2, by show n ≤ n2; omega, ?_⟩
            simp only []
            rw [happ]
            exact h4

/-! ## Theorems -/

/-- C37. A single call: on success `n` is the index of the first byte that failed the predicate, or the maximum, the
map includes that byte, and the predicate was called once for each byte from the old `n` up to there. If more data is
needed all bytes up to the new `n` were tested, once. It does not panic. -/
theorem map_while_call (I : StreamImpl σ) (data : List UInt8) (h : Streams I data) (st : σ) (max : Option Nat)
    (hmax : max.getD usizeMax ≤ usizeMax) (pred : τ → Nat → UInt8 → τ × Bool) (n : Nat) (t : τ)
    (hd : n ≤ data.length) (hn : n < max.getD usizeMax) :
    Tested data (max.getD usizeMax) pred n t (readMapWhile I st n max pred t (data.length + 1)) :=
  whileLoop_spec I data h st max hmax pred _ n t (by omega) hd hn

/-- C37. Resuming: in whatever pieces the data arrives, the result is that of testing the data once from the first
offset, up to the first byte that fails or the maximum. -/
theorem map_while_resumes (I : StreamImpl σ) (data : List UInt8) (h : Streams I data) (max : Option Nat)
    (hmax : max.getD usizeMax ≤ usizeMax) (pred : τ → Nat → UInt8 → τ × Bool) (sts : List σ) (n : Nat) (t : τ)
    (hd : n ≤ data.length) (hn : n < max.getD usizeMax) :
    Tested data (max.getD usizeMax) pred n t (calls I max pred (data.length + 1) sts n t) := by
  induction sts generalizing n t with
  | nil =>
    refine ⟨Nat.le_refl _, hd, hn, ?_⟩
    show scan pred ((data.drop n).take (n - n)) n t = (n, t, false)
    rw [Nat.sub_self, List.take_zero]; rfl
  | cons st sts ih =>
    unfold calls
    have hc := map_while_call I data h st max hmax pred n t hd hn
    generalize readMapWhile I st n max pred t (data.length + 1) = r at hc
    obtain ⟨n1, t1, fl⟩ := r
    cases fl with
    | fault => exact hc.elim
    | cont m => exact hc
    | brk e =>
      obtain ⟨h1, h2, h3, h4⟩ := hc
      simp only [] at h1 h2 h3 h4
      have := ih n1 t1 h2 h3
      simp only []
      generalize calls I max pred (data.length + 1) sts n1 t1 = r at this
      obtain ⟨n2, t2, fl⟩ := r
      cases fl with
      | fault => exact this.elim
      | brk e =>
        obtain ⟨g1, g2, g3, g4⟩ := this
        simp only [] at g1 g2 g3 g4
        refine ⟨by show n ≤ n2; omega, g2, g3, ?_⟩
        simp only []
        rw [take_split data n n1 n2 h1 g1, scan_append, h4]
        exact g4
      | cont m2 =>
        obtain ⟨g1, g2, g3, g4⟩ := this
        simp only [] at g1 g2 g3 g4
        refine ⟨g1, g2, by show n ≤ n2; omega, ?_⟩
        simp only []
        rw [take_split data n n1 _ h1 (Nat.le_of_lt h3), scan_append, h4]
        exact g4

/-- What `scan` says: the bytes before the index passed, the one at the index failed, if it says so. For predicates
without state. -/
theorem scan_first (p : Nat → UInt8 → Bool) (l : List UInt8) (n m : Nat) (f : Bool)
    (h : scan (fun (_ : Unit) i b => ((), p i b)) l n () = (m, (), f)) :
    (∀ j, (hj : j < l.length) → n + j < m → p (n + j) l[j] = true)
    ∧ if f then ∃ hj : m - n < l.length, n ≤ m ∧ p m l[m - n] = false else m = n + l.length := by
  induction l generalizing n with
  | nil =>
    simp only [scan, Prod.mk.injEq, true_and] at h
    obtain ⟨rfl, rfl⟩ := h
    simp
  | cons b l ih =>
    simp only [scan] at h
    cases hp : p n b with
    | false =>
      rw [hp] at h
      simp only [Prod.mk.injEq, true_and] at h
      obtain ⟨rfl, rfl⟩ := h
      exact ⟨fun j _ hj => by omega, by simp [hp]⟩
    | true =>
      rw [hp] at h
      obtain ⟨h1, h2⟩ := ih (n + 1) h
      constructor
      · intro j hj hm
        cases j with
        | zero => simpa using hp
        | succ j =>
          have := h1 j (by simpa using hj) (by omega)
          simp only [List.getElem_cons_succ]
          rw [show n + (j + 1) = n + 1 + j by omega]; exact this
      · cases f with
        | false => simp only [Bool.false_eq_true, if_false, List.length_cons] at h2 ⊢; omega
        | true =>
          simp only [if_true] at h2 ⊢
          obtain ⟨hj, h3, h4⟩ := h2
          refine ⟨by simp only [List.length_cons]; omega, by omega, ?_⟩
          have e : m - n = (m - (n + 1)) + 1 := by omega
          simp only [e, List.getElem_cons_succ]; exact h4

/-- A byte slice of which more and more is available. -/
theorem slice_streams (data : List UInt8) (l : List UInt8) (h : l <+: data) (min : Nat) (max : Option Nat) :
    match sliceStream.map l min max with
    | .cont m => m <+: data ∧ min ≤ m.length
    | .brk e => l.length < min ∧ e = ⟨min, max⟩
    | .fault => False := by
  unfold sliceStream
  simp only []
  by_cases hm : min ≤ l.length
  · rw [if_pos hm]; exact ⟨h, hm⟩
  · rw [if_neg hm]; exact ⟨by omega, rfl⟩

example : readMapWhile sliceStream [1, 2, 3] 0 none (fun (_ : Unit) _ b => ((), b < 3)) () 4 = ⟨2, (), .cont [1, 2, 3]⟩ := rfl

/-- The slice of what has arrived of `data`; the state is the number of bytes. -/
def arrivals (data : List UInt8) : StreamImpl Nat where
  map k min max := sliceStream.map (data.take k) min max

theorem arrivals_streams (data : List UInt8) : Streams (arrivals data) data := fun k min max => by
  have := slice_streams data (data.take k) (List.take_prefix _ _) min max
  show match sliceStream.map (data.take k) min max with
    | .cont m => m <+: data ∧ min ≤ m.length
    | .brk _ => True
    | .fault => False
  generalize sliceStream.map (data.take k) min max = r at this
  cases r with
  | cont m => exact this
  | brk e => trivial
  | fault => exact this

theorem whileLoop_brk (I : StreamImpl σ) (st : σ) (max : Option Nat) (pred : τ → Nat → UInt8 → τ × Bool) :
    ∀ (fuel n : Nat) (t : τ) (n' : Nat) (t' : τ) (e : More), whileLoop I st max pred fuel n t = ⟨n', t', .brk e⟩ →
      I.map st (n' + 1) max = .brk e
  | 0, n, t, n', t', e, h => by simp [whileLoop] at h
  | fuel + 1, n, t, n', t', e, h => by
    unfold whileLoop at h
    simp only [] at h
    split at h
    · split at h
      · simp at h
      · rename_i e' he
        simp only [WhileOut.mk.injEq, SFlow.brk.injEq] at h
        obtain ⟨rfl, rfl, rfl⟩ := h
        exact he
      · split at h
        · split at h
          · simp at h
          · simp at h
          · split at h
            · simp at h
            · exact whileLoop_brk I st max pred fuel _ _ n' t' e h
        · simp at h
    · simp at h

/-- C37. Once all data has arrived, the call finds the byte that fails, or the maximum, if there is one. -/
theorem map_while_finishes (data : List UInt8) (max : Option Nat) (hmax : max.getD usizeMax ≤ usizeMax)
    (pred : τ → Nat → UInt8 → τ × Bool) (n : Nat) (t : τ) (hd : n ≤ data.length) (hn : n < max.getD usizeMax)
    (hx : (scan pred (data.drop n) n t).2.2 = true ∨ max.getD usizeMax ≤ data.length) (sts : List Nat) (last : Nat)
    (hl : data.length ≤ last) :
    ∃ m, (calls (arrivals data) max pred (data.length + 1) (sts ++ [last]) n t).flow = .cont m := by
  have key : ∀ (sts : List Nat) (n : Nat) (t : τ) (r : WhileOut τ) (e : More),
      calls (arrivals data) max pred (data.length + 1) (sts ++ [last]) n t = r → r.flow = .brk e → data.length < r.n + 1 := by
    intro sts
    induction sts with
    | nil =>
      intro n t r e hr he
      simp only [List.nil_append, calls] at hr
      cases hc : readMapWhile (arrivals data) last n max pred t (data.length + 1) with
      | mk n1 t1 fl =>
        rw [hc] at hr
        cases fl with
        | fault => simp only [] at hr; subst hr; cases he
        | cont m => simp only [] at hr; subst hr; cases he
        | brk e' =>
          simp only [] at hr
          subst hr
          have := whileLoop_brk _ _ _ _ _ _ _ _ _ _ hc
          simp only [arrivals, sliceStream] at this
          split at this
          · cases this
          · rename_i h; simp only [List.length_take] at h; show data.length < n1 + 1; omega
    | cons st sts ih =>
      intro n t r e hr he
      simp only [List.cons_append, calls] at hr
      cases hc : readMapWhile (arrivals data) st n max pred t (data.length + 1) with
      | mk n1 t1 fl =>
        rw [hc] at hr
        cases fl with
        | fault => simp only [] at hr; subst hr; cases he
        | cont m => simp only [] at hr; subst hr; cases he
        | brk e' => exact ih n1 t1 r e hr he
  have ht := map_while_resumes (arrivals data) data (arrivals_streams data) max hmax pred (sts ++ [last]) n t hd hn
  have hk := fun e h => key sts n t _ e rfl h
  generalize hr : calls (arrivals data) max pred (data.length + 1) (sts ++ [last]) n t = r at ht hk
  obtain ⟨n', t', fl⟩ := r
  cases fl with
  | fault => exact ht.elim
  | cont m => exact ⟨m, rfl⟩
  | brk e =>
    exfalso
    have hk := hk e rfl
    obtain ⟨h1, h2, h3, h4⟩ := ht
    simp only [] at h1 h2 h3 h4 hk
    have : n' = data.length := by omega
    subst this
    rw [List.take_of_length_le (by rw [List.length_drop]; omega)] at h4
    rw [h4] at hx
    rcases hx with hx | hx
    · cases hx
    · omega

example : calls (arrivals [1, 2, 3]) none (fun (c : Nat) _ b => (c + 1, b < 3)) 4 [1, 2, 3] 0 0 = ⟨2, 3, .cont [1, 2, 3]⟩ := rfl

/-- C37, disagreement. A call that starts at the maximum or behind it never succeeds: it panics, unless the stream asks for more
data. -/
theorem map_while_beyond_max (I : StreamImpl σ) (st : σ) (max : Option Nat) (pred : τ → Nat → UInt8 → τ × Bool) (n : Nat) (t : τ)
    (fuel : Nat) (hn : max.getD usizeMax ≤ n) :
    readMapWhile I st n max pred t (fuel + 1) =
      if n = usizeMax ∨ usizeMax < n then ⟨n, t, .fault⟩ else
      match I.map st (n + 1) max with
      | .brk e => ⟨n, t, .brk e⟩
      | _ => ⟨n, t, .fault⟩ := by
  unfold readMapWhile whileLoop
  simp only []
  by_cases h : n + 1 ≤ usizeMax
  · rw [if_pos h, if_neg (by omega)]
    cases I.map st (n + 1) max with
    | fault => rfl
    | brk e => rfl
    | cont m =>
      simp only []
      rw [if_neg (by simp only [List.length_take]; omega)]
  · rw [if_neg h, if_pos (by omega)]

/-- C37, disagreement. A call that starts at the maximum panics, so that a loop which goes on after a call stopped at
the maximum does not find out. -/
theorem map_while_at_max : (readMapWhile sliceStream [1, 2, 3] 2 (some 2) (fun (_ : Unit) _ _ => ((), true)) () 4).flow
    = .fault := by decide

/-- C37. Advancing drops the bytes from the stream; past the end it panics. -/
theorem slice_advance (data : List UInt8) (a b : Nat) :
    (sliceAdvance data a = none ↔ data.length < a)
    ∧ (sliceAdvance data a).bind (sliceAdvance · b) = sliceAdvance data (a + b) := by
  unfold sliceAdvance
  constructor
  · split <;> simp <;> omega
  · by_cases h : a ≤ data.length
    · rw [if_pos h]
      simp only [Option.bind_some, List.length_drop, List.drop_drop]
      by_cases h' : a + b ≤ data.length
      · rw [if_pos h', if_pos (by omega)]
      · rw [if_neg h', if_neg (by omega)]
    · rw [if_neg h, if_neg (by omega)]; rfl

/-- C37. A map of a vector: it panics exactly if the vector cannot hold what the hint asks for; else the committed data
and the contents of the spare capacity stay, and the map has the length of the hint at least. -/
theorem stream_map (G : Grow) (v : VecStream) (min : Nat) (max : Option Nat) :
    (vecStreamMap G v min max = none ↔ isizeMax < v.data.length + max.getD min)
    ∧ ∀ v' n, vecStreamMap G v min max = some (v', n) → v'.data = v.data ∧ v'.spare = v.spare ∧ max.getD min ≤ n
      ∧ n = v'.cap - v'.data.length ∧ v.cap ≤ v'.cap := by
  have hg := G.enough v.data.length v.cap (max.getD min)
  unfold vecStreamMap
  simp only []
  split
  · refine ⟨⟨fun h => (Option.some_ne_none _ h).elim, fun h => by omega⟩, fun v' n h => ?_⟩
    cases h
    exact ⟨rfl, rfl, by omega, rfl, hg.2⟩
  · exact ⟨⟨fun _ => by omega, fun _ => rfl⟩, fun v' n h => (Option.some_ne_none _ h.symm).elim⟩

/-- C37. Writing to a vector as a stream appends the data, whatever the growth policy of the allocator; what was
committed before stays. It panics exactly if a vector cannot hold both. -/
theorem stream_write (G : Grow) (v : VecStream) (bs : List UInt8) :
    if v.data.length + bs.length ≤ isizeMax then
      ∃ v', vecStreamWrite G v bs = some v' ∧ v'.data = v.data ++ bs ∧ v.cap ≤ v'.cap
    else vecStreamWrite G v bs = none := by
  have hg := G.enough v.data.length v.cap bs.length
  by_cases hs : v.data.length + bs.length ≤ isizeMax
  · rw [if_pos hs]
    unfold vecStreamWrite vecStreamMap
    simp only [Option.getD_some]
    rw [if_pos hs]
    simp only []
    rw [if_pos (by omega)]
    unfold vecStreamCommit
    have : (List.range bs.length).mapM (put v.spare 0 bs) = some bs := by
      apply mapM_range
      intro i hi
      unfold put
      rw [if_pos (by omega), Nat.sub_zero, List.getElem?_eq_getElem hi]
    simp only [this, Option.bind_eq_bind, Option.bind_some]
    exact ⟨_, rfl, rfl, hg.2⟩
  · rw [if_neg hs]
    unfold vecStreamWrite
    rw [(stream_map G v bs.length (some bs.length)).1.mpr (by rw [Option.getD_some]; omega)]

/-- C37. What was written to the spare capacity is there in the next map, and moves to the front when something is
committed. -/
theorem stream_remap (G : Grow) (v v' : VecStream) (n : Nat) (h : vecStreamCommit v n = some v') (m : Nat) (bs : List UInt8)
    (hb : ∀ i, (hi : i < bs.length) → v.spare (n + i) = some bs[i]) (hm : m = bs.length)
    (hs : v'.data.length + m ≤ isizeMax) :
    ∃ r, vecStreamUnchecked G v' m = some (r, bs) ∧ r.data = v'.data := by
  subst hm
  unfold vecStreamCommit at h
  cases hr : (List.range n).mapM v.spare with
  | none => simp [hr] at h
  | some cs =>
    simp only [hr, Option.bind_eq_bind, Option.bind_some, Option.some.injEq] at h
    subst h
    unfold vecStreamUnchecked vecStreamMap
    simp only [Option.getD_some]
    have hg := G.enough (v.data ++ cs).length v.cap bs.length
    rw [if_pos hs]
    simp only []
    rw [if_pos (by omega)]
    have : (List.range bs.length).mapM (fun i => v.spare (i + n)) = some bs :=
      mapM_range _ _ fun i hi => by rw [Nat.add_comm]; exact hb i hi
    simp only [this, Option.bind_eq_bind, Option.bind_some]
    exact ⟨_, rfl, rfl⟩

/-- A growth policy: exactly what is needed. -/
def growExact : Grow := ⟨fun len cap n => Nat.max cap (len + n), fun _ _ _ => ⟨Nat.le_max_right .., Nat.le_max_left ..⟩⟩

example : ((vecStreamWrite growExact ⟨[1, 2], 2, fun _ => none⟩ [3]).map (·.data)) = some [1, 2, 3] := by decide

/-- C37, disagreement. A map of a vector can be shorter than the minimum asked for, if the hint for the maximum is less
than the minimum. -/
theorem vec_map_short : ∃ G : Grow, (vecStreamMap G ⟨[], 0, fun _ => none⟩ 16 (some 4)).map (·.2) = some 4 :=
  ⟨growExact, by decide⟩

/-- C37, disagreement. No maximum is documented to be the same as the largest maximum, and a maximum to be no more than a
hint. A vector asked with the largest maximum always panics; asked with none it does not. -/
theorem vec_map_hint (G : Grow) (v : VecStream) :
    vecStreamMap G v 0 (some usizeMax) = none
    ∧ (v.data.length ≤ isizeMax → vecStreamMap G v 0 none ≠ none) := by
  have hu : isizeMax < usizeMax := by decide
  refine ⟨(stream_map G v 0 (some usizeMax)).1.mpr (by rw [Option.getD_some]; omega), fun h hn => ?_⟩
  have := (stream_map G v 0 none).1.mp hn
  rw [Option.getD_none] at this
  omega

end Verif.Io
