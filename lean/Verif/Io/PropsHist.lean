import Verif.Io.LemmasHist
/-! # C142: the last write to a byte counts -/
namespace Verif.Io.Hist
open Verif.Io

variable {σ : Type} {I : WriteImpl σ}

/-- C142. After every history of operations, at whatever indices, in whatever order and whether or not the writer refused some of them:
every byte is that of the last operation that got to it, or as it was if there is none. Operations that succeed get to all of
their range, others to a beginning of it. -/
theorem last_counts (hE : Exact I) : ∀ (ops : List WOp), (∀ op ∈ ops, op.fine) → ∀ w : Writer σ,
    propers ops (runs I w ops).2 ∧ ∀ j, (runs I w ops).1.mem j = lastTo j ops (runs I w ops).2 (w.mem j)
  | [], _, w => ⟨trivial, fun _ => rfl⟩
  | op :: ops, hf, w => by
    obtain ⟨h1, h2⟩ := step hE w op (hf op (by simp))
    obtain ⟨h3, h4⟩ := last_counts hE ops (fun o ho => hf o (by simp [ho])) (op.run I w).w
    refine ⟨⟨h1, h3⟩, fun j => ?_⟩
    simp only [runs, lastTo]
    rw [h4 j, h2 j]

/-- C142. The writer was told to commit what the user committed, in this order, and nothing else. -/
theorem commits_only : ∀ (ops : List WOp) (w : Writer σ), Calls I w.st (commits ops) (runs I w ops).1.st
  | [], w => .nil
  | op :: ops, w => by
    rw [commits_cons]
    exact (step_calls w op).trans (commits_only ops _)

/-- C142. Operations on different ranges can be swapped. -/
theorem swapped (hE : Exact I) (a b : WOp) (ha : a.fine) (hb : b.fine)
    (hd : a.start + a.data.length ≤ b.start ∨ b.start + b.data.length ≤ a.start) (w : Writer σ)
    (h1 : ∀ r ∈ (runs I w [a, b]).2, r.2 = .cont ()) (h2 : ∀ r ∈ (runs I w [b, a]).2, r.2 = .cont ()) :
    (runs I w [a, b]).1.mem = (runs I w [b, a]).1.mem := by
  obtain ⟨p1, m1⟩ := last_counts hE [a, b] (by simp [ha, hb]) w
  obtain ⟨p2, m2⟩ := last_counts hE [b, a] (by simp [ha, hb]) w
  funext j
  rw [m1 j, m2 j]
  simp only [runs, List.mem_cons, List.not_mem_nil, or_false, forall_eq_or_imp, forall_eq, propers, proper, lastTo] at p1 p2 h1 h2 ⊢
  rw [p1.1.2.2.1 h1.1, p1.2.1.2.2.1 h1.2, p2.1.2.2.1 h2.1, p2.2.1.2.2.1 h2.2]
  split <;> split <;> first | rfl | omega

/-- C142. Data can be written in two parts, each in any way. -/
theorem joined (hE : Exact I) (a b c : WOp) (ha : a.fine) (hb : b.fine) (hc : c.fine) (hs : c.start = a.start)
    (hab : b.start = a.start + a.data.length) (hd : c.data = a.data ++ b.data) (w : Writer σ)
    (h1 : ∀ r ∈ (runs I w [a, b]).2, r.2 = .cont ()) (h2 : ∀ r ∈ (runs I w [c]).2, r.2 = .cont ()) :
    (runs I w [a, b]).1.mem = (runs I w [c]).1.mem := by
  obtain ⟨p1, m1⟩ := last_counts hE [a, b] (by simp [ha, hb]) w
  obtain ⟨p2, m2⟩ := last_counts hE [c] (by simp [hc]) w
  funext j
  rw [m1 j, m2 j]
  simp only [runs, List.mem_cons, List.not_mem_nil, or_false, forall_eq_or_imp, forall_eq, propers, proper, lastTo] at p1 p2 h1 h2 ⊢
  rw [p1.1.2.2.1 h1.1, p1.2.1.2.2.1 h1.2, p2.1.2.2.1 h2, hs, hab, hd, List.length_append]
  split
  · rename_i h
    rw [if_pos (by omega), List.getElem?_append_right (by omega)]
    congr 1
    omega
  · split
    · rename_i h
      rw [if_pos (by omega), List.getElem?_append_left (by omega)]
    · rw [if_neg (by omega)]

/-- C142. What is written over, completely and successfully, does not matter: it may as well be left out. -/
theorem overwritten (hE : Exact I) (a b : WOp) (ha : a.fine) (hb : b.fine) (hs : b.start ≤ a.start)
    (he : a.start + a.data.length ≤ b.start + b.data.length) (w : Writer σ)
    (h1 : ∀ r ∈ (runs I w [a, b]).2.drop 1, r.2 = .cont ()) (h2 : ∀ r ∈ (runs I w [b]).2, r.2 = .cont ()) :
    (runs I w [a, b]).1.mem = (runs I w [b]).1.mem := by
  obtain ⟨p1, m1⟩ := last_counts hE [a, b] (by simp [ha, hb]) w
  obtain ⟨p2, m2⟩ := last_counts hE [b] (by simp [hb]) w
  funext j
  rw [m1 j, m2 j]
  simp only [runs, List.drop_succ_cons, List.drop_zero, List.mem_cons, List.not_mem_nil, or_false, forall_eq, propers, proper, lastTo] at p1 p2 h1 h2 ⊢
  rw [p1.2.1.2.2.1 h1, p2.1.2.2.1 h2]
  split
  · rfl
  · rw [if_neg (by omega)]

/-- C142. Vectors: their length grows by what is committed, and if every byte up to there was in the vector or got written, they have
contents which are, byte by byte, those of the last operation that got to them; and reading them yields these. -/
theorem reads_back (bs : List UInt8) (ops : List WOp) (hf : ∀ op ∈ ops, op.fine) (hl : bs.length + (commits ops).sum ≤ isizeMax)
    (hi : ∀ j, j < bs.length + (commits ops).sum → lastTo j ops (runs vecWrite (vecOf bs) ops).2 bs[j]? ≠ none) :
    ∃ bytes, vecBytes (runs vecWrite (vecOf bs) ops).1 = some bytes ∧ bytes.length = bs.length + (commits ops).sum
      ∧ (∀ j, j < bytes.length → bytes[j]? = lastTo j ops (runs vecWrite (vecOf bs) ops).2 bs[j]?)
      ∧ ∀ idx len, idx + len ≤ bytes.length → (read (sliceRead bytes) () idx len).flow = .cont ()
        ∧ (read (sliceRead bytes) () idx len).out.length = len
        ∧ ∀ k, k < len → (read (sliceRead bytes) () idx len).out[k]? = lastTo (idx + k) ops (runs vecWrite (vecOf bs) ops).2 bs[idx + k]? := by
  obtain ⟨_, hm⟩ := last_counts vec_write.1 ops hf (vecOf bs)
  have hs : (runs vecWrite (vecOf bs) ops).1.st = bs.length + (commits ops).sum := vec_calls (commits_only ops (vecOf bs))
  generalize runs vecWrite (vecOf bs) ops = r at *
  have hsome : ∀ j, j < bs.length + (commits ops).sum → ∃ b, r.1.mem j = some b := fun j hj => by
    have := hi j hj
    rw [show bs[j]? = (vecOf bs).mem j from rfl, ← hm j] at this
    exact Option.ne_none_iff_exists'.1 this
  let bytes := (List.range (bs.length + (commits ops).sum)).map fun j => (r.1.mem j).getD 0
  have hlen : bytes.length = bs.length + (commits ops).sum := by simp [bytes]
  have hget : ∀ j, j < bytes.length → bytes[j]? = r.1.mem j := fun j hj => by
    obtain ⟨b, hb⟩ := hsome j (by omega)
    rw [hb]
    have hj' : j < bs.length + (commits ops).sum := by omega
    simp [bytes, List.getElem?_map, List.getElem?_range hj', hb]
  refine ⟨bytes, ?_, hlen, fun j hj => by rw [hget j hj, hm j]; rfl, fun idx len hr => ?_⟩
  · rw [vecBytes, hs, ← hlen]
    exact mapM_range _ _ fun j hj => by rw [← hget j hj, List.getElem?_eq_getElem hj]
  · obtain ⟨hL, hc⟩ := slice_read bytes (by simp only [isizeMax, usizeMax] at *; omega)
    have hcont := (hc idx len).2 (.inr hr)
    have hread := read_spec (sliceRead bytes) bytes hL () idx len
    rw [hcont] at hread
    refine ⟨hcont, hread.2.1, fun k hk => ?_⟩
    rw [hread.1, List.getElem?_take_of_lt hk, List.getElem?_drop, hget _ (by omega), hm]
    rfl

-- overlapping operations on a vector, the last of which is refused since there is no such index
example : (runs vecWrite (vecOf []) [.write 2 [1, 2, 3], .fill 0 3 9, .commit 5, .align 5 3, .iter 1 [7], .write usizeMax [1, 2]]).1.st = 5
    ∧ (List.range 9).map (runs vecWrite (vecOf []) [.write 2 [1, 2, 3], .fill 0 3 9, .commit 5, .align 5 3, .iter 1 [7], .write usizeMax [1, 2]]).1.mem
      = [some 9, some 7, some 9, some 2, some 3, some 0, some 0, some 0, none]
    ∧ (runs vecWrite (vecOf []) [.write 2 [1, 2, 3], .fill 0 3 9, .commit 5, .align 5 3, .iter 1 [7], .write usizeMax [1, 2]]).2.map (·.2)
      = [.cont (), .cont (), .cont (), .cont (), .cont (), .brk (some .overflow)] := by decide +kernel

-- instances of the corollaries
example := swapped (I := vecWrite) vec_write.1 (.write 0 [1, 2]) (.fill 2 1 9) trivial trivial (.inl (by decide)) (vecOf []) (by decide +kernel) (by decide +kernel)
example := joined (I := vecWrite) vec_write.1 (.write 1 [1, 2]) (.align 3 2) (.iter 1 [1, 2, 0]) trivial ⟨by decide, by decide⟩ trivial rfl rfl rfl (vecOf []) (by decide +kernel) (by decide +kernel)
example := overwritten (I := vecWrite) vec_write.1 (.write 1 [1, 2]) (.fill 0 3 7) trivial trivial (by decide) (by decide) (vecOf []) (by decide +kernel) (by decide +kernel)
-- a prefix is left out first and written later
example := reads_back [5] [.write 3 [1, 2], .commit 4, .fill 1 2 7] (fun _ h => by simp at h; rcases h with rfl | rfl | rfl <;> trivial)
  (by decide) (by decide +kernel)
example : vecBytes (runs vecWrite (vecOf [5]) [.write 3 [1, 2], .commit 4, .fill 1 2 7]).1 = some [5, 7, 7, 1, 2] := by decide +kernel
-- without it, there would be bytes that are not initialised
example : vecBytes (runs vecWrite (vecOf [5]) [.write 3 [1, 2], .commit 4]).1 = none := by decide +kernel

end Verif.Io.Hist
