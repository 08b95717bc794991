import Verif.Dbus.LemmasWords
/-! # C101: a signature is nothing but the words of its memory

`View s t` (C30) says that `s` is a signature of the type `t`: a parsed one, or a part of one. `s.store be` is its memory on a machine with the given byte
order. -/
namespace Verif.Dbus

/-- C101. Parsing fills all of the memory that was allocated, which is what `size_for_length` demands, and nothing beyond: every byte of it is a byte of a
field of a node. -/
theorem memory_filled (be : Bool) (bs : List UInt8) (s : Sig) (hl : bs.length ≤ maxLength) (h : Sig.new bs = .ok s) :
    ∃ r size, s.store be = some r ∧ r.be = be ∧ sizeForLength bs.length = some size ∧ r.cells.length = 8 * size := by
  obtain ⟨t, rfl⟩ := (accepts_iff bs hl).mp ⟨s, h⟩
  obtain ⟨c, hc, hlen, -, -, -⟩ := view_store be (View.parsed hl h)
  have h' := hl
  rw [maxLength_eq, bytes_length] at h'
  rw [new_bytes t h', Res.ok.injEq] at h
  subst h
  refine ⟨⟨be, c⟩, (ofTy t).words, by rw [Sig.store, hc]; rfl, rfl, ?_, hlen⟩
  have hn : (ofTy t).nodes.length = t.size := by
    show (headN _ t 0 0 :: tailN _ t).length = _
    have := size_pos t
    rw [List.length_cons, tailN_length]
  unfold sizeForLength Sig.words
  rw [hn, bytes_length, show (ofTy t).kind = kindFor t.size from rfl]
  unfold kindFor
  by_cases h8 : t.size ≤ Kind.node8.lengthMax
  · rw [if_pos h8, if_pos h8, Nat.mul_comm]
  · rw [if_neg h8, if_neg h8, if_pos h', if_pos, Nat.mul_comm]
    exact Nat.lt_of_le_of_lt (Nat.mul_le_mul_right _ h') (by decide)

/-- C101. What is read from the memory of a signature is what was written: its flags, its length, and all of its nodes, which are taken for nodes of the
kind that they are. -/
theorem memory_read {be : Bool} {s : Sig} {t : Ty} (h : View s t) : ∃ r, s.store be = some r ∧ r.words = s.words ∧ r.flags = s.flags ∧ r.len = s.len
    ∧ ∀ i, r.node_at i = some (s.nodes[i]?.map (s.kind, ·)) ∧ s.node_at i = some s.nodes[i]? := by
  obtain ⟨c, hc, -, hw, hf, -⟩ := view_store be h
  have hs : s.store be = some ⟨be, c⟩ := by rw [Sig.store, hc]; rfl
  refine ⟨⟨be, c⟩, hs, hw, hf, ?_, fun i => ⟨store_node_at h hs i, h.rep.node_at i⟩⟩
  unfold Store.len Sig.len
  rw [hf, hw]

/-- C101. The signature of a sub-type is a part of the same memory; none of the arithmetic overflows and no split is out of range. -/
theorem memory_part {be : Bool} {s : Sig} {t : Ty} {r : Store} (h : View s t) (hr : s.store be = some r) (i : Nat) :
    (∀ s', s.at_ i = some (some s') → ∃ r', s'.store be = some r' ∧ r.at_ i = some (some r') ∧ r'.cells <:+: r.cells)
    ∧ (s.at_ i = some none → r.at_ i = some none) := store_at h hr i

/-- C101. Hence a copy of the memory is a copy of the signature: signatures with the same memory are the same, whatever they were made from, and so is
everything that is asked of them. -/
theorem memory_tells {be : Bool} {s s' : Sig} {t t' : Ty} {r : Store} (h : View s t) (h' : View s' t') (hr : s.store be = some r) (hr' : s'.store be = some r) :
    s = s' ∧ t = t' := by
  obtain ⟨c, rfl⟩ : ∃ c, r = Store.mk be c := by obtain ⟨c, -, rfl⟩ := store_eq hr; exact ⟨c, rfl⟩
  obtain ⟨c1, hc1, e1⟩ := store_eq hr
  obtain ⟨c2, hc2, e2⟩ := store_eq hr'
  cases e1
  cases e2
  obtain ⟨d1, hd1, -, -, hf1, hn1⟩ := view_store be h
  obtain ⟨d2, hd2, -, -, hf2, hn2⟩ := view_store be h'
  cases hc1.symm.trans hd1
  cases hc2.symm.trans hd2
  obtain ⟨n1, l1, hl1, hk1, -⟩ := view_flag h
  obtain ⟨n2, l2, hl2, hk2, -⟩ := view_flag h'
  have hfl : s.flags = s'.flags := hf1.symm.trans hf2
  unfold Sig.flags at hfl
  rw [hl1, hl2] at hfl
  have hfl' : n1.flags = n2.flags := Option.some.inj hfl
  have hk : s.kind = s'.kind := by
    have hid : s.kind.id = s'.kind.id := by rw [← hk1, ← hk2, hfl']
    revert hid
    cases s.kind <;> cases s'.kind <;> decide
  have hs : s = s' := by
    obtain ⟨k, ns⟩ := s
    obtain ⟨k', ns'⟩ := s'
    simp only [] at hk hn1 hn2
    subst hk
    rw [← hn1, ← hn2]
  refine ⟨hs, ?_⟩
  subst hs
  exact bytes_inj (Option.some.inj (h.rep.text.symm.trans h'.rep.text))

/-- The bytes of the memory of a parsed signature. -/
def wordsOf (be : Bool) (bs : List UInt8) : Option (List UInt8) :=
  match Sig.new bs with
  | .ok s => (s.store be).map (·.cells)
  | _ => none

/-- The type of `as` has a memory of two words: the flags, the counters in five bits each, and the sizes. The second word is the memory of the part `s`, and
differs from that of `s` parsed by itself: it knows where it is. -/
example : wordsOf false (sb "as") = some [15, 100, 2, 0, 0, 8, 0, 0, 10, 36, 3, 0, 1, 4, 0, 0] := by decide +kernel
example : wordsOf true (sb "as") = some [0, 2, 100, 15, 8, 0, 0, 0, 0, 3, 36, 10, 4, 1, 0, 0] := by decide +kernel
example : wordsOf true (sb "s") ≠ some [0, 3, 36, 10, 4, 1, 0, 0] := by decide +kernel
/-- Long signatures have six words for each element. -/
example : (wordsOf true (List.replicate 31 0x61 ++ sb "y")).map (fun l => (l.length, l.drop (48 * 31))) = some (8 * (6 * 32),
    [0, 1, 33, 129, 0, 0, 0, 0, 0, 0, 0, 0, 0, 0, 0, 1, 0, 0, 0, 0, 0, 0, 0, 0, 0, 0, 0, 0, 0, 0, 0, 1, 0, 0, 0, 0, 0, 0, 0, 1, 0, 0, 0, 0, 0, 0, 0, 1]) := by
  decide +kernel

/-- The hypotheses are met: the signature `a(smh)` and its part `mh`, whose memory is that of the fourth and fifth word. -/
example : ∃ s s' r r', View s (.array (.struct [.basic .string, .maybe (.basic .unixFd)])) ∧ s.at_ 3 = some (some s')
    ∧ View s' (.maybe (.basic .unixFd)) ∧ s.store false = some r ∧ r.at_ 3 = some (some r') ∧ s'.store false = some r'
    ∧ r'.cells = (r.cells.drop 24).take 16 ∧ r.flags = s.flags ∧ r.len = some 6 := by
  have hv : ∀ {s}, Sig.new (Ty.array (.struct [.basic .string, .maybe (.basic .unixFd)])).bytes = .ok s →
      View s (.array (.struct [.basic .string, .maybe (.basic .unixFd)])) := fun h => View.parsed (by decide +kernel) h
  have ho : Occ (.array (.struct [.basic .string, .maybe (.basic .unixFd)])) 3 (.maybe (.basic .unixFd)) :=
    .child (i := 1) (.child (i := 0) (.root _) (.array _)) (.member [.basic .string] _ [])
  refine ⟨_, _, _, _, hv rfl, rfl, View.sub (hv rfl) ho rfl, rfl, ?_, rfl, ?_, ?_, ?_⟩ <;> decide +kernel

end Verif.Dbus
