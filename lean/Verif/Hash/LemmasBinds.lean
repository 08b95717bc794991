import Verif.Hash.PropsHmac
import Verif.Hash.SpecBinds
/-! # Lemmas: digests and compressions -/
namespace Verif.Hash
open Spec (compress digestBlocks inputs compressions Collide)

theorem inputs_lt (H : Spec.Vars) (bs : List Byte) (h : bs.length < 64) : inputs H bs = [] := by
  rw [inputs, dif_pos h]

theorem inputs_ge (H : Spec.Vars) (bs : List Byte) (h : ¬ bs.length < 64) :
    inputs H bs = (H, bs.take 64) :: inputs (compress H (bs.take 64)) (bs.drop 64) := by
  rw [inputs, dif_neg h]

theorem digestBlocks_ge (H : Spec.Vars) (bs : List Byte) (h : ¬ bs.length < 64) :
    digestBlocks H bs = digestBlocks (compress H (bs.take 64)) (bs.drop 64) := by
  rw [digestBlocks, dif_neg h]

/-- Blocks of the same number. -/
theorem same_blocks (n : Nat) : ∀ (H G : Spec.Vars) (a b : List Byte), a.length = 64 * n → b.length = 64 * n →
    digestBlocks H a = digestBlocks G b → (H = G ∧ a = b) ∨
      ∃ x ∈ inputs H a, ∃ y ∈ inputs G b, x ≠ y ∧ compress x.1 x.2 = compress y.1 y.2 := by
  induction n with
  | zero =>
    intro H G a b ha hb h
    rw [digestBlocks_lt _ _ (by omega), digestBlocks_lt _ _ (by omega)] at h
    exact .inl ⟨h, by rw [List.length_eq_zero_iff.mp (by omega : a.length = 0), List.length_eq_zero_iff.mp (by omega : b.length = 0)]⟩
  | succ n ih =>
    intro H G a b ha hb h
    have ha' : ¬ a.length < 64 := by omega
    have hb' : ¬ b.length < 64 := by omega
    rw [digestBlocks_ge _ _ ha', digestBlocks_ge _ _ hb'] at h
    rw [inputs_ge _ _ ha', inputs_ge _ _ hb']
    rcases ih _ _ (a.drop 64) (b.drop 64) (by simp; omega) (by simp; omega) h with ⟨hc, hd⟩ | ⟨x, hx, y, hy, hne, he⟩
    · by_cases hxy : (H, a.take 64) = (G, b.take 64)
      · obtain ⟨h1, h2⟩ := Prod.mk.inj hxy
        refine .inl ⟨h1, ?_⟩
        rw [← List.take_append_drop 64 a, ← List.take_append_drop 64 b, h2, hd]
      · exact .inr ⟨_, List.mem_cons_self, _, List.mem_cons_self, hxy, hc⟩
    · exact .inr ⟨x, List.mem_cons_of_mem _ hx, y, List.mem_cons_of_mem _ hy, hne, he⟩

/-- The last compression. -/
theorem last_block (n : Nat) : ∀ (H : Spec.Vars) (a b : List Byte), a.length = 64 * n → b.length = 64 →
    digestBlocks H (a ++ b) = compress (digestBlocks H a) b ∧ (digestBlocks H a, b) ∈ inputs H (a ++ b) := by
  induction n with
  | zero =>
    intro H a b ha hb
    have : a = [] := List.length_eq_zero_iff.mp (by omega)
    subst this
    rw [List.nil_append, digestBlocks_lt H [] (by simp), inputs_ge _ _ (by omega), digestBlocks_ge _ _ (by omega),
      digestBlocks_lt _ (b.drop 64) (by simp; omega), List.take_of_length_le (by omega)]
    exact ⟨rfl, List.mem_cons_self⟩
  | succ n ih =>
    intro H a b ha hb
    have hl : ¬ a.length < 64 := by omega
    have hl' : ¬ (a ++ b).length < 64 := by simp; omega
    have ht : (a ++ b).take 64 = a.take 64 := by rw [List.take_append_of_le_length (by omega)]
    have hd : (a ++ b).drop 64 = a.drop 64 ++ b := by rw [List.drop_append_of_le_length (by omega)]
    rw [inputs_ge _ _ hl', digestBlocks_ge _ _ hl', digestBlocks_ge _ a hl, ht, hd]
    obtain ⟨h1, h2⟩ := ih (compress H (a.take 64)) (a.drop 64) b (by simp; omega) hb
    exact ⟨h1, List.mem_cons_of_mem _ h2⟩

theorem padded_length (m : List Byte) : (Spec.pad m).length = m.length + 9 + Spec.padZeros m.length ∧ (Spec.pad m).length % 64 = 0 := by
  have h : (Spec.pad m).length = m.length + 9 + Spec.padZeros m.length := by
    simp only [Spec.pad, List.length_append, be64_length, List.length_replicate, List.length_cons, List.length_nil]; omega
  refine ⟨h, ?_⟩
  rw [h]; unfold Spec.padZeros; omega

theorem digits_inj (k : Nat) : ∀ (a b : Nat), a < 256 ^ k → b < 256 ^ k →
    (∀ i < k, BitVec.ofNat 8 (a / 256 ^ i) = BitVec.ofNat 8 (b / 256 ^ i)) → a = b := by
  induction k with
  | zero => intro a b ha hb _; simp at ha hb; omega
  | succ k ih =>
    intro a b ha hb h
    have h0 := congrArg BitVec.toNat (h 0 (by omega))
    simp only [Nat.pow_zero, Nat.div_one, BitVec.toNat_ofNat] at h0
    have := ih (a / 256) (b / 256) (by rw [Nat.pow_succ] at ha; omega) (by rw [Nat.pow_succ] at hb; omega) (by
      intro i hi
      have := h (i + 1) (by omega)
      rw [Nat.pow_succ, Nat.mul_comm, ← Nat.div_div_eq_div_mul, ← Nat.div_div_eq_div_mul] at this
      exact this)
    omega

theorem be64_inj {a b : Nat} (ha : a < 2 ^ 64) (hb : b < 2 ^ 64) (h : Spec.be64 a = Spec.be64 b) : a = b := by
  apply digits_inj 8 a b (by simpa using ha) (by simpa using hb)
  intro i hi
  have := congrArg (·[7 - i]?) h
  simpa [Spec.be64, show 7 - i < 8 by omega, show 7 - (7 - i) = i by omega] using this

theorem be32_inj {a b : Spec.Word} (h : Spec.be32 a = Spec.be32 b) : a = b := by
  apply BitVec.eq_of_toNat_eq
  apply digits_inj 4 _ _ (by simpa using a.isLt) (by simpa using b.isLt)
  intro i hi
  have := congrArg (·[3 - i]?) h
  simpa [Spec.be32, show 3 - i < 4 by omega, show 3 - (3 - i) = i by omega] using this

theorem bytes_inj {u v : Spec.Vars} (h : u.bytes = v.bytes) : u = v := by
  have hl : ∀ w : Spec.Word, (Spec.be32 w).length = 4 := by intro w; simp [Spec.be32]
  simp only [Spec.Vars.bytes, List.append_assoc] at h
  obtain ⟨h1, h⟩ := List.append_inj h (by rw [hl, hl])
  obtain ⟨h2, h⟩ := List.append_inj h (by rw [hl, hl])
  obtain ⟨h3, h⟩ := List.append_inj h (by rw [hl, hl])
  obtain ⟨h4, h⟩ := List.append_inj h (by rw [hl, hl])
  obtain ⟨h5, h⟩ := List.append_inj h (by rw [hl, hl])
  obtain ⟨h6, h⟩ := List.append_inj h (by rw [hl, hl])
  obtain ⟨h7, h8⟩ := List.append_inj h (by rw [hl, hl])
  cases u; cases v
  simp only [Spec.Vars.mk.injEq]
  exact ⟨be32_inj h1, be32_inj h2, be32_inj h3, be32_inj h4, be32_inj h5, be32_inj h6, be32_inj h7, be32_inj h8⟩

/-- The last block ends with the length. -/
theorem pad_last (m : List Byte) : ∃ n a z, Spec.pad m = a ++ (z ++ Spec.be64 (8 * m.length)) ∧ a.length = 64 * n ∧ z.length = 56 := by
  obtain ⟨h1, h2⟩ := padded_length m
  have h3 : 64 ≤ (Spec.pad m).length := by omega
  have h4 : (m ++ [0x80] ++ List.replicate (Spec.padZeros m.length) 0).length = (Spec.pad m).length - 8 := by
    simp only [List.length_append, List.length_replicate, List.length_cons, List.length_nil]; omega
  refine ⟨(Spec.pad m).length / 64 - 1, (Spec.pad m).take ((Spec.pad m).length - 64),
    ((m ++ [0x80] ++ List.replicate (Spec.padZeros m.length) 0).drop ((Spec.pad m).length - 64)), ?_, ?_, ?_⟩
  · have e : (m ++ [0x80] ++ List.replicate (Spec.padZeros m.length) 0).drop ((Spec.pad m).length - 64) ++ Spec.be64 (8 * m.length)
        = (Spec.pad m).drop ((Spec.pad m).length - 64) := by
      generalize hk : (Spec.pad m).length - 64 = k
      unfold Spec.pad
      exact (List.drop_append_of_le_length (by rw [h4]; omega)).symm
    rw [e, List.take_append_drop]
  · rw [List.length_take]; omega
  · rw [List.length_drop, h4]; omega

/-- Merkle and Damgård. -/
theorem same_digest {m n : List Byte} (hm : m.length < 2 ^ 61) (hn : n.length < 2 ^ 61) (hne : m ≠ n)
    (h : Spec.sha256 m = Spec.sha256 n) : Collide m n := by
  have h' := bytes_inj h
  unfold Collide compressions
  by_cases hl : m.length = n.length
  · have e1 := padded_length m
    have e2 := padded_length n
    rcases same_blocks ((Spec.pad m).length / 64) Spec.H0 Spec.H0 (Spec.pad m) (Spec.pad n) (by omega) (by rw [hl] at e1; omega) h' with ⟨_, q⟩ | q
    · unfold Spec.pad at q
      simp only [List.append_assoc] at q
      exact absurd (List.append_inj q hl).1 hne
    · exact q
  · obtain ⟨k1, a1, z1, p1, l1, w1⟩ := pad_last m
    obtain ⟨k2, a2, z2, p2, l2, w2⟩ := pad_last n
    have q1 := last_block k1 Spec.H0 a1 (z1 ++ Spec.be64 (8 * m.length)) l1 (by simp [be64_length, w1])
    have q2 := last_block k2 Spec.H0 a2 (z2 ++ Spec.be64 (8 * n.length)) l2 (by simp [be64_length, w2])
    rw [p1, p2] at h' ⊢
    refine ⟨_, q1.2, _, q2.2, ?_, by rw [← q1.1, ← q2.1]; exact h'⟩
    intro e
    have e' := (Prod.mk.inj e).2
    have := be64_inj (by omega) (by omega) (List.append_inj e' (by rw [w1, w2])).2
    omega

/-- The digest is the last result. -/
theorem digest_result (m : List Byte) : ∃ x ∈ compressions m, Spec.sha256 m = (compress x.1 x.2).bytes := by
  obtain ⟨k, a, z, p, l, w⟩ := pad_last m
  have q := last_block k Spec.H0 a (z ++ Spec.be64 (8 * m.length)) l (by simp [be64_length, w])
  exact ⟨_, by unfold compressions; rw [p]; exact q.2, by unfold Spec.sha256; rw [p, q.1]⟩

/-- What is hashed at all. -/
theorem hash_some {m d : List Byte} (h : hash m = some d) : m.length < 2 ^ 61 ∧ m.length % 64 ≠ 63 ∧ d = Spec.sha256 m := by
  by_cases hl : m.length < 2 ^ 64
  · obtain ⟨e, a, b, c, _⟩ := push_absorbed _ _ m absorbed_default (by simpa using hl)
    by_cases hbad : 2 ^ 61 ≤ m.length ∨ m.length % 64 = 63
    · have := finalize_panic e m b c hbad
      simp [hash, a, this] at h
    · have h1 : m.length < 2 ^ 61 := by omega
      have h2 : m.length % 64 ≠ 63 := by omega
      rw [sha256_standard_partial m h1 h2] at h
      exact ⟨h1, h2, (Option.some.inj h).symm⟩
  · have hp : Engine.default.push m = none := by
      rw [push_foldlM _ rep_default.wf]
      exact rep_foldlM_overflow Engine.default [] m rep_default (by decide) (by show 2 ^ 64 ≤ 0 + m.length; omega)
    simp [hash, hp] at h

theorem xor_inj (c : Byte) {a b : List Byte} (h : a.map (· ^^^ c) = b.map (· ^^^ c)) : a = b := by
  have e : ∀ l : List Byte, (l.map (· ^^^ c)).map (· ^^^ c) = l := by
    intro l; rw [List.map_map]
    have : ((fun x : Byte => x ^^^ c) ∘ fun x => x ^^^ c) = id := by
      funext x; simp [BitVec.xor_assoc]
    rw [this, List.map_id]
  rw [← e a, ← e b, h]

end Verif.Hash
