import Verif.Hash.SpecExtend
import Verif.Hash.PropsBinds
/-! # Lemmas: digests can be continued -/
namespace Verif.Hash

theorem blockWord_be32 (a b : List Byte) (w : Spec.Word) (t : Nat) (h : a.length = 4 * t) :
    Spec.blockWord (a ++ (Spec.be32 w ++ b)) t = w := by
  have hl : (Spec.be32 w).length = 4 := by simp [Spec.be32]
  have hg : ∀ i, i < 4 → (a ++ (Spec.be32 w ++ b)).getD (4 * t + i) 0 = BitVec.ofNat 8 (w.toNat / 256 ^ (3 - i)) := by
    intro i hi
    rw [List.getD_eq_getElem?_getD, List.getElem?_append_right (by omega), h, Nat.add_sub_cancel_left,
      List.getElem?_append_left (by omega)]
    simp [Spec.be32, hi]
  unfold Spec.blockWord
  rw [hg 1 (by decide), hg 2 (by decide), hg 3 (by decide), show 4 * t = 4 * t + 0 from rfl, hg 0 (by decide)]
  have hx : ∀ k, BitVec.ofNat 8 (w.toNat / 256 ^ k) = w.extractLsb' (8 * k) 8 := by
    intro k
    apply BitVec.eq_of_toNat_eq
    rw [BitVec.extractLsb'_toNat, BitVec.toNat_ofNat, Nat.shiftRight_eq_div_pow, Nat.pow_mul]
  rw [hx, hx, hx, hx]
  apply BitVec.eq_of_getLsbD_eq
  intro i hi
  simp only [BitVec.getLsbD_append, BitVec.getLsbD_extractLsb']
  by_cases h1 : i < 8
  · simp [h1]
  · by_cases h2 : i < 16
    · simp [h1, show i - 8 < 8 by omega, show 8 + (i - 8) = i by omega]
    · by_cases h3 : i < 24
      · simp [h1, show ¬ i - 8 < 8 by omega, show i - 8 - 8 < 8 by omega, show 16 + (i - 8 - 8) = i by omega]
      · simp [h1, show ¬ i - 8 < 8 by omega, show ¬ i - 8 - 8 < 8 by omega, show i - 8 - 8 - 8 < 8 by omega,
          show 24 + (i - 8 - 8 - 8) = i by omega]

theorem ofBytes_bytes (v : Spec.Vars) : Spec.Vars.ofBytes v.bytes = v := by
  have hl : ∀ w, (Spec.be32 w).length = 4 := by intro w; simp [Spec.be32]
  obtain ⟨a, b, c, d, e, f, g, h⟩ := v
  unfold Spec.Vars.ofBytes Spec.Vars.bytes
  simp only [Spec.Vars.mk.injEq]
  refine ⟨?_, ?_, ?_, ?_, ?_, ?_, ?_, ?_⟩
  · simpa [List.append_assoc] using blockWord_be32 [] (Spec.be32 b ++ (Spec.be32 c ++ (Spec.be32 d ++ (Spec.be32 e ++ (Spec.be32 f ++ (Spec.be32 g ++ Spec.be32 h)))))) a 0 rfl
  · simpa [List.append_assoc] using blockWord_be32 (Spec.be32 a) (Spec.be32 c ++ (Spec.be32 d ++ (Spec.be32 e ++ (Spec.be32 f ++ (Spec.be32 g ++ Spec.be32 h))))) b 1 (by simp [hl])
  · simpa [List.append_assoc] using blockWord_be32 (Spec.be32 a ++ Spec.be32 b) (Spec.be32 d ++ (Spec.be32 e ++ (Spec.be32 f ++ (Spec.be32 g ++ Spec.be32 h)))) c 2 (by simp [hl])
  · simpa [List.append_assoc] using blockWord_be32 (Spec.be32 a ++ Spec.be32 b ++ Spec.be32 c) (Spec.be32 e ++ (Spec.be32 f ++ (Spec.be32 g ++ Spec.be32 h))) d 3 (by simp [hl])
  · simpa [List.append_assoc] using blockWord_be32 (Spec.be32 a ++ Spec.be32 b ++ Spec.be32 c ++ Spec.be32 d) (Spec.be32 f ++ (Spec.be32 g ++ Spec.be32 h)) e 4 (by simp [hl])
  · simpa [List.append_assoc] using blockWord_be32 (Spec.be32 a ++ Spec.be32 b ++ Spec.be32 c ++ Spec.be32 d ++ Spec.be32 e) (Spec.be32 g ++ Spec.be32 h) f 5 (by simp [hl])
  · simpa [List.append_assoc] using blockWord_be32 (Spec.be32 a ++ Spec.be32 b ++ Spec.be32 c ++ Spec.be32 d ++ Spec.be32 e ++ Spec.be32 f) (Spec.be32 h) g 6 (by simp [hl])
  · simpa [List.append_assoc] using blockWord_be32 (Spec.be32 a ++ Spec.be32 b ++ Spec.be32 c ++ Spec.be32 d ++ Spec.be32 e ++ Spec.be32 f ++ Spec.be32 g) [] h 7 (by simp [hl])

theorem pad_padding (m : List Byte) : Spec.pad m = m ++ Spec.padding m.length := by
  simp [Spec.pad, Spec.padding]

theorem sha256_continued (m x : List Byte) :
    Spec.sha256 (m ++ Spec.padding m.length ++ x) = Spec.continued (Spec.sha256 m) m.length x := by
  unfold Spec.continued Spec.sha256
  rw [ofBytes_bytes, pad_padding (m ++ Spec.padding m.length ++ x), List.append_assoc, List.append_assoc, ← List.append_assoc,
    ← pad_padding m, digestBlocks_append _ _ _ (padded_length m).2]
  have hp : (Spec.pad m).length = m.length + (Spec.padding m.length).length := by rw [pad_padding]; simp
  rw [List.length_append, hp]

end Verif.Hash
