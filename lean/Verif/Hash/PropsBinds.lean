import Verif.Hash.LemmasBinds
/-! # Property theorems: what digests and authentication codes bind (C125) -/
namespace Verif.Hash
open Spec (compress compressions Collide)

/-- **C125** (a). Two messages with the same digest are the same, or a compression of the one has the same result
as one of the other, of different inputs: nobody can find two messages with the same digest without finding two such
inputs, among the few that the two messages lead to. In particular the padding, the buffering and the length do not
make messages the same. -/
theorem digest_binds (m n d : List Byte) (h1 : hash m = some d) (h2 : hash n = some d) : m = n ∨ Collide m n := by
  obtain ⟨hm, _, e1⟩ := hash_some h1
  obtain ⟨hn, _, e2⟩ := hash_some h2
  by_cases hne : m = n
  · exact .inl hne
  · exact .inr (same_digest hm hn hne (e1.symm.trans e2))

/-- **C125** (b). The same the other way round: different messages without such compressions have different digests. -/
theorem digest_differs (m n c d : List Byte) (hne : m ≠ n)
    (hc : ¬ Collide m n) (h1 : hash m = some c) (h2 : hash n = some d) : c ≠ d := by
  rintro rfl
  rcases digest_binds m n c h1 h2 with h | h
  · exact hne h
  · exact hc h

-- messages that meet the hypotheses: each takes one compression, and the results are different
example : ∃ c d, hash [0x61] = some c ∧ hash [0x62] = some d ∧ c ≠ d ∧ ¬ Collide [0x61] [0x62] := by
  refine ⟨_, _, sha256_standard_partial [0x61] (by decide) (by decide), sha256_standard_partial [0x62] (by decide) (by decide), ?_⟩
  have hd : Spec.sha256 [0x61] ≠ Spec.sha256 [0x62] := by
    intro e
    have q : hash [0x61] ≠ hash [0x62] := by decide +kernel
    rw [sha256_standard_partial [0x61] (by decide) (by decide), sha256_standard_partial [0x62] (by decide) (by decide), e] at q
    exact q rfl
  refine ⟨hd, ?_⟩
  have one : ∀ b : Byte, compressions [b] = [(Spec.H0, (Spec.pad [b]).take 64)] := by
    intro b
    have h64 := (padded_length [b]).1
    have hz : Spec.padZeros ([b] : List Byte).length = 54 := by rw [List.length_singleton]; decide
    rw [hz, List.length_singleton] at h64
    unfold compressions
    rw [inputs_ge _ _ (by omega), inputs_lt _ _ (by simp; omega)]
  rintro ⟨x, hx, y, hy, _, he⟩
  obtain ⟨x', hx', ex⟩ := digest_result [0x61]
  obtain ⟨y', hy', ey⟩ := digest_result [0x62]
  rw [one, List.mem_singleton] at hx hx' hy hy'
  subst hx hx' hy hy'
  exact hd (by rw [ex, ey, he])

/-- The key of an authentication code as it enters the two hashes. -/
def innerKey (key : List Byte) : List Byte := (Spec.hmacKey Spec.sha256 64 key).map (· ^^^ 0x36)

/-- The other one. -/
def outerKey (key : List Byte) : List Byte := (Spec.hmacKey Spec.sha256 64 key).map (· ^^^ 0x5c)

/-- **C125** (c). Authentication codes bind both the key and the message: if two codes are the same then so are the
messages, and the keys up to their normal form (hashed if long, then filled with zeros), or compressions of the two
inner hashes, or of the two outer hashes, collide. -/
theorem mac_binds (k l : List Byte) (p q : List (List Byte)) (hk : k.length ≤ 64 ∨ (k.length < 2 ^ 61 ∧ k.length % 64 ≠ 63))
    (hl : l.length ≤ 64 ∨ (l.length < 2 ^ 61 ∧ l.length % 64 ≠ 63))
    (hp : 64 + p.flatten.length < 2 ^ 61) (hp63 : p.flatten.length % 64 ≠ 63)
    (hq : 64 + q.flatten.length < 2 ^ 61) (hq63 : q.flatten.length % 64 ≠ 63) :
    ∃ e f c d, hmacSha256_new k = some e ∧ hmacSha256_new l = some f
      ∧ hmacTrace sha256Ops e (p.map .push ++ [.finalize]) = p.map (fun _ => Out.none) ++ [.digest c]
      ∧ hmacTrace sha256Ops f (q.map .push ++ [.finalize]) = q.map (fun _ => Out.none) ++ [.digest d]
      ∧ (c = d → (Spec.hmacKey Spec.sha256 64 k = Spec.hmacKey Spec.sha256 64 l ∧ p.flatten = q.flatten)
        ∨ Collide (innerKey k ++ p.flatten) (innerKey l ++ q.flatten)
        ∨ Collide (outerKey k ++ Spec.sha256 (innerKey k ++ p.flatten)) (outerKey l ++ Spec.sha256 (innerKey l ++ q.flatten))) := by
  obtain ⟨e, e1, e2⟩ := hmac_rfc2104_partial k p hk hp hp63
  obtain ⟨f, f1, f2⟩ := hmac_rfc2104_partial l q hl hq hq63
  refine ⟨e, f, _, _, e1, f1, e2, f2, fun h => ?_⟩
  have lk : ∀ (k : List Byte) (c : Byte), ((Spec.hmacKey Spec.sha256 64 k).map (· ^^^ c)).length = 64 := by
    intro k c; rw [List.length_map, hmacKey_length]
  have h' : Spec.sha256 (outerKey k ++ Spec.sha256 (innerKey k ++ p.flatten))
      = Spec.sha256 (outerKey l ++ Spec.sha256 (innerKey l ++ q.flatten)) := h
  by_cases ho : outerKey k ++ Spec.sha256 (innerKey k ++ p.flatten) = outerKey l ++ Spec.sha256 (innerKey l ++ q.flatten)
  · obtain ⟨h1, h2⟩ := List.append_inj ho (by unfold outerKey; rw [lk, lk])
    have hkey := xor_inj _ h1
    by_cases hi : innerKey k ++ p.flatten = innerKey l ++ q.flatten
    · exact .inl ⟨hkey, (List.append_inj hi (by unfold innerKey; rw [lk, lk])).2⟩
    · refine .inr (.inl (same_digest ?_ ?_ hi h2)) <;> rw [List.length_append] <;> unfold innerKey <;> rw [lk] <;> assumption
  · refine .inr (.inr (same_digest ?_ ?_ ho h')) <;> rw [List.length_append, sha256_length] <;> unfold outerKey <;> rw [lk] <;> decide

example : ∃ (k l : List Byte) (p q : List (List Byte)), (k.length ≤ 64 ∨ (k.length < 2 ^ 61 ∧ k.length % 64 ≠ 63)) ∧ l.length ≤ 64
    ∧ 64 + p.flatten.length < 2 ^ 61 ∧ p.flatten.length % 64 ≠ 63 ∧ 64 + q.flatten.length < 2 ^ 61 ∧ q.flatten.length % 64 ≠ 63 ∧ p ≠ q :=
  ⟨[1], [2], [[3], [4]], [[3, 4, 5]], by decide⟩

/-- **C125** (d). Which keys have the same normal form. Keys of at most a block: exactly those that are the same up to zeros
at their end. -/
theorem short_keys (k l : List Byte) (hk : k.length ≤ 64) (hl : l.length ≤ 64) :
    Spec.hmacKey Spec.sha256 64 k = Spec.hmacKey Spec.sha256 64 l ↔
      (∃ n, l = k ++ List.replicate n 0) ∨ ∃ n, k = l ++ List.replicate n 0 := by
  have e : ∀ k : List Byte, k.length ≤ 64 → Spec.hmacKey Spec.sha256 64 k = k ++ List.replicate (64 - k.length) 0 := by
    intro k hk; simp only [Spec.hmacKey, if_neg (show ¬ k.length > 64 by omega)]
  have main : ∀ k l : List Byte, k.length ≤ 64 → l.length ≤ 64 → k.length ≤ l.length →
      k ++ List.replicate (64 - k.length) 0 = l ++ List.replicate (64 - l.length) 0 → ∃ n, l = k ++ List.replicate n 0 := by
    intro k l hk hl hkl h
    refine ⟨l.length - k.length, ?_⟩
    have := congrArg (List.take l.length) h
    rw [List.take_append_of_le_length (Nat.le_refl _), List.take_length, List.take_append, List.take_of_length_le hkl,
      List.take_replicate] at this
    rw [show min (l.length - k.length) (64 - k.length) = l.length - k.length by omega] at this
    exact this.symm
  have back : ∀ (k l : List Byte) (n : Nat), k.length ≤ 64 → l.length ≤ 64 → l = k ++ List.replicate n 0 →
      k ++ List.replicate (64 - k.length) 0 = l ++ List.replicate (64 - l.length) 0 := by
    intro k l n hk hl h
    subst h
    rw [List.length_append, List.length_replicate] at hl
    rw [List.append_assoc, List.replicate_append_replicate, List.length_append, List.length_replicate,
      show n + (64 - (k.length + n)) = 64 - k.length by omega]
  rw [e k hk, e l hl]
  constructor
  · intro h
    rcases Nat.le_total k.length l.length with q | q
    · exact .inl (main k l hk hl q h)
    · exact .inr (main l k hl hk q h.symm)
  · rintro (⟨n, h⟩ | ⟨n, h⟩)
    · exact back k l n hk hl h
    · exact (back l k n hl hk h).symm

example : Spec.hmacKey Spec.sha256 64 [1, 2] = Spec.hmacKey Spec.sha256 64 [1, 2, 0] ∧ Spec.hmacKey Spec.sha256 64 [1] ≠ Spec.hmacKey Spec.sha256 64 [0, 1] := by
  decide +kernel

/-- **C125** (e). A longer key stands for its digest, and for nothing else that is not a collision. -/
theorem long_keys (k l : List Byte) (hk : 64 < k.length) (hk' : k.length < 2 ^ 61) :
    Spec.hmacKey Spec.sha256 64 k = Spec.hmacKey Spec.sha256 64 (Spec.sha256 k)
    ∧ (64 < l.length → l.length < 2 ^ 61 → Spec.hmacKey Spec.sha256 64 k = Spec.hmacKey Spec.sha256 64 l → k = l ∨ Collide k l) := by
  have e : ∀ k : List Byte, 64 < k.length → Spec.hmacKey Spec.sha256 64 k = Spec.sha256 k ++ List.replicate 32 0 := by
    intro k hk; simp only [Spec.hmacKey, if_pos (show k.length > 64 by omega), sha256_length]
  refine ⟨?_, fun hl hl' h => ?_⟩
  · rw [e k hk]
    simp only [Spec.hmacKey, sha256_length]
    rfl
  · rw [e k hk, e l hl] at h
    have h2 := (List.append_inj h (by rw [sha256_length, sha256_length])).1
    by_cases hne : k = l
    · exact .inl hne
    · exact .inr (same_digest hk' hl' hne h2)

example : 64 < (List.replicate 65 (1 : Byte)).length ∧ (List.replicate 65 (1 : Byte)).length < 2 ^ 61 := by decide

end Verif.Hash
