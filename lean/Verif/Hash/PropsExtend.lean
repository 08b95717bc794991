import Verif.Hash.LemmasExtend
/-! # Property theorems: digests can be continued (C141) -/
namespace Verif.Hash

/-- **C141** (a). From the digest and the length of a message alone follow the digests of all messages that begin with it and its
padding. -/
theorem digest_continues (m x d : List Byte) (h : hash m = some d) (hl : (m ++ Spec.padding m.length ++ x).length < 2 ^ 61)
    (h63 : (m ++ Spec.padding m.length ++ x).length % 64 ≠ 63) :
    hash (m ++ Spec.padding m.length ++ x) = some (Spec.continued d m.length x) := by
  rw [(hash_some h).2.2, ← sha256_continued]
  exact sha256_standard_partial _ hl h63

/-- **C141** (b). So the digest of a secret followed by a message does not authenticate the message: whoever knows the digest and
the length of both, but not the secret, can tell the digest of the secret followed by longer messages. -/
theorem secret_prefix_forged : ∃ (suffix : Nat → List Byte) (forge : List Byte → Nat → List Byte → List Byte), ∀ secret m x d : List Byte,
    hash (secret ++ m) = some d → (secret ++ m ++ suffix (secret ++ m).length ++ x).length < 2 ^ 61 →
    (secret ++ m ++ suffix (secret ++ m).length ++ x).length % 64 ≠ 63 →
    suffix (secret ++ m).length ≠ [] ∧ hash (secret ++ (m ++ suffix (secret ++ m).length ++ x)) = some (forge d (secret ++ m).length x) := by
  refine ⟨Spec.padding, Spec.continued, fun secret m x d h hl h63 => ⟨by simp [Spec.padding], ?_⟩⟩
  have := digest_continues (secret ++ m) x d h hl h63
  simpa [List.append_assoc] using this

/-- **C141** (c). Messages of the same length with the same digest have the same digests when they are continued in the same way. -/
theorem collisions_continue (m n x d : List Byte) (hmn : m.length = n.length) (h1 : hash m = some d) (h2 : hash n = some d)
    (hl : (m ++ Spec.padding m.length ++ x).length < 2 ^ 61) (h63 : (m ++ Spec.padding m.length ++ x).length % 64 ≠ 63) :
    hash (m ++ Spec.padding m.length ++ x) = hash (n ++ Spec.padding m.length ++ x) := by
  rw [digest_continues m x d h1 hl h63, hmn, digest_continues n x d h2 (by simp at hl ⊢; rw [← hmn]; omega) (by simp at h63 ⊢; rw [← hmn]; exact h63)]

-- a message, its digest, and a continuation
example : ∃ d, hash [0x61, 0x62, 0x63] = some d
    ∧ ([0x61, 0x62, 0x63] ++ Spec.padding 3 ++ [0x64]).length = 65 ∧ hash ([0x61, 0x62, 0x63] ++ Spec.padding 3 ++ [0x64]) = some (Spec.continued d 3 [0x64]) :=
  ⟨_, sha256_standard_partial _ (by decide) (by decide), by decide, digest_continues [0x61, 0x62, 0x63] [0x64] _
    (sha256_standard_partial _ (by decide) (by decide)) (by decide) (by decide)⟩

end Verif.Hash
