import Verif.Json.SpecWrite
import Verif.Json.PropsAlphabet
/-! # Lemmas about the writer of JSON texts -/
namespace Verif.Json.Text

theorem digit_facts : ∀ d : UInt8, d ≤ 9 → isDigit (digitOf d) = true ∧ digitVal (digitOf d) = d ∧ (digitOf d = '0' → d = 0) := by
  have : ∀ n : Fin 256, UInt8.ofNat n.val ≤ 9 → isDigit (digitOf (UInt8.ofNat n.val)) = true ∧ digitVal (digitOf (UInt8.ofNat n.val)) = UInt8.ofNat n.val
    ∧ (digitOf (UInt8.ofNat n.val) = '0' → UInt8.ofNat n.val = 0) := by decide +kernel
  intro d hd
  have e : UInt8.ofNat d.toNat = d := by simp
  have := this ⟨d.toNat, d.toNat_lt⟩
  simp only [e] at this
  exact this hd

theorem digits_map {ds : List UInt8} (h : ∀ d ∈ ds, d ≤ 9) : Digits (ds.map digitOf) ∧ (ds.map digitOf).map digitVal = ds := by
  constructor
  · intro c hc
    obtain ⟨d, hd, rfl⟩ := List.mem_map.mp hc
    exact (digit_facts d (h d hd)).1
  · induction ds with
    | nil => rfl
    | cons d ds ih =>
      simp only [List.map_cons]
      rw [(digit_facts d (h d (by simp))).2.1, ih (fun x hx => h x (by simp [hx]))]

theorem sign_text (s : Sign) : SignText false s (signOf s) := by
  cases s
  · exact .none
  · exact .minus

theorem exp_sign (s : Sign) : ExpSign s (signOf s) := by
  cases s
  · exact .none
  · exact .minus

theorem number_text {i f x : List UInt8} {s e : Sign} (h : IsNumber i f x e) : JsonNumber false false (writeNumber i f x s e) i f x s e := by
  obtain ⟨hd, hi, h0, he⟩ := h
  have hdi := digits_map (ds := i) (fun d h => hd d (by simp [h]))
  have hdf := digits_map (ds := f) (fun d h => hd d (by simp [h]))
  have hdx := digits_map (ds := x) (fun d h => hd d (by simp [h]))
  refine ⟨signOf s, i.map digitOf, _, f.map digitOf, _, x.map digitOf, rfl, sign_text s, ?_, ?_, ?_, hdi.2.symm, hdf.2.symm, hdx.2.symm⟩
  · match i, hi with
    | d :: ds, _ =>
      by_cases hz : d = 0
      · subst hz
        have : ds = [] := by simpa using h0 rfl
        subst this
        exact .zero
      · refine .digits _ _ (fun hc => hz ((digit_facts d (hd d (by simp))).2.2 hc)) ?_
        exact hdi.1
  · by_cases hf : f = []
    · subst hf
      rw [if_pos rfl]
      exact .none
    · rw [if_neg hf]
      exact .some _ hdf.1 (by simpa using hf)
  · by_cases hx : x = []
    · subst hx
      rw [if_pos rfl, he rfl]
      exact .none
    · rw [if_neg hx]
      exact .some 'e' e _ _ rfl (exp_sign e) hdx.1 (by simpa using hx)

theorem char_text (c : Char) : CharText c (writeChar c) := by
  unfold writeChar
  by_cases h1 : c = '"'
  · rw [if_pos h1]; subst h1; exact .escape '"' rfl
  · rw [if_neg h1]
    by_cases h2 : c = '\\'
    · rw [if_pos h2]; subst h2; exact .escape '\\' rfl
    · rw [if_neg h2]
      by_cases h3 : c.toNat < 0x20
      · rw [if_pos h3]
        have a : ∀ m : Fin 32, (∀ c ∈ ['0', '0', Nat.digitChar (m.val / 16), Nat.digitChar (m.val % 16)], isHex c = true) ∧
          hexVal ['0', '0', Nat.digitChar (m.val / 16), Nat.digitChar (m.val % 16)] = m.val := by decide +kernel
        have := a ⟨c.toNat, h3⟩
        exact .unicode _ ⟨rfl, this.1⟩ this.2
      · rw [if_neg h3]; exact .plain (by omega) h1 h2

theorem string_text : ∀ s : List Char, StringText s (s.flatMap writeChar)
  | [] => .nil
  | c :: s => by rw [List.flatMap_cons]; exact .cons c s _ _ (char_text c) (string_text s)

theorem quoted_write (s : List Char) : Quoted s (writeString s) := ⟨_, string_text s, rfl⟩

theorem spaces_nil : Spaces [] := by intro c h; cases h

mutual
theorem write_writes : ∀ v : Value, v.proper → Writes false false v v.write
  | .null, _ => .null
  | .true, _ => .true
  | .false, _ => .false
  | .number .., h => .number (number_text h)
  | .string s, _ => .string (quoted_write s)
  | .array [], _ => .empty spaces_nil
  | .array (v :: vs), h => .array (write_elements (v :: vs) (by simp) h)
  | .object [], _ => .nothing spaces_nil
  | .object (m :: ms), h => .object (write_members (m :: ms) (by simp) h)
theorem write_elements : ∀ vs : List Value, vs ≠ [] → properAll vs → Elements false false vs (writeAll vs)
  | [], h, _ => absurd rfl h
  | v :: [], _, h => by
    have := Elements.one spaces_nil spaces_nil (write_writes v h.1)
    rw [List.nil_append, List.append_nil] at this
    exact this
  | v :: (v' :: vs), _, h => by
    have := Elements.more spaces_nil spaces_nil (write_writes v h.1) (write_elements (v' :: vs) (by simp) h.2)
    simp only [List.nil_append] at this
    exact this
theorem write_members : ∀ ms : List (List Char × Value), ms ≠ [] → properMembers ms → Members false false ms (writeMembers ms)
  | [], h, _ => absurd rfl h
  | (k, v) :: [], _, h => by
    have := Members.one spaces_nil spaces_nil spaces_nil spaces_nil (quoted_write k) (write_writes v h.1)
    simp only [List.nil_append, List.append_nil] at this
    exact this
  | (k, v) :: (m :: ms), _, h => by
    have := Members.more spaces_nil spaces_nil spaces_nil spaces_nil (quoted_write k) (write_writes v h.1)
      (write_members (m :: ms) (by simp) h.2)
    simp only [List.nil_append] at this
    exact this
end

theorem digitVal_le {c : Char} (h : isDigit c = true) : digitVal c ≤ 9 ∧ (digitVal c = 0 → c = '0') := by
  have h' := (digit_iff c).mp h
  simp only [List.mem_cons, List.not_mem_nil, or_false] at h'
  rcases h' with rfl | rfl | rfl | rfl | rfl | rfl | rfl | rfl | rfl | rfl <;> decide

theorem number_is {text : List Char} {i f x : List UInt8} {s e : Sign} (h : JsonNumber false false text i f x s e) : IsNumber i f x e := by
  obtain ⟨sg, ds, ft, fs, xt, xs, rfl, _, hi, hf, hx, rfl, rfl, rfl⟩ := h
  have le : ∀ {l : List Char}, Digits l → ∀ d ∈ l.map digitVal, d ≤ 9 := by
    intro l hl d hd
    obtain ⟨c, hc, rfl⟩ := List.mem_map.mp hd
    exact (digitVal_le (hl c hc)).1
  have hds : Digits ds ∧ ds ≠ [] ∧ ((ds.map digitVal).head? = some 0 → ds = ['0']) := by
    cases hi with
    | zero => exact ⟨by intro c hc; simp only [List.mem_singleton] at hc; subst hc; rfl, by simp, fun _ => rfl⟩
    | digits c ds hc hd =>
      refine ⟨hd, by simp, fun h => absurd ((digitVal_le (hd c (by simp))).2 ?_) hc⟩
      simpa using h
    | leading ds h => cases h
  have hfs : Digits fs := by
    cases hf with
    | none => intro c hc; cases hc
    | some _ h => exact h
  have hxs : Digits xs ∧ (xs = [] → e = .plus) := by
    cases hx with
    | none => exact ⟨(by intro c hc; cases hc), fun _ => rfl⟩
    | some c e et xs h1 h2 h3 h4 => exact ⟨h3, fun h => absurd h h4⟩
  refine ⟨?_, by simpa using hds.2.1, fun h => by rw [hds.2.2 h]; rfl, fun h => hxs.2 (by simpa using h)⟩
  intro d hd
  rcases List.mem_append.mp hd with hd | hd
  · rcases List.mem_append.mp hd with hd | hd
    · exact le hds.1 d hd
    · exact le hfs d hd
  · exact le hxs.1 d hd

mutual
theorem writes_proper : ∀ {v : Value} {t : List Char}, Writes false false v t → v.proper
  | _, _, .null => trivial
  | _, _, .true => trivial
  | _, _, .false => trivial
  | _, _, .number h => number_is h
  | _, _, .string _ => trivial
  | _, _, .empty _ => trivial
  | _, _, .array h => elements_proper h
  | _, _, .nothing _ => trivial
  | _, _, .object h => members_proper h
theorem elements_proper : ∀ {vs : List Value} {t : List Char}, Elements false false vs t → properAll vs
  | _, _, .one _ _ h => ⟨writes_proper h, trivial⟩
  | _, _, .more _ _ h hs => ⟨writes_proper h, elements_proper hs⟩
theorem members_proper : ∀ {ms : List (List Char × Value)} {t : List Char}, Members false false ms t → properMembers ms
  | _, _, .one _ _ _ _ _ h => ⟨writes_proper h, trivial⟩
  | _, _, .more _ _ _ _ _ h hs => ⟨writes_proper h, members_proper hs⟩
end

end Verif.Json.Text
