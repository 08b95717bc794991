import Verif.Json.SpecNumber
import Verif.Json.PropsWrite
/-! # Lemmas about the values of JSON numbers -/
namespace Verif.Json.Text

theorem digit_nat {c : Char} (h : isDigit c = true) : (digitVal c).toNat = c.toNat - '0'.toNat := by
  have h' := (digit_iff c).mp h
  simp only [List.mem_cons, List.not_mem_nil, or_false] at h'
  rcases h' with rfl | rfl | rfl | rfl | rfl | rfl | rfl | rfl | rfl | rfl <;> decide

theorem foldl_digits : ∀ (ds : List Char) (n : Nat), Digits ds →
    ds.foldl (fun n c => 10 * n + (c.toNat - '0'.toNat)) n = (ds.map digitVal).foldl (fun n d => 10 * n + d.toNat) n
  | [], _, _ => rfl
  | c :: ds, n, h => by
    rw [List.map_cons, List.foldl_cons, List.foldl_cons, digit_nat (h c (by simp))]
    exact foldl_digits ds _ (fun x hx => h x (by simp [hx]))

theorem whole_digits {ds : List Char} (h : Digits ds) : whole ds = digitsNat (ds.map digitVal) := foldl_digits ds 0 h

theorem ten_pow (n : Nat) : (10 : Rat) ^ n ≠ 0 := by
  have := Rat.pow_pos (a := 10) (n := n) (by decide)
  intro h
  rw [h] at this
  exact absurd this (by decide)

theorem foldl_tenths : ∀ (fs : List Char) (n : Nat), Digits fs →
    (((fs.map digitVal).foldl (fun n d => 10 * n + d.toNat) n : Nat) : Rat) = (n + tenths fs) * 10 ^ fs.length
  | [], n, _ => by simp [tenths, Rat.add_zero, Rat.mul_one]
  | c :: fs, n, h => by
    rw [List.map_cons, List.foldl_cons, digit_nat (h c (by simp)), foldl_tenths fs _ (fun x hx => h x (by simp [hx])), tenths, List.length_cons, Rat.pow_succ]
    generalize tenths fs = t
    generalize c.toNat - '0'.toNat = d
    generalize (10 : Rat) ^ fs.length = p
    have e : ((10 * n + d : Nat) : Rat) = 10 * (n : Rat) + (d : Rat) := by
      rw [Rat.natCast_add, Rat.natCast_mul]; rfl
    rw [e]
    grind

theorem digits_append (a b : List UInt8) : digitsNat (a ++ b) = b.foldl (fun n d => 10 * n + d.toNat) (digitsNat a) := by
  simp [digitsNat, List.foldl_append]

theorem decimal {ds fs : List Char} (hd : Digits ds) (hf : Digits fs) :
    ((digitsNat (ds.map digitVal ++ fs.map digitVal) : Nat) : Rat) = (whole ds + tenths fs) * 10 ^ fs.length := by
  rw [digits_append, foldl_tenths _ _ hf, whole_digits hd]

theorem signed_mul (s : Sign) (a b : Rat) : signed s (a * b) = signed s a * b := by
  cases s
  · rfl
  · show -(a * b) = -a * b
    grind

theorem scale (q : Rat) (n : Nat) (x : Int) : q * 10 ^ n * 10 ^ (x - n) = q * 10 ^ x := by
  have h : (10 : Rat) ≠ 0 := by decide
  have e : (10 : Rat) ^ x = 10 ^ (n : Int) * 10 ^ (x - n) := by
    rw [← Rat.zpow_add h]
    congr 1
    omega
  rw [e, Rat.zpow_natCast, Rat.mul_assoc]

theorem frac_digits {ft fs : List Char} (h : FracText ft fs) : Digits fs := by
  cases h with
  | none => intro c hc; cases hc
  | some _ h => exact h

theorem exp_digits {e : Sign} {xt xs : List Char} (h : ExpText e xt xs) : Digits xs := by
  cases h with
  | none => intro c hc; cases hc
  | some _ _ _ _ _ _ h => exact h

theorem int_digits {z : Bool} {ds : List Char} (h : IntText z ds) : Digits ds ∧ ds ≠ [] := by
  cases h with
  | zero => exact ⟨by intro c hc; simp only [List.mem_singleton] at hc; subst hc; rfl, by simp⟩
  | digits c ds _ hd => exact ⟨hd, by simp⟩
  | leading ds _ hd => exact ⟨hd, by assumption⟩

theorem sign_true {p : Bool} {s : Sign} {sg : List Char} (h : SignText p s sg) : SignText true s sg := by
  cases h
  · exact .none
  · exact .minus
  · exact .plus rfl

theorem value_eq {ds fs xs : List Char} (hd : Digits ds) (hf : Digits fs) (hx : Digits xs) (s e : Sign) :
    numberValue (ds.map digitVal) (fs.map digitVal) (xs.map digitVal) s e = signed s (whole ds + tenths fs) * 10 ^ signedInt e (whole xs) := by
  rw [numberValue, decimal hd hf, signed_mul, List.length_map, scale, whole_digits hx]

theorem foldl_zero (ds : List UInt8) : digitsNat (0 :: ds) = digitsNat ds := by simp [digitsNat]

theorem unpadded_cons (d : UInt8) (ds : List UInt8) : unpadded (0 :: d :: ds) = unpadded (d :: ds) := rfl

/-- Leading zeros come off one by one. -/
theorem unpadded_induct {P : List UInt8 → List UInt8 → Prop} (refl : ∀ l, (l.head? = some 0 → l = [0]) → P l l)
    (step : ∀ d ds r, P (d :: ds) r → P (0 :: d :: ds) r) : ∀ l, P l (unpadded l)
  | [] => refl [] (by simp)
  | [d] => by
    have : unpadded [d] = [d] := by
      rw [unpadded.eq_def]
      split
      · rename_i h; simp at h
      · rfl
    rw [this]
    exact refl [d] (by intro h; simp at h; simp [h])
  | d :: d' :: ds => by
    by_cases h : d = 0
    · subst h
      exact step d' ds _ (unpadded_induct refl step (d' :: ds))
    · have : unpadded (d :: d' :: ds) = d :: d' :: ds := by
        rw [unpadded.eq_def]
        split
        · rename_i h'
          simp only [List.cons.injEq] at h'
          exact absurd h'.1 h
        · rfl
      rw [this]
      exact refl _ (by intro h'; simp at h'; exact absurd h' h)

theorem unpadded_value (l : List UInt8) (f : List UInt8) : digitsNat (unpadded l ++ f) = digitsNat (l ++ f) := by
  refine unpadded_induct (P := fun a b => digitsNat (b ++ f) = digitsNat (a ++ f)) (fun _ _ => rfl) ?_ l
  intro d ds r h
  rw [h]
  exact (foldl_zero (d :: ds ++ f)).symm

theorem unpadded_subset (l : List UInt8) : ∀ d ∈ unpadded l, d ∈ l :=
  unpadded_induct (P := fun a b => ∀ d ∈ b, d ∈ a) (fun _ _ _ h => h) (fun _ _ _ h d hd => List.mem_cons_of_mem _ (h d hd)) l

theorem unpadded_ne {l : List UInt8} : l ≠ [] → unpadded l ≠ [] :=
  unpadded_induct (P := fun a b => a ≠ [] → b ≠ []) (fun _ _ h => h) (fun _ _ _ h _ => h (by simp)) l

theorem unpadded_head (l : List UInt8) : (unpadded l).head? = some 0 → unpadded l = [0] :=
  unpadded_induct (P := fun _ b => b.head? = some 0 → b = [0]) (fun _ h => h) (fun _ _ _ h => h) l

theorem unpadded_id {l : List UInt8} : (l.head? = some 0 → l = [0]) → unpadded l = l :=
  unpadded_induct (P := fun a b => (a.head? = some 0 → a = [0]) → b = a) (fun _ _ _ => rfl) (fun d ds r _ h => by simp at h) l

/-- Numbers which are written with plus signs or leading zeros. -/
theorem relaxed_is {p z : Bool} {text : List Char} {i f x : List UInt8} {s e : Sign} (h : JsonNumber p z text i f x s e) : IsNumber (unpadded i) f x e := by
  obtain ⟨sg, ds, ft, fs, xt, xs, rfl, _, hi, hf, hx, rfl, rfl, rfl⟩ := h
  have le : ∀ {l : List Char}, Digits l → ∀ d ∈ l.map digitVal, d ≤ 9 := by
    intro l hl d hd
    obtain ⟨c, hc, rfl⟩ := List.mem_map.mp hd
    exact (digitVal_le (hl c hc)).1
  obtain ⟨hds, hne⟩ := int_digits hi
  refine ⟨?_, unpadded_ne (by simpa using hne), unpadded_head _, fun h => ?_⟩
  · intro d hd
    rcases List.mem_append.mp hd with hd | hd
    · rcases List.mem_append.mp hd with hd | hd
      · exact le hds d (unpadded_subset _ d hd)
      · exact le (frac_digits hf) d hd
    · exact le (exp_digits hx) d hd
  · cases hx with
    | none => rfl
    | some c e et xs h1 h2 h3 h4 => exact absurd (by simpa using h) h4

mutual
theorem relaxed_proper : ∀ {p z : Bool} {v : Value} {t : List Char}, Writes p z v t → v.standard.proper
  | _, _, _, _, .null => trivial
  | _, _, _, _, .true => trivial
  | _, _, _, _, .false => trivial
  | _, _, _, _, .number h => relaxed_is h
  | _, _, _, _, .string _ => trivial
  | _, _, _, _, .empty _ => trivial
  | _, _, _, _, .array h => relaxed_elements h
  | _, _, _, _, .nothing _ => trivial
  | _, _, _, _, .object h => relaxed_members h
theorem relaxed_elements : ∀ {p z : Bool} {vs : List Value} {t : List Char}, Elements p z vs t → properAll (standards vs)
  | _, _, _, _, .one _ _ h => ⟨relaxed_proper h, trivial⟩
  | _, _, _, _, .more _ _ h hs => ⟨relaxed_proper h, relaxed_elements hs⟩
theorem relaxed_members : ∀ {p z : Bool} {ms : List (List Char × Value)} {t : List Char}, Members p z ms t → properMembers (memberStandards ms)
  | _, _, _, _, .one _ _ _ _ _ h => ⟨relaxed_proper h, trivial⟩
  | _, _, _, _, .more _ _ _ _ _ h hs => ⟨relaxed_proper h, relaxed_members hs⟩
end

theorem strict_is {p : Bool} {text : List Char} {i f x : List UInt8} {s e : Sign} (h : JsonNumber p false text i f x s e) : IsNumber i f x e := by
  have hr := relaxed_is h
  obtain ⟨sg, ds, ft, fs, xt, xs, rfl, _, hi, _, _, rfl, _, _⟩ := h
  have : unpadded (ds.map digitVal) = ds.map digitVal := by
    cases hi with
    | zero => rfl
    | digits c ds hc hd => exact unpadded_id (fun h => absurd ((digitVal_le (hd c (by simp))).2 (by simpa using h)) hc)
    | leading _ h => cases h
  rw [this] at hr
  exact hr

mutual
theorem strict_proper : ∀ {p : Bool} {v : Value} {t : List Char}, Writes p false v t → v.proper
  | _, _, _, .null => trivial
  | _, _, _, .true => trivial
  | _, _, _, .false => trivial
  | _, _, _, .number h => strict_is h
  | _, _, _, .string _ => trivial
  | _, _, _, .empty _ => trivial
  | _, _, _, .array h => strict_elements h
  | _, _, _, .nothing _ => trivial
  | _, _, _, .object h => strict_members h
theorem strict_elements : ∀ {p : Bool} {vs : List Value} {t : List Char}, Elements p false vs t → properAll vs
  | _, _, _, .one _ _ h => ⟨strict_proper h, trivial⟩
  | _, _, _, .more _ _ h hs => ⟨strict_proper h, strict_elements hs⟩
theorem strict_members : ∀ {p : Bool} {ms : List (List Char × Value)} {t : List Char}, Members p false ms t → properMembers ms
  | _, _, _, .one _ _ _ _ _ h => ⟨strict_proper h, trivial⟩
  | _, _, _, .more _ _ _ _ _ h hs => ⟨strict_proper h, strict_members hs⟩
end

mutual
theorem standard_means : ∀ v : Value, v.standard.meaning = v.meaning
  | .null => rfl
  | .true => rfl
  | .false => rfl
  | .number i f x s e => by
    show Meaning.number _ = Meaning.number _
    rw [numberValue, numberValue, unpadded_value]
  | .string _ => rfl
  | .array vs => congrArg Meaning.array (standards_mean vs)
  | .object ms => congrArg Meaning.object (members_mean ms)
theorem standards_mean : ∀ vs : List Value, meanings (standards vs) = meanings vs
  | [] => rfl
  | v :: vs => by
    show _ :: _ = _ :: _
    rw [standard_means v, standards_mean vs]
theorem members_mean : ∀ ms : List (List Char × Value), memberMeanings (memberStandards ms) = memberMeanings ms
  | [] => rfl
  | (k, v) :: ms => by
    show (k, _) :: _ = (k, _) :: _
    rw [standard_means v, members_mean ms]
end

mutual
theorem standard_id : ∀ v : Value, v.proper → v.standard = v
  | .null, _ => rfl
  | .true, _ => rfl
  | .false, _ => rfl
  | .number .., h => by
    show Value.number _ _ _ _ _ = _
    rw [unpadded_id h.2.2.1]
  | .string _, _ => rfl
  | .array vs, h => congrArg Value.array (standards_id vs h)
  | .object ms, h => congrArg Value.object (members_id ms h)
theorem standards_id : ∀ vs : List Value, properAll vs → standards vs = vs
  | [], _ => rfl
  | v :: vs, h => by
    show _ :: _ = _ :: _
    rw [standard_id v h.1, standards_id vs h.2]
theorem members_id : ∀ ms : List (List Char × Value), properMembers ms → memberStandards ms = ms
  | [], _ => rfl
  | (k, v) :: ms, h => by
    show (k, _) :: _ = (k, _) :: _
    rw [standard_id v h.1, members_id ms h.2]
end

end Verif.Json.Text
