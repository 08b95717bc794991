import Verif.Json.ModelPanic
import Verif.Json.LemmasString
/-! # Lemmas about the JSON tokenizer with report handlers that panic -/
namespace Verif.Json

/-- The reports alone. -/
def RunU.run {α : Type} (r : RunU α) : Run α := ⟨r.pts.map (·.1), r.res⟩

theorem run_ret {α : Type} (a : α) : (RunU.ret a).run = .ret a := rfl
theorem run_panic {α : Type} : (RunU.panic : RunU α).run = .panic := rfl
theorem run_say {α : Type} (t : Tokenizer) (e : Ev) (k : RunU α) : (RunU.say t e k).run = .say e k.run := rfl

theorem run_ite {α : Type} (c : Prop) [Decidable c] (a b : RunU α) : (if c then a else b).run = if c then a.run else b.run := by split <;> rfl

theorem run_num (t : Tokenizer) (c : Char) (k : Tokenizer → RunU (Tokenizer × Option Char)) (l) (h : ∀ t, (k t).run = l t) : (t.numU c k).run = t.num c l := by
  unfold Tokenizer.numU Tokenizer.num
  cases toDigit 10 c with
  | none => rfl
  | some d => simp only [run_ite, h, run_panic]

theorem run_number {α : Type} (t : Tokenizer) (s : Sign) (n m : Nat) (e : Sign) (k : RunU α) : (t.numberU s n m e k).run = t.number s n m e k.run := by
  unfold Tokenizer.numberU Tokenizer.number
  rw [run_ite]
  rfl

theorem run_digit (t : Tokenizer) (v : Char) (s : State) : (t.digitU v s).run = t.digit v s := run_num _ _ _ _ fun _ => rfl
theorem run_endNumber (t : Tokenizer) (s : Sign) (n m : Nat) (e : Sign) (ch : Option Char) : (t.endNumberU s n m e ch).run = t.endNumber s n m e ch :=
  run_number ..
theorem run_endIncomplete (t : Tokenizer) (s : Sign) (n m : Nat) (e : Sign) (ch : Option Char) :
    (t.endIncompleteU s n m e ch).run = t.endIncomplete s n m e ch := by
  unfold Tokenizer.endIncompleteU Tokenizer.endIncomplete
  rw [run_say, run_number]
  rfl

theorem run_keyword (t : Tokenizer) (rem : Option Char) : (t.advanceKeywordU rem).run = t.advanceKeyword rem := by
  unfold Tokenizer.advanceKeywordU Tokenizer.advanceKeyword
  cases rem with
  | none => rfl
  | some v => simp only [run_ite, run_say, run_ret]

theorem run_misc (t : Tokenizer) (ch : Option Char) : (t.advanceMiscU ch).run = t.advanceMisc ch := by
  unfold Tokenizer.advanceMiscU Tokenizer.advanceMisc
  cases ht : t.state with
  | slash | keyword | whitespace | commentLine =>
    cases ch <;> simp only [run_ite, run_say, run_ret, run_keyword]
  | _ => rfl

theorem run_numbers (t : Tokenizer) (ch : Option Char) : (t.advanceNumberU ch).run = t.advanceNumber ch := by
  unfold Tokenizer.advanceNumberU Tokenizer.advanceNumber
  cases ht : t.state with
  | integerNone | integerSome | integerZero | fractionNone | fractionSome | exponentNone | exponentSign | exponentSome =>
    cases ch <;> simp only [run_ite, run_say, run_ret, run_digit, run_endNumber, run_endIncomplete]
  | _ => rfl

theorem run_char (t : Tokenizer) (v : Char) : (t.advanceCharU v).run = t.advanceChar v := by
  unfold Tokenizer.advanceCharU Tokenizer.advanceChar
  simp only [run_ite, run_say, run_ret, run_panic]

theorem run_unicode (t : Tokenizer) (n : Nat) (x : BitVec 32) (v : Char) : (t.advanceUnicodeU n x v).run = t.advanceUnicode n x v := by
  unfold Tokenizer.advanceUnicodeU Tokenizer.advanceUnicode
  cases toDigit 16 v with
  | none => rfl
  | some d =>
    simp only [run_ite, run_say, run_ret]
    cases fromU32 (x <<< 4 ||| BitVec.ofNat 32 d).toNat <;> rfl

theorem run_trail (t : Tokenizer) (l : BitVec 32) (n : Nat) (x : BitVec 32) (v : Char) : (t.advanceTrailU l n x v).run = t.advanceTrail l n x v := by
  unfold Tokenizer.advanceTrailU Tokenizer.advanceTrail
  cases toDigit 16 v with
  | none => rfl
  | some d =>
    simp only [run_ite, run_say, run_ret]
    cases fromU32 (x <<< 4 ||| BitVec.ofNat 32 d).toNat <;> cases Tokenizer.surrogates l (x <<< 4 ||| BitVec.ofNat 32 d) <;> rfl

theorem run_string (t : Tokenizer) (ch : Option Char) : (t.advanceStringU ch).run = t.advanceString ch := by
  unfold Tokenizer.advanceStringU Tokenizer.advanceString
  cases ch with
  | none => rfl
  | some v =>
    cases ht : t.state with
    | _ => simp only [run_ite, run_say, run_ret, run_char, run_unicode, run_trail]

theorem run_start (t : Tokenizer) (v : Char) : (t.startU v).run = t.start v := by
  unfold Tokenizer.startU Tokenizer.start
  simp only [run_ite, run_say, run_ret, run_digit]

theorem run_handle (t : Tokenizer) (ch : Option Char) : (t.handleU ch).run = t.handle ch := by
  unfold Tokenizer.handleU Tokenizer.handle
  cases ht : t.state with
  | none => rfl
  | slash | keyword | whitespace | commentLine => exact run_misc t ch
  | integerNone | integerSome | integerZero | fractionNone | fractionSome | exponentNone | exponentSign | exponentSome => exact run_numbers t ch
  | _ => exact run_string t ch

/-- Without the tokenizers it is the model of all other properties. -/
theorem run_advance (t : Tokenizer) (ch : Option Char) : (t.advanceU ch).run = t.advance ch := by
  unfold Tokenizer.advanceU Tokenizer.advance
  rw [← run_handle]
  rcases t.handleU ch with ⟨p, r⟩
  rcases r with _ | ⟨t', _ | v⟩
  · rfl
  · rfl
  · show RunU.run ⟨p ++ (t'.startU v).pts, _⟩ = Run.mk (_ ++ (t'.start v).evs) _
    rw [← run_start]
    show Run.mk ((p ++ _).map _) _ = _
    rw [List.map_append]
    rfl

/-! ## No panics -/

/-- What holds of every tokenizer: counts are within the digits, values have the number of digits that were read, and a tokenizer without a token is as new. -/
def InvS (acc accStr : List Char) (accNum : List UInt8) : State → Prop
  | .none => acc = [] ∧ accStr = [] ∧ accNum = []
  | .integerSome _ n => n ≤ accNum.length
  | .integerZero _ => 1 ≤ accNum.length
  | .fractionNone _ n => n ≤ accNum.length
  | .fractionSome _ n m => n + m ≤ accNum.length
  | .exponentNone _ n m => n + m ≤ accNum.length
  | .exponentSign _ n m _ => n + m ≤ accNum.length
  | .exponentSome _ n m _ _ => n + m ≤ accNum.length
  | .stringUnicode num value => num ≤ 3 ∧ value.toNat < 16 ^ num
  | .stringSurrogate lead => isLead lead.toNat
  | .stringSurrogateEscape lead => isLead lead.toNat
  | .stringSurrogateUnicode lead num trail => isLead lead.toNat ∧ num ≤ 3 ∧ trail.toNat < 16 ^ num
  | _ => True

def Inv (t : Tokenizer) : Prop := InvS t.acc t.accStr t.accNum t.state

/-- A function that does not panic, keeps the invariant and the flags, also at each report, and is done with the token if it leaves the character. -/
structure Sound (fl : BitVec 32) (ch : Option Char) (r : RunU (Tokenizer × Option Char)) : Prop where
  res : ∃ t' c, r.res = some (t', c) ∧ Inv t' ∧ t'.flags = fl ∧ (c ≠ none → t'.state = .none ∧ c = ch) ∧ (ch = none → t'.state = .none)
  pts : ∀ p ∈ r.pts, Inv p.2 ∧ p.2.flags = fl

theorem sound_ret {fl : BitVec 32} {v : Char} {t : Tokenizer} (h : Inv t) (hf : t.flags = fl) : Sound fl (some v) (.ret (t, none)) :=
  ⟨⟨t, none, rfl, h, hf, fun h => absurd rfl h, fun h => by cases h⟩, fun _ h => absurd h List.not_mem_nil⟩

theorem sound_done {fl : BitVec 32} {ch : Option Char} {t : Tokenizer} (hf : t.flags = fl) : Sound fl ch (.ret (t.prepare, ch)) :=
  ⟨⟨_, _, rfl, ⟨rfl, rfl, rfl⟩, hf, fun _ => ⟨rfl, rfl⟩, fun _ => rfl⟩, fun _ h => absurd h List.not_mem_nil⟩

theorem sound_none {fl : BitVec 32} {ch : Option Char} {t : Tokenizer} (hf : t.flags = fl) : Sound fl ch (.ret (t.prepare, none)) :=
  ⟨⟨_, _, rfl, ⟨rfl, rfl, rfl⟩, hf, fun h => absurd rfl h, fun _ => rfl⟩, fun _ h => absurd h List.not_mem_nil⟩

theorem sound_say {fl : BitVec 32} {ch : Option Char} {t : Tokenizer} {e : Ev} {k : RunU (Tokenizer × Option Char)} (h : Inv t) (hf : t.flags = fl)
    (hk : Sound fl ch k) : Sound fl ch (.say t e k) :=
  ⟨hk.res, fun p hp => by
    rcases List.mem_cons.mp hp with rfl | hp
    · exact ⟨h, hf⟩
    · exact hk.pts p hp⟩

theorem sound_ite {fl : BitVec 32} {ch : Option Char} {c : Prop} [Decidable c] {a b : RunU (Tokenizer × Option Char)} (ha : c → Sound fl ch a)
    (hb : ¬ c → Sound fl ch b) : Sound fl ch (if c then a else b) := by
  split
  · exact ha ‹_›
  · exact hb ‹_›

theorem sound_number {fl : BitVec 32} {ch : Option Char} {t : Tokenizer} {s e : Sign} {n m : Nat} {k : RunU (Tokenizer × Option Char)} (h : Inv t)
    (hf : t.flags = fl) (hn : n + m ≤ t.accNum.length) (hk : Sound fl ch k) : Sound fl ch (t.numberU s n m e k) := by
  unfold Tokenizer.numberU
  rw [if_pos ⟨by omega, hn⟩]
  exact sound_say h hf hk

theorem sound_digit {fl : BitVec 32} {t : Tokenizer} {v : Char} (hv : isDigit v = true) {s : State} (hf : t.flags = fl)
    (h : Inv ⟨fl, s, t.acc ++ [v], t.accStr, t.accNum ++ [digitVal v]⟩) : Sound fl (some v) (t.digitU v s) := by
  have hd : t.digitU v s = .ret (⟨t.flags, s, t.acc ++ [v], t.accStr, t.accNum ++ [digitVal v]⟩, none) := by
    obtain ⟨h1, h2⟩ := digit_cases hv
    unfold Tokenizer.digitU Tokenizer.numU
    rw [toDigit_digit hv]
    simp only
    rw [if_pos (by omega)]
    rfl
  rw [hd, hf]
  exact sound_ret h rfl

theorem sound_keyword {fl : BitVec 32} {acc as : List Char} {an : List UInt8} (ch : Option Char) :
    Sound fl ch (Tokenizer.advanceKeywordU ⟨fl, .keyword, acc, as, an⟩ ch) := by
  have hi : Inv ⟨fl, .keyword, acc, as, an⟩ := trivial
  unfold Tokenizer.advanceKeywordU
  cases ch with
  | none => exact sound_say hi rfl (sound_none rfl)
  | some v =>
    refine sound_ite (fun _ => sound_say hi rfl (sound_done rfl)) fun _ => ?_
    refine sound_ite (fun _ => sound_say hi rfl (sound_done rfl)) fun _ => ?_
    refine sound_ite (fun _ => sound_say hi rfl (sound_done rfl)) fun _ => ?_
    exact sound_ret trivial rfl

theorem sound_char {fl : BitVec 32} {acc as : List Char} {an : List UInt8} (v : Char) : Sound fl (some v) (Tokenizer.advanceCharU ⟨fl, .string, acc, as, an⟩ v) := by
  have hi : Inv ⟨fl, .string, acc, as, an⟩ := trivial
  unfold Tokenizer.advanceCharU
  rw [if_neg (by simp)]
  refine sound_ite (fun _ => sound_say hi rfl (sound_none rfl)) fun _ => ?_
  refine sound_ite (fun _ => sound_ret trivial rfl) fun _ => ?_
  exact sound_ite (fun _ => sound_say hi rfl (sound_ret trivial rfl)) fun _ => sound_ret trivial rfl

theorem sound_incomplete {fl : BitVec 32} {ch : Option Char} {t : Tokenizer} {s e : Sign} {n m : Nat} (h : Inv t) (hf : t.flags = fl)
    (hn : n + m ≤ t.accNum.length) : Sound fl ch (t.endIncompleteU s n m e ch) := sound_say h hf (sound_number h hf hn (sound_done hf))

theorem sound_end {fl : BitVec 32} {ch : Option Char} {t : Tokenizer} {s e : Sign} {n m : Nat} (h : Inv t) (hf : t.flags = fl)
    (hn : n + m ≤ t.accNum.length) : Sound fl ch (t.endNumberU s n m e ch) := sound_number h hf hn (sound_done hf)

theorem snoc_length (an : List UInt8) (v : Char) : (an ++ [digitVal v]).length = an.length + 1 := by simp

/-- Within a number. -/
def isNum : State → Bool
  | .integerNone _ | .integerSome .. | .integerZero _ | .fractionNone .. | .fractionSome .. | .exponentNone .. | .exponentSign .. | .exponentSome .. => true
  | _ => false

theorem sound_numbers {fl : BitVec 32} {st : State} {acc as : List Char} {an : List UInt8} (hi : Inv ⟨fl, st, acc, as, an⟩) (ch : Option Char) (hp : isNum st = true) :
    Sound fl ch (Tokenizer.advanceNumberU ⟨fl, st, acc, as, an⟩ ch) := by
  have hl := snoc_length an
  unfold Tokenizer.advanceNumberU
  cases st with
  | integerNone s =>
    cases ch with
    | none => exact sound_incomplete hi rfl (Nat.zero_le _)
    | some v =>
      refine sound_ite (fun hd => sound_digit hd rfl ?_) fun _ => sound_incomplete hi rfl (Nat.zero_le _)
      show InvS _ _ _ (if _ then _ else _)
      split <;> (show 1 ≤ _; rw [hl]; exact Nat.le_add_left _ _)
  | integerSome s n =>
    have h : n ≤ an.length := hi
    cases ch with
    | none => exact sound_end hi rfl h
    | some v =>
      refine sound_ite (fun hd => sound_digit hd rfl ?_) fun _ => ?_
      · show n + 1 ≤ _; rw [hl]; omega
      refine sound_ite (fun _ => sound_ret h rfl) fun _ => ?_
      exact sound_ite (fun _ => sound_ret h rfl) fun _ => sound_end hi rfl h
  | integerZero s =>
    have h : 1 ≤ an.length := hi
    cases ch with
    | none => exact sound_end hi rfl h
    | some v =>
      refine sound_ite (fun _ => sound_ret h rfl) fun _ => ?_
      refine sound_ite (fun _ => sound_ret h rfl) fun _ => ?_
      refine sound_ite (fun hd => ?_) fun _ => sound_end hi rfl h
      have hx : Inv ⟨fl, .integerSome s 2, acc ++ [v], as, an ++ [digitVal v]⟩ := by show 2 ≤ _; rw [hl]; omega
      exact sound_ite (fun _ => sound_digit hd rfl hx) fun _ => sound_say hi rfl (sound_digit hd rfl hx)
  | fractionNone s n =>
    have h : n ≤ an.length := hi
    cases ch with
    | none => exact sound_incomplete hi rfl h
    | some v =>
      refine sound_ite (fun hd => sound_digit hd rfl ?_) fun _ => sound_incomplete hi rfl h
      show n + 1 ≤ _; rw [hl]; omega
  | fractionSome s n m =>
    have h : n + m ≤ an.length := hi
    cases ch with
    | none => exact sound_end hi rfl h
    | some v =>
      refine sound_ite (fun _ => sound_ret h rfl) fun _ => ?_
      refine sound_ite (fun hd => sound_digit hd rfl ?_) fun _ => sound_end hi rfl h
      show n + (m + 1) ≤ _; rw [hl]; omega
  | exponentNone s n m =>
    have h : n + m ≤ an.length := hi
    cases ch with
    | none => exact sound_incomplete hi rfl h
    | some v =>
      refine sound_ite (fun _ => sound_ret h rfl) fun _ => ?_
      refine sound_ite (fun _ => sound_ret h rfl) fun _ => ?_
      refine sound_ite (fun hd => sound_digit hd rfl ?_) fun _ => sound_incomplete hi rfl h
      show n + m ≤ _; rw [hl]; omega
  | exponentSign s n m e =>
    have h : n + m ≤ an.length := hi
    cases ch with
    | none => exact sound_incomplete hi rfl h
    | some v =>
      refine sound_ite (fun hd => sound_digit hd rfl ?_) fun _ => sound_incomplete hi rfl h
      show n + m ≤ _; rw [hl]; omega
  | exponentSome s n m e k =>
    have h : n + m ≤ an.length := hi
    cases ch with
    | none => exact sound_end hi rfl h
    | some v =>
      refine sound_ite (fun hd => sound_digit hd rfl ?_) fun _ => sound_end hi rfl h
      show n + m ≤ _; rw [hl]; omega
  | _ => cases hp

theorem shift_lt {x : BitVec 32} {n d : Nat} (hn : n ≤ 3) (hx : x.toNat < 16 ^ n) (hd : d < 16) :
    (x <<< 4 ||| BitVec.ofNat 32 d).toNat = 16 * x.toNat + d ∧ 16 * x.toNat + d < 16 ^ (n + 1) := by
  have hb : x.toNat < 4096 := Nat.lt_of_lt_of_le hx (Nat.pow_le_pow_right (n := 16) (by omega) hn)
  have h := shift_eq x.toNat d hb hd
  rw [BitVec.ofNat_toNat, BitVec.setWidth_eq] at h
  rw [h, BitVec.toNat_ofNat, Nat.mod_eq_of_lt (by omega)]
  exact ⟨rfl, by rw [Nat.pow_succ]; omega⟩

theorem three {n : Nat} (h : n ≤ 3) (h' : ¬ n < 3) : n = 3 := by omega

theorem sound_unicode {fl : BitVec 32} {num : Nat} {x : BitVec 32} {acc as : List Char} {an : List UInt8} {v : Char} (hv : isHex v = true) (hn : num ≤ 3)
    (hx : x.toNat < 16 ^ num) : Sound fl (some v) (Tokenizer.advanceUnicodeU ⟨fl, .stringUnicode num x, acc, as, an⟩ num x v) := by
  unfold Tokenizer.advanceUnicodeU
  obtain ⟨h1, h2⟩ := shift_lt hn hx (hexDigit_lt hv)
  rw [toDigit_hex hv]
  simp only []
  refine sound_ite (fun hl => sound_ret ⟨hl, by rw [h1]; exact h2⟩ rfl) fun hl => ?_
  have h3 := three hn hl
  subst h3
  refine sound_ite (fun h => sound_ret h rfl) fun _ => ?_
  refine sound_ite (fun _ => sound_say ⟨hn, hx⟩ rfl (sound_ret trivial rfl)) fun _ => ?_
  obtain ⟨c, hc, _⟩ := fromU32_some (n := (x <<< 4 ||| BitVec.ofNat 32 (hexDigit v)).toNat) (by rw [h1] at *; omega)
  rw [hc]
  exact sound_ret trivial rfl

theorem sound_trail {fl : BitVec 32} {lead : BitVec 32} {num : Nat} {x : BitVec 32} {acc as : List Char} {an : List UInt8} {v : Char} (hv : isHex v = true)
    (hl : isLead lead.toNat) (hn : num ≤ 3)
    (hx : x.toNat < 16 ^ num) : Sound fl (some v) (Tokenizer.advanceTrailU ⟨fl, .stringSurrogateUnicode lead num x, acc, as, an⟩ lead num x v) := by
  unfold Tokenizer.advanceTrailU
  obtain ⟨h1, h2⟩ := shift_lt hn hx (hexDigit_lt hv)
  rw [toDigit_hex hv]
  simp only []
  refine sound_ite (fun h => sound_ret ⟨hl, h, by rw [h1]; exact h2⟩ rfl) fun h => ?_
  have h3 := three hn h
  subst h3
  refine sound_ite (fun _ => sound_say ⟨hl, hn, hx⟩ rfl (sound_ret trivial rfl)) fun ha => ?_
  refine sound_ite (fun ht => ?_) fun ht => ?_
  · have : ∃ c, Tokenizer.surrogates lead (x <<< 4 ||| BitVec.ofNat 32 (hexDigit v)) = some c := by
      unfold Tokenizer.surrogates
      unfold isLead at hl
      rw [if_neg (by omega)]
      have hs : (BitVec.ofNat 32 (lead.toNat - 0xd800) <<< 10).toNat = (lead.toNat - 0xd800) * 1024 := by
        rw [BitVec.toNat_shiftLeft, BitVec.toNat_ofNat, Nat.shiftLeft_eq, Nat.mod_eq_of_lt (by omega), Nat.mod_eq_of_lt (by omega)]
      simp only [hs]
      rw [if_pos (by omega)]
      obtain ⟨c, hc, _⟩ := fromU32_some (n := 0x10000 + (lead.toNat - 0xd800) * 1024 + ((x <<< 4 ||| BitVec.ofNat 32 (hexDigit v)).toNat - 0xdc00)) (by omega)
      exact ⟨c, hc⟩
    obtain ⟨c, hc⟩ := this
    rw [hc]
    exact sound_ret trivial rfl
  · obtain ⟨c, hc, _⟩ := fromU32_some (n := (x <<< 4 ||| BitVec.ofNat 32 (hexDigit v)).toNat) (by rw [h1] at *; omega)
    rw [hc]
    exact sound_say ⟨hl, hn, hx⟩ rfl (sound_ret trivial rfl)

/-- The first half of `advance`. -/
theorem sound_handle {fl : BitVec 32} {st : State} {acc as : List Char} {an : List UInt8} (hi : Inv ⟨fl, st, acc, as, an⟩) (ch : Option Char) :
    Sound fl ch (Tokenizer.handleU ⟨fl, st, acc, as, an⟩ ch) := by
  have hstr : ∀ t : Tokenizer, Inv t → t.flags = fl → Sound fl none (t.advanceStringU none) := fun t h hf => sound_say h hf (sound_none hf)
  cases st with
  | none => exact ⟨⟨_, _, rfl, hi, rfl, fun _ => ⟨rfl, rfl⟩, fun _ => rfl⟩, fun _ h => absurd h List.not_mem_nil⟩
  | slash =>
    cases ch with
    | none => exact sound_say hi rfl (sound_none rfl)
    | some v => exact sound_ite (fun _ => sound_ret trivial rfl) fun _ => sound_keyword _
  | keyword => exact sound_keyword ch
  | whitespace =>
    cases ch with
    | none => exact sound_say hi rfl (sound_none rfl)
    | some v => exact sound_ite (fun _ => sound_ret trivial rfl) fun _ => sound_ite (fun _ => sound_say hi rfl (sound_ret hi rfl)) fun _ => sound_say hi rfl (sound_done rfl)
  | commentLine =>
    cases ch with
    | none => exact sound_say hi rfl (sound_none rfl)
    | some v => exact sound_ite (fun _ => sound_say hi rfl (sound_done rfl)) fun _ => sound_ret trivial rfl
  | string =>
    cases ch with
    | none => exact hstr _ hi rfl
    | some v =>
      have h : Tokenizer.handleU ⟨fl, .string, acc, as, an⟩ (some v) = Tokenizer.advanceCharU ⟨fl, .string, acc, as, an⟩ v := by
        simp only [Tokenizer.handleU, Tokenizer.advanceStringU]
      rw [h]
      exact sound_char v
  | stringEscape =>
    cases ch with
    | none => exact hstr _ hi rfl
    | some v =>
      refine sound_ite (fun _ => sound_ret trivial rfl) fun _ => ?_
      refine sound_ite (fun _ => sound_ret ⟨Nat.zero_le _, Nat.one_pos⟩ rfl) fun _ => ?_
      exact sound_say hi rfl (sound_ret trivial rfl)
  | stringUnicode num x =>
    cases ch with
    | none => exact hstr _ hi rfl
    | some v => exact sound_ite (fun h => sound_unicode h hi.1 hi.2) fun _ => sound_say hi rfl (sound_char v)
  | stringSurrogate lead =>
    cases ch with
    | none => exact hstr _ hi rfl
    | some v => exact sound_ite (fun _ => sound_ret hi rfl) fun _ => sound_say hi rfl (sound_char v)
  | stringSurrogateEscape lead =>
    cases ch with
    | none => exact hstr _ hi rfl
    | some v =>
      refine sound_ite (fun _ => sound_ret ⟨hi, Nat.zero_le _, Nat.one_pos⟩ rfl) fun _ => ?_
      exact sound_ite (fun _ => sound_say hi rfl (sound_ret trivial rfl)) fun _ => sound_say hi rfl (sound_say hi rfl (sound_ret trivial rfl))
  | stringSurrogateUnicode lead num x =>
    cases ch with
    | none => exact hstr _ hi rfl
    | some v => exact sound_ite (fun h => sound_trail h hi.1 hi.2.1 hi.2.2) fun _ => sound_say hi rfl (sound_char v)
  | integerNone | integerSome | integerZero | fractionNone | fractionSome | exponentNone | exponentSign | exponentSome => exact sound_numbers hi ch rfl

theorem sound_start {fl : BitVec 32} (v : Char) : Sound fl (some v) (Tokenizer.startU (.withFlags fl) v) := by
  have hi : Inv (.withFlags fl) := ⟨rfl, rfl, rfl⟩
  have hr : Sound fl (some v) (.ret (Tokenizer.withFlags fl, none)) := sound_ret hi rfl
  unfold Tokenizer.startU
  repeat (refine sound_ite (fun _ => sound_say hi rfl hr) fun _ => ?_)
  refine sound_ite (fun _ => sound_ret trivial rfl) fun _ => ?_
  refine sound_ite (fun _ => sound_ret trivial rfl) fun _ => ?_
  refine sound_ite (fun _ => sound_ret trivial rfl) fun _ => ?_
  refine sound_ite (fun hd => sound_digit hd rfl ?_) fun _ => ?_
  · show InvS _ _ _ (if _ then _ else _)
    split <;> exact Nat.le_refl 1
  refine sound_ite (fun _ => sound_ret trivial rfl) fun _ => ?_
  refine sound_ite (fun _ => sound_ret trivial rfl) fun _ => ?_
  refine sound_ite (fun _ => sound_ite (fun _ => sound_ret trivial rfl) fun _ => sound_say hi rfl hr) fun _ => ?_
  refine sound_ite (fun _ => sound_ret trivial rfl) fun _ => ?_
  refine sound_ite (fun _ => sound_say hi rfl (sound_say hi rfl hr)) fun _ => ?_
  refine sound_ite (fun _ => sound_say hi rfl (sound_ret trivial rfl)) fun _ => ?_
  exact sound_ret trivial rfl

theorem new_of_none {t : Tokenizer} (hi : Inv t) (h : t.state = .none) : t = .withFlags t.flags := by
  obtain ⟨fl, st, acc, as, an⟩ := t
  simp only at h
  subst h
  obtain ⟨h1, h2, h3⟩ := hi
  simp only at h1 h2 h3
  subst h1 h2 h3
  rfl

/-- Every character is handled without a panic, and the invariant holds afterwards, and at each report. -/
theorem sound_advance {t : Tokenizer} (hi : Inv t) (ch : Option Char) :
    (∃ t', (t.advanceU ch).res = some t' ∧ Inv t' ∧ t'.flags = t.flags ∧ (ch = none → t' = .withFlags t.flags))
    ∧ ∀ p ∈ (t.advanceU ch).pts, Inv p.2 ∧ p.2.flags = t.flags := by
  obtain ⟨⟨t', c, h1, h2, h3, h4, h5⟩, h6⟩ := sound_handle (fl := t.flags) (st := t.state) hi ch
  change (t.handleU ch).res = _ at h1
  unfold Tokenizer.advanceU
  simp only [h1]
  cases c with
  | none => exact ⟨⟨t', rfl, h2, h3, fun h => by rw [new_of_none h2 (h5 h), h3]⟩, h6⟩
  | some v =>
    obtain ⟨h7, h8⟩ := h4 (by simp)
    have h9 := new_of_none h2 h7
    rw [h3] at h9
    subst h9
    obtain ⟨⟨t'', c', k1, k2, k3, -, -⟩, k4⟩ := sound_start (fl := t.flags) v
    simp only [k1]
    refine ⟨⟨t'', rfl, k2, k3, fun h => ?_⟩, fun p hp => ?_⟩
    · rw [← h8] at h; cases h
    · rcases List.mem_append.mp hp with hp | hp
      · exact h6 p hp
      · exact k4 p hp

/-! ## Pushing again -/

/-- All reports are made in the same state. -/
def At (u : Tokenizer) (r : RunU (Tokenizer × Option Char)) : Prop := ∀ p ∈ r.pts, p.2 = u

section At
variable {u : Tokenizer}

theorem at_say {e : Ev} {r : RunU (Tokenizer × Option Char)} (h : At u r) : At u (.say u e r) := fun p hp => by
  rcases List.mem_cons.mp hp with rfl | hp
  · rfl
  · exact h p hp

theorem at_ret {x : Tokenizer × Option Char} : At u (.ret x) := fun p hp => by cases hp
theorem at_panic : At u .panic := fun p hp => by cases hp
theorem at_one {e : Ev} {x : Tokenizer × Option Char} : At u (.say u e (.ret x)) := at_say at_ret

theorem at_ite {c : Prop} [Decidable c] {a b : RunU (Tokenizer × Option Char)} (ha : At u a) (hb : At u b) : At u (if c then a else b) := by
  split <;> assumption

theorem at_number {s e : Sign} {n m : Nat} {r : RunU (Tokenizer × Option Char)} (h : At u r) : At u (u.numberU s n m e r) := at_ite (at_say h) at_panic

theorem at_digit {t : Tokenizer} {v : Char} {s : State} : At u (t.digitU v s) := by
  unfold Tokenizer.digitU Tokenizer.numU
  cases toDigit 10 v with
  | none => exact at_panic
  | some d => exact at_ite at_ret at_panic

theorem at_end {s e : Sign} {n m : Nat} {ch : Option Char} : At u (u.endNumberU s n m e ch) := at_number at_ret
theorem at_incomplete {s e : Sign} {n m : Nat} {ch : Option Char} : At u (u.endIncompleteU s n m e ch) := at_say (at_number at_ret)

theorem at_keyword (ch : Option Char) : At u (u.advanceKeywordU ch) := by
  unfold Tokenizer.advanceKeywordU
  cases ch with
  | none => exact at_one
  | some v => exact at_ite at_one (at_ite at_one (at_ite at_one at_ret))

theorem at_char (v : Char) : At u (u.advanceCharU v) := by
  unfold Tokenizer.advanceCharU
  exact at_ite at_panic (at_ite at_one (at_ite at_ret (at_ite at_one at_ret)))

theorem at_numbers (ch : Option Char) : At u (u.advanceNumberU ch) := by
  unfold Tokenizer.advanceNumberU
  cases u.state with
  | integerNone | integerSome | fractionNone | fractionSome | exponentNone | exponentSign | exponentSome =>
    cases ch with
    | none => first | exact at_incomplete | exact at_end
    | some v => first | exact at_ite at_digit at_incomplete | exact at_ite at_digit at_end | exact at_ite at_digit (at_ite at_ret (at_ite at_ret at_end))
                      | exact at_ite at_ret (at_ite at_digit at_end) | exact at_ite at_ret (at_ite at_ret (at_ite at_digit at_incomplete))
  | integerZero =>
    cases ch with
    | none => exact at_end
    | some v => exact at_ite at_ret (at_ite at_ret (at_ite (at_ite at_digit (at_say at_digit)) at_end))
  | _ => exact at_panic

/-- The reports of a character that starts a token come before anything is changed. -/
theorem start_points (v : Char) : At u (u.startU v) := by
  unfold Tokenizer.startU
  repeat (refine at_ite at_one ?_)
  refine at_ite at_ret (at_ite at_ret (at_ite at_ret (at_ite at_digit (at_ite at_ret (at_ite at_ret (at_ite (at_ite at_ret at_one) ?_))))))
  exact at_ite at_ret (at_ite (at_say at_one) (at_ite at_one at_ret))

end At

/-- The fourth digit of an escape sequence that is half a surrogate pair: it is in the text already when that is reported. -/
def Odd (t : Tokenizer) (ch : Option Char) (p : Ev × Tokenizer) : Prop :=
  ∃ v, ch = some v ∧ isHex v = true ∧ p = (.err .stringSurrogateUnpaired, t.raw v)
    ∧ ((∃ x, t.state = .stringUnicode 3 x) ∨ ∃ lead x, t.state = .stringSurrogateUnicode lead 3 x)

/-- At each report, a function is where it can be started again, before that report. -/
def Again (t : Tokenizer) (ch : Option Char) (r : RunU (Tokenizer × Option Char)) : Prop :=
  ∀ k p, r.pts[k]? = some p → (∃ j ≤ k, p.2.handle ch = ⟨r.run.evs.drop j, r.res⟩) ∨ Odd t ch p

theorem again_all {t : Tokenizer} {ch : Option Char} {r : RunU (Tokenizer × Option Char)} (h : ∀ p ∈ r.pts, p.2.handle ch = r.run) : Again t ch r :=
  fun k p hp => .inl ⟨0, Nat.zero_le _, by rw [h p (List.mem_of_getElem? hp)]; rfl⟩

theorem again_at {t u : Tokenizer} {ch : Option Char} {r : RunU (Tokenizer × Option Char)} (h : At u r) (hu : u.handle ch = r.run) : Again t ch r :=
  again_all fun p hp => by rw [h p hp]; exact hu

theorem again_self {t : Tokenizer} {ch : Option Char} (h : At t (t.handleU ch)) : Again t ch (t.handleU ch) := again_at h (run_handle t ch).symm

/-- An error, and then the character as one of the string. -/
theorem again_char {t : Tokenizer} {v : Char} {e : Ev} {acc as : List Char} {an : List UInt8} {fl : BitVec 32}
    (h : t.handle (some v) = .say e (Tokenizer.advanceChar ⟨fl, .string, acc, as, an⟩ v)) :
    Again t (some v) (.say t e (Tokenizer.advanceCharU ⟨fl, .string, acc, as, an⟩ v)) := by
  intro k p hp
  cases k with
  | zero =>
    cases hp
    exact .inl ⟨0, Nat.le_refl _, by rw [h, ← run_char]; rfl⟩
  | succ k =>
    have hm : p ∈ (Tokenizer.advanceCharU ⟨fl, .string, acc, as, an⟩ v).pts := List.mem_of_getElem? hp
    refine .inl ⟨1, by omega, ?_⟩
    rw [at_char v p hm]
    show Tokenizer.advanceChar ⟨fl, .string, acc, as, an⟩ v = _
    rw [← run_char]
    rfl

theorem again_ite {t : Tokenizer} {ch : Option Char} {c : Prop} [Decidable c] {a b : RunU (Tokenizer × Option Char)} (ha : c → Again t ch a)
    (hb : ¬ c → Again t ch b) : Again t ch (if c then a else b) := by
  split
  · exact ha ‹_›
  · exact hb ‹_›

theorem again_ret {t : Tokenizer} {ch : Option Char} {x : Tokenizer × Option Char} : Again t ch (.ret x) := fun k p hp => by cases hp
theorem again_panic {t : Tokenizer} {ch : Option Char} : Again t ch .panic := fun k p hp => by cases hp

theorem again_handle {fl : BitVec 32} {st : State} {acc as : List Char} {an : List UInt8} (hi : Inv ⟨fl, st, acc, as, an⟩) (ch : Option Char) :
    Again ⟨fl, st, acc, as, an⟩ ch (Tokenizer.handleU ⟨fl, st, acc, as, an⟩ ch) := by
  cases st with
  | none => exact again_ret
  | slash =>
    cases ch with
    | none => exact again_self at_one
    | some v =>
      refine again_ite (fun _ => again_ret) fun hv => ?_
      refine again_at (at_keyword (some v)) ?_
      rw [run_keyword]
      rfl
  | keyword => exact again_self (at_keyword ch)
  | whitespace =>
    cases ch with
    | none => exact again_self at_one
    | some v => exact again_self (at_ite at_ret (at_ite at_one at_one))
  | commentLine =>
    cases ch with
    | none => exact again_self at_one
    | some v => exact again_self (at_ite at_one at_ret)
  | string =>
    cases ch with
    | none => exact again_self at_one
    | some v =>
      refine again_self ?_
      have h : Tokenizer.handleU ⟨fl, .string, acc, as, an⟩ (some v) = Tokenizer.advanceCharU ⟨fl, .string, acc, as, an⟩ v := by
        simp only [Tokenizer.handleU, Tokenizer.advanceStringU]
      rw [h]
      exact at_char v
  | stringEscape =>
    cases ch with
    | none => exact again_self at_one
    | some v => exact again_self (at_ite at_ret (at_ite at_ret at_one))
  | stringUnicode num x =>
    cases ch with
    | none => exact again_self at_one
    | some v =>
      refine again_ite (fun hv => ?_) fun hv => again_char ?_
      · unfold Tokenizer.advanceUnicodeU
        cases toDigit 16 v with
        | none => exact again_panic
        | some d =>
          refine again_ite (fun _ => again_ret) fun h3 => again_ite (fun _ => again_ret) fun _ => again_ite (fun _ k p hp => ?_) fun _ => ?_
          · cases k with
            | succ k => cases hp
            | zero =>
              cases hp
              have := three hi.1 h3
              subst this
              exact .inr ⟨v, rfl, hv, rfl, .inl ⟨x, rfl⟩⟩
          · cases fromU32 (x <<< 4 ||| BitVec.ofNat 32 d).toNat with
            | none => exact again_panic
            | some c => exact again_ret
      · show (if isHex v = true then _ else _) = _
        rw [if_neg hv]
  | stringSurrogate lead =>
    cases ch with
    | none => exact again_self at_one
    | some v =>
      refine again_ite (fun hv => again_ret) fun hv => again_char ?_
      show (if v = '\\' then _ else _) = _
      rw [if_neg hv]
  | stringSurrogateEscape lead =>
    cases ch with
    | none => exact again_self at_one
    | some v => exact again_self (at_ite at_ret (at_ite at_one (at_say at_one)))
  | stringSurrogateUnicode lead num x =>
    cases ch with
    | none => exact again_self at_one
    | some v =>
      refine again_ite (fun hv => ?_) fun hv => again_char ?_
      · unfold Tokenizer.advanceTrailU
        cases toDigit 16 v with
        | none => exact again_panic
        | some d =>
          have odd : ¬ num < 3 → Again ⟨fl, .stringSurrogateUnicode lead num x, acc, as, an⟩ (some v)
              (.say (Tokenizer.raw ⟨fl, .stringSurrogateUnicode lead num x, acc, as, an⟩ v) (.err .stringSurrogateUnpaired)
                (.ret ({ Tokenizer.raw ⟨fl, .stringSurrogateUnicode lead num x, acc, as, an⟩ v with state := .string }, none))) := by
            intro h3 k p hp
            cases k with
            | succ k => cases hp
            | zero =>
              cases hp
              have := three hi.2.1 h3
              subst this
              exact .inr ⟨v, rfl, hv, rfl, .inr ⟨lead, x, rfl⟩⟩
          refine again_ite (fun _ => again_ret) fun h3 => again_ite (fun _ => odd h3) fun _ => again_ite (fun _ => ?_) fun _ => ?_
          · cases Tokenizer.surrogates lead (x <<< 4 ||| BitVec.ofNat 32 d) with
            | none => exact again_panic
            | some c => exact again_ret
          · cases fromU32 (x <<< 4 ||| BitVec.ofNat 32 d).toNat with
            | none => exact again_panic
            | some c => exact odd h3
      · show (if isHex v = true then _ else _) = _
        rw [if_neg hv]
  | integerNone | integerSome | integerZero | fractionNone | fractionSome | exponentNone | exponentSign | exponentSome => exact again_self (at_numbers ch)

/-- The whole of it: at each report the character can be pushed again, which continues somewhere before that report. -/
theorem again_advance {t : Tokenizer} (hi : Inv t) (ch : Option Char) (k : Nat) (p : Ev × Tokenizer) (hp : (t.advanceU ch).pts[k]? = some p) :
    (∃ j ≤ k, p.2.advance ch = ⟨(t.advance ch).evs.drop j, (t.advance ch).res⟩) ∨ Odd t ch p := by
  have hs := sound_handle (fl := t.flags) (st := t.state) hi ch
  obtain ⟨⟨t', c, h1, h2, h3, h4, h5⟩, h6⟩ := hs
  change (t.handleU ch).res = _ at h1
  have ha := again_handle (fl := t.flags) (st := t.state) hi ch k p
  change (t.handleU ch).pts[k]? = _ → _ ∨ Odd t ch p at ha
  have hrun := run_handle t ch
  have hev : (t.handle ch).evs = (t.handleU ch).pts.map (·.1) := by rw [← hrun]; rfl
  have hres : (t.handle ch).res = some (t', c) := by rw [← hrun]; exact h1
  have first : (t.handleU ch).pts[k]? = some p → (∃ j ≤ k, p.2.advance ch = ⟨(t.advance ch).evs.drop j, (t.advance ch).res⟩) ∨ Odd t ch p := by
    intro hq
    rcases ha hq with ⟨j, hj, hh⟩ | ho
    · have hlt : k < (t.handleU ch).pts.length := by
        rcases Nat.lt_or_ge k (t.handleU ch).pts.length with h | h
        · exact h
        · rw [List.getElem?_eq_none h] at hq; cases hq
      change p.2.handle ch = ⟨(t.handleU ch).run.evs.drop j, (t.handleU ch).res⟩ at hh
      rw [hrun, h1] at hh
      refine .inl ⟨j, hj, ?_⟩
      unfold Tokenizer.advance
      simp only [hh, hres]
      cases c with
      | none => rfl
      | some v =>
        simp only []
        rw [List.drop_append_of_le_length (by rw [hev, List.length_map]; omega)]
    · exact .inr ho
  unfold Tokenizer.advanceU at hp
  simp only [h1] at hp
  cases c with
  | none => exact first hp
  | some v =>
    simp only [] at hp
    rcases Nat.lt_or_ge k (t.handleU ch).pts.length with hk | hk
    · rw [List.getElem?_append_left hk] at hp
      exact first hp
    · rw [List.getElem?_append_right hk] at hp
      have hu := start_points (u := t') v p (List.mem_of_getElem? hp)
      obtain ⟨h7, h8⟩ := h4 (by simp)
      refine .inl ⟨(t.handleU ch).pts.length, hk, ?_⟩
      rw [hu]
      have hh : t'.handle ch = .ret (t', some v) := by
        rw [← h8]
        unfold Tokenizer.handle
        rw [h7]
      unfold Tokenizer.advance
      simp only [hh, hres, Run.ret, List.nil_append]
      rw [List.drop_append, List.drop_of_length_le (by rw [hev, List.length_map]; exact Nat.le_refl _), hev, List.length_map, Nat.sub_self]
      rfl

end Verif.Json
