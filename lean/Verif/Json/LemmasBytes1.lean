import Verif.Json.SpecBytes
import Verif.Io.PropsStream
/-! # The streaming JSON tokenizer on a text: helper lemmas

`advance_inner` on a stream depends only on the text that the stream has. -/
namespace Verif.Json.Bytes
open Verif.Io (usizeMax More SFlow StreamImpl WhileOut scan)

theorem isizeMax_lt : 5 * isizeMax + 16 ≤ 4 * usizeMax := by decide

theorem isize_usize (n : Nat) (h : n ≤ isizeMax) : n + 16 ≤ usizeMax := by
  have : isizeMax + 16 ≤ usizeMax := by decide
  omega

/-! ## One step on a text -/

inductive Out
  | fault
  | wait
  | quiet
  | tell (t : Token)
deriving DecidableEq

def outOf : SFlow (Option Token) → Out
  | .fault => .fault
  | .brk _ => .wait
  | .cont none => .quiet
  | .cont (some t) => .tell t

def fin (d : Dec) (r : Option (Dec × Option Token)) : Dec × Out := ((finish d r).1, outOf (finish d r).2)

/-- Testing bytes without state. -/
def scanTo (p : Nat → UInt8 → Bool) : List UInt8 → Nat → Nat × Bool
  | [], n => (n, false)
  | b :: l, n => if p n b then scanTo p l (n + 1) else (n, true)

theorem scan_eq (p : Nat → UInt8 → Bool) : ∀ (l : List UInt8) (n : Nat),
    scan (fun (_ : Unit) i b => ((), p i b)) l n () = ((scanTo p l n).1, (), (scanTo p l n).2)
  | [], n => rfl
  | b :: l, n => by
    have ih := scan_eq p l (n + 1)
    cases h : p n b with
    | false => simp [scan, scanTo, h]
    | true => simp only [scan, scanTo, h, if_true]; exact ih

theorem scanTo_append (p : Nat → UInt8 → Bool) : ∀ (a b : List UInt8) (n : Nat),
    scanTo p (a ++ b) n = if (scanTo p a n).2 then scanTo p a n else scanTo p b (n + a.length)
  | [], b, n => by simp [scanTo]
  | c :: a, b, n => by
    have ih := scanTo_append p a b (n + 1)
    by_cases h : p n c = true
    · simp only [List.cons_append, scanTo, h, if_true]
      rw [ih]
      simp only [List.length_cons]
      rw [show n + 1 + a.length = n + (a.length + 1) by omega]
    · simp only [List.cons_append, scanTo, h, Bool.false_eq_true, if_false, if_true]

theorem scanTo_bounds (p : Nat → UInt8 → Bool) : ∀ (l : List UInt8) (n : Nat),
    n ≤ (scanTo p l n).1 ∧ (if (scanTo p l n).2 then (scanTo p l n).1 < n + l.length else (scanTo p l n).1 = n + l.length)
  | [], n => by simp [scanTo]
  | b :: l, n => by
    have ih := scanTo_bounds p l (n + 1)
    by_cases h : p n b = true
    · simp only [scanTo, h, if_true, List.length_cons]
      refine ⟨by omega, ?_⟩
      split <;> rename_i hs
      · rw [if_pos hs] at ih; omega
      · rw [if_neg hs] at ih; omega
    · simp only [scanTo, h, Bool.false_eq_true, if_false, if_true, List.length_cons]
      omega

def pureStep (text : List UInt8) (d : Dec) : Dec × Out :=
  match request d with
  | none => (d, .fault)
  | some (.map min _) => if min ≤ text.length then fin d (handle d text) else (d, .wait)
  | some (.mapWhile max p) =>
    let r := scanTo p ((text.drop d.idx).take (max.getD usizeMax - d.idx)) d.idx
    let d := { d with idx := r.1 }
    if r.2 = true ∨ max = some r.1 then fin d (handle d text) else (d, .wait)

/-- The states within a text. -/
def Wf (text : List UInt8) (d : Dec) : Prop :=
  text.length ≤ isizeMax ∧
  match d.state with
  | .none => True
  | .stringEscapeUnicode s => d.idx ≤ text.length ∧ s ≤ d.idx ∧ d.idx < s + 4
  | .stringEscapeUnicodeTrail s _ => d.idx ≤ text.length ∧ s ≤ d.idx ∧ d.idx < s + 6
  | _ => d.idx ≤ text.length

/-! ## What is looked at -/

theorem upTo_prefix {m t : List UInt8} (h : m <+: t) {n : Nat} (hn : n ≤ m.length) : upTo m n = upTo t n := by
  obtain ⟨r, rfl⟩ := h
  unfold upTo
  rw [if_pos hn, if_pos (by simp only [List.length_append]; omega), List.take_append_of_le_length hn]

theorem between_prefix {m t : List UInt8} (h : m <+: t) {a n : Nat} (hn : n ≤ m.length) : between m a n = between t a n := by
  obtain ⟨r, rfl⟩ := h
  unfold between
  by_cases ha : a ≤ n
  · rw [if_pos ⟨ha, hn⟩, if_pos ⟨ha, by simp only [List.length_append]; omega⟩, List.take_append_of_le_length hn]
  · rw [if_neg (fun h => ha h.1), if_neg (fun h => ha h.1)]

theorem getElem_prefix {m t : List UInt8} (h : m <+: t) {n : Nat} (hn : n < m.length) : m[n]? = t[n]? := by
  obtain ⟨r, rfl⟩ := h
  rw [List.getElem?_append_left hn]

theorem hex_prefix {m t : List UInt8} (h : m <+: t) {n : Nat} (hn : n + 3 < m.length) : unicodeFromHex m n = unicodeFromHex t n := by
  unfold unicodeFromHex
  rw [getElem_prefix h (n := n) (by omega), getElem_prefix h (n := n + 1) (by omega), getElem_prefix h (n := n + 2) (by omega),
    getElem_prefix h (n := n + 3) (by omega)]

theorem pushChar_prefix {m t : List UInt8} (h : m <+: t) (d : Dec) {idx back : Nat} (c : Char) (hn : idx ≤ m.length + back) :
    pushChar d m idx back c = pushChar d t idx back c := by
  unfold pushChar strictSub
  by_cases hb : back ≤ idx
  · simp only [if_pos hb]
    show (upTo m (idx - back)).bind _ = (upTo t (idx - back)).bind _
    rw [upTo_prefix h (by omega)]
  · simp only [if_neg hb]; rfl

/-- What has to be there so that the rest of the text does not matter. -/
def Seen (d : Dec) (m : List UInt8) : Prop :=
  match d.state with
  | .none => 1 ≤ m.length
  | .whitespace => d.idx < m.length
  | .item => d.idx < m.length
  | .numberDone _ => d.idx ≤ m.length
  | .number _ => d.idx < m.length
  | .string _ => d.idx < m.length
  | .stringEscape => d.idx + 1 ≤ m.length
  | .stringEscapeUnicode s => s ≤ d.idx ∧ d.idx ≤ m.length
  | .stringEscapeUnicodeTrail s _ => s ≤ d.idx ∧ d.idx ≤ m.length

theorem finishNumber_prefix {m t : List UInt8} (h : m <+: t) (d : Dec) (hs : d.idx ≤ m.length) : finishNumber d m = finishNumber d t := by
  unfold finishNumber
  rw [upTo_prefix h hs]

theorem numberSign_prefix {m t : List UInt8} (h : m <+: t) (d : Dec) (n : Num) (r : Range) (b : UInt8) (hs : d.idx ≤ m.length) :
    numberSign d n r b m = numberSign d n r b t := by
  unfold numberSign
  rw [finishNumber_prefix h d hs]

theorem numberPoint_prefix {m t : List UInt8} (h : m <+: t) (d : Dec) (n : Num) (r : Range) (hs : d.idx ≤ m.length) :
    numberPoint d n r m = numberPoint d n r t := by
  unfold numberPoint
  rw [finishNumber_prefix h d hs]

theorem numberExponent_prefix {m t : List UInt8} (h : m <+: t) (d : Dec) (n : Num) (r : Range) (hs : d.idx ≤ m.length) :
    numberExponent d n r m = numberExponent d n r t := by
  unfold numberExponent
  rw [finishNumber_prefix h d hs]

theorem advanceNumber_prefix {m t : List UInt8} (h : m <+: t) (d : Dec) (n : Num) (hs : d.idx < m.length) :
    advanceNumber d n m = advanceNumber d n t := by
  unfold advanceNumber
  simp only []
  rw [getElem_prefix h hs]
  cases t[d.idx]? with
  | none => rfl
  | some b =>
    simp only []
    generalize hd : ({ d with state := .number (n.grow d.idx).1 } : Dec) = d'
    have hs' : d'.idx ≤ m.length := by rw [← hd]; exact Nat.le_of_lt hs
    rw [numberSign_prefix h _ _ _ _ hs', numberPoint_prefix h _ _ _ hs', numberExponent_prefix h _ _ _ hs', finishNumber_prefix h _ hs']

theorem strictAdd_some {a b c : Nat} (h : strictAdd a b = some c) : c = a + b := by
  unfold strictAdd at h
  split at h
  · exact (Option.some.inj h).symm
  · cases h

theorem bind_congr' {α β : Type} {o : Option α} {f g : α → Option β} (h : ∀ a, o = some a → f a = g a) : o.bind f = o.bind g := by
  cases o with
  | none => rfl
  | some a => exact h a rfl

theorem advanceString_prefix {m t : List UInt8} (h : m <+: t) (d : Dec) (s : Nat) (hs : d.idx < m.length) :
    advanceString d s m = advanceString d s t := by
  unfold advanceString
  rw [getElem_prefix h hs]
  cases t[d.idx]? with
  | none => rfl
  | some b =>
    simp only []
    have e1 : ((strictAdd d.idx 1).bind fun idx => (between m s idx).bind fun part => (upTo m idx).bind fun raw =>
          (raiseString { (stringRaw { d with idx := idx } part) with done := some idx } raw).bind fun t =>
            some ({ (stringRaw { d with idx := idx } part) with done := some idx }, some t))
        = ((strictAdd d.idx 1).bind fun idx => (between t s idx).bind fun part => (upTo t idx).bind fun raw =>
          (raiseString { (stringRaw { d with idx := idx } part) with done := some idx } raw).bind fun t =>
            some ({ (stringRaw { d with idx := idx } part) with done := some idx }, some t)) := by
      refine bind_congr' fun idx hi => ?_
      have := strictAdd_some hi
      rw [between_prefix h (by omega), upTo_prefix h (by omega)]
    have e2 : ((between m s d.idx).bind fun part => (strictAdd (stringRaw d part).idx 1).bind fun idx =>
          some ({ stringRaw d part with idx := idx, state := .stringEscape }, (none : Option Token)))
        = ((between t s d.idx).bind fun part => (strictAdd (stringRaw d part).idx 1).bind fun idx =>
          some ({ stringRaw d part with idx := idx, state := .stringEscape }, none)) := by
      rw [between_prefix h (by omega)]
    have e3 : ((strictAdd d.idx 1).bind fun idx => (between m s idx).bind fun part =>
          some (stringRaw { d with idx := idx } part, some (Token.error (.stringUnescaped b))))
        = ((strictAdd d.idx 1).bind fun idx => (between t s idx).bind fun part =>
          some (stringRaw { d with idx := idx } part, some (Token.error (.stringUnescaped b)))) := by
      refine bind_congr' fun idx hi => ?_
      have := strictAdd_some hi
      rw [between_prefix h (by omega)]
    by_cases h1 : b = 0x22
    · rw [if_pos h1, if_pos h1]; exact e1
    · rw [if_neg h1, if_neg h1]
      by_cases h2 : b = 0x5c
      · rw [if_pos h2, if_pos h2]; exact e2
      · rw [if_neg h2, if_neg h2]
        by_cases h3 : isControl b = true
        · rw [if_pos h3, if_pos h3]; exact e3
        · rw [if_neg h3, if_neg h3]

theorem strictSub_some {a b c : Nat} (h : strictSub a b = some c) : b ≤ a ∧ c = a - b := by
  unfold strictSub at h
  split at h
  · exact ⟨by assumption, (Option.some.inj h).symm⟩
  · cases h

theorem advanceEscape_prefix {m t : List UInt8} (h : m <+: t) (d : Dec) (hs : d.idx < m.length) : advanceEscape d m = advanceEscape d t := by
  unfold advanceEscape
  rw [getElem_prefix h hs]
  refine bind_congr' fun idx hi => bind_congr' fun esc _ => ?_
  have := strictAdd_some hi
  cases escapeByte esc with
  | some v =>
    refine bind_congr' fun n hn => ?_
    have := strictSub_some hn
    show (upTo m n).bind _ = (upTo t n).bind _
    rw [upTo_prefix h (by omega)]
  | none =>
    show (if _ then _ else _) = (if _ then _ else _)
    by_cases h1 : esc = 0x75
    · rw [if_pos h1, if_pos h1]
    · rw [if_neg h1, if_neg h1]
      refine bind_congr' fun n hn => ?_
      have := strictSub_some hn
      show (upTo m n).bind _ = (upTo t n).bind _
      rw [upTo_prefix h (by omega)]

theorem advanceUnicode_prefix {m t : List UInt8} (h : m <+: t) (d : Dec) (s : Nat) (hs : s ≤ d.idx) (hi : d.idx ≤ m.length) :
    advanceUnicode d s m = advanceUnicode d s t := by
  unfold advanceUnicode
  refine bind_congr' fun max hm => ?_
  have := strictAdd_some hm
  show (if _ then _ else _) = (if _ then _ else _)
  by_cases h1 : d.idx ≠ max
  · rw [if_pos h1, if_pos h1, pushChar_prefix h _ _ (by omega)]
  · rw [if_neg h1, if_neg h1, hex_prefix h (by omega)]
    refine bind_congr' fun code _ => ?_
    rw [pushChar_prefix h _ _ (by omega)]
    by_cases h2 : 0xd800 ≤ code ∧ code ≤ 0xdbff
    · rw [if_pos h2, if_pos h2]
    · rw [if_neg h2, if_neg h2]
      by_cases h3 : 0xdc00 ≤ code ∧ code ≤ 0xdfff
      · rw [if_pos h3, if_pos h3]
      · rw [if_neg h3, if_neg h3]
        refine bind_congr' fun c _ => ?_
        rw [pushChar_prefix h _ _ (by omega)]

theorem pushChar_idx {d d' : Dec} {m : List UInt8} {i b : Nat} {c : Char} (h : pushChar d m i b c = some d') : d'.idx = d.idx := by
  unfold pushChar at h
  simp only [Option.bind_eq_bind, Option.bind_eq_some_iff, Option.some.injEq] at h
  obtain ⟨n, _, raw, _, rfl⟩ := h
  rfl

theorem advanceTrail_prefix {m t : List UInt8} (h : m <+: t) (d : Dec) (s lead : Nat) (hs : s ≤ d.idx) (hi : d.idx ≤ m.length) :
    advanceTrail d s lead m = advanceTrail d s lead t := by
  unfold advanceTrail
  refine bind_congr' fun max hm => ?_
  have := strictAdd_some hm
  show (if _ then _ else _) = (if _ then _ else _)
  by_cases h1 : d.idx ≠ max
  · rw [if_pos h1, if_pos h1, pushChar_prefix h _ _ (by omega)]
  · rw [if_neg h1, if_neg h1, hex_prefix h (by omega)]
    refine bind_congr' fun code _ => ?_
    rw [pushChar_prefix h _ _ (by omega)]
    by_cases h2 : 0xd800 ≤ code ∧ code ≤ 0xdbff
    · rw [if_pos h2, if_pos h2]
    · rw [if_neg h2, if_neg h2]
      by_cases h3 : 0xdc00 ≤ code ∧ code ≤ 0xdfff
      · rw [if_pos h3, if_pos h3]
        refine bind_congr' fun off _ => bind_congr' fun c _ => ?_
        rw [pushChar_prefix h _ _ (by omega)]
      · rw [if_neg h3, if_neg h3]
        refine bind_congr' fun d1 hd1 => bind_congr' fun c _ => ?_
        have := pushChar_idx hd1
        rw [pushChar_prefix h _ _ (by omega)]

theorem handle_prefix {m t : List UInt8} (h : m <+: t) (d : Dec) (hs : Seen d m) : handle d m = handle d t := by
  obtain ⟨s, i, dn, acc⟩ := d
  cases s with
  | none =>
    show advanceNone _ m = advanceNone _ t
    unfold advanceNone
    rw [getElem_prefix h (n := 0) hs]
  | whitespace =>
    show advanceWhitespace _ m = advanceWhitespace _ t
    unfold advanceWhitespace
    rw [upTo_prefix h (Nat.le_of_lt hs)]
  | item =>
    show advanceItem _ m = advanceItem _ t
    unfold advanceItem
    rw [upTo_prefix h (Nat.le_of_lt hs)]
  | numberDone n =>
    show advanceNumberDone _ n m = advanceNumberDone _ n t
    unfold advanceNumberDone
    rw [upTo_prefix h hs]
  | number n => exact advanceNumber_prefix h _ n hs
  | string s => exact advanceString_prefix h _ s hs
  | stringEscape => exact advanceEscape_prefix h _ hs
  | stringEscapeUnicode s => exact advanceUnicode_prefix h _ s hs.1 hs.2
  | stringEscapeUnicodeTrail s l => exact advanceTrail_prefix h _ s l hs.1 hs.2

end Verif.Json.Bytes
