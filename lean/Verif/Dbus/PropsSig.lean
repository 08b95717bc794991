import Verif.Dbus.LemmasErr
import Verif.Dbus.LemmasSum
/-! # Properties of signatures (C26-C29, C31, C53) -/
namespace Verif.Dbus

/-- The greatest length of a signature the format supports: 2^61 - 1. -/
def maxLength : Nat := 2 ^ 61 - 1

theorem maxLength_eq : maxLength = Kind.node64.lengthMax := by decide

/-! ## C26: acceptance -/

/-- C26. A byte string is accepted exactly if it is the signature of a single complete type. -/
theorem accepts_iff (bs : List UInt8) (h : bs.length ≤ maxLength) :
    (∃ s, Sig.new bs = .ok s) ↔ ∃ t : Ty, bs = t.bytes := by
  rw [maxLength_eq] at h
  constructor
  · rintro ⟨s, hs⟩
    obtain ⟨t, ht, _⟩ := new_ok h hs
    exact ⟨t, ht⟩
  · rintro ⟨t, rfl⟩
    exact ⟨_, new_bytes t (by rwa [bytes_length] at h)⟩

example : ∃ s, Sig.new (sb "a{s(vmh)}") = .ok s :=
  (accepts_iff _ (by decide)).mpr ⟨.array (.dict .string (.struct [.variant, .maybe (.basic .unixFd)])), by decide⟩
example : Sig.new (sb "a{vs}") = .err (.dictInvalid 1) := by decide

/-- C26. Signatures are unambiguous: different types have different signatures. -/
theorem types_distinct (t u : Ty) (h : t.bytes = u.bytes) : t = u := bytes_inj h

/-! ## C27: no panics -/

/-- C27. Every byte string within the limit gives a signature or an error: no panic, no undefined behaviour, no
endless loop. -/
theorem new_returns (bs : List UInt8) (h : bs.length ≤ maxLength) :
    (∃ s, Sig.new bs = .ok s) ∨ ∃ e, Sig.new bs = .err e := by
  rw [maxLength_eq] at h
  rw [new_eq bs h]
  cases aloop bs.length bs 0 [] with
  | ok t => exact .inl ⟨_, rfl⟩
  | error e => exact .inr ⟨_, rfl⟩

example : (List.replicate 1000 (Char.toUInt8 '(')).length ≤ maxLength := by rw [List.length_replicate]; decide

/-- C27. The size of the buffer that the API asks for, in words of 8 bytes: one for each byte of the signature if there are at most 31 of
them, and six otherwise. -/
theorem size_asked (n : Nat) (h : n ≤ maxLength) : sizeForLength n = some (if n ≤ 31 then n else 6 * n) := by
  rw [maxLength_eq] at h
  rw [sizeFor_ok h]
  unfold kindFor
  have e : Kind.node8.lengthMax = 31 := by decide
  rw [e]
  split
  · rw [show Kind.node8.coeff = 1 from rfl, Nat.mul_one]
  · rw [show Kind.node64.coeff = 6 from rfl, Nat.mul_comm]

/-- C27. With a buffer that has at least the size asked for and no incomplete node (nodes have six words if the signature is longer than
31), parsing returns as well. -/
theorem parse_returns (bs : List UInt8) (h : bs.length ≤ maxLength) (size need : Nat)
    (hn : sizeForLength bs.length = some need) (hs : need ≤ size) (hm : 31 < bs.length → size % 6 = 0) :
    (∃ b, sigParse size bs = .ok b) ∨ ∃ e, sigParse size bs = .err e := by
  have hm : size % (kindFor bs.length).coeff = 0 := by
    unfold kindFor
    rw [show Kind.node8.lengthMax = 31 by decide]
    split
    · exact Nat.mod_one _
    · exact hm (by omega)
  rw [maxLength_eq] at h
  rw [sizeFor_ok h, Option.some.injEq] at hn
  have hk := coeff_pos (kindFor bs.length)
  unfold sigParse
  simp only [hm, Nat.sub_zero, gt_iff_lt, Nat.lt_irrefl, if_false]
  rw [parse_ok _ _ _ (by rw [List.length_replicate, Nat.le_div_iff_mul_le hk]; omega),
    if_neg (Nat.not_lt.mpr (kindFor_le h))]
  cases aloop bs.length bs 0 [] with
  | ok t => exact .inl ⟨_, rfl⟩
  | error e => exact .inr ⟨_, rfl⟩

/-- C27, disagreement. `Sig::parse` with a buffer ending in an incomplete node never returns for any valid
signature: the index of the loop clearing the rest is not advanced. -/
theorem parse_hangs (t : Ty) (size : Nat) (h : t.size ≤ maxLength) (h8 : 31 < t.size) (hs : 6 * t.size ≤ size)
    (hm : size % 6 ≠ 0) : sigParse size t.bytes = .hang := by
  rw [maxLength_eq] at h
  have hk : kindFor t.bytes.length = .node64 := by
    rw [bytes_length]; unfold kindFor; rw [if_neg]; have : Kind.node8.lengthMax = 31 := by decide
    omega
  have hl : t.bytes.length = t.size := bytes_length t
  unfold sigParse
  rw [hk]
  have hc : Kind.node64.coeff = 6 := rfl
  rw [← hc] at hm
  simp only []
  rw [parse_ok _ _ _ (by rw [List.length_replicate, hc, Nat.le_div_iff_mul_le (by decide)]; omega),
    if_neg (by omega), aloop_complete]
  simp only [toRes, Res.bind]
  rw [if_pos (by omega)]

example : sigParse (6 * 33 + 1) (sb "(ttttttttttttttttttttttttttttttt)") = .hang :=
  parse_hangs (.struct (List.replicate 31 (.basic .uint64))) _ (by decide) (by decide) (by decide) (by decide)

/-- C27. Too small a buffer is a panic, not the documented error. -/
theorem parse_small : sigParse 1 (sb "au") = .fault := by decide

/-! ## C28: printing, iterating, comparing -/

/-- C28. The elements of a signature are those of the input, in order; printing gives the input. -/
theorem prints_back (bs : List UInt8) (h : bs.length ≤ maxLength) (s : Sig) (hs : Sig.new bs = .ok s) :
    s.text = some bs ∧ ∃ es, s.elements = some es ∧ es.map Element.code = bs := by
  rw [maxLength_eq] at h
  obtain ⟨t, rfl, rfl⟩ := new_ok h hs
  exact ⟨(rep_ofTy t).text, t.els, (rep_ofTy t).elements, els_code t⟩

/-- C28. Equality of signatures is equality of the inputs, their order is the lexicographic order of the inputs,
and they feed the same values to a hasher exactly if they are equal. -/
theorem compares (as bs : List UInt8) (ha : as.length ≤ maxLength) (hb : bs.length ≤ maxLength) (s r : Sig)
    (hs : Sig.new as = .ok s) (hr : Sig.new bs = .ok r) :
    s.eq r = some (decide (as = bs)) ∧ s.cmp r = some (compareOfLessAndEq as bs)
    ∧ (s.hashInput = r.hashInput ↔ as = bs) := by
  rw [maxLength_eq] at ha hb
  obtain ⟨t, rfl, rfl⟩ := new_ok ha hs
  obtain ⟨u, rfl, rfl⟩ := new_ok hb hr
  have e1 := (rep_ofTy t).elements
  have e2 := (rep_ofTy u).elements
  have hiff : t.els = u.els ↔ t.bytes = u.bytes := by
    constructor
    · intro h; rw [← els_code, ← els_code, h]
    · intro h; rw [bytes_inj h]
  refine ⟨?_, ?_, ?_⟩
  · unfold Sig.eq
    rw [e1, e2]
    simp only [Option.bind_eq_bind, Option.bind_some, Option.some.injEq]
    rw [Bool.eq_iff_iff, beq_iff_eq, decide_eq_true_iff]
    exact hiff
  · unfold Sig.cmp
    rw [e1, e2]
    simp only [Option.bind_eq_bind, Option.bind_some, els_code]
  · unfold Sig.hashInput
    rw [e1, e2, Option.map_some, Option.map_some, Option.some.injEq]
    constructor
    · intro h; exact hiff.mp (map_inj _ (fun _ _ => id_inj) _ _ h)
    · intro h; rw [hiff.mpr h]

/-- C28. The hash input of a signature never begins with that of another one. -/
theorem hash_prefix_free (as bs : List UInt8) (ha : as.length ≤ maxLength) (hb : bs.length ≤ maxLength) (s r : Sig)
    (hs : Sig.new as = .ok s) (hr : Sig.new bs = .ok r) (x : List Nat) (y : List Nat)
    (hx : s.hashInput = some x) (hy : r.hashInput = some y) (hp : x <+: y) : as = bs := by
  rw [maxLength_eq] at ha hb
  obtain ⟨t, rfl, rfl⟩ := new_ok ha hs
  obtain ⟨u, rfl, rfl⟩ := new_ok hb hr
  unfold Sig.hashInput at hx hy
  rw [(rep_ofTy t).elements, Option.map_some, Option.some.injEq] at hx
  rw [(rep_ofTy u).elements, Option.map_some, Option.some.injEq] at hy
  subst hx; subst hy
  obtain ⟨z, hz⟩ := hp
  have hlen : t.els.length ≤ u.els.length := by
    have := congrArg List.length hz; simp at this; omega
  have h1 : t.els = u.els.take t.els.length := by
    apply map_inj Element.id (fun _ _ => id_inj)
    have := congrArg (List.take t.els.length) hz
    rw [List.take_left' (by simp)] at this
    rw [this, List.map_take]
  have h2 : u.bytes = t.bytes ++ (u.els.drop t.els.length).map Element.code := by
    have := List.take_append_drop t.els.length u.els
    rw [← h1] at this
    rw [← els_code, ← els_code, ← List.map_append, this]
  cases hd : u.els.drop t.els.length with
  | nil => rw [h2, hd]; simp
  | cons e es =>
    have := aloop_prefix t ((u.els.drop t.els.length).map Element.code) (by rw [hd]; simp)
    rw [← h2, aloop_complete] at this
    cases this

/-- C28, partial. The length of a signature of at most 31 elements is the number of its elements. -/
theorem len_partial (bs : List UInt8) (h : bs.length ≤ 31) (s : Sig) (hs : Sig.new bs = .ok s) :
    s.len = some bs.length ∧ ∃ c, Cursor.new s = some c ∧ c.size_hint = some bs.length := by
  obtain ⟨t, rfl, rfl⟩ := new_ok (Nat.le_trans h (by decide)) hs
  rw [bytes_length] at h ⊢
  have hk : (ofTy t).kind = .node8 := by
    simp only [ofTy]; unfold kindFor; rw [if_pos]; exact h
  have hl : (ofTy t).len = some t.size := by rw [(rep_ofTy t).len, hk]; simp [Kind.coeff]
  refine ⟨hl, _, (rep_ofTy t).new, ?_⟩
  unfold Cursor.size_hint
  simp only [hl]; simp [strictSub]

/-- C28, disagreement. For all longer signatures, the length reported is six times the number of elements, as is
the number of elements an iterator claims to yield. -/
theorem len_wrong (bs : List UInt8) (h : bs.length ≤ maxLength) (h8 : 31 < bs.length) (s : Sig) (hs : Sig.new bs = .ok s) :
    s.len = some (6 * bs.length) ∧ ∃ c, Cursor.new s = some c ∧ c.size_hint = some (6 * bs.length) := by
  rw [maxLength_eq] at h
  obtain ⟨t, rfl, rfl⟩ := new_ok h hs
  rw [bytes_length] at h8 ⊢
  have hk : (ofTy t).kind = .node64 := by
    simp only [ofTy]; unfold kindFor; rw [if_neg]; have : Kind.node8.lengthMax = 31 := by decide
    omega
  have hl : (ofTy t).len = some (6 * t.size) := by rw [(rep_ofTy t).len, hk]; rfl
  refine ⟨hl, _, (rep_ofTy t).new, ?_⟩
  unfold Cursor.size_hint
  simp only [hl]; simp [strictSub]

example : ∃ s, Sig.new (sb "(ttttttttttttttttttttttttttttttt)") = .ok s :=
  (accepts_iff _ (by decide)).mpr ⟨.struct (List.replicate 31 (.basic .uint64)), by decide⟩

/-! ## C29: prefix code -/

/-- C29. No accepted signature begins with another accepted signature. -/
theorem prefix_code (as bs : List UInt8) (h : (as ++ bs).length ≤ maxLength) (s r : Sig)
    (hs : Sig.new as = .ok s) (hr : Sig.new (as ++ bs) = .ok r) : bs = [] := by
  rw [maxLength_eq] at h
  obtain ⟨t, rfl, _⟩ := new_ok (by simp at h; omega) hs
  obtain ⟨u, hu, _⟩ := new_ok h hr
  cases bs with
  | nil => rfl
  | cons b bs =>
    have := aloop_prefix t (b :: bs) (by simp)
    rw [hu, aloop_complete] at this
    cases this

/-! ## C53: errors -/

/-- C53. The empty string. -/
theorem err_empty_iff (bs : List UInt8) (h : bs.length ≤ maxLength) : Sig.new bs = .err .signatureEmpty ↔ bs = [] := by
  rw [new_err_iff bs h]
  constructor
  · rintro ⟨z, rest, rfl, rfl, rfl⟩; rfl
  · rintro rfl; exact ⟨[], [], rfl, rfl, rfl⟩

/-- C53. A sequence of types is reported exactly if the string begins with a complete type followed by something;
the index is that of the end of the type. -/
theorem err_sequence_iff (bs : List UInt8) (h : bs.length ≤ maxLength) (i : Nat) :
    Sig.new bs = .err (.signatureSequence i) ↔ ∃ (t : Ty) (r : List UInt8), bs = t.bytes ++ r ∧ r ≠ [] ∧ i = t.bytes.length := by
  rw [new_err_iff bs h]
  constructor
  · rintro ⟨z, rest, rfl, rfl, t, r, rfl, hr, rfl⟩
    exact ⟨t, r, rfl, hr, (bytes_length t).symm⟩
  · rintro ⟨t, r, rfl, hr, rfl⟩
    exact ⟨[], _, rfl, rfl, t, r, rfl, hr, bytes_length t⟩

example : Sig.new (sb "asay") = .err (.signatureSequence 2) := by decide

/-- C53. An incomplete signature is reported exactly if a container is still open at the end; the index is that of
the innermost one. -/
theorem err_incomplete_iff (bs : List UInt8) (h : bs.length ≤ maxLength) (i : Nat) :
    Sig.new bs = .err (.signatureIncomplete i) ↔ ∃ c ts, Begin bs i c ts := by
  rw [new_err_iff bs h]
  constructor
  · rintro ⟨z, rest, rfl, rfl, f, z', rfl, rfl⟩
    rw [List.append_nil]
    exact ⟨_, _, begin_of_frames z' f⟩
  · rintro ⟨c, ts, hb⟩
    obtain ⟨f, z, rfl, rfl, _, _⟩ := begin_frames hb
    exact ⟨f :: z, [], by simp, rfl, f, z, rfl, rfl⟩

example : Sig.new (sb "a(y{s") = .err (.signatureIncomplete 3) := by decide

/-- C53. A byte that is no ASCII code, at a place where more is needed. -/
theorem err_invalid_iff (bs : List UInt8) (h : bs.length ≤ maxLength) (i : Nat) (c : UInt8) :
    Sig.new bs = .err (.elementInvalid i c) ↔ ∃ p r, bs = p ++ c :: r ∧ p.length = i ∧ c.toNat ≥ 128
      ∧ (p = [] ∨ ∃ j d ts, Begin p j d ts) := by
  rw [new_err_iff bs h]
  constructor
  · rintro ⟨z, rest, rfl, rfl, r, rfl, hc⟩
    exact ⟨zbytes z, r, rfl, zbytes_length z, hc, (begin_iff _).mp ⟨z, rfl⟩⟩
  · rintro ⟨p, r, rfl, rfl, hc, hp⟩
    obtain ⟨z, rfl⟩ := (begin_iff p).mpr hp
    exact ⟨z, _, rfl, zbytes_length z, r, rfl, hc⟩

example : Sig.new [97, 200, 97] = .err (.elementInvalid 1 200) := by decide

/-- C53. An ASCII byte that is no code, at a place where more is needed. -/
theorem err_unknown_iff (bs : List UInt8) (h : bs.length ≤ maxLength) (i : Nat) (c : UInt8) :
    Sig.new bs = .err (.elementUnknown i c) ↔ ∃ p r, bs = p ++ c :: r ∧ p.length = i ∧ c.toNat < 128
      ∧ (∀ e : Element, e.code ≠ c) ∧ (p = [] ∨ ∃ j d ts, Begin p j d ts) := by
  have hf : Element.fromCode c = none ↔ ∀ e : Element, e.code ≠ c := by
    constructor
    · intro h e he; rw [← he, fromCode_code] at h; cases h
    · intro h
      cases hc : Element.fromCode c with
      | none => rfl
      | some e => exact absurd (code_of_fromCode hc).symm (h e)
  rw [new_err_iff bs h]
  constructor
  · rintro ⟨z, rest, rfl, rfl, r, rfl, hc, hn⟩
    exact ⟨zbytes z, r, rfl, zbytes_length z, by omega, hf.mp hn, (begin_iff _).mp ⟨z, rfl⟩⟩
  · rintro ⟨p, r, rfl, rfl, hc, hn, hp⟩
    obtain ⟨z, rfl⟩ := (begin_iff p).mpr hp
    exact ⟨z, _, rfl, zbytes_length z, r, rfl, by omega, hf.mpr hn⟩

/-- C53. A closing code without any open container can only be the first one. -/
theorem err_unpaired_iff (bs : List UInt8) (h : bs.length ≤ maxLength) (i : Nat) :
    Sig.new bs = .err (.elementUnpaired i) ↔ i = 0 ∧ ∃ c r, bs = Char.toUInt8 c :: r ∧ c ∈ [')', '}'] := by
  rw [new_err_iff bs h]
  constructor
  · rintro ⟨z, rest, rfl, rfl, rfl, d, r, rfl⟩
    cases d
    · exact ⟨rfl, ')', r, rfl, by decide⟩
    · exact ⟨rfl, '}', r, rfl, by decide⟩
  · rintro ⟨rfl, c, r, rfl, hc⟩
    simp only [List.mem_cons, List.not_mem_nil, or_false] at hc
    rcases hc with rfl | rfl
    · exact ⟨[], _, rfl, rfl, rfl, false, r, rfl⟩
    · exact ⟨[], _, rfl, rfl, rfl, true, r, rfl⟩

/-- The opening code belonging to a closing code. -/
def opener : Char → Option (Char × Element)
  | ')' => some ('(', .structOpen)
  | '}' => some ('{', .dictOpen)
  | _ => none

/-- C53. A closing code not belonging to the innermost open container. The second index is that of the closing
code. -/
theorem err_mispaired_iff (bs : List UInt8) (h : bs.length ≤ maxLength) (j : Nat) (x : Option Element) :
    (∃ i, Sig.new bs = .err (.elementMispaired i j x)) ↔ ∃ p i c ts cc oc e r, bs = p ++ Char.toUInt8 cc :: r
      ∧ Begin p i c ts ∧ opener cc = some (oc, e) ∧ oc ≠ c ∧ j = p.length ∧ x = some e := by
  have ho : ∀ (f : Frame) (d : Bool), f.el ≠ opnEl d ↔ (if d then '{' else '(') ≠ f.char := by
    intro f d
    match f with
    | .bound m => cases m <;> cases d <;> simp [Frame.el, opnEl, Frame.char]
    | .unb d' _ => cases d' <;> cases d <;> simp [Frame.el, opnEl, Frame.char]
  constructor
  · rintro ⟨i, hi⟩
    obtain ⟨z, rest, rfl, f, z', d, r, rfl, rfl, hf, rfl, rfl, rfl⟩ := (new_err_iff bs h _).mp hi
    refine ⟨zbytes (f :: z'), zlen z', f.char, f.done, (if d then '}' else ')'), (if d then '{' else '('), opnEl d, r, ?_,
      begin_of_frames z' f, ?_, (ho f d).mp hf, (zbytes_length _).symm, rfl⟩
    · cases d <;> rfl
    · cases d <;> rfl
  · rintro ⟨p, i, c, ts, cc, oc, e, r, rfl, hb, hop, hne, rfl, rfl⟩
    obtain ⟨f, z, rfl, rfl, rfl, rfl⟩ := begin_frames hb
    refine ⟨zlen (f :: z) - offOf z, (new_err_iff _ h _).mpr ⟨f :: z, _, rfl, ?_⟩⟩
    unfold opener at hop
    split at hop
    · simp only [Option.some.injEq, Prod.mk.injEq] at hop
      obtain ⟨rfl, rfl⟩ := hop
      exact ⟨f, z, false, r, rfl, rfl, (ho f false).mpr hne, zbytes_length _, rfl, rfl⟩
    · simp only [Option.some.injEq, Prod.mk.injEq] at hop
      obtain ⟨rfl, rfl⟩ := hop
      exact ⟨f, z, true, r, rfl, rfl, (ho f true).mpr hne, zbytes_length _, rfl, rfl⟩
    · cases hop

/-- C53, disagreement. The first index of a mispairing is not that of the container: in `(yya}` the innermost
container is the array at 3, the index reported is 1 (and in `(}` it is the closing element itself). -/
theorem err_mispaired_index : Sig.new (sb "(yya}") = .err (.elementMispaired 1 4 (some .dictOpen))
    ∧ Sig.new (sb "(}") = .err (.elementMispaired 1 1 (some .dictOpen)) := by decide

/-- C53. What that index is instead, in every case: with `k` the place of the innermost open container and `k'` that of the one around
it, it is `k - k'` before the closing code; and it is the place of the closing code if there is no container around it. -/
theorem err_mispaired_index_is (bs : List UInt8) (h : bs.length ≤ maxLength) (i j : Nat) (x : Option Element)
    (he : Sig.new bs = .err (.elementMispaired i j x)) : ∃ k c ts, Begin (bs.take j) k c ts
      ∧ (k = 0 ∧ i = j ∨ ∃ k' c' ts', Begin (bs.take k) k' c' ts' ∧ i = j - (k - k')) := by
  obtain ⟨z, rest, rfl, f, z', d, r, rfl, rfl, hf, rfl, rfl, rfl⟩ := (new_err_iff bs h _).mp he
  refine ⟨zlen z', f.char, f.done, ?_, ?_⟩
  · rw [← zbytes_length, List.take_left]
    exact begin_of_frames z' f
  · cases z' with
    | nil => exact .inl ⟨rfl, rfl⟩
    | cons g z'' =>
      refine .inr ⟨zlen z'', g.char, g.done, ?_, ?_⟩
      · have e : ∃ l, zbytes (f :: g :: z'') = zbytes (g :: z'') ++ l := by
          cases f with
          | bound m => exact ⟨_, rfl⟩
          | unb d done => exact ⟨_, rfl⟩
        obtain ⟨l, e⟩ := e
        rw [e, List.append_assoc, ← zbytes_length (g :: z''), List.take_left]
        exact begin_of_frames z'' g
      · simp only [offOf, zlen]
        omega

/-- C53. A closed dict entry whose members are not a basic type and another type; the index is that of its opening
code. -/
theorem err_dict_iff (bs : List UInt8) (h : bs.length ≤ maxLength) (i : Nat) :
    Sig.new bs = .err (.dictInvalid i) ↔ ∃ p ts r, bs = p ++ Char.toUInt8 '}' :: r ∧ Begin p i '{' ts
      ∧ ¬ ∃ b v, ts = [.basic b, v] := by
  have hc : ∀ ts, closed true ts = none ↔ ¬ ∃ b v, ts = [Ty.basic b, v] := by
    intro ts
    constructor
    · rintro h ⟨b, v, rfl⟩; cases h
    · intro h
      simp only [closed, if_true]
      split
      · rename_i b v; exact absurd ⟨b, v, rfl⟩ h
      · rfl
  rw [new_err_iff bs h]
  constructor
  · rintro ⟨z, rest, rfl, done, z', r, rfl, hcl, rfl, rfl⟩
    exact ⟨_, done, r, rfl, begin_of_frames z' (.unb true done), (hc done).mp hcl⟩
  · rintro ⟨p, ts, r, rfl, hb, hn⟩
    obtain ⟨f, z, rfl, rfl, hch, rfl⟩ := begin_frames hb
    match f, hch with
    | .bound false, hch => simp [Frame.char] at hch
    | .bound true, hch => simp [Frame.char] at hch
    | .unb false _, hch => simp [Frame.char] at hch
    | .unb true done, _ => exact ⟨_, _, rfl, done, z, r, rfl, (hc done).mpr hn, rfl, rfl⟩

example : Begin (sb "a{v") 1 '{' [.variant] :=
  Begin.member .variant (Begin.nest (ts := []) '{' (Begin.first 'a' (by decide)) (by decide)) (by decide)

/-! ## C31: summaries -/

/-- The flags of the node at an index. -/
def flagsAt (s : Sig) (i : Nat) : Option Flag := (Cursor.flags_at ⟨s, i⟩ i).bind id

theorem flagsAt_occ {t : Ty} {i : Nat} {u : Ty} (h : Occ t i u) : ∃ o p,
    (flagsAt (ofTy t) i = some (headN (ofTy t).kind u o p).flags ∧ i = 0 ∧ u = t)
    ∨ (flagsAt (ofTy t) i = some (liftN (headN (ofTy t).kind u o p)).flags ∧ 0 < i) := by
  have e : ∀ j, flagsAt (ofTy t) j = ((ofTy t).nodes[j]?).map (·.flags) := by
    intro j
    unfold flagsAt Cursor.flags_at
    simp only [(rep_ofTy t).node_at, Option.bind_eq_bind, Option.bind_some]
    rfl
  cases h with
  | root => exact ⟨0, 0, .inl ⟨by rw [e]; rfl, rfl, rfl⟩⟩
  | @child u' _ i o p ho hc =>
    refine ⟨o, p, .inr ⟨by rw [e, occ_child_node (rep_ofTy t) ho hc]; rfl, ?_⟩⟩
    cases hc <;> omega

/-- C31. The flags of every sub-type of a parsed signature: it is marked dynamic exactly if it has a code of dynamic
size, marked to carry handles exactly if it has the code `h`, its GVariant alignment is the maximum over its codes,
its D-Bus alignment the one specified, and it is marked as dict entry exactly if its members are a basic type and
another type. -/
theorem summary (t : Ty) (h : t.bytes.length ≤ maxLength) (s : Sig) (hs : Sig.new t.bytes = .ok s) (i : Nat) (u : Ty)
    (ho : Occ t i u) : ∃ f, flagsAt s i = some f
      ∧ FlagSet.all f FLAG_DYNAMIC = u.dynamic ∧ FlagSet.all f FLAG_HANDLE = u.handles
      ∧ FlagSet.gvarExp f = u.gvarAlign ∧ FlagSet.dvarExp f = u.dvarAlign
      ∧ FlagSet.all f FLAG_DICT = u.entryLike := by
  rw [maxLength_eq] at h
  rw [new_bytes t (by rwa [bytes_length] at h), Res.ok.injEq] at hs
  subst hs
  have b17 : ∀ f, FlagSet.all f FLAG_DYNAMIC = f.getLsbD 17 := fun f => all_bit f 17 (by decide)
  have b19 : ∀ f, FlagSet.all f FLAG_HANDLE = f.getLsbD 19 := fun f => all_bit f 19 (by decide)
  have hd : u.dynamic = u.has 17 := rfl
  have hh : u.handles = u.has 19 := rfl
  have hg : u.gvarAlign = gmax u.text := rfl
  obtain ⟨o, p, ⟨hf, _, _⟩ | ⟨hf, _⟩⟩ := flagsAt_occ ho
  · refine ⟨_, hf, ?_, ?_, ?_, ?_, ?_⟩
    · rw [b17, headN_bit _ _ (.inl rfl), hd]
    · rw [b19, headN_bit _ _ (.inr (.inl rfl)), hh]
    · rw [headN_gvar, hg]
    · rw [headN_dvar]
    · rw [dict_all, headN_entry]
  · refine ⟨_, hf, ?_, ?_, ?_, ?_, ?_⟩
    · rw [b17, liftN, liftF_bit _ _ (by decide) (by decide) (by decide), headN_bit _ _ (.inl rfl), hd]
    · rw [b19, liftN, liftF_bit _ _ (by decide) (by decide) (by decide), headN_bit _ _ (.inr (.inl rfl)), hh]
    · rw [liftN, liftF_gvarExp, headN_gvar, hg]
    · rw [liftN, liftF_dvarExp, headN_dvar]
    · rw [dict_all, liftN, liftF_bit _ _ (by decide) (by decide) (by decide), headN_entry]

/-- Types without counterpart in D-Bus: those with a maybe or with an empty structure. -/
def Ty.unsupported (t : Ty) : Prop := 'm' ∈ t.text ∨ ∃ i, Occ t i (.struct [])

/-- C31, partial. A type with a maybe is always marked as unsupported, and marked types have one. What is missing
is the empty structure, see `empty_struct_unmarked`. -/
theorem unsupported_partial (t : Ty) (h : t.bytes.length ≤ maxLength) (s : Sig) (hs : Sig.new t.bytes = .ok s) (i : Nat)
    (u : Ty) (ho : Occ t i u) : ∃ f, flagsAt s i = some f ∧ (FlagSet.all f FLAG_DVAR_UNSUPPORTED = true ↔ 'm' ∈ u.text) := by
  rw [maxLength_eq] at h
  rw [new_bytes t (by rwa [bytes_length] at h), Res.ok.injEq] at hs
  subst hs
  have b21 : ∀ f, FlagSet.all f FLAG_DVAR_UNSUPPORTED = f.getLsbD 21 := fun f => all_bit f 21 (by decide)
  have hm : u.has 21 = true ↔ 'm' ∈ u.text := by
    unfold Ty.has bitChar; simp
  obtain ⟨o, p, ⟨hf, _, _⟩ | ⟨hf, _⟩⟩ := flagsAt_occ ho
  · exact ⟨_, hf, by rw [b21, headN_bit _ _ (.inr (.inr rfl)), hm]⟩
  · exact ⟨_, hf, by rw [b21, liftN, liftF_bit _ _ (by decide) (by decide) (by decide), headN_bit _ _ (.inr (.inr rfl)), hm]⟩

/-- C31, disagreement. Types with an empty structure are not supported by D-Bus, but are not marked: the flag is
set on the closing element, which is not propagated. -/
theorem empty_struct_unmarked : (Ty.struct []).unsupported ∧ ∃ s, Sig.new (sb "()") = .ok s
    ∧ (flagsAt s 0).map (FlagSet.all · FLAG_DVAR_UNSUPPORTED) = some false
    ∧ (flagsAt s 1).map (FlagSet.all · FLAG_DVAR_UNSUPPORTED) = some true :=
  ⟨.inr ⟨0, .root _⟩, ofTy (.struct []), by decide, by decide, by decide⟩

/-- C31, partial. Every sub-type but the root is marked as position dependent exactly if its encoding depends on
its position in spite of its alignment; so is the root unless it is a structure or a dict entry. -/
theorem misaligned_partial (t : Ty) (h : t.bytes.length ≤ maxLength) (s : Sig) (hs : Sig.new t.bytes = .ok s) (i : Nat)
    (u : Ty) (ho : Occ t i u) (hr : 0 < i ∨ u.bracketed = false) :
    ∃ f, flagsAt s i = some f ∧ FlagSet.all f FLAG_DVAR_MISALIGNED = u.posDep := by
  rw [maxLength_eq] at h
  rw [new_bytes t (by rwa [bytes_length] at h), Res.ok.injEq] at hs
  subst hs
  have b22 : ∀ f, FlagSet.all f FLAG_DVAR_MISALIGNED = f.getLsbD 22 := fun f => all_bit f 22 (by decide)
  obtain ⟨o, p, ⟨hf, h0, _⟩ | ⟨hf, _⟩⟩ := flagsAt_occ ho
  · exact ⟨_, hf, by rw [b22, headN_mis _ _ (hr.resolve_left (by omega))]⟩
  · exact ⟨_, hf, by rw [b22, lift_mis]⟩

/-- C31. What the flag says at the root of a structure or a dict entry: some member is position dependent. Together with
`misaligned_partial` this is the flag of every sub-type. -/
theorem misaligned_root (t : Ty) (h : t.bytes.length ≤ maxLength) (s : Sig) (hs : Sig.new t.bytes = .ok s)
    (hb : t.bracketed = true) :
    ∃ f, flagsAt s 0 = some f ∧ (FlagSet.all f FLAG_DVAR_MISALIGNED = true ↔ ∃ o p u, Child t o p u ∧ u.posDep = true) := by
  rw [maxLength_eq] at h
  rw [new_bytes t (by rwa [bytes_length] at h), Res.ok.injEq] at hs
  subst hs
  have b22 : ∀ f, FlagSet.all f FLAG_DVAR_MISALIGNED = f.getLsbD 22 := fun f => all_bit f 22 (by decide)
  obtain ⟨o, p, ⟨hf, _, _⟩ | ⟨_, h0⟩⟩ := flagsAt_occ (Occ.root t)
  · refine ⟨_, hf, ?_⟩
    rw [b22]
    cases t with
    | struct ts =>
      rw [headN_mis_struct, List.any_eq_true]
      constructor
      · rintro ⟨u, hu, hp⟩
        obtain ⟨as, bs, rfl⟩ := List.append_of_mem hu
        exact ⟨_, _, u, .member as u bs, hp⟩
      · rintro ⟨_, _, u, hc, hp⟩
        cases hc with
        | member as _ bs => exact ⟨u, by simp, hp⟩
    | dict b v =>
      rw [headN_mis_dict]
      constructor
      · intro hp; exact ⟨_, _, v, .value b v, hp⟩
      · rintro ⟨_, _, u, hc, hp⟩
        cases hc with
        | key => simp [Ty.posDep] at hp
        | value => exact hp
    | _ => cases hb
  · omega

example : (Ty.struct [.basic .string, .array .variant]).bracketed = true
    ∧ Child (.struct [.basic .string, .array .variant]) 2 1 (.array .variant) ∧ (Ty.array .variant).posDep = true :=
  ⟨rfl, .member [.basic .string] _ [], rfl⟩

/-- C31, disagreement. At the root, structures of variants are marked although they have the greatest alignment;
the same type inside of another one is not marked. -/
theorem root_struct_marked : (Ty.struct [.variant]).posDep = false ∧ ∃ s r, Sig.new (sb "(v)") = .ok s
    ∧ (flagsAt s 0).map (FlagSet.all · FLAG_DVAR_MISALIGNED) = some true
    ∧ Sig.new (sb "a(v)") = .ok r ∧ (flagsAt r 1).map (FlagSet.all · FLAG_DVAR_MISALIGNED) = some false :=
  ⟨rfl, ofTy (.struct [.variant]), ofTy (.array (.struct [.variant])), by decide, by decide, by decide, by decide⟩

/-- C31, disagreement. The flag documented as "the type is either a variant element, or it has a variant element
embedded" is not set on types with an embedded variant. -/
theorem variant_unmarked : ∃ s, Sig.new (sb "av") = .ok s
    ∧ (flagsAt s 0).map (FlagSet.all · FLAG_VARIANT) = some false
    ∧ (flagsAt s 1).map (FlagSet.all · FLAG_VARIANT) = some true :=
  ⟨ofTy (.array .variant), by decide, by decide, by decide⟩

/-- C31. What that flag does say: the type is a variant. -/
theorem variant_flag (t : Ty) (h : t.bytes.length ≤ maxLength) (s : Sig) (hs : Sig.new t.bytes = .ok s) (i : Nat)
    (u : Ty) (ho : Occ t i u) : ∃ f, flagsAt s i = some f ∧ (FlagSet.all f FLAG_VARIANT = true ↔ u = .variant) := by
  rw [maxLength_eq] at h
  rw [new_bytes t (by rwa [bytes_length] at h), Res.ok.injEq] at hs
  subst hs
  have he : ∀ k, FlagSet.all (mkF k u.el) FLAG_VARIANT = true ↔ u = .variant := by
    intro k
    rw [mkF_all _ _ (by decide)]
    cases u with
    | basic b => cases b <;> simp [Ty.el, Basic.el] <;> decide
    | variant => simp [Ty.el]; decide
    | _ => simp [Ty.el] <;> decide
  obtain ⟨o, p, ⟨hf, _, _⟩ | ⟨hf, _⟩⟩ := flagsAt_occ ho
  · exact ⟨_, hf, by rw [all_core (headN_core _ _ _ _) (by decide), he]⟩
  · exact ⟨_, hf, by rw [liftN, all_core (liftF_core _) (by decide), all_core (headN_core _ _ _ _) (by decide), he]⟩

example : Occ (.array (.struct [.basic .string, .maybe (.basic .unixFd)])) 3 (.maybe (.basic .unixFd)) :=
  .child (i := 1) (.child (i := 0) (.root _) (.array _)) (.member [.basic .string] _ [])
example : (Ty.struct [.basic .string, .maybe (.basic .unixFd)]).gvarAlign = 2
    ∧ (Ty.struct [.basic .string, .maybe (.basic .unixFd)]).handles = true := by decide

end Verif.Dbus
