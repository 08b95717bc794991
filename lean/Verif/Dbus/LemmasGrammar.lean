import Verif.Dbus.LemmasParse
/-! # The parser on trees accepts the grammar -/
namespace Verif.Dbus

/-- Bytes of several types. -/
def bytesOf (ts : List Ty) : List UInt8 := (Ty.texts ts).map Char.toUInt8

@[simp] theorem bytesOf_nil : bytesOf [] = [] := by simp [bytesOf, Ty.texts]
@[simp] theorem bytesOf_cons (t : Ty) (ts : List Ty) : bytesOf (t :: ts) = t.bytes ++ bytesOf ts := by
  simp [bytesOf, Ty.texts, Ty.bytes]
@[simp] theorem bytesOf_append (as bs : List Ty) : bytesOf (as ++ bs) = bytesOf as ++ bytesOf bs := by
  induction as with
  | nil => simp
  | cons a as ih => simp [ih]

theorem bytes_basic (b : Basic) : (Ty.basic b).bytes = [b.el.code] := by cases b <;> decide
theorem bytes_variant : Ty.variant.bytes = [Element.variant.code] := by decide
theorem bytes_array (t : Ty) : (Ty.array t).bytes = Element.array.code :: t.bytes := by
  have : Element.array.code = 'a'.toUInt8 := by decide
  simp [Ty.bytes, Ty.text, this]
theorem bytes_maybe (t : Ty) : (Ty.maybe t).bytes = Element.maybe.code :: t.bytes := by
  have : Element.maybe.code = 'm'.toUInt8 := by decide
  simp [Ty.bytes, Ty.text, this]
theorem bytes_struct (ts : List Ty) : (Ty.struct ts).bytes
    = Element.structOpen.code :: (bytesOf ts ++ [Element.structClose.code]) := by
  have : Element.structOpen.code = '('.toUInt8 ∧ Element.structClose.code = ')'.toUInt8 := by decide
  simp [Ty.bytes, Ty.text, this, bytesOf]
theorem bytes_dict (b : Basic) (v : Ty) : (Ty.dict b v).bytes
    = Element.dictOpen.code :: (bytesOf [.basic b, v] ++ [Element.dictClose.code]) := by
  have : Element.dictOpen.code = '{'.toUInt8 ∧ Element.dictClose.code = '}'.toUInt8 := by decide
  simp [Ty.bytes, Ty.text, this, bytesOf, Ty.texts]

theorem bytes_length (t : Ty) : t.bytes.length = t.size := by simp [Ty.bytes, Ty.size]
theorem bytesOf_length (ts : List Ty) : (bytesOf ts).length = sizes ts := by simp [bytesOf, sizes]

theorem code_ascii (e : Element) : ¬ e.code.toNat ≥ 128 := by cases e <;> decide
theorem fromCode_code (e : Element) : Element.fromCode e.code = some e := by cases e <;> decide

theorem code_of_fromCode {c : UInt8} {e : Element} (h : Element.fromCode c = some e) : c = e.code := by
  have hc : c = UInt8.ofNat c.toNat := by simp
  have : ∀ n : Fin 256, ((Element.fromCode (UInt8.ofNat n.val)).all fun e => UInt8.ofNat n.val == e.code) = true := by
    decide +kernel
  have := this ⟨c.toNat, c.toNat_lt⟩
  simpa only [← hc, h, Option.all_some, beq_iff_eq] using this

/-- One byte of a valid element. -/
theorem aloop_code (total : Nat) (e : Element) (rest : List UInt8) (i : Nat) (z : List Frame) :
    aloop total (e.code :: rest) i z = (match astep i z e with
      | .error err => .error err
      | .ok (.inr z) => aloop total rest (i + 1) z
      | .ok (.inl t) => if i + 1 ≠ total then .error (.signatureSequence (i + 1)) else .ok t) := by
  rw [aloop, if_neg (code_ascii e), fromCode_code]
  rfl

/-- Continuing after a complete type. -/
def cont (total : Nat) (rest : List UInt8) (i : Nat) : Ty ⊕ List Frame → Except SigError Ty
  | .inr z => aloop total rest i z
  | .inl t => if i ≠ total then .error (.signatureSequence i) else .ok t

theorem aloop_step {total : Nat} {e : Element} {rest : List UInt8} {i : Nat} {z : List Frame} {o : Ty ⊕ List Frame}
    (h : astep i z e = .ok o) : aloop total (e.code :: rest) i z = cont total rest (i + 1) o := by
  rw [aloop_code, h]
  cases o <;> rfl

theorem role_basic (b : Basic) : role b.el = .leaf (.basic b) := by cases b <;> rfl

mutual
theorem aloop_ty (total : Nat) : (t : Ty) → (rest : List UInt8) → (i : Nat) → (z : List Frame) →
    aloop total (t.bytes ++ rest) i z = cont total rest (i + t.size) (complete z t)
  | .basic b, rest, i, z => by
    rw [bytes_basic, List.singleton_append, aloop_step (o := complete z (.basic b)), size_basic]
    simp [astep, role_basic]
  | .variant, rest, i, z => by
    rw [bytes_variant, List.singleton_append, aloop_step (o := complete z .variant), size_variant]
    simp [astep, role]
  | .array t, rest, i, z => by
    rw [bytes_array, List.cons_append, aloop_step (o := .inr (.bound false :: z)) (by simp [astep, role]), cont,
      aloop_ty total t, size_array]
    simp only [complete]
    congr 1; omega
  | .maybe t, rest, i, z => by
    rw [bytes_maybe, List.cons_append, aloop_step (o := .inr (.bound true :: z)) (by simp [astep, role]), cont,
      aloop_ty total t, size_maybe]
    simp only [complete]
    congr 1; omega
  | .struct ts, rest, i, z => by
    rw [bytes_struct, List.cons_append, aloop_step (o := .inr (.unb false [] :: z)) (by simp [astep, role]), cont,
      List.append_assoc, aloop_tys total ts, List.nil_append, List.singleton_append,
      aloop_step (o := complete z (.struct ts)), size_struct]
    · congr 1; omega
    · simp [astep, role, aclose]
  | .dict b v, rest, i, z => by
    have h1 := aloop_ty total v
    rw [bytes_dict, List.cons_append, aloop_step (o := .inr (.unb true [] :: z)) (by simp [astep, role]), cont,
      bytesOf_cons, bytesOf_cons, bytesOf_nil, bytes_basic, List.append_nil, List.append_assoc, List.append_assoc,
      List.singleton_append, aloop_step (o := .inr (.unb true [.basic b] :: z)) (by simp [astep, role_basic, complete]),
      cont, h1]
    rw [show complete (.unb true [.basic b] :: z) v = .inr (.unb true [.basic b, v] :: z) from rfl, cont,
      List.singleton_append, aloop_step (o := complete z (.dict b v)), size_dict]
    · congr 1; omega
    · simp [astep, role, aclose]
theorem aloop_tys (total : Nat) : (ts : List Ty) → (rest : List UInt8) → (i : Nat) → (d : Bool) → (done : List Ty) →
    (z : List Frame) → aloop total (bytesOf ts ++ rest) i (.unb d done :: z)
      = aloop total rest (i + sizes ts) (.unb d (done ++ ts) :: z)
  | [], rest, i, d, done, z => by simp
  | t :: ts, rest, i, d, done, z => by
    rw [bytesOf_cons, List.append_assoc, aloop_ty total t]
    simp only [complete, cont]
    rw [aloop_tys total ts]
    simp only [sizes_cons, List.append_assoc, List.singleton_append]
    congr 1; omega
end

/-- The bytes of an unfinished type. -/
def zbytes : List Frame → List UInt8
  | [] => []
  | .bound m :: z => zbytes z ++ [(Frame.bound m).el.code]
  | .unb d done :: z => zbytes z ++ ((Frame.unb d []).el.code :: bytesOf done)

def obytes : Ty ⊕ List Frame → List UInt8
  | .inl t => t.bytes
  | .inr z => zbytes z

theorem zbytes_length : (z : List Frame) → (zbytes z).length = zlen z
  | [] => rfl
  | .bound m :: z => by simp [zbytes, zlen, Frame.size, zbytes_length z]
  | .unb d done :: z => by simp [zbytes, zlen, Frame.size, zbytes_length z, bytesOf_length]; omega

theorem complete_bytes (z : List Frame) : ∀ t, obytes (complete z t) = zbytes z ++ t.bytes := by
  induction z with
  | nil => intro t; simp [complete, obytes, zbytes]
  | cons f z ih =>
    intro t
    match f with
    | .bound false => simp [complete, ih, zbytes, bytes_array, Frame.el]
    | .bound true => simp [complete, ih, zbytes, bytes_maybe, Frame.el]
    | .unb d done => simp [complete, obytes, zbytes]

theorem closed_bytes {d : Bool} {done : List Ty} {t : Ty} (h : closed d done = some t) :
    t.bytes = (opnEl d).code :: (bytesOf done ++ [(clsEl d).code]) := by
  cases d with
  | false => simp [closed] at h; subst h; rw [bytes_struct]; rfl
  | true =>
    simp only [closed, if_true] at h
    split at h
    · simp only [Option.some.injEq] at h; subst h; rw [bytes_dict]; rfl
    · cases h

theorem astep_bytes {i : Nat} {z : List Frame} {e : Element} {o : Ty ⊕ List Frame} (h : astep i z e = .ok o) :
    obytes o = zbytes z ++ [e.code] := by
  unfold astep at h
  have hr := role_spec e
  cases hrole : role e with
  | leaf t =>
    simp only [hrole, Except.ok.injEq] at h
    subst h
    rw [complete_bytes]
    cases e <;> simp [role] at hrole <;> subst hrole <;> simp [bytes_basic, bytes_variant, Basic.el]
  | opn f =>
    simp only [hrole, Except.ok.injEq] at h
    subst h
    cases e <;> simp [role] at hrole <;> subst hrole <;> simp [obytes, zbytes, Frame.el]
  | cls d =>
    simp only [hrole] at h hr
    obtain ⟨rfl, _, _⟩ := hr
    match z with
    | [] => simp [aclose] at h
    | .bound m :: z => simp [aclose] at h
    | .unb d' done :: z =>
      by_cases hd : d' = d
      · subst hd
        rw [aclose_closed] at h
        cases hc : closed d' done with
        | none => simp [hc] at h
        | some t =>
          simp only [hc, Except.ok.injEq] at h
          subst h
          rw [complete_bytes, closed_bytes hc]
          have : (Frame.unb d' []).el = opnEl d' := by cases d' <;> rfl
          simp [zbytes, this]
      · simp [aclose, hd] at h

/-- Only types are accepted. -/
theorem aloop_sound (total : Nat) : ∀ (es : List UInt8) (i : Nat) (z : List Frame) (t : Ty),
    i + es.length = total → aloop total es i z = .ok t → zbytes z ++ es = t.bytes := by
  intro es
  induction es with
  | nil =>
    intro i z t _ h
    cases z <;> simp [aloop] at h
  | cons c es ih =>
    intro i z t hi h
    rw [aloop] at h
    split at h
    · cases h
    · cases hc : Element.fromCode c with
      | none => simp [hc] at h
      | some e =>
        simp only [hc] at h
        have hcode := code_of_fromCode hc
        simp only [List.length_cons] at hi
        cases hs : astep i z e with
        | error x => simp [hs] at h
        | ok o =>
          have hb := astep_bytes hs
          cases o with
          | inl t' =>
            simp only [hs] at h
            split at h
            · cases h
            · rename_i htot
              simp only [Except.ok.injEq] at h
              subst h
              have : es = [] := List.eq_nil_of_length_eq_zero (by omega)
              subst this
              rw [hcode]
              exact hb.symm
          | inr z' =>
            simp only [hs] at h
            have := ih (i + 1) z' t (by omega) h
            rw [← this, show zbytes z' = zbytes z ++ [e.code] from hb, hcode]
            simp

theorem aloop_complete (t : Ty) : aloop t.bytes.length t.bytes 0 [] = .ok t := by
  have := aloop_ty t.bytes.length t [] 0 []
  rw [List.append_nil] at this
  rw [this]
  simp [complete, cont, bytes_length]

theorem aloop_iff (bs : List UInt8) (t : Ty) : aloop bs.length bs 0 [] = .ok t ↔ bs = t.bytes := by
  constructor
  · intro h; exact aloop_sound _ bs 0 [] t (by simp) h
  · intro h; subst h; exact aloop_complete t

/-- Signatures determine types. -/
theorem bytes_inj {t u : Ty} (h : t.bytes = u.bytes) : t = u := by
  have h1 := aloop_complete t
  rw [h, aloop_complete u] at h1
  exact (Except.ok.inj h1).symm

/-- A complete type at the beginning. -/
theorem aloop_prefix (t : Ty) (rest : List UInt8) (h : rest ≠ []) :
    aloop (t.bytes ++ rest).length (t.bytes ++ rest) 0 [] = .error (.signatureSequence t.size) := by
  rw [aloop_ty]
  have : rest.length ≠ 0 := fun e => h (List.eq_nil_of_length_eq_zero e)
  simp [complete, cont, bytes_length, this]

end Verif.Dbus
