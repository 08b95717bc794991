import Verif.Dbus.PropsDvar
import Verif.Dbus.PropsIter
/-! # Property theorems: signatures are the same however they were obtained (C97)

A signature is parsed from its text, or it is the sub-signature of another one, at any depth (`View`). -/
namespace Verif.Dbus
open Verif.Io

/-- Where a signature comes from: the nodes are those of a sub-type of a signature that was parsed. -/
theorem View.origin {s : Sig} {t : Ty} (h : View s t) : ∃ r T i, T.bytes.length ≤ maxLength ∧ Sig.new T.bytes = .ok r ∧ Occ T i t
    ∧ s.kind = r.kind ∧ ∀ j, j < t.size → s.nodes[j]? = r.nodes[i + j]? := by
  induction h with
  | @parsed s t h hs => exact ⟨s, t, 0, h, hs, .root t, rfl, fun j _ => by rw [Nat.zero_add]⟩
  | @sub s s' t u i hv ho hs ih =>
    obtain ⟨r, T, k, hT, hr, hT', hk, hn⟩ := ih
    obtain ⟨pre, n, post, hnd, hp, hc, hl⟩ := occ_nodes hv.rep ho
    have hb := occ_bound ho
    obtain ⟨s'', h1, h2, h3⟩ := occ_at hv.rep ho
    rw [h1, Option.some.injEq, Option.some.injEq] at hs
    subst hs
    refine ⟨r, T, k + i, hT, hr, occ_trans hT' ho, h2.trans hk, fun j hj => ?_⟩
    have e : s''.nodes = (s.nodes.drop i).take u.size := by
      unfold Sig.at_ at h1
      have hni : s.nodes[i]? = some n := by
        rw [hnd, List.getElem?_append_right (by omega), hp, Nat.sub_self]; rfl
      rw [hv.rep.node_at, hni] at h1
      simp only [Option.bind_eq_bind, Option.bind_some] at h1
      split at h1
      · cases h1
      · rw [if_pos (by rw [hv.rep.length, hl]; exact hb), Option.some.injEq, Option.some.injEq] at h1
        rw [← h1, ← hl]
    rw [e, List.getElem?_take_of_lt hj, List.getElem?_drop, hn (i + j) (by omega), Nat.add_assoc]

theorem flagsAt_nodes {s : Sig} {t : Ty} (h : Rep s t) (j : Nat) : flagsAt s j = (s.nodes[j]?).map (·.flags) := by
  unfold flagsAt Cursor.flags_at
  simp only [h.node_at, Option.bind_eq_bind, Option.bind_some]
  rfl

theorem View.flags_origin {s : Sig} {t : Ty} (h : View s t) : ∃ r T i, T.bytes.length ≤ maxLength ∧ Sig.new T.bytes = .ok r ∧ Occ T i t
    ∧ ∀ j u, Occ t j u → flagsAt s j = flagsAt r (i + j) := by
  obtain ⟨r, T, i, hT, hr, ho, hk, hn⟩ := h.origin
  refine ⟨r, T, i, hT, hr, ho, fun j u hu => ?_⟩
  have hb := occ_bound hu
  have hp := size_pos u
  rw [flagsAt_nodes h.rep, flagsAt_nodes (View.parsed hT hr).rep, hn j (by omega)]

theorem flagsAt_sub {s s' : Sig} {t u : Ty} {i : Nat} (h : View s t) (ho : Occ t i u) (hs : s.at_ i = some (some s')) :
    flagsAt s' 0 = flagsAt s i := by
  have hv := View.sub h ho hs
  obtain ⟨pre, n, post, hnd, hp, hc, hl⟩ := occ_nodes h.rep ho
  have hb := occ_bound ho
  have hni : s.nodes[i]? = some n := by
    rw [hnd, List.getElem?_append_right (by omega), hp, Nat.sub_self]; rfl
  have e : s'.nodes = (s.nodes.drop i).take u.size := by
    unfold Sig.at_ at hs
    rw [h.rep.node_at, hni] at hs
    simp only [Option.bind_eq_bind, Option.bind_some] at hs
    split at hs
    · cases hs
    · rw [if_pos (by rw [h.rep.length, hl]; exact hb), Option.some.injEq, Option.some.injEq] at hs
      rw [← hs, ← hl]
  rw [flagsAt_nodes h.rep, flagsAt_nodes hv.rep, e, List.getElem?_take_of_lt (size_pos u), List.getElem?_drop, Nat.add_zero]

/-- C97. Two signatures, each of them parsed or taken out of another one at any depth: they are equal exactly if they are of
the same type, their order is the lexicographic order of their texts, and they feed the same values to a hasher
exactly if they are equal. -/
theorem any_compare {s r : Sig} {t u : Ty} (h : View s t) (h' : View r u) :
    s.eq r = some (decide (t.bytes = u.bytes)) ∧ s.cmp r = some (compareOfLessAndEq t.bytes u.bytes)
    ∧ (s.hashInput = r.hashInput ↔ t.bytes = u.bytes) ∧ (t.bytes = u.bytes ↔ t = u) := by
  have e1 := h.rep.elements
  have e2 := h'.rep.elements
  have hiff : t.els = u.els ↔ t.bytes = u.bytes := by
    constructor
    · intro h; rw [← els_code, ← els_code, h]
    · intro h; rw [bytes_inj h]
  refine ⟨?_, ?_, ?_, bytes_inj, fun h => by rw [h]⟩
  · unfold Sig.eq
    rw [e1, e2]
    simp only [Option.bind_eq_bind, Option.bind_some, Option.some.injEq]
    rw [Bool.eq_iff_iff, beq_iff_eq, decide_eq_true_iff]
    exact hiff
  · unfold Sig.cmp
    rw [e1, e2]
    simp only [Option.bind_eq_bind, Option.bind_some, els_code]
  · unfold Sig.hashInput
    rw [e1, e2, Option.map_some, Option.map_some, Option.some.injEq]
    constructor
    · intro h; exact hiff.mp (map_inj _ (fun _ _ => id_inj) _ _ h)
    · intro h; rw [hiff.mpr h]

/-- C97. A signature taken out of another one and parsing its text give signatures that compare as equal. -/
theorem sub_reparsed {s : Sig} {t : Ty} (h : View s t) : ∃ bs r, s.text = some bs ∧ Sig.new bs = .ok r ∧ s.eq r = some true
    ∧ s.cmp r = some .eq ∧ s.hashInput = r.hashInput := by
  have hl : t.bytes.length ≤ maxLength := by
    obtain ⟨r, T, i, hT, -, ho, -⟩ := h.origin
    have := occ_bound ho
    rw [bytes_length] at hT ⊢
    omega
  obtain ⟨r, hr⟩ := (accepts_iff t.bytes hl).mpr ⟨t, rfl⟩
  obtain ⟨h1, h2, h3, -⟩ := any_compare h (.parsed hl hr)
  refine ⟨t.bytes, r, h.rep.text, hr, by rw [h1]; simp, ?_, h3.mpr rfl⟩
  rw [h2]
  unfold compareOfLessAndEq
  rw [if_neg (List.lt_irrefl _), if_pos rfl]

/-- C97. Two signatures of the same type, however obtained: whatever a cursor can be asked has the same answer, at every
index. -/
theorem any_cursor {s r : Sig} {t : Ty} (h : View s t) (h' : View r t) (i : Nat) :
    Cursor.element ⟨s, i⟩ = Cursor.element ⟨r, i⟩ ∧ Cursor.idx_up ⟨s, i⟩ = Cursor.idx_up ⟨r, i⟩
    ∧ Cursor.idx_down ⟨s, i⟩ = Cursor.idx_down ⟨r, i⟩ ∧ Cursor.idx_step ⟨s, i⟩ = Cursor.idx_step ⟨r, i⟩
    ∧ Cursor.position ⟨s, i⟩ = Cursor.position ⟨r, i⟩ ∧ Cursor.length ⟨s, i⟩ = Cursor.length ⟨r, i⟩ := by
  have hel : Cursor.element ⟨s, i⟩ = Cursor.element ⟨r, i⟩ := by
    unfold Cursor.element
    rw [h.rep.element_at, h'.rep.element_at]
  refine ⟨hel, ?_⟩
  rcases Nat.lt_or_ge i t.bytes.length with hi | hi
  · rcases every_index t i hi with ⟨u, ho⟩ | ⟨u, j, ho, hb, rfl⟩
    · have d1 := (move_down h ho).1
      have d2 := (move_down h' ho).1
      cases ho with
      | root =>
        obtain ⟨-, a1, a2, a3, a4⟩ := at_root h
        obtain ⟨-, b1, b2, b3, b4⟩ := at_root h'
        rw [a1, a2, a3, a4, b1, b2, b3, b4, d1, d2]
        exact ⟨rfl, rfl, rfl, rfl, rfl⟩
      | child ho hc =>
        obtain ⟨a1, -, a2, a3, a4, -⟩ := at_member h ho hc
        obtain ⟨b1, -, b2, b3, b4, -⟩ := at_member h' ho hc
        rw [a1, a2, a3, a4, b1, b2, b3, b4, d1, d2]
        exact ⟨rfl, rfl, rfl, rfl, rfl⟩
    · obtain ⟨a1, a2, a3, a4, a5, -⟩ := at_close h ho hb
      obtain ⟨b1, b2, b3, b4, b5, -⟩ := at_close h' ho hb
      rw [a1, a2, a3, a4, a5, b1, b2, b3, b4, b5]
      exact ⟨rfl, rfl, rfl, rfl, rfl⟩
  · obtain ⟨-, a1, a2, a3, a4, a5⟩ := at_end h hi
    obtain ⟨-, b1, b2, b3, b4, b5⟩ := at_end h' hi
    rw [a1, a2, a3, a4, a5, b1, b2, b3, b4, b5]
    exact ⟨rfl, rfl, rfl, rfl, rfl⟩

/-- C97. The summaries of C31 hold for every signature, however obtained, and each of its sub-types. -/
theorem any_summary {s : Sig} {t : Ty} (h : View s t) (i : Nat) (u : Ty) (ho : Occ t i u) : ∃ f, flagsAt s i = some f
      ∧ FlagSet.all f FLAG_DYNAMIC = u.dynamic ∧ FlagSet.all f FLAG_HANDLE = u.handles
      ∧ FlagSet.gvarExp f = u.gvarAlign ∧ FlagSet.dvarExp f = u.dvarAlign
      ∧ FlagSet.all f FLAG_DICT = u.entryLike ∧ (FlagSet.all f FLAG_DVAR_UNSUPPORTED = true ↔ 'm' ∈ u.text)
      ∧ (FlagSet.all f FLAG_VARIANT = true ↔ u = .variant) := by
  obtain ⟨r, T, k, hT, hr, hk, he⟩ := h.flags_origin
  rw [he i u ho]
  have hoo := occ_trans hk ho
  obtain ⟨f, hf, h1, h2, h3, h4, h5⟩ := summary T hT r hr _ u hoo
  obtain ⟨g, hg, h6⟩ := unsupported_partial T hT r hr _ u hoo
  obtain ⟨g', hg', h7⟩ := variant_flag T hT r hr _ u hoo
  rw [hf, Option.some.injEq] at hg hg'
  subst hg
  subst hg'
  exact ⟨f, hf, h1, h2, h3, h4, h5, h6, h7⟩

/-- C97. So does what C31 says about position dependent types, with the same exception, structures and dict entries at the
root of the signature that was parsed. -/
theorem any_misaligned {s : Sig} {t : Ty} (h : View s t) (i : Nat) (u : Ty) (ho : Occ t i u) :
    (0 < i ∨ u.bracketed = false → ∃ f, flagsAt s i = some f ∧ FlagSet.all f FLAG_DVAR_MISALIGNED = u.posDep)
    ∧ ∀ s', 0 < i → Cursor.sigAt ⟨s, i⟩ = some (some s') →
      ∃ f, flagsAt s' 0 = some f ∧ FlagSet.all f FLAG_DVAR_MISALIGNED = u.posDep := by
  have key : ∀ {s : Sig} {t : Ty}, View s t → ∀ i u, Occ t i u → 0 < i ∨ u.bracketed = false →
      ∃ f, flagsAt s i = some f ∧ FlagSet.all f FLAG_DVAR_MISALIGNED = u.posDep := by
    intro s t h i u ho hi
    obtain ⟨r, T, k, hT, hr, hk, he⟩ := h.flags_origin
    rw [he i u ho]
    exact misaligned_partial T hT r hr _ u (occ_trans hk ho) (hi.imp (by omega) id)
  refine ⟨key h i u ho, fun s' hi hs => ?_⟩
  have hf := flagsAt_sub h ho hs
  rw [hf]
  exact key h i u ho (.inl hi)

/-- C97, disagreement. Equal signatures need not agree about everything: the one taken out of a longer signature has
another length, and the flag for position dependent types can differ. -/
theorem equal_but_different :
    (∃ s r : Sig, View s (.basic .uint16) ∧ View r (.basic .uint16) ∧ s.eq r = some true ∧ s.len = some 6 ∧ r.len = some 1)
    ∧ ∃ s r : Sig, View s (.struct [.variant]) ∧ View r (.struct [.variant]) ∧ s.eq r = some true
      ∧ (flagsAt s 0).map (FlagSet.all · FLAG_DVAR_MISALIGNED) = some false
      ∧ (flagsAt r 0).map (FlagSet.all · FLAG_DVAR_MISALIGNED) = some true := by
  have parsed : ∀ t : Ty, t.size ≤ 40 → View (ofTy t) t := fun t ht =>
    .parsed (by rw [bytes_length]; exact Nat.le_trans ht (by decide)) (new_bytes _ (Nat.le_trans ht (by decide)))
  constructor
  · have hv := parsed (.struct (List.replicate 30 (.basic .uint16))) (by decide)
    have ho : Occ (.struct (List.replicate 30 (.basic .uint16))) 1 (.basic .uint16) :=
      .child (i := 0) (.root _) (.member [] (.basic .uint16) (List.replicate 29 (.basic .uint16)))
    obtain ⟨s, hs, hk, -⟩ := occ_at hv.rep ho
    have v1 := View.sub hv ho hs
    have v2 := parsed (.basic .uint16) (by decide)
    refine ⟨s, _, v1, v2, by rw [(any_compare v1 v2).1]; simp, ?_, by decide⟩
    rw [v1.rep.len, hk]
    decide
  · have hv := parsed (.array (.struct [.variant])) (by decide)
    have ho : Occ (.array (.struct [.variant])) 1 (.struct [.variant]) := .child (i := 0) (.root _) (.array _)
    obtain ⟨s, hs, hk, -⟩ := occ_at hv.rep ho
    have v1 := View.sub hv ho hs
    have v2 := parsed (.struct [.variant]) (by decide)
    refine ⟨s, _, v1, v2, by rw [(any_compare v1 v2).1]; simp, ?_, by decide⟩
    rw [flagsAt_sub hv ho hs]
    decide

/-- C97, disagreement. A signature taken out of one of 32 codes or more cannot be used for a variant, however short it
is, while the equal one that was parsed can be: the call panics on writers that do not refuse anything, and is
never accepted on any. -/
theorem taken_variant {σ : Type} {I : WriteImpl σ} (bs : List UInt8) (h : bs.length ≤ maxLength) (h8 : 32 ≤ bs.length) (r s : Sig)
    (hr : Sig.new bs = .ok r) (hw : Within r s) (e : Enc) (w : Writer σ) (he : e.cursor.element = some (some .variant)) :
    (∀ e' w', e.variant I w s ≠ some (e', w', .ok))
    ∧ ∃ t, View s t ∧ (43 ≤ t.bytes.length → e.variant I w s = some (e, w, .brk (some .dataOverflow)))
      ∧ (t.bytes.length ≤ 42 → Willing I → e.level.idx + 256 ≤ usizeMax → e.variant I w s = none) := by
  obtain ⟨T, rfl⟩ := (accepts_iff bs h).mp ⟨r, hr⟩
  obtain ⟨t, ht, hk⟩ := within_rep hw (View.parsed h hr)
  have hk64 : r.kind = .node64 := by
    rw [maxLength_eq, bytes_length] at h
    rw [new_bytes T h, Res.ok.injEq] at hr
    rw [← hr]
    simp only [ofTy]; unfold kindFor; rw [if_neg]
    have : Kind.node8.lengthMax = 31 := by decide
    rw [bytes_length] at h8
    omega
  rw [hk64] at hk
  have ho : 43 ≤ t.size → e.variant I w s = some (e, w, .brk (some .dataOverflow)) := by
    intro h43
    have hl : s.len = some (6 * t.size) := by rw [ht.rep.len, hk]; rfl
    unfold Enc.variant
    rw [expect_ok he, hl]
    simp only
    rw [if_neg (by omega)]
  refine ⟨?_, t, ht, ?_, ?_⟩
  · by_cases h42 : t.size ≤ 42
    · exact (long_variant_ne ht.rep hk e w he (by omega)).1
    · intro e' w'
      rw [ho (by omega)]
      intro hx; cases hx
  · rw [bytes_length]; exact ho
  · rw [bytes_length]; exact fun h42 => (long_variant_ne ht.rep hk e w he (by omega)).2

/-- The signatures `t`, taken out of one of 32 codes, and parsed: they are equal, and the first makes an encoder panic. -/
example : (match Sig.new (sb "v"), Sig.new (wide 30), Sig.new (sb "t") with
    | .ok v, .ok r, .ok q =>
      match Enc.with_ v false, r.at_ 1 with
      | some e, some (some s) =>
        some (s.eq q, (e.variant vecWrite (vecOf []) s).map (·.2.2), (e.variant vecWrite (vecOf []) q).map (·.2.2))
      | _, _ => none
    | _, _, _ => none) = some (some true, none, some .ok) := by decide +kernel

/-- Signatures that were taken out and parsed. -/
example : ∃ s r : Sig, View s (.struct [.basic .string, .variant]) ∧ View r (.struct [.basic .string, .variant])
    ∧ (ofTy (.array (.array (.struct [.basic .string, .variant])))).at_ 2 = some (some s)
    ∧ Sig.new (sb "(sv)") = .ok r := by
  have hv : View (ofTy (.array (.array (.struct [.basic .string, .variant])))) _ :=
    .parsed (by decide) (new_bytes _ (by decide))
  have ho : Occ (.array (.array (.struct [.basic .string, .variant]))) 2 (.struct [.basic .string, .variant]) :=
    .child (i := 1) (.child (i := 0) (.root _) (.array _)) (.array _)
  obtain ⟨s, hs, -⟩ := occ_at hv.rep ho
  exact ⟨s, ofTy (.struct [.basic .string, .variant]), .sub hv ho hs, .parsed (by decide) (new_bytes _ (by decide)), hs,
    by decide⟩

end Verif.Dbus
