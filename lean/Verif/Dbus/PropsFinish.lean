import Verif.Dbus.LemmasFinish
/-! # C140: encoders have no dead ends -/
namespace Verif.Dbus.Finish
open Verif.Dbus Verif.Io

variable {σ : Type} {I : WriteImpl σ} {s : Sig} {t : Ty}

/-- C140. After every history of calls, whether they were accepted or rejected and whichever values were written: if
there are calls for everything the type consists of, as well as the types of the variants that were opened, and if
there is enough room and what is missing does not make an array too long, then there are calls that are all accepted
and complete the value, which is then committed. It consists of what was written before, with more values behind it. -/
theorem no_dead_end (hE : Exact I) (hs : View s t) (ht : Callable t) (be : Bool) (w : Writer σ) (ops : List Op) (ho : Op.sanes ops)
    (hp : ∀ op ∈ ops, Plain op) :
    ∃ e e₁ w₁ outs a, Enc.with_ s be = some e ∧ Op.runs I ops e w = some (e₁, w₁, outs)
      ∧ DoesAll (Blocked I) be [] (St.new t) ops outs a
      ∧ (¬ Blocked I (enough be a.parts) → enough be a.parts < 2 ^ 32 → ∃ (rest : List Op) (e₂ : Enc) (w₂ : Writer _) (outs₂ : List Out) (v : Val),
          Op.runs I (rest ++ [.commit]) e₁ w₁ = some (e₂, w₂, outs₂) ∧ Out.goods outs₂
          ∧ (∃ mores, closeAll a.parts mores = some v) ∧ v.has t ∧ v.fits be 0 ∧ Begins w₂.mem (v.marshal be 0) ∧ Calls I w.st [(v.marshal be 0).length] w₂.st) := by
  obtain ⟨e, he, hsim⟩ := start_sim (I := I) hs be w
  obtain ⟨e₁, w₁, outs, a, hr, hd, hb⟩ := runs_sim hE ops ho hsim
  refine ⟨e, e₁, w₁, outs, a, he, hr, hd, fun hroom h32 => ?_⟩
  obtain ⟨hso, haw⟩ := doesAll_sound hp (a := St.new t) ⟨rfl, by unfold Callables Callables; exact ⟨ht, trivial⟩⟩ trivial hd
  obtain ⟨parts, c⟩ := a
  cases parts with
  | nil => exact hso.elim
  | cons p ps =>
    obtain ⟨rest, hsane, hfin⟩ := finish (R := Blocked I) (be := be) (pre := []) (enough be (p :: ps))
      (fun n hn hbl => hroom (hbl.mono hn)) h32 c ps p hso haw (Nat.le_refl _)
    obtain ⟨e₂, w₂, outs₂, b, hr₂, hd₂, hb₂⟩ := runs_sim hE (rest ++ [.commit]) (sanes_append hsane commit_sane) hb
    obtain ⟨hg, q, rfl, hq⟩ := hfin _ _ hd₂
    obtain ⟨t₂, htr⟩ := hb₂.inv.track
    have htt : t₂ = t := by
      obtain ⟨_, tys, todo, vals, rfl, e2, _⟩ := htr.single
      have := hb₂.root
      simp only [rootTys] at this
      rw [this] at e2
      simpa using e2.symm
    subst htt
    obtain ⟨_, _, _, p', hp', hf⟩ := hb₂.old rfl
    cases hp'
    obtain ⟨v, hv, hhas, hfit, hbytes⟩ := htr.final hf
    obtain ⟨mores, hmo⟩ := hq v (by rw [hv])
    have h1 := hb₂.inv.holds
    have h2 := hb₂.log
    rw [hb₂.inv.idx] at h2
    simp only [hbytes, List.nil_append, List.length_nil, and_self, if_true, known_length] at h1 h2
    exact ⟨rest, e₂, w₂, outs₂, v, hr₂, hg, ⟨mores, hmo⟩, hhas, hfit, holds_begins h1, h2⟩

/-- C140. Vectors have enough room: an encoder with a vector can always be completed, unless arrays get too long. -/
theorem no_dead_end_vec (hs : View s t) (ht : Callable t) (be : Bool) (ops : List Op) (ho : Op.sanes ops) (hp : ∀ op ∈ ops, Plain op) :
    ∃ e e₁ w₁ outs a, Enc.with_ s be = some e ∧ Op.runs vecWrite ops e (vecOf []) = some (e₁, w₁, outs)
      ∧ DoesAll (Blocked vecWrite) be [] (St.new t) ops outs a
      ∧ (enough be a.parts < 2 ^ 32 → ∃ (rest : List Op) (e₂ : Enc) (w₂ : Writer _) (outs₂ : List Out) (v : Val),
          Op.runs vecWrite (rest ++ [.commit]) e₁ w₁ = some (e₂, w₂, outs₂) ∧ Out.goods outs₂
          ∧ (∃ mores, closeAll a.parts mores = some v) ∧ v.has t ∧ vecBytes w₂ = some (v.marshal be 0)) := by
  obtain ⟨e, e₁, w₁, outs, a, h1, h2, h3, h4⟩ := no_dead_end vec_write.1 hs ht be (vecOf []) ops ho hp
  refine ⟨e, e₁, w₁, outs, a, h1, h2, h3, fun h32 => ?_⟩
  obtain ⟨rest, e₂, w₂, outs₂, v, k1, k2, k0, k3, k4, k5, k6⟩ := h4 (vec_room (Nat.le_trans (Nat.le_of_lt h32) (by decide))) h32
  refine ⟨rest, e₂, w₂, outs₂, v, k1, k2, k0, k3, ?_⟩
  have := vec_calls k6
  simp [vecOf] at this
  unfold vecBytes
  rw [this]
  exact mapM_range _ _ fun i hi => k5 i hi

/-- An array of structures, one of which is being written: the structure needs a string and a variant. A call was
rejected, and a sub-encoder dropped. -/
example : ∃ (t : Ty) (ops : List Op) (a : St) (outs : List Out), Callable t ∧ Op.sanes ops ∧ (∀ op ∈ ops, Plain op) ∧ t.bytes.length ≤ maxLength
    ∧ DoesAll (fun _ => False) false [] (St.new t) ops outs a ∧ ¬ Out.goods outs ∧ a.parts.length = 3 ∧ enough false a.parts = 140 := by
  refine ⟨.array (.struct [.basic .uint32, .basic .string, .variant]), [.array, .structure, .u16 7, .u32 9],
    ⟨[⟨.struct, [.u32 9], [.basic .uint32], [.basic .string, .variant]⟩,
      ⟨.array (.struct [.basic .uint32, .basic .string, .variant]), [], [], []⟩,
      ⟨.root, [], [], [.array (.struct [.basic .uint32, .basic .string, .variant])]⟩], false⟩,
    [.res .ok, .res .ok, .res (.brk (some .mismatch)), .res .ok], ?_, ?_, ?_, by decide, ?_, ?_, rfl, ?_⟩
  · simp [Callable, Callables, known]
  · simp [Op.sanes, Op.sane]
  · simp [Plain]
  · refine .cons _ _ _ _ _ _ _ _ (.value _ _ _ _ _ _ _ rfl rfl id (.array _ _)) ?_
    refine .cons _ _ _ _ _ _ _ _ (.value _ _ _ _ _ _ _ rfl rfl id (.struct _ _)) ?_
    refine .cons _ _ _ _ _ _ _ _ (.mismatch _ _ _ _ _ rfl fun u hu => ?_) ?_
    · cases hu; rfl
    · exact .cons _ _ _ _ _ _ _ _ (.value _ _ _ _ _ _ _ rfl rfl id (.u32 _ _ _ _)) (.nil _ _)
  · simp [Out.goods, Out.good]
  · decide +kernel

/-- C140. The other types: for some part which must be there is no call. Nothing is ever committed. -/
theorem never (hE : Exact I) (hs : View s t) (ht : ¬ Inhabited t) (be : Bool) (w : Writer σ) (ops : List Op) (ho : Op.sanes ops)
    {e e' : Enc} {w' : Writer σ} {outs : List Out} (he : Enc.with_ s be = some e) (hr : Op.runs I ops e w = some (e', w', outs)) :
    ¬ ∃ i : Nat, ops[i]? = some .commit ∧ outs[i]? = some (.res .ok) := by
  intro hc
  obtain ⟨v, hv, _⟩ := committed_value hE hs be w ops ho he hr hc
  exact ht (has_inhabited v t hv)

/-- C140. Exactly the types without such parts can be encoded at all, with room for them. Arrays may be empty. -/
theorem encodable_iff (hE : Exact I) (hs : View s t) (be : Bool) (w : Writer σ) (hroom : ¬ Blocked I (16 * t.size)) :
    (∃ ops e e' w' outs, Op.sanes ops ∧ Enc.with_ s be = some e ∧ Op.runs I ops e w = some (e', w', outs)
      ∧ ∃ i : Nat, ops[i]? = some .commit ∧ outs[i]? = some (.res .ok)) ↔ Inhabited t := by
  constructor
  · rintro ⟨ops, e, e', w', outs, ho, he, hr, hc⟩
    exact Classical.byContradiction fun ht => never hE hs ht be w ops ho he hr hc
  · intro ht
    obtain ⟨ops, ho⟩ := writes_exists (dflt t) (dflt_short t)
    obtain ⟨e, e', w', outs, h1, h2, h3, _⟩ := encodes_partial hE hs be w (dflt t) ops (dflt_has t ht) (dflt_fits be t 0) ho
      (fun h => hroom (h.mono (dflt_length be t 0)))
    refine ⟨ops ++ [.commit], e, e', w', outs, sanes_append (writes_sane ho) commit_sane, h1, h2, ops.length, by simp, ?_⟩
    obtain ⟨_, he, hsim⟩ := start_sim (I := I) hs be w
    rw [h1, Option.some.injEq] at he
    subst he
    obtain ⟨_, _, _, b, hr, hd, _⟩ := runs_sim hE (ops ++ [.commit]) (sanes_append (writes_sane ho) commit_sane) hsim
    rw [h2] at hr
    simp only [Option.some.injEq, Prod.mk.injEq] at hr
    obtain ⟨_, _, rfl⟩ := hr
    obtain ⟨o1, o2, m, rfl, hd1, hd2⟩ := doesAll_append hd
    obtain ⟨o, rfl, hdo⟩ := doesAll_one hd2
    have hg := goods_right h3
    rw [doesAll_len hd1]
    cases o with
    | res r =>
      have : r = .ok := hg.1
      subst this
      simp
    | sub os => cases hdo

/-- C140. The types of what was opened matter as well: once something is open which needs a part that there is no call for,
nothing can be committed any more. -/
theorem dead_end (hE : Exact I) (hs : View s t) (be : Bool) (w : Writer σ) (ops more : List Op) (ho : Op.sanes ops) (hm : Op.sanes more) :
    ∃ e e₁ w₁ outs a e₂ w₂ outs₂, Enc.with_ s be = some e ∧ Op.runs I ops e w = some (e₁, w₁, outs)
      ∧ DoesAll (Blocked I) be [] (St.new t) ops outs a ∧ Op.runs I more e₁ w₁ = some (e₂, w₂, outs₂)
      ∧ ((∃ p ∈ a.parts, ∃ u ∈ p.todo, ¬ Inhabited u) → ¬ ∃ i : Nat, more[i]? = some .commit ∧ outs₂[i]? = some (.res .ok)) := by
  obtain ⟨e, he, hsim⟩ := start_sim (I := I) hs be w
  obtain ⟨e₁, w₁, outs, a, hr, hd, hb⟩ := runs_sim hE ops ho hsim
  obtain ⟨e₂, w₂, outs₂, _, hr₂, _⟩ := runs_sim hE more hm hb
  exact ⟨e, e₁, w₁, outs, a, e₂, w₂, outs₂, he, hr, hd, hr₂, fun hst => stuck_runs hE more hm hb hst hr₂⟩

/-- An array of structures with bytes can be written if it is empty. After its first structure was opened it cannot. -/
example : Inhabited (.array (.struct [.basic .byte])) ∧ ∃ a outs, DoesAll (fun _ => False) false [] (St.new (.array (.struct [.basic .byte])))
    [.array, .structure] outs a ∧ Out.goods outs ∧ ∃ p ∈ a.parts, ∃ u ∈ p.todo, ¬ Inhabited u := by
  refine ⟨by simp [Inhabited], ⟨[⟨.struct, [], [], [.basic .byte]⟩, ⟨.array (.struct [.basic .byte]), [], [], []⟩,
    ⟨.root, [], [], [.array (.struct [.basic .byte])]⟩], false⟩, [.res .ok, .res .ok], ?_, by simp [Out.goods, Out.good], ?_⟩
  · exact .cons _ _ _ _ _ _ _ _ (.value _ _ _ _ _ _ _ rfl rfl id (.array _ _))
      (.cons _ _ _ _ _ _ _ _ (.value _ _ _ _ _ _ _ rfl rfl id (.struct _ _)) (.nil _ _))
  · exact ⟨_, List.mem_cons_self, _, List.mem_cons_self, by simp [Inhabited, known]⟩

example : ¬ Inhabited (.struct [.basic .uint16, .basic .byte]) ∧ Inhabited (.array (.basic .byte)) ∧ ¬ Callable (.array (.basic .byte)) := by
  simp [Inhabited, Inhabiteds, Callable, known]

end Verif.Dbus.Finish
