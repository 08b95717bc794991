import Verif.Dbus.LemmasRetry
/-! # Properties of D-Bus encoders and decoders whose readers and writers refuse

C129: calls that were refused may be repeated. -/
namespace Verif.Dbus
open Verif.Io Retry

variable {σ τ : Type} {s : Sig} {t : Ty}

/-! ## Encoders -/

/-- C129. For every writer, which may refuse anything at any time, and every history of calls: the calls that were not refused,
taken by themselves, have the same answers and the same effect on the encoder with any writer that never refuses. What the
encoder wrote is in the memory of both, the bytes of the same `parts`, and both were told to commit the same. -/
theorem enc_retry {I : WriteImpl σ} {J : WriteImpl τ} (hI : Exact I) (hJ : Exact J) (hw : Willing J) (hs : View s t) (be : Bool)
    (w : Writer σ) (x : Writer τ) (hist : List Op) (ho : Op.sanes hist) :
    ∃ e e' w' x' outs b, Enc.with_ s be = some e ∧ Op.runs I hist e w = some (e', w', outs)
      ∧ Op.runs J (Op.kepts hist outs) e x = some (e', x', Out.kepts outs)
      ∧ Holds w'.mem (Part.bytes be [] b.parts) ∧ Holds x'.mem (Part.bytes be [] b.parts)
      ∧ Calls I w.st (if b.committed then [(Part.bytes be [] b.parts).length] else []) w'.st
      ∧ Calls J x.st (if b.committed then [(Part.bytes be [] b.parts).length] else []) x'.st
      ∧ DoesAll (fun _ => False) be [] (St.new t) (Op.kepts hist outs) (Out.kepts outs) b := by
  obtain ⟨e, e', w', outs, b, he, hr, hd, hh, hc⟩ := encoder_refines hI hs be w hist ho
  obtain ⟨x', hx⟩ := runs_keeps hI hJ hw hist ho e w x hr
  obtain ⟨e₁, e₂, x₂, outs₂, b₂, he₁, hr₁, hd₁, hh₁, hc₁⟩ := encoder_refines hJ hs be x (Op.kepts hist outs) (kepts_sane hist ho outs)
  rw [he, Option.some.injEq] at he₁
  subst he₁
  rw [hx] at hr₁
  cases hr₁
  have hk := doesAll_kepts _ _ _ _ _ hd
  have hb := doesAll_det _ _ _ _ _ _ hd₁ hk
  subst hb
  exact ⟨e, e', w', x', outs, b₂, he, hr, hx, hh, hh₁, hc, hc₁, hk⟩

/-- C129. However often calls were refused: if those that were not refused write a value, in any of the ways to do so, and commit
it, then they succeeded, memory begins with the marshalled value, and exactly its length was committed. -/
theorem enc_waited {I : WriteImpl σ} (hI : Exact I) (hs : View s t) (be : Bool) (w : Writer σ) (hist ops : List Op) (ho : Op.sanes hist)
    (v : Val) (hv : v.has t) (hf : v.fits be 0) (hw : Writes v ops) {e e' : Enc} {w' : Writer σ} {outs : List Out}
    (he : Enc.with_ s be = some e) (hr : Op.runs I hist e w = some (e', w', outs)) (hk : Op.kepts hist outs = ops ++ [.commit]) :
    Out.goods (Out.kepts outs) ∧ Begins w'.mem (v.marshal be 0) ∧ Calls I w.st [(v.marshal be 0).length] w'.st := by
  obtain ⟨e₁, e₂, w₂, outs₂, b, he₁, h1, hd, hh, hl⟩ := encoder_refines hI hs be w hist ho
  rw [he, Option.some.injEq] at he₁
  subst he₁
  rw [hr] at h1
  cases h1
  have hd := doesAll_kepts _ _ _ _ _ hd
  rw [hk] at hd
  generalize Out.kepts outs = os at hd
  obtain ⟨o1, o2, m, rfl, hd1, hd2⟩ := doesAll_append hd
  have hb0 : Part.bytes be [] [⟨.root, [], [], [t]⟩] = [] := by
    simp [Part.bytes, Part.head, Part.body, Val.marshals]
  obtain ⟨g1, rfl⟩ := writes_ok (fun _ => False) be hw (v.marshal be 0).length [] ⟨.root, [], [], [t]⟩ [] false o1 m t
    (fun _ _ h => h) rfl hv (by rw [hb0]; exact hf) (by rw [hb0]; simp) hd1
  obtain ⟨o, rfl, hd3⟩ := doesAll_one hd2
  obtain ⟨rfl, rfl⟩ := does_commit (by rfl) hd3
  have hbytes : Part.bytes be [] [Part.add ⟨.root, [], [], [t]⟩ v] = known (v.marshal be 0) := by
    simp [Part.add, Part.bytes, Part.head, Part.body, Part.start, Val.marshals]
  refine ⟨goods_append g1 ⟨rfl, trivial⟩, ?_, ?_⟩
  · rw [hbytes] at hh; exact holds_begins hh
  · rw [hbytes] at hl; simpa using hl

/-! ## Decoders -/

/-- C129. For every reader of some data, which may refuse anything at any time, and every history of calls: the calls that were not
refused, taken by themselves, have the same answers and the same effect on the decoder with any reader of this data that never
refuses what is there. -/
theorem dec_retry {I : ReadImpl σ} {J : ReadImpl τ} {data : List UInt8} (hI : Linear I data) (hd : data.length < usizeMax)
    (hJ : Linear J data) (hr : Ready J data) (hs : View s t) (be : Bool) (st : σ) (st' : τ) (hist : List Ask) (hl : Ask.sanes hist) :
    ∃ d d' st₁ st₁' rs, Dec.with_ s be = some d ∧ Ask.runs I hist d st = some (d', st₁, rs)
      ∧ Ask.runs J (Ask.kepts hist rs) d st' = some (d', st₁', Ans.kepts rs) := by
  obtain ⟨d, d', st₁, rs, b, h1, h2, _⟩ := decoder_refines hI hd hs be st hist hl
  obtain ⟨st₁', h3⟩ := asks_keeps hI hJ hr hist d st st' h2
  exact ⟨d, d', st₁, st₁', rs, h1, h2, h3⟩

/-- C129. A slice is such a reader. -/
theorem slice_ready {data : List UInt8} (h : data.length ≤ usizeMax) : Linear (sliceRead data) data ∧ Ready (sliceRead data) data := by
  refine ⟨(slice_read data h).1, fun st idx n hn x => ?_⟩
  show (if _ then if _ then _ else _ else _ : Unit × Flow (List UInt8)).2 ≠ _
  have h1 : idx + n ≤ usizeMax := by omega
  have h2 : ¬ idx + n > data.length := by omega
  rw [if_pos h1, if_neg h2]
  intro h
  cases h

/-- C129. However often calls were refused: if data begins with a marshalled value, and the calls that were not refused read along its
type, in any of the ways to do so, and commit, then they succeeded and yielded the value. -/
theorem dec_waited {I : ReadImpl σ} {data : List UInt8} (hI : Linear I data) (hd : data.length < usizeMax) (hs : View s t) (be : Bool)
    (st : σ) (hist : List Ask) (v : Val) (l : List Ask) (as : List Ans) (hv : v.has t) (hf : v.fits be 0)
    (hr : Reads v l as) (hp : v.marshal be 0 <+: data) {d d' : Dec} {st' : σ} {rs : List Ans} (h : Dec.with_ s be = some d)
    (hrun : Ask.runs I hist d st = some (d', st', rs)) (hk : Ask.kepts hist rs = l ++ [.commit]) : Ans.kepts rs = as ++ [.ok] := by
  obtain ⟨hL, hR⟩ := slice_ready (Nat.le_of_lt hd)
  obtain ⟨st₁, h1⟩ := asks_keeps hI hL hR hist d st () hrun
  rw [hk] at h1
  obtain ⟨d₁, d₂, st₂, h2, h3⟩ := decodes_partial hL hd hs be () v l as hv hf hr hp (by
    rw [slice_refuses data (Nat.le_of_lt hd)]
    exact Nat.not_lt.mpr hp.length_le)
  rw [h, Option.some.injEq] at h2
  subst h2
  rw [h1, Option.some.injEq, Prod.mk.injEq, Prod.mk.injEq] at h3
  exact h3.2.2

/-! ## Examples -/

/-- A writer whose room grows whenever something is refused. -/
def choosy : WriteImpl Nat where
  map room idx n := if idx + n ≤ room ∧ idx + n ≤ usizeMax then (room, .cont n) else (room + 3, .brk (some .exceeded))
  commit room _ := room

theorem choosy_exact : Exact choosy := by
  refine ⟨⟨fun st idx len h => ?_⟩, fun st idx len n h => ?_⟩
  · unfold choosy
    by_cases hc : idx + len ≤ st ∧ idx + len ≤ usizeMax
    · simp only [if_pos hc]; exact ⟨h, hc.2⟩
    · simp only [if_neg hc]
  · simp only [choosy] at h
    split at h
    · cases h; exact Nat.le_refl _
    · cases h

/-- A reader to which more data arrives whenever something is refused, without an error. -/
def trickle (data : List UInt8) : ReadImpl Nat where
  map n idx len := if idx + len ≤ n ∧ idx + len ≤ data.length then (n, .cont ((data.drop idx).take len)) else (n + 3, .brk none)

theorem trickle_linear {data : List UInt8} (h : data.length ≤ usizeMax) : Linear (trickle data) data := by
  refine ⟨h, fun st idx len hl => ?_⟩
  unfold trickle
  by_cases hc : idx + len ≤ st ∧ idx + len ≤ data.length
  · simp only [if_pos hc]
    refine ⟨fun he => ?_, List.take_prefix _ _⟩
    have := congrArg List.length he
    simp at this
    omega
  · simp only [if_neg hc]

/-- A vector never refuses. -/
example : Exact vecWrite ∧ Willing vecWrite := by
  refine ⟨vec_write.1, fun st idx n h x => ?_⟩
  show (if _ then _ else _ : Nat × Flow Nat).2 ≠ _
  rw [if_pos h]; intro hx; cases hx

mutual
/-- Calls as text, for examples. -/
def Op.tag : Op → List Char
  | .string _ => ['s']
  | .array => ['a']
  | .close => [')']
  | .commit => ['!']
  | .sub _ ops => '[' :: Op.tags ops ++ [']']
  | _ => ['?']
def Op.tags : List Op → List Char
  | [] => []
  | op :: ops => op.tag ++ Op.tags ops
end

mutual
/-- Calls as text, for examples. -/
def Ask.tag : Ask → List Char
  | .string => ['s']
  | .array => ['a']
  | .close => [')']
  | .commit => ['!']
  | .sub _ l => '[' :: Ask.tags l ++ [']']
  | _ => ['?']
def Ask.tags : List Ask → List Char
  | [] => []
  | x :: l => x.tag ++ Ask.tags l
end

def patientOps : List Op := [.array, .array, .array, .string [97], .sub none [.string [97], .string [97], .commit], .close, .commit]
def patientAsks : List Ask := [.array, .array, .array, .string, .sub none [.string, .commit], .close, .commit]

/-- The room grows from nothing: four calls are refused, one of them is that of a sub-encoder, after parts of the string were written.
The others are those of a way to write the value, as `enc_waited` asks for. -/
example : (do
    let e ← Enc.with_ (ofTy (.array (.basic .string))) false
    let (_, w, outs) ← Op.runs choosy patientOps e ⟨0, fun _ => none⟩
    some (outs.map Out.refused, Op.tags (Op.kepts patientOps outs), (List.range 10).map w.mem))
    = some ([true, true, false, true, false, false, false], ['a', '[', 's', '!', ']', ')', '!'],
      [6, 0, 0, 0, 1, 0, 0, 0, 97, 0].map some) := by decide +kernel

example : ∃ ops, Writes (.array (.basic .string) [.string [97]]) ops ∧ Op.tags ops = ['a', '[', 's', '!', ']', ')'] :=
  ⟨_, .array _ _ _ (.cons _ _ _ _ (.sub _ _ (.string _)) .nil), rfl⟩
example : Op.sanes patientOps := ⟨trivial, trivial, trivial, trivial, ⟨fun _ h => (by cases h), trivial, trivial, trivial, trivial⟩,
  trivial, trivial, trivial⟩

/-- The data arrives in small pieces, three calls are refused until there is enough. -/
example : (do
    let d ← Dec.with_ (ofTy (.array (.basic .string))) false
    let (_, _, rs) ← Ask.runs (trickle [6, 0, 0, 0, 1, 0, 0, 0, 97, 0]) patientAsks d 0
    some (rs.map Ans.waits, Ask.tags (Ask.kepts patientAsks rs), (Ans.kepts rs).map fun | .sub [.str [97], .ok] => 1 | .ok => 0 | _ => 2))
    = some ([true, true, false, true, false, false, false], ['a', '[', 's', '!', ']', ')', '!'], [0, 1, 0, 0]) := by
  decide +kernel

example : ∃ l rs, Reads (.array (.basic .string) [.string [97]]) l rs ∧ Ask.tags l = ['a', '[', 's', '!', ']', ')'] :=
  ⟨_, _, .array _ _ _ _ (.cons _ _ _ _ _ _ (.sub _ _ _ (.string _ (by decide +kernel))) .nil), rfl⟩
example : Ask.sanes patientAsks := ⟨trivial, trivial, trivial, trivial, ⟨fun _ h => (by cases h), trivial, trivial, trivial⟩,
  trivial, trivial, trivial⟩

end Verif.Dbus
