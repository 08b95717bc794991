import Verif.Json.LemmasEffort
/-! # Time and memory of the JSON stream decoder (C132)

`R` is any stream that does what `Read` asks for, `G` any way in which vectors grow, and `Life` ranges over all ways in which text arrives and `pop` is
called. -/
namespace Verif.Json.Effort
open Verif.Io (usizeMax SFlow)
open Verif.Json.Bytes (Reader Faithful slices slices_faithful)
open Verif.Json.Work (Growth amortized reached)
open Verif.Json.Stream (Tok Item Kind nest opened)
open Verif.Json.Decode (Dec History)
variable {σ : Type}

/-! ## The meter -/

/-- The metered decoder is the decoder. -/
theorem metered_same (G : Growth) (R : Reader σ) (st : σ) (d : Dec) (m : Meter) :
    ((pop G R st d m).1, (pop G R st d m).2.1, (pop G R st d m).2.2.2) = Decode.pop R st d := advance_same G R _ st d _

/-- So whatever may happen to the decoder is metered. -/
theorem history_metered (G : Growth) {R : Reader σ} {view : σ → List UInt8} {fed : List UInt8} {is : List Item} {w : Bool} {st : σ} {d : Dec}
    (h : History R view fed is w st d) : ∃ m, Life G R view fed is w st d m := by
  induction h with
  | start st => exact ⟨_, .start st⟩
  | arrive b h hb ih => obtain ⟨m, ih⟩ := ih; exact ⟨m, .arrive b ih hb⟩
  | @item fed is w st st' d d' i h hp ih =>
    obtain ⟨m, ih⟩ := ih
    have := metered_same G R st d m
    rw [hp] at this
    generalize hq : pop G R st d m = r at this
    obtain ⟨a, b, c, fl⟩ := r
    cases this
    exact ⟨c, .item ih hq⟩
  | @more fed is w st st' d d' e h hp ih =>
    obtain ⟨m, ih⟩ := ih
    have := metered_same G R st d m
    rw [hp] at this
    generalize hq : pop G R st d m = r at this
    obtain ⟨a, b, c, fl⟩ := r
    cases this
    exact ⟨c, .more ih hq⟩

theorem life_history {G : Growth} {R : Reader σ} {view : σ → List UInt8} {fed : List UInt8} {is : List Item} {w : Bool} {st : σ} {d : Dec} {m : Meter}
    (h : Life G R view fed is w st d m) : History R view fed is w st d := by
  induction h with
  | start st => exact .start st
  | arrive b h hb ih => exact .arrive b ih hb
  | @item fed is w st st' d d' m m' i h hp ih =>
    have := metered_same G R st d m
    rw [hp] at this
    exact .item ih this.symm
  | @more fed is w st st' d d' m m' e h hp ih =>
    have := metered_same G R st d m
    rw [hp] at this
    exact .more ih this.symm

/-! ## C132: time -/

/-- Apart from one call for each call of `pop`, the tokenizer is called once for a byte of the text at most. -/
theorem calls_linear {G : Growth} {R : Reader σ} {view : σ → List UInt8} (hR : Faithful R view) {fed : List UInt8} {is : List Item} {w : Bool} {st : σ}
    {d : Dec} {m : Meter} (h : Life G R view fed is w st d m) : m.tok.calls ≤ m.calls + fed.length := by
  obtain ⟨toks, hi⟩ := life_inv h
  have := silent_tokens hR (Work.life_history hi.life) hi.run
  have := hi.count
  omega

/-- A byte of the text is looked at twice at most, and there are two rounds for it at most, apart from one for each call of `pop`; however often the decoder has
to wait for more. -/
theorem work_linear {G : Growth} {R : Reader σ} {view : σ → List UInt8} (hR : Faithful R view) {fed : List UInt8} {is : List Item} {w : Bool} {st : σ}
    {d : Dec} {m : Meter} (h : Life G R view fed is w st d m) : m.tok.tests ≤ 2 * fed.length ∧ m.tok.rounds ≤ m.calls + 2 * fed.length := by
  have hc := calls_linear hR h
  obtain ⟨toks, hi⟩ := life_inv h
  have h1 := Work.tests_linear hR hi.life
  have h2 := Work.rounds_linear hR hi.life
  omega

/-! ## C132: memory -/

/-- The stack has an entry for each array and object that is open but the innermost. -/
theorem stack_exact {G : Growth} {R : Reader σ} {view : σ → List UInt8} {fed : List UInt8} {is : List Item} {w : Bool} {st : σ}
    {d : Dec} {m : Meter} (h : Life G R view fed is w st d m) : ∃ o, nest [] is = some o ∧ d.inner.stack.length = o.length - 1 := by
  obtain ⟨toks, hi⟩ := life_inv h
  obtain ⟨h1, h2⟩ := run_opened hi.run
  exact ⟨_, h1, stack_opened h2⟩

/-- So it has less entries than the text has opening brackets. -/
theorem stack_brackets {G : Growth} {R : Reader σ} {view : σ → List UInt8} (hR : Faithful R view) {fed : List UInt8} {is : List Item} {w : Bool} {st : σ}
    {d : Dec} {m : Meter} (h : Life G R view fed is w st d m) : d.inner.stack.length ≤ fed.countP bracket - 1 := by
  obtain ⟨toks, hi⟩ := life_inv h
  obtain ⟨-, h2⟩ := run_opened hi.run
  have hb := run_brackets toks .new (fun _ => rfl)
  rw [hi.run] at hb
  have hb : (opened d.inner).length ≤ 0 + (toks.flatMap Bytes.source).countP bracket := hb
  have hp := List.Sublist.countP_le (p := bracket) (Bytes.sources_prefix hR (Work.life_history hi.life)).sublist
  rw [stack_opened h2]
  omega

/-- What is allocated for the stack is twice what was open at some time, at most, or eight bytes. -/
theorem stack_capacity {G : Growth} {R : Reader σ} {view : σ → List UInt8} {fed : List UInt8} {is : List Item} {w : Bool} {st : σ}
    {d : Dec} {m : Meter} (h : Life G R view fed is w st d m) : ∃ n, WasOpen is n ∧ m.cap ≤ max 8 (2 * n) := by
  obtain ⟨toks, hi⟩ := life_inv h
  exact hi.cap

/-- As long as no error is reported, three bytes are copied for two bytes of the text at most, and as much is buffered for those of the current token; in any case
it is the square of the text. -/
theorem copies_linear {G : Growth} {R : Reader σ} {view : σ → List UInt8} (hR : Faithful R view) {fed : List UInt8} {is : List Item} {w : Bool} {st : σ}
    {d : Dec} {m : Meter} (h : Life G R view fed is w st d m) :
    (Item.error ∉ is → 2 * m.tok.copied ≤ 3 * fed.length ∧ 2 * d.tokenizer.accStr.length ≤ 3 * reached d.tokenizer ∧ reached d.tokenizer ≤ (view st).length)
    ∧ 2 * m.tok.copied ≤ (3 + 2 * fed.length) * fed.length
    ∧ m.tok.cap ≤ max 4096 (2 * d.tokenizer.accStr.length) := by
  obtain ⟨toks, hi⟩ := life_inv h
  refine ⟨fun he => ?_, Work.copies_square hR hi.life, (Work.capacity_bound hR hi.life).2⟩
  have hn : .error ∉ toks.map Decode.kind := run_errors _ .new (by rw [hi.run]; exact he)
  have hn : ∀ e, .error e ∉ toks := fun e hm => hn (List.mem_map.mpr ⟨_, hm, rfl⟩)
  refine ⟨(Work.copies_linear_partial hR hi.life).2 (fun b => hn _), ?_⟩
  have hu : Work.unescaped toks = 0 := by
    unfold Work.unescaped
    rw [List.countP_eq_zero]
    intro t ht hu
    unfold Work.isUnescaped at hu
    split at hu
    · exact hn _ ht
    · cases hu
  obtain ⟨c, -, hw⟩ := Work.life_inv hR hi.life
  obtain ⟨U, u, e, K, k1, k2, k3, k4, k5, k7, k6⟩ := hw.rest
  obtain ⟨f1, f2, f3⟩ := Work.front_reached hw.wf k6
  have hz : u = 0 := by omega
  rw [hz, Nat.zero_mul] at k2
  omega

/-- Nothing of that is given back: there is always room for what was open at some time. -/
theorem stack_kept {G : Growth} {R : Reader σ} {view : σ → List UInt8} {fed : List UInt8} {is : List Item} {w : Bool} {st : σ}
    {d : Dec} {m : Meter} (h : Life G R view fed is w st d m) (n : Nat) (hn : WasOpen is n) : n ≤ m.cap + 1 := by
  obtain ⟨toks, hi⟩ := life_inv h
  exact hi.high n hn

/-- An array within `n` arrays. -/
def deep (n : Nat) : List UInt8 := List.replicate (n + 1) 0x5b ++ List.replicate (n + 1) 0x5d

theorem deep_cut (n : Nat) :
    Bytes.Cut (deep n) (List.replicate (n + 1) (.mark 0x5b .arrayOpen) ++ List.replicate (n + 1) (.mark 0x5d .arrayClose)) .none := by
  have h2 : ∀ k, Bytes.Cut (List.replicate k 0x5d) (List.replicate k (.mark 0x5d .arrayClose)) .none := by
    intro k
    induction k with
    | zero => exact .tail .none trivial
    | succ k ih => exact .lexeme (.mark 0x5d .arrayClose) rfl ih
  have h1 : ∀ k, Bytes.Cut (List.replicate k 0x5b ++ List.replicate (n + 1) 0x5d)
      (List.replicate k (.mark 0x5b .arrayOpen) ++ List.replicate (n + 1) (.mark 0x5d .arrayClose)) .none := by
    intro k
    induction k with
    | zero => exact h2 _
    | succ k ih => exact .lexeme (.mark 0x5b .arrayOpen) rfl ih
  exact h1 _

theorem open_run : ∀ (n : Nat) (st : List Kind), Stream.Dec.run ⟨.arrayOpen, st⟩ (List.replicate n .arrayOpen)
    = (⟨.arrayOpen, List.replicate n .array ++ st⟩, List.replicate n .arrayOpen)
  | 0, _ => rfl
  | n + 1, st => by
    have ih := open_run n (.array :: st)
    simp only [List.replicate_succ, Stream.Dec.run, Stream.Dec.advance, Stream.Dec.arrayOpen, Stream.Dec.enter, ih]
    rw [← List.replicate_succ, List.replicate_succ' (a := Kind.array), List.append_assoc]
    rfl

theorem close_run : ∀ (n : Nat) (s : Stream.State), s = .arrayOpen ∨ s = .arrayValue →
    Stream.Dec.run ⟨s, List.replicate n .array⟩ (List.replicate (n + 1) .arrayClose) = (⟨.rootDone, []⟩, List.replicate (n + 1) .arrayClose)
  | 0, s, h => by rcases h with rfl | rfl <;> rfl
  | n + 1, s, h => by
    have ih := close_run n .arrayValue (.inr rfl)
    have ha : Stream.Dec.advance ⟨s, List.replicate (n + 1) .array⟩ .arrayClose = (⟨.arrayValue, List.replicate n .array⟩, some .arrayClose) := by
      rcases h with rfl | rfl <;> rfl
    rw [List.replicate_succ (n := n + 1)]
    simp only [Stream.Dec.run, ha, ih]
    rfl

theorem deep_run (n : Nat) : Stream.Dec.new.run (List.replicate (n + 1) .arrayOpen ++ List.replicate (n + 1) .arrayClose)
    = (⟨.rootDone, []⟩, List.replicate (n + 1) .arrayOpen ++ List.replicate (n + 1) .arrayClose) := by
  have h1 : Stream.Dec.new.run (List.replicate (n + 1) .arrayOpen) = (⟨.arrayOpen, List.replicate n .array⟩, List.replicate (n + 1) .arrayOpen) := by
    have := open_run n []
    rw [List.replicate_succ (n := n)]
    simp only [Stream.Dec.run, Stream.Dec.advance, Stream.Dec.new, Stream.Dec.arrayOpen, Stream.Dec.enter, this, List.append_nil]
    rfl
  rw [Stream.run_append, h1, close_run n .arrayOpen (.inl rfl)]

/-- The depth is not limited, and once all is closed the memory is still held: for every `n`, all of `deep n` is read without an error, the stack is empty then,
and `n` bytes at least are allocated for it, however it arrived. -/
theorem stack_unlimited (n : Nat) (hn : 2 * (n + 1) ≤ Bytes.isizeMax) :
    (∃ is st d m, Life amortized slices (·.1) (deep n) is true st d m)
    ∧ ∀ {σ : Type} {G : Growth} {R : Reader σ} {view : σ → List UInt8}, Faithful R view → ∀ {is : List Item} {st : σ} {d : Dec} {m : Meter},
      Life G R view (deep n) is true st d m → Item.error ∉ is ∧ nest [] is = some [] ∧ d.inner.stack = [] ∧ view st = [] ∧ n ≤ m.cap := by
  constructor
  · obtain ⟨is, st, d, h⟩ := Decode.reads_all slices_faithful ⟨deep n, by simp [deep]; omega⟩
    obtain ⟨m, h⟩ := history_metered amortized h
    exact ⟨is, st, d, m, h⟩
  · intro σ G R view hR is st d m h
    obtain ⟨h1, h2⟩ := Decode.pop_reports_all hR (life_history h) (deep_cut n)
    have hk : Decode.kinds (List.replicate (n + 1) (.mark 0x5b .arrayOpen) ++ List.replicate (n + 1) (.mark 0x5d .arrayClose)) .none
        = List.replicate (n + 1) .arrayOpen ++ List.replicate (n + 1) .arrayClose := by
      simp [Decode.kinds, Bytes.tokens, Bytes.Tail.tokens, List.flatMap_replicate, Bytes.Lexeme.tokens, Decode.kind]
    unfold Decode.items at h1
    rw [hk, deep_run] at h1
    have h1 : is = List.replicate (n + 1) .arrayOpen ++ List.replicate (n + 1) .arrayClose := h1
    obtain ⟨ho, -⟩ := run_opened (deep_run n)
    have ho : nest [] is = some [] := by rw [h1]; exact ho
    obtain ⟨o, e1, e2⟩ := stack_exact h
    rw [ho] at e1
    cases e1
    refine ⟨?_, ho, List.length_eq_zero_iff.mp e2, h2, ?_⟩
    · rw [h1]; simp
    · have hw : WasOpen is (n + 1) := by
        refine ⟨List.replicate (n + 1) .arrayOpen, List.replicate (n + 1) .array, ?_, ?_, List.length_replicate⟩
        · rw [h1]; exact List.prefix_append _ _
        · have := open_run n []
          have hx : Stream.Dec.new.run (List.replicate (n + 1) .arrayOpen) = (⟨.arrayOpen, List.replicate n .array⟩, List.replicate (n + 1) .arrayOpen) := by
            rw [List.replicate_succ (n := n)]
            simp only [Stream.Dec.run, Stream.Dec.advance, Stream.Dec.new, Stream.Dec.arrayOpen, Stream.Dec.enter, this, List.append_nil]
            rfl
          exact (run_opened hx).1
      have := stack_kept h (n + 1) hw
      omega

/-! ## Examples -/

/-- `[-` is read, then `1` arrives (see `Decode.example_history`). This meets the hypotheses of `life_history`, `calls_linear`, `work_linear`, `stack_exact`,
`stack_brackets`, `stack_capacity` and `copies_linear`, and (forgetting the meter) of `history_metered`. -/
example : ∃ st d m, Life amortized slices (·.1) [0x5b, 0x2d, 0x31] [.arrayOpen] true st d m ∧ Item.error ∉ [Item.arrayOpen] := by
  obtain ⟨st, d, h⟩ := Decode.example_history
  obtain ⟨m, h⟩ := history_metered amortized h
  exact ⟨st, d, m, h, by decide⟩

/-- For `stack_kept`: one array was open. -/
example : WasOpen [.arrayOpen, .prim, .arrayClose] 1 := ⟨[.arrayOpen], [.array], by decide, rfl, rfl⟩

/-! `[[],{"a":[ ]}]`: nine calls, and one more that waits; the tokenizer is called for a comma, a colon and white space as well. -/
#guard (popAll 100 "[[],{\"a\":[ ]}]".toUTF8.toList .new .new).2 == ⟨10, ⟨13, 15, 3, 0, 0⟩, 8⟩

end Verif.Json.Effort
