import Verif.Args.ModelHelp
import Verif.Args.Props
import Verif.Args.Utf8Chars
/-! # Property theorems: help output (C24) -/
namespace Verif.Args

variable {σ E : Type}

/-! ## Specification -/

/-- The commands directly below `path`. -/
def children (S : List Command) (path : Path) : List Command :=
  S.filter fun c => c.path.length == path.length + 1 && path.isPrefixOf c.path

/-- A section with one line per entry, left out if there are none. `width` is the width of the widest name. -/
def sectionOf {A : Type} (title : String) (name : A → Bytes) (line : A → Nat → Call) (l : List A) : List Call :=
  if l.isEmpty then []
  else .section_ title :: l.map fun a => line a ((l.map fun a => charCount (name a)).max?.getD 0)

/-- Last element of a path. -/
def lastWord (c : Command) : Bytes := c.path.getLast?.getD []

/-- The help text of a command. -/
def helpText (h : Help) (S : List Command) (c : Command) : List Call :=
  [.info h.info, .section_ "Usage", .usage h.entry c.path] ++
  sectionOf "Flags" (·.name) (fun f w => .flag f.name f.mode f.help_short w) c.flags ++
  sectionOf "Commands" lastWord (fun d w => .command (lastWord d) d.help_short w) (children S c.path)

/-- Make calls in order until one fails. -/
def calls (w : σ → Call → σ × Option E) : σ → List Call → σ × Option E
  | s, [] => (s, none)
  | s, c :: cs =>
    match w s c with
    | (s, some e) => (s, some e)
    | (s, none) => calls w s cs

/-! ## Proofs -/

theorem callAll_eq (w : σ → Call → σ × Option E) (cs ds : List Call) (k : σ → σ × Option E)
    (hk : ∀ s, k s = calls w s ds) (s : σ) : callAll w cs k s = calls w s (cs ++ ds) := by
  induction cs generalizing s with
  | nil => exact hk s
  | cons c cs ih =>
    rw [callAll, call, List.cons_append, calls]
    generalize w s c = x
    obtain ⟨s', o⟩ := x
    cases o with
    | none => exact ih s'
    | some e => rfl

theorem call_eq (w : σ → Call → σ × Option E) (c : Call) (ds : List Call) (k : σ → σ × Option E)
    (hk : ∀ s, k s = calls w s ds) (s : σ) : call w c k s = calls w s (c :: ds) := by
  have := callAll_eq w [c] ds k hk s
  exact this

theorem widthOf_eq (l : List Bytes) : widthOf l = (l.map charCount).max? := by
  have hgen : ∀ (l : List Bytes) (m : Nat),
      l.foldl (fun o n => some (max (o.getD 0) (charCount n))) (some m) = some ((l.map charCount).foldl max m) := by
    intro l
    induction l with
    | nil => intro m; rfl
    | cons a l ih => intro m; exact ih _
  cases l with
  | nil => rfl
  | cons a l =>
    rw [widthOf, List.foldl_cons, hgen, List.map_cons, List.max?_cons']
    simp

theorem section_eq {A : Type} (w : σ → Call → σ × Option E) (title : String) (name : A → Bytes)
    (line : A → Nat → Call) (l : List A) (ds : List Call) (k : σ → σ × Option E) (hk : ∀ s, k s = calls w s ds) (s : σ) :
    (match widthOf (l.map name) with
      | none => k
      | some width => call w (.section_ title) (callAll w (l.map fun a => line a width) k)) s =
      calls w s (sectionOf title name line l ++ ds) := by
  rw [widthOf_eq, List.map_map]
  cases l with
  | nil => exact hk s
  | cons a l =>
    have hm : ∃ m, ((a :: l).map (charCount ∘ name)).max? = some m := by
      rw [List.map_cons, List.max?_cons']; exact ⟨_, rfl⟩
    obtain ⟨m, hm⟩ := hm
    have hm' : ((a :: l).map fun a => charCount (name a)).max? = some m := hm
    rw [hm, sectionOf, hm']
    simp only [List.isEmpty_cons, Bool.false_eq_true, if_false, Option.getD_some, List.cons_append]
    exact call_eq w _ _ _ (callAll_eq w _ ds k hk) s

/-- Taking while `p` and then filtering loses nothing if `p` is closed downwards in the list. -/
theorem filter_takeWhile {A : Type} (p q : A → Bool) (l : List A)
    (hl : l.Pairwise fun a b => q b = true → p a = true) (hq : ∀ a ∈ l, q a = true → p a = true) :
    (l.takeWhile p).filter q = l.filter q := by
  induction l with
  | nil => rfl
  | cons a l ih =>
    rw [List.pairwise_cons] at hl
    rw [List.takeWhile_cons]
    cases hp : p a with
    | true =>
      simp only [if_true, List.filter_cons]
      rw [ih hl.2 (fun b hb => hq b (by simp [hb]))]
    | false =>
      simp only [Bool.false_eq_true, if_false, List.filter_nil]
      symm
      rw [List.filter_eq_nil_iff]
      intro b hb hqb
      rcases List.mem_cons.mp hb with rfl | hb
      · rw [hq b (by simp) hqb] at hp; cases hp
      · rw [hl.1 b hb hqb] at hp; cases hp

theorem listed_eq (so : Sorter) (cs : List Command) (hd : (cs.map (·.path)).Nodup) (i : Nat) (a : Command)
    (ha : (compile so cs).cmds[i]? = some a) :
    listed ((compile so cs).cmds.drop (i + 1)) a.path = children (compile so cs).cmds a.path := by
  have hs := (compile_compiled so cs).sorted
  have hnd : ((compile so cs).cmds.map (·.path)).Nodup := (compile_perm so cs).1.nodup_iff.mpr hd
  generalize (compile so cs).cmds = S at *
  have hi : i < S.length := (List.getElem?_eq_some_iff.mp ha).1
  have hinj : ∀ (i j : Nat) (x y : Command), S[i]? = some x → S[j]? = some y → x.path = y.path → i = j := by
    intro i j x y hx hy hxy
    have h1 : (S.map (·.path))[i]? = some x.path := by rw [List.getElem?_map, hx]; rfl
    have h2 : (S.map (·.path))[j]? = some y.path := by rw [List.getElem?_map, hy]; rfl
    rw [hxy] at h1
    exact (List.getElem?_inj (List.getElem?_eq_some_iff.mp h1).1 hnd).mp (h1.trans h2.symm)
  -- the two conditions
  have hp : ∀ v : Command, (decide (v.path.length > a.path.length) && (v.path.take a.path.length == a.path)) = true ↔
      a.path <+: v.path ∧ a.path ≠ v.path := by
    intro v
    rw [Bool.and_eq_true, decide_eq_true_eq, beq_iff_eq]
    constructor
    · rintro ⟨h1, h2⟩
      refine ⟨by rw [← h2]; exact List.take_prefix _ _, ?_⟩
      intro e; rw [e] at h1; omega
    · rintro ⟨h1, h2⟩
      refine ⟨?_, (List.prefix_iff_eq_take.mp h1).symm⟩
      apply Nat.lt_of_not_le
      intro hle
      exact h2 (h1.eq_of_length_le hle)
  -- split the list at `i`
  have hsplit : S = S.take (i + 1) ++ S.drop (i + 1) := (List.take_append_drop _ _).symm
  have hchild0 : (S.take (i + 1)).filter (fun c => c.path.length == a.path.length + 1 && a.path.isPrefixOf c.path) = [] := by
    rw [List.filter_eq_nil_iff]
    intro c hc hcc
    rw [Bool.and_eq_true, beq_iff_eq, List.isPrefixOf_iff_prefix] at hcc
    obtain ⟨j, hj⟩ := List.mem_iff_getElem?.mp hc
    rw [List.getElem?_take] at hj
    split at hj
    · have := hs.before ha hj hcc.2 (by intro e; rw [e] at hcc; omega)
      omega
    · cases hj
  rw [listed, children]
  conv => rhs; rw [hsplit, List.filter_append, hchild0, List.nil_append]
  have hq : ∀ v : Command, (a.path <+: v.path ∧ a.path ≠ v.path) →
      ((v.path.length == a.path.length + 1) = (v.path.length == a.path.length + 1 && a.path.isPrefixOf v.path)) := by
    rintro v ⟨h1, _⟩
    rw [List.isPrefixOf_iff_prefix.mpr h1, Bool.and_true]
  rw [List.filter_congr (q := fun c => c.path.length == a.path.length + 1 && a.path.isPrefixOf c.path)]
  · apply filter_takeWhile
    · rw [List.pairwise_iff_getElem]
      intro m n hm hn hmn hqn
      rw [Bool.and_eq_true, beq_iff_eq, List.isPrefixOf_iff_prefix] at hqn
      rw [hp]
      have gm : S[i + 1 + m]? = some (S.drop (i + 1))[m] := by
        rw [← List.getElem?_drop]; exact List.getElem?_eq_getElem hm
      have gn : S[i + 1 + n]? = some (S.drop (i + 1))[n] := by
        rw [← List.getElem?_drop]; exact List.getElem?_eq_getElem hn
      refine ⟨hs.contiguous ha gm gn (by omega) (by omega) (List.prefix_refl _) hqn.2, ?_⟩
      intro e
      have := hinj i _ _ _ ha gm e
      omega
    · intro v _ hv
      rw [Bool.and_eq_true, beq_iff_eq, List.isPrefixOf_iff_prefix] at hv
      rw [hp]
      refine ⟨hv.2, ?_⟩
      intro e; rw [e] at hv; omega
  · intro v hv
    have : ∀ x ∈ (S.drop (i + 1)).takeWhile
        (fun v => decide (v.path.length > a.path.length) && (v.path.take a.path.length == a.path)),
        (decide (x.path.length > a.path.length) && (x.path.take a.path.length == a.path)) = true := by
      intro x hx
      exact List.all_eq_true.mp (List.all_takeWhile) x hx
    exact hq v ((hp v).mp (this v hv))

/-! ## C24 -/

/-- **C24.** If help was requested at command `i`, then exactly the help text of that command is written, up to
the first call that fails. -/
theorem help_writes_help_text (so : Sorter) (cs : List Command) (hd : (cs.map (·.path)).Nodup) (h : Help)
    (i : Nat) (hi : h.index = some i) (c : Command) (hc : (compile so cs).cmds[i]? = some c)
    (w : σ → Call → σ × Option E) (s : σ) :
    Help_help h w (compile so cs).cmds s =
      match calls w s (helpText h (compile so cs).cmds c) with
      | (s, none) => .ok s true
      | (s, some e) => .err s e := by
  have hlen : ¬ (compile so cs).cmds.length < i + 1 := by
    have := (List.getElem?_eq_some_iff.mp hc).1; omega
  have hch := listed_eq so cs hd i c hc
  rw [Help_help, hi]
  simp only []
  have hw : Help_write h w (compile so cs).cmds i s =
      some (calls w s (helpText h (compile so cs).cmds c)) := by
    rw [Help_write, hc]
    simp only []
    rw [if_neg hlen, hch]
    congr 1
    have hname : ∀ d ∈ children (compile so cs).cmds c.path, d.path.getD c.path.length [] = lastWord d := by
      intro d hd
      rw [children, List.mem_filter, Bool.and_eq_true, beq_iff_eq] at hd
      rw [lastWord, List.getLast?_eq_getElem?, hd.2.1, List.getD_eq_getElem?_getD]
      rfl
    have e1 : (children (compile so cs).cmds c.path).map (fun d => d.path.getD c.path.length []) =
        (children (compile so cs).cmds c.path).map lastWord := List.map_congr_left hname
    rw [e1]
    have e2 : ∀ width, (children (compile so cs).cmds c.path).map
          (fun d => Call.command (d.path.getD c.path.length []) d.help_short width) =
        (children (compile so cs).cmds c.path).map (fun d => Call.command (lastWord d) d.help_short width) := by
      intro width
      exact List.map_congr_left fun d hd => by rw [hname d hd]
    simp only [e2]
    rw [helpText, List.append_assoc]
    refine call_eq w _ _ _ (call_eq w _ _ _ (call_eq w _ _ _ ?_)) s
    refine section_eq w "Flags" (·.name) (fun f w => .flag f.name f.mode f.help_short w) c.flags _ _ ?_
    intro s
    have := section_eq w "Commands" lastWord (fun d w => .command (lastWord d) d.help_short w)
      (children (compile so cs).cmds c.path) [] (fun s => (s, none)) (fun s => rfl) s
    rw [List.append_nil] at this
    exact this
  rw [hw]
  generalize calls w s _ = x
  obtain ⟨s', o⟩ := x
  cases o <;> rfl

/-- **C24.** Without a request nothing is written. -/
theorem no_help_without_request (h : Help) (hi : h.index = none) (w : σ → Call → σ × Option E) (S : List Command)
    (s : σ) : Help_help h w S s = .ok s false := by
  rw [Help_help, hi]

theorem charCount_append (a b : Bytes) : charCount (a ++ b) = charCount a + charCount b := by
  simp [charCount]

theorem counted_iff (b : UInt8) : (b &&& 0xc0 ≠ 0x80) ↔ ¬ (128 ≤ b.toNat ∧ b.toNat ≤ 191) := by
  have key : ∀ n : Fin 256, ((UInt8.ofNat n.val) &&& 0xc0 ≠ 0x80) ↔ ¬ (128 ≤ n.val ∧ n.val ≤ 191) := by decide +kernel
  have := key ⟨b.toNat, b.toNat_lt⟩
  simpa using this

theorem charCount_char (c : Char) : charCount (String.utf8EncodeChar c) = 1 := by
  have cont : ∀ n, 128 ≤ n → n ≤ 191 → decide (UInt8.ofNat n &&& 0xc0 ≠ 0x80) = false := by
    intro n h1 h2
    have e := toNat_ofNat_lt (n := n) (by omega)
    simp only [decide_eq_false_iff_not, counted_iff, e]
    omega
  have lead : ∀ n, n < 128 ∨ (192 ≤ n ∧ n < 256) → decide (UInt8.ofNat n &&& 0xc0 ≠ 0x80) = true := by
    intro n h
    have e := toNat_ofNat_lt (n := n) (by omega)
    simp only [decide_eq_true_eq, counted_iff, e]
    omega
  have he := encode_eq c
  revert he
  generalize String.utf8EncodeChar c = bs
  intro he
  cases he with
  | one h => rw [charCount, List.filter_cons, lead _ (by omega)]; rfl
  | two h1 h =>
    rw [charCount, List.filter_cons, lead _ (by omega), List.filter_cons, cont _ (by omega) (by omega)]; rfl
  | three h1 h hs =>
    rw [charCount, List.filter_cons, lead _ (by omega), List.filter_cons, cont _ (by omega) (by omega),
      List.filter_cons, cont _ (by omega) (by omega)]; rfl
  | four h1 h =>
    rw [charCount, List.filter_cons, lead _ (by omega), List.filter_cons, cont _ (by omega) (by omega),
      List.filter_cons, cont _ (by omega) (by omega), List.filter_cons, cont _ (by omega) (by omega)]; rfl

/-- **C24.** Names are measured in characters, whatever their encoding takes. -/
theorem width_in_characters (cs : List Char) : charCount (cs.flatMap String.utf8EncodeChar) = cs.length := by
  induction cs with
  | nil => rfl
  | cons c cs ih => rw [List.flatMap_cons, charCount_append, charCount_char, ih, List.length_cons]; omega

/-- **C24.** In a section the width fits all names (of `chars a` characters each) and is not larger than needed. -/
theorem section_width {A : Type} (title : String) (name : A → Bytes) (line : A → Nat → Call) (l : List A) (chars : A → List Char)
    (hu : ∀ a ∈ l, name a = (chars a).flatMap String.utf8EncodeChar)
    (hl : l ≠ []) : ∃ width, sectionOf title name line l = .section_ title :: l.map (fun a => line a width) ∧
      (∀ a ∈ l, (chars a).length ≤ width) ∧ ∃ a ∈ l, (chars a).length = width := by
  have hc : ∀ a ∈ l, charCount (name a) = (chars a).length := fun a ha => by rw [hu a ha, width_in_characters]
  cases l with
  | nil => exact absurd rfl hl
  | cons a l =>
    have hm : ∃ m, ((a :: l).map fun a => charCount (name a)).max? = some m := by
      rw [List.map_cons, List.max?_cons']; exact ⟨_, rfl⟩
    obtain ⟨m, hm⟩ := hm
    refine ⟨m, ?_, ?_⟩
    · rw [sectionOf, hm]; rfl
    · rw [List.max?_eq_some_iff] at hm
      constructor
      · intro b hb
        rw [← hc b hb]
        exact hm.2 _ (List.mem_map_of_mem hb)
      · obtain ⟨b, hb, e⟩ := List.mem_map.mp hm.1
        exact ⟨b, hb, by rw [← hc b hb]; exact e⟩

example : charCount (['ü', '€', 'x'].flatMap String.utf8EncodeChar) = 3 := by decide +kernel

/-- **C24.** The command listing is in order of the schema and contains each direct sub-command once. -/
theorem children_spec (S : List Command) (path : Path) :
    (children S path).Sublist S ∧
    ∀ c, c ∈ children S path ↔ c ∈ S ∧ ∃ word, c.path = path ++ [word] := by
  refine ⟨List.filter_sublist, ?_⟩
  intro c
  rw [children, List.mem_filter, Bool.and_eq_true, beq_iff_eq, List.isPrefixOf_iff_prefix]
  constructor
  · rintro ⟨h1, h2, t, h3⟩
    refine ⟨h1, ?_⟩
    have : t.length = 1 := by
      have := congrArg List.length h3; simp at this; omega
    match t, this with
    | [x], _ => exact ⟨x, h3.symm⟩
  · rintro ⟨h1, x, h2⟩
    refine ⟨h1, by rw [h2]; simp, ?_⟩
    rw [h2]; exact List.prefix_append _ _

/-- **C24, C25.** The help flag remembers the command of the last report that set it, and a negated one
clears it. -/
theorem help_report_last (h : Help) (l : List (Nat × Bool)) (at_ : Nat) (value : Bool) :
    ((l ++ [(at_, value)]).foldl (fun h (x : Nat × Bool) => Help_report h x.1 x.2) h).index =
      if value then some at_ else none := by
  rw [List.foldl_append]; rfl

/-! ## Examples -/

/-- Help of the root: its flag and the two direct sub-commands, not `remote add`. -/
example : Help_help ⟨b "prog", b "text", some 0⟩ (fun l c => ((l ++ [c] : List Call), (none : Option Unit)))
    (compile insertSorter demo).cmds [] =
    .ok [.info (b "text"), .section_ "Usage", .usage (b "prog") [], .section_ "Flags", .flag (b "help") .set none 4,
      .section_ "Commands", .command (b "remote") none 6, .command (b "remove") none 6] true := by decide +kernel

/-- Instances of `help_writes_help_text` and `no_help_without_request`. -/
example (w : Nat → Call → Nat × Option Unit) := help_writes_help_text insertSorter demo (by decide +kernel)
  { Help_with [] [] with index := some 2 } 2 rfl ⟨[b "remote", b "add"], [⟨b "url", .parse, none⟩], none⟩ (by decide +kernel) w 0
example (w : Nat → Call → Nat × Option Unit) := no_help_without_request (Help_with [] []) rfl w demo 0

end Verif.Args
