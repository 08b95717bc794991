import Verif.Text.SpecUncaught
/-! # Property theorems: uncaught errors (C71) -/
namespace Verif.Text
variable {σ E : Type}

/-- **C71** (a). `fold_any` and its variants expose nothing: whatever was folded, the error looks the same to every formatter, and has no source. -/
theorem any_opaque (std : Bool) (lit : List Char → Fmt σ) (f) (hf : f ∈ anyFolds) (v w : Value σ E) :
    shown std lit (f v) = shown std lit (f w) ∧ (shown std lit (f v)).source = none := by
  simp only [anyFolds, List.mem_cons, List.not_mem_nil, or_false] at hf
  rcases hf with rfl | rfl | rfl <;> cases std <;> exact ⟨rfl, rfl⟩

/-- **C71** (b). `fold_debug` and its variants expose the debug value only. -/
theorem debug_only (std : Bool) (lit : List Char → Fmt σ) (f) (hf : f ∈ debugFolds) (v w : Value σ E) (h : v.debug = w.debug) :
    shown std lit (f v) = shown std lit (f w) ∧ (shown std lit (f v)).source = none := by
  simp only [debugFolds, List.mem_cons, List.not_mem_nil, or_false] at hf
  rcases hf with rfl | rfl | rfl <;> cases std <;>
    simp [shown, fold_debug, fold_static_debug, box_debug, Uncaught.fmtDebug, Uncaught.fmtDisplay, Uncaught.source, h]

/-- **C71** (c). `fold_display` and its variants expose the display value only. -/
theorem display_only (std : Bool) (lit : List Char → Fmt σ) (f) (hf : f ∈ displayFolds) (v w : Value σ E) (h : v.display = w.display) :
    shown std lit (f v) = shown std lit (f w) ∧ (shown std lit (f v)).source = none := by
  simp only [displayFolds, List.mem_cons, List.not_mem_nil, or_false] at hf
  rcases hf with rfl | rfl | rfl <;> cases std <;>
    simp [shown, fold_display, fold_static_display, box_display, Uncaught.fmtDebug, Uncaught.fmtDisplay, Uncaught.source, h]

/-- **C71** (d). Without the feature `std`, `fold_error` and its variants expose the display value only. -/
theorem error_display_only (lit : List Char → Fmt σ) (f) (hf : f ∈ errorFolds) (v w : Value σ E) (h : v.display = w.display) :
    shown false lit (f v) = shown false lit (f w) := by
  simp only [errorFolds, List.mem_cons, List.not_mem_nil, or_false] at hf
  rcases hf with rfl | rfl | rfl <;>
    simp [shown, fold_error, fold_static_error, box_error, Uncaught.fmtDebug, Uncaught.fmtDisplay, h]

/-- **C71** (e). With the feature `std`, `fold_error` and its variants expose all of the error: different debug texts, display texts or sources
can be told apart, and the source is that of the error. -/
theorem error_exposed (f) (hf : f ∈ errorFolds) (d₁ p₁ d₂ p₂ : List Char) (s₁ s₂ : Option E)
    (h : shown true collect (f (texts d₁ p₁ s₁)) = shown true collect (f (texts d₂ p₂ s₂))) :
    d₁ = d₂ ∧ p₁ = p₂ ∧ s₁ = s₂ := by
  have hd := congrFun (congrArg Shown.debug h) []
  have hp := congrFun (congrArg Shown.display h) []
  have hs := congrArg Shown.source h
  clear h
  simp only [errorFolds, List.mem_cons, List.not_mem_nil, or_false] at hf
  rcases hf with rfl | rfl | rfl <;>
    simp [shown, fold_error, fold_static_error, box_error, Uncaught.fmtDebug, Uncaught.fmtDisplay, Uncaught.source, pieces, collect, texts] at hd hp hs <;>
    exact ⟨hd, hp, hs⟩

/-- What is printed for an error to a formatter that never fails. -/
def Prints (std : Bool) (u : Uncaught (List Char) E) (debug display : List Char) : Prop :=
  (shown std collect u).debug [] = (debug, true) ∧ (shown std collect u).display [] = (display, true)

/-- **C71** (f). The texts of `fold_any`. -/
theorem prints_any (std : Bool) (d p : List Char) (s : Option E) :
    Prints std (fold_any (texts d p s)) (debugText (chars! "Any") []) (chars! "Uncaught(Any)") := by
  exact ⟨rfl, rfl⟩

/-- **C71** (f). The texts of `fold_static_any`. -/
theorem prints_static_any (std : Bool) (d p : List Char) (s : Option E) :
    Prints std (fold_static_any (texts d p s)) (debugText (chars! "StaticAny") []) (chars! "Uncaught(StaticAny)") := by
  exact ⟨rfl, rfl⟩

/-- **C71** (f). The texts of `fold_debug`. -/
theorem prints_debug (std : Bool) (d p : List Char) (s : Option E) :
    Prints std (fold_debug (texts d p s)) (debugText (chars! "Debug") d) (displayText (chars! "Debug") d) := by
  exact ⟨rfl, rfl⟩

/-- **C71** (f). The texts of `fold_static_debug`. -/
theorem prints_static_debug (std : Bool) (d p : List Char) (s : Option E) :
    Prints std (fold_static_debug (texts d p s)) (debugText (chars! "StaticDebug") d) (displayText (chars! "StaticDebug") d) := by
  exact ⟨rfl, rfl⟩

/-- **C71** (f). The texts of `fold_display`. -/
theorem prints_display (std : Bool) (d p : List Char) (s : Option E) :
    Prints std (fold_display (texts d p s)) (debugText (chars! "Display") p) (displayText (chars! "Display") p) := by
  exact ⟨rfl, rfl⟩

/-- **C71** (f). The texts of `fold_static_display`. -/
theorem prints_static_display (std : Bool) (d p : List Char) (s : Option E) :
    Prints std (fold_static_display (texts d p s)) (debugText (chars! "StaticDisplay") p) (displayText (chars! "StaticDisplay") p) := by
  exact ⟨rfl, rfl⟩

/-- **C71** (f). The texts of `fold_error`. -/
theorem prints_error (std : Bool) (d p : List Char) (s : Option E) :
    Prints std (fold_error (texts d p s)) (debugText (chars! "Error") (if std then d else p)) (displayText (chars! "Error") p) := by
  cases std <;> exact ⟨rfl, rfl⟩

/-- **C71** (f). The texts of `fold_static_error`. -/
theorem prints_static_error (std : Bool) (d p : List Char) (s : Option E) :
    Prints std (fold_static_error (texts d p s)) (debugText (chars! "StaticError") (if std then d else p)) (displayText (chars! "StaticError") p) := by
  cases std <;> exact ⟨rfl, rfl⟩

/-- Writing stops at the first failure. -/
theorem pieces_stop (a b : List (Fmt σ)) (f : Fmt σ) (s : σ) (ha : (pieces a s).2 = true) (hf : (f (pieces a s).1).2 = false) :
    pieces (a ++ f :: b) s = f (pieces a s).1 := by
  induction a generalizing s with
  | nil =>
    simp only [pieces] at hf
    simp only [List.nil_append, pieces]
    rcases h : f s with ⟨t, _ | _⟩
    · rfl
    · rw [h] at hf; cases hf
  | cons g a ih =>
    rcases h : g s with ⟨t, _ | _⟩
    · simp [pieces, h] at ha
    · simp only [pieces, h] at ha hf
      simp only [List.cons_append, pieces, h]
      exact ih t ha hf

/-- The constructors with what their debug text and their display text print of the value. -/
def printed (std : Bool) : List ((Value σ E → Uncaught σ E) × (Value σ E → Fmt σ) × (Value σ E → Fmt σ)) :=
  debugFolds.map (·, Value.debug, Value.debug) ++ displayFolds.map (·, Value.display, Value.display) ++
    errorFolds.map (·, if std then Value.debug else Value.display, Value.display)

/-- **C71** (g). If a value cannot be printed, neither can the error, and nothing is written after the failure: both texts, for each kind that
prints its value, end with what the value wrote, after the beginning `a` of the text. -/
theorem failure_told (std : Bool) (lit : List Char → Fmt σ) (x) (hx : x ∈ printed std) (v : Value σ E) (s : σ)
    (hl : ∀ a s, (lit a s).2 = true) :
    ((∀ s, (x.2.1 v s).2 = false) → ∃ a, (shown std lit (x.1 v)).debug s = x.2.1 v (lit a s).1 ∧ ((shown std lit (x.1 v)).debug s).2 = false) ∧
    ((∀ s, (x.2.2 v s).2 = false) → ∃ a, (shown std lit (x.1 v)).display s = x.2.2 v (lit a s).1 ∧
      ((shown std lit (x.1 v)).display s).2 = false) := by
  have key : ∀ a (f : Fmt σ) (b : List (Fmt σ)), (∀ s, (f s).2 = false) → pieces (lit a :: f :: b) s = f (lit a s).1 := by
    intro a f b hv
    have := pieces_stop [lit a] b f s
    have e : pieces [lit a] s = lit a s := by
      have := hl a s
      rcases h : lit a s with ⟨t, b⟩
      rw [h] at this
      subst this
      simp [pieces, h]
    rw [e] at this
    exact this (hl a s) (hv _)
  simp only [printed, debugFolds, displayFolds, errorFolds, List.map_cons, List.map_nil, List.mem_append, List.mem_cons, List.not_mem_nil,
    or_false] at hx
  cases std <;> rcases hx with ((rfl | rfl | rfl) | (rfl | rfl | rfl)) | (rfl | rfl | rfl) <;>
    exact ⟨fun hv => ⟨_, key _ _ _ hv, (congrArg Prod.snd (key _ _ _ hv)).trans (hv _)⟩,
      fun hv => ⟨_, key _ _ _ hv, (congrArg Prod.snd (key _ _ _ hv)).trans (hv _)⟩⟩

/-- **C71** (i). Boxing the value makes no difference. -/
theorem box_as_fold (v : Value σ E) :
    box_any v = fold_any v ∧ box_debug v = fold_debug v ∧ box_display v = fold_display v ∧ box_error v = fold_error v :=
  ⟨rfl, rfl, rfl, rfl⟩

example : ((shown true collect (fold_display (E := Nat) ⟨fun s => (s, true), fun s => (s ++ ['x'], false), none⟩)).display []).1 =
    chars! "Uncaught(Display): x" := by decide

/-- The eight kinds, with their names. -/
def kinds : List (List Char × (Value (List Char) E → Uncaught (List Char) E)) :=
  [(chars! "Any", fold_any),
    (chars! "StaticAny", fold_static_any),
    (chars! "Debug", fold_debug),
    (chars! "StaticDebug", fold_static_debug),
    (chars! "Display", fold_display),
    (chars! "StaticDisplay", fold_static_display),
    (chars! "Error", fold_error),
    (chars! "StaticError", fold_static_error)]

/-- **C71** (h). The kind of an error can be read off either text, whatever its value prints: the name stands between `Uncaught::` and the first
parenthesis, or between `Uncaught(` and the first closing one. The names are distinct. -/
theorem kinds_told (std : Bool) (k) (hk : k ∈ kinds (E := E)) (d p : List Char) (s : Option E) :
    (((shown std collect (k.2 (texts d p s))).debug []).1.drop 10).takeWhile (· ≠ '(') = k.1 ∧
    (((shown std collect (k.2 (texts d p s))).display []).1.drop 9).takeWhile (· ≠ ')') = k.1 ∧
    ((kinds (E := E)).map (·.1)).Nodup := by
  refine ⟨?_, ?_, show (kinds.map (·.1)).Nodup by simp [kinds]⟩ <;>
    simp only [kinds, List.mem_cons, List.not_mem_nil, or_false] at hk <;>
    rcases hk with rfl | rfl | rfl | rfl | rfl | rfl | rfl | rfl <;> cases std <;> rfl

/-- Two values that differ in everything. -/
example : (shown true collect (fold_any (texts (chars! "a") (chars! "b") (some 1)))).debug [] = (chars! "Uncaught::Any()", true) ∧
    (shown true collect (fold_error (texts (chars! "a") (chars! "b") (some 1)))).debug [] = (chars! "Uncaught::Error(a)", true) ∧
    (shown false collect (fold_error (texts (chars! "a") (chars! "b") (some 1)))).debug [] = (chars! "Uncaught::Error(b)", true) ∧
    (shown true collect (fold_error (texts (chars! "a") (chars! "b") (some 1)))).source = some 1 := by decide
example : pieces [collect ['a'], fun s => (s, false), collect ['b']] [] = (['a'], false) := by decide

/-- Instances of `any_opaque`, `debug_only`, `display_only`, `error_display_only` and `error_exposed`. -/
example := any_opaque true collect fold_any (by simp [anyFolds]) (texts (chars! "a") (chars! "b") (some 1)) (texts (chars! "c") (chars! "d") (none : Option Nat))
example := debug_only true collect fold_debug (by simp [debugFolds]) (texts (chars! "a") (chars! "b") (some 1)) (texts (chars! "a") (chars! "d") (none : Option Nat)) rfl
example := display_only true collect fold_display (by simp [displayFolds]) (texts (chars! "a") (chars! "b") (some 1)) (texts (chars! "c") (chars! "b") (none : Option Nat)) rfl
example := error_display_only collect fold_error (by simp [errorFolds]) (texts (chars! "a") (chars! "b") (some 1)) (texts (chars! "c") (chars! "b") (none : Option Nat)) rfl
example := error_exposed fold_error (by simp [errorFolds]) (chars! "a") (chars! "b") (chars! "a") (chars! "b") (some 1) (some 1) rfl

end Verif.Text
