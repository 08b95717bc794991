import Verif.Cfg.LemmasCfg
import Verif.Ffi.PropsAbi
import Verif.Bin.PropsLayout
/-! # C76, C77: compile-time configuration -/
namespace Verif.Cfg
open Verif.Ffi (Host)
open Verif.Ffi.Abi (PtrWidth Ty Target Width lay order nativeAbi lp64 intel386 reprC_integer)

/-! ## C76: `cond!` -/

/-- **C76** (a). In every configuration, the block of the first condition that holds is kept, and no other. -/
theorem cond_first {β : Type} (cfg : Config) (before after : List (Pred × β)) (c : Pred) (b : β) (els : Option β)
    (h : c.Holds cfg) (hn : ∀ x ∈ before, ¬ x.1.Holds cfg) : kept cfg (cond (before ++ (c, b) :: after) els) = [b] := by
  rw [cond]
  induction before with
  | nil =>
    have e : c.eval cfg = true := (eval_iff cfg c).1.mpr h
    simp only [List.nil_append, List.map_cons, List.cons_append]
    rw [kept_cons]
    simp [Pred.evalAll, Pred.evalAny, e]
  | cons x before ih =>
    have e : x.1.eval cfg = false := (eval_iff cfg x.1).2.mpr ((holds_not cfg x.1).mpr (hn x (List.mem_cons_self ..)))
    simp only [List.cons_append, List.map_cons]
    rw [kept_cons]
    simp only [Option.toList, Pred.evalAll, Pred.evalAny, e, Bool.false_and, Bool.false_or, Bool.false_eq_true, if_false, List.nil_append]
    exact ih (fun y hy => hn y (List.mem_cons_of_mem _ hy))

/-- **C76** (b). If no condition holds, the last block without condition is kept, if there is one, and nothing else. -/
theorem cond_else {β : Type} (cfg : Config) (arms : List (Pred × β)) (els : Option β)
    (hn : ∀ x ∈ arms, ¬ x.1.Holds cfg) : kept cfg (cond arms els) = els.toList := by
  rw [cond]
  induction arms with
  | nil =>
    cases els with
    | none => rfl
    | some v =>
      simp only [List.map_nil, List.nil_append, Option.toList, List.map_cons]
      rw [kept_cons]
      rfl
  | cons x arms ih =>
    have e : x.1.eval cfg = false := (eval_iff cfg x.1).2.mpr ((holds_not cfg x.1).mpr (hn x (List.mem_cons_self ..)))
    simp only [List.cons_append, List.map_cons]
    rw [kept_cons]
    simp only [Option.toList, Pred.evalAll, Pred.evalAny, e, Bool.false_and, Bool.false_or, Bool.false_eq_true, if_false, List.nil_append]
    exact ih (fun y hy => hn y (List.mem_cons_of_mem _ hy))

/-- **C76** (c). There is never more than one block left, and always one if there is a last block without condition. -/
theorem cond_one {β : Type} (cfg : Config) (arms : List (Pred × β)) (els : Option β) :
    (kept cfg (cond arms els)).length ≤ 1 ∧ (els.isSome → (kept cfg (cond arms els)).length = 1) := by
  rcases first_or_none cfg arms with ⟨bf, c, b, af, rfl, hc, hb⟩ | h
  · rw [cond_first cfg bf af c b els hc hb]
    exact ⟨Nat.le_refl 1, fun _ => rfl⟩
  · rw [cond_else cfg arms els h]
    cases els <;> simp

/-! The constants of the test of cfg.rs, 79-155, with and without the option `test`. -/
def t : Pred := .name "test"
example : kept [("test", none)] (cond [(t, true)] none) = [true] ∧ kept [] (cond [(t, true)] none) = [] := by decide
example : kept [("test", none)] (cond [(.not t, false), (t, true), (.any [.not t, .not t], false)] none) = [true] := by decide
example : kept [("test", none)] (cond [(.not t, false), (.any [t, .not t], true), (.not t, false)] (some false)) = [true] := by decide
example : kept [("test", none)] (cond [(.not t, 0), (.any [.not t, .not t], 1), (.any [.not t], 2)] (some 3)) = [3] := by decide
example : kept [("test", none), ("unix", none)] (cond [(.not t, 0), (.name "unix", 1), (t, 2)] (some 3)) = [1] := by decide
example : (Pred.all [t, .not (.pair "feature" "std")]).Holds [("test", none), ("feature", some "libc")] :=
  (eval_iff _ _).1.mp (by decide)

/-! ## C77: aliases -/

/-- **C77** (a). `osi::ffi::abi::target` exists exactly on Unix platforms of the three architectures, and is the ABI of the architecture. -/
theorem abi_target_is (p : Platform) (hf : ¬ ("unix" ∈ p.families ∧ "windows" ∈ p.families)) (a : Abi) :
    abiTarget p.config = .is a ↔ "unix" ∈ p.families ∧ p.arch = a.arch := by
  simp only [abiTarget, abiTargets, kept, List.filter_cons, List.filter_nil, Pred.eval.eq_3, Pred.evalAll, Bool.and_true, eval_arch, eval_env, eval_family]
  by_cases hu : "unix" ∈ p.families
  · have hw : "windows" ∉ p.families := fun h => hf ⟨hu, h⟩
    by_cases h1 : p.arch = "aarch64"
    · cases a <;> simp [h1, hu, hw, resolve, Abi.arch]
    by_cases h2 : p.arch = "x86"
    · cases a <;> simp [h2, hu, hw, resolve, Abi.arch]
    by_cases h3 : p.arch = "x86_64"
    · cases a <;> simp [h3, hu, hw, resolve, Abi.arch]
    have h1' := Ne.symm h1
    have h2' := Ne.symm h2
    have h3' := Ne.symm h3
    cases a <;> simp [h1, h2, h3, h1', h2', h3', hu, hw, resolve, Abi.arch]
  · by_cases hw : "windows" ∈ p.families <;> by_cases he : "msvc" = p.env <;>
    by_cases h2 : "x86" = p.arch <;> by_cases h3 : "x86_64" = p.arch <;> simp [hu, hw, he, h2, h3, resolve]
    all_goals (rw [← h2] at h3; exact absurd h3 (by decide))

/-- **C77** (b). The crate compiles on every platform, except for Windows with the tools of Microsoft on x86 and x86_64. -/
theorem abi_target_broken_partial (p : Platform) (hf : ¬ ("unix" ∈ p.families ∧ "windows" ∈ p.families)) :
    abiTarget p.config = .broken ↔ "windows" ∈ p.families ∧ p.env = "msvc" ∧ (p.arch = "x86" ∨ p.arch = "x86_64") := by
  simp only [abiTarget, abiTargets, kept, List.filter_cons, List.filter_nil, Pred.eval.eq_3, Pred.evalAll, Bool.and_true, eval_arch, eval_env, eval_family]
  by_cases hu : "unix" ∈ p.families
  · have hw : "windows" ∉ p.families := fun h => hf ⟨hu, h⟩
    by_cases h1 : p.arch = "aarch64"
    · simp [h1, hu, hw, resolve]
    by_cases h2 : p.arch = "x86"
    · simp [h2, hu, hw, resolve]
    by_cases h3 : p.arch = "x86_64"
    · simp [h3, hu, hw, resolve]
    simp [Ne.symm h1, Ne.symm h2, Ne.symm h3, hu, hw, resolve]
  · rw [eq_comm (a := p.env), eq_comm (a := p.arch) (b := "x86"), eq_comm (a := p.arch) (b := "x86_64")]
    by_cases hw : "windows" ∈ p.families <;> by_cases he : "msvc" = p.env <;>
    by_cases h2 : "x86" = p.arch <;> by_cases h3 : "x86_64" = p.arch <;> simp [hu, hw, he, h2, h3, resolve]

/-- **C77** (c). The ABI that `target` stands for fits the platform, if the architecture is used as the ABI was made for, and on no other
platform. -/
theorem abi_fits_iff (a : Abi) (T : Target) : Fits T a.types ↔ a.MadeFor T := by
  obtain ⟨h, w, al⟩ := T
  cases a <;> cases h <;> cases w <;>
  simp [Fits, Abi.types, Abi.MadeFor, IsLp64, IsIntel386, Verif.Ffi.Abi.aarch64_sysv, Verif.Ffi.Abi.x86_64_sysv, Verif.Ffi.Abi.x86_sysv, nativeAbi,
    Verif.Ffi.Abi.Le, lay, order, reprC_integer, Verif.Bin.roundUp, Verif.Ffi.Abi.Prim.bytes, Width.bytes, PtrWidth.bytes,
    Verif.Ffi.Abi.i, Verif.Ffi.Abi.u, Verif.Ffi.Abi.nz]
  all_goals omega

/-- **C77** (d). What `target` stands for fits the platform, whenever the platform is used as usual for its architecture. -/
theorem abi_target_fits_partial (p : Platform) (hf : ¬ ("unix" ∈ p.families ∧ "windows" ∈ p.families)) (a : Abi)
    (h : abiTarget p.config = .is a) (hm : if p.arch = "x86" then IsIntel386 p.target else IsLp64 p.target) : Fits p.target a.types := by
  have e := ((abi_target_is p hf a).mp h).2
  rw [abi_fits_iff]
  rw [e] at hm
  cases a <;> exact hm

/-- **C77** (e). On other platforms it does not: `target` is little-endian on big-endian aarch64, and has addresses of 64 bits on x32, where addresses
have 32 bits. -/
theorem abi_target_wrong :
    (abiTarget aarch64_be.config = .is .aarch64_sysv ∧ ¬ Fits aarch64_be.target Abi.aarch64_sysv.types) ∧
    (abiTarget x86_64_x32.config = .is .x86_64_sysv ∧ ¬ Fits x86_64_x32.target Abi.x86_64_sysv.types) := by
  refine ⟨⟨by decide, ?_⟩, by decide, ?_⟩ <;> rw [abi_fits_iff]
  · exact fun h => absurd h.1 (by decide)
  · exact fun h => absurd h.2.1 (by decide)

/-- **C77** (f). There are platforms for which the crate does not compile. -/
theorem abi_target_broken : abiTarget x86_64_msvc.config = .broken := by decide

/-- **C77** (g). `target` and `native` of the Linux interfaces exist exactly on the three architectures, and stand for the platform module of
the architecture; its ABI is the one of the architecture. -/
theorem linux_target_is (p : Platform) (l : Linux) :
    (linuxTarget p.config = .is l ↔ ∃ a, l.abi = some a ∧ p.arch = a.arch) ∧
    (linuxNative p.config = .is l ↔ ∃ a, l.abi = some a ∧ p.arch = a.arch) ∧
    linuxTarget p.config ≠ .broken ∧ linuxNative p.config ≠ .broken := by
  have e : linuxNative = linuxTarget := rfl
  rw [e]
  have k : (linuxTarget p.config = .is l ↔ ∃ a, l.abi = some a ∧ p.arch = a.arch) ∧ linuxTarget p.config ≠ .broken := by
    simp only [linuxTarget, platforms, List.map_cons, List.map_nil, kept, List.filter_cons, List.filter_nil, eval_arch]
    have ha : l.abi = some (match l with | .aarch64 => .aarch64_sysv | .x86 => .x86_sysv | .x86_64 => .x86_64_sysv) := by cases l <;> rfl
    rw [ha]
    by_cases h1 : p.arch = "aarch64"
    · cases l <;> simp [h1, resolve, Abi.arch]
    by_cases h2 : p.arch = "x86"
    · cases l <;> simp [h2, resolve, Abi.arch]
    by_cases h3 : p.arch = "x86_64"
    · cases l <;> simp [h3, resolve, Abi.arch]
    cases l <;> simp [h1, h2, h3, Ne.symm h1, Ne.symm h2, Ne.symm h3, resolve, Abi.arch]
  exact ⟨k.1, k.1, k.2, k.2⟩

/-- **C77** (h). The ABI of the `target` module fits the platform exactly if the platform is one that the ABI was made for. -/
theorem linux_target_fits_partial (p : Platform) (l : Linux) (h : linuxTarget p.config = .is l) :
    ∃ a, l.abi = some a ∧ p.arch = a.arch ∧ (Fits p.target a.types ↔ if p.arch = "x86" then IsIntel386 p.target else IsLp64 p.target) := by
  obtain ⟨a, ha, hp⟩ := (linux_target_is p l).1.mp h
  refine ⟨a, ha, hp, ?_⟩
  rw [abi_fits_iff, hp]
  cases a <;> exact Iff.rfl

/-- **C77** (i). On other architectures `native` does not exist, even with the feature `libc`, although it is documented to use the module
`libc` then. -/
theorem linux_native_no_fallback :
    (∀ p : Platform, p.arch ∉ ["aarch64", "x86", "x86_64"] → linuxNative p.config = .missing) ∧
    riscv64_libc.arch ∉ ["aarch64", "x86", "x86_64"] ∧ hasLibc riscv64_libc.config = true := by
  refine ⟨fun p h => ?_, by decide, by decide⟩
  simp only [List.mem_cons, List.not_mem_nil, or_false, not_or] at h
  simp [linuxNative, platforms, kept, eval_arch, Ne.symm h.1, Ne.symm h.2.1, Ne.symm h.2.2, resolve]

/-- **C77** (j). The module `libc` exists exactly with the feature of that name. -/
theorem libc_iff (p : Platform) : hasLibc p.config = true ↔ "libc" ∈ p.features := by
  rw [hasLibc, eval_feature, decide_eq_true_iff]

/-- **C77** (k). `elfn` is the ELF format with addresses of the size of the platform; it is missing only if these have 16 bits. -/
theorem elfn_is (p : Platform) :
    (p.target.ptr = .w32 → elfn p.config = .is .elf32) ∧ (p.target.ptr = .w64 → elfn p.config = .is .elf64) ∧
    (p.target.ptr = .w16 → elfn p.config = .missing) := by
  simp only [elfn, kept, List.filter_cons, List.filter_nil, eval_width]
  cases p.target.ptr <;> simp [widthText, resolve]

/-- **C77** (l). Its relocation entry, which consists of two addresses, has the size of two addresses of the platform, and is aligned to the size of
one. The hypothesis says that the platform aligns no number to more than its size. -/
theorem elfn_words (p : Platform) (c : Verif.Bin.Class) (h : elfn p.config = .is c) (T : Verif.Bin.Target)
    (hT : T = ⟨p.target.alignOf 2, p.target.alignOf 4, p.target.alignOf 8⟩) (hs : T.Sane) :
    Verif.Bin.reprC (Verif.Bin.elfAlign c) (Verif.Bin.elfRel T c) = ⟨2 * p.target.ptr.bytes, p.target.ptr.bytes⟩ := by
  have e := elfn_is p
  have k := (Verif.Bin.elf_layout hs c).2.2.2.2.2.1.2
  rw [k]
  cases hw : p.target.ptr with
  | w16 => rw [e.2.2 hw] at h; cases h
  | w32 => rw [e.1 hw] at h; cases h; rfl
  | w64 => rw [e.2.1 hw] at h; cases h; rfl

/-- **C77** (m). The integers that are addresses of the platform are those of the size of an address, and there is always one. -/
theorem addresses_are (p : Platform) (w : Width) (z : Bool) :
    none ∉ nativeAddresses p.config ∧
    (some (w, z) ∈ nativeAddresses p.config ↔ w.bytes p.target = p.target.ptr.bytes) := by
  simp only [nativeAddresses, kept, List.filter_cons, List.filter_nil, Pred.eval.eq_3, Pred.eval.eq_4, Pred.eval.eq_5, Pred.evalAll, Pred.evalAny, eval_width]
  cases hw : p.target.ptr <;> cases w <;> cases z <;> simp [widthText, Width.bytes, PtrWidth.bytes, hw]

example : abiTarget x86_64_linux.config = .is .x86_64_sysv ∧ linuxNative x86_64_linux.config = .is .x86_64 ∧
    elfn x86_64_linux.config = .is .elf64 ∧ hasLibc x86_64_linux.config = false := by decide
example : abiTarget i686_linux.config = .is .x86_sysv ∧ linuxTarget i686_linux.config = .is .x86 ∧ elfn i686_linux.config = .is .elf32 ∧
    hasLibc i686_linux.config = true := by decide
example : ¬ ("unix" ∈ i686_linux.families ∧ "windows" ∈ i686_linux.families) ∧ IsIntel386 i686_linux.target := by
  refine ⟨by decide, rfl, rfl, by decide, by decide⟩
example : elfn x86_64_x32.config = .is .elf32 ∧ elfn avr.config = .missing ∧ abiTarget avr.config = .missing := by decide
example : (⟨i686_linux.target.alignOf 2, i686_linux.target.alignOf 4, i686_linux.target.alignOf 8⟩ : Verif.Bin.Target).Sane :=
  ⟨by decide, by decide, by decide⟩
example : some (Width.w32, true) ∈ nativeAddresses x86_64_x32.config ∧ some (Width.w64, true) ∉ nativeAddresses x86_64_x32.config := by decide

end Verif.Cfg
