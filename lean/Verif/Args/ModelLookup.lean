import Verif.Args.ModelSearch
/-! # Looking up commands and flags, with the number of comparisons

The functions of `Model` and `ModelSearch` once more. Each also returns how often it compared the path of a command, or the name
of a flag, with what it looks for. -/
namespace Verif.Args

variable {α : Type}

/-- `bisect` (the `while` of `slice::binary_search_by`), which compares once per iteration. -/
def bisectM (f : α → Ordering) (l : List α) (base size : Nat) : Option Nat × Nat :=
  if size ≤ 1 then (some base, 0)
  else
    match l[base + size / 2]? with
    | none => (none, 0)
    | some a =>
      let r := bisectM f l (if f a = .gt then base else base + size / 2) (size - size / 2)
      (r.1, r.2 + 1)
termination_by size

/-- `slice::binary_search_by(..).ok()`, which compares once more behind its loop. -/
def binarySearchM (f : α → Ordering) (l : List α) : Option Nat × Nat :=
  if l.length = 0 then (none, 0)
  else
    match bisectM f l 0 l.length with
    | (none, n) => (none, n)
    | (some base, n) =>
      match l[base]? with
      | none => (none, n)
      | some a => (if f a = .eq then some base else none, n + 1)

/-- The `while` of parse.rs 226-233: one comparison per test of its condition, but none at index 0. -/
def backUpM (sc : Schema) (k : Path) (name : Bytes) : Nat → Option Nat × Nat
  | 0 => (some 0, 0)
  | cand + 1 =>
    match sc.cmds[cand]? with
    | none => (none, 0)
    | some c =>
      if compare_prefix c.path k name = .eq then
        let r := backUpM sc k name cand
        (r.1, r.2 + 1)
      else (some (cand + 1), 1)

/-- `Cursor::enter`, parse.rs 196-240. -/
def enterM (sc : Schema) (cur : Cursor) (name : Bytes) : Option (Option Cursor) × Nat :=
  match key sc cur with
  | none => (none, 0)
  | some k =>
    match binarySearchM (fun c : Command => compare_prefix c.path k name) sc.cmds with
    | (none, n) => (some none, n)
    | (some i, n) =>
      let r := backUpM sc k name i
      (r.1.map fun cand => some (some ⟨cand, k.length + 1⟩), n + r.2)

/-- The loop of `Cursor::find_flag`, parse.rs 248-257. -/
def findLoopM (sc : Schema) (name : Bytes) : Nat → Option Nat → Option (Option (Nat × Nat)) × Nat
  | _, none => (some none, 0)
  | 0, some _ => (none, 0)
  | f + 1, some idx =>
    match sc.cmds[idx]? with
    | none => (none, 0)
    | some c =>
      match binarySearchM (fun fl : Flag => cmpStr fl.name name) c.flags with
      | (some v, n) => (some (some (idx, v)), n)
      | (none, n) =>
        match up_from sc idx with
        | none => (none, n)
        | some up =>
          let r := findLoopM sc name f up
          (r.1, n + r.2)

/-- `Cursor::find_flag`, parse.rs 242-260. -/
def find_flagM (sc : Schema) (cur : Cursor) (name : Bytes) : Option (Option (Nat × Nat)) × Nat :=
  findLoopM sc name (sc.cmds.length + 1) (cur.map (·.index))

/-- The lookup with and without `no-`, parse.rs 292-310. -/
def resolve_flagM (sc : Schema) (cur : Cursor) (flag : Bytes) : Option (Option ((Nat × Nat) × Bool)) × Nat :=
  match find_flagM sc cur flag with
  | (none, n) => (none, n)
  | (some (some v), n) => (some (some (v, false)), n)
  | (some none, n) =>
    match stripPrefix sNo flag with
    | none => (some none, n)
    | some stripped =>
      let r := find_flagM sc cur stripped
      (r.1.map (·.map (·, true)), n + r.2)

end Verif.Args
