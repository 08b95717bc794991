import Verif.Args.Model
/-! # Specification: commands as a tree

A tree of commands as a user would draw it, and the order of visiting it depth-first, each node before its sub-nodes. -/
namespace Verif.Args

mutual
/-- A node of the tree: the flags and help of its command, if a command is registered there, and what is below. -/
inductive CmdTree
  | node (cmd : Option (List Flag × Option Bytes)) (kids : CmdForest)
/-- Named sub-trees, one after the other. -/
inductive CmdForest
  | nil
  | cons (name : Bytes) (tree : CmdTree) (rest : CmdForest)
end

/-- The names at the roots. -/
def CmdForest.names : CmdForest → List Bytes
  | .nil => []
  | .cons n _ r => n :: r.names

mutual
/-- Depth-first pre-order: the command at a node, then all of those below, level by level in the order they are in. `at_` is
the path of the node. -/
def CmdTree.preorder (at_ : Path) : CmdTree → List Command
  | .node cmd kids => (cmd.map fun x => (⟨at_, x.1, x.2⟩ : Command)).toList ++ kids.preorder at_
def CmdForest.preorder (at_ : Path) : CmdForest → List Command
  | .nil => []
  | .cons n t r => t.preorder (at_ ++ [n]) ++ r.preorder at_
end

mutual
/-- Every level is in lexicographic order, without names that occur twice. -/
def CmdTree.Ordered : CmdTree → Prop
  | .node _ kids => kids.names.Pairwise (fun a b => cmpStr a b = .lt) ∧ kids.Ordered
def CmdForest.Ordered : CmdForest → Prop
  | .nil => True
  | .cons _ t r => t.Ordered ∧ r.Ordered
end

end Verif.Args
