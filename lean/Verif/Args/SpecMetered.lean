import Verif.Args.Model
/-! # Specification: arguments that can be flags -/
namespace Verif.Args

/-- The number of arguments that begin with two dashes. -/
def dashed (args : List Bytes) : Nat := args.countP fun a => [0x2d, 0x2d].isPrefixOf a

end Verif.Args
