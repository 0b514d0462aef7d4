import Verif.Graph.Model
/-!
# The intermediate language of `optimize-js`

Source: `optimize-js/src/il/inst.rs`, `optimize-js/src/cfg/bblock.rs`.

Simplifications: variables, labels, function numbers and symbols are natural numbers; strings are lists of
code points; a `JsNumber` constant is a natural number (its bit pattern; the passes modelled on top of this
file only compare it). The code compares 0 and -0 as equal; here they differ: see `NumKey/Theorems.lean`.
-/

namespace Verif.Il

/-- `Const`: inst.rs 11–18. -/
inductive Const where
  | bigint (v : Int)
  | bool (b : Bool)
  | null
  | num (bits : Nat)
  | str (s : List Nat)
  | undefined
deriving DecidableEq, Repr

/-- `Arg`: inst.rs 36–41. -/
inductive Arg where
  | builtin (path : List Nat)
  | const (c : Const)
  | fn (id : Nat)
  | var (v : Nat)
deriving DecidableEq, Repr

/-- `Arg::maybe_var`: inst.rs 44–49. -/
def Arg.maybeVar : Arg → Option Nat
  | .var v => some v
  | _ => none

/-- `BinOp`: inst.rs 77–100. -/
inductive BinOp where
  | add | bitAnd | bitOr | bitXor | div | exp | geq | getProp | gt | leq | looseEq | lt | mod | mul
  | notLooseEq | notStrictEq | shl | shr | ushr | strictEq | sub | dummy
deriving DecidableEq, Repr

/-- `UnOp`: inst.rs 134–142. -/
inductive UnOp where
  | bitNot | neg | not | plus | typeof | void | dummy
deriving DecidableEq, Repr

/-- `InstTyp`: inst.rs 160–184. -/
inductive InstTyp where
  | bin | un | varAssign | propAssign | condGoto | call | foreignLoad | foreignStore | unknownLoad
  | unknownStore | phi | label | goto | dummy
deriving DecidableEq, Repr

/-- `Inst`: inst.rs 204–233. -/
structure Inst where
  t : InstTyp
  tgts : List Nat := []
  args : List Arg := []
  spreads : List Nat := []
  labels : List Nat := []
  binOp : BinOp := .dummy
  unOp : UnOp := .dummy
  foreign : Nat := 0
  unknown : List Nat := []
deriving DecidableEq, Repr

/-- `if let Arg::Var(t) = arg` over all arguments, in order. -/
def Inst.argVars (i : Inst) : List Nat := i.args.filterMap Arg.maybeVar

/-- `Inst::bin`: inst.rs 276–284. -/
def Inst.bin (tgt : Nat) (l : Arg) (op : BinOp) (r : Arg) : Inst :=
  { t := .bin, tgts := [tgt], args := [l, r], binOp := op }

/-- `Inst::un`: inst.rs 286–294. -/
def Inst.un (tgt : Nat) (op : UnOp) (a : Arg) : Inst := { t := .un, tgts := [tgt], args := [a], unOp := op }

/-- `Inst::var_assign`: inst.rs 296–303. -/
def Inst.varAssign (tgt : Nat) (a : Arg) : Inst := { t := .varAssign, tgts := [tgt], args := [a] }

/-- `Inst::prop_assign`: inst.rs 305–311. -/
def Inst.propAssign (obj prop val : Arg) : Inst := { t := .propAssign, args := [obj, prop, val] }

/-- `Inst::cond_goto`: inst.rs 321–328. -/
def Inst.condGoto (c : Arg) (t f : Nat) : Inst := { t := .condGoto, args := [c], labels := [t, f] }

/-- `Inst::call`: inst.rs 330–346. -/
def Inst.call (tgt : Option Nat) (callee this : Arg) (args : List Arg) (spreads : List Nat) : Inst :=
  { t := .call, tgts := tgt.toList, args := callee :: this :: args, spreads := spreads }

/-- `Inst::phi_empty` followed by `insert_phi` for every pair: inst.rs 385–391, 245–256. -/
def Inst.phi (tgt : Nat) (es : List (Nat × Arg)) : Inst :=
  { t := .phi, tgts := [tgt], labels := es.map (·.1), args := es.map (·.2) }

/-- `Cfg`: cfg.rs 199–204, with its basic blocks (`CfgBBlocks`: cfg.rs 160). -/
abbrev Cfg := Verif.Graph.Cfg (List Inst)

/-- `CfgBBlocks::get`: cfg.rs 163–165; panics on a missing label. -/
def Cfg.block (c : Cfg) (l : Nat) : Option (List Inst) := c.bblocks.lookup l

end Verif.Il
