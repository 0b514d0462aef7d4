import Verif.Ssa.Model
/-!
# Removing branches on constants

Source: `optimize-js/src/opt/optpass_impossible_branches.rs`, `coerce_to_bool` of
`optimize-js/src/eval/consteval.rs`.  Of the `PassResult` only what decides about another round is modelled.
-/

namespace Verif.Ssa

open Verif.Il Verif.Graph Verif.Opt

/-- `f64::is_nan` on a bit pattern. -/
def isNanBits (b : Nat) : Bool := b / 2 ^ 52 % 2 ^ 11 == 2047 && b % 2 ^ 52 != 0

/-- `coerce_to_bool`: consteval.rs 212–221.  `*v != 0.0` holds of all patterns but those of the two zeros. -/
def coerceToBool : Const → Bool
  | .bigint v => v == 0
  | .bool b => b
  | .null => false
  | .num b => !isNanBits b && !(b % 2 ^ 63 == 0)
  | .str s => !s.isEmpty
  | .undefined => false

/-- The body of the loop over the labels: optpass_impossible_branches.rs 18–47, with whether it did something.
Indexing in `as_cond_goto` (inst.rs 424–427), missing blocks and missing nodes panic. -/
def visitBranch (c : Cfg) (l : Nat) : Option (Cfg × Bool) := do
  let is ← Cfg.block c l
  match is.getLast? with
  | none => some (c, false)
  | some i =>
    if i.t ≠ .condGoto then some (c, false)
    else
      match i.args, i.labels with
      | a :: _, t :: f :: _ =>
        if t = f then some (setBlock c l is.dropLast, true)
        else
          match a with
          | .const k => do
            let g ← c.graph.disconnect l (if coerceToBool k then f else t)
            some ({ setBlock c l is.dropLast with graph := g }, true)
          | _ => some (c, false)
      | _, _ => none

/-- The loop over the labels, which were collected before it started: optpass_impossible_branches.rs 17–48. -/
def visitBranches : List Nat → Cfg → Option (Cfg × Bool)
  | [], c => some (c, false)
  | l :: ls, c => do
    let (c, b) ← visitBranch c l
    let (c, b') ← visitBranches ls c
    some (c, b || b')

/-- One iteration of the outer loop: optpass_impossible_branches.rs 16–75, with `iteration_changed`.  Lines
52–58 are those of `find_and_pop_unreachable`; the fuel for the search is enough by `C27_find_unreachable`. -/
def branchRound (c : Cfg) : Option (Cfg × Bool) := do
  let (c, b) ← visitBranches c.graph.labelsSorted c
  let (c, u) ← c.findAndPopUnreachable (c.graph.labels.length + 1)
  let (c, b') ← simplifyPhis c
  some (c, b || !u.isEmpty || b')

/-- `optpass_impossible_branches`: optpass_impossible_branches.rs 13–81.  The fuel bounds the iterations. -/
def impossibleBranches : Nat → Cfg → Option Cfg
  | 0, _ => none
  | fuel + 1, c => do
    let (c, b) ← branchRound c
    if b then impossibleBranches fuel c else some c

end Verif.Ssa
