import Verif.Prune.Model
import Verif.Lin.Model
/-!
# The optimizer's main loop

Source: `build_program_function` of `optimize-js/src/lib.rs`.
-/

namespace Verif.Pipe

open Verif.Il Verif.Graph Verif.Dom Verif.Opt Verif.Ssa Verif.Prune

/-- The first three passes of an iteration: lib.rs 494–503.  The dominators are computed anew; `DomCache` keeps
those of the last iteration unless a pass reported that it changed the graph (dom cache: lib.rs 495, 506, 510), which
comes to the same.  The fuel bounds the recursion in the two. -/
def valueRound (K : Evaluator) (fuel : Nat) (c : Cfg) : Option Cfg := do
  let d ← calculateDom c.graph fuel c.entry
  let c ← dvn K d fuel c
  redundantAssigns (trivialDce c)

/-- One iteration: lib.rs 493–513. -/
def optRound (K : Evaluator) (fuel : Nat) (c : Cfg) : Option Cfg := do
  let c ← valueRound K fuel c
  let c ← impossibleBranches fuel c
  cfgPrune fuel c

/-- So many iterations: lib.rs 492–518.  The program goes on until no pass reports a change; the number of
iterations is a parameter of the model, and what is proved holds for every number. -/
def optRounds (K : Evaluator) (fuel : Nat) : Nat → Cfg → Option Cfg
  | 0, c => some c
  | r + 1, c => do
    let c ← optRound K fuel c
    optRounds K fuel r c

/-- `build_program_function`: lib.rs 459–529, without debugging and statistics.  `n` and `m` are the next label and
the next variable of the counters. -/
def buildFunction (K : Evaluator) (fuel rounds : Nat) (code : List Inst) (n m : Nat) : Option Cfg := do
  let (c, n) ← Lin.buildCfg code n
  let (c, _) ← construct fuel c m
  let c ← optRounds K fuel rounds c
  let (c, _) ← deconstruct c n
  some c

end Verif.Pipe
