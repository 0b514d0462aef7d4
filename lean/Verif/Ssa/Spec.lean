import Verif.Opt.Spec
/-!
# What is asked of a program in SSA form, and of a program before

The language, its meaning and strict SSA are those of `Verif.Opt.Spec`.
-/

namespace Verif.Ssa

open Verif.Il Verif.Graph Verif.Opt

/-- All variables the program writes or reads are below `n`. -/
def VarsBelow (c : Cfg) (n : Nat) : Prop :=
  ∀ l k i, instAt c l k = some i → (∀ v ∈ i.tgts, v < n) ∧ ∀ v, Arg.var v ∈ i.args → v < n

/-- Every block, and every block control can leave, can be reached from the entry. -/
def AllReachable (c : Cfg) : Prop :=
  (∀ l, (Cfg.block c l).isSome → Reach c.graph.Edge c.entry l) ∧
    ∀ a b, c.graph.Edge a b → Reach c.graph.Edge c.entry a

/-- Control never comes back to the entry. -/
def FreshEntry (c : Cfg) : Prop := ∀ p, ¬ c.graph.Edge p c.entry

/-- Every phi has exactly one entry for each predecessor of its block, in increasing order. -/
def PhisComplete (c : Cfg) : Prop :=
  ∀ l k i, instAt c l k = some i → i.t = .phi →
    i.labels.Pairwise (fun a b : Nat => a < b) ∧ ∀ p, p ∈ i.labels ↔ c.graph.Edge p l

/-- The programs the optimizer works on between entering and leaving SSA: well-formed, in strict SSA form, all
blocks reachable, no phis at the entry, in every phi an entry for each predecessor of
its block, a block for each node, and no edges from a branch but those it takes. -/
structure SsaProgram (c : Cfg) : Prop where
  graph : ∃ ops, Graph.run ops = some c.graph
  wf : WellFormed c
  ssa : StrictSSA c
  reach : AllReachable c
  entry : ∀ k i, instAt c c.entry k = some i → i.t ≠ .phi
  cover : ∀ l k i, instAt c l k = some i → i.t = .phi → ∀ p, c.graph.Edge p l → p ∈ i.labels
  nodes : ∀ l, c.graph.contains l = true → (Cfg.block c l).isSome
  taken : ∀ l k i, instAt c l k = some i → i.t = .condGoto → ∀ s, c.graph.Edge l s → s ∈ i.labels

/-- ToBoolean: false for `undefined`, `null`, `false`, `0n`, the empty string, the two zeros and NaN (bit
patterns of doubles). -/
def Falsy : Const → Prop
  | .bigint v => v = 0
  | .bool b => b = false
  | .num b => b % 2 ^ 63 = 0 ∨ 2047 * 2 ^ 52 < b % 2 ^ 63
  | .str s => s = []
  | .null | .undefined => True

/-- The interpretation takes the true branch on the constants JavaScript does. -/
def ConstTruth {V W : Type} (I : Interp V W) : Prop :=
  ∀ k, I.truthy (I.lit (.const k)) = true ↔ ¬ Falsy k

/-- No branch is on a BigInt constant. -/
def NoBigIntBranch (c : Cfg) : Prop :=
  ∀ l k i, instAt c l k = some i → i.t = .condGoto → ∀ v, Arg.const (.bigint v) ∉ i.args

/-- Every branch depends on a value not known yet and has two targets. -/
def BranchesOpen (c : Cfg) : Prop :=
  ∀ l k i, instAt c l k = some i → i.t = .condGoto →
    i.labels.Nodup ∧ ∀ v, Arg.const v ∉ i.args

/-- Both programs pass through the same blocks with the same world, whatever the operations do. -/
def SameRuns (c c' : Cfg) : Prop :=
  ∀ {V W : Type} (I : Interp V W) (e : Nat → V) (w : W) (m : Nat),
    (Opt.run I c' e w m).at_ = (Opt.run I c e w m).at_ ∧
    (Opt.run I c' e w m).world = (Opt.run I c e w m).world

/-- The same, when the operations take the true branch on the constants JavaScript does. -/
def SameRunsConst (c c' : Cfg) : Prop :=
  ∀ {V W : Type} (I : Interp V W), ConstTruth I → ∀ (e : Nat → V) (w : W) (m : Nat),
    (Opt.run I c' e w m).at_ = (Opt.run I c e w m).at_ ∧
    (Opt.run I c' e w m).world = (Opt.run I c e w m).world

/-- Every node of the graph has a block. -/
def NodesHaveBlocks (c : Cfg) : Prop := ∀ l, c.graph.contains l = true → (Cfg.block c l).isSome

/-- The edges from a block that ends in a branch are those the branch takes. -/
def EdgesTaken (c : Cfg) : Prop :=
  ∀ l k i, instAt c l k = some i → i.t = .condGoto → ∀ s, c.graph.Edge l s → s ∈ i.labels

/-- Only a branch has more than one successor. -/
def OnlyBranchesFork (c : Cfg) : Prop :=
  ∀ l, (∀ k i, instAt c l k = some i → i.t ≠ .condGoto) → ∀ a b, c.graph.Edge l a → c.graph.Edge l b → a = b

/-- Every instruction of the second program but phis is of the kind of one of the first and has its operation. -/
def OpsFrom (c c' : Cfg) : Prop :=
  ∀ l k i, instAt c' l k = some i → i.t ≠ .phi → ∃ l0 k0 i0, instAt c l0 k0 = some i0 ∧ i.t = i0.t ∧ opcode i = opcode i0

end Verif.Ssa
