import Verif.Ssa.Spec
/-!
# What is asked of removing and merging blocks
-/

namespace Verif.Prune

open Verif.Il Verif.Graph Verif.Opt Verif.Ssa

/-- Every phi has at least two entries. -/
def PhisJoin (c : Cfg) : Prop := ∀ l k i, instAt c l k = some i → i.t = .phi → 2 ≤ i.labels.length

/-- The two targets of a branch differ. -/
def BranchesFork (c : Cfg) : Prop := ∀ l k i, instAt c l k = some i → i.t = .condGoto → i.labels.Nodup

/-- A block without instructions, or with nothing but a branch to such a block: one that may vanish. -/
inductive Hollow (c : Cfg) : Nat → Prop where
  | empty {p : Nat} : blockOf c p = [] → Hollow c p
  | fork {p s : Nat} {i : Inst} : blockOf c p = [i] → i.t = .condGoto → c.graph.Edge p s → Hollow c s → Hollow c p

/-- From the end of one block to the end of another one, through blocks that may vanish. -/
inductive Chain (c : Cfg) : Nat → Nat → Prop where
  | refl {p : Nat} : Chain c p p
  | step {b d p : Nat} : c.graph.Edge b d → Hollow c d → Chain c d p → Chain c b p

/-- If the blocks that may vanish do, every phi still is entered from two blocks and has one value for each: no
block leads through such blocks to all the predecessors, or to two for which the values differ. -/
def NoRace (c : Cfg) : Prop :=
  ∀ l k i, instAt c l k = some i → i.t = .phi → ∀ b,
    (∃ p ∈ i.labels, ¬ Chain c b p) ∧
    ∀ p x q y, (p, x) ∈ i.labels.zip i.args → (q, y) ∈ i.labels.zip i.args → Chain c b p → Chain c b q → x = y

/-- If the entry has the label 0 and may vanish, no way of blocks that may vanish leads from it to a phi. -/
def EntryApart (c : Cfg) : Prop :=
  c.entry = 0 → Hollow c 0 → ∀ l k i, instAt c l k = some i → i.t = .phi → ∀ p, c.graph.Edge p l → ¬ Chain c 0 p

/-- The second program runs as the first one, in fewer steps: there is a strictly increasing sequence of times
of the first program at which it is over exactly if the second is and has the same world. -/
def Skips (c c' : Cfg) : Prop :=
  ∀ (V W : Type) (I : Interp V W) (e : Nat → V) (w : W), ∃ f : Nat → Nat, (∀ k, f k < f (k + 1)) ∧
    ∀ k, ((Opt.run I c' e w k).at_ = none ↔ (Opt.run I c e w (f k)).at_ = none) ∧
      (Opt.run I c' e w k).world = (Opt.run I c e w (f k)).world

/-- No block without successors is empty, except perhaps the entry. -/
def NoEmptyExit (c : Cfg) : Prop :=
  ∀ l, (Cfg.block c l).isSome → l ≠ c.entry → (∀ s, ¬ c.graph.Edge l s) → blockOf c l ≠ []

/-- Nothing is left to merge: no block but the entry is the only successor of its only predecessor, and no empty
block but the entry has a successor other than itself. -/
def Merged (c : Cfg) : Prop :=
  ∀ l, (Cfg.block c l).isSome → l ≠ c.entry → ¬ c.graph.Edge l l →
    (∀ p, (∀ q, c.graph.Edge q l ↔ q = p) → ∃ s, s ≠ l ∧ c.graph.Edge p s) ∧
    (blockOf c l = [] → ∀ s, ¬ c.graph.Edge l s)

end Verif.Prune
