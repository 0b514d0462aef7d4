import Verif.Il.Model
import Verif.Graph.Spec
/-!
# What a program in the intermediate language means

The meaning is given for an arbitrary interpretation of the opcodes: values `V`, and a world `W` that holds
everything outside the variables (the heap, the outer scopes, the record of all calls made so far).  Two
programs that leave the same world for every interpretation have made the same calls and stores with the same
values in the same order, since the world may be taken to be the list of all of them.

Nothing here mentions a pass of the optimizer.
-/

namespace Verif.Opt

open Verif.Il Verif.Graph

/-- What an instruction does, without its operands and targets. -/
inductive Opcode where
  | bin (op : BinOp)
  | un (op : UnOp)
  | propAssign
  | call (spreads : List Nat)
  | foreignLoad (s : Nat)
  | foreignStore (s : Nat)
  | unknownLoad (name : List Nat)
  | unknownStore (name : List Nat)
  | nop

def opcode (i : Inst) : Opcode :=
  match i.t with
  | .bin => .bin i.binOp
  | .un => .un i.unOp
  | .propAssign => .propAssign
  | .call => .call i.spreads
  | .foreignLoad => .foreignLoad i.foreign
  | .foreignStore => .foreignStore i.foreign
  | .unknownLoad => .unknownLoad i.unknown
  | .unknownStore => .unknownStore i.unknown
  | _ => .nop

/-- An interpretation: the value of a builtin, constant or function argument; the result and effect of an
operation on values; and which values take the true branch. -/
structure Interp (V W : Type) where
  lit : Arg → V
  op : Opcode → List V → W → V × W
  truthy : V → Bool

section
variable {V W : Type}

/-- The value of an argument. -/
def valOf (I : Interp V W) (e : Nat → V) : Arg → V
  | .var v => e v
  | a => I.lit a

/-- Store `v` in all targets. -/
def setAll (e : Nat → V) (tgts : List Nat) (v : V) : Nat → V := fun x => if x ∈ tgts then v else e x

/-- One instruction.  Phis act when their block is entered (`enter`) and branches when it is left (`next`). -/
def exec (I : Interp V W) (i : Inst) (s : (Nat → V) × W) : (Nat → V) × W :=
  match i.t with
  | .phi | .condGoto | .label | .goto | .dummy => s
  | .varAssign =>
    match i.args with
    | a :: _ => (setAll s.1 i.tgts (valOf I s.1 a), s.2)
    | [] => s
  | _ =>
    let r := I.op (opcode i) (i.args.map (valOf I s.1)) s.2
    (setAll s.1 i.tgts r.1, r.2)

/-- Instructions in order. -/
def execAll (I : Interp V W) (is : List Inst) (s : (Nat → V) × W) : (Nat → V) × W :=
  is.foldl (fun s i => exec I i s) s

/-- The phis of a block entered from `pred`: all read the variables as they were at the end of `pred`. -/
def enter (I : Interp V W) (src : Nat → V) (pred : Nat) : List Inst → (Nat → V) → (Nat → V)
  | [], e => e
  | i :: is, e =>
    enter I src pred is
      (if i.t = .phi then
        match (i.labels.zip i.args).lookup pred with
        | some a => setAll e i.tgts (valOf I src a)
        | none => e
      else e)

/-- Where control goes at the end of a block: by the branch that ends it, or else to the only child. -/
def next (I : Interp V W) (c : Cfg) (l : Nat) (is : List Inst) (e : Nat → V) : Option Nat :=
  let single := match c.graph.children l with
    | [s] => some s
    | _ => none
  match is.getLast? with
  | some i =>
    if i.t = .condGoto then
      match i.args, i.labels with
      | a :: _, t :: f :: _ => some (if I.truthy (valOf I e a) then t else f)
      | _, _ => none
    else single
  | none => single

/-- A run between two blocks: the block about to be executed (`none` when the run is over), after its phis;
the variables; the world. -/
structure Conf (V W : Type) where
  at_ : Option Nat
  env : Nat → V
  world : W

/-- The instructions of a block; a missing block has none. -/
def blockOf (c : Cfg) (l : Nat) : List Inst := (Cfg.block c l).getD []

/-- Execute one block and enter the next one. -/
def step (I : Interp V W) (c : Cfg) (x : Conf V W) : Conf V W :=
  match x.at_ with
  | none => x
  | some l =>
    let s := execAll I (blockOf c l) (x.env, x.world)
    match next I c l (blockOf c l) s.1 with
    | none => ⟨none, s.1, s.2⟩
    | some n => ⟨some n, enter I s.1 l (blockOf c n) s.1, s.2⟩

/-- The state after `n` blocks, started at the entry. -/
def run (I : Interp V W) (c : Cfg) (e : Nat → V) (w : W) : Nat → Conf V W
  | 0 => ⟨some c.entry, e, w⟩
  | n + 1 => step I c (run I c e w n)

end

/-! ## Well-formed programs and strict SSA -/

/-- The shapes the constructors of `Inst` give, and no pseudo-instructions. -/
def Shape (i : Inst) : Prop :=
  match i.t with
  | .bin => (∃ t, i.tgts = [t]) ∧ ∃ a b, i.args = [a, b]
  | .un => (∃ t, i.tgts = [t]) ∧ ∃ a, i.args = [a]
  | .varAssign => (∃ t, i.tgts = [t]) ∧ ∃ a, i.args = [a]
  | .propAssign => i.tgts = [] ∧ ∃ a b v, i.args = [a, b, v]
  | .condGoto => i.tgts = [] ∧ (∃ a, i.args = [a]) ∧ ∃ t f, i.labels = [t, f]
  | .call => i.tgts.length ≤ 1 ∧ 2 ≤ i.args.length
  | .foreignLoad | .unknownLoad => (∃ t, i.tgts = [t]) ∧ i.args = []
  | .foreignStore | .unknownStore => i.tgts = [] ∧ ∃ a, i.args = [a]
  | .phi => (∃ t, i.tgts = [t]) ∧ i.labels.length = i.args.length
  | .label | .goto | .dummy => False

/-- Instruction `k` of block `l`. -/
def instAt (c : Cfg) (l k : Nat) : Option Inst := (blockOf c l)[k]?

/-- A well-formed control-flow graph: labels name one block each, the entry and every child of a node have a
block; every instruction has its shape; branches only end blocks and go to
children in the graph; phis only start blocks, with at most one entry for each predecessor. -/
structure WellFormed (c : Cfg) : Prop where
  labels : (c.bblocks.map (·.1)).Nodup
  entryBlock : (Cfg.block c c.entry).isSome
  edgeBlock : ∀ a b, c.graph.Edge a b → (Cfg.block c b).isSome
  shape : ∀ l k i, instAt c l k = some i → Shape i
  branchLast : ∀ l k i, instAt c l k = some i → i.t = .condGoto → k + 1 = (blockOf c l).length
  branchTo : ∀ l k i, instAt c l k = some i → i.t = .condGoto → ∀ s ∈ i.labels, c.graph.Edge l s
  phiFirst : ∀ l k j i i', instAt c l k = some i → i.t = .phi → j ≤ k → instAt c l j = some i' → i'.t = .phi
  phiOnce : ∀ l k i, instAt c l k = some i → i.t = .phi → i.labels.Nodup

/-- A place where variables are written: instruction `k` of block `l`, or the phis of block `l`. -/
inductive Site where
  | inst (l k : Nat)
  | phis (l : Nat)
deriving DecidableEq

/-- A walk through the program from its entry to the point before instruction `k` of block `l`, along the
edges of the graph; the list holds the sites passed, latest first. -/
inductive Trail (c : Cfg) : List Site → Nat → Nat → Prop where
  | start : Trail c [] c.entry 0
  | inst {ms : List Site} {l k : Nat} : Trail c ms l k → k < (blockOf c l).length →
      Trail c (.inst l k :: ms) l (k + 1)
  | jump {ms : List Site} {l s : Nat} : Trail c ms l (blockOf c l).length → c.graph.Edge l s →
      Trail c (.phis s :: ms) s 0

/-- The site writes the variable. -/
def Defines (c : Cfg) : Site → Nat → Prop
  | .inst l k, v => ∃ i, instAt c l k = some i ∧ i.t ≠ .phi ∧ v ∈ i.tgts
  | .phis l, v => ∃ k i, instAt c l k = some i ∧ i.t = .phi ∧ v ∈ i.tgts

/-- Every walk to the point passes the site. -/
def Passes (c : Cfg) (d : Site) (l k : Nat) : Prop := ∀ ms, Trail c ms l k → d ∈ ms

/-- The argument is available at the point: if it is a variable that is written at all, every walk to the
point passes the place that writes it. -/
def Avail (c : Cfg) (a : Arg) (l k : Nat) : Prop := ∀ x, a = .var x → ∀ d, Defines c d x → Passes c d l k

/-- Strict SSA: every variable is written by at most one instruction, and what is read is available: at the
instruction that reads it or, for a phi, at the end of the predecessor. -/
structure StrictSSA (c : Cfg) : Prop where
  once : ∀ l k i l' k' i' v, instAt c l k = some i → instAt c l' k' = some i' →
    v ∈ i.tgts → v ∈ i'.tgts → l = l' ∧ k = k'
  avail : ∀ l k i, instAt c l k = some i → i.t ≠ .phi → ∀ a ∈ i.args, Avail c a l k
  availPhi : ∀ l k i, instAt c l k = some i → i.t = .phi → ∀ p a, (p, a) ∈ i.labels.zip i.args →
    Avail c a p (blockOf c p).length

/-- No copy reads the target of another copy. -/
def NoCopyChains (c : Cfg) : Prop :=
  ∀ l k i l' k' i' y, instAt c l k = some i → i.t = .varAssign → Arg.var y ∈ i.args →
    instAt c l' k' = some i' → i'.t = .varAssign → y ∉ i'.tgts

/-- The entries of phis name predecessors of their block, and these have a block. -/
def PhiParents (c : Cfg) : Prop :=
  ∀ l k i p, instAt c l k = some i → i.t = .phi → p ∈ i.labels → c.graph.Edge p l ∧ (Cfg.block c p).isSome

/-- On no edge does a phi read what an earlier phi of the same block writes on that edge. -/
def NoClobber (c : Cfg) : Prop :=
  ∀ l j k i i' p x, instAt c l j = some i → i.t = .phi → p ∈ i.labels → instAt c l k = some i' → i'.t = .phi →
    j < k → (p, Arg.var x) ∈ i'.labels.zip i'.args → x ∉ i.tgts

/-- All labels of blocks and of nodes of the graph are below `n`. -/
def LabelsBelow (c : Cfg) (n : Nat) : Prop :=
  (∀ l ∈ c.bblocks.map (·.1), l < n) ∧ ∀ l ∈ c.graph.labels, l < n

/-- There are no phis. -/
def NoPhis (c : Cfg) : Prop := ∀ l k i, instAt c l k = some i → i.t ≠ .phi

/-! ## Assumptions on the interpretation -/

section
variable {V W : Type}

/-- Computing and loading has no effect on the world. -/
structure ReadsAreSilent (I : Interp V W) : Prop where
  bin : ∀ (o : BinOp) (vs : List V) (w : W), (I.op (.bin o) vs w).2 = w
  un : ∀ (o : UnOp) (vs : List V) (w : W), (I.op (.un o) vs w).2 = w
  foreignLoad : ∀ (s : Nat) (vs : List V) (w : W), (I.op (.foreignLoad s) vs w).2 = w
  unknownLoad : ∀ (name : List Nat) (vs : List V) (w : W), (I.op (.unknownLoad name) vs w).2 = w

/-- The operation always gives the same result on the same values, whatever the world. -/
def Timeless (I : Interp V W) (o : Opcode) : Prop :=
  ∀ (vs : List V) (w w' : W), (I.op o vs w).1 = (I.op o vs w').1

end

end Verif.Opt
