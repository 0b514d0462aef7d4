import Verif.Structure.Model
import Verif.Dom.Spec
/-!
# What running a control-flow graph and running statements mean

Operations and tests are given by a machine about which nothing is assumed.  An operation may throw, so
asking for the same end of both programs on every machine also compares their effects step by step, for
runs that never end too: a machine may throw at any moment with everything done so far.
-/

namespace Verif.Structure

open Verif.Graph Verif.Dom

variable {ι α σ ε : Type}

/-- What operations do and which operands are truthy. -/
structure Machine (ι α σ ε : Type) where
  exec : ι → σ → Except ε σ
  truthy : α → σ → Bool

/-- How a program ends. -/
inductive End (σ ε : Type) where
  | done (s : σ)
  | thrown (e : ε)
deriving DecidableEq, Repr

/-- The instructions of a block, in order; a jump has no effect of its own. -/
def runInsts (m : Machine ι α σ ε) : List (Inst ι α) → σ → Except ε σ
  | [], s => .ok s
  | .op i :: is, s =>
    match m.exec i s with
    | .error e => .error e
    | .ok s => runInsts m is s
  | .condGoto _ _ _ :: is, s => runInsts m is s

/-- One block: either the program ends, or it goes on with another block, or the block has no meaning
(it does not exist, or it has several successors and no condition). -/
inductive Move (σ ε : Type) where
  | stop (o : End σ ε)
  | goto (l : Nat) (s : σ)
  | undefined

/-- Run the block at a label: `Cfg::terminator`, cfg.rs 279–299, says where it goes. -/
def move (m : Machine ι α σ ε) (P : Prog ι α) (l : Nat) (s : σ) : Move σ ε :=
  match P.bblocks.lookup l with
  | none => .undefined
  | some block =>
    match runInsts m block s with
    | .error e => .stop (.thrown e)
    | .ok s =>
      match block.getLast? with
      | some (.condGoto c t f) => .goto (if m.truthy c s then t else f) s
      | _ =>
        match P.graph.children l with
        | [] => .stop (.done s)
        | [n] => .goto n s
        | _ => .undefined

/-- Run a control-flow graph from a block, for at most so many blocks. -/
def runCfg (m : Machine ι α σ ε) (P : Prog ι α) : Nat → Nat → σ → Option (End σ ε)
  | 0, _, _ => none
  | n + 1, l, s =>
    match move m P l s with
    | .stop o => some o
    | .goto l s => runCfg m P n l s
    | .undefined => none

/-- The control-flow graph, started at its entry, ends. -/
def CfgEnds (m : Machine ι α σ ε) (P : Prog ι α) (s : σ) (o : End σ ε) : Prop :=
  ∃ n, runCfg m P n P.entry s = some o

/-- The completion of a statement: ECMA-262 §6.2.4.  `timeout` is for a loop that was cut short. -/
inductive Compl (σ ε : Type) where
  | timeout
  | normal (s : σ)
  | brk (name : Option Nat) (s : σ)
  | cont (name : Option Nat) (s : σ)
  | thrown (e : ε)

/-- `while (true)`: run the body until it breaks out of this loop.  §14.7.1.2 (LoopContinues), §14.13.4
(labelled statements).  The number bounds the turns. -/
def whileTrue (name : Option Nat) (body : Nat → σ → Compl σ ε) : Nat → σ → Compl σ ε
  | 0, _ => .timeout
  | n + 1, s =>
    match body (n + 1) s with
    | .timeout => .timeout
    | .thrown e => .thrown e
    | .normal s => whileTrue name body n s
    | .cont l s => if l = none ∨ l = name then whileTrue name body n s else .cont l s
    | .brk l s => if l = none ∨ l = name then .normal s else .brk l s

/-- The value of a test in a state; the second component of the state is the state variable. -/
def Test.holds (m : Machine ι α σ ε) : Test α → σ × Nat → Bool
  | .arg a, s => m.truthy a s.1
  | .stateIs n, s => s.2 == n
  | .always, _ => true

mutual
/-- Run one statement. -/
def runJs (m : Machine ι α σ ε) : Js ι α → Nat → σ × Nat → Compl (σ × Nat) ε
  | .op i, _, s =>
    match m.exec i s.1 with
    | .error e => .thrown e
    | .ok s' => .normal (s', s.2)
  | .setState k, _, s => .normal (s.1, k)
  | .ite c t e, n, s => if c.holds m s then runAll m t n s else runAll m e n s
  | .loop name body, n, s => whileTrue name (runAll m body) n s
  | .brk name, _, s => .brk name s
  | .cont name, _, s => .cont name s
/-- Run a list of statements. -/
def runAll (m : Machine ι α σ ε) : List (Js ι α) → Nat → σ × Nat → Compl (σ × Nat) ε
  | [], _, s => .normal s
  | j :: js, n, s =>
    match runJs m j n s with
    | .normal s => runAll m js n s
    | c => c
end

/-- The statements end: they complete normally, or throw. -/
def JsEnds (m : Machine ι α σ ε) (js : List (Js ι α)) (s : σ) (o : End σ ε) : Prop :=
  ∃ n k, (∃ s' k', runAll m js n (s, k) = .normal (s', k') ∧ o = .done s') ∨
    (∃ e, runAll m js n (s, k) = .thrown e ∧ o = .thrown e)

/-- A well-formed program: the graph was built with its API, its entry is block 0, a block that ends with
a conditional jump has exactly the edges of the jump, other blocks have at most one edge, unless the
program is a single block the entry is in the graph, and there are fewer than 2^32 blocks. -/
structure WellFormed (P : Prog ι α) : Prop where
  built : ∃ ops, run ops = some P.graph
  entry : P.entry = 0
  jump : ∀ l b c t f, P.bblocks.lookup l = some b → b.getLast? = some (.condGoto c t f) →
    ∀ n, n ∈ P.graph.children l ↔ n = t ∨ n = f
  single : ∀ l b, P.bblocks.lookup l = some b → (∀ c t f, b.getLast? ≠ some (.condGoto c t f)) →
    (P.graph.children l).length ≤ 1
  inGraph : P.graph.labels = [] ∨ P.entry ∈ P.graph.labels
  small : P.graph.labels.length < 4294967296

/-- What the structurer gets wrong is left out: the header of a loop does not leave the loop when its
condition is true and stay in it when the condition is false; and in a loop inside another loop every
block with one successor goes back to the header. -/
structure Fair (P : Prog ι α) : Prop where
  guard : ∀ h b c t f, P.bblocks.lookup h = some b → b.getLast? = some (.condGoto c t f) →
    InNaturalLoop P.graph.Edge P.entry h f → InNaturalLoop P.graph.Edge P.entry h t
  inner : ∀ h h' l s, h' ≠ h → InNaturalLoop P.graph.Edge P.entry h' h →
    InNaturalLoop P.graph.Edge P.entry h l → P.graph.children l = [s] → s = h

end Verif.Structure
