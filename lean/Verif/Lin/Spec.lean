import Verif.Opt.Spec
import Verif.Ssa.Spec
/-!
# What a list of instructions with labels and jumps means

The meaning of single instructions is that of `Verif.Opt.Spec`.
-/

namespace Verif.Lin

open Verif.Il Verif.Graph Verif.Opt Verif.Ssa

/-- The label that stands for the next instruction. -/
def fallThrough : Nat := 2 ^ 32 - 1

/-- Where a label is. -/
def placeOf (code : List Inst) (l : Nat) : Option Nat :=
  code.findIdx? (fun i => i.t == .label && i.labels == [l])

section
variable {V W : Type}

/-- The next instruction to be executed, the variables, the world. -/
structure State (V W : Type) where
  pc : Nat
  env : Nat → V
  world : W

/-- The place to go on at: the next instruction, or the label. -/
def goTo (code : List Inst) (pc l : Nat) : Nat :=
  if l = fallThrough then pc + 1 else (placeOf code l).getD code.length

/-- One instruction; nothing behind the last one. -/
def step (I : Interp V W) (code : List Inst) (x : State V W) : State V W :=
  match code[x.pc]? with
  | none => x
  | some i =>
    match i.t, i.labels, i.args with
    | .goto, l :: _, _ => { x with pc := goTo code x.pc l }
    | .condGoto, t :: f :: _, a :: _ =>
      { x with pc := goTo code x.pc (if I.truthy (valOf I x.env a) then t else f) }
    | _, _, _ =>
      let s := exec I i (x.env, x.world)
      ⟨x.pc + 1, s.1, s.2⟩

/-- The state after `n` instructions. -/
def run (I : Interp V W) (code : List Inst) (e : Nat → V) (w : W) : Nat → State V W
  | 0 => ⟨0, e, w⟩
  | n + 1 => step I code (run I code e w n)

end

/-- The labels declared, in order. -/
def declared (code : List Inst) : List Nat :=
  (code.filter (fun i => i.t == .label)).flatMap (·.labels)

/-- What the translation of statements makes: every instruction has its shape, there are no phis, labels are
declared once, lie between 1 and the counter, jumps go to labels that are declared or, for branches, to the
next instruction; and what follows the last jump, if no label is in between, can be entered. -/
structure CodeOk (code : List Inst) (n : Nat) : Prop where
  label : ∀ i ∈ code, i.t = .label → ∃ l, i.labels = [l] ∧ 0 < l ∧ l < n
  goto : ∀ i ∈ code, i.t = .goto → ∃ l, i.labels = [l] ∧ l ∈ declared code
  branch : ∀ i ∈ code, i.t = .condGoto → ∀ l ∈ i.labels, l = fallThrough ∨ l ∈ declared code
  shape : ∀ i ∈ code, i.t ≠ .label → i.t ≠ .goto → Shape i
  noPhi : ∀ i ∈ code, i.t ≠ .phi
  once : (declared code).Nodup
  counter : 0 < n ∧ n ≤ fallThrough
  tail : ∀ pre i body, code = pre ++ i :: body →
    (∀ j ∈ body, j.t ≠ .label ∧ j.t ≠ .goto ∧ j.t ≠ .condGoto) →
    i.t ≠ .goto ∧ (i.t = .condGoto → fallThrough ∈ i.labels)

end Verif.Lin
