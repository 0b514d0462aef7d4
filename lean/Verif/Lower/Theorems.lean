import Verif.Lower.SimB
import Verif.Lin.Theorems
/-!
# C75: from statements to instructions
-/

namespace Verif.Lower

open Verif.Il Verif.Lin Verif.Opt Verif.Ssa Verif.Graph

/-- **C75** (partial: for bodies in which no local variable that is an operand is assigned before the operation is
performed, `x += e` on shared or global variables and `o.p += e` have an `e` that does nothing, and `++` and `--`
are used on local variables holding numbers; the other cases are violated, see below).  The translation of a body
makes code that can be turned into a graph (`CodeOk`, `C74`) and uses only variables below the counter.  Each local
variable has a variable of its own in the code.  The code does what the body does, from any values of the variables
and in any world: if the body ends, normally or by `return`, the code comes to its end, in the same world and with
the same values of the variables; and if the loops of the body have not ended after `fuel` iterations, the code is
still running after at least that many instructions, in the same world and with the same values of the variables. -/
theorem C75_partial (b : Body) (code : List Inst) (n m : Nat) (h : translate b = some (code, n, m))
    (hn : n ≤ 2 ^ 32 - 1) (hc : b.oneClass) (upd : Bool) (ho : b.stmts.ordered upd = true) :
    CodeOk code n ∧ (∀ i ∈ code, (∀ v ∈ i.tgts, v < m) ∧ ∀ v, Arg.var v ∈ i.args → v < m) ∧
    ∃ vs, Hoisted b vs ∧
    ∃ μ : Nat → Option Nat, (∀ x y t, μ x = some t → μ y = some t → x = y) ∧ (∀ x t, μ x = some t → t < m) ∧
      ∀ (V W : Type) (I : Interp V W) (num : V → W → V × W), (upd = true → ∀ v w, num v w = (v, w)) →
        ∀ (s : St V W) (e : Nat → V), (∀ x t, μ x = some t → e t = s.vars x) → ∀ fuel,
          match runBody I num fuel vs b s with
          | .done c s' => (c = .normal ∨ c = .ret ∧ b.isFn = true) ∧ ∃ k,
              (run I code e s.world k).pc = code.length ∧ (run I code e s.world k).world = s'.world ∧
              ∀ x t, μ x = some t → (run I code e s.world k).env t = s'.vars x
          | .more s' => ∃ k, fuel ≤ k ∧
              (run I code e s.world k).pc < code.length ∧ (run I code e s.world k).world = s'.world ∧
              ∀ x t, μ x = some t → (run I code e s.world k).env t = s'.vars x := by
  refine ⟨codeOk h hn, varsBelow h, hoisted b, hoisted_ok hc, ?_⟩
  obtain ⟨μ, inj, hm, H⟩ := simB h hn ho
  refine ⟨μ, inj, hm, fun V W I num hnum s e ag fuel => ?_⟩
  have := H V W I num hnum s e ag fuel
  generalize runBody I num fuel (hoisted b) b s = R at *
  cases R with
  | done c s' =>
    obtain ⟨h1, e', ⟨k, hk⟩, ag'⟩ := this
    refine ⟨h1, k, ?_⟩
    rw [run_steps, hk]
    exact ⟨rfl, rfl, ag'⟩
  | more s' =>
    obtain ⟨e', pc, k, h1, hk, h2, ag'⟩ := this
    refine ⟨k, h1, ?_⟩
    rw [run_steps, hk]
    exact ⟨h2, rfl, ag'⟩

theorem steps_end {V W : Type} {I : Interp V W} {code : List Inst} {x : Lin.State V W} (h : code.length ≤ x.pc) :
    ∀ k, steps I code x k = x
  | 0 => rfl
  | k + 1 => by
    rw [steps, steps_end h k, Lin.step]
    rw [List.getElem?_eq_none h]

theorem run_end {V W : Type} {I : Interp V W} {code : List Inst} {e : Nat → V} {w : W} {j k : Nat}
    (h : code.length ≤ (run I code e w j).pc) (hjk : j ≤ k) : run I code e w k = run I code e w j := by
  obtain ⟨d, rfl⟩ := Nat.exists_eq_add_of_le hjk
  rw [run_steps] at h ⊢
  rw [steps_add, steps_end h, run_steps]

/-- **C75** with **C74** and **C71** (partial as `C75_partial`): the translation of a body is put into SSA form
without panic, and the program in SSA form has the effects of the body: it ends in the world the body ends in, and
it does not end if the body does not. -/
theorem C75_into_ssa_partial (b : Body) (code : List Inst) (n m : Nat) (h : translate b = some (code, n, m))
    (hn : n ≤ 2 ^ 32 - 1) (hc : b.oneClass) (upd : Bool) (ho : b.stmts.ordered upd = true) :
    ∃ (c : Cfg) (n' : Nat), buildCfg code n = some (c, n') ∧
      ∀ f, c.bblocks.length + c.graph.labels.length + 3 ≤ f →
      ∃ (c' : Cfg) (m' : Nat), construct f c m = some (c', m') ∧ SsaProgram c' ∧
      ∃ vs, Hoisted b vs ∧ ∃ μ : Nat → Option Nat, (∀ x y t, μ x = some t → μ y = some t → x = y) ∧
        ∀ (V W : Type) (I : Interp V W) (num : V → W → V × W), (upd = true → ∀ v w, num v w = (v, w)) →
          ∀ (s : St V W) (e : Nat → V), (∀ x t, μ x = some t → e t = s.vars x) →
            (∀ fuel c s', runBody I num fuel vs b s = .done c s' →
              ∃ k, (Opt.run I c' e s.world k).at_ = none ∧ (Opt.run I c' e s.world k).world = s'.world) ∧
            ((∀ fuel, ∃ s', runBody I num fuel vs b s = .more s') → ∀ k, (Opt.run I c' e s.world k).at_ ≠ none) := by
  obtain ⟨ok, vars, vs, hv, μ, inj, -, H⟩ := C75_partial b code n m h hn hc upd ho
  obtain ⟨c, n', hb, K⟩ := C74_into_ssa code n m ok vars
  refine ⟨c, n', hb, fun f hf => ?_⟩
  obtain ⟨c', m', hcs, hssa, -, -, -, -, -, R⟩ := K f hf
  refine ⟨c', m', hcs, hssa, vs, hv, μ, inj, fun V W I num hnum s e ag => ?_⟩
  replace H := H V W I num hnum
  obtain ⟨g, g0, gm, G⟩ := R V W I e s.world
  have hg : ∀ k, k ≤ g k := by
    intro k
    induction k with
    | zero => exact Nat.zero_le _
    | succ k ih => have := gm k; omega
  constructor
  · intro fuel cp s' hr
    have := H s e ag fuel
    rw [hr] at this
    obtain ⟨-, k, h1, h2, -⟩ := this
    have e1 := run_end (I := I) (code := code) (e := e) (w := s.world) (Nat.le_of_eq h1.symm) (hg k)
    have e2 := run_end (I := I) (code := code) (e := e) (w := s.world) (j := k) (k := g (k + 1)) (Nat.le_of_eq h1.symm)
      (by have := hg (k + 1); omega)
    obtain ⟨-, -, G3⟩ := G k
    rw [e1] at G3
    refine ⟨k + 1, G3 (Nat.le_of_eq h1.symm), ?_⟩
    rw [(G (k + 1)).1, e2]
    exact h2
  · intro hmore k hk
    have hend := (G k).2.1 hk
    obtain ⟨s', hs'⟩ := hmore (g k)
    have := H s e ag (g k)
    rw [hs'] at this
    obtain ⟨j, hj, hlt, -⟩ := this
    rw [run_end (Nat.le_of_eq hend.symm) hj] at hlt
    omega

/-! ## Cases -/

deriving instance DecidableEq for Opcode

/-- Natural numbers, with every operation and its operands on record; a call gives its last argument less 2. -/
def traced : Interp Nat (List (Opcode × List Nat)) where
  lit a := match a with
    | .const (.num b) => if b = 4607182418800017408 then 1 else b
    | .const (.bool b) => if b then 1 else 0
    | _ => 0
  op o vs w := (match o, vs with
    | .bin .add, [x, y] => x + y
    | .bin .lt, [x, y] => if x < y then 1 else 0
    | .bin .strictEq, [x, y] => if x = y then 1 else 0
    | .call _, vs => vs.getLastD 0 - 2
    | .unknownLoad _, _ => w.length
    | _, _ => 0, w ++ [(o, vs)])
  truthy v := v != 0

def num (k : Nat) : Expr := .lit (.num k)

def v0 : Expr := .ident (.local 0)

def ofList : List Stmt → Stmts
  | [] => .nil
  | s :: ss => .cons s (ofList ss)

/-- ```
function f() {
  a: for (var x = 0; x < 9; x++) {
    switch (g(x)) { case 0: continue a; default: h(x); case 5: break; }
    if (o?.p(x)) return;
  }
}
``` -/
def demo : Body where
  isFn := true
  params := []
  stmts := ofList [.labeled 0 (.for_ (.decl .var (.local 0) (some (num 0))) (some (.cmp .lt v0 (num 9)))
    (some (.update true false v0)) (.block (ofList [
      .switch (.call (.ident (.unknown [103])) (.cons false v0 .nil) false)
        (.cons (some (num 0)) (ofList [.cont (some 0)])
        (.cons none (ofList [.expr (.call (.ident (.foreign 7)) (.cons false v0 .nil) false)])
        (.cons (some (num 5)) (ofList [.brk none]) .nil))),
      .ifThen (.call (.member (.ident (.unknown [111])) (.lit (.str [112])) true) (.cons false v0 .nil) false) (.ret none)])))]

/-- The hypotheses hold of it. -/
example : ∃ code n m, translate demo = some (code, n, m) ∧ n ≤ 2 ^ 32 - 1 ∧ 30 ≤ code.length ∧
    demo.oneClass ∧ demo.stmts.ordered true = true := by
  refine ⟨((translate demo).get (by decide +kernel)).1, ((translate demo).get (by decide +kernel)).2.1,
    ((translate demo).get (by decide +kernel)).2.2, by decide +kernel, by decide +kernel, by decide +kernel, ?_,
    by decide +kernel⟩
  intro x hx y hy _
  simp [demo, ofList, Stmts.varNames, Stmt.varNames, Cases.varNames, VarType.symbol] at hx hy
  rw [hx, hy]

/-- The completion and the world. -/
def outcome {V W : Type} : Res V W → Option Completion × W
  | .done c s => (some c, s.world)
  | .more s => (none, s.world)

/-- Whether the translation has come to its end after `k` instructions, and the world. -/
def outcomeT {V W : Type} (I : Interp V W) (b : Body) (s : St V W) (k : Nat) : Option (Bool × W) :=
  match translate b with
  | none => none
  | some (code, _, _) =>
    let x := Lin.run I code s.vars s.world k
    some (x.pc == code.length, x.world)

/-- In the fourth iteration it ends by `return`; so does the code, after the same operations. -/
example : (outcome (runBody traced (fun v w => (v, w)) 9 [.local 0] demo ⟨fun _ => 3, []⟩)).1 = some .ret ∧
    (outcome (runBody traced (fun v w => (v, w)) 9 [.local 0] demo ⟨fun _ => 3, []⟩)).2.length = 26 ∧
    outcomeT traced demo ⟨fun _ => 3, []⟩ 150 =
      some (true, (outcome (runBody traced (fun v w => (v, w)) 9 [.local 0] demo ⟨fun _ => 3, []⟩)).2) := by
  decide +kernel

/-- With three iterations it has not ended, and the code is still running. -/
example : (outcome (runBody traced (fun v w => (v, w)) 3 [.local 0] demo ⟨fun _ => 3, []⟩)).1 = none ∧
    (outcomeT traced demo ⟨fun _ => 3, []⟩ 40).map (·.1) = some false := by
  decide +kernel

/-- The code of `if (c) { x = 1 } else { x = 2 }`. -/
example : translate ⟨false, [], ofList [.ifElse (.ident (.unknown [99]))
    (.expr (.assign .plain (.local 0) (num 1))) (.expr (.assign .plain (.local 0) (num 2)))]⟩ = some ([
      unknownLoad 0 [99], Inst.condGoto (.var 0) 1 dummyLabel,
      Inst.varAssign 2 (.const (.num 2)), Inst.varAssign 1 (.const (.num 2)), goto 2,
      label 1, Inst.varAssign 3 (.const (.num 1)), Inst.varAssign 1 (.const (.num 1)), label 2], 3, 4) := by
  decide +kernel

/-! ## What is missing

Each body is translated, ends, and so does its translation, but after other operations. -/

/-- The body ends normally in world `w`; its translation comes to its end in another world. -/
def Differs (b : Body) (num : Nat → List (Opcode × List Nat) → Nat × List (Opcode × List Nat)) : Prop :=
  b.oneClass ∧ ∃ k w w', outcome (runBody traced num 1 [] b ⟨fun _ => 3, []⟩) = (some .normal, w) ∧
    outcomeT traced b ⟨fun _ => 3, []⟩ k = some (true, w') ∧ w ≠ w'

/-- A script of one expression. -/
def script (e : Expr) : Body := ⟨false, [], ofList [.expr e]⟩

theorem differs_of {e : Expr} {num : Nat → List (Opcode × List Nat) → Nat × List (Opcode × List Nat)}
    (h1 : (outcome (runBody traced num 1 [] (script e) ⟨fun _ => 3, []⟩)).1 = some .normal)
    (h2 : (outcomeT traced (script e) ⟨fun _ => 3, []⟩ 20).isSome = true)
    (h3 : ((outcomeT traced (script e) ⟨fun _ => 3, []⟩ 20).get h2).1 = true)
    (h4 : (outcome (runBody traced num 1 [] (script e) ⟨fun _ => 3, []⟩)).2 ≠
      ((outcomeT traced (script e) ⟨fun _ => 3, []⟩ 20).get h2).2) : Differs (script e) num := by
  refine ⟨?_, 20, _, _, Prod.ext h1 rfl, ?_, h4⟩
  · intro x hx
    simp [script, ofList, Stmts.varNames, Stmt.varNames] at hx
  · exact (Option.some_get h2).symm.trans (congrArg some (Prod.ext h3 rfl))

/-- `x + (x = 5)` adds 5 and 5: a local variable that is an operand is read when the operation is performed. -/
theorem C75_operand_read_late_violated :
    Differs (script (.arith .add v0 (.assign .plain (.local 0) (num 5)))) (fun v w => (v, w)) :=
  differs_of (by decide +kernel) (by decide +kernel) (by decide +kernel) (by decide +kernel)

/-- `x++` on a global variable does not store the result. -/
theorem C75_update_global_violated :
    Differs (script (.update true false (.ident (.unknown [120])))) (fun v w => (v, w)) :=
  differs_of (by decide +kernel) (by decide +kernel) (by decide +kernel) (by decide +kernel)

/-- Nor on a variable shared with another function. -/
theorem C75_update_shared_violated :
    Differs (script (.update true false (.ident (.foreign 7)))) (fun v w => (v, w)) :=
  differs_of (by decide +kernel) (by decide +kernel) (by decide +kernel) (by decide +kernel)

/-- Nor does `o.p++`. -/
theorem C75_update_property_violated :
    Differs (script (.update true false (.member v0 (.lit (.str [112])) false))) (fun v w => (v, w)) :=
  differs_of (by decide +kernel) (by decide +kernel) (by decide +kernel) (by decide +kernel)

/-- `x++` adds 1 to the value of `x` itself, not to the number it stands for: here 3 stands for the number 2, as the
string `"2"` would. -/
theorem C75_update_numeric_violated :
    Differs (script (.update true false v0)) (fun v w => (if v = 3 then 2 else v, w)) :=
  differs_of (by decide +kernel) (by decide +kernel) (by decide +kernel) (by decide +kernel)

/-- `x += g()` on a global variable loads `x` after the call. -/
theorem C75_compound_global_violated :
    Differs (script (.assign (.arith .add) (.unknown [120]) (.call (.ident (.unknown [103])) .nil false)))
      (fun v w => (v, w)) :=
  differs_of (by decide +kernel) (by decide +kernel) (by decide +kernel) (by decide +kernel)

/-- `o.p += g()` loads `o.p` after the call. -/
theorem C75_compound_property_violated :
    Differs (script (.assignMember (.arith .add) v0 (.lit (.str [112])) (.call (.ident (.unknown [103])) .nil false)))
      (fun v w => (v, w)) :=
  differs_of (by decide +kernel) (by decide +kernel) (by decide +kernel) (by decide +kernel)

end Verif.Lower
