import Verif.Opt.Check
import Verif.Dom.Theorems
/-!
# Rewriting passes: C31, C32, C33

`run I c e w n` (in `Spec`) is the state of the program `c` after `n` basic blocks, for an interpretation `I`
of the opcodes, starting with variables `e` and world `w`.  The world holds everything outside the variables,
so equal worlds at all times are equal sequences of calls and stores, with equal values; equal positions are
equal branches.

* C31: leaving SSA is correct when no phi reads what an earlier phi of the same block has written on the same
  edge (`NoClobber`), and wrong otherwise: `C31_swap_violated`.
* C32: removing unused results is correct when loads have no effects, and wrong otherwise (getters, throwing
  loads): `C32_getter_violated`.  Replacing copies is correct when no copy reads another copy, and wrong
  otherwise: `C32_chain_violated`.
* C33: value numbering is correct when all binary and unary operations of the program give the same result
  whenever they are given the same operands, and wrong for property reads in general:
  `C33_stale_read_violated`.
-/

namespace Verif.Opt

open Verif.Il Verif.Graph Verif.Dom

section
variable {V W : Type}

/-! ## C31: leaving SSA -/

/-- **C31**, partial: for a well-formed program whose phis name the predecessors of their block and do not
read what an earlier phi of the block writes on the same edge, and with a label counter beyond all labels,
the pass does not panic and leaves no phi; and the program it leaves passes, in order, through the states of
the original (the copies of an edge take one additional block, which changes nothing but variables).
Missing: phis that do read an earlier one; see `C31_swap_violated`. -/
theorem C31_partial (I : Interp V W) (c : Cfg) (ops : List Op) (hg : Graph.run ops = some c.graph) (n : Nat)
    (wf : WellFormed c) (parents : PhiParents c) (noClobber : NoClobber c) (below : LabelsBelow c n) :
    ∃ (c' : Cfg) (n' : Nat), deconstruct c n = some (c', n') ∧ n ≤ n' ∧ NoPhis c' ∧
      ∀ (e : Nat → V) (w : W), ∃ f : Nat → Nat, f 0 = 0 ∧
        (∀ k : Nat, f (k + 1) = f k + 1 ∨ (f (k + 1) = f k + 2 ∧
          (run I c' e w (f k + 1)).world = (run I c' e w (f (k + 1))).world ∧
          ∃ l : Nat, (run I c' e w (f k + 1)).at_ = some l ∧ n ≤ l)) ∧
        ∀ k : Nat, run I c' e w (f k) = run I c e w k := by
  have wg := ((C26_history ops).2 _ hg).wf
  obtain ⟨c', bs, h1, r⟩ := deconstruct_result wf wg parents below
  refine ⟨c', _, h1, Nat.le_add_right _ _, ?_, fun e w => result_run r wf wg noClobber below e w⟩
  intro l k i hi
  exact r.noPhis wf l i (List.mem_of_getElem? hi)

/-! ## C32: unused results and copies -/

/-- **C32**: removing instructions whose results are unused changes neither the way the program takes nor
anything it does to the world, if computations and loads have no effects of their own. -/
theorem C32_unused (I : Interp V W) (silent : ReadsAreSilent I) (c : Cfg) (wf : WellFormed c) (e : Nat → V)
    (w : W) (n : Nat) :
    (run I (trivialDce c) e w n).at_ = (run I c e w n).at_ ∧
      (run I (trivialDce c) e w n).world = (run I c e w n).world := by
  obtain ⟨h1, h2, -⟩ := dce_run wf silent e e w (fun _ _ => rfl) n
  exact ⟨h1, h2⟩

/-- **C32**, partial: on a program in strict SSA form in which no copy reads the target of another copy, the
removal of copies does not panic and changes neither the way the program takes nor anything it does to the
world.  Missing: chains of copies; see `C32_chain_violated`. -/
theorem C32_copies_partial (c : Cfg) (wf : WellFormed c) (ssa : StrictSSA c) (chains : NoCopyChains c) :
    ∃ c' : Cfg, redundantAssigns c = some c' ∧
      ∀ (V W : Type) (I : Interp V W) (e : Nat → V) (w : W) (n : Nat),
        (run I c' e w n).at_ = (run I c e w n).at_ ∧ (run I c' e w n).world = (run I c e w n).world := by
  obtain ⟨m, h1, h2⟩ := copies_spec wf ssa
  refine ⟨mapBlocks c (copyBlock m), by simp only [redundantAssigns, h1, Option.bind_eq_bind, Option.bind_some], ?_⟩
  intro V W I e w n
  obtain ⟨h3, h4, -⟩ := copy_run (I := I) wf ssa chains h2 e e w (fun _ _ => rfl) n
  exact ⟨h3, h4⟩

/-! ## C33: value numbering -/

/-- **C33**, partial: let the compile-time evaluator be sound and computations and loads have no effects, and
let every binary and unary operation in the program give the same result whenever it is given the same
operands.  Then value numbering along the computed dominator tree does not panic, and the program it leaves
goes through exactly the same states, variables included; it is again well-formed and in strict SSA form.
Missing: operations, such as property reads, whose result depends on more than their operands; see
`C33_stale_read_violated`. -/
theorem C33_partial [Nonempty W] (K : Evaluator) (I : Interp V W) (sound : EvalSound K I)
    (silent : ReadsAreSilent I) (c : Cfg) (wf : WellFormed c) (ssa : StrictSSA c)
    (timeless : ∀ (l k : Nat) (i : Inst), instAt c l k = some i → i.t = .bin ∨ i.t = .un →
      Timeless I (opcode i))
    (ops : List Op) (hg : Graph.run ops = some c.graph) (fuel : Nat) (hf : c.graph.labels.length + 3 ≤ fuel)
    (d : Dom) (hd : calculateDom c.graph fuel c.entry = some d) :
    ∃ c' : Cfg, dvn K d fuel c = some c' ∧ WellFormed c' ∧ StrictSSA c' ∧ c'.graph = c.graph ∧
      c'.entry = c.entry ∧ ∀ (e : Nat → V) (w : W) (n : Nat), run I c' e w n = run I c e w n := by
  have wg := ((C26_history ops).2 _ hg).wf
  obtain ⟨c', h1, rel⟩ := inner_ok sound silent wf ssa wg (d := d) (fun p n hn => by
      have := ((C60_children ops c.graph hg c.entry fuel d hf hd p).2 n).1 hn
      exact ⟨this.1, this.2.2⟩) fuel [] {} c c.entry List.nodup_nil (by simp) .refl
    (by simp only [List.length_cons, List.length_nil]; omega) (rel_refl wf ssa timeless)
    ⟨by simp, by simp, by simp⟩
  exact ⟨c', h1, wf_rel wf rel, strict_rel ssa rel, rel.graph, rel.entry, fun e w n => run_rel wf ssa rel e w n⟩

end

/-! ## A concrete program -/

section Demo

/-- Three blocks, 0 → 1, 0 → 2, 1 → 2: a value computed twice, a copy, two phis, an unused product. -/
def demoOps : List Op := [.connect 0 1, .connect 0 2, .connect 1 2]

def demoGraph : Graph := ((Graph.new.connect 0 1).connect 0 2).connect 1 2

def demoCfg : Cfg where
  graph := demoGraph
  entry := 0
  bblocks := [
    (0, [{ t := .foreignLoad, tgts := [0], foreign := 7 },
      Inst.bin 1 (.var 0) .add (.const (.num 1)),
      Inst.condGoto (.var 1) 1 2]),
    (1, [Inst.bin 2 (.var 0) .add (.const (.num 1)),
      Inst.varAssign 3 (.var 2),
      Inst.call none (.builtin [102]) (.const .undefined) [.var 3] []]),
    (2, [Inst.phi 4 [(0, .var 1), (1, .var 3)],
      Inst.phi 5 [(0, .var 0), (1, .const (.num 9))],
      Inst.bin 6 (.var 4) .mul (.var 5),
      Inst.bin 7 (.const (.num 2)) .add (.const (.num 1)),
      Inst.call none (.builtin [102]) (.var 7) [.var 4, .var 5] []])]

/-- Values are constants; the world is a field of an object and the list of calls. -/
def demoInterp : Interp Arg (Arg × List (List Arg)) where
  lit := id
  truthy := fun v => v != .const (.num 0)
  op := fun o vs w =>
    match o, vs with
    | .bin .getProp, [.builtin o, .const (.str q)] => (.builtin (o ++ [46] ++ q), w)
    | .bin .getProp, _ => (w.1, w)
    | .bin .add, [.const (.num x), .const (.num y)] => (.const (.num (x + y)), w)
    | .propAssign, [_, _, v] => (.const .undefined, (v, w.2))
    | .call _, vs => (.const .undefined, (w.1, w.2 ++ [vs]))
    | .foreignLoad s, _ => (.const (.num s), w)
    | _, _ => (.const .undefined, w)

/-- An evaluator that adds. -/
def demoEval : Evaluator where
  bin := fun op l r =>
    match op, l, r with
    | .add, .num x, .num y => some (.num (x + y))
    | _, _, _ => none
  builtinVal := fun _ => none
  call := fun _ _ => none
  numGt := fun x y => decide (y < x)

theorem demo_silent : ReadsAreSilent demoInterp := by
  refine ⟨?_, ?_, ?_, ?_⟩
  · intro o vs w
    simp only [demoInterp]
    split <;> simp_all
  · intro o vs w
    rfl
  · intro s vs w
    rfl
  · intro s vs w
    rfl

theorem demo_sound : EvalSound demoEval demoInterp := by
  refine ⟨?_, ?_, ?_, ?_, ?_⟩
  · intro op l r v w h
    simp only [demoEval] at h
    split at h
    · obtain rfl := Option.some.inj h
      rfl
    · cases h
  · intro op x y w h
    rcases h with rfl | rfl
    · simp only [demoInterp, id, Nat.add_comm]
    · rfl
  · intro o q w h
    rfl
  · intro p v h
    cases h
  · intro f cs v this w h
    cases h

theorem demo_timeless : ∀ (l k : Nat) (i : Inst), instAt demoCfg l k = some i → i.t = .bin ∨ i.t = .un →
    Timeless demoInterp (opcode i) := by
  refine forall_at (P := fun _ _ i => i.t = .bin ∨ i.t = .un → Timeless demoInterp (opcode i)) ?_
  have key : ∀ x ∈ allAt demoCfg, opcode x.2.2 = .bin .add ∨ opcode x.2.2 = .bin .mul ∨
      ¬ (x.2.2.t = .bin ∨ x.2.2.t = .un) := by
    intro x hx
    simp only [allAt, demoCfg, List.flatMap_cons, List.flatMap_nil, List.mem_append, List.mem_map,
      List.zipIdx_cons, List.zipIdx_nil, List.mem_cons, List.not_mem_nil, or_false] at hx
    rcases hx with ⟨y, hy, rfl⟩ | ⟨y, hy, rfl⟩ | ⟨y, hy, rfl⟩
    all_goals
      rcases hy with rfl | rfl | rfl | rfl | rfl <;>
        simp [opcode, Inst.bin, Inst.condGoto, Inst.varAssign, Inst.call, Inst.phi]
  intro x hx hk
  rcases key x hx with h | h | h
  · rw [h]
    intro vs w w'
    simp only [demoInterp]
    split <;> simp_all
  · rw [h]
    intro vs w w'
    rfl
  · exact absurd hk h

example : WellFormed demoCfg := wf_of (by decide +kernel)
example : StrictSSA demoCfg := ssa_of (by decide +kernel)
example : NoCopyChains demoCfg := chains_of (by decide +kernel)
example : PhiParents demoCfg := phiParents_of (by decide +kernel)
example : NoClobber demoCfg := clobber_of (by decide +kernel)
example : LabelsBelow demoCfg 3 := below_of (by decide +kernel)
example : Graph.run demoOps = some demoCfg.graph := by decide +kernel
example : ∃ d, calculateDom demoCfg.graph 6 demoCfg.entry = some d := Option.isSome_iff_exists.1 (by decide +kernel)

/-- The calls a program makes in its first `n` blocks. -/
def demoCalls (c : Cfg) (n : Nat) : List (List Arg) :=
  (run demoInterp c (fun _ => .const .undefined) (.const .undefined, []) n).world.2

/-- The program calls twice. -/
example : demoCalls demoCfg 4 = [[.builtin [102], .const .undefined, .const (.num 8)],
    [.builtin [102], .const (.num 3), .const (.num 8), .const (.num 9)]] := by decide +kernel

/-- Value numbering finds the repeated sum and folds the constant one. -/
example : (calculateDom demoCfg.graph 6 0).bind (fun d => (dvn demoEval d 6 demoCfg).map
    (fun c => (blockOf c 1, (blockOf c 2)[3]?))) =
    some ([Inst.varAssign 2 (.var 1), Inst.varAssign 3 (.var 1),
      Inst.call none (.builtin [102]) (.const .undefined) [.var 1] []],
      some (Inst.varAssign 7 (.const (.num 3)))) := by decide +kernel

/-- Dead-code elimination removes the product, copy elimination the copy. -/
example : (blockOf (trivialDce demoCfg) 2).length = 4 := by decide +kernel
example : (redundantAssigns demoCfg).map (fun c => (blockOf c 1).length) = some 2 := by decide +kernel

/-- Leaving SSA adds one block for each of the two edges into block 2. -/
example : (deconstruct demoCfg 3).map (fun r => (r.2, blockOf r.1 3, blockOf r.1 4, r.1.graph.childrenSorted 0)) =
    some (5, [Inst.varAssign 4 (.var 1), Inst.varAssign 5 (.var 0)],
      [Inst.varAssign 4 (.var 3), Inst.varAssign 5 (.const (.num 9))], [1, 3]) := by decide +kernel

/-! ## Where the properties fail -/

/-- **C31**, violated: two phis that exchange their variables around a loop.  On the back edge the second copy
reads what the first has already overwritten. -/
def swapCfg : Cfg where
  graph := ((Graph.new.connect 0 1).connect 1 1).connect 1 2
  entry := 0
  bblocks := [
    (0, []),
    (1, [Inst.phi 1 [(0, .const (.num 10)), (1, .var 2)],
      Inst.phi 2 [(0, .const (.num 20)), (1, .var 1)],
      Inst.call (some 3) (.builtin [102]) (.const .undefined) [.var 1, .var 2] [],
      Inst.condGoto (.var 3) 1 2]),
    (2, [])]

theorem C31_swap_violated :
    WellFormed swapCfg ∧ StrictSSA swapCfg ∧ PhiParents swapCfg ∧ LabelsBelow swapCfg 3 ∧
    Graph.run [.connect 0 1, .connect 1 1, .connect 1 2] = some swapCfg.graph ∧
    demoCalls swapCfg 3 =
      [[.builtin [102], .const .undefined, .const (.num 10), .const (.num 20)],
       [.builtin [102], .const .undefined, .const (.num 20), .const (.num 10)]] ∧
    (deconstruct swapCfg 3).map (fun r => demoCalls r.1 5) =
      some [[.builtin [102], .const .undefined, .const (.num 10), .const (.num 20)],
        [.builtin [102], .const .undefined, .const (.num 20), .const (.num 20)]] :=
  ⟨wf_of (by decide +kernel), ssa_of (by decide +kernel), phiParents_of (by decide +kernel),
   below_of (by decide +kernel), by decide +kernel, by decide +kernel, by decide +kernel⟩

/-- Property reads run a getter that records the call. -/
def getterInterp : Interp Arg (Arg × List (List Arg)) :=
  { demoInterp with op := fun o vs w =>
      match o with
      | .bin .getProp => (.const .undefined, (w.1, w.2 ++ [vs]))
      | o => demoInterp.op o vs w }

/-- Reads a property and ignores its value. -/
def getterCfg : Cfg where
  graph := Graph.new
  entry := 0
  bblocks := [(0, [Inst.bin 1 (.builtin [111]) .getProp (.const (.str [112]))])]

/-- **C32**, violated for reads with effects: an unused property read is removed, and with it the call of the
getter. -/
theorem C32_getter_violated :
    WellFormed getterCfg ∧ StrictSSA getterCfg ∧
    (run getterInterp getterCfg (fun _ => .const .undefined) (.const .undefined, []) 1).world.2 =
      [[.builtin [111], .const (.str [112])]] ∧
    (run getterInterp (trivialDce getterCfg) (fun _ => .const .undefined) (.const .undefined, []) 1).world.2 = [] :=
  ⟨wf_of (by decide +kernel), ssa_of (by decide +kernel), by decide +kernel, by decide +kernel⟩

/-- A copy of a copy. -/
def chainCfg : Cfg where
  graph := Graph.new
  entry := 0
  bblocks := [(0, [Inst.varAssign 1 (.const (.num 5)), Inst.varAssign 2 (.var 1),
    Inst.call none (.builtin [102]) (.const .undefined) [.var 2] []])]

/-- **C32**, violated for chains of copies: the argument of the call is replaced by a variable whose only
assignment is removed in the same pass. -/
theorem C32_chain_violated :
    WellFormed chainCfg ∧ StrictSSA chainCfg ∧
    demoCalls chainCfg 1 = [[.builtin [102], .const .undefined, .const (.num 5)]] ∧
    (redundantAssigns chainCfg).map (fun c' => demoCalls c' 1) =
      some [[.builtin [102], .const .undefined, .const .undefined]] :=
  ⟨wf_of (by decide +kernel), ssa_of (by decide +kernel), by decide +kernel, by decide +kernel⟩

/-- Reads a property, changes it, reads it again. -/
def staleCfg : Cfg where
  graph := Graph.new.connect 0 1
  entry := 0
  bblocks := [
    (0, [{ t := .foreignLoad, tgts := [0], foreign := 1 },
      Inst.bin 1 (.var 0) .getProp (.const (.str [112])),
      Inst.propAssign (.var 0) (.const (.str [112])) (.const (.num 5))]),
    (1, [Inst.bin 2 (.var 0) .getProp (.const (.str [112])),
      Inst.call none (.builtin [102]) (.const .undefined) [.var 2] []])]

/-- **C33**, violated for property reads: the second read is replaced by the result of the first, although
the property has been changed in between. -/
theorem C33_stale_read_violated :
    WellFormed staleCfg ∧ StrictSSA staleCfg ∧ EvalSound demoEval demoInterp ∧ ReadsAreSilent demoInterp ∧
    Graph.run [.connect 0 1] = some staleCfg.graph ∧
    demoCalls staleCfg 2 = [[.builtin [102], .const .undefined, .const (.num 5)]] ∧
    (calculateDom staleCfg.graph 5 0).bind (fun d => (dvn demoEval d 5 staleCfg).map
      (fun c => demoCalls c 2)) = some [[.builtin [102], .const .undefined, .const .undefined]] :=
  ⟨wf_of (by decide +kernel), ssa_of (by decide +kernel), demo_sound, demo_silent, by decide +kernel,
   by decide +kernel, by decide +kernel⟩

end Demo

end Verif.Opt
