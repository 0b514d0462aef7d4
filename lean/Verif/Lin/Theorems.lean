import Verif.Lin.Run
import Verif.Ssa.PassTheorems
/-!
# From a list of instructions to a control flow graph (C74)
-/

namespace Verif.Lin

open Verif.Il Verif.Graph Verif.Opt Verif.Ssa

theorem label_below {code : List Inst} {n : Nat} (ok : CodeOk code n) {s : Seg} (hs : s ∈ theSegs code n) : s.lab < n + jumps code := by
  have hp := (segs_labs (code := code) (pos := 0) (cur := 0) (n := n) (body := [])
    (fun i hi ht => (ok.label i hi ht).imp fun l h => h.1)).mem_iff.1 (List.mem_map_of_mem hs)
  simp only [List.cons_append, List.mem_cons, List.mem_append, List.mem_range'_1] at hp
  have h0 := ok.counter.1
  rcases hp with h | h | h
  · omega
  · have := (declared_bound ok h).2
    omega
  · exact h.2

/-- **C74**: code with labels and jumps, as the translation of statements makes it, becomes a control flow
graph without panic.  All blocks can be reached from the entry, no jump goes back to the entry, there are no
phis, the labels are below the counter; and the graph runs as the code does: after any number `k` of blocks, it
has the variables and the world that the code has after `f k` instructions, `f` growing strictly, so every
state of the graph is one of the code, and the code never runs on without the graph doing so; the graph has
ended only if the code has come to its end, and if the code has come to its end the graph ends with the next
block. -/
theorem C74 (code : List Inst) (n : Nat) (ok : CodeOk code n) :
    ∃ (c : Cfg) (n' : Nat), buildCfg code n = some (c, n') ∧
      (∃ ops, Graph.run ops = some c.graph) ∧ WellFormed c ∧ NoPhis c ∧ AllReachable c ∧ FreshEntry c ∧
      NodesHaveBlocks c ∧ EdgesTaken c ∧ LabelsBelow c n' ∧
      (∀ m, (∀ i ∈ code, (∀ v ∈ i.tgts, v < m) ∧ ∀ v, Arg.var v ∈ i.args → v < m) → VarsBelow c m) ∧
      OnlyBranchesFork c ∧
      (∀ l k i, instAt c l k = some i → ∃ i0 ∈ code, i.t = i0.t ∧ opcode i = opcode i0) ∧
      ∀ (V W : Type) (I : Interp V W) (e : Nat → V) (w : W),
        ∃ f : Nat → Nat, f 0 = 0 ∧ (∀ k, f k < f (k + 1)) ∧ ∀ k,
          let x := Opt.run I c e w k
          let y := run I code e w (f k)
          x.env = y.env ∧ x.world = y.world ∧
          (x.at_ = none → y.pc = code.length) ∧
          (code.length ≤ y.pc → (Opt.run I c e w (k + 1)).at_ = none) := by
  obtain ⟨cur, hconv⟩ := convert_ok ok
  have S := sound0 ok
  obtain ⟨c, u, hpop, S', hp, -, -, hblk, hm, hedge⟩ := popped S
  have hent : c.entry = (cfg0 code n).entry := hp.entry
  have hinst : ∀ {l k i}, instAt c l k = some i → instAt (cfg0 code n) l k = some i := by
    intro l k i h
    simp only [instAt, blockOf, hblk] at h ⊢
    split at h
    · simp at h
    · exact h
  have hreach : ∀ {x}, Reach (cfg0 code n).graph.Edge (cfg0 code n).entry x → Reach c.graph.Edge c.entry x := by
    intro x h
    rw [hent]
    induction h with
    | refl => exact .refl
    | step h1 h2 ih => exact .step ih ((hedge _ _).2 ⟨h2, h1⟩)
  have hrs : ∀ {V W : Type} (I : Interp V W) (e : Nat → V) (w : W) k,
      Opt.run I c e w k = Opt.run I (cfg0 code n) e w k :=
    fun I e w k => (run_popped (I := I) S hent S' hblk hm hedge e w k).1
  refine ⟨c, n + jumps code, ?_, S'.graph, S'.wf, fun l k i h => no_phis0 ok l k i (hinst h), ⟨?_, ?_⟩, ?_, S'.nodes,
    S'.taken, ⟨?_, ?_⟩, ?_, ?_, ?_, ?_⟩
  · have hfrom := from_ok ok
    simp only [buildCfg, hconv, Option.bind_eq_bind, Option.bind_some]
    rw [show fromBBlocks ((theSegs code n).map raw) ((theSegs code n).map Seg.lab) = _ from hfrom]
    simp only [Option.bind_some, hpop]
  · intro l h
    refine hreach ?_
    rw [hblk] at h
    split at h
    · simp at h
    · rename_i hu
      obtain ⟨s, hs, rfl⟩ := seg_of_block h
      by_cases hl : s.lab ∈ (cfg0 code n).graph.labels
      · exact Classical.byContradiction fun hn => hu ((hm _).2 ⟨hl, hn⟩)
      · rw [isolated ok hs hl]
        exact .refl
  · intro a b h
    exact hreach ((hedge a b).1 h).2
  · intro p h
    rw [hent] at h
    obtain ⟨s, hs, -, h0⟩ := edge0.1 ((hedge _ _).1 h).1
    exact (succ_seg ok hs h0).1 rfl
  · intro l hl
    have h := lookup_isSome_iff.2 hl
    have h' : (Cfg.block c l).isSome := h
    rw [hblk] at h'
    split at h'
    · simp at h'
    · obtain ⟨s, hs, rfl⟩ := seg_of_block h'
      exact label_below ok hs
  · intro l hl
    have h := S'.nodes l (contains_iff.2 hl)
    rw [hblk] at h
    split at h
    · simp at h
    · obtain ⟨s, hs, rfl⟩ := seg_of_block h
      exact label_below ok hs
  · intro m hv l k i h
    obtain ⟨s, hs, -, h⟩ := instAt0 ok (hinst h)
    rcases inst0 hs h with ⟨-, hi, -⟩ | ⟨-, -, i0, hi, nx, -, -, rfl⟩
    · exact hv i hi
    · exact hv i0 hi
  · intro l hl a b ha hb
    obtain ⟨s, hs, rfl, h1⟩ := edge0.1 ((hedge _ _).1 ha).1
    obtain ⟨s', hs', h2, h3⟩ := edge0.1 ((hedge _ _).1 hb).1
    have hss : s' = s := seg_unique ok hs' hs h2
    subst hss
    cases ht : s'.term with
    | halt => rw [Seg.succs, ht] at h1; simp at h1
    | fall x =>
      rw [Seg.succs, ht] at h1 h3
      rw [List.mem_singleton.1 h1, List.mem_singleton.1 h3]
    | jump i nx =>
      by_cases hi : i.t = .goto
      · simp only [Seg.succs, ht, hi, if_true] at h1 h3
        rw [List.mem_singleton.1 h1, List.mem_singleton.1 h3]
      · exfalso
        have hc : i.t = .condGoto := ((lies_all hs').jump i nx ht).2.resolve_left hi
        have hu : s'.lab ∉ u := fun h => ((hm _).1 h).2 ((hedge _ _).1 ha).2
        refine hl s'.body.length { i with labels := i.labels.map (resolve nx) } ?_ hc
        have hb : Cfg.block c s'.lab = some s'.insts := by rw [hblk, if_neg hu, block0 ok hs']
        simp only [instAt, blockOf, hb, Option.getD_some, Seg.insts, ht, hi, if_false]
        simp
  · intro l k i h
    obtain ⟨s, hs, -, h⟩ := instAt0 ok (hinst h)
    rcases inst0 hs h with ⟨-, hi, -⟩ | ⟨-, -, i0, hi, nx, -, -, rfl⟩
    · exact ⟨i, hi, rfl, rfl⟩
    · exact ⟨i0, hi, rfl, rfl⟩
  · intro V W I e w
    obtain ⟨f, h1, h2, h3⟩ := run_rel (I := I) ok e w
    refine ⟨f, h1, h2, ?_⟩
    intro k
    simp only [hrs]
    obtain ⟨g1, g2, g3⟩ := h3 k
    refine ⟨g1, g2, ?_, ?_⟩
    · intro hn
      rw [hn] at g3
      exact g3
    · intro hle
      exact rel_end ok (h3 k) hle

/-- **C74** with **C71**: what the translation of statements makes is put into SSA form without panic, and the
program in SSA form makes the calls and stores of the code, in the same order: after any number `k` of blocks
it has the world the code has after `f k` instructions, `f` growing strictly.  So what `C71_partial` leaves out
does not arise. -/
theorem C74_into_ssa (code : List Inst) (n m : Nat) (ok : CodeOk code n)
    (vars : ∀ i ∈ code, (∀ v ∈ i.tgts, v < m) ∧ ∀ v, Arg.var v ∈ i.args → v < m) :
    ∃ (c : Cfg) (n' : Nat), buildCfg code n = some (c, n') ∧
      ∀ fuel, c.bblocks.length + c.graph.labels.length + 3 ≤ fuel →
      ∃ (c' : Cfg) (m' : Nat), construct fuel c m = some (c', m') ∧
      SsaProgram c' ∧ PhisComplete c' ∧ VarsBelow c' m' ∧ LabelsBelow c' n' ∧ OnlyBranchesFork c' ∧
      (∀ l k i, instAt c' l k = some i → i.t ≠ .phi → ∃ i0 ∈ code, i.t = i0.t ∧ opcode i = opcode i0) ∧
      ∀ (V W : Type) (I : Interp V W) (e : Nat → V) (w : W),
        ∃ f : Nat → Nat, f 0 = 0 ∧ (∀ k, f k < f (k + 1)) ∧ ∀ k,
          (Opt.run I c' e w k).world = (run I code e w (f k)).world ∧
          ((Opt.run I c' e w k).at_ = none → (run I code e w (f k)).pc = code.length) ∧
          (code.length ≤ (run I code e w (f k)).pc → (Opt.run I c' e w (k + 1)).at_ = none) := by
  obtain ⟨c, n', h1, ⟨ops, hg⟩, wf, hph, hall, hent, hnd, htk, hlab, hvar, hof, hops, hrun⟩ := C74 code n ok
  have below := hvar m vars
  refine ⟨c, n', h1, ?_⟩
  intro fuel hf
  obtain ⟨c', m', h2, P, pc, of', ops'⟩ := C71_program_partial c ops hg m fuel wf hph hall hent below hnd htk hf
  have all : ∀ {V W : Type} (I : Interp V W), VarsBelow c' m' ∧ c'.graph = c.graph ∧
      c'.bblocks.map (·.1) = c.bblocks.map (·.1) ∧
      ∀ (e : Nat → V) (w : W) (k : Nat), (Opt.run I c' e w k).at_ = (Opt.run I c e w k).at_ ∧
        (Opt.run I c' e w k).world = (Opt.run I c e w k).world := by
    intro V W I
    obtain ⟨c1, m1, a1, -, -, -, a3, a4, -, a5, a6⟩ := C71_partial I c ops hg m fuel wf hph hall hent below hf
    rw [h2] at a1
    obtain ⟨rfl, rfl⟩ := Prod.mk.inj (Option.some.inj a1)
    exact ⟨a3, a4, a5, a6⟩
  have one := all (⟨fun _ => (), fun _ _ _ => ((), ()), fun _ => false⟩ : Interp Unit Unit)
  refine ⟨c', m', h2, P, pc, one.1, ⟨by rw [one.2.2.1]; exact hlab.1, by rw [one.2.1]; exact hlab.2⟩, of' hof, ?_, ?_⟩
  · intro l k i e ht
    obtain ⟨l0, k0, i0, g1, g2, g3⟩ := ops' l k i e ht
    obtain ⟨i1, g4, g5, g6⟩ := hops l0 k0 i0 g1
    exact ⟨i1, g4, g2.trans g5, g3.trans g6⟩
  intro V W I e w
  obtain ⟨f, f1, f2, f3⟩ := hrun V W I e w
  refine ⟨f, f1, f2, ?_⟩
  intro k
  obtain ⟨-, g2, g3, g4⟩ := f3 k
  have r := (all I).2.2.2 e w
  rw [(r k).1, (r k).2, (r (k + 1)).1]
  exact ⟨g2, g3, g4⟩

/-! ## A case -/

def isJumpB (i : Inst) : Bool := i.t == .goto || i.t == .condGoto

/-- What is behind the last jump or label. -/
def tailB (code : List Inst) : Bool :=
  match code.reverse.find? (fun i => i.t == .label || isJumpB i) with
  | some i => i.t != .goto && (i.t != .condGoto || i.labels.contains fallThrough)
  | none => true

def codeOkB (code : List Inst) (n : Nat) : Bool :=
  code.all (fun i =>
    if i.t == .label then i.labels.length == 1 && i.labels.all (fun l => 0 < l && l < n)
    else if i.t == .goto then i.labels.length == 1 && i.labels.all (fun l => (declared code).contains l)
    else shapeB i && i.t != .phi &&
      (i.t != .condGoto || i.labels.all (fun l => l == fallThrough || (declared code).contains l))) &&
  decide (declared code).Nodup && decide (0 < n ∧ n ≤ fallThrough) && tailB code

theorem tail_of {code : List Inst} (h : tailB code = true) (pre : List Inst) (i : Inst) (body : List Inst)
    (e : code = pre ++ i :: body) (hb : ∀ j ∈ body, j.t ≠ .label ∧ j.t ≠ .goto ∧ j.t ≠ .condGoto) :
    i.t ≠ .goto ∧ (i.t = .condGoto → fallThrough ∈ i.labels) := by
  by_cases hi : i.t = .goto ∨ i.t = .condGoto
  · have hf : code.reverse.find? (fun i => i.t == .label || isJumpB i) = some i := by
      rw [e, List.reverse_append, List.reverse_cons, List.append_assoc, List.find?_append,
        List.find?_eq_none.2 (by
          intro j hj
          have := hb j (by simpa using hj)
          simp [isJumpB, this])]
      rcases hi with hi | hi <;> simp [isJumpB, hi]
    simp only [tailB, hf, Bool.and_eq_true, Bool.or_eq_true, bne_iff_ne, ne_eq, List.contains_iff_mem] at h
    exact ⟨h.1, fun hc => h.2.resolve_left (fun hn => hn hc)⟩
  · exact ⟨fun h => hi (.inl h), fun h => absurd (.inr h) hi⟩

theorem codeOk_of {code : List Inst} {n : Nat} (h : codeOkB code n = true) : CodeOk code n := by
  simp only [codeOkB, Bool.and_eq_true, decide_eq_true_eq] at h
  obtain ⟨⟨⟨h1, h2⟩, h3⟩, h4⟩ := h
  rw [List.all_eq_true] at h1
  refine ⟨?_, ?_, ?_, ?_, ?_, h2, h3, fun pre i body => tail_of h4 pre i body⟩
  · intro i hi ht
    have := h1 i hi
    simp only [ht, beq_self_eq_true, if_true, Bool.and_eq_true, beq_iff_eq, List.all_eq_true, decide_eq_true_eq,
      List.length_eq_one_iff] at this
    obtain ⟨⟨l, hl⟩, hb⟩ := this
    exact ⟨l, hl, hb l (by simp [hl])⟩
  · intro i hi ht
    have := h1 i hi
    simp only [ht, beq_self_eq_true, if_true, Bool.and_eq_true, beq_iff_eq, List.all_eq_true, reduceCtorEq, if_false,
      List.contains_iff_mem, List.length_eq_one_iff] at this
    obtain ⟨⟨l, hl⟩, hb⟩ := this
    exact ⟨l, hl, hb l (by simp [hl])⟩
  · intro i hi ht l hl
    have := h1 i hi
    simp only [ht, beq_iff_eq, reduceCtorEq, if_false, Bool.and_eq_true, Bool.or_eq_true, bne_self_eq_false,
      Bool.false_eq_true, false_or, List.all_eq_true, List.contains_iff_mem] at this
    exact this.2 l hl
  · intro i hi hl hg
    have := h1 i hi
    simp only [hl, hg, beq_iff_eq, if_false, Bool.and_eq_true] at this
    exact shape_of this.1.1
  · intro i hi hp
    have := h1 i hi
    simp [hp] at this

/-- `while (v0) { v0 = g() } f(v0)` -/
def loopCode : List Inst := [
  { t := .label, labels := [1] },
  Inst.condGoto (.var 0) fallThrough 2,
  Inst.call (some 1) (.builtin [103]) (.const .undefined) [] [],
  Inst.varAssign 0 (.var 1),
  { t := .goto, labels := [1] },
  { t := .label, labels := [2] },
  Inst.call none (.builtin [102]) (.const .undefined) [.var 0] []]

example : CodeOk loopCode 3 := codeOk_of (by decide +kernel)

/-- The blocks of the graph: the loop test gets the labels of the branch resolved; the block behind the jump
back, which nothing reaches, is gone. -/
example : ∃ c, buildCfg loopCode 3 = some (c, 5) ∧ c.bblocks = [
    (0, []), (1, [Inst.condGoto (.var 0) 3 2]),
    (3, [Inst.call (some 1) (.builtin [103]) (.const .undefined) [] [], Inst.varAssign 0 (.var 1)]),
    (2, [Inst.call none (.builtin [102]) (.const .undefined) [.var 0] []])] := by
  refine ⟨((buildCfg loopCode 3).get (by decide +kernel)).1, ?_, ?_⟩ <;> decide +kernel

/-- The loop runs once if the first call returns `false`; nine instructions come to the end. -/
example : (run truthInterp loopCode (fun _ => .const (.bool true)) (.const (.bool false), []) 9).pc = 7 := by
  decide +kernel

end Verif.Lin
