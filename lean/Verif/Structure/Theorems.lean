import Verif.Structure.Total
/-!
# C88: the statements made from a control-flow graph run like the graph
-/

namespace Verif.Structure

open Verif.Graph Verif.Dom

variable {ι α σ ε : Type}

theorem structure_walked {x : Ctx ι α} {fuel : Nat} {t : Tree ι α} (h : x.structure fuel = some (some t)) :
    ∃ ts C', Walked x (some x.prog.entry) none x.reachable none [] ts C' ∧ t = wrapSeq ts := by
  simp only [Ctx.structure] at h
  split at h
  · cases h
  · split at h
    · cases h
    · cases h
    · rename_i ts C' hwalk
      split at h
      · cases h
        exact ⟨ts, C', walk_sound x _ _ _ _ _ _ _ _ hwalk, rfl⟩
      · cases h

/-- **C88.**  For every control-flow graph in which no loop is left on a true condition of its header and
in which blocks of inner loops go straight back to the header, and for every meaning of operations and
conditions, the statements made from the graph end exactly when the graph does, in the same state or with
the same exception.  Missing: graphs outside `Fair`, for which the claim is false, see below. -/
theorem C88_same_ends_partial (P : Prog ι α) (hw : WellFormed P) (hf : Fair P) (fuel : Nat)
    (js : List (Js ι α)) (h : decompile P fuel = some js) (m : Machine ι α σ ε) (s : σ) (o : End σ ε) :
    CfgEnds m P s o ↔ JsEnds m js s o := by
  simp only [decompile, structureCfg, Option.map_eq_some_iff, Option.bind_eq_bind,
    Option.bind_eq_some_iff] at h
  obtain ⟨c, ⟨x, hx, r, hr, hc⟩, rfl⟩ := h
  obtain ⟨rfl, h1, so⟩ := context_sound hw hf hx
  cases r with
  | some t =>
    cases hc
    obtain ⟨ts, C', hwalk, rfl⟩ := structure_walked hr
    exact tree_ends so hwalk s o
  | none =>
    obtain ⟨ops, hops⟩ := hw.built
    have w := ((C26_history ops).2 _ hops).wf
    refine machine_ends m hw (fun a b hb => w.child_label hb) ?_ hc s o
    rcases hw.inGraph with h0 | h0
    · exact absurd hr (structure_single h0 hw.entry hx fuel)
    · exact h0

/-- **C88**, complete for graphs that are not structured: when the result is the loop over a state
variable, it runs like the graph, whatever the loops of the graph look like. -/
theorem C88_state_machine (P : Prog ι α) (hw : WellFormed P) (fuel entry : Nat)
    (blocks : List (StateBlock ι α)) (h : structureCfg P fuel = some (.machine entry blocks))
    (m : Machine ι α σ ε) (s : σ) (o : End σ ε) :
    CfgEnds m P s o ↔ JsEnds m (lowerControl (.machine entry blocks)) s o := by
  simp only [structureCfg, Option.bind_eq_bind, Option.bind_eq_some_iff] at h
  obtain ⟨x, hx, r, hr, hc⟩ := h
  cases r with
  | some t => cases hc
  | none =>
    obtain ⟨ops, hops⟩ := hw.built
    have w := ((C26_history ops).2 _ hops).wf
    refine machine_ends m hw (fun a b hb => w.child_label hb) ?_ hc s o
    rcases hw.inGraph with h0 | h0
    · exact absurd hr (structure_single h0 hw.entry hx fuel)
    · exact h0

/-- **C88.**  A result is always found: when every block of the graph exists, structuring ends, and the
number of nested calls it needs is bounded by twice the number of blocks. -/
theorem C88_total (P : Prog ι α) (hw : WellFormed P)
    (hb : ∀ l, l = P.entry ∨ l ∈ P.graph.labels → ∃ b, P.bblocks.lookup l = some b) (fuel : Nat)
    (hfuel : 2 * P.graph.labels.length + 4 ≤ fuel) : ∃ js, decompile P fuel = some js := by
  obtain ⟨c, hc⟩ := structureCfg_total hw hb hfuel
  exact ⟨_, by rw [decompile, hc]; rfl⟩

/-! ## The hypotheses can be met -/

theorem lookup_mem {β : Type} : ∀ {l : List (Nat × β)} {k : Nat} {b : β}, l.lookup k = some b → (k, b) ∈ l
  | [], _, _, h => by simp at h
  | (a, c) :: l, k, b, h => by
    by_cases hk : k = a
    · subst hk
      simp only [List.lookup_cons, beq_self_eq_true, Option.some.injEq] at h
      simp [h]
    · have : (k == a) = false := by simpa using hk
      simp only [List.lookup_cons, this] at h
      exact List.mem_cons_of_mem _ (lookup_mem h)

/-- A check for `WellFormed`. -/
def wellFormed (P : Prog Nat Nat) : Bool :=
  P.entry == 0 && P.graph.labels.contains P.entry && decide (P.graph.labels.length < 4294967296) &&
  P.bblocks.all (fun e => match e.2.getLast? with
    | some (.condGoto _ t f) => (P.graph.children e.1).all (fun n => n == t || n == f) &&
        (P.graph.children e.1).contains t && (P.graph.children e.1).contains f
    | _ => decide ((P.graph.children e.1).length ≤ 1))

theorem wellFormed_spec {P : Prog Nat Nat} {ops : List Op} (hb : run ops = some P.graph)
    (h : wellFormed P = true) : WellFormed P := by
  simp only [wellFormed, Bool.and_eq_true, beq_iff_eq, List.contains_iff_mem, decide_eq_true_eq,
    List.all_eq_true] at h
  obtain ⟨⟨⟨h1, h2⟩, h3⟩, h4⟩ := h
  refine ⟨⟨ops, hb⟩, h1, ?_, ?_, .inr h2, h3⟩
  · intro l b c t f hl hg n
    have := h4 _ (lookup_mem hl)
    simp only [hg, Bool.and_eq_true, List.all_eq_true, Bool.or_eq_true, beq_iff_eq,
      List.contains_iff_mem] at this
    constructor
    · exact this.1.1 n
    · rintro (rfl | rfl)
      · exact this.1.2
      · exact this.2
  · intro l b hl hg
    have := h4 _ (lookup_mem hl)
    dsimp only at this
    split at this
    · rename_i c t f hlast
      exact absurd hlast (hg c t f)
    · simpa using this

/-- A check for `Fair`, from the loops that `find_loops` computes (they are the natural loops, C62). -/
def fair (P : Prog Nat Nat) (raw : List (Nat × List Nat)) : Bool :=
  P.bblocks.all (fun e => match e.2.getLast? with
    | some (.condGoto _ t f) => (match raw.lookup e.1 with
      | some ns => !(ns.contains f) || ns.contains t
      | none => true)
    | _ => true) &&
  raw.all (fun e => raw.all (fun e' => e'.1 == e.1 || !(e'.2.contains e.1) ||
    e.2.all (fun l => match P.graph.children l with
      | [s] => s == e.1
      | _ => true)))

theorem fair_spec {P : Prog Nat Nat} {ops : List Op} (hb : run ops = some P.graph) {d : Dom}
    (hd : calculateDom P.graph (P.graph.labels.length + 3) P.entry = some d)
    {raw : List (Nat × List Nat)} (hr : findLoops P.graph d = some raw) (h : fair P raw = true) :
    Fair P := by
  have w := ((C26_history ops).2 _ hb).wf
  obtain ⟨raw', h1, h2⟩ := (tree_of_eq hb (Nat.le_refl _) hd).findLoops_spec w
  rw [hr] at h1
  cases h1
  have key : ∀ h n, InNaturalLoop P.graph.Edge P.entry h n → ∃ ns, raw.lookup h = some ns ∧
      ∀ y, y ∈ ns ↔ InNaturalLoop P.graph.Edge P.entry h y := by
    intro h n hn
    rcases h2 h with ⟨l, e1, -, -, e2⟩ | ⟨-, e2⟩
    · exact ⟨l, e1, e2⟩
    · obtain ⟨t, e3, e4, e5, -⟩ := hn
      exact absurd ⟨t, e3, e4, e5⟩ e2
  simp only [fair, Bool.and_eq_true, List.all_eq_true] at h
  constructor
  · intro h' b c t f hl hg hf
    obtain ⟨ns, e1, e2⟩ := key _ _ hf
    have := h.1 _ (lookup_mem hl)
    simp only [hg, e1, Bool.or_eq_true, Bool.not_eq_true', List.contains_iff_mem] at this
    rcases this with h3 | h3
    · have := (e2 f).2 hf
      rw [← List.contains_iff_mem] at this
      rw [this] at h3
      cases h3
    · exact (e2 t).1 h3
  · intro h' h'' l s hne h3 h4 h5
    obtain ⟨ns, e1, e2⟩ := key _ _ h4
    obtain ⟨ns', e3, e4⟩ := key _ _ h3
    have := h.2 _ (lookup_mem e1) _ (lookup_mem e3)
    simp only [Bool.or_eq_true, beq_iff_eq, Bool.not_eq_true', List.all_eq_true] at this
    rcases this with (h6 | h6) | h6
    · exact absurd h6 hne
    · have := (e4 h').2 h3
      rw [← List.contains_iff_mem] at this
      rw [this] at h6
      cases h6
    · have := h6 l ((e2 l).2 h4)
      simpa [h5] using this

/-- A program from its edges and blocks. -/
def mkProg (edges : List (Nat × Nat)) (bs : List (Nat × List (Inst Nat Nat))) : Prog Nat Nat :=
  ⟨(run (edges.map fun e => Op.connect e.1 e.2)).getD Graph.new, bs, 0⟩

theorem mkProg_run (edges : List (Nat × Nat)) (bs : List (Nat × List (Inst Nat Nat))) :
    run (edges.map fun e => Op.connect e.1 e.2) = some (mkProg edges bs).graph := by
  have key : ∀ (es : List (Nat × Nat)) (g : Graph),
      ∃ g', (es.map fun e => Op.connect e.1 e.2).foldlM Graph.apply g = some g' := by
    intro es
    induction es with
    | nil => exact fun g => ⟨g, rfl⟩
    | cons e es ih => exact fun g => ih (g.connect e.1 e.2)
  obtain ⟨g, hg⟩ := key edges Graph.new
  have : run (edges.map fun e => Op.connect e.1 e.2) = some g := hg
  simp [mkProg, this]

/-- `op0; while (c1) { if (c2) op3; else op4; op5 } op6`. -/
def ifInLoop : Prog Nat Nat :=
  mkProg [(0, 1), (1, 2), (1, 6), (2, 3), (2, 4), (3, 5), (4, 5), (5, 1)]
    [(0, [.op 0]), (1, [.condGoto 1 2 6]), (2, [.condGoto 2 3 4]), (3, [.op 3]), (4, [.op 4]),
     (5, [.op 5]), (6, [.op 6])]

/-- `while (c1) { while (c2) op3; op4 } op5`. -/
def loopInLoop : Prog Nat Nat :=
  mkProg [(0, 1), (1, 2), (1, 5), (2, 3), (2, 4), (3, 2), (4, 1)]
    [(0, [.op 0]), (1, [.condGoto 1 2 5]), (2, [.condGoto 2 3 4]), (3, [.op 3]), (4, [.op 4]),
     (5, [.op 5])]

/-- A cycle with two entries. -/
def twoEntries : Prog Nat Nat :=
  mkProg [(0, 1), (0, 2), (1, 2), (2, 1), (2, 3)]
    [(0, [.op 0, .condGoto 0 1 2]), (1, [.op 1]), (2, [.op 2, .condGoto 1 1 3]), (3, [.op 3])]

/-- A structured program with an `if` in a loop: all hypotheses hold and the result is as written. -/
example : WellFormed ifInLoop ∧ Fair ifInLoop ∧
    decompile ifInLoop 18 = some [.op 0,
      .loop none [.ite (.arg 1) [.ite (.arg 2) [.op 3] [.op 4], .op 5, .cont none] [.brk none]],
      .op 6] :=
  ⟨wellFormed_spec (mkProg_run _ _) (by decide +kernel),
   fair_spec (mkProg_run _ _) rfl rfl (by decide +kernel), rfl⟩

example : WellFormed loopInLoop ∧ Fair loopInLoop ∧
    decompile loopInLoop 18 = some [.op 0,
      .loop none [.ite (.arg 1)
        [.loop none [.ite (.arg 2) [.op 3, .cont none] [.brk none]], .op 4, .cont none]
        [.brk none]],
      .op 5] :=
  ⟨wellFormed_spec (mkProg_run _ _) (by decide +kernel),
   fair_spec (mkProg_run _ _) rfl rfl (by decide +kernel), rfl⟩

example : WellFormed twoEntries ∧ Fair twoEntries ∧
    ∃ blocks, structureCfg twoEntries 18 = some (.machine 0 blocks) ∧ blocks.length = 4 :=
  ⟨wellFormed_spec (mkProg_run _ _) (by decide +kernel),
   fair_spec (mkProg_run _ _) rfl rfl (by decide +kernel), _, rfl, rfl⟩

/-! ## Where the code is wrong -/

/-- `op0; while (!c1) op2; op3`: the header leaves the loop when its condition holds. -/
def untilLoop : Prog Nat Nat :=
  mkProg [(0, 1), (1, 3), (1, 2), (2, 1)]
    [(0, [.op 0]), (1, [.condGoto 1 3 2]), (2, [.op 2]), (3, [.op 3])]

/-- Operation `bad` throws, the others count; the conditions in the list hold. -/
def tester (bad : Nat) (conds : List Nat) : Machine Nat Nat Nat Unit :=
  ⟨fun i s => if i = bad then .error () else .ok (s + 1), fun c _ => conds.contains c⟩

/-- **C88, violated.**  A loop that is left when the condition of its header is true is written with the
condition the wrong way round: the graph below runs to its end, and the statements made from it enter the
body of the loop, which the graph never does. -/
theorem C88_loop_condition_violated :
    WellFormed untilLoop ∧
    decompile untilLoop 18 = some [.op 0,
      .loop none [.ite (.arg 1) [.op 2, .cont none] [.brk none]], .op 3] ∧
    CfgEnds (tester 2 [1]) untilLoop 0 (.done 2) ∧
    ∀ js, decompile untilLoop 18 = some js →
      JsEnds (tester 2 [1]) js 0 (.thrown ()) ∧ ¬ JsEnds (tester 2 [1]) js 0 (.done 2) := by
  have hd : decompile untilLoop 18 = some [.op 0,
      .loop none [.ite (.arg 1) [.op 2, .cont none] [.brk none]], .op 3] := by rfl
  refine ⟨wellFormed_spec (mkProg_run _ _) (by decide +kernel), hd, ⟨5, by decide +kernel⟩, ?_⟩
  intro js h
  rw [hd] at h
  obtain rfl := Option.some.inj h
  have hz : ∀ k, runAll (tester 2 [1]) [.op 0,
      .loop none [.ite (.arg 1) [.op 2, .cont none] [.brk none]], .op 3] 0 (0, k) = .timeout :=
    fun k => rfl
  have hs : ∀ n k, runAll (tester 2 [1]) [.op 0,
      .loop none [.ite (.arg 1) [.op 2, .cont none] [.brk none]], .op 3] (n + 1) (0, k) = .thrown () :=
    fun n k => rfl
  refine ⟨⟨1, 0, .inr ⟨(), hs 0 0, rfl⟩⟩, ?_⟩
  rintro ⟨n, k, h⟩
  cases n with
  | zero =>
    rw [hz k] at h
    rcases h with ⟨_, _, h, -⟩ | ⟨_, h, -⟩ <;> cases h
  | succ n =>
    rw [hs n k] at h
    rcases h with ⟨_, _, h, -⟩ | ⟨_, -, h⟩ <;> cases h

/-- `while (c1) { while (c2) { if (c3) op4; op5 } op6 } op7`. -/
def ifInInner : Prog Nat Nat :=
  mkProg [(0, 1), (1, 2), (1, 7), (2, 3), (2, 6), (3, 4), (3, 5), (4, 5), (5, 2), (6, 1)]
    [(0, [.op 0]), (1, [.condGoto 1 2 7]), (2, [.condGoto 2 3 6]), (3, [.condGoto 3 4 5]),
     (4, [.op 4]), (5, [.op 5]), (6, [.op 6]), (7, [.op 7])]

/-- **C88, violated.**  In an inner loop a block that goes on to the next block of the same loop is given
a `break` out of the outer loop: in the example the statements leave both loops after `op4`, where the
graph goes on with `op5`. -/
theorem C88_inner_block_violated :
    WellFormed ifInInner ∧
    decompile ifInInner 24 = some [.op 0,
      .loop (some 0) [.ite (.arg 1)
        [.loop none [.ite (.arg 2)
          [.ite (.arg 3) [.op 4, .brk (some 0)] [], .op 5, .cont none] [.brk none]],
         .op 6, .cont (some 0)]
        [.brk (some 0)]],
      .op 7] ∧
    CfgEnds (tester 5 [1, 2, 3]) ifInInner 0 (.thrown ()) ∧
    ∀ js, decompile ifInInner 24 = some js →
      JsEnds (tester 5 [1, 2, 3]) js 0 (.done 3) ∧
      ¬ JsEnds (tester 5 [1, 2, 3]) js 0 (.thrown ()) := by
  have hd : decompile ifInInner 24 = some [.op 0,
      .loop (some 0) [.ite (.arg 1)
        [.loop none [.ite (.arg 2)
          [.ite (.arg 3) [.op 4, .brk (some 0)] [], .op 5, .cont none] [.brk none]],
         .op 6, .cont (some 0)]
        [.brk (some 0)]],
      .op 7] := by rfl
  refine ⟨wellFormed_spec (mkProg_run _ _) (by decide +kernel), hd, ⟨8, by decide +kernel⟩, ?_⟩
  intro js h
  rw [hd] at h
  obtain rfl := Option.some.inj h
  have hz : ∀ k, runAll (tester 5 [1, 2, 3]) [.op 0,
      .loop (some 0) [.ite (.arg 1)
        [.loop none [.ite (.arg 2)
          [.ite (.arg 3) [.op 4, .brk (some 0)] [], .op 5, .cont none] [.brk none]],
         .op 6, .cont (some 0)]
        [.brk (some 0)]],
      .op 7] 0 (0, k) = .timeout :=
    fun k => rfl
  have hs : ∀ n k, runAll (tester 5 [1, 2, 3]) [.op 0,
      .loop (some 0) [.ite (.arg 1)
        [.loop none [.ite (.arg 2)
          [.ite (.arg 3) [.op 4, .brk (some 0)] [], .op 5, .cont none] [.brk none]],
         .op 6, .cont (some 0)]
        [.brk (some 0)]],
      .op 7] (n + 1) (0, k) = .normal (3, k) :=
    fun n k => rfl
  refine ⟨⟨1, 0, .inl ⟨3, 0, hs 0 0, rfl⟩⟩, ?_⟩
  rintro ⟨n, k, h⟩
  cases n with
  | zero =>
    rw [hz k] at h
    rcases h with ⟨_, _, h, -⟩ | ⟨_, h, -⟩ <;> cases h
  | succ n =>
    rw [hs n k] at h
    rcases h with ⟨_, _, -, h⟩ | ⟨_, h, -⟩ <;> cases h

/-- The graph `twoEntries` with every label one higher, so that its entry is block 1. -/
def entryOne : Prog Nat Nat :=
  { mkProg [(1, 2), (1, 3), (2, 3), (3, 2), (3, 4)]
      [(1, [.op 0, .condGoto 0 2 3]), (2, [.op 1]), (3, [.op 2, .condGoto 1 2 4]), (4, [.op 3])] with
    entry := 1 }

/-- **C88, violated.**  The state machine starts at block 0 whatever the entry of the graph is: for a
graph whose entry is block 1 the statements do nothing. -/
theorem C88_entry_violated :
    CfgEnds (tester 9 []) entryOne 0 (.done 3) ∧
    ∃ js, decompile entryOne 18 = some js ∧ JsEnds (tester 9 []) js 0 (.done 0) ∧
      ¬ JsEnds (tester 9 []) js 0 (.done 3) := by
  refine ⟨⟨4, rfl⟩, _, rfl, ⟨1, 0, .inl ⟨0, 0, rfl, rfl⟩⟩, ?_⟩
  rintro ⟨n, k, h⟩
  cases n with
  | zero => rcases h with ⟨_, _, h, -⟩ | ⟨_, h, -⟩ <;> cases h
  | succ n => rcases h with ⟨_, _, h, h'⟩ | ⟨_, h, -⟩ <;> cases h <;> cases h'

end Verif.Structure
