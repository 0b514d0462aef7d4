import Verif.Pipe.Model
import Verif.Pipe.Stages
import Verif.Lower.Theorems
/-!
# C77: the optimizer as a whole
-/

namespace Verif.Pipe

open Verif.Il Verif.Graph Verif.Dom Verif.Opt Verif.Ssa Verif.Prune

/-- The iteration meets none of the known faults: no branch is on a BigInt constant when branches on constants are
removed (`C73_bigint_violated`), and the blocks that may vanish do not matter to the phis when blocks are merged
(`C76_phi_entry_violated`, `C76_reroot_violated`). -/
def CleanRound (K : Evaluator) (fuel : Nat) (c : Cfg) : Prop :=
  ∀ c1, valueRound K fuel c = some c1 → NoBigIntBranch c1 ∧
    ∀ c2, impossibleBranches fuel c1 = some c2 → NoRace c2 ∧ EntryApart c2

/-- So do all of the first `r` iterations. -/
def CleanRounds (K : Evaluator) (fuel r : Nat) (c : Cfg) : Prop :=
  ∀ q, q < r → ∀ c', optRounds K fuel q c = some c' → CleanRound K fuel c'

/-- The second program does what the first one does, with the given meaning of the operations, skipping some of its
steps: there is a strictly increasing sequence of times of the first at which it is over exactly if the second is
and has the same world. -/
def Follows {V W : Type} (I : Interp V W) (c c' : Cfg) : Prop :=
  ∀ (e : Nat → V) (w : W), ∃ f : Nat → Nat, (∀ k, f k < f (k + 1)) ∧
    ∀ k, ((Opt.run I c' e w k).at_ = none ↔ (Opt.run I c e w (f k)).at_ = none) ∧
      (Opt.run I c' e w k).world = (Opt.run I c e w (f k)).world

/-! ## Helpers -/

section
variable {V W : Type} {I : Interp V W}

theorem follows_same {c c' : Cfg} (h : ∀ e w m, (Opt.run I c' e w m).at_ = (Opt.run I c e w m).at_ ∧
    (Opt.run I c' e w m).world = (Opt.run I c e w m).world) : Follows I c c' :=
  fun e w => ⟨fun k => k, fun k => Nat.lt_succ_self k, fun k => ⟨by rw [(h e w k).1], (h e w k).2⟩⟩

theorem Follows.trans {a b c : Cfg} (h : Follows I a b) (h' : Follows I b c) : Follows I a c := by
  intro e w
  obtain ⟨f, f1, f2⟩ := h e w
  obtain ⟨g, g1, g2⟩ := h' e w
  have mono : ∀ {x y}, x < y → f x < f y := by
    intro x y hxy
    obtain ⟨d, rfl⟩ := Nat.exists_eq_add_of_lt hxy
    induction d with
    | zero => exact f1 x
    | succ d ih => exact Nat.lt_trans (ih (by omega)) (f1 _)
  refine ⟨fun k => f (g k), fun k => mono (g1 k), fun k => ⟨(g2 k).1.trans (f2 _).1, (g2 k).2.trans (f2 _).2⟩⟩

theorem le_of_grows {f : Nat → Nat} (h : ∀ k, f k < f (k + 1)) : ∀ k, k ≤ f k
  | 0 => Nat.zero_le _
  | k + 1 => by
    have := le_of_grows h k
    have := h k
    omega

theorem run_over {c : Cfg} {e : Nat → V} {w : W} {k : Nat} (h : (Opt.run I c e w k).at_ = none) :
    ∀ d, Opt.run I c e w (k + d) = Opt.run I c e w k
  | 0 => rfl
  | d + 1 => by
    rw [← Nat.add_assoc, Opt.run, run_over h d, Opt.step, h]

end

/-- What holds of the program between two iterations. -/
structure Between {V W : Type} (I : Interp V W) (n : Nat) (c : Cfg) : Prop where
  prog : SsaProgram c
  only : OnlyBranchesFork c
  timeless : TimelessOps I c
  below : LabelsBelow c n

section
variable {V W : Type} {I : Interp V W} {n : Nat}

theorem labels_length {c : Cfg} (P : SsaProgram c) (h : LabelsBelow c n) : c.graph.labels.length ≤ n := by
  obtain ⟨ops, hg⟩ := P.graph
  have wg := ((C26_history ops).2 _ hg).wf
  have := wg.keys.length_le_of_subset (l₂ := List.range n) (fun x hx => List.mem_range.2 (h.2 x hx))
  simpa using this

theorem byOp_timeless : ByOp (fun i : Inst => i.t = .bin ∨ i.t = .un → Timeless I (opcode i)) where
  same := by
    intro i j h ht ho hj
    rw [ho]
    rw [ht] at hj
    exact h hj
  copy := by
    intro t a h
    simp [Inst.varAssign] at h

theorem within_of {c : Cfg} (ht : TimelessOps I c) (hb : LabelsBelow c n) :
    Within (· < n) (fun i : Inst => i.t = .bin ∨ i.t = .un → Timeless I (opcode i)) c := by
  intro l is h
  refine ⟨hb.1 l (lookup_isSome_iff.1 (by rw [show c.bblocks.lookup l = some is from h]; rfl)), ?_⟩
  intro i hi
  obtain ⟨k, hk⟩ := mem_inst h hi
  exact ht l k i hk

theorem of_within {c : Cfg} (P : SsaProgram c)
    (h : Within (· < n) (fun i : Inst => i.t = .bin ∨ i.t = .un → Timeless I (opcode i)) c) :
    TimelessOps I c ∧ LabelsBelow c n := by
  have hl : ∀ l, (Cfg.block c l).isSome → l < n := by
    intro l hl
    obtain ⟨is, e⟩ := Option.isSome_iff_exists.1 hl
    exact (h l is e).1
  refine ⟨?_, fun l hm => hl l (lookup_isSome_iff.2 hm), fun l hm => hl l (P.nodes l (contains_iff.2 hm))⟩
  intro l k i hi
  cases hb : Cfg.block c l with
  | none => simp [instAt, blockOf, hb] at hi
  | some is =>
    simp only [instAt, blockOf, hb, Option.getD_some] at hi
    exact (h l is hb).2 i (List.mem_of_getElem? hi)

theorem value_round [Nonempty W] {K : Evaluator} (sound : EvalSound K I) (silent : ReadsAreSilent I) {c : Cfg}
    (B : Between I n c) {fuel : Nat} (hf : n + 3 ≤ fuel) {c' : Cfg} (e : valueRound K fuel c = some c') :
    Between I n c' ∧ Follows I c c' := by
  simp only [valueRound, Option.bind_eq_bind, Option.bind_eq_some_iff] at e
  obtain ⟨d, hd, c1, e1, e2⟩ := e
  have hl := labels_length B.prog B.below
  obtain ⟨c1', a1, a2, a3, a4, a5, a6, a7, a8, a9⟩ := dvn_stage sound silent B.prog B.timeless (by omega) hd
  rw [a1] at e1
  obtain rfl := Option.some.inj e1
  obtain ⟨b1, b2⟩ := dce_stage a2
  obtain ⟨c2, d1, d2, d3, d4, d5, d6, d7⟩ := copies_stage b1 (dce_chains a3)
  rw [d1] at e2
  obtain rfl := Option.some.inj e2
  refine ⟨⟨d2, d3 (b2 (a4 B.only)), copies_timeless (dce_timeless a5) d1, ?_, ?_⟩, ?_⟩
  · rw [d6, trivialDce_eq, keys_thin, a8]
    exact B.below.1
  · rw [d4, show (trivialDce c1').graph = c1'.graph from rfl, a6]
    exact B.below.2
  · refine (follows_same fun e w m => ?_ : Follows I c c1').trans
      ((follows_same fun e w m => C32_unused I silent c1' a2.wf e w m).trans (follows_same fun e w m => d7 I e w m))
    rw [a9 e w m]
    exact ⟨rfl, rfl⟩

theorem opt_round [Nonempty W] {K : Evaluator} (sound : EvalSound K I) (silent : ReadsAreSilent I)
    (truth : ConstTruth I) {c : Cfg} (B : Between I n c) {fuel : Nat} (hf : n + 3 ≤ fuel) (clean : CleanRound K fuel c)
    {c' : Cfg} (e : optRound K fuel c = some c') :
    Between I n c' ∧ PhisComplete c' ∧ Follows I c c' := by
  simp only [optRound, Option.bind_eq_bind, Option.bind_eq_some_iff] at e
  obtain ⟨c1, e1, c2, e2, e3⟩ := e
  obtain ⟨B1, F1⟩ := value_round sound silent B hf e1
  obtain ⟨k1, k2⟩ := clean c1 e1
  obtain ⟨h1, h2, h3, h4, h5, h6⟩ := branches_stage B1.prog B1.only e2
  obtain ⟨s, g1, g2, -, -, g5, -⟩ := (C76_partial c2 h1 h2 h4 h5 (k2 c2 e2).1 (k2 c2 e2).2).1 fuel c' e3
  have hw := within_cfgPrune byOp_timeless
    (within_impossibleBranches byOp_timeless (within_of B1.timeless B1.below) e2) e3
  obtain ⟨w1, w2⟩ := of_within g1 hw
  refine ⟨⟨g1, g5, w1, w2⟩, g2, F1.trans ((follows_same fun e w m => h6 k1 I truth e w m).trans fun e w => s V W I e w)⟩

end

theorem rounds_last {K : Evaluator} {fuel : Nat} : ∀ {r : Nat} {c c' : Cfg}, optRounds K fuel (r + 1) c = some c' →
    ∃ c1, optRounds K fuel r c = some c1 ∧ optRound K fuel c1 = some c'
  | 0, c, c', e => by
    simp only [optRounds, Option.bind_eq_bind, Option.bind_eq_some_iff, Option.some.injEq] at e
    obtain ⟨c1, h, rfl⟩ := e
    exact ⟨c, rfl, h⟩
  | r + 1, c, c', e => by
    rw [optRounds, Option.bind_eq_bind, Option.bind_eq_some_iff] at e
    obtain ⟨c1, h, e⟩ := e
    obtain ⟨c2, h1, h2⟩ := rounds_last e
    refine ⟨c2, ?_, h2⟩
    rw [optRounds, h]
    exact h1

/-! ## C77 -/

/-- **C77**, partial, on programs in SSA form: let the compile-time evaluator be sound, computations and loads have
no effects, and the binary and unary operations of the program depend on nothing but their operands.  If any number
of iterations of the five passes ends without panic and meets none of the known faults of the passes, the result is
a program in SSA form whose phis have exactly an entry for each predecessor, with no new labels, which does
what the program does, in the same or fewer steps.
Missing: the faults (`CleanRound`), and that the iterations do not panic and come to an end. -/
theorem C77_rounds_partial {V W : Type} [Nonempty W] (K : Evaluator) (I : Interp V W) (sound : EvalSound K I)
    (silent : ReadsAreSilent I) (truth : ConstTruth I) (c : Cfg) (P : SsaProgram c) (complete : PhisComplete c)
    (only : OnlyBranchesFork c)
    (timeless : ∀ (l k : Nat) (i : Inst), instAt c l k = some i → i.t = .bin ∨ i.t = .un → Timeless I (opcode i))
    (n : Nat) (below : LabelsBelow c n) (fuel : Nat) (hf : n + 3 ≤ fuel) (r : Nat) (c' : Cfg)
    (h : optRounds K fuel r c = some c') (clean : CleanRounds K fuel r c) :
    SsaProgram c' ∧ PhisComplete c' ∧ LabelsBelow c' n ∧ Follows I c c' := by
  have key : ∀ r c', optRounds K fuel r c = some c' → CleanRounds K fuel r c →
      Between I n c' ∧ PhisComplete c' ∧ Follows I c c' := by
    intro r
    induction r with
    | zero =>
      intro c' h _
      obtain rfl := Option.some.inj h
      exact ⟨⟨P, only, timeless, below⟩, complete, follows_same fun _ _ _ => ⟨rfl, rfl⟩⟩
    | succ r ih =>
      intro c' h cl
      obtain ⟨c1, h1, h2⟩ := rounds_last h
      obtain ⟨B, -, F⟩ := ih c1 h1 (fun q hq => cl q (by omega))
      obtain ⟨B', pc, F'⟩ := opt_round sound silent truth B hf (cl r (by omega) c1 h1) h2
      exact ⟨B', pc, F.trans F'⟩
  obtain ⟨B, pc, F⟩ := key r c' h clean
  exact ⟨B.prog, pc, B.below, F⟩

open Verif.Lower in
/-- **C77**, partial: from the statements of a body to the program the optimizer returns.  Take a body as in
`C75_partial` whose translation uses only binary and unary operations that depend on nothing but their operands, a
sound compile-time evaluator, and computations and loads without effects.  If the iterations of the passes end, in
whatever number, without panic and without meeting the known faults, then SSA form can be left, and the program that
is returned has no phis and the effects of the body: it ends in the world the body ends in, and it does not end if
the body does not.
Missing: as for `C77_rounds_partial` and `C75_partial`, and phis that read an earlier one of their block at the end
(`C31_swap_violated`).  `C77_branch_violated`, `C77_loop_violated` and `C77_panic_violated` show what becomes of
bodies that meet the faults. -/
theorem C77_partial {V W : Type} [Nonempty W] (b : Body) (code : List Inst) (n m : Nat)
    (h : translate b = some (code, n, m)) (hn : n ≤ 2 ^ 32 - 1) (hc : b.oneClass) (upd : Bool)
    (ho : b.stmts.ordered upd = true) (K : Evaluator) (I : Interp V W) (sound : EvalSound K I)
    (silent : ReadsAreSilent I) (truth : ConstTruth I)
    (timeless : ∀ i ∈ code, i.t = .bin ∨ i.t = .un → Timeless I (opcode i))
    (c0 : Cfg) (n' : Nat) (hb : Lin.buildCfg code n = some (c0, n')) (fuel : Nat) (hf : 2 * n' + 3 ≤ fuel)
    (c1 : Cfg) (m' : Nat) (h1 : construct fuel c0 m = some (c1, m'))
    (r : Nat) (c2 : Cfg) (h2 : optRounds K fuel r c1 = some c2) (clean : CleanRounds K fuel r c1)
    (noClobber : NoClobber c2) :
    ∃ c', buildFunction K fuel r code n m = some c' ∧ NoPhis c' ∧
      ∃ vs, Hoisted b vs ∧ ∃ μ : Nat → Option Nat, (∀ x y t, μ x = some t → μ y = some t → x = y) ∧
        ∀ (num : V → W → V × W), (upd = true → ∀ v w, num v w = (v, w)) →
          ∀ (s : St V W) (e : Nat → V), (∀ x t, μ x = some t → e t = s.vars x) →
            (∀ fuel c s', runBody I num fuel vs b s = .done c s' →
              ∃ k, (Opt.run I c' e s.world k).at_ = none ∧ (Opt.run I c' e s.world k).world = s'.world) ∧
            ((∀ fuel, ∃ s', runBody I num fuel vs b s = .more s') → ∀ k, (Opt.run I c' e s.world k).at_ ≠ none) := by
  obtain ⟨ok, vars, -⟩ := C75_partial b code n m h hn hc upd ho
  obtain ⟨c0', q, hb', hw⟩ := Lin.C74_into_ssa code n m ok vars
  obtain ⟨c0'', q2, hb'', hw2⟩ := C75_into_ssa_partial b code n m h hn hc upd ho
  obtain ⟨c3, q3, hb3, ⟨ops, hg⟩, wf3, -, -, -, -, -, hlb, -⟩ := Lin.C74 code n ok
  rw [hb] at hb' hb'' hb3
  obtain ⟨rfl, rfl⟩ := Prod.mk.inj (Option.some.inj hb')
  obtain ⟨rfl, rfl⟩ := Prod.mk.inj (Option.some.inj hb'')
  obtain ⟨rfl, rfl⟩ := Prod.mk.inj (Option.some.inj hb3)
  have hf' : c0.bblocks.length + c0.graph.labels.length + 3 ≤ fuel := by
    have wg := ((C26_history ops).2 _ hg).wf
    have l1 := wg.keys.length_le_of_subset (l₂ := List.range n') (fun x hx => List.mem_range.2 (hlb.2 x hx))
    have l2 := wf3.labels.length_le_of_subset (l₂ := List.range n') (fun x hx => List.mem_range.2 (hlb.1 x hx))
    have l3 : c0.graph.labels.length ≤ n' := by simpa using l1
    simp only [List.length_map, List.length_range] at l2
    omega
  obtain ⟨c1', m1, e1, P, pc, -, hbelow, honly, hops, -⟩ := hw fuel hf'
  obtain ⟨c1'', m2, e2, -, vs, hv, μ, inj, R⟩ := hw2 fuel hf'
  rw [h1] at e1 e2
  obtain ⟨rfl, rfl⟩ := Prod.mk.inj (Option.some.inj e1)
  obtain ⟨rfl, rfl⟩ := Prod.mk.inj (Option.some.inj e2)
  have tl : TimelessOps I c1 := by
    intro l k i hi ht
    obtain ⟨i0, g1, g2, g3⟩ := hops l k i hi (by rcases ht with ht | ht <;> simp [ht])
    rw [g3]
    rw [g2] at ht
    exact timeless i0 g1 ht
  obtain ⟨P2, pc2, lb2, F⟩ := C77_rounds_partial K I sound silent truth c1 P pc honly tl n' hbelow fuel (by omega) r c2
    h2 clean
  obtain ⟨ops2, hg2⟩ := P2.graph
  have par : PhiParents c2 := by
    intro l k i p hi ht hp
    have he := ((pc2 l k i hi ht).2 p).1 hp
    exact ⟨he, block_of_reach P2.wf (P2.reach.2 p l he)⟩
  obtain ⟨c', n2, d1, -, d3, d4⟩ := C31_partial I c2 ops2 hg2 n' P2.wf par noClobber lb2
  refine ⟨c', ?_, d3, vs, hv, μ, inj, ?_⟩
  · simp only [buildFunction, hb, h1, h2, d1, Option.bind_eq_bind, Option.bind_some]
  · intro num hnum s e ag
    obtain ⟨r1, r2⟩ := R V W I num hnum s e ag
    obtain ⟨f, f1, f2⟩ := F e s.world
    obtain ⟨g, -, g2, g3⟩ := d4 e s.world
    have hgm : ∀ k, g k < g (k + 1) := by
      intro k
      rcases g2 k with h | ⟨h, -⟩ <;> omega
    constructor
    · intro fuel c s' hr
      obtain ⟨k, k1, k2⟩ := r1 fuel c s' hr
      refine ⟨g k, ?_⟩
      obtain ⟨d, hd⟩ := Nat.exists_eq_add_of_le (le_of_grows f1 k)
      have := run_over k1 d
      rw [← hd] at this
      rw [g3 k]
      refine ⟨(f2 k).1.2 (by rw [this]; exact k1), ?_⟩
      rw [(f2 k).2, this]
      exact k2
    · intro hm k hk
      obtain ⟨d, hd⟩ := Nat.exists_eq_add_of_le (le_of_grows hgm k)
      have := run_over hk d
      rw [← hd, g3 k] at this
      have hk2 : (Opt.run I c2 e s.world k).at_ = none := by rw [this]; exact hk
      exact r2 hm (f k) ((f2 k).1.1 hk2)

/-! ### Examples -/

/-- Numbers are added and compared, a global variable has itself as its value but for `c`, which is undefined, and
calls are recorded and answer `true` three times. -/
def flow : Interp Arg (List (List Arg)) where
  lit := id
  op := fun o vs w =>
    match o, vs with
    | .bin .getProp, [.builtin o, .const (.str q)] => (.builtin (o ++ [46] ++ q), w)
    | .bin .add, [.const (.num x), .const (.num y)] => (.const (.num (x + y)), w)
    | .bin .lt, [.const (.num x), .const (.num y)] => (.const (.bool (decide (x < y))), w)
    | .call _, vs => (.const (.bool (decide (w.length < 3))), w ++ [vs])
    | .unknownLoad s, _ => (if s = [99] then .const .undefined else .builtin s, w)
    | _, _ => (.const .undefined, w)
  truthy := truthInterp.truthy

theorem flow_truth : ConstTruth flow := truth_const

theorem flow_silent : ReadsAreSilent flow := by
  refine ⟨?_, ?_, ?_, ?_⟩
  · intro o vs w
    simp only [flow]
    split <;> simp_all
  · intro o vs w
    rfl
  · intro s vs w
    rfl
  · intro s vs w
    rfl

theorem flow_sound : EvalSound demoEval flow := by
  refine ⟨?_, ?_, ?_, ?_, ?_⟩
  · intro op l r v w h
    simp only [demoEval] at h
    split at h
    · obtain rfl := Option.some.inj h
      rfl
    · cases h
  · intro op x y w h
    rcases h with rfl | rfl
    · simp only [flow, id, Nat.add_comm]
    · rfl
  · intro o q w h
    rfl
  · intro p v h
    cases h
  · intro f cs v this w h
    cases h

theorem flow_timeless (i : Inst) (h : i.t = .bin ∨ i.t = .un) : Timeless flow (opcode i) := by
  intro vs w w'
  rcases h with h | h
  · simp only [opcode, h, flow]
    split <;> simp_all
  · simp only [opcode, h]
    rfl

/-- A check of `CleanRound`. -/
def cleanB (K : Evaluator) (fuel : Nat) (c : Cfg) : Bool :=
  match valueRound K fuel c with
  | none => true
  | some c1 => (allAt c1).all (fun x => x.2.2.t != .condGoto || x.2.2.args.all
      (fun a => match a with | .const (.bigint _) => false | _ => true)) &&
    match impossibleBranches fuel c1 with
    | none => true
    | some c2 => raced c2 && aparted c2

theorem clean_of {K : Evaluator} {fuel : Nat} {c : Cfg} (h : cleanB K fuel c = true) : CleanRound K fuel c := by
  intro c1 e1
  simp only [cleanB, e1, Bool.and_eq_true] at h
  refine ⟨noBigInt_of h.1, fun c2 e2 => ?_⟩
  have h2 := h.2
  simp only [e2, Bool.and_eq_true] at h2
  exact ⟨race_of h2.1, apart_of h2.2⟩

theorem rounds_add {K : Evaluator} {fuel : Nat} : ∀ {r q : Nat} {c : Cfg}, optRounds K fuel (r + q) c =
    (optRounds K fuel r c).bind (optRounds K fuel q)
  | 0, q, c => by simp [optRounds]
  | r + 1, q, c => by
    rw [show r + 1 + q = (r + q) + 1 by omega, optRounds, optRounds]
    cases optRound K fuel c with
    | none => rfl
    | some c1 => exact rounds_add

theorem rounds_fixed {K : Evaluator} {fuel : Nat} {c : Cfg} (h : optRound K fuel c = some c) :
    ∀ q, optRounds K fuel q c = some c
  | 0 => rfl
  | q + 1 => by
    rw [optRounds, h]
    exact rounds_fixed h q

open Verif.Lower in
/-- A call of a global function. -/
def callG (f : Nat) (as : List Expr) : Expr :=
  .call (.ident (.unknown [f])) (as.foldr (fun a r => .cons false a r) .nil) false

open Verif.Lower in
def varL (k : Nat) : Expr := .ident (.local k)

open Verif.Lower in
/-- `let x; let y = z + 1; while (c(y)) { if (z + 1) { x = g(z + 1) } else if (2 + 1) { x = g(2 + 1) } else { k() }
f(x) }` -/
def good : Body := ⟨true, [], ofList [
  .decl .let_ (.local 0) none,
  .decl .let_ (.local 1) (some (.arith .add (varL 2) (num 1))),
  .while_ (callG 99 [varL 1]) (.block (ofList [
    .ifElse (.arith .add (varL 2) (num 1))
      (.expr (.assign .plain (.local 0) (callG 103 [.arith .add (varL 2) (num 1)])))
      (.ifElse (.arith .add (num 2) (num 1))
        (.expr (.assign .plain (.local 0) (callG 103 [.arith .add (num 2) (num 1)])))
        (.expr (callG 107 []))),
    .expr (callG 102 [varL 0])]))]⟩

theorem rounds_from {K : Evaluator} {fuel k : Nat} {c c2 : Cfg} (h : optRounds K fuel k c = some c2)
    (h2 : optRound K fuel c2 = some c2) : ∀ r, k ≤ r → optRounds K fuel r c = some c2 := by
  intro r hr
  obtain ⟨d, rfl⟩ := Nat.exists_eq_add_of_le hr
  rw [rounds_add, h]
  exact rounds_fixed h2 d

/-- The code of a body, the program before and after it is put into SSA form, and after so many iterations. -/
def stages (b : Lower.Body) (k : Nat) : Option ((List Inst × Nat × Nat) × (Cfg × Nat) × (Cfg × Nat) × Cfg) := do
  let x ← Lower.translate b
  let y ← Lin.buildCfg x.1 x.2.1
  let z ← construct 100 y.1 x.2.2
  let c ← optRounds demoEval 100 k z.1
  some (x, y, z, c)

theorem stages_of {b : Lower.Body} {k : Nat} {P : List Inst → Nat → Nat → Cfg → Nat → Cfg → Nat → Cfg → Bool}
    (h : ((stages b k).map (fun s => P s.1.1 s.1.2.1 s.1.2.2 s.2.1.1 s.2.1.2 s.2.2.1.1 s.2.2.1.2 s.2.2.2)) = some true) :
    ∃ code n m c0 n' c1 m' c2, Lower.translate b = some (code, n, m) ∧ Lin.buildCfg code n = some (c0, n') ∧
      construct 100 c0 m = some (c1, m') ∧ optRounds demoEval 100 k c1 = some c2 ∧
      P code n m c0 n' c1 m' c2 = true := by
  simp only [stages, Option.bind_eq_bind, Option.map_eq_some_iff, Option.bind_eq_some_iff, Option.some.injEq] at h
  obtain ⟨s, ⟨⟨code, n, m⟩, e1, ⟨c0, n'⟩, e2, ⟨c1, m'⟩, e3, c2, e4, rfl⟩, h⟩ := h
  exact ⟨code, n, m, c0, n', c1, m', c2, e1, e2, e3, e4, h⟩

/-- The iterations on this body are clean, in whatever number: after the second one nothing changes.  Of sixteen
blocks seven remain. -/
example : ∃ code n m c0 n' c1 m' c2, Lower.translate good = some (code, n, m) ∧ n ≤ 2 ^ 32 - 1 ∧
    good.oneClass ∧ good.stmts.ordered true = true ∧
    Lin.buildCfg code n = some (c0, n') ∧ 2 * n' + 3 ≤ 100 ∧ construct 100 c0 m = some (c1, m') ∧
    (∀ r, 2 ≤ r → optRounds demoEval 100 r c1 = some c2) ∧ (∀ r, CleanRounds demoEval 100 r c1) ∧ NoClobber c2 ∧
    c1.bblocks.length = 16 ∧ c2.bblocks.length = 7 := by
  obtain ⟨code, n, m, c0, n', c1, m', c2, e1, e2, e3, e4, h⟩ := stages_of (b := good) (k := 2)
    (P := fun _ n _ _ n' c1 _ c2 => decide (n ≤ 2 ^ 32 - 1) && decide (2 * n' + 3 ≤ 100) &&
      (optRound demoEval 100 c2 == some c2) && clobberB c2 && decide (c1.bblocks.length = 16) &&
      decide (c2.bblocks.length = 7) && cleanB demoEval 100 c1 &&
      ((optRounds demoEval 100 1 c1).map (cleanB demoEval 100) == some true) && cleanB demoEval 100 c2)
    (by decide +kernel)
  simp only [Bool.and_eq_true, decide_eq_true_eq, beq_iff_eq] at h
  obtain ⟨⟨⟨⟨⟨⟨⟨⟨h1, h2⟩, h3⟩, h4⟩, h5⟩, h6⟩, h7⟩, h8⟩, h9⟩ := h
  refine ⟨code, n, m, c0, n', c1, m', c2, e1, h1, ?_, by decide +kernel, e2, h2, e3, rounds_from e4 h3, ?_,
    clobber_of h4, h5, h6⟩
  · intro x hx
    simp [good, Lower.ofList, Lower.Stmts.varNames, Lower.Stmt.varNames] at hx
  · intro r q hq c' hc'
    match q, hc' with
    | 0, hc' =>
      obtain rfl := Option.some.inj hc'
      exact clean_of h7
    | 1, hc' =>
      rw [hc'] at h8
      exact clean_of (by simpa using h8)
    | q + 2, hc' =>
      rw [rounds_from e4 h3 (q + 2) (by omega)] at hc'
      obtain rfl := Option.some.inj hc'
      exact clean_of h9

/-- The calls of a body that ends. -/
def callsOf (b : Lower.Body) : Option (List (List Arg)) :=
  match Lower.runBody flow (fun v w => (v, w)) 20 [] b ⟨fun _ => .const .undefined, []⟩ with
  | .done _ s => some s.world
  | .more _ => none

/-- It makes four calls, and so does the program returned for it. -/
example : (callsOf good).map (·.length) = some 4 ∧
    (do let (code, n, m) ← Lower.translate good
        let c ← buildFunction demoEval 100 2 code n m
        let s := Opt.run flow c (fun _ => .const .undefined) [] 40
        if s.at_ = none then some s.world else none) = callsOf good := by decide +kernel

/-! ### What is missing

The bodies below meet all conditions of `C77_partial` but those on the faults. -/

/-- The body ends, but the program returned for it, after whatever number of iterations from 2 on, never has the
effects the body ends with. -/
def Miscompiled (b : Lower.Body) : Prop :=
  ∃ code n m, Lower.translate b = some (code, n, m) ∧ n ≤ 2 ^ 32 - 1 ∧ b.oneClass ∧
    b.stmts.ordered true = true ∧ Lower.Hoisted b [] ∧
    ∃ c', (∀ r, 2 ≤ r → buildFunction demoEval 100 r code n m = some c') ∧
    ∃ fuel x s', Lower.runBody flow (fun v w => (v, w)) fuel [] b ⟨fun _ => .const .undefined, []⟩ = .done x s' ∧
      ∀ k, (Opt.run flow c' (fun _ => .const .undefined) [] k).world ≠ s'.world

theorem miscompiled_of {b : Lower.Body} (hv : b.stmts.varNames = []) (ho : b.stmts.ordered true = true)
    (h : ((stages b 2).map (fun s => decide (s.1.2.1 ≤ 2 ^ 32 - 1) && (optRound demoEval 100 s.2.2.2 == some s.2.2.2) &&
      ((deconstruct s.2.2.2 s.2.1.2).map (fun r =>
        (Opt.run flow r.1 (fun _ => .const .undefined) [] 20).at_ == none &&
        (List.range 21).all (fun k => some (Opt.run flow r.1 (fun _ => .const .undefined) [] k).world != callsOf b))
        == some true) && (callsOf b).isSome)) = some true) : Miscompiled b := by
  obtain ⟨code, n, m, c0, n', c1, m', c2, e1, e2, e3, e4, h⟩ := stages_of (b := b) (k := 2)
    (P := fun _ n _ _ n' _ _ c2 => decide (n ≤ 2 ^ 32 - 1) && (optRound demoEval 100 c2 == some c2) &&
      ((deconstruct c2 n').map (fun r =>
        (Opt.run flow r.1 (fun _ => .const .undefined) [] 20).at_ == none &&
        (List.range 21).all (fun k => some (Opt.run flow r.1 (fun _ => .const .undefined) [] k).world != callsOf b))
        == some true) && (callsOf b).isSome) h
  simp only [Bool.and_eq_true, decide_eq_true_eq, beq_iff_eq, Option.map_eq_some_iff, List.all_eq_true, List.mem_range,
    bne_iff_ne] at h
  obtain ⟨⟨⟨h1, h2⟩, ⟨c', n2⟩, h3, h4, h5⟩, h6⟩ := h
  dsimp only at h3 h4 h5
  refine ⟨code, n, m, e1, h1, ?_, ho, ⟨.nil, .nil, ?_⟩, c', ?_, 20, ?_⟩
  · intro x hx
    rw [hv] at hx
    cases hx
  · intro x
    simp [hv]
  · intro r hr
    simp only [buildFunction, e2, e3, rounds_from e4 h2 r hr, h3, Option.bind_eq_bind, Option.bind_some]
  · simp only [callsOf] at h5 h6
    cases hr : Lower.runBody flow (fun v w => (v, w)) 20 [] b ⟨fun _ => .const .undefined, []⟩ with
    | more s => simp [hr] at h6
    | done x s' =>
      refine ⟨x, s', rfl, fun k hk => ?_⟩
      simp only [hr] at h5
      by_cases hk' : k < 21
      · exact h5 k hk' (by rw [hk])
      · obtain ⟨d, rfl⟩ := Nat.exists_eq_add_of_le (show 20 ≤ k by omega)
        rw [run_over h4 d] at hk
        exact h5 20 (by omega) (by rw [hk])

open Verif.Lower in
/-- `let x = 1; if (c) { x = 2 } f(x)` -/
def branchBody : Body := ⟨false, [], ofList [.decl .let_ (.local 0) (some (num 1)),
  .ifThen (.ident (.unknown [99])) (.expr (.assign .plain (.local 0) (num 2))), .expr (callG 102 [varL 0])]⟩

/-- **C77**, violated: `let x = 1; if (c) { x = 2 } f(x)` is compiled to a call `f(2)` without a branch. -/
theorem C77_branch_violated : EvalSound demoEval flow ∧ ReadsAreSilent flow ∧ ConstTruth flow ∧
    (∀ i : Inst, i.t = .bin ∨ i.t = .un → Timeless flow (opcode i)) ∧ Miscompiled branchBody :=
  ⟨flow_sound, flow_silent, flow_truth, flow_timeless,
    miscompiled_of (by decide +kernel) (by decide +kernel) (by decide +kernel)⟩

example : callsOf branchBody = some [[.builtin [102], .const .undefined, .const (.num 1)]] ∧
    (stages branchBody 2).map (fun s => s.2.2.2.bblocks) =
      some [(0, [Lower.unknownLoad 11 [102],
        Inst.call none (.var 11) (.const .undefined) [.const (.num 2)] []])] := by decide +kernel

open Verif.Lower in
/-- `let i = 0; while (i < 3) { f(i); i += 1 }` -/
def loopBody : Body := ⟨false, [], ofList [.decl .let_ (.local 0) (some (num 0)),
  .while_ (.cmp .lt (varL 0) (num 3)) (.block (ofList [.expr (callG 102 [varL 0]),
    .expr (.assign (.arith .add) (.local 0) (num 1))]))]⟩

/-- **C77**, violated: `let i = 0; while (i < 3) { f(i); i += 1 }` is compiled to a loop that never sets `i` to 0. -/
theorem C77_loop_violated : EvalSound demoEval flow ∧ ReadsAreSilent flow ∧ ConstTruth flow ∧
    (∀ i : Inst, i.t = .bin ∨ i.t = .un → Timeless flow (opcode i)) ∧ Miscompiled loopBody :=
  ⟨flow_sound, flow_silent, flow_truth, flow_timeless,
    miscompiled_of (by decide +kernel) (by decide +kernel) (by decide +kernel)⟩

example : (callsOf loopBody).map (·.length) = some 3 := by decide +kernel

open Verif.Lower in
/-- `if (a) { if (b) { f() } } else { if (c) { g() } }` -/
def exitsBody : Body := ⟨true, [], ofList [.ifElse (.ident (.unknown [97]))
  (.block (ofList [.ifThen (.ident (.unknown [98])) (.expr (callG 102 []))]))
  (.block (ofList [.ifThen (.ident (.unknown [99])) (.expr (callG 103 []))]))]⟩

/-- **C77**, violated: the second iteration on `if (a) { if (b) { f() } } else { if (c) { g() } }` panics, although both
iterations are clean. -/
theorem C77_panic_violated : ∃ code n m c0 n' c1 m' c2, Lower.translate exitsBody = some (code, n, m) ∧
    exitsBody.stmts.ordered true = true ∧
    Lin.buildCfg code n = some (c0, n') ∧ construct 100 c0 m = some (c1, m') ∧
    optRounds demoEval 100 1 c1 = some c2 ∧ CleanRounds demoEval 100 2 c1 ∧
    ∃ c3 c4, valueRound demoEval 100 c2 = some c3 ∧ impossibleBranches 100 c3 = some c4 ∧
      ∀ fuel, cfgPrune fuel c4 = none := by
  obtain ⟨code, n, m, c0, n', c1, m', c2, e1, e2, e3, e4, h⟩ := stages_of (b := exitsBody) (k := 1)
    (P := fun _ _ _ _ _ c1 _ c2 => cleanB demoEval 100 c1 && cleanB demoEval 100 c2 &&
      (((valueRound demoEval 100 c2).bind (impossibleBranches 100)).map (fun c => pruneRound c == none) == some true))
    (by decide +kernel)
  simp only [Bool.and_eq_true, beq_iff_eq, Option.map_eq_some_iff, Option.bind_eq_some_iff] at h
  obtain ⟨⟨h1, h2⟩, c4, ⟨c3, h3, h4⟩, h5⟩ := h
  refine ⟨code, n, m, c0, n', c1, m', c2, e1, by decide +kernel, e2, e3, e4, ?_, c3, c4, h3, h4, ?_⟩
  · intro q hq c' hc'
    match q, hc' with
    | 0, hc' =>
      obtain rfl := Option.some.inj hc'
      exact clean_of h1
    | 1, hc' =>
      rw [hc'] at e4
      obtain rfl := Option.some.inj e4
      exact clean_of h2
    | q + 2, _ => omega
  · intro fuel
    cases fuel with
    | zero => rfl
    | succ fuel => simp [cfgPrune, h5]

end Verif.Pipe
