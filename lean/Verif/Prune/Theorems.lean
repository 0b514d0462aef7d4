import Verif.Prune.Rounds
import Verif.Ssa.PassTheorems
/-!
# Merging and removing blocks: C76

`Spec` of this directory and `Ssa.Spec` say what is asked.
-/

namespace Verif.Prune

open Verif.Il Verif.Graph Verif.Opt Verif.Ssa

theorem inv_of {c : Cfg} (P : SsaProgram c) (hc : PhisComplete c) (hb : BranchesFork c) (ho : OnlyBranchesFork c)
    (hr : NoRace c) (he : EntryApart c) : Inv c :=
  ⟨P, fun l k i e ht p hp => ((hc l k i e ht).2 p).1 hp, hb, ho, hr, he⟩

theorem Simple.complete {c : Cfg} (P : SsaProgram c) (h : Simple c) : PhisComplete c := by
  obtain ⟨c', b, h1, -, h2, -⟩ := C72_partial c P
  rw [Simple] at h
  rw [h] at h1
  cases h1
  exact h2

/-- **C76**, partial: take a program in SSA form whose phis have exactly an entry for each predecessor, whose
branches have two targets, and in which only branches have more than one successor.  Suppose that the blocks that
may vanish (they are empty, or nothing but a branch to such a block) do not matter to the phis: no block leads
through them to all the predecessors of a phi or to two with different values, and an entry that may vanish does
not lead through them to a phi.  If merging and removing its blocks ends without panic then the result is such a
program again, and it runs as the first, in fewer steps.  If no exit is empty then it does end without panic, and in
the result nothing is left to merge.
Missing: programs with such phis (`C76_phi_entry_violated`, `C76_reroot_violated`), and the end without panic for
programs with empty exits (`C76_panic_violated`). -/
theorem C76_partial (c : Cfg) (P : SsaProgram c) (hc : PhisComplete c) (hb : BranchesFork c) (ho : OnlyBranchesFork c)
    (hr : NoRace c) (he : EntryApart c) :
    (∀ fuel c', cfgPrune fuel c = some c' → Skips c c' ∧
      SsaProgram c' ∧ PhisComplete c' ∧ PhisJoin c' ∧ BranchesFork c' ∧ OnlyBranchesFork c' ∧ NoRace c' ∧ EntryApart c') ∧
    (NoEmptyExit c → ∀ fuel, 2 * c.bblocks.length + 2 ≤ fuel →
      ∃ c', cfgPrune fuel c = some c' ∧ NoEmptyExit c' ∧ Merged c') := by
  have v := inv_of P hc hb ho hr he
  constructor
  · intro fuel c' e
    obtain ⟨v', s, i⟩ := prune_sound v e
    exact ⟨s, v'.prog, i.complete v'.prog, v'.joins, v'.forks, v'.only, v'.race, v'.apart⟩
  · intro hx fuel hf
    obtain ⟨c', e, h1, h2, -⟩ := prune_ok v hx (.inl hf)
    exact ⟨c', e, h1, h2⟩

/-! ## Concrete programs -/

theorem joins_of {c : Cfg} (h : (allAt c).all (fun x => x.2.2.t != .phi || decide (2 ≤ x.2.2.labels.length)) = true) :
    PhisJoin c := by
  refine forall_at (P := fun _ _ i => i.t = .phi → 2 ≤ i.labels.length) ?_
  intro x hx ht
  simpa [ht] using List.all_eq_true.1 h x hx

theorem forks_of {c : Cfg} (h : (allAt c).all (fun x => x.2.2.t != .condGoto || decide x.2.2.labels.Nodup) = true) :
    BranchesFork c := by
  refine forall_at (P := fun _ _ i => i.t = .condGoto → i.labels.Nodup) ?_
  intro x hx ht
  simpa [ht] using List.all_eq_true.1 h x hx

theorem only_of {c : Cfg} (h : c.graph.edges.all (fun e => (blockOf c e.1).any (fun i => i.t == .condGoto) ||
    c.graph.edges.all (fun d => d.1 != e.1 || d.2 == e.2)) = true) : OnlyBranchesFork c := by
  intro l hpl a b ha hb
  have := List.all_eq_true.1 h _ (edge_mem ha)
  simp only [Bool.or_eq_true, List.any_eq_true, beq_iff_eq, List.all_eq_true, bne_iff_ne] at this
  rcases this with ⟨i, hi, ht⟩ | this
  · obtain ⟨k, hk⟩ := mem_instAt hi
    exact absurd ht (hpl k i hk)
  · exact ((this _ (edge_mem hb)).resolve_left (by simp)).symm

/-- Is the block missing or in the list? -/
def hollowB (c : Cfg) (H : List Nat) (l : Nat) : Bool := H.contains l || (Cfg.block c l).isNone

/-- Nothing but a branch to such a block. -/
def forkB (c : Cfg) (H : List Nat) (l : Nat) : List Inst → Bool
  | [] => true
  | [i] => i.t == .condGoto && (c.graph.children l).any (hollowB c H)
  | _ => false

/-- The blocks that may vanish. -/
def hollows (c : Cfg) : Nat → List Nat → List Nat
  | 0, H => H
  | n + 1, H => hollows c n ((c.bblocks.filter (fun b => forkB c H b.1 b.2)).map (·.1))

/-- The pairs of different blocks linked by blocks that may vanish. -/
def chains (es : List (Nat × Nat)) : Nat → List (Nat × Nat) → List (Nat × Nat)
  | 0, R => R
  | n + 1, R => chains es n
      (es.flatMap (fun e => e :: (R.filter (fun r => r.1 == e.2)).map (fun r => (e.1, r.2)))).eraseDups

/-- Are the lists closed? -/
def closedB (c : Cfg) (H : List Nat) (R : List (Nat × Nat)) : Bool :=
  c.bblocks.all (fun b => H.contains b.1 || !forkB c H b.1 b.2) &&
  c.graph.edges.all (fun e => !hollowB c H e.2 ||
    (R.contains e && R.all (fun r => r.1 != e.2 || R.contains (e.1, r.2))))

theorem hollow_le {c : Cfg} {H : List Nat} {R : List (Nat × Nat)} (h : closedB c H R = true) {l : Nat}
    (hl : Hollow c l) : hollowB c H l = true := by
  simp only [closedB, Bool.and_eq_true, List.all_eq_true] at h
  have key : ∀ l, forkB c H l (blockOf c l) = true → hollowB c H l = true := by
    intro l hf
    simp only [hollowB, Bool.or_eq_true]
    cases hb : Cfg.block c l with
    | none => simp
    | some is =>
      left
      have := h.1 _ (lookup_mem hb)
      rw [blockOf_some hb] at hf
      simp only [hf, Bool.not_true, Bool.or_false] at this
      exact this
  induction hl with
  | empty hb => exact key _ (by rw [hb]; rfl)
  | fork hb ht he _ ih =>
    refine key _ ?_
    rw [hb, forkB, ht]
    simp only [beq_self_eq_true, Bool.true_and, List.any_eq_true]
    exact ⟨_, he, ih⟩

theorem chain_le {c : Cfg} {H : List Nat} {R : List (Nat × Nat)} (h : closedB c H R = true) {b p : Nat}
    (hc : Chain c b p) : b = p ∨ (b, p) ∈ R := by
  induction hc with
  | refl => exact .inl rfl
  | @step b d p e hd _ ih =>
    right
    have hd := hollow_le h hd
    simp only [closedB, Bool.and_eq_true, List.all_eq_true] at h
    have := h.2 _ (edge_mem e)
    simp only [hd, Bool.not_true, Bool.false_or, Bool.and_eq_true, List.contains_iff_mem, List.all_eq_true,
      Bool.or_eq_true, bne_iff_ne] at this
    rcases ih with rfl | ih
    · exact this.1
    · exact (this.2 _ ih).resolve_left (by simp)

def linkB (R : List (Nat × Nat)) (b p : Nat) : Bool := b == p || R.contains (b, p)

/-- No race at this phi? -/
def phiB (R : List (Nat × Nat)) (i : Inst) : Bool :=
  !i.labels.isEmpty && (i.labels ++ R.map (·.1)).all (fun b => i.labels.any (fun p => !linkB R b p) &&
    (i.labels.zip i.args).all (fun x => (i.labels.zip i.args).all (fun y =>
      !linkB R b x.1 || !linkB R b y.1 || x.2 == y.2)))

/-- No race? -/
def raceB (c : Cfg) (H : List Nat) (R : List (Nat × Nat)) : Bool :=
  closedB c H R && (allAt c).all (fun x => x.2.2.t != .phi || phiB R x.2.2)

theorem race_of' {c : Cfg} {H : List Nat} {R : List (Nat × Nat)} (h : raceB c H R = true) : NoRace c := by
  simp only [raceB, Bool.and_eq_true] at h
  obtain ⟨hcl, h⟩ := h
  have le : ∀ {b p}, Chain c b p → linkB R b p = true := by
    intro b p hc
    simpa [linkB, List.contains_iff_mem] using chain_le hcl hc
  refine forall_at (P := fun _ _ i => i.t = .phi → ∀ b, (∃ p ∈ i.labels, ¬ Chain c b p) ∧
    ∀ p x q y, (p, x) ∈ i.labels.zip i.args → (q, y) ∈ i.labels.zip i.args → Chain c b p → Chain c b q → x = y) ?_
  intro x hx ht b
  generalize hi : x.2.2 = i at ht ⊢
  have := List.all_eq_true.1 h x hx
  simp only [hi, ht, bne_self_eq_false, Bool.false_or, phiB, Bool.and_eq_true, Bool.not_eq_true',
    List.isEmpty_eq_false_iff, List.all_eq_true] at this
  obtain ⟨h0, h1⟩ := this
  by_cases hb : b ∈ i.labels ++ R.map (·.1)
  · obtain ⟨h2, h3⟩ := h1 b hb
    simp only [List.any_eq_true, Bool.not_eq_true'] at h2
    obtain ⟨p, hp, hn⟩ := h2
    refine ⟨⟨p, hp, fun hc => by rw [le hc] at hn; cases hn⟩, ?_⟩
    intro p x q y hpx hqy hcp hcq
    have := h3 _ hpx _ hqy
    simpa [le hcp, le hcq] using this
  · have none : ∀ p ∈ i.labels, ¬ Chain c b p := by
      intro p hp hc
      rcases chain_le hcl hc with rfl | hR
      · exact hb (by simp [hp])
      · exact hb (List.mem_append_right _ (List.mem_map.2 ⟨_, hR, rfl⟩))
    refine ⟨?_, fun p x q y hpx _ hcp _ => absurd hcp (none p (List.of_mem_zip hpx).1)⟩
    obtain ⟨p, hp⟩ := List.exists_mem_of_ne_nil _ h0
    exact ⟨p, hp, none p hp⟩

/-- Is the entry apart? -/
def apartB (c : Cfg) (H : List Nat) (R : List (Nat × Nat)) : Bool :=
  closedB c H R && (c.entry != 0 || !hollowB c H 0 || (allAt c).all (fun x => x.2.2.t != .phi ||
    c.graph.edges.all (fun e => e.2 != x.1 || !linkB R 0 e.1)))

theorem apart_of' {c : Cfg} {H : List Nat} {R : List (Nat × Nat)} (h : apartB c H R = true) : EntryApart c := by
  intro h0 hh
  simp only [apartB, Bool.and_eq_true] at h
  obtain ⟨hcl, h⟩ := h
  simp only [h0, bne_self_eq_false, Bool.false_or, hollow_le hcl hh, Bool.not_true] at h
  refine forall_at (P := fun l _ i => i.t = .phi → ∀ p, c.graph.Edge p l → ¬ Chain c 0 p) ?_
  intro x hx ht p hp hc
  have := List.all_eq_true.1 h x hx
  simp only [ht, bne_self_eq_false, Bool.false_or, List.all_eq_true] at this
  have := this _ (edge_mem hp)
  have hl : linkB R 0 p = true := by simpa [linkB, List.contains_iff_mem] using chain_le hcl hc
  simp [hl] at this

def raced (c : Cfg) : Bool :=
  let H := hollows c c.bblocks.length []
  raceB c H (chains (c.graph.edges.filter (fun e => hollowB c H e.2)) c.bblocks.length [])

def aparted (c : Cfg) : Bool :=
  let H := hollows c c.bblocks.length []
  apartB c H (chains (c.graph.edges.filter (fun e => hollowB c H e.2)) c.bblocks.length [])

theorem race_of {c : Cfg} (h : raced c = true) : NoRace c := race_of' h

theorem apart_of {c : Cfg} (h : aparted c = true) : EntryApart c := apart_of' h

theorem exits_of {c : Cfg} (h : c.bblocks.all (fun b => b.1 == c.entry || !b.2.isEmpty ||
    !(c.graph.children b.1).isEmpty) = true) : NoEmptyExit c := by
  intro l hl hne hs hb
  obtain ⟨is, his⟩ := Option.isSome_iff_exists.1 hl
  have := List.all_eq_true.1 h _ (lookup_mem his)
  rw [blockOf, his] at hb
  simp only [Option.getD_some] at hb
  subst hb
  simp only [List.isEmpty_nil, Bool.not_true, Bool.or_false, Bool.or_eq_true, beq_iff_eq, hne, false_or,
    Bool.not_eq_true'] at this
  cases hc : c.graph.children l with
  | nil => rw [hc] at this; cases this
  | cons y ys => exact hs y (by rw [Graph.Edge, hc]; simp)

/-- An empty entry; a diamond, one arm of which is two empty blocks, after which `x` is 5 or a copy; a loop around a
chain of three blocks. -/
def tidy : Cfg where
  graph := ((((((((((((Graph.new.connect 0 1).connect 1 2).connect 1 4).connect 2 3).connect 3 5).connect 4 5).connect
    5 6).connect 6 7).connect 7 8).connect 8 9).connect 9 6).connect 7 10)
  entry := 0
  bblocks := [
    (0, []),
    (1, [Inst.call (some 1) (.builtin [103]) (.const .undefined) [] [], Inst.condGoto (.var 1) 2 4]),
    (2, []),
    (3, []),
    (4, [Inst.varAssign 3 (.const (.num 7))]),
    (5, [Inst.phi 4 [(3, .const (.num 5)), (4, .var 3)], Inst.call none (.builtin [102]) (.const .undefined) [.var 4] []]),
    (6, []),
    (7, [Inst.call (some 5) (.builtin [104]) (.const .undefined) [] [], Inst.condGoto (.var 5) 8 10]),
    (8, []),
    (9, [Inst.call none (.builtin [97]) (.const .undefined) [] []]),
    (10, [Inst.call none (.builtin [98]) (.const .undefined) [] []])]

def tidyOps : List Op := [.connect 0 1, .connect 1 2, .connect 1 4, .connect 2 3, .connect 3 5, .connect 4 5,
  .connect 5 6, .connect 6 7, .connect 7 8, .connect 8 9, .connect 9 6, .connect 7 10]

example : SsaProgram tidy ∧ PhisComplete tidy ∧ BranchesFork tidy ∧ OnlyBranchesFork tidy ∧
    NoRace tidy ∧ EntryApart tidy ∧ NoEmptyExit tidy :=
  ⟨program_of (n := 8) (ops := tidyOps) (by decide +kernel) (by decide +kernel),
    complete_of (ops := tidyOps) (by decide +kernel) (by decide +kernel),
    forks_of (by decide +kernel), only_of (by decide +kernel), race_of (by decide +kernel), apart_of (by decide +kernel),
    exits_of (by decide +kernel)⟩

/-- Six of the eleven blocks are left. -/
example : (cfgPrune 24 tidy).map (fun c => (c.entry, c.bblocks)) = some (1, [
    (1, [Inst.call (some 1) (.builtin [103]) (.const .undefined) [] [], Inst.condGoto (.var 1) 5 4]),
    (4, [Inst.varAssign 3 (.const (.num 7))]),
    (5, [Inst.phi 4 [(1, .const (.num 5)), (4, .var 3)], Inst.call none (.builtin [102]) (.const .undefined) [.var 4] []]),
    (7, [Inst.call (some 5) (.builtin [104]) (.const .undefined) [] [], Inst.condGoto (.var 5) 9 10]),
    (9, [Inst.call none (.builtin [97]) (.const .undefined) [] []]),
    (10, [Inst.call none (.builtin [98]) (.const .undefined) [] []])]) := by decide +kernel

/-! ## Where the property fails -/

/-- `x = 7; if (g()) x = 5; f(x);`, after copies have been propagated. -/
def shortcut : Cfg where
  graph := ((Graph.new.connect 0 2).connect 0 1).connect 2 1
  entry := 0
  bblocks := [
    (0, [Inst.call (some 1) (.builtin [103]) (.const .undefined) [] [], Inst.condGoto (.var 1) 2 1]),
    (1, [Inst.phi 2 [(0, .const (.num 7)), (2, .const (.num 5))],
      Inst.call none (.builtin [102]) (.const .undefined) [.var 2] []]),
    (2, [])]

/-- **C76**, violated for an empty block whose predecessor also jumps to its successor: the value for the removed
way takes the place of the value for the other one, and `f` is always called with 5.  Here `g` gives `undefined`. -/
theorem C76_phi_entry_violated :
    SsaProgram shortcut ∧ PhisComplete shortcut ∧ PhisJoin shortcut ∧ BranchesFork shortcut ∧
    OnlyBranchesFork shortcut ∧ EntryApart shortcut ∧ NoEmptyExit shortcut ∧
    calls shortcut 2 = [[.builtin [103], .const .undefined], [.builtin [102], .const .undefined, .const (.num 7)]] ∧
    (cfgPrune 10 shortcut).map (fun c => calls c 1) =
      some [[.builtin [103], .const .undefined], [.builtin [102], .const .undefined, .const (.num 5)]] := by
  exact ⟨program_of (n := 2) (ops := [.connect 0 2, .connect 0 1, .connect 2 1]) (by decide +kernel) (by decide +kernel),
    complete_of (ops := [.connect 0 2, .connect 0 1, .connect 2 1]) (by decide +kernel) (by decide +kernel),
    joins_of (by decide +kernel), forks_of (by decide +kernel), only_of (by decide +kernel), apart_of (by decide +kernel),
    exits_of (by decide +kernel),
    by decide +kernel, by decide +kernel⟩

/-- `x = 7; do x = f(x); while (x); g();`, after copies have been propagated. -/
def header : Cfg where
  graph := ((Graph.new.connect 0 1).connect 1 1).connect 1 2
  entry := 0
  bblocks := [
    (0, []),
    (1, [Inst.phi 1 [(0, .const (.num 7)), (1, .var 2)],
      Inst.call (some 2) (.builtin [102]) (.const .undefined) [.var 1] [], Inst.condGoto (.var 2) 1 2]),
    (2, [Inst.call none (.builtin [103]) (.const .undefined) [] []])]

/-- **C76**, violated for an empty entry before the head of a loop: the head becomes the entry and the first value
is lost; the first call gets what the variable holds at the start. -/
theorem C76_reroot_violated :
    SsaProgram header ∧ PhisComplete header ∧ BranchesFork header ∧
    OnlyBranchesFork header ∧ NoRace header ∧ NoEmptyExit header ∧
    calls header 2 = [[.builtin [102], .const .undefined, .const (.num 7)]] ∧
    (cfgPrune 10 header).map (fun c => calls c 1) = some [[.builtin [102], .const .undefined, .const .undefined]] := by
  exact ⟨program_of (n := 2) (ops := [.connect 0 1, .connect 1 1, .connect 1 2]) (by decide +kernel) (by decide +kernel),
    complete_of (ops := [.connect 0 1, .connect 1 1, .connect 1 2]) (by decide +kernel) (by decide +kernel),
    forks_of (by decide +kernel), only_of (by decide +kernel), race_of (by decide +kernel), exits_of (by decide +kernel),
    by decide +kernel, by decide +kernel⟩

/-- Two empty exits; to the second one there is a jump that is no branch. -/
def exits : Cfg where
  graph := ((((Graph.new.connect 0 1).connect 0 2).connect 1 3).connect 1 4).connect 2 4
  entry := 0
  bblocks := [
    (0, [Inst.call (some 1) (.builtin [103]) (.const .undefined) [] [], Inst.condGoto (.var 1) 1 2]),
    (1, [Inst.call (some 2) (.builtin [102]) (.const .undefined) [] [], Inst.condGoto (.var 2) 3 4]),
    (2, [Inst.call none (.builtin [97]) (.const .undefined) [] []]),
    (3, []),
    (4, [])]

/-- **C76**, violated for two empty exits with a jump to the second one that is no branch: the pass panics. -/
theorem C76_panic_violated :
    SsaProgram exits ∧ PhisComplete exits ∧ BranchesFork exits ∧ OnlyBranchesFork exits ∧
    NoRace exits ∧ EntryApart exits ∧ ∀ fuel, cfgPrune fuel exits = none := by
  refine ⟨program_of (n := 2) (ops := [.connect 0 1, .connect 0 2, .connect 1 3, .connect 1 4, .connect 2 4])
    (by decide +kernel) (by decide +kernel),
    complete_of (ops := [.connect 0 1, .connect 0 2, .connect 1 3, .connect 1 4, .connect 2 4]) (by decide +kernel)
    (by decide +kernel), forks_of (by decide +kernel), only_of (by decide +kernel),
    race_of (by decide +kernel), apart_of (by decide +kernel), ?_⟩
  intro fuel
  cases fuel with
  | zero => rfl
  | succ fuel =>
    have : pruneRound exits = none := by decide +kernel
    simp [cfgPrune, this]

end Verif.Prune
