import Verif.Opt.DeconstructRun
/-!
# Checking concrete programs

Boolean checks that imply `WellFormed` and `StrictSSA`; only used to show that concrete programs meet the
hypotheses of the theorems.
-/

namespace Verif.Opt

open Verif.Il Verif.Graph

def allAt (c : Cfg) : List (Nat × Nat × Inst) :=
  c.bblocks.flatMap (fun e => e.2.zipIdx.map (fun x => (e.1, x.2, x.1)))

theorem mem_allAt {c : Cfg} {l k : Nat} {i : Inst} (h : instAt c l k = some i) : (l, k, i) ∈ allAt c := by
  simp only [instAt, blockOf] at h
  cases hb : Cfg.block c l with
  | none => rw [hb] at h; simp at h
  | some is =>
    rw [hb] at h
    simp only [allAt, List.mem_flatMap, List.mem_map, Prod.exists]
    refine ⟨l, is, mem_of_lookup_eq hb, i, k, ?_, rfl⟩
    exact List.mem_zipIdx_iff_getElem?.2 h

theorem forall_at {c : Cfg} {P : Nat → Nat → Inst → Prop} (h : ∀ x ∈ allAt c, P x.1 x.2.1 x.2.2) :
    ∀ l k i, instAt c l k = some i → P l k i := fun _ _ _ hi => h _ (mem_allAt hi)

def shapeB (i : Inst) : Bool :=
  match i.t with
  | .bin => i.tgts.length == 1 && i.args.length == 2
  | .un => i.tgts.length == 1 && i.args.length == 1
  | .varAssign => i.tgts.length == 1 && i.args.length == 1
  | .propAssign => i.tgts.length == 0 && i.args.length == 3
  | .condGoto => i.tgts.length == 0 && i.args.length == 1 && i.labels.length == 2
  | .call => decide (i.tgts.length ≤ 1) && decide (2 ≤ i.args.length)
  | .foreignLoad | .unknownLoad => i.tgts.length == 1 && i.args.length == 0
  | .foreignStore | .unknownStore => i.tgts.length == 0 && i.args.length == 1
  | .phi => i.tgts.length == 1 && i.labels.length == i.args.length
  | .label | .goto | .dummy => false

theorem len1 {α : Type} {xs : List α} (h : xs.length = 1) : ∃ a, xs = [a] := List.length_eq_one_iff.1 h
theorem len2 {α : Type} {xs : List α} (h : xs.length = 2) : ∃ a b, xs = [a, b] := by
  match xs, h with
  | [a, b], _ => exact ⟨a, b, rfl⟩
theorem len3 {α : Type} {xs : List α} (h : xs.length = 3) : ∃ a b c, xs = [a, b, c] := by
  match xs, h with
  | [a, b, c], _ => exact ⟨a, b, c, rfl⟩
theorem len0 {α : Type} {xs : List α} (h : xs.length = 0) : xs = [] := List.length_eq_zero_iff.1 h

theorem shape_of {i : Inst} (h : shapeB i = true) : Shape i := by
  cases ht : i.t <;> simp only [shapeB, ht, Bool.and_eq_true, beq_iff_eq, decide_eq_true_eq,
    Bool.false_eq_true] at h <;> simp only [Shape, ht]
  · exact ⟨len1 h.1, len2 h.2⟩
  · exact ⟨len1 h.1, len1 h.2⟩
  · exact ⟨len1 h.1, len1 h.2⟩
  · exact ⟨len0 h.1, len3 h.2⟩
  · exact ⟨len0 h.1.1, len1 h.1.2, len2 h.2⟩
  · exact h
  · exact ⟨len1 h.1, len0 h.2⟩
  · exact ⟨len0 h.1, len1 h.2⟩
  · exact ⟨len1 h.1, len0 h.2⟩
  · exact ⟨len0 h.1, len1 h.2⟩
  · exact ⟨len1 h.1, h.2⟩

def wfB (c : Cfg) : Bool :=
  decide (c.bblocks.map (·.1)).Nodup && (Cfg.block c c.entry).isSome &&
  c.graph.edges.all (fun e => (Cfg.block c e.2).isSome) &&
  (allAt c).all (fun x => shapeB x.2.2 &&
    (x.2.2.t != .condGoto || (x.2.1 + 1 == (blockOf c x.1).length && x.2.2.labels.all (fun s => (c.graph.children x.1).contains s))) &&
    (x.2.2.t != .phi || (decide x.2.2.labels.Nodup &&
      (allAt c).all (fun y => y.1 != x.1 || decide (x.2.1 < y.2.1) || y.2.2.t == .phi))))

theorem wf_of {c : Cfg} (h : wfB c = true) : WellFormed c := by
  simp only [wfB, Bool.and_eq_true, decide_eq_true_eq, List.all_eq_true, Bool.or_eq_true, bne_iff_ne, ne_eq,
    beq_iff_eq, List.contains_iff_mem] at h
  obtain ⟨⟨⟨h1, h2⟩, h3⟩, h4⟩ := h
  refine ⟨h1, h2, ?_, ?_, ?_, ?_, ?_, ?_⟩
  · intro a b hab
    refine h3 (a, b) ?_
    simp only [Graph.Edge, Graph.children, Graph.get] at hab
    simp only [Graph.edges, List.mem_flatMap, List.mem_map, Prod.mk.injEq, Prod.exists]
    cases hn : c.graph.nodes.lookup a with
    | none => rw [hn] at hab; cases hab
    | some nd =>
      rw [hn] at hab
      exact ⟨a, nd, mem_of_lookup_eq hn, b, hab, rfl, rfl⟩
  · exact forall_at (fun x hx => shape_of (h4 x hx).1.1)
  · intro l k i hi ht
    rcases (h4 _ (mem_allAt hi)).1.2 with h | h
    · exact absurd ht h
    · exact h.1
  · intro l k i hi ht s hs
    rcases (h4 _ (mem_allAt hi)).1.2 with h | h
    · exact absurd ht h
    · exact h.2 s hs
  · intro l k j i i' hi hp hj hi'
    rcases (h4 _ (mem_allAt hi)).2 with h | h
    · exact absurd hp h
    · rcases h.2 _ (mem_allAt hi') with (h | h) | h
      · exact absurd rfl h
      · simp only at h
        omega
      · exact h
  · intro l k i hi hp
    rcases (h4 _ (mem_allAt hi)).2 with h | h
    · exact absurd hp h
    · exact h.1

/-! ## Strict SSA -/

theorem passes_same {c : Cfg} {l j k : Nat} (h : j < k) : Passes c (.inst l j) l k := by
  obtain ⟨m, rfl⟩ := Nat.exists_eq_add_of_lt h
  induction m with
  | zero => exact passes_own
  | succ m ih => exact passes_next (ih (by omega))

theorem passes_phis {c : Cfg} {l k : Nat} (h : l ≠ c.entry) : Passes c (.phis l) l k := by
  induction k with
  | zero =>
    intro ms tr
    generalize hk : 0 = k at tr
    cases tr with
    | start => exact absurd rfl h
    | inst _ _ => cases hk
    | jump _ _ => exact List.mem_cons_self
  | succ k ih => exact passes_next ih

theorem passes_entry {c : Cfg} {l j k : Nat} (hl : l ≠ c.entry) (hj : j < (blockOf c c.entry).length) :
    Passes c (.inst c.entry j) l k := by
  have h0 : Passes c (.inst c.entry j) l 0 := by
    refine passes_dom ?_ (Ne.symm hl) _ (passes_same hj)
    intro L hL
    clear hl
    induction hL with
    | start => exact List.mem_cons_self
    | step _ _ ih => exact List.mem_append_left _ ih
  induction k with
  | zero => exact h0
  | succ k ih => exact passes_next ih

def defsOf (c : Cfg) : List (Site × Nat) :=
  (allAt c).flatMap (fun x => x.2.2.tgts.map (fun t => (if x.2.2.t = .phi then Site.phis x.1 else .inst x.1 x.2.1, t)))

def seenB (c : Cfg) (d : Site) (l k : Nat) : Bool :=
  match d with
  | .inst l' j => (l' == l && decide (j < k)) ||
      (l' == c.entry && l != c.entry && decide (j < (blockOf c c.entry).length))
  | .phis l' => l' == l && l != c.entry

def availB (c : Cfg) (a : Arg) (l k : Nat) : Bool :=
  match a with
  | .var x => (defsOf c).all (fun d => d.2 != x || seenB c d.1 l k)
  | _ => true

theorem seen_of {c : Cfg} {d : Site} {l k : Nat} (h : seenB c d l k = true) : Passes c d l k := by
  cases d with
  | inst l' j =>
    simp only [seenB, Bool.or_eq_true, Bool.and_eq_true, beq_iff_eq, bne_iff_ne, decide_eq_true_eq] at h
    rcases h with ⟨rfl, h⟩ | ⟨⟨rfl, h1⟩, h2⟩
    · exact passes_same h
    · exact passes_entry h1 h2
  | phis l' =>
    simp only [seenB, Bool.and_eq_true, beq_iff_eq, bne_iff_ne] at h
    obtain ⟨rfl, h⟩ := h
    exact passes_phis h

theorem avail_of {c : Cfg} {a : Arg} {l k : Nat} (h : availB c a l k = true) : Avail c a l k := by
  rintro x rfl d hd
  simp only [availB, List.all_eq_true, Bool.or_eq_true, bne_iff_ne, ne_eq] at h
  have : (d, x) ∈ defsOf c := by
    simp only [defsOf, List.mem_flatMap, List.mem_map, Prod.mk.injEq]
    cases d with
    | inst l' j =>
      obtain ⟨i, h1, h2, h3⟩ := hd
      exact ⟨_, mem_allAt h1, x, h3, by simp [h2], rfl⟩
    | phis l' =>
      obtain ⟨j, i, h1, h2, h3⟩ := hd
      exact ⟨_, mem_allAt h1, x, h3, by simp [h2], rfl⟩
  rcases h _ this with h | h
  · exact absurd rfl h
  · exact seen_of h

def ssaB (c : Cfg) : Bool :=
  (allAt c).all (fun x =>
    (allAt c).all (fun y => (x.1 == y.1 && x.2.1 == y.2.1) || x.2.2.tgts.all (fun t => !y.2.2.tgts.contains t)) &&
    (if x.2.2.t = .phi then
      (x.2.2.labels.zip x.2.2.args).all (fun e => availB c e.2 e.1 (blockOf c e.1).length)
    else x.2.2.args.all (fun a => availB c a x.1 x.2.1)))

theorem ssa_of {c : Cfg} (h : ssaB c = true) : StrictSSA c := by
  simp only [ssaB, List.all_eq_true, Bool.and_eq_true] at h
  refine ⟨?_, ?_, ?_⟩
  · intro l k i l' k' i' v h1 h2 h3 h4
    have := (h _ (mem_allAt h1)).1 _ (mem_allAt h2)
    simp only [Bool.or_eq_true, Bool.and_eq_true, beq_iff_eq, List.all_eq_true, Bool.not_eq_true'] at this
    rcases this with h | h
    · exact h
    · have := h v h3
      rw [List.contains_iff_mem.2 h4] at this
      cases this
  · intro l k i h1 h2 a ha
    have := (h _ (mem_allAt h1)).2
    simp only [h2, if_false, List.all_eq_true] at this
    exact avail_of (this a ha)
  · intro l k i h1 h2 p a ha
    have := (h _ (mem_allAt h1)).2
    simp only [h2, if_true, List.all_eq_true] at this
    exact avail_of (this (p, a) ha)

def chainsB (c : Cfg) : Bool :=
  (allAt c).all (fun x => x.2.2.t != .varAssign || (allAt c).all (fun y => y.2.2.t != .varAssign ||
    y.2.2.tgts.all (fun t => !x.2.2.args.contains (.var t))))

theorem chains_of {c : Cfg} (h : chainsB c = true) : NoCopyChains c := by
  intro l k i l' k' i' y h1 h2 h3 h4 h5 h6
  simp only [chainsB, List.all_eq_true, Bool.or_eq_true, bne_iff_ne, ne_eq, Bool.not_eq_true'] at h
  rcases h _ (mem_allAt h1) with h | h
  · exact h h2
  rcases h _ (mem_allAt h4) with h | h
  · exact h h5
  have := h y h6
  rw [List.contains_iff_mem.2 h3] at this
  cases this

def phiParentsB (c : Cfg) : Bool :=
  (allAt c).all (fun x => x.2.2.t != .phi ||
    x.2.2.labels.all (fun p => (c.graph.children p).contains x.1 && (Cfg.block c p).isSome))

theorem phiParents_of {c : Cfg} (h : phiParentsB c = true) : PhiParents c := by
  intro l k i p h1 h2 h3
  simp only [phiParentsB, List.all_eq_true, Bool.or_eq_true, bne_iff_ne, ne_eq, Bool.and_eq_true,
    List.contains_iff_mem] at h
  rcases h _ (mem_allAt h1) with h | h
  · exact absurd h2 h
  · exact h p h3

def clobberB (c : Cfg) : Bool :=
  (allAt c).all (fun x => (allAt c).all (fun y => x.1 != y.1 || x.2.2.t != .phi || y.2.2.t != .phi ||
    decide (y.2.1 ≤ x.2.1) || x.2.2.labels.all (fun p => x.2.2.tgts.all (fun t =>
      !(y.2.2.labels.zip y.2.2.args).contains (p, Arg.var t)))))

theorem clobber_of {c : Cfg} (h : clobberB c = true) : NoClobber c := by
  intro l j k i i' p x h1 h2 h3 h4 h5 h6 h7 h8
  simp only [clobberB, List.all_eq_true, Bool.or_eq_true, bne_iff_ne, ne_eq, decide_eq_true_eq,
    Bool.not_eq_true'] at h
  rcases h _ (mem_allAt h1) _ (mem_allAt h4) with (((h | h) | h) | h) | h
  · exact h rfl
  · exact h h2
  · exact h h5
  · simp only at h
    omega
  · have := h p h3 x h8
    rw [List.contains_iff_mem.2 h7] at this
    cases this

def belowB (c : Cfg) (n : Nat) : Bool :=
  (c.bblocks.map (·.1)).all (fun l => decide (l < n)) && c.graph.labels.all (fun l => decide (l < n))

theorem below_of {c : Cfg} {n : Nat} (h : belowB c n = true) : LabelsBelow c n := by
  simpa [belowB, LabelsBelow] using h

end Verif.Opt
