import Verif.Prune.Theorems
/-!
# What the passes cannot bring about

No pass makes new labels or new operations.
-/

namespace Verif.Pipe

open Verif.Il Verif.Graph Verif.Opt Verif.Ssa Verif.Prune

/-- All labels of blocks have one property, all instructions another. -/
def Within (S : Nat → Prop) (P : Inst → Prop) (c : Cfg) : Prop :=
  ∀ l is, Cfg.block c l = some is → S l ∧ ∀ i ∈ is, P i

/-- The property depends on the kind of instruction and the operation only, and copies have it. -/
structure ByOp (P : Inst → Prop) : Prop where
  same : ∀ i j, P i → j.t = i.t → opcode j = opcode i → P j
  copy : ∀ t a, P (Inst.varAssign t a)

section
variable {S : Nat → Prop} {P : Inst → Prop} {c c' : Cfg}

theorem within_set (h : Within S P c) {l : Nat} {is js : List Inst} (hb : Cfg.block c l = some is)
    (hj : ∀ i ∈ js, P i) : Within S P (setBlock c l js) := by
  intro x ks e
  rw [Ssa.block_setBlock] at e
  split at e
  · rename_i hx
    subst hx
    rw [hb] at e
    obtain rfl := Option.some.inj e
    exact ⟨(h x is hb).1, hj⟩
  · exact h x ks e

theorem within_sub (h : Within S P c) (hs : ∀ l is, Cfg.block c' l = some is → Cfg.block c l = some is) :
    Within S P c' := fun l is e => h l is (hs l is e)

theorem within_removeBlock {bs bs' : List (Nat × List Inst)} {l : Nat} (h : removeBlock bs l = some bs') {x : Nat}
    {is : List Inst} (e : bs'.lookup x = some is) : bs.lookup x = some is := by
  rw [(block_removed h).2] at e
  split at e
  · cases e
  · exact e

theorem within_pop (h : Within S P c) {l : Nat} (e : Graph.Cfg.pop c l = some c') : Within S P c' := by
  simp only [Graph.Cfg.pop] at e
  split at e <;>
  · simp only [Option.bind_eq_bind, Option.bind_eq_some_iff, Option.some.injEq] at e
    obtain ⟨g, -, bs, hb, rfl⟩ := e
    exact within_sub h fun x is e => within_removeBlock hb e

theorem within_popUnreachable (h : Within S P c) {n : Nat} {u : List Nat}
    (e : Graph.Cfg.findAndPopUnreachable c n = some (c', u)) : Within S P c' := by
  simp only [Graph.Cfg.findAndPopUnreachable, Option.bind_eq_bind, Option.bind_eq_some_iff, Option.some.injEq,
    Prod.mk.injEq] at e
  obtain ⟨u', -, g, -, bs, hb, rfl, -⟩ := e
  refine within_sub h fun x is e => ?_
  change bs.lookup x = some is at e
  change c.bblocks.lookup x = some is
  generalize c.bblocks = bs0 at hb
  induction u' generalizing bs0 with
  | nil => obtain rfl := Option.some.inj hb; exact e
  | cons a u' ih =>
    simp only [List.foldlM_cons, Option.bind_eq_bind, Option.bind_eq_some_iff] at hb
    obtain ⟨b1, h1, h2⟩ := hb
    exact within_removeBlock h1 (ih b1 h2)

/-! ## Phis -/

theorem within_simplifyAll (hP : ByOp P) {used : Nat → Bool} {ps : List Nat} : ∀ {is a b : List Inst} {f : Bool},
    (∀ i ∈ is, P i) → simplifyAll used ps is = some (a, b, f) → (∀ i ∈ a, P i) ∧ ∀ i ∈ b, P i
  | [], a, b, f, _, e => by
    simp only [simplifyAll, Option.some.injEq, Prod.mk.injEq] at e
    obtain ⟨rfl, rfl, -⟩ := e
    simp
  | i :: is, a, b, f, h, e => by
    simp only [simplifyAll, Option.bind_eq_bind, Option.bind_eq_some_iff, Option.some.injEq, Prod.mk.injEq,
      Prod.exists] at e
    obtain ⟨p, q, f1, e1, a1, b1, f2, e2, rfl, rfl, -⟩ := e
    obtain ⟨h1, h2⟩ := within_simplifyAll hP (fun i hi => h i (List.mem_cons_of_mem _ hi)) e2
    have key : (∀ i ∈ p, P i) ∧ ∀ i ∈ q, P i := by
      simp only [simplifyPhi] at e1
      split at e1
      · simp only [Option.bind_eq_bind, Option.bind_eq_some_iff, Option.some.injEq, Prod.mk.injEq] at e1
        obtain ⟨t, -, rfl, rfl, -⟩ := e1
        refine ⟨by simp, ?_⟩
        intro j hj
        split at hj
        · obtain rfl := List.mem_singleton.1 hj
          exact hP.copy _ _
        · simp at hj
      · simp only [Option.bind_eq_bind, Option.bind_eq_some_iff, Option.some.injEq, Prod.mk.injEq] at e1
        obtain ⟨t, -, rfl, rfl, -⟩ := e1
        refine ⟨by simp, ?_⟩
        intro j hj
        obtain rfl := List.mem_singleton.1 hj
        exact hP.copy _ _
      · simp only [Option.some.injEq, Prod.mk.injEq] at e1
        obtain ⟨rfl, rfl, -⟩ := e1
        refine ⟨?_, by simp⟩
        intro j hj
        obtain rfl := List.mem_singleton.1 hj
        exact hP.same i _ (h i List.mem_cons_self) rfl rfl
    constructor
    · intro j hj
      rcases List.mem_append.1 hj with hj | hj
      · exact key.1 j hj
      · exact h1 j hj
    · intro j hj
      rcases List.mem_append.1 hj with hj | hj
      · exact key.2 j hj
      · exact h2 j hj

theorem within_simplifyBlocks (hP : ByOp P) {used : Nat → Bool} {g : Graph} :
    ∀ {bs bs' : List (Nat × List Inst)} {f : Bool}, simplifyBlocks used g bs = some (bs', f) →
      ∀ l is, bs'.lookup l = some is → ∃ is0, bs.lookup l = some is0 ∧ ((∀ i ∈ is0, P i) → ∀ i ∈ is, P i)
  | [], bs', f, e, l, is, hl => by
    simp only [simplifyBlocks, Option.some.injEq, Prod.mk.injEq] at e
    obtain ⟨rfl, -⟩ := e
    simp at hl
  | (x, is0) :: bs, bs', f, e, l, is, hl => by
    simp only [simplifyBlocks, Option.bind_eq_bind, Option.bind_eq_some_iff, Option.some.injEq, Prod.mk.injEq,
      Prod.exists] at e
    obtain ⟨is1, f1, e1, bs1, f2, e2, rfl, -⟩ := e
    rw [List.lookup_cons] at hl ⊢
    cases hx : l == x with
    | false =>
      rw [hx] at hl
      exact within_simplifyBlocks hP e2 l is hl
    | true =>
      rw [hx] at hl
      obtain rfl := Option.some.inj hl
      refine ⟨is0, rfl, fun h => ?_⟩
      simp only [simplifyBlock, Option.bind_eq_bind, Option.bind_eq_some_iff, Option.some.injEq, Prod.mk.injEq,
        Prod.exists] at e1
      obtain ⟨a, b, f3, e3, rfl, -⟩ := e1
      obtain ⟨h1, h2⟩ := within_simplifyAll hP (fun i hi => h i (List.mem_filter.1 hi).1) e3
      intro i hi
      rcases List.mem_append.1 hi with hi | hi
      · rcases List.mem_append.1 hi with hi | hi
        · exact h1 i hi
        · exact h2 i hi
      · exact h i (List.mem_filter.1 hi).1

theorem within_simplifyPhis (hP : ByOp P) (h : Within S P c) {f : Bool} (e : simplifyPhis c = some (c', f)) :
    Within S P c' := by
  simp only [simplifyPhis, Option.bind_eq_bind, Option.bind_eq_some_iff, Option.some.injEq, Prod.mk.injEq,
    Prod.exists] at e
  obtain ⟨bs, f1, e1, rfl, -⟩ := e
  intro l is hl
  obtain ⟨is0, h1, h2⟩ := within_simplifyBlocks hP e1 l is hl
  obtain ⟨h3, h4⟩ := h l is0 h1
  exact ⟨h3, h2 h4⟩

/-! ## Branches on constants -/

theorem within_visitBranch (h : Within S P c) {l : Nat} {f : Bool} (e : visitBranch c l = some (c', f)) :
    Within S P c' := by
  simp only [visitBranch, Option.bind_eq_bind, Option.bind_eq_some_iff] at e
  obtain ⟨is, hb, e⟩ := e
  have hd : ∀ i ∈ is.dropLast, P i := fun i hi => (h l is hb).2 i (List.dropLast_subset _ hi)
  have hset := within_set h hb hd
  split at e
  · cases e; exact h
  · split at e
    · cases e; exact h
    · split at e
      · split at e
        · cases e; exact hset
        · split at e
          · simp only [Option.bind_eq_some_iff, Option.some.injEq, Prod.mk.injEq] at e
            obtain ⟨g, -, rfl, -⟩ := e
            exact hset
          · cases e; exact h
      · cases e

theorem within_visitBranches : ∀ {ls : List Nat} {c c' : Cfg} {f : Bool}, Within S P c →
    visitBranches ls c = some (c', f) → Within S P c'
  | [], c, c', f, h, e => by cases e; exact h
  | l :: ls, c, c', f, h, e => by
    simp only [visitBranches, Option.bind_eq_bind, Option.bind_eq_some_iff, Option.some.injEq, Prod.mk.injEq,
      Prod.exists] at e
    obtain ⟨c1, f1, e1, c2, f2, e2, rfl, -⟩ := e
    exact within_visitBranches (within_visitBranch h e1) e2

theorem within_impossibleBranches (hP : ByOp P) : ∀ {fuel : Nat} {c c' : Cfg}, Within S P c →
    impossibleBranches fuel c = some c' → Within S P c'
  | 0, c, c', _, e => by cases e
  | fuel + 1, c, c', h, e => by
    simp only [impossibleBranches, branchRound, Option.bind_eq_bind, Option.bind_eq_some_iff, Option.some.injEq,
      Prod.mk.injEq, Prod.exists] at e
    obtain ⟨c1, f1, ⟨c2, f2, e2, c3, u, e3, c4, f4, e4, rfl, -⟩, e⟩ := e
    have h' := within_simplifyPhis hP (within_popUnreachable (within_visitBranches h e2) e3) e4
    split at e
    · exact within_impossibleBranches hP h' e
    · obtain rfl := Option.some.inj e
      exact h'

/-! ## Merging and removing blocks -/

theorem within_removePhi (hP : ByOp P) {i j : Inst} {l : Nat} {a : Option Arg} (h : P i)
    (e : removePhi i l = some (j, a)) : P j := by
  simp only [removePhi] at e
  split at e
  · split at e
    · cases e; exact h
    · cases e; exact hP.same i _ h rfl rfl
  · cases e

theorem within_overwrite (hP : ByOp P) {i j : Inst} {l : Nat} {a : Arg} (h : P i)
    (e : overwrite i l a = some j) : P j := by
  simp only [overwrite, Prune.insertPhi] at e
  split at e
  · split at e
    · cases e; exact hP.same i _ h rfl rfl
    · cases e
  · split at e
    · cases e; exact hP.same i _ h rfl rfl
    · cases e

theorem within_fold {α β : Type} {Q : β → Prop} {f : β → α → Option β} (hf : ∀ b a b', Q b → f b a = some b' → Q b') :
    ∀ {as : List α} {b b' : β}, Q b → as.foldlM f b = some b' → Q b'
  | [], b, b', h, e => by obtain rfl := Option.some.inj e; exact h
  | a :: as, b, b', h, e => by
    simp only [List.foldlM_cons, Option.bind_eq_bind, Option.bind_eq_some_iff] at e
    obtain ⟨b1, e1, e2⟩ := e
    exact within_fold hf (hf b a b1 h e1) e2

theorem within_redirect (hP : ByOp P) {i j : Inst} {cur : Nat} {ps : List Nat} (h : P i)
    (e : Prune.redirect cur ps i = some j) : P j := by
  simp only [Prune.redirect, Option.bind_eq_bind, Option.bind_eq_some_iff, Prod.exists] at e
  obtain ⟨i1, a, e1, e⟩ := e
  have h1 := within_removePhi hP h e1
  split at e
  · obtain rfl := Option.some.inj e
    exact h1
  · exact within_fold (Q := P) (fun b a b' hb he => within_overwrite hP hb he) h1 e

theorem within_mapPhis {f : Inst → Option Inst} (hf : ∀ i j, P i → f i = some j → P j) :
    ∀ {is js : List Inst}, (∀ i ∈ is, P i) → mapPhis f is = some js → ∀ i ∈ js, P i
  | [], js, _, e => by cases e; simp
  | i :: is, js, h, e => by
    simp only [mapPhis] at e
    split at e
    · simp only [Option.bind_eq_bind, Option.bind_eq_some_iff, Option.some.injEq] at e
      obtain ⟨j, e1, js1, e2, rfl⟩ := e
      intro k hk
      rcases List.mem_cons.1 hk with rfl | hk
      · exact hf i _ (h i List.mem_cons_self) e1
      · exact within_mapPhis hf (fun i hi => h i (List.mem_cons_of_mem _ hi)) e2 k hk
    · cases e; exact h

theorem within_alter {f : List Inst → Option (List Inst)}
    (hf : ∀ is js, (∀ i ∈ is, P i) → f is = some js → ∀ i ∈ js, P i) {c c' : Cfg} {l : Nat} (h : Within S P c)
    (e : alterBlock f c l = some c') : Within S P c' := by
  simp only [alterBlock, Option.bind_eq_bind, Option.bind_eq_some_iff, Option.some.injEq] at e
  obtain ⟨is, hb, js, e1, rfl⟩ := e
  exact within_set h hb (hf is js (h l is hb).2 e1)

theorem within_moveTo (hP : ByOp P) {cur : Nat} {ch : List Nat} {insts is js : List Inst} (hi : ∀ i ∈ insts, P i)
    (h : ∀ i ∈ is, P i) (e : moveTo cur ch insts is = some js) : ∀ i ∈ js, P i := by
  have happ : ∀ {a b : List Inst}, (∀ i ∈ a, P i) → (∀ i ∈ b, P i) → ∀ i ∈ a ++ b, P i := by
    intro a b ha hb i hi
    rcases List.mem_append.1 hi with hi | hi
    · exact ha i hi
    · exact hb i hi
  have hd : ∀ i ∈ is.dropLast, P i := fun i hi => h i (List.dropLast_subset _ hi)
  simp only [moveTo] at e
  split at e
  · rename_i i hl
    split at e
    · split at e
      · split at e
        · split at e
          · cases e; exact happ hd hi
          · cases e
            refine happ (happ hd hi) ?_
            intro j hj
            obtain rfl := List.mem_singleton.1 hj
            exact hP.same i _ (h i (List.mem_of_getLast? hl)) rfl rfl
        · cases e
      · cases e
    · cases e; exact happ h hi
  · cases e; exact happ h hi

theorem within_removeBlockAt (hP : ByOp P) (h : Within S P c) {cur : Nat} (e : removeBlockAt c cur = some c') :
    Within S P c' := by
  simp only [removeBlockAt, Option.bind_eq_bind, Option.bind_eq_some_iff] at e
  obtain ⟨is, hb, g, -, c1, e1, c2, e2, e3⟩ := e
  have h0 : Within S P { c with graph := g } := h
  have h1 := within_pop h0 e1
  have h2 : Within S P c2 := within_fold (Q := Within S P)
    (fun b a b' hb' he => within_alter (fun is js h e => within_moveTo hP (h0 cur _ hb).2 h e) hb' he) h1 e2
  exact within_fold (Q := Within S P)
    (fun b a b' hb' he => within_alter (fun is js h e => within_mapPhis (fun i j hi he => within_redirect hP hi he) h e)
      hb' he) h2 e3

theorem within_visitBlock (hP : ByOp P) (h : Within S P c) {cur : Nat} {f g : Bool}
    (e : visitBlock c cur = some (c', f, g)) : Within S P c' := by
  simp only [visitBlock] at e
  split at e
  · cases e; exact h
  · simp only [Option.bind_eq_bind, Option.bind_eq_some_iff] at e
    obtain ⟨is, -, e⟩ := e
    split at e
    · cases e; exact h
    · split at e
      · simp only [Option.bind_eq_some_iff, Option.some.injEq, Prod.mk.injEq] at e
        obtain ⟨c1, e1, rfl, -⟩ := e
        exact within_removeBlockAt hP h e1
      · cases e; exact h

theorem within_visitBlocks (hP : ByOp P) : ∀ {ls : List Nat} {c c' : Cfg} {f : Bool} {es : List Nat}, Within S P c →
    visitBlocks ls c = some (c', f, es) → Within S P c'
  | [], c, c', f, es, h, e => by cases e; exact h
  | l :: ls, c, c', f, es, h, e => by
    simp only [visitBlocks, Option.bind_eq_bind, Option.bind_eq_some_iff, Option.some.injEq, Prod.mk.injEq,
      Prod.exists] at e
    obtain ⟨c1, f1, g1, e1, c2, f2, es2, e2, rfl, -⟩ := e
    exact within_visitBlocks hP (within_visitBlock hP h e1) e2

theorem within_mergeBranch (hP : ByOp P) {leaves : List Nat} {first : Nat} (h : Within S P c) {l : Nat}
    (e : mergeBranch leaves first c l = some c') : Within S P c' := by
  simp only [mergeBranch, Option.bind_eq_bind, Option.bind_eq_some_iff] at e
  obtain ⟨is, hb, e⟩ := e
  split at e
  · cases e; exact h
  · rename_i i hl
    split at e
    · cases e; exact h
    · simp only [Option.bind_eq_some_iff] at e
      obtain ⟨g, -, e⟩ := e
      have h0 : Within S P { c with graph := g } := h
      have hd : ∀ i ∈ is.dropLast, P i := fun i hi => (h l is hb).2 i (List.dropLast_subset _ hi)
      split at e
      · cases e; exact within_set h0 hb hd
      · cases e
        refine within_set h0 hb ?_
        intro j hj
        rcases List.mem_append.1 hj with hj | hj
        · exact hd j hj
        · obtain rfl := List.mem_singleton.1 hj
          exact hP.same i _ ((h l is hb).2 i (List.mem_of_getLast? hl)) rfl rfl

theorem within_mergeLeaves (hP : ByOp P) {ls : List Nat} (h : Within S P c) (e : mergeLeaves ls c = some c') :
    Within S P c' := by
  simp only [mergeLeaves] at e
  split at e
  · simp only [Option.bind_eq_bind, Option.bind_eq_some_iff] at e
    obtain ⟨c1, e1, e2⟩ := e
    refine within_fold (Q := Within S P) ?_ (within_fold (Q := Within S P)
      (fun b a b' hb he => within_mergeBranch hP hb he) h e1) e2
    intro b a b' hb he
    split at he
    · exact within_pop hb he
    · cases he; exact hb
  · cases e; exact h

theorem within_reroot (hP : ByOp P) (h : Within S P c) (e : reroot c = some (some c')) : Within S P c' := by
  simp only [reroot] at e
  split at e
  · cases e
  · split at e
    · cases e
    · split at e
      · cases e
      · split at e
        · split at e
          · cases e
          · simp only [Option.bind_eq_bind, Option.bind_eq_some_iff] at e
            obtain ⟨js, hb, e⟩ := e
            split at e
            · cases e
            · simp only [Option.bind_eq_some_iff, Option.some.injEq] at e
              obtain ⟨ks, e1, g, -, bs, e2, rfl⟩ := e
              have h1 : ∀ i ∈ ks, P i := by
                refine within_mapPhis ?_ (h _ _ hb).2 e1
                intro i j hi he
                simp only [Option.map_eq_some_iff, Prod.exists] at he
                obtain ⟨k, a, he, rfl⟩ := he
                exact within_removePhi hP hi he
              exact within_sub (within_set h hb h1) fun x is e => within_removeBlock e2 e
        · cases e

theorem within_cfgPrune (hP : ByOp P) : ∀ {fuel : Nat} {c c' : Cfg}, Within S P c →
    cfgPrune fuel c = some c' → Within S P c'
  | 0, c, c', _, e => by cases e
  | fuel + 1, c, c', h, e => by
    simp only [cfgPrune, Option.bind_eq_bind, Option.bind_eq_some_iff, Prod.exists] at e
    obtain ⟨c1, f1, e1, e⟩ := e
    have h' : Within S P c1 := by
      simp only [pruneRound, Option.bind_eq_bind, Option.bind_eq_some_iff] at e1
      obtain ⟨r, hr, e1⟩ := e1
      split at e1
      · cases e1
        exact within_reroot hP h hr
      · simp only [Option.bind_eq_some_iff, Option.some.injEq, Prod.mk.injEq, Prod.exists] at e1
        obtain ⟨c2, f2, es, e2, c3, e3, c4, f4, e4, rfl, -⟩ := e1
        exact within_simplifyPhis hP (within_mergeLeaves hP (within_visitBlocks hP h e2) e3) e4
    split at e
    · exact within_cfgPrune hP h' e
    · obtain rfl := Option.some.inj e
      exact h'

end

end Verif.Pipe
