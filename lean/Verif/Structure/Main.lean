import Verif.Structure.Sim
/-!
# A tree that the structurer makes runs like the graph
-/

namespace Verif.Structure

open Verif.Graph

variable {ι α σ ε : Type}

/-- The outcome of a tree for the label `l`, against the graph: `pr` says how many steps a jump must take
at least. -/
def Meets (m : Machine ι α σ ε) (x : Ctx ι α) (S : Nat → Prop) (A : List Nat) (B L : Option Nat)
    (pr : Nat → Prop) (l n : Nat) (s : σ) : Out σ ε → Prop
  | .timeout => ∃ j l' s', n ≤ j ∧ Steps m x.prog S j l s l' s'
  | .normal s' =>
    (∃ J j, B = some J ∧ Steps m x.prog S j l s J s' ∧ pr j) ∨
    (∃ j z s1, Steps m x.prog S j l s z s1 ∧ S z ∧ z ∈ A ∧ move m x.prog z s1 = .stop (.done s'))
  | .brk k s' => L = some k ∧ ∃ info f j, x.forest.loops[k]? = some info ∧ info.follow = some f ∧
      Steps m x.prog S j l s f s' ∧ pr j
  | .cont k s' => L = some k ∧ ∃ info j, x.forest.loops[k]? = some info ∧
      Steps m x.prog S j l s info.header s' ∧ pr j
  | .thrown e => Halts m x.prog S l s (.thrown e)

section
variable {m : Machine ι α σ ε} {x : Ctx ι α}

/-- Steps before a tree. -/
theorem Meets.after {S S' : Nat → Prop} {A : List Nat} {B L : Option Nat} {pr pr' : Nat → Prop}
    {l l1 n j : Nat} {s s1 : σ} {o : Out σ ε} (hs : Steps m x.prog S j l s l1 s1)
    (h : Meets m x S' A B L pr' l1 n s1 o) (hS : ∀ y, S' y → S y) (hp : ∀ i, pr' i → pr (j + i)) :
    Meets m x S A B L pr l n s o := by
  cases o with
  | timeout =>
    obtain ⟨i, l', s', h1, h2⟩ := h
    exact ⟨j + i, l', s', by omega, hs.trans (h2.mono hS)⟩
  | normal s' =>
    rcases h with ⟨J, i, h1, h2, h3⟩ | ⟨i, z, s2, h1, h2, h3, h4⟩
    · exact .inl ⟨J, j + i, h1, hs.trans (h2.mono hS), hp i h3⟩
    · exact .inr ⟨j + i, z, s2, hs.trans (h1.mono hS), hS z h2, h3, h4⟩
  | brk k s' =>
    obtain ⟨h1, info, f, i, h2, h3, h4, h5⟩ := h
    exact ⟨h1, info, f, j + i, h2, h3, hs.trans (h4.mono hS), hp i h5⟩
  | cont k s' =>
    obtain ⟨h1, info, i, h2, h3, h4⟩ := h
    exact ⟨h1, info, j + i, h2, hs.trans (h3.mono hS), hp i h4⟩
  | thrown e =>
    obtain ⟨i, z, s2, h1, h2, h3⟩ := h
    exact ⟨j + i, z, s2, hs.trans (h1.mono hS), hS z h2, h3⟩

/-- One turn of the body of a loop with header `h`. -/
def Turns (m : Machine ι α σ ε) (x : Ctx ι α) (S : Nat → Prop) (h k : Nat) (fo : Option Nat) (n : Nat)
    (s : σ) : Out σ ε → Prop
  | .timeout => ∃ j l' s', n ≤ j ∧ Steps m x.prog S j h s l' s'
  | .normal s' => ∃ j, 1 ≤ j ∧ Steps m x.prog S j h s h s'
  | .cont k' s' => k' = k ∧ ∃ j, 1 ≤ j ∧ Steps m x.prog S j h s h s'
  | .brk k' s' => k' = k ∧ ∃ f j, fo = some f ∧ 1 ≤ j ∧ Steps m x.prog S j h s f s'
  | .thrown e => Halts m x.prog S h s (.thrown e)

/-- A whole loop. -/
def Leaves (m : Machine ι α σ ε) (x : Ctx ι α) (S : Nat → Prop) (h : Nat) (fo : Option Nat) (n : Nat)
    (s : σ) : Out σ ε → Prop
  | .timeout => ∃ j l' s', n ≤ j ∧ Steps m x.prog S j h s l' s'
  | .normal s' => ∃ f j, fo = some f ∧ 1 ≤ j ∧ Steps m x.prog S j h s f s'
  | .cont _ _ => False
  | .brk _ _ => False
  | .thrown e => Halts m x.prog S h s (.thrown e)

theorem loop_leaves {S : Nat → Prop} {h k : Nat} {fo : Option Nat} {body : Nat → σ → Out σ ε}
    (hb : ∀ n s, Turns m x S h k fo n s (body n s)) :
    ∀ n s, Leaves m x S h fo n s (loopTree k body n s) := by
  intro n
  induction n with
  | zero => intro s; exact ⟨0, h, s, by omega, .refl⟩
  | succ n ih =>
    intro s
    have h1 := hb (n + 1) s
    have again : ∀ {s' j}, 1 ≤ j → Steps m x.prog S j h s h s' →
        Leaves m x S h fo (n + 1) s (loopTree k body n s') := by
      intro s' j hj hs
      have h2 := ih s'
      cases ho : loopTree k body n s' with
      | timeout =>
        rw [ho] at h2
        obtain ⟨i, l', s2, h3, h4⟩ := h2
        exact ⟨j + i, l', s2, by omega, hs.trans h4⟩
      | normal s2 =>
        rw [ho] at h2
        obtain ⟨f, i, h3, h4, h5⟩ := h2
        exact ⟨f, j + i, h3, by omega, hs.trans h5⟩
      | cont _ _ => rw [ho] at h2; exact h2
      | brk _ _ => rw [ho] at h2; exact h2
      | thrown e =>
        rw [ho] at h2
        obtain ⟨i, z, s2, h3, h4, h5⟩ := h2
        exact ⟨j + i, z, s2, hs.trans h3, h4, h5⟩
    unfold loopTree
    cases ho : body (n + 1) s with
    | timeout => rw [ho] at h1; exact h1
    | thrown e => rw [ho] at h1; exact h1
    | normal s' =>
      rw [ho] at h1
      obtain ⟨j, hj, hs⟩ := h1
      exact again hj hs
    | cont k' s' =>
      rw [ho] at h1
      obtain ⟨rfl, j, hj, hs⟩ := h1
      simp only [if_true]
      exact again hj hs
    | brk k' s' =>
      rw [ho] at h1
      obtain ⟨rfl, f, j, hf, hj, hs⟩ := h1
      simp only [if_true]
      exact ⟨f, j, hf, hj, hs⟩

theorem runTrees_loop {S S' : Nat → Prop} {A : List Nat} {B L : Option Nat} {h n k : Nat}
    {fo : Option Nat} {s : σ} {body : Tree ι α} {ts : List (Tree ι α)} {pr pr' : Nat → Prop}
    (hb : ∀ n s, Turns m x S h k fo n s (runTree m body n s))
    (hr : ∀ f, fo = some f → ∀ n s, Meets m x S' A B L pr' f n s (runTrees m ts n s))
    (hS : ∀ y, S' y → S y) (hp : ∀ j, 1 ≤ j → pr j) :
    Meets m x S A B L pr h n s (runTrees m (.loop h fo body k :: ts) n s) := by
  have h1 := loop_leaves hb n s
  simp only [runTrees, runTree]
  cases ho : loopTree k (runTree m body) n s with
  | timeout => rw [ho] at h1; exact h1
  | thrown e => rw [ho] at h1; exact h1
  | cont _ _ => rw [ho] at h1; exact h1.elim
  | brk _ _ => rw [ho] at h1; exact h1.elim
  | normal s' =>
    rw [ho] at h1
    obtain ⟨f, j, hf, hj, hs⟩ := h1
    exact Meets.after hs (hr f hf n s') hS (fun i _ => hp _ (by omega))

/-- Less is asked of fewer blocks. -/
theorem Meets.toTurns {S S' : Nat → Prop} {k n h l : Nat} {info : LoopInfo} {real : Nat → Prop} (so : Sound x real)
    (hk : x.forest.loops[k]? = some info) (hh : info.header = h) {pr : Nat → Prop} {j : Nat} {s s1 : σ}
    {o : Out σ ε} (hs : Steps m x.prog S j h s l s1) (hS : ∀ y, S' y → S y)
    (hp : ∀ i, pr i → 1 ≤ j + i)
    (hm : Meets m x S' info.nodes none (some k) pr l n s1 o) : Turns m x S h k info.follow n s o := by
  cases o with
  | timeout =>
    obtain ⟨i, l', s', h1, h2⟩ := hm
    exact ⟨j + i, l', s', by omega, hs.trans (h2.mono hS)⟩
  | normal s' =>
    rcases hm with ⟨J, i, h1, -⟩ | ⟨i, z, s2, -, -, h3, h4⟩
    · cases h1
    · exact absurd (stop_childless h4) ((so.nodes k info hk).2 z h3).2
  | brk k' s' =>
    obtain ⟨h1, info', f, i, h2, h3, h4, h5⟩ := hm
    cases h1
    rw [hk] at h2
    cases h2
    exact ⟨rfl, f, j + i, h3, hp i h5, hs.trans (h4.mono hS)⟩
  | cont k' s' =>
    obtain ⟨h1, info', i, h2, h3, h4⟩ := hm
    cases h1
    rw [hk] at h2
    cases h2
    rw [hh] at h3
    exact ⟨rfl, j + i, hp i h4, hs.trans (h3.mono hS)⟩
  | thrown e =>
    obtain ⟨i, z, s2, h1, h2, h3⟩ := hm
    exact ⟨j + i, z, s2, hs.trans (h1.mono hS), hS z h2, h3⟩

/-- The current loop and the labels it allows. -/
def Inside (x : Ctx ι α) (A : List Nat) : Option Nat → Prop
  | none => A = x.reachable
  | some k => ∃ info, x.forest.loops[k]? = some info ∧ A = info.nodes

theorem Inside.real {real : Nat → Prop} (so : Sound x real) {A : List Nat} {L : Option Nat}
    (h : Inside x A L) : ∀ y ∈ A, real y := by
  cases L with
  | none => intro y hy; rw [show A = x.reachable from h] at hy; exact so.allowed y hy
  | some k =>
    obtain ⟨info, hk, rfl⟩ := h
    exact fun y hy => ((so.nodes k info hk).2 y hy).1

theorem branches_some {l : Nat} {r : Region} {insts : List (Inst ι α)} {c : α}
    (h : x.branches l = some (r, insts, c)) : x.conds l = some r ∧
      ∃ b t f, x.prog.bblocks.lookup l = some b ∧ b.getLast? = some (.condGoto c t f) ∧
        insts = b.dropLast := by
  unfold Ctx.branches at h
  cases hc : x.conds l with
  | none => simp [hc] at h
  | some r' =>
    simp only [hc] at h
    cases hl : x.prog.bblocks.lookup l with
    | none => simp [hl] at h
    | some b =>
      simp only [hl] at h
      split at h
      · rename_i c' t f hg
        simp only [Option.some.injEq, Prod.mk.injEq] at h
        obtain ⟨rfl, rfl, rfl⟩ := h
        exact ⟨rfl, b, t, f, rfl, hg, rfl⟩
      · simp at h

theorem loopGuard_some {real : Nat → Prop} (so : Sound x real) {k : Nat} {info : LoopInfo}
    {g : Guard ι α} (hk : x.forest.loops[k]? = some info) (h : loopGuard x.prog info = some g) :
    ∃ b, x.prog.bblocks.lookup info.header = some b ∧
      b.getLast? = some (.condGoto g.cond g.inside g.outside) ∧ g.insts = b.dropLast ∧
      info.follow = some g.outside := by
  unfold loopGuard at h
  cases hl : x.prog.bblocks.lookup info.header with
  | none => simp [hl] at h
  | some b =>
    simp only [hl] at h
    split at h
    · rename_i c t f hg
      by_cases h1 : (info.nodes.contains t && !(info.nodes.contains f)) = true
      · rw [if_pos h1] at h
        by_cases h2 : (info.follow != some f) = true
        · rw [if_pos h2] at h; simp at h
        · rw [if_neg h2] at h
          cases h
          exact ⟨b, rfl, hg, rfl, by simpa using h2⟩
      · rw [if_neg h1] at h
        by_cases h3 : (info.nodes.contains f && !(info.nodes.contains t)) = true
        · rw [if_pos h3] at h
          by_cases h2 : (info.follow != some t) = true
          · rw [if_pos h2] at h; simp at h
          · exfalso
            simp only [Bool.and_eq_true, List.contains_iff_mem, Bool.not_eq_true',
              Bool.eq_false_iff, ne_eq] at h3
            exact so.guards k info b c t f hk hl hg h3.1 (by simpa using h3.2) (by simpa using h2)
        · rw [if_neg h3] at h; simp at h
    · simp at h

/-- What a jump at the end of a block means. -/
theorem resolve_spec {real : Nat → Prop} (so : Sound x real) {A : List Nat} {L : Option Nat}
    {l succ : Nat} (hin : Inside x A L) (hl : l ∈ A) (hc : x.prog.graph.children l = [succ]) :
    (∀ n, x.resolve L succ A = .ok (.inr n) → n = succ) ∧
    (∀ t, x.resolve L succ A = .ok (.inl t) → ∃ k info, L = some k ∧
      x.forest.loops[k]? = some info ∧
      ((t = .cont k ∧ succ = info.header) ∨ (t = .brk k ∧ info.follow = some succ))) := by
  cases L with
  | none =>
    simp only [Ctx.resolve]
    constructor
    · intro n h
      split at h
      · cases h; rfl
      · cases h
    · intro t h
      split at h <;> cases h
  | some k =>
    obtain ⟨info, hk, rfl⟩ := hin
    simp only [Ctx.resolve, hk]
    by_cases h1 : (succ == info.header) = true
    · rw [if_pos h1]
      constructor
      · intro n h; cases h
      · intro t h; cases h
        exact ⟨k, info, rfl, hk, .inl ⟨rfl, by simpa using h1⟩⟩
    · rw [if_neg h1]
      by_cases h2 : (info.follow == some succ) = true
      · rw [if_pos h2]
        constructor
        · intro n h; cases h
        · intro t h; cases h
          exact ⟨k, info, rfl, hk, .inr ⟨rfl, by simpa using h2⟩⟩
      · rw [if_neg h2]
        rw [so.ancestors k info l succ hk hl hc (by simpa using h1) (by simpa using h2)]
        constructor
        · intro n h
          dsimp only at h
          split at h
          · cases h; rfl
          · cases h
        · intro t h
          dsimp only at h
          split at h <;> cases h

/-- The main lemma. -/
theorem walked_meets {real : Nat → Prop} (so : Sound x real) {cur B A L C ts C'}
    (h : Walked x cur B A L C ts C') :
    ∀ l, cur = some l → Inside x A L →
    (∀ k info, L = some k → x.forest.loops[k]? = some info → info.header ∈ C ∨ info.header = l) →
    (∀ J, B = some J → real J ∧ (J ∈ C' → J ∈ C)) →
    ∀ n s, Meets m x (fun y => y ∈ C' ∧ y ∉ C) A B L (fun j => l ∉ C ∧ B ≠ some l → 1 ≤ j) l n s
      (runTrees m ts n s) := by
  induction h with
  | nil => intro l hl; cases hl
  | @bound l B A L C hb =>
    intro l' hl hin hh hB n s
    cases hl
    simp only [runTrees]
    exact .inl ⟨l, 0, hb, .refl, fun h => absurd hb h.2⟩
  | @cont l B A L C k info hL hk hh hC =>
    intro l' hl hin _ hB n s
    cases hl
    simp only [runTrees, runTree, Out.andThen]
    refine ⟨hL, info, 0, hk, ?_, fun h => absurd hC h.1⟩
    rw [hh]
    exact .refl
  | @stop l B A L C insts hb hA hC hl hc =>
    intro l' hl' hin hh hB n s
    cases hl'
    simp only [runTrees, runTree]
    have hm := so.move_none (m := m) hl (sort_nil hc) s
    cases hr : runInsts m insts s with
    | error e =>
      rw [hr] at hm
      simp only [ofExcept, Out.andThen]
      exact ⟨0, l, s, .refl, ⟨by simp, hC⟩, hm⟩
    | ok s' =>
      rw [hr] at hm
      simp only [ofExcept, Out.andThen, runTrees]
      exact .inr ⟨0, l, s, .refl, ⟨by simp, hC⟩, hA, hm⟩
  | @jump l B A L C insts succ t hb hA hC hl hc hr =>
    intro l' hl' hin hh hB n s
    cases hl'
    have hm := so.move_one (m := m) hl (sort_one hc) s
    simp only [runTrees, runTree]
    cases hri : runInsts m insts s with
    | error e =>
      rw [hri] at hm
      simp only [ofExcept, Out.andThen]
      exact ⟨0, l, s, .refl, ⟨by simp, hC⟩, hm⟩
    | ok s' =>
      rw [hri] at hm
      have hst : Steps m x.prog (fun y => y ∈ l :: C ∧ y ∉ C) 1 l s succ s' :=
        .step ⟨by simp, hC⟩ hm .refl
      obtain ⟨k, info, rfl, hk, ⟨rfl, hsu⟩ | ⟨rfl, hsu⟩⟩ :=
        (resolve_spec so hin hA (sort_one hc)).2 t hr
      · simp only [ofExcept, Out.andThen, runTree]
        exact ⟨rfl, info, 1, hk, hsu ▸ hst, fun _ => Nat.le_refl 1⟩
      · simp only [ofExcept, Out.andThen, runTree]
        exact ⟨rfl, info, succ, 1, hk, hsu, hst, fun _ => Nat.le_refl 1⟩
  | @next l B A L C insts succ nx ts C1 hb hA hC hl hc hr hw ih =>
    intro l' hl' hin hh hB n s
    cases hl'
    have hm := so.move_one (m := m) hl (sort_one hc) s
    have hl1 : l ∈ C1 := hw.mono l (by simp)
    simp only [runTrees, runTree]
    cases hri : runInsts m insts s with
    | error e =>
      rw [hri] at hm
      simp only [ofExcept, Out.andThen]
      exact ⟨0, l, s, .refl, ⟨hl1, hC⟩, hm⟩
    | ok s' =>
      rw [hri] at hm
      obtain rfl := (resolve_spec so hin hA (sort_one hc)).1 nx hr
      have hst : Steps m x.prog (fun y => y ∈ C1 ∧ y ∉ C) 1 l s nx s' := .step ⟨hl1, hC⟩ hm .refl
      simp only [ofExcept, Out.andThen]
      refine Meets.after hst (ih nx rfl hin ?_ ?_ n s') ?_ ?_
      · intro k info hL hk
        rcases hh k info hL hk with h | h
        · exact .inl (List.mem_cons_of_mem _ h)
        · exact .inl (by simp [h])
      · intro J hJ
        refine ⟨(hB J hJ).1, fun h => List.mem_cons_of_mem _ ((hB J hJ).2 h)⟩
      · rintro y ⟨h1, h2⟩
        exact ⟨h1, fun h => h2 (List.mem_cons_of_mem _ h)⟩
      · intro i _ _
        omega
  | @ite l B A L C r insts c tt te ts C1 C2 C3 hb hA hC hbr h1 h2 h3 i1 i2 i3 =>
    intro l' hl' hin hh hB n s
    cases hl'
    obtain ⟨hcond, b, t, f, hl, hg, rfl⟩ := branches_some hbr
    obtain ⟨rfl, rfl⟩ := so.entries l r b c t f hcond hl hg
    have m1 := h1.mono
    have m2 := h2.mono
    have m3 := h3.mono
    have hl3 : l ∈ C3 := m3 _ (m2 _ (m1 _ (by simp)))
    have hh' : ∀ k info, L = some k → x.forest.loops[k]? = some info → info.header ∈ l :: C := by
      intro k info hL hk
      rcases hh k info hL hk with h | h
      · exact List.mem_cons_of_mem _ h
      · simp [h]
    -- the join is a block of the graph, and is not made inside the branches
    have hJ : real r.join ∧ (r.join ∈ C2 → r.join ∈ l :: C) := by
      rcases h3.inv with h | ⟨k, info, hL, hk, hi, hm⟩ | ⟨hn, ha⟩
      · refine ⟨(hB _ h).1, fun hm => List.mem_cons_of_mem _ ((hB _ h).2 (m3 _ hm))⟩
      · refine ⟨hi ▸ (so.nodes k info hk).1, fun _ => hi ▸ hh' k info hL hk⟩
      · exact ⟨hin.real so _ ha, fun hm => absurd hm hn⟩
    have hm := move_cond (m := m) hl hg s
    simp only [runTrees, runTree, runTree_wrapSeq]
    cases hri : runInsts m b.dropLast s with
    | error e =>
      rw [hri] at hm
      simp only [ofExcept, Out.andThen]
      exact ⟨0, l, s, .refl, ⟨hl3, hC⟩, hm⟩
    | ok s' =>
      rw [hri] at hm
      simp only [ofExcept, Out.andThen]
      -- both branches in the same way
      have key : ∀ (e : Nat) (S' : Nat → Prop) (pr' : Nat → Prop) (o : Out σ ε),
          (e = r.thenEntry ∨ e = r.elseEntry) →
          move m x.prog l s = .goto e s' →
          (∀ y, S' y → (y ∈ C2 ∧ y ∉ l :: C)) →
          Meets m x S' A (some r.join) L pr' e n s' o →
          Meets m x (fun y => y ∈ C3 ∧ y ∉ C) A B L (fun j => l ∉ C ∧ B ≠ some l → 1 ≤ j) l n s
            (o.andThen (fun s => runTrees m ts n s)) := by
        intro e S' pr' o he hmo hS hme
        have hst : Steps m x.prog (fun y => y ∈ C3 ∧ y ∉ C) 1 l s e s' := .step ⟨hl3, hC⟩ hmo .refl
        have hS3 : ∀ y, S' y → y ∈ C3 ∧ y ∉ C :=
          fun y hy => ⟨m3 _ (hS y hy).1, fun h => (hS y hy).2 (List.mem_cons_of_mem _ h)⟩
        have fin : ∀ s1 j, Steps m x.prog (fun y => y ∈ C3 ∧ y ∉ C) j l s r.join s1 → 1 ≤ j →
            Meets m x (fun y => y ∈ C3 ∧ y ∉ C) A B L (fun j => l ∉ C ∧ B ≠ some l → 1 ≤ j) l n s
              (runTrees m ts n s1) := by
          intro s1 j hs hj
          refine Meets.after hs (i3 r.join rfl hin ?_ ?_ n s1) ?_ ?_
          · exact fun k info hL hk => .inl (m2 _ (m1 _ (hh' k info hL hk)))
          · intro J hJ'
            exact ⟨(hB J hJ').1, fun h => m2 _ (m1 _ (List.mem_cons_of_mem _ ((hB J hJ').2 h)))⟩
          · rintro y ⟨hy1, hy2⟩
            exact ⟨hy1, fun h => hy2 (m2 _ (m1 _ (List.mem_cons_of_mem _ h)))⟩
          · intro i _ _
            omega
        cases o with
        | timeout =>
          exact Meets.after hst hme hS3 (fun i _ _ => by omega)
        | thrown e' =>
          have := Meets.after (B := B) (pr := fun j => l ∉ C ∧ B ≠ some l → 1 ≤ j) (A := A)
            (L := L) (pr' := pr') (n := n) (o := .thrown e') hst
            (show Meets m x S' A B L pr' e n s' (.thrown e') from hme) hS3 (fun i _ _ => by omega)
          exact this
        | brk k s1 =>
          have := Meets.after (B := B) (pr := fun j => l ∉ C ∧ B ≠ some l → 1 ≤ j) (A := A)
            (L := L) (pr' := pr') (n := n) (o := .brk k s1) hst
            (show Meets m x S' A B L pr' e n s' (.brk k s1) from hme) hS3 (fun i _ _ => by omega)
          exact this
        | cont k s1 =>
          have := Meets.after (B := B) (pr := fun j => l ∉ C ∧ B ≠ some l → 1 ≤ j) (A := A)
            (L := L) (pr' := pr') (n := n) (o := .cont k s1) hst
            (show Meets m x S' A B L pr' e n s' (.cont k s1) from hme) hS3 (fun i _ _ => by omega)
          exact this
        | normal s1 =>
          rcases hme with ⟨J, j, hJ', hs, -⟩ | ⟨j, z, s2, hs, hz, -, hstop⟩
          · cases hJ'
            exact fin s1 _ (hst.trans (hs.mono hS3)) (by omega)
          · exfalso
            obtain ⟨p, hp, hpS⟩ := so.path hs hz
            have := so.joins l r hcond hJ.1 e z p he hp (stop_childless hstop)
            have := hS _ (hpS _ this)
            exact this.2 (hJ.2 this.1)
      have hJ1 : r.join ∈ C1 → r.join ∈ l :: C := fun h => hJ.2 (m2 _ h)
      by_cases hc : m.truthy c s' = true
      · simp only [hc, if_true] at hm ⊢
        refine key r.thenEntry _ _ _ (.inl rfl) hm ?_ (i1 r.thenEntry rfl hin ?_ ?_ n s')
        · rintro y ⟨hy1, hy2⟩
          exact ⟨m2 _ hy1, hy2⟩
        · exact fun k info hL hk => .inl (hh' k info hL hk)
        · intro J hJ'
          cases hJ'
          exact ⟨hJ.1, hJ1⟩
      · simp only [hc] at hm ⊢
        refine key r.elseEntry _ _ _ (.inr rfl) hm ?_ (i2 r.elseEntry rfl hin ?_ ?_ n s')
        · rintro y ⟨hy1, hy2⟩
          exact ⟨hy1, fun h => hy2 (m1 _ h)⟩
        · exact fun k info hL hk => .inl (m1 _ (hh' k info hL hk))
        · intro J hJ'
          cases hJ'
          exact ⟨hJ.1, fun h => m1 _ (hJ.2 h)⟩
  | @guardSelf l B A L C k info g ts C2 hb hA hC hk hhd hg hi hw ih =>
    intro l' hl' hin hh hB n s
    cases hl'
    have hl2 : l ∈ C2 := hw.mono l (by simp)
    obtain ⟨b, hlk, hlast, hins, hfo⟩ := loopGuard_some so hk hg
    rw [hhd] at hlk
    refine runTrees_loop ?_ ?_ ?_ (fun j hj _ => hj) (S' := fun y => y ∈ C2 ∧ y ∉ l :: C)
      (pr' := fun _ => True)
    · intro n s
      have hm := move_cond (m := m) hlk hlast s
      simp only [runTree, runTrees, hins]
      cases hri : runInsts m b.dropLast s with
      | error e =>
        rw [hri] at hm
        simp only [ofExcept, Out.andThen]
        exact ⟨0, l, s, .refl, ⟨hl2, hC⟩, hm⟩
      | ok s' =>
        rw [hri] at hm
        simp only [ofExcept, Out.andThen]
        by_cases hc : m.truthy g.cond s' = true
        · simp only [hc, if_true] at hm ⊢
          rw [hi] at hm
          exact ⟨1, Nat.le_refl 1, .step ⟨hl2, hC⟩ hm .refl⟩
        · simp only [hc] at hm ⊢
          exact ⟨rfl, g.outside, 1, hfo, Nat.le_refl 1, .step ⟨hl2, hC⟩ hm .refl⟩
    · intro f hf n s
      rw [hf] at hw
      have := ih f hf hin ?_ ?_ n s
      · exact Meets.after (pr := fun _ => True) .refl this (fun y hy => hy) (fun _ _ => trivial)
      · intro k' info' hL hk'
        rcases hh k' info' hL hk' with h | h
        · exact .inl (List.mem_cons_of_mem _ h)
        · exact .inl (by simp [h])
      · intro J hJ
        exact ⟨(hB J hJ).1, fun h => List.mem_cons_of_mem _ ((hB J hJ).2 h)⟩
    · rintro y ⟨h1, h2⟩
      exact ⟨h1, fun h => h2 (List.mem_cons_of_mem _ h)⟩
  | @guard l B A L C k info g tt ts C1 C2 hb hA hC hk hhd hg hi hw1 hw2 ih1 ih2 =>
    intro l' hl' hin hh hB n s
    cases hl'
    have m1 := hw1.mono
    have m2 := hw2.mono
    have hl2 : l ∈ C2 := m2 _ (m1 l (by simp))
    obtain ⟨b, hlk, hlast, hins, hfo⟩ := loopGuard_some so hk hg
    rw [hhd] at hlk
    refine runTrees_loop ?_ ?_ ?_ (fun j hj _ => hj) (S' := fun y => y ∈ C2 ∧ y ∉ C1)
      (pr' := fun _ => True)
    · intro n s
      have hm := move_cond (m := m) hlk hlast s
      simp only [runTree, runTrees, hins, runTree_wrapSeq]
      cases hri : runInsts m b.dropLast s with
      | error e =>
        rw [hri] at hm
        simp only [ofExcept, Out.andThen]
        exact ⟨0, l, s, .refl, ⟨hl2, hC⟩, hm⟩
      | ok s' =>
        rw [hri] at hm
        simp only [ofExcept, Out.andThen]
        by_cases hc : m.truthy g.cond s' = true
        · simp only [hc, if_true] at hm ⊢
          have hst : Steps m x.prog (fun y => y ∈ C2 ∧ y ∉ C) 1 l s g.inside s' :=
            .step ⟨hl2, hC⟩ hm .refl
          have := Meets.toTurns so hk hhd hst (pr := fun j => g.inside ∉ l :: C ∧ none ≠ some g.inside → 1 ≤ j)
            (S' := fun y => y ∈ C1 ∧ y ∉ l :: C) ?_ (fun i _ => by omega)
            (ih1 g.inside rfl ⟨info, hk, rfl⟩ ?_ (fun J hJ => by cases hJ) n s')
          · revert this
            cases runTrees m tt n s' <;> exact id
          · rintro y ⟨hy1, hy2⟩
            exact ⟨m2 _ hy1, fun h => hy2 (List.mem_cons_of_mem _ h)⟩
          · intro k' info' hL hk'
            cases hL
            rw [hk] at hk'
            cases hk'
            exact .inl (by simp [hhd])
        · simp only [hc] at hm ⊢
          exact ⟨rfl, g.outside, 1, hfo, Nat.le_refl 1, .step ⟨hl2, hC⟩ hm .refl⟩
    · intro f hf n s
      have := ih2 f hf hin ?_ ?_ n s
      · exact Meets.after (pr := fun _ => True) .refl this (fun y hy => hy) (fun _ _ => trivial)
      · intro k' info' hL hk'
        rcases hh k' info' hL hk' with h | h
        · exact .inl (m1 _ (List.mem_cons_of_mem _ h))
        · exact .inl (m1 _ (by simp [h]))
      · intro J hJ
        exact ⟨(hB J hJ).1, fun h => m1 _ (List.mem_cons_of_mem _ ((hB J hJ).2 h))⟩
    · rintro y ⟨h1, h2⟩
      exact ⟨h1, fun h => h2 (m1 _ (List.mem_cons_of_mem _ h))⟩
  | @plain l B A L C k info tt ts C1 C2 hb hA hC hk hhd hw1 hw2 ih1 ih2 =>
    intro l' hl' hin hh hB n s
    cases hl'
    have m1 := hw1.mono
    have m2 := hw2.mono
    have hl1 : l ∈ C1 := hw1.head (by simp)
    refine runTrees_loop ?_ ?_ ?_ (fun j hj _ => hj) (S' := fun y => y ∈ C2 ∧ y ∉ C1)
      (pr' := fun _ => True)
    · intro n s
      rw [runTree_wrapSeq]
      refine Meets.toTurns so hk hhd .refl (S' := fun y => y ∈ C1 ∧ y ∉ C) ?_ ?_
        (ih1 l rfl ⟨info, hk, rfl⟩ ?_ (fun J hJ => by cases hJ) n s)
      · rintro y ⟨hy1, hy2⟩
        exact ⟨m2 _ hy1, hy2⟩
      · intro i hi
        have := hi ⟨hC, by simp⟩
        omega
      · intro k' info' hL hk'
        cases hL
        rw [hk] at hk'
        cases hk'
        exact .inr hhd
    · intro f hf n s
      have := ih2 f hf hin ?_ ?_ n s
      · exact Meets.after (pr := fun _ => True) .refl this (fun y hy => hy) (fun _ _ => trivial)
      · intro k' info' hL hk'
        rcases hh k' info' hL hk' with h | h
        · exact .inl (m1 _ h)
        · exact .inl (h ▸ hl1)
      · intro J hJ
        exact ⟨(hB J hJ).1, fun h => m1 _ ((hB J hJ).2 h)⟩
    · rintro y ⟨h1, h2⟩
      exact ⟨h1, fun h => h2 (m1 _ h)⟩
end

end Verif.Structure
