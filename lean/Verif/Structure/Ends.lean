import Verif.Structure.Main
/-!
# Whole programs: the structured tree and the state machine
-/

namespace Verif.Structure

open Verif.Graph

variable {ι α σ ε : Type}

theorem runCfg_mono {m : Machine ι α σ ε} {P : Prog ι α} : ∀ (n : Nat) {l : Nat} {s : σ} {o : End σ ε},
    runCfg m P n l s = some o → ∀ k, runCfg m P (n + k) l s = some o
  | 0, _, _, _, h, _ => by simp [runCfg] at h
  | n + 1, l, s, o, h, k => by
    rw [Nat.add_right_comm]
    simp only [runCfg] at h ⊢
    cases hm : move m P l s with
    | stop o' => rw [hm] at h; exact h
    | undefined => rw [hm] at h; cases h
    | goto l' s' => rw [hm] at h; exact runCfg_mono n h k

theorem runCfg_det {m : Machine ι α σ ε} {P : Prog ι α} {n n' l : Nat} {s : σ} {o o' : End σ ε}
    (h : runCfg m P n l s = some o) (h' : runCfg m P n' l s = some o') : o = o' := by
  have h1 := runCfg_mono n h n'
  have h2 := runCfg_mono n' h' n
  rw [Nat.add_comm, h2] at h1
  exact (Option.some.inj h1).symm

theorem halt_run {m : Machine ι α σ ε} {P : Prog ι α} {S : Nat → Prop} {j l z : Nat} {s s1 : σ}
    {o : End σ ε} (h : Steps m P S j l s z s1) (hm : move m P z s1 = .stop o) :
    runCfg m P (j + 1) l s = some o := by
  rw [h.run 1]
  simp [runCfg, hm]

section
variable {m : Machine ι α σ ε} {x : Ctx ι α}

theorem tree_run {real : Nat → Prop} (so : Sound x real) {ts : List (Tree ι α)} {C' : List Nat}
    (h : Walked x (some x.prog.entry) none x.reachable none [] ts C') (n : Nat) (s : σ) :
    match runTrees m ts n s with
    | .timeout => runCfg m x.prog n x.prog.entry s = none
    | .normal s' => CfgEnds m x.prog s (.done s')
    | .thrown e => CfgEnds m x.prog s (.thrown e)
    | .brk _ _ => False
    | .cont _ _ => False := by
  have hm := walked_meets (m := m) so h x.prog.entry rfl rfl (fun _ _ h => by cases h)
    (fun _ h => by cases h) n s
  cases ho : runTrees m ts n s with
  | timeout =>
    rw [ho] at hm
    obtain ⟨j, l', s', hj, hs⟩ := hm
    show runCfg m x.prog n x.prog.entry s = none
    cases hr : runCfg m x.prog n x.prog.entry s with
    | none => rfl
    | some o =>
      have := runCfg_mono n hr (j - n)
      rw [show n + (j - n) = j + 0 by omega, hs.run 0] at this
      simp [runCfg] at this
  | normal s' =>
    rw [ho] at hm
    rcases hm with ⟨J, j, hJ, -⟩ | ⟨j, z, s1, hs, -, -, hst⟩
    · cases hJ
    · exact ⟨j + 1, halt_run hs hst⟩
  | thrown e =>
    rw [ho] at hm
    obtain ⟨j, z, s1, hs, -, hst⟩ := hm
    exact ⟨j + 1, halt_run hs hst⟩
  | brk k s' => rw [ho] at hm; cases hm.1
  | cont k s' => rw [ho] at hm; cases hm.1

theorem tree_ends {real : Nat → Prop} (so : Sound x real) {ts : List (Tree ι α)} {C' : List Nat}
    (h : Walked x (some x.prog.entry) none x.reachable none [] ts C') (s : σ) (o : End σ ε) :
    CfgEnds m x.prog s o ↔ JsEnds m (lowerControl (.tree (wrapSeq ts))) s o := by
  have hl : ∀ n st, runAll m (lowerControl (.tree (wrapSeq ts))) n (s, st) =
      toCompl (named none (wrapSeq ts)) st (runTrees m ts n s) := by
    intro n st
    have := (lower_ok m (named none (wrapSeq ts)) (wrapSeq ts) none (fun k hk => hk) n s st).1
    rw [runTree_wrapSeq] at this
    exact this
  constructor
  · rintro ⟨n, hn⟩
    have hr := tree_run (m := m) so h n s
    refine ⟨n, 0, ?_⟩
    rw [hl n 0]
    cases ho : runTrees m ts n s with
    | timeout => rw [ho] at hr; exact absurd (hn.symm.trans hr) (by simp)
    | brk k s' => rw [ho] at hr; exact hr.elim
    | cont k s' => rw [ho] at hr; exact hr.elim
    | normal s' =>
      rw [ho] at hr
      obtain ⟨j, hj⟩ := hr
      exact .inl ⟨s', 0, rfl, runCfg_det hn hj⟩
    | thrown e =>
      rw [ho] at hr
      obtain ⟨j, hj⟩ := hr
      exact .inr ⟨e, rfl, runCfg_det hn hj⟩
  · rintro ⟨n, k, hc⟩
    have hr := tree_run (m := m) so h n s
    rw [hl n k] at hc
    cases ho : runTrees m ts n s with
    | timeout => rw [ho] at hc; rcases hc with ⟨_, _, h, -⟩ | ⟨_, h, -⟩ <;> cases h
    | brk k s' => rw [ho] at hr; exact hr.elim
    | cont k s' => rw [ho] at hr; exact hr.elim
    | normal s' =>
      rw [ho] at hr hc
      rcases hc with ⟨_, _, h, rfl⟩ | ⟨_, h, -⟩ <;> cases h
      exact hr
    | thrown e =>
      rw [ho] at hr hc
      rcases hc with ⟨_, _, h, -⟩ | ⟨_, h, rfl⟩ <;> cases h
      exact hr
end

/-! ## The state machine -/

def blockOf (P : Prog ι α) (l : Nat) : Option (StateBlock ι α) := do
  let b ← P.bblocks.lookup l
  let r := buildTerm b (P.graph.children l)
  some (StateBlock.mk l r.1 r.2)

theorem chain_run (m : Machine ι α σ ε) (P : Prog ι α) : ∀ (ls : List Nat) (bs : List (StateBlock ι α)),
    ls.mapM (blockOf P) = some bs → ∀ l ∈ ls, ∃ b, P.bblocks.lookup l = some b ∧
      ∀ n s, runAll m (lowerChain bs) n (s, l) =
        runAll m (lowerInsts (buildTerm b (P.graph.children l)).1 ++
          lowerTerm (buildTerm b (P.graph.children l)).2) n (s, l)
  | [], _, _, l, hl => by cases hl
  | k :: ls, bs, h, l, hl => by
    simp only [List.mapM_cons, Option.bind_eq_bind, Option.bind_eq_some_iff, Option.pure_def,
      Option.some.injEq] at h
    obtain ⟨b1, h1, bs1, h2, rfl⟩ := h
    simp only [blockOf, Option.bind_eq_bind, Option.bind_eq_some_iff, Option.some.injEq] at h1
    obtain ⟨b, hb, rfl⟩ := h1
    by_cases hk : l = k
    · subst hk
      refine ⟨b, hb, ?_⟩
      intro n s
      simp only [lowerChain, runAll_one, runJs, Test.holds, beq_self_eq_true, if_true]
    · obtain ⟨b', hb', hr⟩ := chain_run m P ls bs1 h2 l ((List.mem_cons.1 hl).resolve_left hk)
      refine ⟨b', hb', ?_⟩
      intro n s
      rw [← hr]
      have : (l == k) = false := by simpa using hk
      simp only [lowerChain, runAll_one, runJs, Test.holds, this]
      rfl

/-- One turn of the state machine is one block. -/
theorem turn_run (m : Machine ι α σ ε) {P : Prog ι α} (hw : WellFormed P) {l : Nat}
    {b : List (Inst ι α)} (hb : P.bblocks.lookup l = some b) (n : Nat) (s : σ) :
    match move m P l s with
    | .stop (.done s') => runAll m (lowerInsts (buildTerm b (P.graph.children l)).1 ++
        lowerTerm (buildTerm b (P.graph.children l)).2) n (s, l) = .brk none (s', l)
    | .stop (.thrown e) => runAll m (lowerInsts (buildTerm b (P.graph.children l)).1 ++
        lowerTerm (buildTerm b (P.graph.children l)).2) n (s, l) = .thrown e
    | .goto l' s' => runAll m (lowerInsts (buildTerm b (P.graph.children l)).1 ++
        lowerTerm (buildTerm b (P.graph.children l)).2) n (s, l) = .normal (s', l') ∧
        l' ∈ P.graph.children l
    | .undefined => False := by
  by_cases hc : ∃ c t f, b.getLast? = some (.condGoto c t f)
  · obtain ⟨c, t, f, hg⟩ := hc
    have hmem := hw.jump l b c t f hb hg
    have hB : buildTerm b (P.graph.children l) = (b.dropLast, .condGoto c t f) := by
      simp only [buildTerm, hg]
    rw [hB, move_cond hb hg s]
    simp only [runAll_append, runAll_insts m [], lowerTerm]
    cases hr : runInsts m b.dropLast s with
    | error e => simp [ofExcept, tc5, Compl.andThen]
    | ok s' =>
      simp only [ofExcept, tc2, Compl.andThen, runAll_one, runJs, Test.holds]
      by_cases ht : m.truthy c s' = true
      · simp only [ht, if_true, runAll_one, runJs, true_and]
        exact (hmem t).2 (.inl rfl)
      · simp only [ht, runAll_one, runJs]
        exact ⟨rfl, (hmem f).2 (.inr rfl)⟩
  · have hc' : ∀ c t f, b.getLast? ≠ some (.condGoto c t f) := fun c t f h => hc ⟨c, t, f, h⟩
    have hs := hw.single l b hb hc'
    have hB : buildTerm b (P.graph.children l) = (b, match sortLabels (P.graph.children l) with
      | [] => .stop
      | [a] => .goto a
      | [a, b] => .condTrue a b
      | _ => .stop) := by
      unfold buildTerm
      split
      · rename_i c t f h; exact absurd h (hc' c t f)
      · rfl
    have hM : move m P l s = match runInsts m b s with
        | .error e => .stop (.thrown e)
        | .ok s => (match P.graph.children l with
          | [] => .stop (.done s)
          | [n] => .goto n s
          | _ => .undefined) := by
      unfold move
      rw [hb]
      dsimp only
      cases runInsts m b s with
      | error e => rfl
      | ok s' =>
        dsimp only
        split
        · rename_i c t f h; exact absurd h (hc' c t f)
        · rfl
    rw [hB, hM]
    simp only [runAll_append, runAll_insts m []]
    cases hr : runInsts m b s with
    | error e => simp [ofExcept, tc5, Compl.andThen]
    | ok s' =>
      simp only [ofExcept, tc2, Compl.andThen]
      match hch : P.graph.children l, hs with
      | [], _ => simp [sortLabels, lowerTerm, runAll, runJs]
      | [a], _ => simp [sortLabels, insertSorted, lowerTerm, runAll, runJs]
      | _ :: _ :: _, h => simp at h

theorem machine_loop (m : Machine ι α σ ε) {P : Prog ι α} (hw : WellFormed P)
    (hcl : ∀ a b, b ∈ P.graph.children a → b ∈ P.graph.labels)
    {bs : List (StateBlock ι α)} (h : P.graph.labelsSorted.mapM (blockOf P) = some bs) :
    ∀ n l s, l ∈ P.graph.labels →
    (runCfg m P n l s = none →
      whileTrue none (runAll m (lowerChain bs)) n (s, l) = .timeout) ∧
    (∀ s', runCfg m P n l s = some (.done s') →
      ∃ k, whileTrue none (runAll m (lowerChain bs)) n (s, l) = .normal (s', k)) ∧
    (∀ e, runCfg m P n l s = some (.thrown e) →
      whileTrue none (runAll m (lowerChain bs)) n (s, l) = .thrown e) := by
  intro n
  induction n with
  | zero => intro l s _; simp [runCfg, whileTrue]
  | succ n ih =>
    intro l s hl
    obtain ⟨b, hb, hr⟩ := chain_run m P _ bs h l (mem_sortLabels.2 hl)
    have ht := turn_run m hw hb (n + 1) s
    simp only [runCfg, whileTrue]
    rw [hr]
    cases hm : move m P l s with
    | undefined => rw [hm] at ht; exact ht.elim
    | stop o =>
      rw [hm] at ht
      cases o with
      | done s' =>
        dsimp only at ht ⊢
        rw [ht]
        refine ⟨fun h => (by cases h), fun s'' h => ?_, fun e h => (by cases h)⟩
        cases h
        exact ⟨l, by simp⟩
      | thrown e =>
        dsimp only at ht ⊢
        rw [ht]
        refine ⟨fun h => (by cases h), fun s'' h => (by cases h), fun e h => ?_⟩
        cases h
        rfl
    | goto l' s' =>
      rw [hm] at ht
      dsimp only at ht ⊢
      rw [ht.1]
      exact ih l' s' (hcl _ _ ht.2)

theorem machine_ends (m : Machine ι α σ ε) {P : Prog ι α} (hw : WellFormed P)
    (hcl : ∀ a b, b ∈ P.graph.children a → b ∈ P.graph.labels) (he : P.entry ∈ P.graph.labels)
    {c : Control ι α} (h : buildMachine P = some c) (s : σ) (o : End σ ε) :
    CfgEnds m P s o ↔ JsEnds m (lowerControl c) s o := by
  have h' : ∃ bs, P.graph.labelsSorted.mapM (blockOf P) = some bs ∧ c = .machine 0 bs := by
    simp only [buildMachine, Option.bind_eq_bind, Option.bind_eq_some_iff, Option.some.injEq] at h
    obtain ⟨bs, h1, h2⟩ := h
    exact ⟨bs, h1, h2.symm⟩
  obtain ⟨bs, h1, rfl⟩ := h'
  have hrun : ∀ n k, runAll m (lowerControl (.machine 0 bs)) n (s, k) =
      whileTrue none (runAll m (lowerChain bs)) n (s, P.entry) := by
    intro n k
    simp only [lowerControl, runAll, runJs, hw.entry]
    cases whileTrue none (runAll m (lowerChain bs)) n (s, 0) <;> rfl
  have key := fun n => machine_loop m hw hcl h1 n P.entry s he
  constructor
  · rintro ⟨n, hn⟩
    refine ⟨n, 0, ?_⟩
    rw [hrun]
    cases o with
    | done s' =>
      obtain ⟨k, hk⟩ := (key n).2.1 s' hn
      exact .inl ⟨s', k, hk, rfl⟩
    | thrown e => exact .inr ⟨e, (key n).2.2 e hn, rfl⟩
  · rintro ⟨n, k, hc⟩
    rw [hrun] at hc
    refine ⟨n, ?_⟩
    cases hr : runCfg m P n P.entry s with
    | none =>
      rw [(key n).1 hr] at hc
      rcases hc with ⟨_, _, h, -⟩ | ⟨_, h, -⟩ <;> cases h
    | some o' =>
      cases o' with
      | done s' =>
        obtain ⟨k', hk⟩ := (key n).2.1 s' hr
        rw [hk] at hc
        rcases hc with ⟨_, _, h, rfl⟩ | ⟨_, h, -⟩ <;> cases h
        rfl
      | thrown e =>
        rw [(key n).2.2 e hr] at hc
        rcases hc with ⟨_, _, h, -⟩ | ⟨_, h, rfl⟩ <;> cases h
        rfl

end Verif.Structure
