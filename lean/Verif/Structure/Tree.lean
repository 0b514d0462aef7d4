import Verif.Structure.Spec
/-!
# Running a tree, and why its statements run the same way
-/

namespace Verif.Structure

variable {ι α σ ε : Type}

/-- The completion of a tree; jumps carry the number of a loop. -/
inductive Out (σ ε : Type) where
  | timeout
  | normal (s : σ)
  | brk (k : Nat) (s : σ)
  | cont (k : Nat) (s : σ)
  | thrown (e : ε)

def loopTree (k : Nat) (body : Nat → σ → Out σ ε) : Nat → σ → Out σ ε
  | 0, _ => .timeout
  | n + 1, s =>
    match body (n + 1) s with
    | .timeout => .timeout
    | .thrown e => .thrown e
    | .normal s => loopTree k body n s
    | .cont l s => if l = k then loopTree k body n s else .cont l s
    | .brk l s => if l = k then .normal s else .brk l s

def Out.andThen (o : Out σ ε) (f : σ → Out σ ε) : Out σ ε :=
  match o with
  | .normal s => f s
  | .timeout => .timeout
  | .brk k s => .brk k s
  | .cont k s => .cont k s
  | .thrown e => .thrown e

def ofExcept : Except ε σ → Out σ ε
  | .error e => .thrown e
  | .ok s => .normal s

mutual
def runTree (m : Machine ι α σ ε) : Tree ι α → Nat → σ → Out σ ε
  | .seq ts, n, s => runTrees m ts n s
  | .block _ insts, _, s => ofExcept (runInsts m insts s)
  | .ite _ insts c t e _, n, s =>
    (ofExcept (runInsts m insts s)).andThen
      (fun s => if m.truthy c s then runTree m t n s else runTree m e n s)
  | .loop _ _ body k, n, s => loopTree k (runTree m body) n s
  | .brk k, _, s => .brk k s
  | .cont k, _, s => .cont k s
def runTrees (m : Machine ι α σ ε) : List (Tree ι α) → Nat → σ → Out σ ε
  | [], _, s => .normal s
  | t :: ts, n, s => (runTree m t n s).andThen (fun s => runTrees m ts n s)
end

theorem runTrees_append (m : Machine ι α σ ε) : ∀ (a b : List (Tree ι α)) (n : Nat) (s : σ),
    runTrees m (a ++ b) n s = (runTrees m a n s).andThen (fun s => runTrees m b n s)
  | [], b, n, s => by simp [runTrees, Out.andThen]
  | t :: a, b, n, s => by
    simp only [List.cons_append, runTrees]
    cases runTree m t n s <;> simp [Out.andThen, runTrees_append m a b]

theorem runTree_wrapSeq (m : Machine ι α σ ε) (ts : List (Tree ι α)) (n : Nat) (s : σ) :
    runTree m (wrapSeq ts) n s = runTrees m ts n s := by
  unfold wrapSeq
  split
  · simp only [runTrees]
    cases runTree m _ n s <;> simp [Out.andThen]
  · simp [runTree]

/-! ## Lowering -/

def toCompl (N : List Nat) (st : Nat) : Out σ ε → Compl (σ × Nat) ε
  | .timeout => .timeout
  | .normal s => .normal (s, st)
  | .brk k s => .brk (nameOf N k) (s, st)
  | .cont k s => .cont (nameOf N k) (s, st)
  | .thrown e => .thrown e

def Compl.andThen (o : Compl σ ε) (f : σ → Compl σ ε) : Compl σ ε :=
  match o with
  | .normal s => f s
  | c => c

section
variable (N : List Nat) (st : Nat) (s : σ) (k : Nat) (e : ε)
theorem tc1 : toCompl N st (.timeout : Out σ ε) = .timeout := rfl
theorem tc2 : toCompl N st (.normal s : Out σ ε) = .normal (s, st) := rfl
theorem tc3 : toCompl N st (.brk k s : Out σ ε) = .brk (nameOf N k) (s, st) := rfl
theorem tc4 : toCompl N st (.cont k s : Out σ ε) = .cont (nameOf N k) (s, st) := rfl
theorem tc5 : toCompl N st (.thrown e : Out σ ε) = .thrown e := rfl
end

theorem runAll_append (m : Machine ι α σ ε) : ∀ (a b : List (Js ι α)) (n : Nat) (s : σ × Nat),
    runAll m (a ++ b) n s = (runAll m a n s).andThen (fun s => runAll m b n s)
  | [], b, n, s => by simp [runAll, Compl.andThen]
  | j :: a, b, n, s => by
    simp only [List.cons_append, runAll]
    cases runJs m j n s <;> simp [Compl.andThen, runAll_append m a b]

theorem runAll_one (m : Machine ι α σ ε) (j : Js ι α) (n : Nat) (s : σ × Nat) :
    runAll m [j] n s = runJs m j n s := by
  simp only [runAll]
  cases runJs m j n s <;> rfl

theorem runAll_insts (m : Machine ι α σ ε) (N : List Nat) : ∀ (is : List (Inst ι α)) (n : Nat) (s : σ)
    (st : Nat), runAll m (lowerInsts is) n (s, st) = toCompl N st (ofExcept (runInsts m is s))
  | [], _, _, _ => by simp [lowerInsts, runAll, runInsts, ofExcept, tc1, tc2, tc3, tc4, tc5]
  | .op i :: is, n, s, st => by
    have : lowerInsts (.op i :: is) = Js.op i :: lowerInsts is := by simp [lowerInsts]
    rw [this]
    simp only [runAll, runJs, runInsts]
    cases m.exec i s with
    | error e => simp [ofExcept, tc1, tc2, tc3, tc4, tc5]
    | ok s => simpa using runAll_insts m N is n s st
  | .condGoto _ _ _ :: is, n, s, st => by
    have := runAll_insts m N is n s st
    simpa [lowerInsts, runInsts] using this

/-- A jump that leaves the tree goes to a loop with a name or to the loop around the tree. -/
def Escapes (N : List Nat) (top : Option Nat) : Out σ ε → Prop
  | .brk k _ => k ∈ N ∨ top = some k
  | .cont k _ => k ∈ N ∨ top = some k
  | _ => True

theorem whileTrue_eq {N : List Nat} {k st : Nat} {js : Nat → σ × Nat → Compl (σ × Nat) ε}
    {body : Nat → σ → Out σ ε}
    (h : ∀ n s, js n (s, st) = toCompl N st (body n s) ∧ Escapes N (some k) (body n s)) :
    ∀ (top : Option Nat) (n : Nat) (s : σ),
      whileTrue (nameOf N k) js n (s, st) = toCompl N st (loopTree k body n s) ∧
      Escapes N top (loopTree k body n s) := by
  intro top n
  induction n with
  | zero => intro s; simp [whileTrue, loopTree, tc1, tc2, tc3, tc4, tc5, Escapes]
  | succ n ih =>
    intro s
    obtain ⟨h1, h2⟩ := h (n + 1) s
    have hN : ∀ l, l ≠ k → l ∈ N → nameOf N l = some l ∧ ¬ (nameOf N l = none ∨ nameOf N l = nameOf N k) := by
      intro l hl hm
      have : nameOf N l = some l := by simp [nameOf, hm]
      refine ⟨this, ?_⟩
      rw [this]
      unfold nameOf
      split <;> simp [hl]
    simp only [whileTrue, loopTree, h1]
    cases hb : body (n + 1) s with
    | timeout => simp [tc1, tc2, tc3, tc4, tc5, Escapes]
    | thrown e => simp [tc1, tc2, tc3, tc4, tc5, Escapes]
    | normal s' => simpa [tc1, tc2, tc3, tc4, tc5] using ih s'
    | cont l s' =>
      simp only [tc1, tc2, tc3, tc4, tc5]
      by_cases hl : l = k
      · subst hl
        simpa using ih s'
      · have hm : l ∈ N := by
          simp only [hb, Escapes] at h2
          rcases h2 with h2 | h2
          · exact h2
          · exact absurd (Option.some.inj h2).symm hl
        rw [if_neg (hN l hl hm).2, if_neg hl]
        simp [tc1, tc2, tc3, tc4, tc5, Escapes, hm]
    | brk l s' =>
      simp only [tc1, tc2, tc3, tc4, tc5]
      by_cases hl : l = k
      · subst hl
        simp [tc1, tc2, tc3, tc4, tc5, Escapes]
      · have hm : l ∈ N := by
          simp only [hb, Escapes] at h2
          rcases h2 with h2 | h2
          · exact h2
          · exact absurd (Option.some.inj h2).symm hl
        rw [if_neg (hN l hl hm).2, if_neg hl]
        simp [tc1, tc2, tc3, tc4, tc5, Escapes, hm]

mutual
theorem lower_ok (m : Machine ι α σ ε) (N : List Nat) : ∀ (t : Tree ι α) (top : Option Nat),
    (∀ k ∈ named top t, k ∈ N) → ∀ (n : Nat) (s : σ) (st : Nat),
    runAll m (lower N t) n (s, st) = toCompl N st (runTree m t n s) ∧
      Escapes N top (runTree m t n s)
  | .seq ts, top, h, n, s, st => by
    simp only [named] at h
    simp only [lower, runTree]
    exact lowerAll_ok m N ts top h n s st
  | .block _ insts, top, h, n, s, st => by
    simp only [lower, runTree]
    refine ⟨runAll_insts m N insts n s st, ?_⟩
    cases runInsts m insts s <;> simp [ofExcept, Escapes]
  | .ite _ insts c t e _, top, h, n, s, st => by
    simp only [named, List.mem_append] at h
    simp only [lower, runTree, runAll_append, runAll_insts m N]
    cases runInsts m insts s with
    | error e => simp [ofExcept, tc1, tc2, tc3, tc4, tc5, Out.andThen, Compl.andThen, Escapes]
    | ok s' =>
      simp only [ofExcept, tc1, tc2, tc3, tc4, tc5, Out.andThen, Compl.andThen, runAll_one, runJs, Test.holds]
      by_cases hc : m.truthy c s' = true
      · simp only [hc, if_true]
        exact lower_ok m N t top (fun k hk => h k (.inl hk)) n s' st
      · simp only [Bool.not_eq_true] at hc
        simp only [hc, Bool.false_eq_true, if_false]
        exact lower_ok m N e top (fun k hk => h k (.inr hk)) n s' st
  | .loop _ _ body k, top, h, n, s, st => by
    simp only [named] at h
    simp only [lower, runTree, runAll_one, runJs]
    exact whileTrue_eq (fun n s => lower_ok m N body (some k) h n s st) top n s
  | .brk k, top, h, n, s, st => by
    simp only [lower, runTree, runAll_one, runJs, tc1, tc2, tc3, tc4, tc5, Escapes, true_and]
    simp only [named] at h
    by_cases hk : top = some k
    · exact .inr hk
    · exact .inl (h k (by simp [hk]))
  | .cont k, top, h, n, s, st => by
    simp only [lower, runTree, runAll_one, runJs, tc1, tc2, tc3, tc4, tc5, Escapes, true_and]
    simp only [named] at h
    by_cases hk : top = some k
    · exact .inr hk
    · exact .inl (h k (by simp [hk]))
theorem lowerAll_ok (m : Machine ι α σ ε) (N : List Nat) : ∀ (ts : List (Tree ι α)) (top : Option Nat),
    (∀ k ∈ namedAll top ts, k ∈ N) → ∀ (n : Nat) (s : σ) (st : Nat),
    runAll m (lowerAll N ts) n (s, st) = toCompl N st (runTrees m ts n s) ∧
      Escapes N top (runTrees m ts n s)
  | [], top, h, n, s, st => by simp [lowerAll, runAll, runTrees, tc1, tc2, tc3, tc4, tc5, Escapes]
  | t :: ts, top, h, n, s, st => by
    simp only [namedAll, List.mem_append] at h
    obtain ⟨h1, h2⟩ := lower_ok m N t top (fun k hk => h k (.inl hk)) n s st
    simp only [lowerAll, runAll_append, h1, runTrees]
    cases ht : runTree m t n s with
    | normal s' =>
      simp only [tc1, tc2, tc3, tc4, tc5, Compl.andThen, Out.andThen]
      exact lowerAll_ok m N ts top (fun k hk => h k (.inr hk)) n s' st
    | _ => rw [ht] at h2; simpa [tc1, tc2, tc3, tc4, tc5, Compl.andThen, Out.andThen] using h2
end

end Verif.Structure
