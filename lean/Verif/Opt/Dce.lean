import Verif.Opt.Model
import Verif.Opt.Ssa
/-!
# Removing unused results
-/

namespace Verif.Opt

open Verif.Il Verif.Graph

variable {V W : Type}

theorem lookup_map_snd {α : Type} (f : α → α) (m : List (Nat × α)) (l : Nat) :
    (m.map (fun e => (e.1, f e.2))).lookup l = (m.lookup l).map f := by
  induction m with
  | nil => rfl
  | cons e m ih =>
    obtain ⟨k, v⟩ := e
    simp only [List.map_cons, List.lookup_cons]
    cases l == k <;> simp_all

theorem blockOf_map (c : Cfg) (f : List Inst → List Inst) (hf : f [] = []) (l : Nat) :
    blockOf (mapBlocks c f) l = f (blockOf c l) := by
  simp only [blockOf, Cfg.block, mapBlocks, lookup_map_snd]
  cases c.bblocks.lookup l with
  | none => simp [hf]
  | some is => simp

theorem mem_of_lookup_eq {α : Type} {m : List (Nat × α)} {l : Nat} {v : α} (h : m.lookup l = some v) :
    (l, v) ∈ m := by
  induction m with
  | nil => cases h
  | cons e m ih =>
    obtain ⟨k, v'⟩ := e
    rw [List.lookup_cons] at h
    by_cases hk : l = k
    · subst hk
      simp at h
      subst h
      exact List.mem_cons_self
    · rw [show (l == k) = false by simpa using hk] at h
      exact List.mem_cons_of_mem _ (ih h)

theorem mem_blockOf {c : Cfg} {l : Nat} {i : Inst} (h : i ∈ blockOf c l) :
    ∃ is, (l, is) ∈ c.bblocks ∧ i ∈ is := by
  simp only [blockOf, Cfg.block] at h
  cases e : c.bblocks.lookup l with
  | none => rw [e] at h; cases h
  | some is =>
    rw [e] at h
    exact ⟨is, mem_of_lookup_eq e, h⟩

theorem used_of_mem {c : Cfg} {l : Nat} {i : Inst} (h : i ∈ blockOf c l) {x : Nat}
    (hx : Arg.var x ∈ i.args) : x ∈ usedVars c := by
  obtain ⟨is, h1, h2⟩ := mem_blockOf h
  simp only [usedVars, List.mem_flatMap]
  refine ⟨_, h1, i, h2, ?_⟩
  simp only [Inst.argVars, List.mem_filterMap]
  exact ⟨_, hx, rfl⟩

theorem exec_agree (I : Interp V W) (i : Inst) {e e' : Nat → V} (w : W)
    (h : ∀ x, Arg.var x ∈ i.args → e x = e' x) :
    (exec I i (e, w)).2 = (exec I i (e', w)).2 ∧
    ∀ x, e x = e' x → (exec I i (e, w)).1 x = (exec I i (e', w)).1 x := by
  have hm : i.args.map (valOf I e) = i.args.map (valOf I e') :=
    List.map_congr_left (fun a ha => valOf_congr I (fun x hx => h x (hx ▸ ha)))
  cases ht : i.t
  case varAssign =>
    cases ha : i.args with
    | nil => simp [exec, ht, ha]
    | cons a as =>
      have : valOf I e a = valOf I e' a :=
        valOf_congr I (fun x hx => h x (by rw [ha, ← hx]; exact List.mem_cons_self))
      simp only [exec, ht, ha, setAll, this, true_and]
      intro x hx
      split
      · rfl
      · exact hx
  all_goals
    simp [exec, ht, setAll, hm]
  all_goals
    intro x hx
    split
    · rfl
    · exact hx

/-- The two stores agree on the variables in `U`. -/
def AgreeOn (U : Nat → Prop) (e e' : Nat → V) : Prop := ∀ x, U x → e x = e' x

theorem exec_agreeOn (I : Interp V W) {U : Nat → Prop} (i : Inst) {e e' : Nat → V} (w : W)
    (h : AgreeOn U e e') (hi : ∀ x, Arg.var x ∈ i.args → U x) :
    (exec I i (e, w)).2 = (exec I i (e', w)).2 ∧ AgreeOn U (exec I i (e, w)).1 (exec I i (e', w)).1 := by
  obtain ⟨h1, h2⟩ := exec_agree I i w (fun x hx => h x (hi x hx))
  exact ⟨h1, fun x hx => h2 x (h x hx)⟩

/-- An instruction that computes without effects leaves the world alone. -/
theorem exec_silent {I : Interp V W} (hs : ReadsAreSilent I) {i : Inst} (sh : Shape i) (ht : i.tgts ≠ [])
    (hc : i.t ≠ .call) (s : (Nat → V) × W) : (exec I i s).2 = s.2 := by
  cases h : i.t
  case varAssign => simp only [exec, h]; cases i.args <;> rfl
  case bin => simpa [exec, h, opcode] using hs.bin _ _ _
  case un => simpa [exec, h, opcode] using hs.un _ _ _
  case foreignLoad => simpa [exec, h, opcode] using hs.foreignLoad _ _ _
  case unknownLoad => simpa [exec, h, opcode] using hs.unknownLoad _ _ _
  case call => exact absurd h hc
  case propAssign => simp [Shape, h] at sh; exact absurd sh.1 ht
  case foreignStore => simp [Shape, h] at sh; exact absurd sh.1 ht
  case unknownStore => simp [Shape, h] at sh; exact absurd sh.1 ht
  all_goals simp [exec, h]

theorem dceInst_cases (used : List Nat) (i : Inst) :
    dceInst used i = some i ∨
    (i.t = .call ∧ (∀ v ∈ i.tgts, v ∉ used) ∧ dceInst used i = some { i with tgts := [] }) ∨
    (i.t ≠ .call ∧ i.tgts ≠ [] ∧ (∀ v ∈ i.tgts, v ∉ used) ∧ dceInst used i = none) := by
  unfold dceInst
  split
  · rename_i h
    simp at h
    split
    · rename_i hc
      exact Or.inr (Or.inl ⟨hc, h.2, rfl⟩)
    · rename_i hc
      exact Or.inr (Or.inr ⟨hc, h.1, h.2, rfl⟩)
  · exact Or.inl rfl

theorem dce_exec {I : Interp V W} (hs : ReadsAreSilent I) (used : List Nat) :
    ∀ (is : List Inst) (e e' : Nat → V) (w : W), (∀ i ∈ is, Shape i) →
      (∀ i ∈ is, ∀ x, Arg.var x ∈ i.args → x ∈ used) → AgreeOn (· ∈ used) e e' →
      (execAll I is (e, w)).2 = (execAll I (dceBlock used is) (e', w)).2 ∧
      AgreeOn (· ∈ used) (execAll I is (e, w)).1 (execAll I (dceBlock used is) (e', w)).1 := by
  intro is
  induction is with
  | nil => exact fun e e' w _ _ h => ⟨rfl, h⟩
  | cons i is ih =>
    intro e e' w sh ha h
    have sh' := fun j hj => sh j (List.mem_cons_of_mem _ hj)
    have ha' := fun j hj => ha j (List.mem_cons_of_mem _ hj)
    have hi := ha i List.mem_cons_self
    have next : ∀ s s' : (Nat → V) × W, s.2 = s'.2 → AgreeOn (· ∈ used) s.1 s'.1 →
        (execAll I is s).2 = (execAll I (dceBlock used is) s').2 ∧
        AgreeOn (· ∈ used) (execAll I is s).1 (execAll I (dceBlock used is) s').1 := by
      rintro ⟨a, b⟩ ⟨a', b'⟩ e1 e2
      simp only at e1 e2
      subst e1
      exact ih a a' b sh' ha' e2
    rcases dceInst_cases used i with h1 | ⟨hc, hu, h1⟩ | ⟨hc, hn, hu, h1⟩
    · have : dceBlock used (i :: is) = i :: dceBlock used is := by simp [dceBlock, h1]
      rw [this]
      obtain ⟨h2, h3⟩ := exec_agreeOn I i w h hi
      exact next (exec I i (e, w)) (exec I i (e', w)) h2 h3
    · have : dceBlock used (i :: is) = { i with tgts := [] } :: dceBlock used is := by simp [dceBlock, h1]
      rw [this]
      have hm : i.args.map (valOf I e) = i.args.map (valOf I e') :=
        List.map_congr_left (fun a ha => valOf_congr I (fun x hx => h x (hi x (hx ▸ ha))))
      refine next (exec I i (e, w)) (exec I { i with tgts := [] } (e', w)) ?_ ?_
      · simp [exec, hc, opcode, hm]
      · intro x hx
        rw [exec_other I i (e, w) (fun ht => hu x ht hx), exec_other I _ (e', w) (by simp)]
        exact h x hx
    · have : dceBlock used (i :: is) = dceBlock used is := by simp [dceBlock, h1]
      rw [this]
      refine next (exec I i (e, w)) (e', w) (exec_silent hs (sh i List.mem_cons_self) hn hc (e, w)) ?_
      intro x hx
      rw [exec_other I i (e, w) (fun ht => hu x ht hx)]
      exact h x hx

theorem dce_enter (I : Interp V W) (used : List Nat) (p : Nat) {src src' : Nat → V}
    (hsrc : AgreeOn (· ∈ used) src src') :
    ∀ (is : List Inst) (e e' : Nat → V), (∀ i ∈ is, ∀ x, Arg.var x ∈ i.args → x ∈ used) →
      AgreeOn (· ∈ used) e e' →
      AgreeOn (· ∈ used) (enter I src p is e) (enter I src' p (dceBlock used is) e') := by
  intro is
  induction is with
  | nil => exact fun e e' _ h => h
  | cons i is ih =>
    intro e e' ha h
    have ha' := fun j hj => ha j (List.mem_cons_of_mem _ hj)
    have hi := ha i List.mem_cons_self
    rw [enter]
    rcases dceInst_cases used i with h1 | ⟨hc, hu, h1⟩ | ⟨hc, hn, hu, h1⟩
    · have : dceBlock used (i :: is) = i :: dceBlock used is := by simp [dceBlock, h1]
      rw [this, enter]
      refine ih _ _ ha' ?_
      split
      · cases hl : (i.labels.zip i.args).lookup p with
        | none => exact h
        | some a =>
          intro x hx
          have hmem : a ∈ i.args := (List.of_mem_zip (mem_of_lookup_eq hl)).2
          have : valOf I src a = valOf I src' a :=
            valOf_congr I (fun y hy => hsrc y (hi y (hy ▸ hmem)))
          simp only [setAll, this]
          split
          · rfl
          · exact h x hx
      · exact h
    · have : dceBlock used (i :: is) = { i with tgts := [] } :: dceBlock used is := by simp [dceBlock, h1]
      rw [this, enter]
      refine ih _ _ ha' ?_
      simpa [hc] using h
    · have : dceBlock used (i :: is) = dceBlock used is := by simp [dceBlock, h1]
      rw [this]
      refine ih _ _ ha' ?_
      split
      · cases hl : (i.labels.zip i.args).lookup p with
        | none => exact h
        | some a =>
          intro x hx
          rw [← h x hx]
          exact setAll_of_not_mem (fun ht => hu x ht hx)
      · exact h

/-- The last instruction of a filtered block, if it is a branch. -/
theorem next_eq {I : Interp V W} {c c' : Cfg} {l : Nat} {is is' : List Inst} {e e' : Nat → V}
    (hg : c'.graph = c.graph)
    (h : (∃ i i', is.getLast? = some i ∧ is'.getLast? = some i' ∧ i.t = .condGoto ∧ i'.t = .condGoto ∧
        i.labels = i'.labels ∧ i.args.map (valOf I e) = i'.args.map (valOf I e')) ∨
      ((∀ i, is.getLast? = some i → i.t ≠ .condGoto) ∧ ∀ i, is'.getLast? = some i → i.t ≠ .condGoto)) :
    next I c' l is' e' = next I c l is e := by
  unfold next
  rw [hg]
  rcases h with ⟨i, i', h1, h2, h3, h4, h5, h6⟩ | ⟨h1, h2⟩
  · rw [h1, h2]
    simp only [h3, h4, if_true, h5]
    cases ha : i.args with
    | nil =>
      rw [ha] at h6
      simp at h6
      rw [h6]
    | cons a as =>
      rw [ha] at h6
      cases ha' : i'.args with
      | nil => rw [ha'] at h6; simp at h6
      | cons a' as' =>
        rw [ha'] at h6
        simp at h6
        cases i'.labels with
        | nil => rfl
        | cons t ts =>
          cases ts with
          | nil => rfl
          | cons f fs => simp only [h6.1]
  · cases e1 : is.getLast? with
    | none =>
      cases e2 : is'.getLast? with
      | none => rfl
      | some i' => simp [h2 i' e2]
    | some i =>
      cases e2 : is'.getLast? with
      | none => simp [h1 i e1]
      | some i' => simp [h2 i' e2, h1 i e1]

theorem getLast?_of_append {α : Type} {xs : List α} {x y : α} (h : (xs ++ [x]).getLast? = some y) : y = x := by
  simp at h
  exact h.symm

/-- Only the last instruction can be a branch. -/
theorem branch_last {c : Cfg} (wf : WellFormed c) {l : Nat} {pre : List Inst} {z : Inst}
    (h : blockOf c l = pre ++ [z]) : ∀ i ∈ pre, i.t ≠ .condGoto := by
  intro i hi ht
  obtain ⟨k, hk⟩ := List.getElem?_of_mem hi
  have hlt : k < pre.length := by
    obtain ⟨h, _⟩ := List.getElem?_eq_some_iff.1 hk
    exact h
  have : instAt c l k = some i := by
    rw [instAt, h, List.getElem?_append_left hlt, hk]
  have := wf.branchLast l k i this ht
  rw [h] at this
  simp at this
  omega

/-- The branch at the end of a block whose instructions are filtered and rewritten one by one: it is the same
if the branch is kept and nothing else becomes a branch. -/
theorem next_filterMap {I : Interp V W} {c c' : Cfg} (wf : WellFormed c) {l : Nat} (f : Inst → Option Inst)
    {e e' : Nat → V} (hg : c'.graph = c.graph)
    (hk : ∀ i ∈ blockOf c l, i.t = .condGoto → ∃ i', f i = some i' ∧ i'.t = .condGoto ∧
      i.labels = i'.labels ∧ i.args.map (valOf I e) = i'.args.map (valOf I e'))
    (hn : ∀ i ∈ blockOf c l, i.t ≠ .condGoto → ∀ i', f i = some i' → i'.t ≠ .condGoto) :
    next I c' l ((blockOf c l).filterMap f) e' = next I c l (blockOf c l) e := by
  refine next_eq hg ?_
  rcases List.eq_nil_or_concat (blockOf c l) with h | ⟨pre, z, h⟩
  · right
    rw [h]
    exact ⟨by simp, by simp⟩
  · have hb := branch_last wf (by simpa using h)
    rw [List.concat_eq_append] at h
    rw [h] at hk hn ⊢
    by_cases hz : z.t = .condGoto
    · left
      obtain ⟨z', h1, h2, h3, h4⟩ := hk z (by simp) hz
      refine ⟨z, z', by simp, ?_, hz, h2, h3, h4⟩
      simp [List.filterMap_append, h1]
    · right
      constructor
      · intro i hi
        rw [getLast?_of_append hi]
        exact hz
      · intro i hi
        have := List.mem_of_getLast? hi
        rw [List.mem_filterMap] at this
        obtain ⟨j, hj, hfj⟩ := this
        refine hn j hj ?_ i hfj
        rcases List.mem_append.1 hj with hj | hj
        · exact hb j hj
        · rw [List.mem_singleton.1 hj]
          exact hz

theorem dce_next {I : Interp V W} {c : Cfg} (wf : WellFormed c) {l : Nat} {e e' : Nat → V}
    (h : AgreeOn (· ∈ usedVars c) e e') :
    next I (trivialDce c) l (dceBlock (usedVars c) (blockOf c l)) e' = next I c l (blockOf c l) e := by
  refine next_filterMap wf _ rfl ?_ ?_
  · intro i hi ht
    obtain ⟨k, hk⟩ := List.getElem?_of_mem hi
    have sh := wf.shape l k i hk
    simp only [Shape, ht] at sh
    refine ⟨i, ?_, ht, rfl, ?_⟩
    · rcases dceInst_cases (usedVars c) i with h1 | ⟨hc, _, _⟩ | ⟨_, hn, _, _⟩
      · exact h1
      · rw [ht] at hc; cases hc
      · exact absurd sh.1 hn
    · exact List.map_congr_left (fun a ha => valOf_congr I (fun x hx => h x (used_of_mem hi (hx ▸ ha))))
  · intro i hi ht i' hf
    rcases dceInst_cases (usedVars c) i with h1 | ⟨hc, _, h1⟩ | ⟨_, _, _, h1⟩
    · rw [h1] at hf
      exact Option.some.inj hf ▸ ht
    · rw [h1] at hf
      have := Option.some.inj hf
      rw [← this]
      simpa using ht
    · rw [h1] at hf; cases hf

theorem shape_of_mem {c : Cfg} (wf : WellFormed c) {l : Nat} {i : Inst} (h : i ∈ blockOf c l) : Shape i := by
  obtain ⟨k, hk⟩ := List.getElem?_of_mem h
  exact wf.shape l k i hk

theorem dce_run {I : Interp V W} {c : Cfg} (wf : WellFormed c) (hs : ReadsAreSilent I) (e e' : Nat → V)
    (w : W) (he : AgreeOn (· ∈ usedVars c) e e') :
    ∀ n, (run I (trivialDce c) e' w n).at_ = (run I c e w n).at_ ∧
      (run I (trivialDce c) e' w n).world = (run I c e w n).world ∧
      AgreeOn (· ∈ usedVars c) (run I c e w n).env (run I (trivialDce c) e' w n).env := by
  have hb : ∀ l, blockOf (trivialDce c) l = dceBlock (usedVars c) (blockOf c l) :=
    fun l => blockOf_map c _ rfl l
  intro n
  induction n with
  | zero => exact ⟨rfl, rfl, he⟩
  | succ n ih =>
    obtain ⟨h1, h2, h3⟩ := ih
    rw [run, run]
    generalize run I c e w n = x at h1 h2 h3 ⊢
    generalize run I (trivialDce c) e' w n = x' at h1 h2 h3 ⊢
    obtain ⟨a, e1, w1⟩ := x
    obtain ⟨a', e1', w1'⟩ := x'
    simp only at h1 h2 h3
    subst h1 h2
    cases a' with
    | none => exact ⟨rfl, rfl, h3⟩
    | some l =>
      obtain ⟨h4, h5⟩ := dce_exec hs (usedVars c) (blockOf c l) e1 e1' w1'
        (fun i hi => shape_of_mem wf hi) (fun i hi x hx => used_of_mem hi hx) h3
      have hn := dce_next (I := I) wf (l := l) h5
      simp only [step, hb, hn]
      cases hx : next I c l (blockOf c l) (execAll I (blockOf c l) (e1, w1')).1 with
      | none => exact ⟨rfl, h4.symm, h5⟩
      | some s =>
        refine ⟨rfl, h4.symm, ?_⟩
        exact dce_enter I (usedVars c) l h5 (blockOf c s) _ _ (fun i hi x hx => used_of_mem hi hx) h5

end Verif.Opt
