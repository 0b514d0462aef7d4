import Verif.Ssa.Place
/-!
# Renaming, one block at a time

The stacks of the program are described by functions from variables to lists of names, and the renaming of a
block by functions without stacks.
-/

namespace Verif.Ssa

open Verif.Il Verif.Graph Verif.Dom Verif.Opt

/-! ## Renaming without stacks -/

/-- `v` gets the name `x`. -/
def upd (σ : Nat → Nat) (v x : Nat) : Nat → Nat := fun u => if u = v then x else σ u

/-- The variables get the names `k`, `k + 1`, … in order. -/
def bump : (Nat → Nat) → Nat → List Nat → (Nat → Nat)
  | σ, _, [] => σ
  | σ, k, v :: vs => bump (upd σ v k) (k + 1) vs

def renArg (σ : Nat → Nat) : Arg → Arg
  | .var v => .var (σ v)
  | a => a

def renInst (σ : Nat → Nat) (k : Nat) (i : Inst) : Inst :=
  { i with args := if i.t ≠ .phi then i.args.map (renArg σ) else i.args, tgts := List.range' k i.tgts.length }

def renAll : (Nat → Nat) → Nat → List Inst → List Inst
  | _, _, [] => []
  | σ, k, i :: is => renInst σ k i :: renAll (bump σ k i.tgts) (k + i.tgts.length) is

theorem bump_append (σ : Nat → Nat) (k : Nat) (us vs : List Nat) :
    bump σ k (us ++ vs) = bump (bump σ k us) (k + us.length) vs := by
  induction us generalizing σ k with
  | nil => rfl
  | cons u us ih =>
    simp only [List.cons_append, bump, ih, List.length_cons]
    congr 1
    omega

theorem dsts_append (is js : List Inst) : dsts (is ++ js) = dsts is ++ dsts js := by
  simp [dsts]

theorem dsts_cons (i : Inst) (is : List Inst) : dsts (i :: is) = i.tgts ++ dsts is := by
  simp [dsts]

theorem renAll_append (σ : Nat → Nat) (k : Nat) (is js : List Inst) :
    renAll σ k (is ++ js) = renAll σ k is ++ renAll (bump σ k (dsts is)) (k + (dsts is).length) js := by
  induction is generalizing σ k with
  | nil => rfl
  | cons i is ih =>
    simp only [List.cons_append, renAll, ih, dsts_cons, bump_append, List.length_append]
    congr 3
    omega

/-! ## Stacks -/

/-- The stacks hold the names `F`, the latest first; below them there may be the variable itself. -/
def Abs (st : Stacks) (F : Nat → List Nat) : Prop := ∀ v, stk st v = F v ∨ stk st v = F v ++ [v]

/-- The current name. -/
def cur (F : Nat → List Nat) : Nat → Nat := fun v => (F v).head?.getD v

theorem stk_setStk {st : Stacks} {v u : Nat} {s : List Nat} :
    stk (setStk st v s) u = if u = v then s else stk st u := by
  by_cases h : u = v
  · subst h
    simp [stk, setStk]
  · have hb : (u == v) = false := by simpa using h
    simp only [stk, setStk, List.lookup_cons, hb, h, if_false, lookup_filter_ne' h]

theorem readTop_spec {st : Stacks} {F : Nat → List Nat} (h : Abs st F) (v : Nat) :
    Abs (readTop st v).1 F ∧ (readTop st v).2 = cur F v := by
  simp only [readTop]
  cases hs : stk st v with
  | nil =>
    have hF : F v = [] := by
      rcases h v with h1 | h1
      · rw [← h1, hs]
      · rw [hs] at h1; simp at h1
    refine ⟨?_, by simp [cur, hF]⟩
    intro u
    simp only [stk_setStk]
    by_cases hu : u = v
    · subst hu; simp [hF]
    · simpa [hu] using h u
  | cons x xs =>
    refine ⟨h, ?_⟩
    rcases h v with h1 | h1
    · simp [cur, ← h1, hs]
    · rw [hs] at h1
      cases hF : F v with
      | nil => rw [hF] at h1; simp at h1; simp [cur, hF, h1.1]
      | cons y ys => rw [hF] at h1; simp at h1; simp [cur, hF, h1.1]

theorem push_spec {st : Stacks} {F : Nat → List Nat} (h : Abs st F) (v x : Nat) :
    Abs (push st v x) (fun u => if u = v then x :: F v else F u) := by
  intro u
  simp only [push, stk_setStk]
  by_cases hu : u = v
  · subst hu
    simp only [if_true, List.cons_append, List.cons.injEq, true_and]
    exact h u
  · simpa [hu] using h u

theorem cur_push (F : Nat → List Nat) (v x : Nat) :
    cur (fun u => if u = v then x :: F v else F u) = upd (cur F) v x := by
  funext u
  by_cases hu : u = v
  · simp [cur, upd, hu]
  · simp [cur, upd, hu]

theorem renameArgs_spec {F : Nat → List Nat} : ∀ (as : List Arg) {st : Stacks}, Abs st F →
    Abs (renameArgs st as).1 F ∧ (renameArgs st as).2 = as.map (renArg (cur F))
  | [], st, h => ⟨h, rfl⟩
  | a :: as, st, h => by
    have h1 : Abs (renameArg st a).1 F ∧ (renameArg st a).2 = renArg (cur F) a := by
      cases a with
      | var v =>
        have := readTop_spec h v
        exact ⟨this.1, by simp [renameArg, renArg, this.2]⟩
      | _ => exact ⟨h, rfl⟩
    have h2 := renameArgs_spec as h1.1
    exact ⟨h2.1, by simp [renameArgs, h1.2, h2.2]⟩

/-- `F'` is `F` with names added for the variables of `ps`, counted with repetitions. -/
def Grow (F F' : Nat → List Nat) (ps : List Nat) : Prop :=
  ∀ v, (F' v).length = ps.count v + (F v).length ∧ (F' v).drop (ps.count v) = F v

theorem Grow.refl (F : Nat → List Nat) : Grow F F [] := fun v => by simp

theorem Grow.trans {F F1 F2 : Nat → List Nat} {p q : List Nat} (h : Grow F F1 p) (h' : Grow F1 F2 q) :
    Grow F F2 (p ++ q) := by
  intro v
  obtain ⟨a1, a2⟩ := h v
  obtain ⟨b1, b2⟩ := h' v
  refine ⟨by simp only [List.count_append]; omega, ?_⟩
  rw [List.count_append, Nat.add_comm, ← List.drop_drop, b2, a2]

theorem renameTgts_spec : ∀ (vs : List Nat) {st : Stacks} {F : Nat → List Nat} (n : Nat), Abs st F →
    ∃ F', Abs (renameTgts st n vs).1 F' ∧ cur F' = bump (cur F) n vs ∧ Grow F F' vs ∧
      (renameTgts st n vs).2 = (n + vs.length, vs, List.range' n vs.length)
  | [], st, F, n, h => ⟨F, h, rfl, .refl F, rfl⟩
  | v :: vs, st, F, n, h => by
    obtain ⟨F', h1, h2, h3, h4⟩ := renameTgts_spec vs (n + 1) (push_spec h v n)
    refine ⟨F', h1, by rw [h2, cur_push, bump], ?_, ?_⟩
    · have h0 : Grow F (fun u => if u = v then n :: F v else F u) [v] := by
        intro u
        by_cases hu : u = v
        · subst hu; simp; omega
        · have : ¬ v = u := fun h => hu h.symm
          simp [hu, List.count_cons, this]
      exact h0.trans h3
    · simp only [renameTgts, h4, List.length_cons, List.range'_succ]
      congr 1
      omega

theorem renameInst_spec {st : Stacks} {F : Nat → List Nat} (n : Nat) (i : Inst) (h : Abs st F) :
    ∃ F', Abs (renameInst st n i).1 F' ∧ cur F' = bump (cur F) n i.tgts ∧ Grow F F' i.tgts ∧
      (renameInst st n i).2 = (n + i.tgts.length, i.tgts, renInst (cur F) n i) := by
  by_cases hp : i.t = .phi
  · obtain ⟨F', h1, h2, h3, h4⟩ := renameTgts_spec i.tgts n h
    refine ⟨F', by simpa [renameInst, hp] using h1, h2, h3, ?_⟩
    simp [renameInst, hp, h4, renInst]
  · have ha := renameArgs_spec i.args h
    obtain ⟨F', h1, h2, h3, h4⟩ := renameTgts_spec i.tgts n ha.1
    refine ⟨F', by simpa [renameInst, hp] using h1, h2, h3, ?_⟩
    simp [renameInst, hp, h4, renInst, ha.2]

theorem renameInsts_spec : ∀ (is : List Inst) {st : Stacks} {F : Nat → List Nat} (n : Nat), Abs st F →
    ∃ F', Abs (renameInsts st n is).1 F' ∧ cur F' = bump (cur F) n (dsts is) ∧ Grow F F' (dsts is) ∧
      (renameInsts st n is).2 = (n + (dsts is).length, dsts is, renAll (cur F) n is)
  | [], st, F, n, h => ⟨F, h, rfl, .refl F, rfl⟩
  | i :: is, st, F, n, h => by
    obtain ⟨F1, a1, a2, a3, a4⟩ := renameInst_spec n i h
    obtain ⟨F2, b1, b2, b3, b4⟩ := renameInsts_spec is (n + i.tgts.length) a1
    refine ⟨F2, ?_, ?_, ?_, ?_⟩
    · simpa [renameInsts, a4] using b1
    · rw [b2, a2, dsts_cons, bump_append]
    · rw [dsts_cons]; exact a3.trans b3
    · simp only [renameInsts, a4, b4, dsts_cons, renAll, List.length_append, a2]
      congr 1
      omega

theorem popAll_spec : ∀ (ps : List Nat) {st : Stacks} {F : Nat → List Nat}, Abs st F →
    (∀ v, ps.count v ≤ (F v).length) →
    ∃ st', popAll st ps = some st' ∧ Abs st' (fun v => (F v).drop (ps.count v))
  | [], st, F, h, _ => ⟨st, rfl, by simpa using h⟩
  | p :: ps, st, F, h, hc => by
    have hp : 0 < (F p).length := by
      have := hc p
      simp at this
      omega
    obtain ⟨x, xs, hF⟩ : ∃ x xs, F p = x :: xs := by
      cases hF : F p with
      | nil => simp [hF] at hp
      | cons x xs => exact ⟨x, xs, rfl⟩
    obtain ⟨s, hs, hs'⟩ : ∃ s, stk st p = x :: s ∧ (s = xs ∨ s = xs ++ [p]) := by
      rcases h p with h1 | h1
      · exact ⟨xs, by rw [h1, hF], .inl rfl⟩
      · exact ⟨xs ++ [p], by rw [h1, hF]; rfl, .inr rfl⟩
    have h' : Abs (setStk st p s) (fun u => if u = p then xs else F u) := by
      intro u
      simp only [stk_setStk]
      by_cases hu : u = p
      · subst hu; simpa using hs'
      · simpa [hu] using h u
    obtain ⟨st', e, h2⟩ := popAll_spec ps h' (by
      intro v
      have := hc v
      by_cases hv : v = p
      · subst hv
        simp [hF] at this ⊢
        omega
      · have hne : ¬ p = v := fun h => hv h.symm
        simpa [hv, List.count_cons, hne] using this)
    refine ⟨st', by simp [popAll, hs, e], ?_⟩
    intro v
    have := h2 v
    by_cases hv : v = p
    · subst hv
      simpa [hF] using this
    · have hne : ¬ p = v := fun h => hv h.symm
      simpa [hv, List.count_cons, hne] using this

/-- The names added for a block are taken off again. -/
theorem popAll_grow {st : Stacks} {F F' : Nat → List Nat} {ps : List Nat} (h : Abs st F') (g : Grow F F' ps) :
    ∃ st', popAll st ps = some st' ∧ Abs st' F := by
  obtain ⟨st', e, h'⟩ := popAll_spec ps h (fun v => by have := (g v).1; omega)
  refine ⟨st', e, ?_⟩
  intro v
  have := h' v
  simpa only [(g v).2] using this

/-! ## Phis -/

/-- Phis with the targets `ts` for the variables `vs`, with the entries `E v`. -/
def phiList (ts vs : List Nat) (E : Nat → List (Nat × Arg)) : List Inst :=
  List.zipWith (fun t v => Inst.phi t (E v)) ts vs

theorem phiList_empty (vs : List Nat) : phiList vs vs (fun _ => []) = vs.map (fun v => Inst.phi v []) := by
  induction vs with
  | nil => rfl
  | cons v vs ih =>
    simp only [phiList] at ih
    simp [phiList, ih]

theorem dsts_phiList : ∀ {ts vs : List Nat} {E : Nat → List (Nat × Arg)}, ts.length = vs.length →
    dsts (phiList ts vs E) = ts
  | [], [], _, _ => rfl
  | t :: ts, v :: vs, E, h => by
    have := dsts_phiList (ts := ts) (vs := vs) (E := E) (by simpa using h)
    simp only [phiList] at this
    simp only [phiList, List.zipWith_cons_cons, dsts_cons, this]
    rfl
  | [], v :: vs, E, h => by simp at h
  | t :: ts, [], E, h => by simp at h

theorem renAll_phiList : ∀ {ts vs : List Nat} {E : Nat → List (Nat × Arg)} {σ : Nat → Nat} {k : Nat},
    ts.length = vs.length → renAll σ k (phiList ts vs E) = phiList (List.range' k vs.length) vs E
  | [], [], _, _, _, _ => rfl
  | t :: ts, v :: vs, E, σ, k, h => by
    have := renAll_phiList (ts := ts) (vs := vs) (E := E) (σ := bump σ k [t]) (k := k + 1) (by simpa using h)
    simp only [phiList] at this
    simp only [phiList, List.zipWith_cons_cons, renAll, List.length_cons, List.range'_succ]
    rw [show (Inst.phi t (E v)).tgts = [t] from rfl]
    simp only [List.length_singleton, this]
    simp [renInst, Inst.phi]
  | [], v :: vs, E, _, _, h => by simp at h
  | t :: ts, [], E, _, _, h => by simp at h

theorem fillPhis_spec {F : Nat → List Nat} {l : Nat} {E : Nat → List (Nat × Arg)} {rest : List Inst}
    (hr : ∀ i ∈ rest, i.t ≠ .phi) : ∀ {ts vs : List Nat} {st : Stacks}, Abs st F →
    ts.length = vs.length → (∀ v, l ∉ (E v).map (·.1)) →
    ∃ st', fillPhis l st vs (phiList ts vs E ++ rest) =
      some (st', phiList ts vs (fun v => E v ++ [(l, .var (cur F v))]) ++ rest) ∧ Abs st' F
  | [], [], st, h, _, _ => by
    refine ⟨st, ?_, h⟩
    cases rest with
    | nil => rfl
    | cons i is => simp [phiList, fillPhis, hr i (by simp)]
  | t :: ts, v :: vs, st, h, hl, hE => by
    obtain ⟨a1, a2⟩ := readTop_spec h v
    obtain ⟨st', e, h'⟩ := fillPhis_spec hr (ts := ts) (vs := vs) a1 (by simpa using hl) hE
    refine ⟨st', ?_, h'⟩
    have hi : insertPhi (Inst.phi t (E v)) l (.var (cur F v)) =
        some (Inst.phi t (E v ++ [(l, .var (cur F v))])) := by
      have := hE v
      simp only [List.mem_map, Prod.exists, exists_and_right, exists_eq_right, not_exists] at this
      simp [insertPhi, Inst.phi, this]
    simp only [phiList] at e
    simp only [phiList, List.zipWith_cons_cons, List.cons_append, fillPhis]
    rw [show (Inst.phi t (E v)).t = .phi from rfl]
    simp [a2, hi, e]
  | [], v :: vs, st, _, h, _ => by simp at h
  | t :: ts, [], st, _, h, _ => by simp at h

/-! ## The blocks during the renaming -/

/-- The program during the renaming: the phis of block `x` have the targets `ts x`, stand for the variables
`vs x` and have the entries `E x`; behind them there is `B x`. -/
structure Mid (c0 c : Cfg) (vs ts : Nat → List Nat) (E : Nat → Nat → List (Nat × Arg)) (B : Nat → List Inst) :
    Prop where
  graph : c.graph = c0.graph
  entry : c.entry = c0.entry
  keys : c.bblocks.map (·.1) = c0.bblocks.map (·.1)
  len : ∀ x, (ts x).length = (vs x).length
  block : ∀ x, Cfg.block c x = (Cfg.block c0 x).map (fun _ => phiList (ts x) (vs x) (E x) ++ B x)

theorem fillChildren_spec {c0 : Cfg} {F : Nat → List Nat} {l : Nat} {origs : List (Nat × List Nat)}
    {vs ts : Nat → List Nat} {B : Nat → List Inst} (hB : ∀ x, ∀ i ∈ B x, i.t ≠ .phi) :
    ∀ (ns : List Nat) {st : Stacks} {c : Cfg} {E : Nat → Nat → List (Nat × Arg)}, Abs st F →
    Mid c0 c vs ts E B → ns.Nodup →
    (∀ x ∈ ns, (Cfg.block c0 x).isSome ∧ (origs.lookup x).getD [] = vs x ∧ ∀ v, l ∉ (E x v).map (·.1)) →
    ∃ st' c', fillChildren origs l ns (st, c) = some (st', c') ∧ Abs st' F ∧
      Mid c0 c' vs ts (fun x v => if x ∈ ns then E x v ++ [(l, .var (cur F v))] else E x v) B
  | [], st, c, E, h, hm, _, _ => ⟨st, c, rfl, h, by simpa using hm⟩
  | n :: ns, st, c, E, h, hm, hn, hx => by
    obtain ⟨b1, b2, b3⟩ := hx n (by simp)
    obtain ⟨is0, b1⟩ := Option.isSome_iff_exists.1 b1
    have hb : Cfg.block c n = some (phiList (ts n) (vs n) (E n) ++ B n) := by rw [hm.block, b1]; rfl
    obtain ⟨st1, e1, h1⟩ := fillPhis_spec (hB n) h (hm.len n) b3
    obtain ⟨hn1, hn2⟩ := List.nodup_cons.1 hn
    have hm1 : Mid c0 (setBlock c n (phiList (ts n) (vs n) (fun v => E n v ++ [(l, .var (cur F v))]) ++ B n)) vs ts
        (fun x v => if x = n then E x v ++ [(l, .var (cur F v))] else E x v) B := by
      refine ⟨hm.graph, hm.entry, by rw [keys_setBlock, hm.keys], hm.len, ?_⟩
      intro x
      rw [block_setBlock]
      by_cases hxn : x = n
      · subst hxn; simp [hb, b1]
      · simp [hxn, hm.block]
    obtain ⟨st', c', e2, h2, hm2⟩ := fillChildren_spec hB ns h1 hm1 hn2 (by
      intro x hx'
      obtain ⟨p1, p2, p3⟩ := hx x (by simp [hx'])
      have hne : x ≠ n := fun he => hn1 (he ▸ hx')
      exact ⟨p1, p2, by simpa [hne] using p3⟩)
    refine ⟨st', c', ?_, h2, ?_⟩
    · simp [fillChildren, hb, b2, e1, e2]
    · have : (fun x v => if x ∈ n :: ns then E x v ++ [(l, Arg.var (cur F v))] else E x v) =
          (fun x v => if x ∈ ns then (if x = n then E x v ++ [(l, Arg.var (cur F v))] else E x v) ++
            [(l, Arg.var (cur F v))] else (if x = n then E x v ++ [(l, Arg.var (cur F v))] else E x v)) := by
        funext x v
        by_cases h1 : x = n
        · subst h1; simp [hn1]
        · simp [h1]
      rw [this]
      exact hm2

end Verif.Ssa
