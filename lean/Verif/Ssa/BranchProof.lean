import Verif.Ssa.Branches
import Verif.Ssa.Simplify
/-!
# Removing branches on constants keeps the meaning
-/

namespace Verif.Ssa

open Verif.Il Verif.Graph Verif.Dom Verif.Opt

/-! ## Programs with fewer edges and branches -/

/-- Some edges, blocks and branches at the end of blocks are gone. -/
structure Pruned (c c' : Cfg) : Prop where
  entry : c'.entry = c.entry
  edge : ∀ a b, c'.graph.Edge a b → c.graph.Edge a b
  block : ∀ l is', Cfg.block c' l = some is' → ∃ is tl, Cfg.block c l = some is ∧ is = is' ++ tl ∧
    ∀ i ∈ tl, i.t = .condGoto

theorem Pruned.refl (c : Cfg) : Pruned c c :=
  ⟨rfl, fun _ _ h => h, fun _ is' h => ⟨is', [], h, by simp, by simp⟩⟩

theorem Pruned.trans {a b c : Cfg} (h : Pruned a b) (h' : Pruned b c) : Pruned a c := by
  refine ⟨h'.entry.trans h.entry, fun x y e => h.edge x y (h'.edge x y e), ?_⟩
  intro l is' hb
  obtain ⟨is, tl, e1, e2, e3⟩ := h'.block l is' hb
  obtain ⟨is0, tl0, f1, f2, f3⟩ := h.block l is e1
  refine ⟨is0, tl ++ tl0, f1, by rw [f2, e2, List.append_assoc], ?_⟩
  intro i hi
  rcases List.mem_append.1 hi with hi | hi
  · exact e3 i hi
  · exact f3 i hi

section
variable {c c' : Cfg}

theorem pruned_instAt (p : Pruned c c') {l k : Nat} {i : Inst} (e : instAt c' l k = some i) :
    instAt c l k = some i := by
  cases hb : Cfg.block c' l with
  | none => simp [instAt, blockOf, hb] at e
  | some is' =>
    obtain ⟨is, tl, e1, e2, -⟩ := p.block l is' hb
    rw [instAt_of_block hb] at e
    rw [instAt_of_block e1, e2]
    obtain ⟨h, -⟩ := List.getElem?_eq_some_iff.1 e
    rw [List.getElem?_append_left h, e]

theorem trail_block {c : Cfg} (h1 : (Cfg.block c c.entry).isSome)
    (h2 : ∀ a b, c.graph.Edge a b → (Cfg.block c b).isSome) {ms : List Site} {l k : Nat} (h : Trail c ms l k) :
    (Cfg.block c l).isSome := by
  induction h with
  | start => exact h1
  | inst _ _ ih => exact ih
  | jump _ he _ => exact h2 _ _ he

theorem trail_extend {c : Cfg} {l : Nat} : ∀ {n : Nat} {ms : List Site} {k : Nat}, Trail c ms l k →
    k + n = (blockOf c l).length →
    ∃ ms', Trail c (ms' ++ ms) l (blockOf c l).length ∧ ∀ d ∈ ms', ∃ b, d = .inst l b ∧ k ≤ b
  | 0, ms, k, h, e => ⟨[], by rw [← e]; exact h, by simp⟩
  | n + 1, ms, k, h, e => by
    obtain ⟨ms', h1, h2⟩ := trail_extend (n := n) (.inst h (by omega)) (by omega)
    refine ⟨ms' ++ [.inst l k], by simpa using h1, ?_⟩
    intro d hd
    rcases List.mem_append.1 hd with hd | hd
    · obtain ⟨b, e, hb⟩ := h2 d hd
      exact ⟨b, e, by omega⟩
    · exact ⟨k, by simpa using hd, Nat.le_refl _⟩

/-- The site is a branch. -/
def IsBranch (c : Cfg) (d : Site) : Prop :=
  ∃ l k i, d = .inst l k ∧ instAt c l k = some i ∧ i.t = .condGoto

theorem pruned_end (p : Pruned c c') {ms : List Site} {l : Nat}
    (hb : (Cfg.block c' l).isSome) (h : Trail c ms l (blockOf c' l).length) :
    ∃ ms', Trail c (ms' ++ ms) l (blockOf c l).length ∧ ∀ d ∈ ms', IsBranch c d := by
  obtain ⟨is', hb⟩ := Option.isSome_iff_exists.1 hb
  obtain ⟨is, tl, e1, e2, e3⟩ := p.block l is' hb
  have hl' : (blockOf c' l).length = is'.length := by simp [blockOf, hb]
  have hl : (blockOf c l).length = is'.length + tl.length := by simp [blockOf, e1, e2]
  rw [hl'] at h
  obtain ⟨ms', h1, h2⟩ := trail_extend (n := tl.length) h hl.symm
  refine ⟨ms', h1, ?_⟩
  intro d hd
  obtain ⟨b, rfl, hbk⟩ := h2 d hd
  have hblt : b < (blockOf c l).length := by
    obtain ⟨as, bs, rfl⟩ := List.append_of_mem hd
    rw [List.append_assoc] at h1
    obtain ⟨x, y, h3⟩ := trail_suffix h1
    cases h3
    assumption
  rw [hl] at hblt
  obtain ⟨j, rfl⟩ := Nat.exists_eq_add_of_le hbk
  have hj : j < tl.length := by omega
  refine ⟨l, is'.length + j, tl[j], rfl, ?_, e3 _ (List.getElem_mem hj)⟩
  rw [instAt_of_block e1, e2, List.getElem?_append_right (by omega)]
  simp [hj]

theorem pruned_trail (p : Pruned c c') (h1 : (Cfg.block c' c'.entry).isSome)
    (h2 : ∀ a b, c'.graph.Edge a b → (Cfg.block c' b).isSome) {ms : List Site} {l k : Nat} (h : Trail c' ms l k) :
    ∃ ms', Trail c ms' l k ∧ ∀ d ∈ ms', d ∈ ms ∨ IsBranch c d := by
  induction h with
  | start => exact ⟨[], by rw [p.entry]; exact .start, by simp⟩
  | @inst ms l k _ hk ih =>
    obtain ⟨ms', h3, h4⟩ := ih
    have hk' : k < (blockOf c l).length := by
      have : instAt c' l k = some ((blockOf c' l)[k]) := List.getElem?_eq_getElem hk
      exact lt_of_instAt (pruned_instAt p this)
    refine ⟨_, .inst h3 hk', ?_⟩
    intro d hd
    rcases List.mem_cons.1 hd with rfl | hd
    · exact .inl List.mem_cons_self
    · rcases h4 d hd with h | h
      · exact .inl (List.mem_cons_of_mem _ h)
      · exact .inr h
  | @jump ms l s t he ih =>
    obtain ⟨ms', h3, h4⟩ := ih
    obtain ⟨ms2, h5, h6⟩ := pruned_end p (trail_block h1 h2 t) h3
    refine ⟨_, .jump h5 (p.edge l s he), ?_⟩
    intro d hd
    rcases List.mem_cons.1 hd with rfl | hd
    · exact .inl List.mem_cons_self
    · rcases List.mem_append.1 hd with hd | hd
      · exact .inr (h6 d hd)
      · rcases h4 d hd with h | h
        · exact .inl (List.mem_cons_of_mem _ h)
        · exact .inr h

theorem branch_not_defines (wf : WellFormed c) {d : Site} {x : Nat} (h : IsBranch c d) : ¬ Defines c d x := by
  obtain ⟨l, k, i, rfl, e, ht⟩ := h
  rintro ⟨j, e', -, hx⟩
  rw [e] at e'
  cases e'
  have := wf.shape l k i e
  simp only [Shape, ht] at this
  rw [this.1] at hx
  simp at hx

theorem pruned_defines (p : Pruned c c') {d : Site} {x : Nat} (h : Defines c' d x) : Defines c d x := by
  cases d with
  | inst l k =>
    obtain ⟨i, e, h1, h2⟩ := h
    exact ⟨i, pruned_instAt p e, h1, h2⟩
  | phis l =>
    obtain ⟨k, i, e, h1, h2⟩ := h
    exact ⟨k, i, pruned_instAt p e, h1, h2⟩

theorem pruned_ssa (p : Pruned c c') (wf : WellFormed c) (ssa : StrictSSA c)
    (h1 : (Cfg.block c' c'.entry).isSome) (h2 : ∀ a b, c'.graph.Edge a b → (Cfg.block c' b).isSome) :
    StrictSSA c' := by
  refine ⟨?_, ?_, ?_⟩
  · intro l k i l' k' i' v e e' h h'
    exact ssa.once l k i l' k' i' v (pruned_instAt p e) (pruned_instAt p e') h h'
  · intro l k i e ht a ha x hx d hd ms tr
    obtain ⟨ms', h3, h4⟩ := pruned_trail p h1 h2 tr
    have hd' := pruned_defines p hd
    rcases h4 d (ssa.avail l k i (pruned_instAt p e) ht a ha x hx d hd' ms' h3) with h | h
    · exact h
    · exact absurd hd' (branch_not_defines wf h)
  · intro l k i e ht q a hqa x hx d hd ms tr
    obtain ⟨ms', h3, h4⟩ := pruned_trail p h1 h2 tr
    obtain ⟨ms2, h5, h6⟩ := pruned_end p (trail_block h1 h2 tr) h3
    have hd' := pruned_defines p hd
    rcases List.mem_append.1
      (ssa.availPhi l k i (pruned_instAt p e) ht q a hqa x hx d hd' _ h5) with h | h
    · exact absurd hd' (branch_not_defines wf (h6 d h))
    · rcases h4 d h with h | h
      · exact h
      · exact absurd hd' (branch_not_defines wf h)

end

/-! ## One branch -/

theorem block_setBlock {c : Cfg} {l : Nat} {is : List Inst} (x : Nat) :
    Cfg.block (setBlock c l is) x = if x = l then (Cfg.block c x).map (fun _ => is) else Cfg.block c x := by
  simp only [Cfg.block, setBlock]
  generalize c.bblocks = bs
  induction bs with
  | nil => simp
  | cons e bs ih =>
    obtain ⟨a, b⟩ := e
    simp only [List.map_cons]
    by_cases hal : a = l
    · subst hal
      simp only [if_true, List.lookup_cons]
      by_cases hx : x = a
      · subst hx; simp
      · have : (x == a) = false := by simpa using hx
        simp only [this, hx, if_false] at ih ⊢
        exact ih
    · simp only [hal, if_false, List.lookup_cons]
      by_cases hx : x = a
      · subst hx; simp [hal]
      · have : (x == a) = false := by simpa using hx
        simp only [this]
        exact ih

theorem coerce_iff {k : Const} (h : ∀ v, k ≠ .bigint v) : coerceToBool k = true ↔ ¬ Falsy k := by
  cases k with
  | bigint v => exact absurd rfl (h v)
  | bool b => simp [coerceToBool, Falsy]
  | null => simp [coerceToBool, Falsy]
  | undefined => simp [coerceToBool, Falsy]
  | str s => cases s <;> simp [coerceToBool, Falsy]
  | num b =>
    simp only [coerceToBool, isNanBits, Falsy, Bool.and_eq_true, Bool.not_eq_true', Bool.and_eq_false_iff,
      beq_eq_false_iff_ne, bne_eq_false_iff_eq, ne_eq, not_or]
    omega

/-- What the loop over the labels keeps. -/
structure Sound (c : Cfg) : Prop where
  graph : ∃ ops, Graph.run ops = some c.graph
  wf : WellFormed c
  nodes : ∀ l, c.graph.contains l = true → (Cfg.block c l).isSome
  taken : ∀ l k i, instAt c l k = some i → i.t = .condGoto → ∀ s, c.graph.Edge l s → s ∈ i.labels

/-- The number of blocks and instructions. -/
def size (c : Cfg) : Nat := (c.bblocks.map (fun e => e.2.length + 1)).sum

theorem sum_le {α : Type} {f : α → Nat} {g : α → α} : ∀ {bs : List α}, (∀ e ∈ bs, f (g e) ≤ f e) →
    ((bs.map g).map f).sum ≤ (bs.map f).sum
  | [], _ => Nat.le_refl _
  | b :: bs, h => by
    have h1 := sum_le (f := f) (g := g) (bs := bs) (fun e he => h e (by simp [he]))
    have h2 := h b (by simp)
    simp only [List.map_cons, List.sum_cons]
    omega

theorem sum_lt {α : Type} {f : α → Nat} {g : α → α} : ∀ {bs : List α}, (∀ e ∈ bs, f (g e) ≤ f e) →
    (∃ e ∈ bs, f (g e) < f e) → ((bs.map g).map f).sum < (bs.map f).sum
  | [], _, h => by simp at h
  | b :: bs, h, ⟨e, he, hlt⟩ => by
    have h1 := sum_le (f := f) (g := g) (bs := bs) (fun e he => h e (by simp [he]))
    have h2 := h b (by simp)
    simp only [List.map_cons, List.sum_cons]
    rcases List.mem_cons.1 he with rfl | he
    · omega
    · have := sum_lt (f := f) (g := g) (bs := bs) (fun e he => h e (by simp [he])) ⟨e, he, hlt⟩
      omega

theorem singleton_of {xs : List Nat} {s : Nat} (hn : xs.Nodup) (h : ∀ y, y ∈ xs ↔ y = s) : xs = [s] := by
  match xs, hn, h with
  | [], _, h => exact absurd ((h s).2 rfl) (by simp)
  | [x], _, h => rw [(h x).1 (by simp)]
  | x :: y :: r, hn, h =>
    have h1 := (h x).1 (by simp)
    have h2 := (h y).1 (by simp)
    simp [h1, h2] at hn

theorem getLast_split {is : List Inst} {i : Inst} (h : is.getLast? = some i) : is = is.dropLast ++ [i] := by
  obtain ⟨ys, e⟩ := List.getLast?_eq_some_iff.1 h
  rw [e]
  simp

/-- Dropping the branch at the end of block `l` and perhaps an edge. -/
structure Drops (c c' : Cfg) (l : Nat) (is : List Inst) (i : Inst) : Prop where
  old : Cfg.block c l = some (is ++ [i])
  branch : i.t = .condGoto
  block : ∀ x, Cfg.block c' x = if x = l then some is else Cfg.block c x
  entry : c'.entry = c.entry
  keys : c'.bblocks.map (·.1) = c.bblocks.map (·.1)
  nodes : c'.graph.labels = c.graph.labels
  edge : ∀ a b, c'.graph.Edge a b → c.graph.Edge a b
  other : ∀ a, a ≠ l → c'.graph.children a = c.graph.children a
  graph : ∃ ops, Graph.run ops = some c'.graph

section
variable {c c' : Cfg} {l : Nat} {is : List Inst} {i : Inst}

theorem drops_pruned (d : Drops c c' l is i) : Pruned c c' := by
  refine ⟨d.entry, d.edge, ?_⟩
  intro x is' h
  rw [d.block] at h
  by_cases hx : x = l
  · subst hx
    simp only [if_true, Option.some.injEq] at h
    subst h
    exact ⟨_, [i], d.old, rfl, by simp [d.branch]⟩
  · simp only [hx, if_false] at h
    exact ⟨is', [], h, by simp, by simp⟩

theorem last_no_branch (d : Drops c c' l is i) (wf : WellFormed c) {k : Nat} {j : Inst} (e : is[k]? = some j) :
    j.t ≠ .condGoto := by
  intro ht
  obtain ⟨hk, -⟩ := List.getElem?_eq_some_iff.1 e
  have e' : instAt c l k = some j := by
    rw [instAt_of_block d.old, List.getElem?_append_left hk, e]
  have := wf.branchLast l k j e' ht
  simp [blockOf, d.old] at this
  omega

theorem drops_blockOf (d : Drops c c' l is i) (x : Nat) :
    blockOf c' x = if x = l then is else blockOf c x := by
  simp only [blockOf, d.block]
  split <;> rfl

theorem drops_mid (d : Drops c c' l is i) (m : Sound c) : Sound c' := by
  have p := drops_pruned d
  have wf := m.wf
  have isSome : ∀ x, (Cfg.block c x).isSome → (Cfg.block c' x).isSome := by
    intro x h
    rw [d.block]
    split
    · rfl
    · exact h
  have hbr : ∀ {x k : Nat} {j : Inst}, instAt c' x k = some j → j.t = .condGoto → x ≠ l := by
    rintro x k j e ht rfl
    have : is[k]? = some j := by
      rw [instAt_of_block (is := is) (by rw [d.block]; simp)] at e
      exact e
    exact last_no_branch d wf this ht
  refine ⟨d.graph, ⟨?_, ?_, ?_, ?_, ?_, ?_, ?_, ?_⟩, ?_, ?_⟩
  · rw [d.keys]; exact wf.labels
  · rw [d.entry]; exact isSome _ wf.entryBlock
  · exact fun a b h => isSome _ (wf.edgeBlock a b (d.edge a b h))
  · exact fun x k j e => wf.shape x k j (pruned_instAt p e)
  · intro x k j e ht
    have := wf.branchLast x k j (pruned_instAt p e) ht
    rw [drops_blockOf d, if_neg (hbr e ht)]
    exact this
  · intro x k j e ht s hs
    have := wf.branchTo x k j (pruned_instAt p e) ht s hs
    simp only [Graph.Edge] at this ⊢
    rw [d.other x (hbr e ht)]
    exact this
  · intro x k k' j j' e ht hk e'
    exact wf.phiFirst x k k' j j' (pruned_instAt p e) ht hk (pruned_instAt p e')
  · exact fun x k j e => wf.phiOnce x k j (pruned_instAt p e)
  · intro x hx
    refine isSome _ (m.nodes x ?_)
    rw [contains_iff] at hx ⊢
    rw [← d.nodes]
    exact hx
  · exact fun x k j e ht s hs => m.taken x k j (pruned_instAt p e) ht s (d.edge x s hs)

variable {V W : Type} {I : Interp V W}

theorem drops_step (d : Drops c c' l is i) (m : Sound c)
    (hnext : ∀ e, next I c' l is e = next I c l (is ++ [i]) e) (x : Conf V W) :
    step I c' x = step I c x := by
  have hb : blockOf c l = is ++ [i] := by simp [blockOf, d.old]
  have hE : ∀ a s, execAll I (blockOf c' a) s = execAll I (blockOf c a) s := by
    intro a s
    rw [drops_blockOf d]
    split
    · next h =>
      subst h
      rw [hb]
      simp [execAll, List.foldl_append, exec, d.branch]
    · rfl
  have hN : ∀ a e, next I c' a (blockOf c' a) e = next I c a (blockOf c a) e := by
    intro a e
    by_cases h : a = l
    · subst h
      rw [drops_blockOf d, if_pos rfl, hb]
      exact hnext e
    · rw [drops_blockOf d, if_neg h]
      simp only [next, d.other a h]
  have hP : ∀ p n e, enter I e p (blockOf c' n) e = enter I e p (blockOf c n) e := by
    intro p n e
    rw [drops_blockOf d]
    split
    · next h =>
      subst h
      rw [hb, enter_append, enter_noPhi (js := [i]) e p (by simp [d.branch])]
    · rfl
  simp only [step, hE, hN, hP]

theorem drops_size (d : Drops c c' l is i) (hbb : c'.bblocks = c.bblocks.map (fun e => if e.1 = l then (e.1, is) else e))
    (wf : WellFormed c) : size c' < size c := by
  rw [size, size, hbb]
  refine sum_lt ?_ ?_
  · rintro ⟨a, b⟩ he
    simp only
    split
    · next h =>
      subst h
      have := (block_mem wf.labels).1 he
      rw [d.old] at this
      cases this
      simp
    · exact Nat.le_refl _
  · refine ⟨(l, is ++ [i]), (block_mem wf.labels).2 d.old, ?_⟩
    simp

end

theorem run_snoc {ops : List Op} {g g' : Graph} (h : Graph.run ops = some g) {op : Op} (h' : g.apply op = some g') :
    Graph.run (ops ++ [op]) = some g' := by
  simp only [Graph.run, List.foldlM_append] at h ⊢
  simp [h, h']

/-- What one visit of a label does. -/
structure Trimmed (c c' : Cfg) (b : Bool) : Prop where
  mid : Sound c'
  pruned : Pruned c c'
  keys : c'.bblocks.map (·.1) = c.bblocks.map (·.1)
  nodes : c'.graph.labels = c.graph.labels
  same : b = false → c' = c
  size_lt : b = true → size c' < size c
  size_le : size c' ≤ size c
  only : OnlyBranchesFork c → OnlyBranchesFork c'
  steps : ∀ {V W : Type} (I : Interp V W), ConstTruth I → NoBigIntBranch c → ∀ x, step I c' x = step I c x

theorem Trimmed.refl {c : Cfg} (m : Sound c) : Trimmed c c false :=
  ⟨m, .refl c, rfl, rfl, fun _ => rfl, by simp, Nat.le_refl _, id, fun _ _ _ _ => rfl⟩

theorem drops_only {c c' : Cfg} {l : Nat} {is : List Inst} {i : Inst} (d : Drops c c' l is i)
    (one : ∀ a b, c'.graph.Edge l a → c'.graph.Edge l b → a = b) (h : OnlyBranchesFork c) : OnlyBranchesFork c' := by
  intro x hx a b ha hb
  by_cases hxl : x = l
  · subst hxl
    exact one a b ha hb
  · refine h x (fun k j e => hx k j ?_) a b (d.edge _ _ ha) (d.edge _ _ hb)
    rw [instAt, drops_blockOf d, if_neg hxl]
    exact e

theorem noBig_pruned {c c' : Cfg} (p : Pruned c c') (h : NoBigIntBranch c) : NoBigIntBranch c' :=
  fun l k i e => h l k i (pruned_instAt p e)

theorem Trimmed.trans {a b c : Cfg} {x y : Bool} (h : Trimmed a b x) (h' : Trimmed b c y) : Trimmed a c (x || y) := by
  refine ⟨h'.mid, h.pruned.trans h'.pruned, h'.keys.trans h.keys, h'.nodes.trans h.nodes, ?_, ?_, ?_,
    h'.only ∘ h.only, ?_⟩
  · intro e
    simp only [Bool.or_eq_false_iff] at e
    rw [h'.same e.2, h.same e.1]
  · intro e
    have h1 := h.size_le
    have h2 := h'.size_le
    simp only [Bool.or_eq_true] at e
    rcases e with e | e
    · have := h.size_lt e; omega
    · have := h'.size_lt e; omega
  · have h1 := h.size_le
    have h2 := h'.size_le
    omega
  · intro V W I hI hn x
    rw [h'.steps I hI (noBig_pruned h.pruned hn), h.steps I hI hn]

/-- The block at `l` does not end in a branch that can be decided. -/
def OpenAt (c : Cfg) (l : Nat) : Prop :=
  ∀ k i, instAt c l k = some i → i.t = .condGoto → i.labels.Nodup ∧ ∀ v, Arg.const v ∉ i.args

theorem visitBranch_ok {c : Cfg} (m : Sound c) {l : Nat} (hl : (Cfg.block c l).isSome) :
    ∃ c' b, visitBranch c l = some (c', b) ∧ Trimmed c c' b ∧ (b = false → OpenAt c l) := by
  obtain ⟨is, hb⟩ := Option.isSome_iff_exists.1 hl
  obtain ⟨ops, hg⟩ := m.graph
  have w := ((C26_history ops).2 c.graph hg).wf
  have noBranch : (∀ j, is.getLast? = some j → j.t ≠ .condGoto) → OpenAt c l := by
    intro h k i e ht
    exfalso
    have := m.wf.branchLast l k i e ht
    rw [instAt_of_block hb] at e
    refine h i ?_ ht
    rw [List.getLast?_eq_getElem?, ← e]
    congr 1
    simp only [blockOf, hb, Option.getD_some] at this
    omega
  simp only [visitBranch, hb, Option.bind_eq_bind, Option.bind_some]
  cases hlast : is.getLast? with
  | none => exact ⟨c, false, rfl, .refl m, fun _ => noBranch (by simp [hlast])⟩
  | some i =>
    simp only
    by_cases ht : i.t = .condGoto
    · rw [if_neg (by simpa using ht)]
      have hsp := getLast_split hlast
      have hi : instAt c l (is.length - 1) = some i := by
        rw [instAt_of_block hb, ← List.getLast?_eq_getElem?]; exact hlast
      have hsh := m.wf.shape l _ i hi
      simp only [Shape, ht] at hsh
      obtain ⟨-, ⟨a, ha⟩, t, f, hlab⟩ := hsh
      have hT : c.graph.Edge l t := m.wf.branchTo l _ i hi ht t (by simp [hlab])
      have hF : c.graph.Edge l f := m.wf.branchTo l _ i hi ht f (by simp [hlab])
      have htk : ∀ s, c.graph.Edge l s → s = t ∨ s = f := by
        intro s hs
        have := m.taken l _ i hi ht s hs
        simpa [hlab] using this
      have hblk : ∀ g x, Cfg.block { setBlock c l is.dropLast with graph := g } x =
          if x = l then some is.dropLast else Cfg.block c x := by
        intro g x
        have : Cfg.block { setBlock c l is.dropLast with graph := g } x = Cfg.block (setBlock c l is.dropLast) x := rfl
        rw [this, block_setBlock]
        by_cases hx : x = l
        · subst hx; simp [hb]
        · simp [hx]
      have hkeys : (setBlock c l is.dropLast).bblocks.map (·.1) = c.bblocks.map (·.1) := by
        simp only [setBlock, List.map_map]
        refine List.map_congr_left ?_
        intro e _
        simp only [Function.comp]
        split <;> rfl
      have hlast' : ∀ {c' : Cfg} (d : Drops c c' l is.dropLast i) {V W : Type} (I : Interp V W) (s : Nat)
          (hs : c'.graph.children l = [s]) (e : Nat → V), next I c' l is.dropLast e = some s := by
        intro c' d V W I s hs e
        simp only [next, hs]
        cases hd : is.dropLast.getLast? with
        | none => rfl
        | some j =>
          rw [List.getLast?_eq_getElem?] at hd
          simp only [if_neg (last_no_branch d m.wf hd)]
      have hnext : ∀ {V W : Type} (I : Interp V W) (e : Nat → V),
          next I c l (is.dropLast ++ [i]) e = some (if I.truthy (valOf I e a) then t else f) := by
        intro V W I e
        simp [next, ht, ha, hlab]
      simp only [ha, hlab]
      by_cases htf : t = f
      · subst htf
        rw [if_pos rfl]
        have d : Drops c (setBlock c l is.dropLast) l is.dropLast i :=
          ⟨by rw [← hsp]; exact hb, ht, hblk c.graph, rfl, hkeys, rfl, fun _ _ h => h, fun _ _ => rfl, ops, hg⟩
        refine ⟨_, true, rfl, ⟨drops_mid d m, drops_pruned d, hkeys, rfl, by simp, fun _ => drops_size d rfl m.wf,
          Nat.le_of_lt (drops_size d rfl m.wf), drops_only d (fun a b ha hb => by
            have h1 := htk a ha
            have h2 := htk b hb
            simp only [or_self] at h1 h2
            rw [h1, h2]), ?_⟩, by simp⟩
        intro V W I _ _ x
        refine drops_step d m ?_ x
        intro e
        have hch : c.graph.children l = [t] :=
          singleton_of (w.ncs l) (fun y => ⟨fun hy => by simpa using htk y hy, fun hy => hy ▸ hT⟩)
        rw [hlast' d I t hch, hnext I e]
        simp
      · rw [if_neg htf]
        cases a with
        | var v =>
          refine ⟨c, false, rfl, .refl m, fun _ => ?_⟩
          intro k j e htj
          have h1 := m.wf.branchLast l k j e htj
          have h2 := m.wf.branchLast l _ i hi ht
          have : k = is.length - 1 := by omega
          subst this
          rw [hi] at e
          cases e
          simp [hlab, ha, htf]
        | builtin v =>
          refine ⟨c, false, rfl, .refl m, fun _ => ?_⟩
          intro k j e htj
          have h1 := m.wf.branchLast l k j e htj
          have h2 := m.wf.branchLast l _ i hi ht
          have : k = is.length - 1 := by omega
          subst this
          rw [hi] at e
          cases e
          simp [hlab, ha, htf]
        | fn v =>
          refine ⟨c, false, rfl, .refl m, fun _ => ?_⟩
          intro k j e htj
          have h1 := m.wf.branchLast l k j e htj
          have h2 := m.wf.branchLast l _ i hi ht
          have : k = is.length - 1 := by omega
          subst this
          rw [hi] at e
          cases e
          simp [hlab, ha, htf]
        | const v =>
          simp only
          generalize hnv : (if coerceToBool v = true then f else t) = never
          have hE : c.graph.Edge l never := by
            rw [← hnv]; split <;> assumption
          obtain ⟨g, hd, -⟩ := disconnect_eq (mem_labels_of_child hE)
            (mem_labels_of_parent ((w.sym l never).1 hE))
          obtain ⟨wg, -, hgl, hgc⟩ := disconnect_wf w hd
          have hoth : ∀ x, x ≠ l → g.children x = c.graph.children x := by
            intro x hx
            obtain ⟨g2, hd2, -, hc2, -⟩ := disconnect_eq (mem_labels_of_child hE)
              (mem_labels_of_parent ((w.sym l never).1 hE))
            rw [hd] at hd2
            cases hd2
            rw [hc2, if_neg hx]
          rw [hd]
          simp only [Option.bind_some]
          have d : Drops c { setBlock c l is.dropLast with graph := g } l is.dropLast i :=
            ⟨by rw [← hsp]; exact hb, ht, hblk g, rfl, hkeys, hgl, fun a b h => ((hgc a b).1 h).1, hoth, _,
              run_snoc hg (op := .disconnect l never) hd⟩
          have hch : g.children l = [if coerceToBool v = true then t else f] := by
            refine singleton_of (wg.ncs l) ?_
            intro y
            rw [hgc]
            cases hcv : coerceToBool v with
            | true =>
              simp only [hcv, if_true] at hnv ⊢
              subst hnv
              constructor
              · rintro ⟨h1, h2⟩
                rcases htk y h1 with h | h
                · exact h
                · exact absurd ⟨trivial, h⟩ h2
              · rintro rfl
                exact ⟨hT, fun h => htf h.2⟩
            | false =>
              simp only [hcv, Bool.false_eq_true, if_false] at hnv ⊢
              subst hnv
              constructor
              · rintro ⟨h1, h2⟩
                rcases htk y h1 with h | h
                · exact absurd ⟨trivial, h⟩ h2
                · exact h
              · rintro rfl
                exact ⟨hF, fun h => htf h.2.symm⟩
          refine ⟨_, true, rfl, ⟨drops_mid d m, drops_pruned d, hkeys, hgl, by simp, fun _ => drops_size d rfl m.wf,
            Nat.le_of_lt (drops_size d rfl m.wf), drops_only d (fun a b ha hb => by
              have h1 : a ∈ g.children l := ha
              have h2 : b ∈ g.children l := hb
              rw [hch, List.mem_singleton] at h1 h2
              rw [h1, h2]), ?_⟩, by simp⟩
          intro V W I hI hn x
          refine drops_step d m ?_ x
          intro e
          have hv : ∀ z, v ≠ .bigint z := by
            rintro z rfl
            exact hn l _ i hi ht z (by simp [ha])
          have htr : I.truthy (valOf I e (.const v)) = coerceToBool v := by
            have h1 := (hI v).trans (coerce_iff hv).symm
            have h2 : valOf I e (.const v) = I.lit (.const v) := rfl
            rw [h2]
            exact Bool.eq_iff_iff.2 h1
          rw [hnext I e, htr]
          exact hlast' d I _ hch e
    · rw [if_pos ht]
      exact ⟨c, false, rfl, .refl m, fun _ => noBranch (by rw [hlast]; rintro j hj; cases hj; exact ht)⟩

theorem visitBranches_ok : ∀ {ls : List Nat} {c : Cfg}, Sound c → (∀ l ∈ ls, (Cfg.block c l).isSome) →
    ∃ c' b, visitBranches ls c = some (c', b) ∧ Trimmed c c' b ∧ (b = false → ∀ l ∈ ls, OpenAt c l)
  | [], c, m, _ => ⟨c, false, rfl, .refl m, by simp⟩
  | l :: ls, c, m, h => by
    obtain ⟨c1, b1, e1, v1, o1⟩ := visitBranch_ok m (h l (by simp))
    have h1 : ∀ x ∈ ls, (Cfg.block c1 x).isSome := by
      intro x hx
      have := h x (by simp [hx])
      simp only [Cfg.block] at this ⊢
      rw [lookup_isSome_iff] at this ⊢
      rw [v1.keys]
      exact this
    obtain ⟨c2, b2, e2, v2, o2⟩ := visitBranches_ok v1.mid h1
    refine ⟨c2, b1 || b2, by simp [visitBranches, e1, e2], v1.trans v2, ?_⟩
    intro hf
    simp only [Bool.or_eq_false_iff] at hf
    intro x hx
    rcases List.mem_cons.1 hx with rfl | hx
    · exact o1 hf.1
    · have := o2 hf.2 x hx
      rwa [v1.same hf.1] at this

/-! ## Unreachable blocks -/

theorem run_contracts {g g' : Graph} : ∀ {u : List Nat} {ops : List Op} {g : Graph}, Graph.run ops = some g →
    g.deleteMany u = some g' → ∃ ops', Graph.run ops' = some g'
  | [], ops, g, h, h' => by
    simp only [Graph.deleteMany, List.foldlM_nil, Option.pure_def, Option.some.injEq] at h'
    exact ⟨ops, h' ▸ h⟩
  | n :: u, ops, g, h, h' => by
    simp only [Graph.deleteMany, List.foldlM_cons, Option.bind_eq_bind] at h'
    cases hc : g.contract n with
    | none => rw [hc] at h'; simp at h'
    | some g1 =>
      rw [hc] at h'
      exact run_contracts (u := u) (g := g1) (run_snoc h (op := .contract n) hc) h'

theorem lookup_filter {bs : List (Nat × List Inst)} {u : List Nat} (x : Nat) :
    (bs.filter (fun e => !(u.contains e.1))).lookup x = if x ∈ u then none else bs.lookup x := by
  induction bs with
  | nil => simp
  | cons e bs ih =>
    obtain ⟨a, b⟩ := e
    by_cases ha : a ∈ u
    · rw [List.filter_cons_of_neg (by simpa using ha), ih]
      by_cases hx : x ∈ u
      · simp [hx]
      · have : (x == a) = false := by
          simp only [beq_eq_false_iff_ne, ne_eq]
          rintro rfl
          exact hx ha
        simp [hx, List.lookup_cons, this]
    · rw [List.filter_cons_of_pos (by simpa using ha), List.lookup_cons, List.lookup_cons]
      by_cases hx : x = a
      · subst hx
        simp [ha]
      · have : (x == a) = false := by simpa using hx
        simp only [this]
        exact ih

/-- What the removal of unreachable blocks does. -/
theorem popped {c : Cfg} (m : Sound c) : ∃ c' u, c.findAndPopUnreachable (c.graph.labels.length + 1) = some (c', u) ∧
    Sound c' ∧ Pruned c c' ∧ (u = [] → c' = c) ∧ (u ≠ [] → size c' < size c) ∧
    (∀ l, Cfg.block c' l = if l ∈ u then none else Cfg.block c l) ∧
    (∀ x, x ∈ u ↔ x ∈ c.graph.labels ∧ ¬ Reach c.graph.Edge c.entry x) ∧
    (∀ x y, c'.graph.Edge x y ↔ c.graph.Edge x y ∧ Reach c.graph.Edge c.entry x) := by
  obtain ⟨ops, hg⟩ := m.graph
  have w := ((C26_history ops).2 _ hg).wf
  obtain ⟨u, e, hn, -, hm⟩ := findUnreachable_spec w (entry := c.entry) (Nat.le_refl _)
  have hcl : ∀ a b, b ∈ c.graph.children a → b ∈ u → a ∈ u := by
    intro a b hab hbu
    refine (hm a).2 ⟨mem_labels_of_child hab, ?_⟩
    intro hr
    exact ((hm b).1 hbu).2 (.step hr hab)
  obtain ⟨g', eg, wg, hl, hc⟩ := deleteMany_spec w hn (fun x hx => ((hm x).1 hx).1) hcl
  have hkey : ∀ x ∈ u, x ∈ c.bblocks.map (·.1) := fun x hx =>
    lookup_isSome_iff.1 (m.nodes x (contains_iff.2 ((hm x).1 hx).1))
  have eb := removeMany_spec (bs := c.bblocks) hn hkey
  have hedge : ∀ x y, g'.Edge x y ↔ c.graph.Edge x y ∧ Reach c.graph.Edge c.entry x := by
    intro x y
    simp only [Graph.Edge]
    rw [hc, hm, hm]
    constructor
    · rintro ⟨h1, h2, -⟩
      exact ⟨h1, Classical.byContradiction fun hr => h2 ⟨mem_labels_of_child h1, hr⟩⟩
    · rintro ⟨h1, h2⟩
      exact ⟨h1, fun h3 => h3.2 h2, fun h3 => h3.2 (.step h2 h1)⟩
  have hblk : ∀ l, Cfg.block { c with graph := g', bblocks := c.bblocks.filter (fun e => !(u.contains e.1)) } l =
      if l ∈ u then none else Cfg.block c l := fun l => lookup_filter l
  have hp : Pruned c { c with graph := g', bblocks := c.bblocks.filter (fun e => !(u.contains e.1)) } := by
    refine ⟨rfl, fun a b h => ((hedge a b).1 h).1, ?_⟩
    intro l is' h
    rw [hblk] at h
    split at h
    · simp at h
    · exact ⟨is', [], h, by simp, by simp⟩
  refine ⟨{ c with graph := g', bblocks := c.bblocks.filter (fun e => !(u.contains e.1)) }, u, ?_, ?_, hp, ?_, ?_,
    hblk, hm, hedge⟩
  · simp only [Cfg.findAndPopUnreachable, e, eg, eb, Option.bind_eq_bind, Option.bind_some]
  · have hlen : ∀ {l k : Nat} {i : Inst},
        instAt { c with graph := g', bblocks := c.bblocks.filter (fun e => !(u.contains e.1)) } l k = some i → l ∉ u := by
      intro l k i hi hlu
      have := hblk l
      rw [if_pos hlu] at this
      simp only [instAt, blockOf, this] at hi
      simp at hi
    have hreach : ∀ {l : Nat}, (Cfg.block c l).isSome → l ∉ u → l ∈ c.graph.labels → Reach c.graph.Edge c.entry l := by
      intro l _ h1 h2
      exact Classical.byContradiction (fun hr => h1 ((hm l).2 ⟨h2, hr⟩))
    refine ⟨run_contracts (g := g') hg eg, ⟨?_, ?_, ?_, ?_, ?_, ?_, ?_, ?_⟩, ?_, ?_⟩
    · exact List.Nodup.sublist (List.Sublist.map _ List.filter_sublist) m.wf.labels
    · rw [hblk, if_neg]
      · exact m.wf.entryBlock
      · intro h
        exact ((hm _).1 h).2 .refl
    · intro a b h
      obtain ⟨h1, h2⟩ := (hedge a b).1 h
      rw [hblk, if_neg]
      · exact m.wf.edgeBlock a b h1
      · intro h
        exact ((hm _).1 h).2 (.step h2 h1)
    · exact fun l k i hi => m.wf.shape l k i (pruned_instAt hp hi)
    · intro l k i hi ht
      have := m.wf.branchLast l k i (pruned_instAt hp hi) ht
      simp only [blockOf, hblk, if_neg (hlen hi)] at this ⊢
      exact this
    · intro l k i hi ht s hs
      have h1 := m.wf.branchTo l k i (pruned_instAt hp hi) ht s hs
      refine (hedge l s).2 ⟨h1, hreach ?_ (hlen hi) (mem_labels_of_child h1)⟩
      have := pruned_instAt hp hi
      cases hb : Cfg.block c l with
      | none => simp [instAt, blockOf, hb] at this
      | some _ => rfl
    · intro l k j i i' hi ht hj hi'
      exact m.wf.phiFirst l k j i i' (pruned_instAt hp hi) ht hj (pruned_instAt hp hi')
    · exact fun l k i hi => m.wf.phiOnce l k i (pruned_instAt hp hi)
    · intro l h
      obtain ⟨h1, h2⟩ := (hl l).1 (contains_iff.1 h)
      rw [hblk, if_neg h2]
      exact m.nodes l (contains_iff.2 h1)
    · exact fun l k i hi ht s hs => m.taken l k i (pruned_instAt hp hi) ht s (hp.edge l s hs)
  · rintro rfl
    have h1 : c.bblocks.filter (fun e => !(([] : List Nat).contains e.1)) = c.bblocks :=
      List.filter_eq_self.2 (by simp)
    have h2 : g' = c.graph := by
      simp only [Graph.deleteMany, List.foldlM_nil, Option.pure_def, Option.some.injEq] at eg
      exact eg.symm
    rw [h1, h2]
  · intro hu
    obtain ⟨x, r, hx⟩ := List.exists_cons_of_ne_nil hu
    have hxu : x ∈ u := by rw [hx]; simp
    obtain ⟨is, his⟩ := Option.isSome_iff_exists.1 (lookup_isSome_iff.2 (hkey x hxu))
    have hmem := lookup_mem his
    have key : ∀ {bs : List (Nat × List Inst)}, ((bs.filter (fun e => !(u.contains e.1))).map (fun e => e.2.length + 1)).sum
        ≤ (bs.map (fun e => e.2.length + 1)).sum := by
      intro bs
      induction bs with
      | nil => simp
      | cons b bs ih =>
        rw [List.filter_cons]
        split
        · simp only [List.map_cons, List.sum_cons]; omega
        · simp only [List.map_cons, List.sum_cons]; omega
    simp only [size]
    obtain ⟨as, bs, hsp⟩ := List.append_of_mem hmem
    have k1 := key (bs := as)
    have k2 := key (bs := bs)
    rw [hsp, List.filter_append, List.filter_cons_of_neg (by simpa using hxu)]
    simp only [List.map_append, List.map_cons, List.sum_append, List.sum_cons]
    omega

/-! ## Rounds -/

theorem sound_of {c : Cfg} (P : SsaProgram c) : Sound c := ⟨P.graph, P.wf, P.nodes, P.taken⟩

theorem size_simplified {c c' : Cfg} (e : ∃ b, simplifyPhis c = some (c', b)) (P : SsaProgram c) : size c' = size c := by
  obtain ⟨b, e⟩ := e
  obtain ⟨b', e', -⟩ := simplifyPhis_ok' P
  rw [e] at e'
  simp only [Option.some.injEq, Prod.mk.injEq] at e'
  rw [e'.1]
  simp [size, Function.comp_def]

/-- The runs are equal, variables included. -/
theorem run_popped {c c' : Cfg} {V W : Type} {I : Interp V W} (m : Sound c) {u : List Nat} (hent : c'.entry = c.entry)
    (m' : Sound c')
    (hblk : ∀ l, Cfg.block c' l = if l ∈ u then none else Cfg.block c l)
    (hm : ∀ x, x ∈ u ↔ x ∈ c.graph.labels ∧ ¬ Reach c.graph.Edge c.entry x)
    (hedge : ∀ x y, c'.graph.Edge x y ↔ c.graph.Edge x y ∧ Reach c.graph.Edge c.entry x) (e : Nat → V) (w : W) :
    ∀ n, Opt.run I c' e w n = Opt.run I c e w n ∧
      ∀ l, (Opt.run I c e w n).at_ = some l → Reach c.graph.Edge c.entry l
  | 0 => by
    refine ⟨by simp [Opt.run, hent], ?_⟩
    intro l h
    simp only [Opt.run, Option.some.injEq] at h
    rw [← h]
    exact .refl
  | n + 1 => by
    obtain ⟨ih, hr⟩ := run_popped m hent m' hblk hm hedge e w n
    have hx : Opt.run I c e w (n + 1) = step I c (Opt.run I c e w n) := rfl
    have hx' : Opt.run I c' e w (n + 1) = step I c' (Opt.run I c' e w n) := rfl
    rw [hx, hx', ih]
    generalize Opt.run I c e w n = x at hr ⊢
    have hB : ∀ l, Reach c.graph.Edge c.entry l → blockOf c' l = blockOf c l := by
      intro l h
      simp only [blockOf, hblk]
      rw [if_neg (fun h' => ((hm l).1 h').2 h)]
    cases hat : x.at_ with
    | none =>
      refine ⟨by simp [step, hat], ?_⟩
      intro l h
      simp [step, hat] at h
    | some l =>
      have hl := hr l hat
      have hN : ∀ s, next I c' l (blockOf c l) s = next I c l (blockOf c l) s := by
        intro s
        obtain ⟨ops, hg⟩ := m.graph
        obtain ⟨ops', hg'⟩ := m'.graph
        have w1 := ((C26_history ops).2 _ hg).wf
        have w2 := ((C26_history ops').2 _ hg').wf
        have hmem : ∀ y, y ∈ c'.graph.children l ↔ y ∈ c.graph.children l := fun y =>
          (hedge l y).trans ⟨fun h => h.1, fun h => ⟨h, hl⟩⟩
        have hperm : (c'.graph.children l).Perm (c.graph.children l) :=
          (List.perm_ext_iff_of_nodup (w2.ncs l) (w1.ncs l)).2 hmem
        have hlen := hperm.length_eq
        simp only [next]
        generalize c'.graph.children l = xs at hperm hlen ⊢
        generalize c.graph.children l = ys at hperm hlen ⊢
        match xs, ys, hperm, hlen with
        | [], [], _, _ => rfl
        | [a], [b], hp, _ => rw [List.perm_singleton.1 hp]
        | _ :: _ :: _, _ :: _ :: _, _, _ => rfl
      simp only [step, hat, hB l hl, hN]
      cases hn : next I c l (blockOf c l) (execAll I (blockOf c l) (x.env, x.world)).1 with
      | none => exact ⟨rfl, by simp⟩
      | some s =>
        have hs : Reach c.graph.Edge c.entry s := .step hl (next_edge m.wf hn)
        refine ⟨by simp only [hB s hs], ?_⟩
        intro y hy
        simp only [Option.some.injEq] at hy
        rw [← hy]
        exact hs

theorem round_ok {c : Cfg} (P : SsaProgram c) : ∃ c' b, branchRound c = some (c', b) ∧ SsaProgram c' ∧
    simplifyPhis c' = some (c', false) ∧ PhisComplete c' ∧ c'.entry = c.entry ∧
    (b = false → c' = c ∧ BranchesOpen c) ∧
    size c' ≤ size c ∧ (b = true → size c' < size c ∨ simplifyPhis c ≠ some (c, false)) ∧
    (OnlyBranchesFork c → OnlyBranchesFork c') ∧
    (NoBigIntBranch c → NoBigIntBranch c' ∧ SameRunsConst c c') := by
  obtain ⟨c1, b1, e1, v, o⟩ := visitBranches_ok (sound_of P) (ls := c.graph.labelsSorted)
    (fun l hl => P.nodes l (contains_iff.2 (by simpa [Graph.labelsSorted, mem_sortLabels] using hl)))
  obtain ⟨c2, u, e2, m2, p2, hu0, hu1, hblk, hm, hedge⟩ := popped v.mid
  have p := v.pruned.trans p2
  have hentry : c2.entry = c.entry := p.entry
  have hreach : ∀ {x}, Reach c1.graph.Edge c1.entry x → Reach c2.graph.Edge c2.entry x := by
    intro x h
    rw [p2.entry]
    induction h with
    | refl => exact .refl
    | step h1 h2 ih => exact .step ih ((hedge _ _).2 ⟨h2, h1⟩)
  have P2 : SsaProgram c2 := by
    refine ⟨m2.graph, m2.wf, pruned_ssa p P.wf P.ssa m2.wf.entryBlock m2.wf.edgeBlock, ⟨?_, ?_⟩, ?_, ?_,
      m2.nodes, m2.taken⟩
    · intro l hl
      have hlu : l ∉ u := by
        intro h
        rw [hblk, if_pos h] at hl
        simp at hl
      rw [hblk, if_neg hlu] at hl
      have hl0 : (Cfg.block c l).isSome := by
        simp only [Cfg.block] at hl ⊢
        rw [lookup_isSome_iff] at hl ⊢
        rw [← v.keys]
        exact hl
      refine hreach (Classical.byContradiction (fun hr => hlu ((hm l).2 ⟨?_, hr⟩)))
      rw [v.nodes]
      cases P.reach.1 l hl0 with
      | refl => exact absurd (v.pruned.entry ▸ .refl) hr
      | step h1 h2 =>
        obtain ⟨ops, hg⟩ := P.graph
        have w := ((C26_history ops).2 _ hg).wf
        exact mem_labels_of_parent ((w.sym _ _).1 h2)
    · intro a b h
      exact hreach ((hedge a b).1 h).2
    · intro k i e
      rw [hentry] at e
      exact P.entry k i (pruned_instAt p e)
    · intro l k i e ht q hq
      exact P.cover l k i (pruned_instAt p e) ht q (p.edge _ _ hq)
  obtain ⟨c3, b3, e3, s, hk, hb⟩ := simplifyPhis_ok P2
  have hs3 := size_simplified ⟨b3, e3⟩ P2
  have hs1 := v.size_le
  have hs2 : size c2 ≤ size c1 := by
    by_cases hu : u = []
    · rw [hu0 hu]; exact Nat.le_refl _
    · exact Nat.le_of_lt (hu1 hu)
  refine ⟨c3, b1 || !u.isEmpty || b3, by simp [branchRound, e1, e2, e3], simp_program P2 s hk, simp_idem P2 s hk,
    simp_complete P2 s, s.2.1.trans hentry, ?_, by omega, ?_, ?_, ?_⟩
  · intro hf
    simp only [Bool.or_eq_false_iff, Bool.not_eq_false', List.isEmpty_iff] at hf
    obtain ⟨⟨hf1, hf2⟩, hf3⟩ := hf
    refine ⟨by rw [hb.1 hf3, hu0 hf2, v.same hf1], ?_⟩
    intro l k i e ht
    by_cases hl : c.graph.contains l = true
    · refine o hf1 l ?_ k i e ht
      simpa [Graph.labelsSorted, mem_sortLabels] using contains_iff.1 hl
    · exfalso
      have hsh := P.wf.shape l k i e
      simp only [Shape, ht] at hsh
      obtain ⟨-, -, t, f, hlab⟩ := hsh
      have := P.wf.branchTo l k i e ht t (by simp [hlab])
      exact hl (contains_iff.2 (mem_labels_of_child this))
  · intro hbt
    cases h1 : b1 with
    | true => have := v.size_lt h1; left; omega
    | false =>
      by_cases hu : u = []
      · right
        have hc2 : c2 = c := by rw [hu0 hu, v.same h1]
        rw [h1, hu] at hbt
        simp only [List.isEmpty_nil, Bool.not_true, Bool.or_false, Bool.false_or] at hbt
        rw [hc2, hbt] at e3
        rw [e3]
        simp
      · have := hu1 hu; left; omega
  · intro ho l hpl a b ha hb'
    rw [s.1] at ha hb'
    obtain ⟨ha, hr⟩ := (hedge _ _).1 ha
    refine v.only ho l (fun k i e ht => ?_) a b ha ((hedge _ _).1 hb').1
    have e2 : instAt c2 l k = some i := by
      simp only [instAt, blockOf, hblk]
      rw [if_neg (fun h' => ((hm l).1 h').2 hr)]
      exact e
    rcases simp_cases P2 s e2 with ⟨h1, h2⟩ | ⟨h1, -⟩ | ⟨h1, -⟩
    · exact hpl k i h2 ht
    · rw [ht] at h1; cases h1
    · rw [ht] at h1; cases h1
  · intro hn
    have hn2 := noBig_pruned p hn
    refine ⟨?_, ?_⟩
    · intro l k i' e ht z
      obtain ⟨i, g1, -, -⟩ := simp_back P2 s e
      rcases simp_cases P2 s g1 with ⟨h1, h2⟩ | ⟨h1, q, t, a, -, h3, -, h2⟩ | ⟨h1, j, h2, h3, -⟩
      · rw [e] at h2; cases h2; exact hn2 l k _ g1 ht z
      · rw [e] at h2; cases h2; cases ht
      · rw [e] at h2; cases h2; rw [ht] at h3; cases h3
    · intro V W I hI e w n
      obtain ⟨h1, h2, -⟩ := simp_run (I := I) P2 s e w n
      have h3 := (run_popped (I := I) v.mid p2.entry m2 hblk hm hedge e w n).1
      have h4 : Opt.run I c1 e w n = Opt.run I c e w n := by
        induction n with
        | zero => simp [Opt.run, v.pruned.entry]
        | succ n ih =>
          obtain ⟨g1, g2, -⟩ := simp_run (I := I) P2 s e w n
          have g3 := (run_popped (I := I) v.mid p2.entry m2 hblk hm hedge e w n).1
          have : Opt.run I c1 e w (n + 1) = step I c1 (Opt.run I c1 e w n) := rfl
          rw [this, ih g1 g2 g3, v.steps I hI hn]
          rfl
      rw [h1, h2, h3, h4]
      exact ⟨rfl, rfl⟩

theorem loop_ok : ∀ (n : Nat) {c : Cfg}, SsaProgram c →
    2 * size c + (if simplifyPhis c = some (c, false) then 1 else 2) ≤ n →
    ∃ c', (∀ fuel, n ≤ fuel → impossibleBranches fuel c = some c') ∧ SsaProgram c' ∧ PhisComplete c' ∧
      BranchesOpen c' ∧ c'.entry = c.entry ∧
      (NoBigIntBranch c → SameRunsConst c c') ∧ simplifyPhis c' = some (c', false) ∧
      (OnlyBranchesFork c → OnlyBranchesFork c')
  | 0, c, _, h => by
    split at h <;> omega
  | n + 1, c, P, h => by
    obtain ⟨c1, b, e, P1, hid, hcomp, hent, hf, hle, hlt, honly, hruns⟩ := round_ok P
    cases hb : b with
    | false =>
      obtain ⟨rfl, hopen⟩ := hf hb
      refine ⟨c1, ?_, P1, hcomp, hopen, rfl, fun _ _ _ _ _ _ _ _ => ⟨rfl, rfl⟩, hid, id⟩
      intro fuel hfu
      obtain ⟨k, rfl⟩ := Nat.exists_eq_add_of_le hfu
      rw [show n + 1 + k = (n + k) + 1 by omega]
      simp [impossibleBranches, e, hb]
    | true =>
      have hdec : 2 * size c1 + (if simplifyPhis c1 = some (c1, false) then 1 else 2) ≤ n := by
        rw [if_pos hid]
        rcases hlt hb with hl | hl
        · split at h <;> omega
        · rw [if_neg hl] at h
          omega
      obtain ⟨c2, h1, h2, h3, h4, h5, h6, h7, h8⟩ := loop_ok n P1 hdec
      refine ⟨c2, ?_, h2, h3, h4, h5.trans hent, ?_, h7, h8 ∘ honly⟩
      · intro fuel hfu
        obtain ⟨k, rfl⟩ := Nat.exists_eq_add_of_le hfu
        rw [show n + 1 + k = (n + k) + 1 by omega]
        simp only [impossibleBranches, e, hb, Option.bind_eq_bind, Option.bind_some, if_true]
        exact h1 (n + k) (by omega)
      · intro hn
        obtain ⟨g1, g2⟩ := hruns hn
        intro V W I hI e w m
        obtain ⟨a1, a2⟩ := g2 I hI e w m
        obtain ⟨a3, a4⟩ := h6 g1 I hI e w m
        exact ⟨a3.trans a1, a4.trans a2⟩

end Verif.Ssa
