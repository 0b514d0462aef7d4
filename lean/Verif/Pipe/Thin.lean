import Verif.Opt.DvnRoots
import Verif.Ssa.PassTheorems
/-!
# Passes that remove instructions and change arguments
-/

namespace Verif.Pipe

open Verif.Il Verif.Graph Verif.Dom Verif.Opt Verif.Ssa

/-! ## Lists -/

section
variable {g : Inst → Option Inst}

/-- How many of the first `k` are kept. -/
def cnt (g : Inst → Option Inst) (is : List Inst) (k : Nat) : Nat := ((is.take k).filterMap g).length

theorem cnt_zero {is : List Inst} : cnt g is 0 = 0 := by simp [cnt]

theorem cnt_kept {is : List Inst} {k : Nat} {i j : Inst} (h : is[k]? = some i) (hg : g i = some j) :
    cnt g is (k + 1) = cnt g is k + 1 := by
  simp [cnt, List.take_add_one, h, hg]

theorem cnt_dropped {is : List Inst} {k : Nat} {i : Inst} (h : is[k]? = some i) (hg : g i = none) :
    cnt g is (k + 1) = cnt g is k := by
  simp [cnt, List.take_add_one, h, hg]

theorem cnt_le_succ {is : List Inst} (k : Nat) : cnt g is k ≤ cnt g is (k + 1) := by
  cases h : is[k]? with
  | none => simp [cnt, List.take_add_one, h]
  | some i =>
    cases hg : g i with
    | none => rw [cnt_dropped h hg]; exact Nat.le_refl _
    | some j => rw [cnt_kept h hg]; exact Nat.le_succ _

theorem cnt_mono {is : List Inst} {k m : Nat} (h : k ≤ m) : cnt g is k ≤ cnt g is m := by
  obtain ⟨n, rfl⟩ := Nat.exists_eq_add_of_le h
  clear h
  induction n with
  | zero => exact Nat.le_refl _
  | succ n ih => exact Nat.le_trans ih (cnt_le_succ _)

theorem cnt_full {is : List Inst} : cnt g is is.length = (is.filterMap g).length := by simp [cnt]

theorem kept_at : ∀ {is : List Inst} {m : Nat} {j : Inst}, (is.filterMap g)[m]? = some j →
    ∃ k i, is[k]? = some i ∧ g i = some j ∧ cnt g is k = m
  | [], m, j, h => by simp at h
  | i :: is, m, j, h => by
    rw [List.filterMap_cons] at h
    cases hg : g i with
    | none =>
      rw [hg] at h
      obtain ⟨k, i', h1, h2, h3⟩ := kept_at h
      exact ⟨k + 1, i', h1, h2, by simpa [cnt, hg] using h3⟩
    | some j' =>
      rw [hg] at h
      cases m with
      | zero =>
        obtain rfl := Option.some.inj h
        exact ⟨0, i, rfl, hg, cnt_zero⟩
      | succ m =>
        obtain ⟨k, i', h1, h2, h3⟩ := kept_at (m := m) (by simpa using h)
        exact ⟨k + 1, i', h1, h2, by simpa [cnt, hg] using h3⟩

theorem at_kept {is : List Inst} {k : Nat} {i j : Inst} (h : is[k]? = some i) (hg : g i = some j) :
    (is.filterMap g)[cnt g is k]? = some j := by
  induction is generalizing k with
  | nil => simp at h
  | cons x xs ih =>
    cases k with
    | zero =>
      obtain rfl := Option.some.inj h
      simp [cnt, hg]
    | succ k =>
      have := ih (k := k) (by simpa using h)
      rw [List.filterMap_cons]
      cases hx : g x with
      | none => simpa [cnt, hx] using this
      | some y => simpa [cnt, hx] using this

theorem cnt_last {is : List Inst} : ∀ {k m : Nat}, cnt g is k = m + 1 →
    ∃ b i j, b < k ∧ is[b]? = some i ∧ g i = some j ∧ cnt g is b = m
  | 0, m, h => by rw [cnt_zero] at h; cases h
  | k + 1, m, h => by
    cases hi : is[k]? with
    | none =>
      have : cnt g is (k + 1) = cnt g is k := by simp [cnt, List.take_add_one, hi]
      rw [this] at h
      obtain ⟨b, i, j, h1, h2⟩ := cnt_last h
      exact ⟨b, i, j, by omega, h2⟩
    | some i =>
      cases hg : g i with
      | none =>
        rw [cnt_dropped hi hg] at h
        obtain ⟨b, i, j, h1, h2⟩ := cnt_last h
        exact ⟨b, i, j, by omega, h2⟩
      | some j =>
        rw [cnt_kept hi hg] at h
        exact ⟨k, i, j, Nat.lt_succ_self _, hi, hg, by omega⟩

end

/-! ## Programs -/

/-- The program with the instructions `g` keeps. -/
def thin (g : Inst → Option Inst) (c : Cfg) : Cfg := mapBlocks c (List.filterMap g)

section
variable {g : Inst → Option Inst} {c : Cfg}

theorem block_thin (l : Nat) : Cfg.block (thin g c) l = (Cfg.block c l).map (List.filterMap g) := by
  simp only [Cfg.block, thin, mapBlocks]
  generalize c.bblocks = bs
  induction bs with
  | nil => rfl
  | cons e bs ih =>
    obtain ⟨a, b⟩ := e
    simp only [List.map_cons, List.lookup_cons]
    cases l == a with
    | true => rfl
    | false => exact ih

theorem blockOf_thin (l : Nat) : blockOf (thin g c) l = (blockOf c l).filterMap g := by
  simp only [blockOf, block_thin]
  cases Cfg.block c l <;> simp

theorem keys_thin : (thin g c).bblocks.map (·.1) = c.bblocks.map (·.1) := by
  simp [thin, mapBlocks, Function.comp_def]

/-- Where an instruction comes from. -/
theorem thin_at {l m : Nat} {j : Inst} (h : instAt (thin g c) l m = some j) :
    ∃ k i, instAt c l k = some i ∧ g i = some j ∧ cnt g (blockOf c l) k = m := by
  rw [instAt, blockOf_thin] at h
  exact kept_at h

/-- A walk over instructions that are dropped. -/
theorem trail_over {ms : List Site} {l k0 : Nat} (tr : Trail c ms l k0) : ∀ n, k0 + n ≤ (blockOf c l).length →
    cnt g (blockOf c l) k0 = cnt g (blockOf c l) (k0 + n) →
    ∃ ms', Trail c ms' l (k0 + n) ∧ (∀ a, Site.phis a ∈ ms' → Site.phis a ∈ ms) ∧
      ∀ a b i j, Site.inst a b ∈ ms' → instAt c a b = some i → g i = some j → Site.inst a b ∈ ms := by
  intro n
  induction n with
  | zero => exact fun _ _ => ⟨ms, tr, fun _ h => h, fun _ _ _ _ h _ _ => h⟩
  | succ n ih =>
    intro hn he
    have h1 : cnt g (blockOf c l) k0 ≤ cnt g (blockOf c l) (k0 + n) := cnt_mono (by omega)
    have h2 : cnt g (blockOf c l) (k0 + n) ≤ cnt g (blockOf c l) (k0 + (n + 1)) := cnt_mono (by omega)
    obtain ⟨ms', t, g1, g2⟩ := ih (by omega) (by omega)
    refine ⟨_, .inst t (Nat.lt_of_lt_of_le (Nat.lt_succ_self _) hn), ?_, ?_⟩
    · intro a h
      rcases List.mem_cons.1 h with e | h
      · cases e
      · exact g1 a h
    · intro a b i j h hi hg
      rcases List.mem_cons.1 h with e | h
      · obtain ⟨rfl, rfl⟩ := Site.inst.inj e
        have h3 : cnt g (blockOf c a) (k0 + (n + 1)) = cnt g (blockOf c a) (k0 + n) + 1 :=
          cnt_kept (is := blockOf c a) hi hg
        omega
      · exact g2 a b i j h hi hg

/-- A walk through the smaller program is one through the larger. -/
theorem thin_trail {ms' : List Site} {l m : Nat} (tr : Trail (thin g c) ms' l m) :
    ∀ k, k ≤ (blockOf c l).length → cnt g (blockOf c l) k = m →
    ∃ ms, Trail c ms l k ∧ (∀ a, Site.phis a ∈ ms → Site.phis a ∈ ms') ∧
      ∀ a b i j, Site.inst a b ∈ ms → instAt c a b = some i → g i = some j →
        Site.inst a (cnt g (blockOf c a) b) ∈ ms' := by
  induction tr with
  | start =>
    intro k hk hc
    obtain ⟨ms, t, h1, h2⟩ := trail_over (g := g) (c := c) .start k (by rw [Nat.zero_add]; exact hk)
      (by rw [Nat.zero_add, cnt_zero]; exact hc.symm)
    rw [Nat.zero_add] at t
    exact ⟨ms, t, fun a h => absurd (h1 a h) (by simp), fun a b i j h hi hg => absurd (h2 a b i j h hi hg) (by simp)⟩
  | @inst ms' l m tr hm ih =>
    intro k hk hc
    obtain ⟨b, i, j, hb, hi, hg, hcb⟩ := cnt_last hc
    obtain ⟨ms, t, h1, h2⟩ := ih b (by omega) hcb
    have t2 : Trail c (.inst l b :: ms) l (b + 1) := .inst t (by omega)
    obtain ⟨ms2, t3, h3, h4⟩ := trail_over (g := g) t2 (k - (b + 1)) (by omega) (by
      rw [show b + 1 + (k - (b + 1)) = k by omega, hc, cnt_kept hi hg, hcb])
    rw [show b + 1 + (k - (b + 1)) = k by omega] at t3
    refine ⟨ms2, t3, ?_, ?_⟩
    · intro a h
      rcases List.mem_cons.1 (h3 a h) with e | h
      · cases e
      · exact List.mem_cons_of_mem _ (h1 a h)
    · intro a b' i' j' h hi' hg'
      rcases List.mem_cons.1 (h4 a b' i' j' h hi' hg') with e | h
      · obtain ⟨rfl, rfl⟩ := Site.inst.inj e
        rw [hcb]
        exact List.mem_cons_self
      · exact List.mem_cons_of_mem _ (h2 a b' i' j' h hi' hg')
  | @jump ms' l s tr he ih =>
    intro k hk hc
    obtain ⟨ms, t, h1, h2⟩ := ih _ (Nat.le_refl _) (by rw [blockOf_thin]; exact cnt_full)
    have t2 : Trail c (.phis s :: ms) s 0 := .jump t he
    obtain ⟨ms2, t3, h3, h4⟩ := trail_over (g := g) t2 k (by omega) (by rw [Nat.zero_add, cnt_zero]; exact hc.symm)
    rw [Nat.zero_add] at t3
    refine ⟨ms2, t3, ?_, ?_⟩
    · intro a h
      rcases List.mem_cons.1 (h3 a h) with e | h
      · exact List.mem_cons.2 (.inl e)
      · exact List.mem_cons_of_mem _ (h1 a h)
    · intro a b' i' j' h hi' hg'
      rcases List.mem_cons.1 (h4 a b' i' j' h hi' hg') with e | h
      · cases e
      · exact List.mem_cons_of_mem _ (h2 a b' i' j' h hi' hg')

end

/-- What is asked of the function: the instructions it keeps keep their kind, their labels and their targets, or
lose their targets; their new arguments are available; branches are kept. -/
structure Thins (g : Inst → Option Inst) (c : Cfg) : Prop where
  kind : ∀ l k i j, instAt c l k = some i → g i = some j → j.t = i.t ∧ j.labels = i.labels ∧
    (∀ v ∈ j.tgts, v ∈ i.tgts) ∧ Shape j
  branch : ∀ l k i, instAt c l k = some i → i.t = .condGoto → ∃ j, g i = some j
  avail : ∀ l k i j, instAt c l k = some i → g i = some j → i.t ≠ .phi → ∀ a ∈ j.args, Avail c a l k
  availPhi : ∀ l k i j, instAt c l k = some i → g i = some j → i.t = .phi → ∀ p a,
    (p, a) ∈ j.labels.zip j.args → Avail c a p (blockOf c p).length

section
variable {g : Inst → Option Inst} {c : Cfg}

theorem thin_avail (h : Thins g c) {a : Arg} {l k : Nat} (hk : k ≤ (blockOf c l).length) (av : Avail c a l k) :
    Avail (thin g c) a l (cnt g (blockOf c l) k) := by
  intro x hx d hd ms' tr
  obtain ⟨ms, t, h1, h2⟩ := thin_trail tr k hk rfl
  cases d with
  | inst p q =>
    obtain ⟨j, e, hp, hv⟩ := hd
    obtain ⟨b, i, hi, hg, rfl⟩ := thin_at e
    obtain ⟨g1, g2, g3, -⟩ := h.kind p b i j hi hg
    exact h2 p b i j (av x hx (.inst p b) ⟨i, hi, by rwa [← g1], g3 x hv⟩ ms t) hi hg
  | phis p =>
    obtain ⟨q, j, e, hp, hv⟩ := hd
    obtain ⟨b, i, hi, hg, rfl⟩ := thin_at e
    obtain ⟨g1, g2, g3, -⟩ := h.kind p b i j hi hg
    exact h1 p (av x hx (.phis p) ⟨b, i, hi, by rwa [← g1], g3 x hv⟩ ms t)

theorem thin_program (P : SsaProgram c) (h : Thins g c) : SsaProgram (thin g c) := by
  have wf := P.wf
  have hsome : ∀ l, (Cfg.block (thin g c) l).isSome ↔ (Cfg.block c l).isSome := by
    intro l
    rw [block_thin]
    simp
  refine ⟨P.graph, ⟨?_, ?_, ?_, ?_, ?_, ?_, ?_, ?_⟩, ⟨?_, ?_, ?_⟩, ⟨?_, P.reach.2⟩, ?_, ?_, ?_, ?_⟩
  · rw [keys_thin]; exact wf.labels
  · exact (hsome _).2 wf.entryBlock
  · exact fun a b e => (hsome _).2 (wf.edgeBlock a b e)
  · intro l m j e
    obtain ⟨k, i, hi, hg, -⟩ := thin_at e
    exact (h.kind l k i j hi hg).2.2.2
  · intro l m j e ht
    obtain ⟨k, i, hi, hg, rfl⟩ := thin_at e
    have hk := wf.branchLast l k i hi ((h.kind l k i j hi hg).1 ▸ ht)
    rw [blockOf_thin, ← cnt_full (g := g), ← hk, cnt_kept hi hg]
  · intro l m j e ht
    obtain ⟨k, i, hi, hg, -⟩ := thin_at e
    obtain ⟨g1, g2, -, -⟩ := h.kind l k i j hi hg
    rw [g2]
    exact wf.branchTo l k i hi (g1 ▸ ht)
  · intro l m m' j j' e ht hm e'
    obtain ⟨k, i, hi, hg, rfl⟩ := thin_at e
    obtain ⟨k', i', hi', hg', rfl⟩ := thin_at e'
    have hkk : k' ≤ k := by
      refine Classical.byContradiction fun hn => ?_
      have h1 := cnt_mono (g := g) (is := blockOf c l) (k := k + 1) (m := k') (by omega)
      rw [cnt_kept hi hg] at h1
      omega
    rw [(h.kind l k' i' j' hi' hg').1]
    exact wf.phiFirst l k k' i i' hi ((h.kind l k i j hi hg).1 ▸ ht) hkk hi'
  · intro l m j e ht
    obtain ⟨k, i, hi, hg, -⟩ := thin_at e
    obtain ⟨g1, g2, -, -⟩ := h.kind l k i j hi hg
    rw [g2]
    exact wf.phiOnce l k i hi (g1 ▸ ht)
  · intro l m j l' m' j' v e e' hv hv'
    obtain ⟨k, i, hi, hg, rfl⟩ := thin_at e
    obtain ⟨k', i', hi', hg', rfl⟩ := thin_at e'
    obtain ⟨rfl, rfl⟩ := P.ssa.once l k i l' k' i' v hi hi' ((h.kind l k i j hi hg).2.2.1 v hv)
      ((h.kind l' k' i' j' hi' hg').2.2.1 v hv')
    exact ⟨rfl, rfl⟩
  · intro l m j e ht a ha
    obtain ⟨k, i, hi, hg, rfl⟩ := thin_at e
    exact thin_avail h (Nat.le_of_lt (lt_of_instAt hi))
      (h.avail l k i j hi hg ((h.kind l k i j hi hg).1 ▸ ht) a ha)
  · intro l m j e ht p a hpa
    obtain ⟨k, i, hi, hg, rfl⟩ := thin_at e
    have := thin_avail h (Nat.le_refl _) (h.availPhi l k i j hi hg ((h.kind l k i j hi hg).1 ▸ ht) p a hpa)
    rwa [cnt_full, ← blockOf_thin] at this
  · intro l hl
    exact P.reach.1 l ((hsome l).1 hl)
  · intro m j e
    obtain ⟨k, i, hi, hg, -⟩ := thin_at e
    rw [(h.kind _ k i j hi hg).1]
    exact P.entry k i hi
  · intro l m j e ht p hp
    obtain ⟨k, i, hi, hg, -⟩ := thin_at e
    obtain ⟨g1, g2, -, -⟩ := h.kind l k i j hi hg
    rw [g2]
    exact P.cover l k i hi (g1 ▸ ht) p hp
  · exact fun l hl => (hsome l).2 (P.nodes l hl)
  · intro l m j e ht s hs
    obtain ⟨k, i, hi, hg, -⟩ := thin_at e
    obtain ⟨g1, g2, -, -⟩ := h.kind l k i j hi hg
    rw [g2]
    exact P.taken l k i hi (g1 ▸ ht) s hs

theorem thin_only (h : Thins g c) (ho : OnlyBranchesFork c) : OnlyBranchesFork (thin g c) := by
  intro l hpl a b ha hb
  refine ho l (fun k i hi ht => ?_) a b ha hb
  obtain ⟨j, hg⟩ := h.branch l k i hi ht
  have e : instAt (thin g c) l (cnt g (blockOf c l) k) = some j := by
    rw [instAt, blockOf_thin]
    exact at_kept hi hg
  exact hpl _ j e ((h.kind l k i j hi hg).1 ▸ ht)

end

/-! ## Unused results -/

theorem trivialDce_eq (c : Cfg) : trivialDce c = thin (dceInst (usedVars c)) c := rfl

theorem dce_thins {c : Cfg} (P : SsaProgram c) : Thins (dceInst (usedVars c)) c where
  kind := by
    intro l k i j hi hg
    have sh := P.wf.shape l k i hi
    rcases dceInst_cases (usedVars c) i with h | ⟨ht, -, h⟩ | ⟨-, -, -, h⟩
    · rw [h] at hg
      obtain rfl := Option.some.inj hg
      exact ⟨rfl, rfl, fun _ h => h, sh⟩
    · rw [h] at hg
      obtain rfl := Option.some.inj hg
      refine ⟨rfl, rfl, by simp, ?_⟩
      simp only [Shape, ht] at sh ⊢
      exact ⟨by simp, sh.2⟩
    · rw [h] at hg
      cases hg
  branch := by
    intro l k i hi ht
    have sh := P.wf.shape l k i hi
    simp only [Shape, ht] at sh
    rcases dceInst_cases (usedVars c) i with h | ⟨ht', -, h⟩ | ⟨-, h, -, -⟩
    · exact ⟨_, h⟩
    · exact ⟨_, h⟩
    · exact absurd sh.1 h
  avail := by
    intro l k i j hi hg ht a ha
    rcases dceInst_cases (usedVars c) i with h | ⟨-, -, h⟩ | ⟨-, -, -, h⟩
    · rw [h] at hg
      obtain rfl := Option.some.inj hg
      exact P.ssa.avail l k i hi ht a ha
    · rw [h] at hg
      obtain rfl := Option.some.inj hg
      exact P.ssa.avail l k i hi ht a ha
    · rw [h] at hg
      cases hg
  availPhi := by
    intro l k i j hi hg ht p a hpa
    rcases dceInst_cases (usedVars c) i with h | ⟨-, -, h⟩ | ⟨-, -, -, h⟩
    · rw [h] at hg
      obtain rfl := Option.some.inj hg
      exact P.ssa.availPhi l k i hi ht p a hpa
    · rw [h] at hg
      obtain rfl := Option.some.inj hg
      exact P.ssa.availPhi l k i hi ht p a hpa
    · rw [h] at hg
      cases hg

theorem dce_chains {c : Cfg} (nc : NoCopyChains c) : NoCopyChains (trivialDce c) := by
  have key : ∀ {l m j}, instAt (trivialDce c) l m = some j → j.t = .varAssign → ∃ k, instAt c l k = some j := by
    intro l m j e ht
    rw [trivialDce_eq] at e
    obtain ⟨k, i, hi, hg, -⟩ := thin_at e
    rcases dceInst_cases (usedVars c) i with h | ⟨ht', -, h⟩ | ⟨-, -, -, h⟩
    · rw [h] at hg
      obtain rfl := Option.some.inj hg
      exact ⟨k, hi⟩
    · rw [h] at hg
      obtain rfl := Option.some.inj hg
      rw [ht'] at ht
      cases ht
    · rw [h] at hg
      cases hg
  intro l k i l' k' i' y e ht hy e' ht'
  obtain ⟨b, hb⟩ := key e ht
  obtain ⟨b', hb'⟩ := key e' ht'
  exact nc l b i l' b' i' y hb ht hy hb' ht'

/-! ## Copies -/

theorem copies_eq {c c' : Cfg} (h : redundantAssigns c = some c') : ∃ m,
    collectCopies (c.bblocks.flatMap (·.2)) [] = some m ∧
    c' = thin (fun i => if i.t = .varAssign then none else some (substInst m i)) c := by
  simp only [redundantAssigns, Option.bind_eq_bind, Option.bind_eq_some_iff, Option.some.injEq] at h
  obtain ⟨m, h1, rfl⟩ := h
  refine ⟨m, h1, ?_⟩
  rw [thin]
  congr 1
  funext is
  exact copyBlock_eq m is

theorem subst_avail {c : Cfg} (P : SsaProgram c) {m : List (Nat × Arg)} (hm : CopyMap c m) {a : Arg} {l k : Nat}
    (av : Avail c a l k) : Avail c (substArg m a) l k := by
  cases a with
  | var t =>
    simp only [substArg]
    cases hl : m.lookup t with
    | none => exact av
    | some b =>
      obtain ⟨x, y, i, hi, ht, h1, h2⟩ := (hm t b).1 hl
      have hp : i.t ≠ .phi := by rw [ht]; simp
      exact avail_trans (P.ssa.avail x y i hi hp b (by simp [h2]))
        (av t rfl (.inst x y) ⟨i, hi, hp, by simp [h1]⟩)
  | builtin p => exact av
  | const p => exact av
  | fn p => exact av

theorem copies_thins {c : Cfg} (P : SsaProgram c) {m : List (Nat × Arg)} (hm : CopyMap c m) :
    Thins (fun i => if i.t = .varAssign then none else some (substInst m i)) c where
  kind := by
    intro l k i j hi hg
    split at hg
    · cases hg
    · obtain rfl := Option.some.inj hg
      exact ⟨rfl, rfl, fun _ h => h, shape_args (P.wf.shape l k i hi)⟩
  branch := by
    intro l k i hi ht
    simp [ht]
  avail := by
    intro l k i j hi hg ht a ha
    split at hg
    · cases hg
    · obtain rfl := Option.some.inj hg
      obtain ⟨b, hb, rfl⟩ := List.mem_map.1 ha
      exact subst_avail P hm (P.ssa.avail l k i hi ht b hb)
  availPhi := by
    intro l k i j hi hg ht p a hpa
    split at hg
    · cases hg
    · obtain rfl := Option.some.inj hg
      simp only [substInst, zip_map_right, List.mem_map, Prod.mk.injEq, Prod.exists] at hpa
      obtain ⟨p', b, hb, rfl, rfl⟩ := hpa
      exact subst_avail P hm (P.ssa.availPhi l k i hi ht _ b hb)

end Verif.Pipe
