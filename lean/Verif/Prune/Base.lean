import Verif.Prune.Surgery
import Verif.Prune.Spec
/-!
# What every step of the pass keeps, and how runs and strict SSA are carried over
-/

namespace Verif.Prune

open Verif.Il Verif.Graph Verif.Opt Verif.Ssa

/-- The programs between two steps of the pass. -/
structure Inv (c : Cfg) : Prop where
  prog : SsaProgram c
  exact : ∀ l k i, instAt c l k = some i → i.t = .phi → ∀ p ∈ i.labels, c.graph.Edge p l
  forks : BranchesFork c
  only : OnlyBranchesFork c
  race : NoRace c
  apart : EntryApart c

theorem NoRace.joins {c : Cfg} (h : NoRace c) : PhisJoin c := by
  intro l k i e ht
  match hl : i.labels with
  | [] =>
    obtain ⟨p, hp, -⟩ := (h l k i e ht 0).1
    rw [hl] at hp
    cases hp
  | [q] =>
    obtain ⟨p, hp, hc⟩ := (h l k i e ht q).1
    rw [hl] at hp
    simp only [List.mem_singleton] at hp
    subst hp
    exact absurd .refl hc
  | _ :: _ :: _ => simp

theorem Inv.joins {c : Cfg} (h : Inv c) : PhisJoin c := h.race.joins

theorem Chain.snoc {c : Cfg} {a b d : Nat} (h : Chain c a b) (e : c.graph.Edge b d) (hd : Hollow c d) :
    Chain c a d := by
  induction h with
  | refl => exact .step e hd .refl
  | step e1 h1 _ ih => exact .step e1 h1 (ih e)

theorem Inv.hist {c : Cfg} (h : Inv c) : Hist c.graph := h.prog.graph

theorem blockOf_some {c : Cfg} {l : Nat} {is : List Inst} (h : Cfg.block c l = some is) : blockOf c l = is := by
  simp [blockOf, h]

theorem block_of_instAt {c : Cfg} {l k : Nat} {i : Inst} (e : instAt c l k = some i) :
    Cfg.block c l = some (blockOf c l) := by
  cases h : Cfg.block c l with
  | none => simp [instAt, blockOf, h] at e
  | some is => simp [blockOf, h]

theorem block_of_isSome {c : Cfg} {l : Nat} (h : (Cfg.block c l).isSome) : Cfg.block c l = some (blockOf c l) := by
  cases h' : Cfg.block c l with
  | none => simp [h'] at h
  | some is => simp [blockOf, h']

theorem Inv.phi_pred {c : Cfg} (h : Inv c) {l k : Nat} {i : Inst} (e : instAt c l k = some i) (ht : i.t = .phi) :
    ∃ p q, p ≠ q ∧ c.graph.Edge p l ∧ c.graph.Edge q l := by
  have h2 := h.joins l k i e ht
  have hn := h.prog.wf.phiOnce l k i e ht
  have hx := h.exact l k i e ht
  match hl : i.labels with
  | [] => rw [hl] at h2; simp at h2
  | [_] => rw [hl] at h2; simp at h2
  | p :: q :: r =>
    rw [hl] at hn hx
    refine ⟨p, q, ?_, hx p (by simp), hx q (by simp)⟩
    rintro rfl
    simp at hn

/-- A block with one predecessor has no phis. -/
theorem Inv.lone {c : Cfg} (h : Inv c) {l p : Nat} (hp : ∀ q, c.graph.Edge q l → q = p) (k : Nat) (i : Inst)
    (e : instAt c l k = some i) : i.t ≠ .phi := by
  intro ht
  obtain ⟨a, b, hne, ha, hb⟩ := h.phi_pred e ht
  exact hne ((hp a ha).trans (hp b hb).symm)

theorem mem_instAt {c : Cfg} {l : Nat} {i : Inst} (h : i ∈ blockOf c l) : ∃ k, instAt c l k = some i :=
  List.getElem?_of_mem h

theorem instAt_mem {c : Cfg} {l k : Nat} {i : Inst} (h : instAt c l k = some i) : i ∈ blockOf c l :=
  List.mem_of_getElem? h

/-- The last instruction of a block, if it is a branch. -/
theorem branch_shape {c : Cfg} (h : Inv c) {l k : Nat} {i : Inst} (e : instAt c l k = some i) (ht : i.t = .condGoto) :
    ∃ is a t f, blockOf c l = is ++ [i] ∧ i.tgts = [] ∧ i.args = [a] ∧ i.labels = [t, f] ∧ t ≠ f ∧
      c.graph.Edge l t ∧ c.graph.Edge l f ∧ (∀ s, c.graph.Edge l s → s = t ∨ s = f) ∧
      ∀ j ∈ is, j.t ≠ .condGoto := by
  have hs := h.prog.wf.shape l k i e
  simp only [Shape, ht] at hs
  obtain ⟨h1, ⟨a, h2⟩, t, f, h3⟩ := hs
  have hl := h.prog.wf.branchLast l k i e ht
  have hf := h.forks l k i e ht
  have ht' := h.prog.wf.branchTo l k i e ht
  have htk := h.prog.taken l k i e ht
  rw [h3] at hf ht' htk
  have hlast : (blockOf c l).getLast? = some i := by
    rw [List.getLast?_eq_getElem?, ← hl]
    exact e
  have hsp := getLast_split hlast
  refine ⟨(blockOf c l).dropLast, a, t, f, hsp, h1, h2, h3, ?_, ht' t (by simp), ht' f (by simp), ?_, ?_⟩
  · rintro rfl; simp at hf
  · intro s hs
    simpa using htk s hs
  · intro j hj htj
    obtain ⟨k', hk'⟩ := List.getElem?_of_mem hj
    obtain ⟨hlt, -⟩ := List.getElem?_eq_some_iff.1 hk'
    have e' : instAt c l k' = some j := by
      rw [instAt, hsp, List.getElem?_append_left hlt, hk']
    have := h.prog.wf.branchLast l k' j e' htj
    simp only [List.length_dropLast] at hlt
    omega

/-! ## Runs -/

section
variable {V W : Type} {I : Interp V W}

/-- Several steps. -/
def steps (I : Interp V W) (c : Cfg) : Nat → Conf V W → Conf V W
  | 0, x => x
  | n + 1, x => Opt.step I c (steps I c n x)

theorem run_steps {c : Cfg} {e : Nat → V} {w : W} (m : Nat) : ∀ n, steps I c n (Opt.run I c e w m) = Opt.run I c e w (m + n)
  | 0 => rfl
  | n + 1 => by rw [steps, run_steps m n]; rfl

end

theorem skips_of {c c' : Cfg} (R : ∀ {V W : Type}, Conf V W → Conf V W → Prop)
    (h0 : ∀ {V W : Type} (I : Interp V W) (e : Nat → V) (w : W), ∃ j, R (Opt.run I c' e w 0) (Opt.run I c e w j))
    (hs : ∀ {V W : Type} (I : Interp V W) (x' x : Conf V W), R x' x → ∃ j, R (Opt.step I c' x') (steps I c (j + 1) x))
    (hr : ∀ {V W : Type} (x' x : Conf V W), R x' x → (x'.at_ = none ↔ x.at_ = none) ∧ x'.world = x.world) :
    Skips c c' := by
  intro V W I e w
  have key : ∀ k m, ∃ m', m < m' ∧ (R (Opt.run I c' e w k) (Opt.run I c e w m) →
      R (Opt.run I c' e w (k + 1)) (Opt.run I c e w m')) := by
    intro k m
    by_cases h : R (Opt.run I c' e w k) (Opt.run I c e w m)
    · obtain ⟨j, h1⟩ := hs I _ _ h
      rw [run_steps] at h1
      exact ⟨m + (j + 1), by omega, fun _ => h1⟩
    · exact ⟨m + 1, by omega, fun h' => absurd h' h⟩
  obtain ⟨m0, hm0⟩ := h0 I e w
  let f : Nat → Nat := fun k => Nat.rec m0 (fun k m => (key k m).choose) k
  have hf : ∀ k, f (k + 1) = (key k (f k)).choose := fun _ => rfl
  have hR : ∀ k, R (Opt.run I c' e w k) (Opt.run I c e w (f k)) := by
    intro k
    induction k with
    | zero => exact hm0
    | succ k ih =>
      rw [hf]
      exact (key k (f k)).choose_spec.2 ih
  refine ⟨f, ?_, fun k => hr _ _ (hR k)⟩
  intro k
  rw [hf]
  exact (key k (f k)).choose_spec.1

theorem Skips.refl (c : Cfg) : Skips c c :=
  fun _ _ _ _ _ => ⟨fun k => k, fun k => Nat.lt_succ_self k, fun _ => ⟨Iff.rfl, rfl⟩⟩

theorem mono_le {f : Nat → Nat} (h : ∀ k, f k < f (k + 1)) {a b : Nat} (hab : a < b) : f a < f b := by
  induction b with
  | zero => omega
  | succ b ih =>
    by_cases hb : a = b
    · subst hb; exact h a
    · exact Nat.lt_trans (ih (by omega)) (h b)

theorem Skips.trans {a b c : Cfg} (h : Skips a b) (h' : Skips b c) : Skips a c := by
  intro V W I e w
  obtain ⟨f, h1, h2⟩ := h V W I e w
  obtain ⟨g, h3, h4⟩ := h' V W I e w
  exact ⟨fun k => f (g k), fun k => mono_le h1 (h3 k),
    fun k => ⟨(h4 k).1.trans (h2 (g k)).1, (h4 k).2.trans (h2 (g k)).2⟩⟩

theorem SameRuns.skips {c c' : Cfg} (h : SameRuns c c') : Skips c c' := by
  intro V W I e w
  refine ⟨fun k => k, fun k => Nat.lt_succ_self k, fun k => ?_⟩
  obtain ⟨h1, h2⟩ := h I e w k
  exact ⟨by rw [h1], h2⟩

section
variable {V W : Type} {I : Interp V W}

theorem step_to {c : Cfg} {l n : Nat} {e : Nat → V} {w : W} {s : (Nat → V) × W}
    (hs : execAll I (blockOf c l) (e, w) = s) (h : next I c l (blockOf c l) s.1 = some n) :
    Opt.step I c ⟨some l, e, w⟩ = ⟨some n, enter I s.1 l (blockOf c n) s.1, s.2⟩ := by
  subst hs
  simp only [Opt.step, h]

theorem step_end {c : Cfg} {l : Nat} {e : Nat → V} {w : W} {s : (Nat → V) × W}
    (hs : execAll I (blockOf c l) (e, w) = s) (h : next I c l (blockOf c l) s.1 = none) :
    Opt.step I c ⟨some l, e, w⟩ = ⟨none, s.1, s.2⟩ := by
  subst hs
  simp only [Opt.step, h]

theorem execAll_nil {s : (Nat → V) × W} : execAll I [] s = s := rfl

theorem next_plain {c : Cfg} {l : Nat} {is : List Inst} (h : ∀ i ∈ is, i.t ≠ .condGoto) (e : Nat → V) :
    next I c l is e = match c.graph.children l with
      | [s] => some s
      | _ => none := by
  simp only [next]
  cases hl : is.getLast? with
  | none => rfl
  | some i =>
    have : i ∈ is := List.mem_of_getLast? hl
    simp only [if_neg (h i this)]
    rfl

/-- A block without branch goes to its successor. -/
theorem next_edge_plain {c : Cfg} (w : WF c.graph) {l s : Nat} {is : List Inst} (h : ∀ i ∈ is, i.t ≠ .condGoto)
    (he : ∀ y, c.graph.Edge l y ↔ y = s) (e : Nat → V) : next I c l is e = some s := by
  rw [next_plain h, singleton_of (w.ncs l) he]

theorem next_none_plain {c : Cfg} {l : Nat} {is : List Inst} (h : ∀ i ∈ is, i.t ≠ .condGoto)
    (he : ∀ y, ¬ c.graph.Edge l y) (e : Nat → V) : next I c l is e = none := by
  have : c.graph.children l = [] := List.eq_nil_iff_forall_not_mem.2 he
  rw [next_plain h, this]

theorem next_branch {c : Cfg} {l : Nat} {is : List Inst} {i : Inst} {a : Arg} {t f : Nat} (ht : i.t = .condGoto)
    (ha : i.args = [a]) (hl : i.labels = [t, f]) (e : Nat → V) :
    next I c l (is ++ [i]) e = some (if I.truthy (valOf I e a) then t else f) := by
  simp [next, ht, ha, hl]

theorem enter_nophi {src : Nat → V} {p : Nat} : ∀ {is : List Inst} {e : Nat → V}, (∀ i ∈ is, i.t ≠ .phi) →
    enter I src p is e = e
  | [], _, _ => rfl
  | i :: is, e, h => by
    rw [enter, if_neg (h i (by simp))]
    exact enter_nophi (fun j hj => h j (by simp [hj]))

theorem enter_append {src : Nat → V} {p : Nat} : ∀ {is js : List Inst} {e : Nat → V},
    enter I src p (is ++ js) e = enter I src p js (enter I src p is e)
  | [], _, _ => rfl
  | i :: is, js, e => by
    simp only [List.cons_append, enter]
    exact enter_append

theorem execAll_append {is js : List Inst} {s : (Nat → V) × W} :
    execAll I (is ++ js) s = execAll I js (execAll I is s) := by
  simp [execAll]

theorem exec_branch {i : Inst} (h : i.t = .condGoto) (s : (Nat → V) × W) : exec I i s = s := by
  simp [exec, h]

end

/-! ## Strict SSA -/

/-- Strict SSA is kept if every instruction of the new program comes from one of the old program that writes and
reads the same, and every walk of the new program comes from one of the old program that passes no more
definitions. -/
theorem ssa_map {c c' : Cfg} (ssa : StrictSSA c) (π : Nat → Nat → Nat × Nat) (τ : Site → Site)
    (inst : ∀ l k i', instAt c' l k = some i' → ∃ i, instAt c (π l k).1 (π l k).2 = some i ∧ i.tgts = i'.tgts ∧
      i.t = i'.t ∧ (i.t ≠ .phi → i'.args = i.args))
    (inj : ∀ l k i l2 k2 i2, instAt c' l k = some i → instAt c' l2 k2 = some i2 → π l k = π l2 k2 →
      l = l2 ∧ k = k2)
    (defs : ∀ d' v, Defines c' d' v → ∃ d, Defines c d v ∧ τ d = d')
    (trail : ∀ l k i, instAt c' l k = some i → i.t ≠ .phi → ∀ ms', Trail c' ms' l k →
      ∃ ms, Trail c ms (π l k).1 (π l k).2 ∧ ∀ d ∈ ms, ∀ v, Defines c d v → τ d ∈ ms')
    (phi : ∀ l k i, instAt c' l k = some i → i.t = .phi → ∀ p a, (p, a) ∈ i.labels.zip i.args →
      ∃ p0 l0 k0 i0, instAt c l0 k0 = some i0 ∧ i0.t = .phi ∧ (p0, a) ∈ i0.labels.zip i0.args ∧
        ∀ ms', Trail c' ms' p (blockOf c' p).length →
          ∃ ms, Trail c ms p0 (blockOf c p0).length ∧ ∀ d ∈ ms, ∀ v, Defines c d v → τ d ∈ ms') :
    StrictSSA c' := by
  refine ⟨?_, ?_, ?_⟩
  · intro l k i l' k' i' v e e' h h'
    obtain ⟨j, e1, e2, -⟩ := inst l k i e
    obtain ⟨j', e1', e2', -⟩ := inst l' k' i' e'
    have := ssa.once _ _ _ _ _ _ v e1 e1' (e2 ▸ h) (e2' ▸ h')
    exact inj l k i l' k' i' e e' (Prod.ext this.1 this.2)
  · intro l k i e ht a ha x hx d' hd' ms' tr'
    obtain ⟨j, e1, e2, e3, e4⟩ := inst l k i e
    obtain ⟨d, hd, rfl⟩ := defs d' x hd'
    obtain ⟨ms, tr, h⟩ := trail l k i e ht ms' tr'
    rw [← e3] at ht
    exact h d (ssa.avail _ _ _ e1 ht a (by rw [← e4 ht]; exact ha) x hx d hd ms tr) x hd
  · intro l k i e ht p a hpa x hx d' hd' ms' tr'
    obtain ⟨p0, l0, k0, i0, e1, e2, e3, e4⟩ := phi l k i e ht p a hpa
    obtain ⟨d, hd, rfl⟩ := defs d' x hd'
    obtain ⟨ms, tr, h⟩ := e4 ms' tr'
    exact h d (ssa.availPhi _ _ _ e1 e2 p0 a e3 x hx d hd ms tr) x hd

end Verif.Prune
