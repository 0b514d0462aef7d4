import Verif.Opt.Spec
/-!
# Walks, strict SSA, and the facts that hold at a point of a run
-/

namespace Verif.Opt

open Verif.Il Verif.Graph

variable {V W : Type}

/-- The point just after a site. -/
def Site.after : Site → Nat × Nat
  | .inst l k => (l, k + 1)
  | .phis l => (l, 0)

theorem trail_after {c : Cfg} {s : Site} {ms : List Site} {l k : Nat} (h : Trail c (s :: ms) l k) :
    s.after = (l, k) := by
  cases h <;> rfl

theorem trail_tail {c : Cfg} {s : Site} {ms : List Site} {l k : Nat} (h : Trail c (s :: ms) l k) :
    ∃ l' k', Trail c ms l' k' := by
  cases h with
  | inst h _ => exact ⟨_, _, h⟩
  | jump h _ => exact ⟨_, _, h⟩

theorem trail_suffix {c : Cfg} : ∀ {xs ms : List Site} {l k : Nat}, Trail c (xs ++ ms) l k →
    ∃ l' k', Trail c ms l' k' := by
  intro xs
  induction xs with
  | nil => exact fun h => ⟨_, _, h⟩
  | cons x xs ih =>
    intro ms l k h
    obtain ⟨l', k', h'⟩ := trail_tail h
    exact ih h'

theorem trail_inst {c : Cfg} {a b : Nat} {ms : List Site} {l k : Nat} (h : Trail c (.inst a b :: ms) l k) :
    Trail c ms a b := by
  cases h
  assumption

/-- If every walk to `(l, k)` passes `s`, and every walk that has just passed `s` has passed `(l, k)`, no walk
reaches `(l, k)`. -/
theorem no_trail {c : Cfg} {s : Site} {l k : Nat} (h1 : Passes c s l k)
    (h2 : ∀ ms l' k', Trail c (s :: ms) l' k' → Site.inst l k ∈ s :: ms) :
    ∀ (n : Nat) (ms : List Site), ms.length ≤ n → ¬ Trail c ms l k := by
  intro n
  induction n with
  | zero =>
    intro ms hn h
    have := h1 ms h
    cases ms with
    | nil => cases this
    | cons a as => simp at hn
  | succ n ih =>
    intro ms hn h
    obtain ⟨as, bs, rfl⟩ := List.append_of_mem (h1 ms h)
    obtain ⟨l', k', h'⟩ := trail_suffix h
    obtain ⟨cs, ds, e⟩ := List.append_of_mem (h2 bs l' k' h')
    have hlen := congrArg List.length e
    simp only [List.length_append, List.length_cons] at hn hlen
    rw [e] at h'
    obtain ⟨l'', k'', h''⟩ := trail_suffix h'
    exact ih ds (by omega) (trail_inst h'')

theorem passes_trans {c : Cfg} {d : Site} {l k l' k' : Nat} (h1 : Passes c d l k)
    (h2 : Passes c (.inst l k) l' k') : Passes c d l' k' := by
  intro ms h
  obtain ⟨as, bs, rfl⟩ := List.append_of_mem (h2 ms h)
  obtain ⟨_, _, h'⟩ := trail_suffix h
  exact List.mem_append_right _ (List.mem_cons_of_mem _ (h1 bs (trail_inst h')))

theorem avail_trans {c : Cfg} {a : Arg} {l k l' k' : Nat} (h1 : Avail c a l k)
    (h2 : Passes c (.inst l k) l' k') : Avail c a l' k' :=
  fun x e d hd => passes_trans (h1 x e d hd) h2

/-- A point that can be reached does not come after itself on every walk. -/
theorem not_passes_self {c : Cfg} {l k : Nat} {ms : List Site} (h : Trail c ms l k) :
    ¬ Passes c (.inst l k) l k :=
  fun hp => no_trail hp (fun _ _ _ _ => List.mem_cons_self) ms.length ms (Nat.le_refl _) h

theorem defines_unique {c : Cfg} (ssa : StrictSSA c) {d d' : Site} {v : Nat} (h : Defines c d v)
    (h' : Defines c d' v) : d = d' := by
  cases d with
  | inst l k =>
    obtain ⟨i, e, hn, hv⟩ := h
    cases d' with
    | inst l' k' =>
      obtain ⟨i', e', hn', hv'⟩ := h'
      obtain ⟨rfl, rfl⟩ := ssa.once _ _ _ _ _ _ _ e e' hv hv'
      rfl
    | phis l' =>
      obtain ⟨k', i', e', hn', hv'⟩ := h'
      obtain ⟨rfl, rfl⟩ := ssa.once _ _ _ _ _ _ _ e e' hv hv'
      rw [e] at e'
      obtain rfl := Option.some.inj e'
      exact absurd hn' hn
  | phis l =>
    obtain ⟨k, i, e, hn, hv⟩ := h
    cases d' with
    | inst l' k' =>
      obtain ⟨i', e', hn', hv'⟩ := h'
      obtain ⟨rfl, rfl⟩ := ssa.once _ _ _ _ _ _ _ e e' hv hv'
      rw [e] at e'
      obtain rfl := Option.some.inj e'
      exact absurd hn hn'
    | phis l' =>
      obtain ⟨k', i', e', hn', hv'⟩ := h'
      obtain ⟨rfl, rfl⟩ := ssa.once _ _ _ _ _ _ _ e e' hv hv'
      rfl

/-! ## Facts -/

theorem setAll_of_not_mem {e : Nat → V} {ts : List Nat} {v : V} {x : Nat} (h : x ∉ ts) :
    setAll e ts v x = e x := by
  simp [setAll, h]

theorem setAll_of_mem {e : Nat → V} {ts : List Nat} {v : V} {x : Nat} (h : x ∈ ts) :
    setAll e ts v x = v := by
  simp [setAll, h]

theorem exec_other (I : Interp V W) (i : Inst) (s : (Nat → V) × W) {x : Nat} (h : x ∉ i.tgts) :
    (exec I i s).1 x = s.1 x := by
  simp only [exec]
  split
  all_goals first
    | rfl
    | (split <;> simp [setAll, h])
    | simp [setAll, h]

theorem exec_phi (I : Interp V W) {i : Inst} (s : (Nat → V) × W) (h : i.t = .phi) : exec I i s = s := by
  simp [exec, h]

theorem enter_other (I : Interp V W) (src : Nat → V) (p : Nat) {x : Nat} :
    ∀ (is : List Inst) (e : Nat → V), (∀ i ∈ is, i.t = .phi → x ∉ i.tgts) → enter I src p is e x = e x := by
  intro is
  induction is with
  | nil => exact fun e _ => rfl
  | cons i is ih =>
    intro e h
    rw [enter, ih _ (fun j hj => h j (List.mem_cons_of_mem _ hj))]
    split
    · rename_i hp
      cases (i.labels.zip i.args).lookup p with
      | some a => exact setAll_of_not_mem (h i List.mem_cons_self hp)
      | none => rfl
    · rfl

theorem valOf_congr (I : Interp V W) {e e' : Nat → V} {a : Arg} (h : ∀ x, a = .var x → e x = e' x) :
    valOf I e a = valOf I e' a := by
  cases a with
  | var v => exact h v rfl
  | builtin p => rfl
  | const p => rfl
  | fn p => rfl

/-- The equation an instruction leaves behind: its target holds what it computes.  Only copies and
operations that do not look at the world leave one. -/
def Holds (I : Interp V W) (i : Inst) (e : Nat → V) : Prop :=
  match i.t with
  | .phi | .condGoto | .label | .goto | .dummy => True
  | .varAssign => ∀ a as, i.args = a :: as → ∀ t ∈ i.tgts, e t = valOf I e a
  | _ =>
    (∀ w w', (I.op (opcode i) (i.args.map (valOf I e)) w).1 = (I.op (opcode i) (i.args.map (valOf I e)) w').1) →
      ∀ t ∈ i.tgts, ∀ w, e t = (I.op (opcode i) (i.args.map (valOf I e)) w).1

theorem holds_congr (I : Interp V W) {i : Inst} {e e' : Nat → V} (ht : ∀ t ∈ i.tgts, e t = e' t)
    (ha : ∀ x, Arg.var x ∈ i.args → e x = e' x) (h : Holds I i e) : Holds I i e' := by
  have hm : i.args.map (valOf I e) = i.args.map (valOf I e') := by
    refine List.map_congr_left (fun a h => valOf_congr I (fun x hx => ha x (hx ▸ h)))
  have key : ((∀ w w', (I.op (opcode i) (i.args.map (valOf I e)) w).1 =
          (I.op (opcode i) (i.args.map (valOf I e)) w').1) →
        ∀ t ∈ i.tgts, ∀ w, e t = (I.op (opcode i) (i.args.map (valOf I e)) w).1) →
      ((∀ w w', (I.op (opcode i) (i.args.map (valOf I e')) w).1 =
          (I.op (opcode i) (i.args.map (valOf I e')) w').1) →
        ∀ t ∈ i.tgts, ∀ w, e' t = (I.op (opcode i) (i.args.map (valOf I e')) w).1) := by
    intro h p t hti w
    rw [← ht t hti, ← hm]
    rw [← hm] at p
    exact h p t hti w
  revert h
  simp only [Holds]
  split
  all_goals first
    | exact fun _ => trivial
    | exact key
    | skip
  intro h a as e1 t hti
  rw [← ht t hti, h a as e1 t hti]
  exact valOf_congr I (fun x hx => ha x (by rw [e1, ← hx]; exact List.mem_cons_self))

theorem holds_exec (I : Interp V W) {i : Inst} (s : (Nat → V) × W)
    (h : ∀ x, Arg.var x ∈ i.args → x ∉ i.tgts) : Holds I i (exec I i s).1 := by
  have hv : ∀ a ∈ i.args, valOf I (exec I i s).1 a = valOf I s.1 a := fun a ha =>
    valOf_congr I (fun x hx => exec_other I i s (h x (hx ▸ ha)))
  have hm : i.args.map (valOf I (exec I i s).1) = i.args.map (valOf I s.1) := List.map_congr_left hv
  simp only [Holds]
  split
  all_goals first
    | exact trivial
    | skip
  · rename_i ht
    intro a as e1 t hti
    rw [hv a (by rw [e1]; exact List.mem_cons_self)]
    simp [exec, ht, e1, setAll, hti]
  all_goals
    rw [hm]
    intro htl t hti w
    rw [htl w s.2]
    cases ht : i.t <;> simp_all [exec, setAll]

/-- Every equation whose instruction is passed on the way to the point holds. -/
def Sat (I : Interp V W) (c : Cfg) (e : Nat → V) (l k : Nat) : Prop :=
  ∀ a b i, instAt c a b = some i → Passes c (.inst a b) l k → Holds I i e

theorem mem_args_of_avail {c : Cfg} (ssa : StrictSSA c) {l k : Nat} {i : Inst} (e : instAt c l k = some i)
    (hp : i.t ≠ .phi) {x : Nat} (hx : Arg.var x ∈ i.args) {d : Site} (hd : Defines c d x) :
    Passes c d l k :=
  ssa.avail l k i e hp _ hx x rfl d hd

theorem lt_of_instAt {c : Cfg} {l k : Nat} {i : Inst} (e : instAt c l k = some i) :
    k < (blockOf c l).length := by
  obtain ⟨h, _⟩ := List.getElem?_eq_some_iff.1 e
  exact h

/-- Passing from a point over a site keeps all equations, if only the targets of the site change. -/
theorem sat_over {I : Interp V W} {c : Cfg} (ssa : StrictSSA c) {s : Site} {ms : List Site} {l k l' k' : Nat}
    {e e' : Nat → V} (tr : Trail c ms l k) (tr' : Trail c (s :: ms) l' k')
    (h : Sat I c e l k) (ho : ∀ x, ¬ Defines c s x → e' x = e x)
    (hs : ∀ a b i, s = .inst a b → instAt c a b = some i → Holds I i e')
    (pres : ∀ d : Site, d ≠ s → Passes c d l' k' → Passes c d l k) :
    Sat I c e' l' k' := by
  intro a b i hi hp
  by_cases hsd : Site.inst a b = s
  · exact hs a b i hsd.symm hi
  have hp0 := pres _ hsd hp
  by_cases hphi : i.t = .phi
  · simp [Holds, hphi]
  refine holds_congr I ?_ ?_ (h a b i hi hp0)
  · intro t ht
    refine (ho t ?_).symm
    intro hd
    exact hsd (defines_unique ssa ⟨i, hi, hphi, ht⟩ hd)
  · intro x hx
    refine (ho x ?_).symm
    intro hd
    have h1 := mem_args_of_avail ssa hi hphi hx hd
    obtain ⟨as, bs, e1⟩ := List.append_of_mem (hp0 ms tr)
    rw [e1] at tr
    obtain ⟨_, _, tr2⟩ := trail_suffix tr
    refine no_trail h1 ?_ bs.length bs (Nat.le_refl _) (trail_inst tr2)
    intro ms2 l2 k2 tr3
    have e2 := trail_after tr3
    rw [trail_after tr'] at e2
    obtain ⟨rfl, rfl⟩ := Prod.mk.inj e2
    exact hp _ tr3

theorem sat_inst {I : Interp V W} {c : Cfg} (ssa : StrictSSA c) {ms : List Site} {l k : Nat}
    {i : Inst} (hi : instAt c l k = some i) {s : (Nat → V) × W} (tr : Trail c ms l k)
    (h : Sat I c s.1 l k) : Sat I c (exec I i s).1 l (k + 1) := by
  refine sat_over ssa tr (.inst tr (lt_of_instAt hi)) h ?_ ?_ ?_
  · intro x hx
    by_cases hp : i.t = .phi
    · rw [exec_phi I s hp]
    · exact exec_other I i s (fun hm => hx ⟨i, hi, hp, hm⟩)
  · intro a b j e hj
    obtain ⟨rfl, rfl⟩ := Site.inst.inj e
    rw [hi] at hj
    obtain rfl := Option.some.inj hj
    by_cases hp : i.t = .phi
    · simp [Holds, hp]
    refine holds_exec I s ?_
    intro x hx hm
    exact not_passes_self tr (mem_args_of_avail ssa hi hp hx ⟨i, hi, hp, hm⟩)
  · intro d hd hp ms' tr'
    have := hp _ (.inst tr' (lt_of_instAt hi))
    simpa [hd] using this

theorem sat_enter {I : Interp V W} {c : Cfg} (ssa : StrictSSA c) {ms : List Site} {l s : Nat}
    {e : Nat → V} (tr : Trail c ms l (blockOf c l).length) (he : c.graph.Edge l s)
    (h : Sat I c e l (blockOf c l).length) : Sat I c (enter I e l (blockOf c s) e) s 0 := by
  refine sat_over ssa tr (.jump tr he) h ?_ ?_ ?_
  · intro x hx
    refine enter_other I e l (blockOf c s) e ?_
    intro i hi hp hm
    obtain ⟨k, hk⟩ := List.getElem?_of_mem hi
    exact hx ⟨k, i, hk, hp, hm⟩
  · intro a b j e
    cases e
  · intro d hd hp ms' tr'
    have := hp _ (.jump tr' he)
    simpa [hd] using this

/-- Executing a whole block from a point. -/
theorem sat_block {I : Interp V W} {c : Cfg} (ssa : StrictSSA c) {l : Nat} :
    ∀ (is : List Inst) (k : Nat) (ms : List Site) (s : (Nat → V) × W),
      (blockOf c l).drop k = is → k ≤ (blockOf c l).length → Trail c ms l k → Sat I c s.1 l k →
      (∃ ms', Trail c ms' l (blockOf c l).length) ∧
        Sat I c (execAll I is s).1 l (blockOf c l).length := by
  intro is
  induction is with
  | nil =>
    intro k ms s hd hk tr h
    have : k = (blockOf c l).length := by
      have := congrArg List.length hd
      simp at this
      omega
    subst this
    exact ⟨⟨ms, tr⟩, h⟩
  | cons i is ih =>
    intro k ms s hd hk tr h
    have hi : instAt c l k = some i := by
      have : ((blockOf c l).drop k)[0]? = some i := by rw [hd]; rfl
      simpa [instAt] using this
    have hlt := lt_of_instAt hi
    refine ih (k + 1) _ (exec I i s) ?_ hlt (.inst tr hlt) (sat_inst ssa hi tr h)
    have : (blockOf c l).drop (k + 1) = ((blockOf c l).drop k).drop 1 := by simp
    rw [this, hd]
    rfl

theorem mem_getLast? {is : List Inst} {i : Inst} (h : is.getLast? = some i) :
    is[is.length - 1]? = some i := by
  rwa [List.getLast?_eq_getElem?] at h

/-- Control only moves along edges. -/
theorem next_edge {I : Interp V W} {c : Cfg} (wf : WellFormed c) {l s : Nat} {e : Nat → V}
    (h : next I c l (blockOf c l) e = some s) : c.graph.Edge l s := by
  have hs : ∀ {r : Option Nat}, r = (match c.graph.children l with | [s] => some s | _ => none) →
      r = some s → c.graph.Edge l s := by
    intro r e1 e2
    rw [e2] at e1
    split at e1
    · rename_i s' hc
      obtain rfl := Option.some.inj e1
      simp [Graph.Edge, hc]
    · cases e1
  simp only [next] at h
  split at h
  · rename_i i hl
    have hi : instAt c l ((blockOf c l).length - 1) = some i := mem_getLast? hl
    split at h
    · rename_i ht
      split at h
      · rename_i a as t f ls h1 h2
        have := wf.branchTo l _ i hi ht
        rw [h2] at this
        split at h
        all_goals
          obtain rfl := Option.some.inj h
          apply this
          simp
      · cases h
    · exact hs rfl h
  · exact hs rfl h

/-- At the start of every block of a run all equations hold. -/
theorem sat_run {I : Interp V W} {c : Cfg} (wf : WellFormed c) (ssa : StrictSSA c) (e : Nat → V) (w : W) :
    ∀ (n l : Nat), (run I c e w n).at_ = some l →
      (∃ ms, Trail c ms l 0) ∧ Sat I c (run I c e w n).env l 0 := by
  intro n
  induction n with
  | zero =>
    intro l h
    obtain rfl := Option.some.inj h
    exact ⟨⟨_, .start⟩, fun a b i _ hp => by cases hp _ .start⟩
  | succ n ih =>
    intro l h
    rw [run] at h ⊢
    generalize hx : run I c e w n = x at h ih ⊢
    simp only [step] at h ⊢
    split at h
    · rename_i h0
      rw [h0] at h
      cases h
    · rename_i l0 h0
      obtain ⟨⟨ms, tr⟩, h1⟩ := ih l0 h0
      obtain ⟨⟨ms', tr'⟩, h2⟩ := sat_block (I := I) ssa (blockOf c l0) 0 ms (x.env, x.world) rfl
        (Nat.zero_le _) tr h1
      split at h
      · cases h
      · rename_i s hs
        obtain rfl := Option.some.inj h
        have he := next_edge wf hs
        exact ⟨⟨_, .jump tr' he⟩, by
          simp only [hs]
          exact sat_enter ssa tr' he h2⟩

end Verif.Opt
