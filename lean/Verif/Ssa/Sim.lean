import Verif.Ssa.Finish
import Verif.Ssa.Spec
/-!
# The constructed program is in strict SSA form and means the same
-/

namespace Verif.Ssa

open Verif.Il Verif.Graph Verif.Dom Verif.Opt

/-! ## Names -/

theorem bump_not_mem : ∀ {ds : List Nat} {σ : Nat → Nat} {k v : Nat}, v ∉ ds → bump σ k ds v = σ v
  | [], _, _, _, _ => rfl
  | d :: ds, σ, k, v, h => by
    simp only [List.mem_cons, not_or] at h
    rw [bump, bump_not_mem h.2, upd, if_neg h.1]

theorem bump_mem : ∀ {ds : List Nat} {σ : Nat → Nat} {k v : Nat}, v ∈ ds →
    k ≤ bump σ k ds v ∧ bump σ k ds v < k + ds.length
  | [], _, _, _, h => by simp at h
  | d :: ds, σ, k, v, h => by
    rw [bump]
    by_cases hv : v ∈ ds
    · have := bump_mem (σ := upd σ d k) (k := k + 1) hv
      simp only [List.length_cons]
      omega
    · rcases List.mem_cons.1 h with rfl | h
      · rw [bump_not_mem hv, upd, if_pos rfl]
        simp
      · exact absurd h hv

theorem bump_nodup : ∀ {ds : List Nat} {σ : Nat → Nat} {k j v : Nat}, ds.Nodup → ds[j]? = some v →
    bump σ k ds v = k + j
  | [], _, _, _, _, _, h => by simp at h
  | d :: ds, σ, k, 0, v, hn, h => by
    simp at h
    subst h
    rw [bump, bump_not_mem (List.nodup_cons.1 hn).1, upd, if_pos rfl, Nat.add_zero]
  | d :: ds, σ, k, j + 1, v, hn, h => by
    rw [bump, bump_nodup (List.nodup_cons.1 hn).2 (by simpa using h)]
    omega

section
variable {c c' : Cfg} {N n' : Nat} {vs : Nat → List Nat} {σ : Nat → Nat → Nat} {k : Nat → Nat}
  {E : Nat → Nat → List (Nat × Arg)}

/-- The names at the end of a block. -/
def fin (c : Cfg) (vs : Nat → List Nat) (σ : Nat → Nat → Nat) (k : Nat → Nat) (x : Nat) : Nat → Nat :=
  bump (σ x) (k x) (allDsts c vs x)

/-- Before a block a variable has its own name or one given before. -/
theorem names (h : Cert c c' N n' vs σ k E) {d : Dom} (t : IsTree c.graph.Edge c.entry d) :
    ∀ (m : Nat) {x : Nat}, Reach c.graph.Edge c.entry x → d.postorder.length ≤ m + d.postorder.idxOf x →
    ∀ v, σ x v = v ∨ (N ≤ σ x v ∧ σ x v < k x) := by
  intro m
  induction m with
  | zero =>
    intro x hx hm
    have := List.idxOf_lt_length_of_mem ((t.mem x).2 hx)
    omega
  | succ m ih =>
    intro x hx hm v
    by_cases he : x = c.entry
    · subst he
      rw [h.start]
      exact .inl rfl
    · obtain ⟨p, -, hi, hlt⟩ := t.idom x hx he
      obtain ⟨h1, h2⟩ := h.idom p x hx he hi
      have hp := dom_reach hx hi.1.1
      rw [h1]
      by_cases hv : v ∈ allDsts c vs p
      · have h3 := bump_mem (σ := σ p) (k := k p) hv
        have := h.lo p hp
        right
        omega
      · rw [bump_not_mem hv]
        rcases ih hp (by omega) v with h3 | ⟨h3, h4⟩
        · exact .inl h3
        · right
          omega

theorem name_lt (h : Cert c c' N n' vs σ k E) {d : Dom} (t : IsTree c.graph.Edge c.entry d) {x v : Nat}
    (hx : Reach c.graph.Edge c.entry x) (hv : v < N) : σ x v < k x := by
  have := h.lo x hx
  rcases names h t d.postorder.length hx (by omega) v with h1 | h1
  · omega
  · omega

/-- Along an edge to a block without a phi for the variable its name stays. -/
theorem name_edge (h : Cert c c' N n' vs σ k E) {d : Dom} (t : IsTree c.graph.Edge c.entry d)
    (hent : FreshEntry c) {p s v : Nat} (hp : Reach c.graph.Edge c.entry p) (he : c.graph.Edge p s)
    (hv : v ∉ vs s) : fin c vs σ k p v = σ s v := by
  have hs : Reach c.graph.Edge c.entry s := .step hp he
  have hne : s ≠ c.entry := by
    rintro rfl
    exact hent p he
  obtain ⟨d0, -, hi, -⟩ := t.idom s hs hne
  rw [(h.idom d0 s hs hne hi).1]
  have key : ∀ (m : Nat) {q : Nat}, d.postorder.length ≤ m + d.postorder.idxOf q →
      Reach c.graph.Edge c.entry q → Dominates c.graph.Edge c.entry d0 q → Dominates c.graph.Edge c.entry q p →
      fin c vs σ k q v = fin c vs σ k d0 v := by
    intro m
    induction m with
    | zero =>
      intro q hm hq
      have := List.idxOf_lt_length_of_mem ((t.mem q).2 hq)
      omega
    | succ m ih =>
      intro q hm hq h1 h2
      by_cases hqd : q = d0
      · rw [hqd]
      · have hfr : InFrontier c.graph.Edge c.entry q s := by
          refine ⟨⟨p, he, h2⟩, ?_⟩
          intro hsd
          exact hqd (dom_antisymm (dom_reach hs hi.1.1) (hi.2 q hsd) h1)
        have hnv : v ∉ allDsts c vs q := fun hin => hv (h.closed v q s hin hs hfr)
        have hqe : q ≠ c.entry := by
          rintro rfl
          exact hqd (dom_of_entry h1).symm
        obtain ⟨r, -, hr, hlt⟩ := t.idom q hq hqe
        have hrr := dom_reach hq hr.1.1
        rw [fin, bump_not_mem hnv, (h.idom r q hq hqe hr).1]
        exact ih (by omega) hrr (hr.2 d0 ⟨h1, fun e => hqd e.symm⟩) (dom_trans hr.1.1 h2)
  exact key d.postorder.length (by omega) hp (dom_pred hi.1.1 hi.1.2 he) dom_self

end

/-! ## Executing renamed instructions -/

section
variable {V W : Type} {I : Interp V W} {N : Nat}

theorem valOf_ren {e e' : Nat → V} {σ : Nat → Nat} {a : Arg} (h : ∀ v, v < N → e v = e' (σ v))
    (ha : ∀ v, a = .var v → v < N) : valOf I e a = valOf I e' (renArg σ a) := by
  cases a with
  | var v => exact h v (ha v rfl)
  | builtin p => rfl
  | const p => rfl
  | fn p => rfl

theorem setAll_ren {e e' : Nat → V} {σ : Nat → Nat} {k : Nat} {ts : List Nat} {x : V}
    (h : ∀ v, v < N → e v = e' (σ v)) (hσ : ∀ v, v < N → σ v < k) :
    ∀ v, v < N → setAll e ts x v = setAll e' (List.range' k ts.length) x (bump σ k ts v) := by
  intro v hv
  by_cases hm : v ∈ ts
  · rw [setAll_of_mem hm, setAll_of_mem]
    rw [List.mem_range'_1]
    exact bump_mem hm
  · rw [setAll_of_not_mem hm, bump_not_mem hm, setAll_of_not_mem, h v hv]
    rw [List.mem_range'_1]
    have := hσ v hv
    omega

theorem exec_ren {e e' : Nat → V} {w : W} {σ : Nat → Nat} {k : Nat} {i : Inst} (hp : i.t ≠ .phi)
    (sh : Shape i) (h : ∀ v, v < N → e v = e' (σ v)) (hσ : ∀ v, v < N → σ v < k)
    (ha : ∀ v, Arg.var v ∈ i.args → v < N) :
    (exec I i (e, w)).2 = (exec I (renInst σ k i) (e', w)).2 ∧
      ∀ v, v < N → (exec I i (e, w)).1 v = (exec I (renInst σ k i) (e', w)).1 (bump σ k i.tgts v) := by
  have hargs : i.args.map (valOf I e) = (i.args.map (renArg σ)).map (valOf I e') := by
    rw [List.map_map]
    refine List.map_congr_left ?_
    intro a hin
    exact valOf_ren h (fun v hv => ha v (hv ▸ hin))
  have hop : opcode (renInst σ k i) = opcode i := rfl
  have ht : (renInst σ k i).t = i.t := rfl
  have hta : (renInst σ k i).args = i.args.map (renArg σ) := by simp [renInst, hp]
  have htt : (renInst σ k i).tgts = List.range' k i.tgts.length := rfl
  cases hty : i.t with
  | phi => exact absurd hty hp
  | label => simp [Shape, hty] at sh
  | goto => simp [Shape, hty] at sh
  | dummy => simp [Shape, hty] at sh
  | condGoto =>
    simp only [Shape, hty] at sh
    simp only [exec, ht, hty, sh.1, bump]
    exact ⟨trivial, h⟩
  | varAssign =>
    simp only [Shape, hty] at sh
    obtain ⟨-, a, hia⟩ := sh
    simp only [exec, ht, hty, hta, htt, hia, List.map_cons]
    refine ⟨trivial, ?_⟩
    have : valOf I e a = valOf I e' (renArg σ a) := valOf_ren h (fun v hv => ha v (by simp [hia, hv]))
    rw [this]
    exact setAll_ren h hσ
  | _ =>
    simp only [exec, ht, hty, hta, htt, hop, hargs]
    exact ⟨trivial, setAll_ren h hσ⟩

theorem bump_lt {σ : Nat → Nat} {k : Nat} {ds : List Nat} (hσ : ∀ v, v < N → σ v < k) :
    ∀ v, v < N → bump σ k ds v < k + ds.length := by
  intro v hv
  by_cases hm : v ∈ ds
  · exact (bump_mem hm).2
  · rw [bump_not_mem hm]
    have := hσ v hv
    omega

theorem execAll_ren : ∀ {is : List Inst} {e e' : Nat → V} {w : W} {σ : Nat → Nat} {k : Nat},
    (∀ i ∈ is, i.t ≠ .phi ∧ Shape i ∧ ∀ v, Arg.var v ∈ i.args → v < N) →
    (∀ v, v < N → e v = e' (σ v)) → (∀ v, v < N → σ v < k) →
    (execAll I is (e, w)).2 = (execAll I (renAll σ k is) (e', w)).2 ∧
      ∀ v, v < N → (execAll I is (e, w)).1 v = (execAll I (renAll σ k is) (e', w)).1 (bump σ k (dsts is) v)
  | [], e, e', w, σ, k, _, h, _ => ⟨rfl, h⟩
  | i :: is, e, e', w, σ, k, hi, h, hσ => by
    obtain ⟨h1, h2, h3⟩ := hi i (by simp)
    obtain ⟨a1, a2⟩ := exec_ren (I := I) (w := w) h1 h2 h hσ h3
    have := execAll_ren (is := is) (e := (exec I i (e, w)).1) (e' := (exec I (renInst σ k i) (e', w)).1)
      (w := (exec I i (e, w)).2) (σ := bump σ k i.tgts) (k := k + i.tgts.length)
      (fun j hj => hi j (by simp [hj])) a2 (bump_lt hσ)
    rw [dsts_cons, bump_append]
    simp only [execAll, renAll, List.foldl_cons] at this ⊢
    have e1 : exec I (renInst σ k i) (e', w) =
      ((exec I (renInst σ k i) (e', w)).1, (exec I i (e, w)).2) := by rw [a1]
    rw [e1]
    exact this

theorem execAll_phis {is js : List Inst} {s : (Nat → V) × W} (h : ∀ i ∈ is, i.t = .phi) :
    execAll I (is ++ js) s = execAll I js s := by
  induction is generalizing s with
  | nil => rfl
  | cons i is ih =>
    simp only [List.cons_append, execAll, List.foldl_cons] at ih ⊢
    rw [exec_phi I s (h i (by simp))]
    exact ih (fun j hj => h j (by simp [hj]))

theorem enter_append (src : Nat → V) (p : Nat) : ∀ (is js : List Inst) (e : Nat → V),
    enter I src p (is ++ js) e = enter I src p js (enter I src p is e)
  | [], _, _ => rfl
  | i :: is, js, e => by
    simp only [List.cons_append, enter]
    exact enter_append src p is js _

theorem enter_noPhi (src : Nat → V) (p : Nat) : ∀ {js : List Inst} {e : Nat → V}, (∀ i ∈ js, i.t ≠ .phi) →
    enter I src p js e = e
  | [], _, _ => rfl
  | i :: js, e, h => by
    rw [enter, if_neg (h i (by simp))]
    exact enter_noPhi src p (fun j hj => h j (by simp [hj]))

theorem enter_phiList {src : Nat → V} {p : Nat} {E : Nat → List (Nat × Arg)} : ∀ {ts vs : List Nat} {e : Nat → V}
    {j x v : Nat} {a : Arg}, ts.Nodup → ts[j]? = some x → vs[j]? = some v → (E v).lookup p = some a →
    enter I src p (phiList ts vs E) e x = valOf I src a
  | [], vs, _, _, _, _, _, _, h, _, _ => by simp at h
  | t :: ts, [], _, _, _, _, _, _, _, h, _ => by simp at h
  | t :: ts, u :: vs, e, 0, x, v, a, hn, h1, h2, h3 => by
    simp at h1 h2
    subst h1 h2
    have hz : ((Inst.phi t (E u)).labels.zip (Inst.phi t (E u)).args) = E u := zip_unzip' (E u)
    simp only [phiList, List.zipWith_cons_cons, enter, hz, h3]
    rw [if_pos (show (Inst.phi t (E u)).t = InstTyp.phi from rfl), enter_other]
    · exact setAll_of_mem (by simp [Inst.phi])
    · intro i hi _
      obtain ⟨q, hq⟩ := List.getElem?_of_mem hi
      simp only [List.getElem?_zipWith] at hq
      cases g1 : ts[q]? <;> cases g2 : vs[q]? <;> simp [g1, g2] at hq
      rw [← hq]
      simp only [Inst.phi, List.mem_singleton]
      rintro rfl
      exact (List.nodup_cons.1 hn).1 (List.mem_of_getElem? g1)
  | t :: ts, u :: vs, e, j + 1, x, v, a, hn, h1, h2, h3 => by
    simp only [phiList, List.zipWith_cons_cons, enter]
    exact enter_phiList (List.nodup_cons.1 hn).2 (by simpa using h1) (by simpa using h2) h3

end

/-! ## Instructions of the constructed program -/

theorem renAll_get : ∀ {is : List Inst} {σ : Nat → Nat} {k j : Nat},
    (renAll σ k is)[j]? = (is[j]?).map (renInst (bump σ k (dsts (is.take j))) (k + (dsts (is.take j)).length))
  | [], _, _, _ => by simp [renAll]
  | i :: is, σ, k, 0 => by simp [renAll, dsts, bump]
  | i :: is, σ, k, j + 1 => by
    rw [renAll, List.getElem?_cons_succ, renAll_get, List.getElem?_cons_succ, List.take_succ_cons, dsts_cons,
      bump_append, List.length_append, Nat.add_assoc]

theorem renAll_length : ∀ {is : List Inst} {σ : Nat → Nat} {k : Nat}, (renAll σ k is).length = is.length
  | [], _, _ => rfl
  | i :: is, σ, k => by simp [renAll, renAll_length]

theorem phiList_length {ts vs : List Nat} {E : Nat → List (Nat × Arg)} (h : ts.length = vs.length) :
    (phiList ts vs E).length = vs.length := by
  simp [phiList, h]

theorem dsts_take_get : ∀ {is : List Inst} {j m : Nat} {i : Inst}, is[j]? = some i → j < m →
    (dsts (is.take j)).length + i.tgts.length ≤ (dsts (is.take m)).length
  | _, _, 0, _, _, hm => by omega
  | [], _, _ + 1, _, h, _ => by simp at h
  | x :: is, 0, m + 1, i, h, _ => by
    simp at h
    subst h
    simp only [List.take_zero, List.take_succ_cons, dsts_cons, List.length_append]
    have : (dsts ([] : List Inst)).length = 0 := rfl
    omega
  | x :: is, j + 1, m + 1, i, h, hm => by
    have := dsts_take_get (is := is) (j := j) (m := m) (by simpa using h) (by omega)
    simp only [List.take_succ_cons, dsts_cons, List.length_append]
    omega

theorem dsts_take_succ {is : List Inst} {j : Nat} {i : Inst} (h : is[j]? = some i) :
    dsts (is.take (j + 1)) = dsts (is.take j) ++ i.tgts := by
  rw [List.take_add_one, h]
  simp [dsts]

section
variable {c c' : Cfg} {N n' : Nat} {vs : Nat → List Nat} {σ : Nat → Nat → Nat} {k : Nat → Nat}
  {E : Nat → Nat → List (Nat × Arg)}

/-- The names at a point of the constructed program. -/
def tau (c : Cfg) (vs : Nat → List Nat) (σ : Nat → Nat → Nat) (k : Nat → Nat) (l j : Nat) : Nat → Nat :=
  bump (σ l) (k l) (vs l ++ dsts ((blockOf c l).take (j - (vs l).length)))

/-- The next name at a point. -/
def nextName (c : Cfg) (vs : Nat → List Nat) (k : Nat → Nat) (l j : Nat) : Nat :=
  k l + (vs l).length + (dsts ((blockOf c l).take (j - (vs l).length))).length

theorem block_reach (h : Cert c c' N n' vs σ k E) (hall : AllReachable c) {l j : Nat} {i : Inst}
    (e : instAt c' l j = some i) : Reach c.graph.Edge c.entry l := by
  cases hb : Cfg.block c l with
  | some is => exact hall.1 l (by simp [hb])
  | none =>
    have h1 : ¬ (c.bblocks.lookup l).isSome := by
      have : c.bblocks.lookup l = none := hb
      simp [this]
    rw [lookup_isSome_iff, ← h.keys, ← lookup_isSome_iff] at h1
    have h2 : Cfg.block c' l = none := by
      cases hb' : Cfg.block c' l with
      | none => rfl
      | some is => exact absurd (by rw [show c'.bblocks.lookup l = some is from hb']; rfl) h1
    simp [instAt, blockOf, h2] at e

theorem len_eq (h : Cert c c' N n' vs σ k E) {l : Nat} (hl : Reach c.graph.Edge c.entry l) :
    (blockOf c' l).length = (vs l).length + (blockOf c l).length := by
  rw [h.block l hl, List.length_append, phiList_length (by simp), renAll_length]

theorem inst_cases (h : Cert c c' N n' vs σ k E) {l j : Nat} {i : Inst} (hl : Reach c.graph.Edge c.entry l)
    (e : instAt c' l j = some i) :
    (∃ v, (vs l)[j]? = some v ∧ j < (vs l).length ∧ i = Inst.phi (k l + j) (E l v)) ∨
    ((vs l).length ≤ j ∧ ∃ i0, instAt c l (j - (vs l).length) = some i0 ∧
      i = renInst (tau c vs σ k l j) (nextName c vs k l j) i0) := by
  rw [instAt, h.block l hl, List.getElem?_append, phiList_length (by simp)] at e
  by_cases hj : j < (vs l).length
  · rw [if_pos hj] at e
    left
    simp only [phiList, List.getElem?_zipWith] at e
    have h1 : (List.range' (k l) (vs l).length)[j]? = some (k l + j) := by
      rw [List.getElem?_range' hj]; simp
    rw [h1] at e
    cases h2 : (vs l)[j]? with
    | none => rw [List.getElem?_eq_none_iff] at h2; omega
    | some v =>
      rw [h2] at e
      simp at e
      exact ⟨v, rfl, hj, e.symm⟩
  · rw [if_neg hj, renAll_get] at e
    right
    refine ⟨by omega, ?_⟩
    cases h0 : (blockOf c l)[j - (vs l).length]? with
    | none => rw [h0] at e; simp at e
    | some i0 =>
      rw [h0] at e
      simp only [Option.map_some, Option.some.injEq] at e
      refine ⟨i0, h0, ?_⟩
      rw [← e, tau, nextName, bump_append]

theorem inst_phi (h : Cert c c' N n' vs σ k E) {l j v : Nat} (hl : Reach c.graph.Edge c.entry l)
    (e : (vs l)[j]? = some v) : instAt c' l j = some (Inst.phi (k l + j) (E l v)) := by
  have hj : j < (vs l).length := (List.getElem?_eq_some_iff.1 e).1
  rw [instAt, h.block l hl, List.getElem?_append, phiList_length (by simp), if_pos hj]
  simp only [phiList, List.getElem?_zipWith]
  rw [List.getElem?_range' hj, e]
  simp

theorem inst_ren (h : Cert c c' N n' vs σ k E) {l j : Nat} {i0 : Inst} (hl : Reach c.graph.Edge c.entry l)
    (e : instAt c l j = some i0) : instAt c' l ((vs l).length + j) =
      some (renInst (tau c vs σ k l ((vs l).length + j)) (nextName c vs k l ((vs l).length + j)) i0) := by
  rw [instAt, h.block l hl, List.getElem?_append, phiList_length (by simp), if_neg (by omega), renAll_get]
  have h1 : (vs l).length + j - (vs l).length = j := by omega
  rw [instAt] at e
  rw [h1, e]
  simp only [Option.map_some, tau, nextName, h1, bump_append]

theorem tau_start {l j : Nat} (hj : j ≤ (vs l).length) : tau c vs σ k l j = bump (σ l) (k l) (vs l) := by
  have : j - (vs l).length = 0 := by omega
  simp [tau, this, dsts]

theorem tau_end (h : Cert c c' N n' vs σ k E) {l : Nat} (hl : Reach c.graph.Edge c.entry l) :
    tau c vs σ k l (blockOf c' l).length = fin c vs σ k l := by
  have : (blockOf c' l).length - (vs l).length = (blockOf c l).length := by rw [len_eq h hl]; omega
  rw [tau, this, List.take_length]
  rfl

variable (h : Cert c c' N n' vs σ k E) (wf : WellFormed c) (hph : NoPhis c) (hall : AllReachable c)
  (hent : FreshEntry c) (hvb : VarsBelow c N)

theorem le_size {l j : Nat} : (vs l).length + (dsts ((blockOf c l).take j)).length ≤ (allDsts c vs l).length := by
  rw [allDsts, List.length_append]
  have : (dsts (blockOf c l)).length = (dsts ((blockOf c l).take j)).length +
      (dsts ((blockOf c l).drop j)).length := by
    rw [← List.length_append, ← dsts_append, List.take_append_drop]
  omega

include h hall in
/-- The targets of an instruction lie in the interval of its block. -/
theorem tgt_range {l j : Nat} {i : Inst} {v : Nat} (e : instAt c' l j = some i) (hm : v ∈ i.tgts) :
    k l ≤ v ∧ v < k l + (allDsts c vs l).length := by
  have hl := block_reach h hall e
  rcases inst_cases h hl e with ⟨u, -, hj, rfl⟩ | ⟨hj, i0, e0, rfl⟩
  · simp only [Inst.phi, List.mem_singleton] at hm
    have := le_size (c := c) (vs := vs) (l := l) (j := 0)
    omega
  · simp only [renInst, List.mem_range'_1, nextName] at hm
    have h1 := dsts_take_get (m := j - (vs l).length + 1) (by exact e0) (by omega)
    have h2 := le_size (c := c) (vs := vs) (l := l) (j := j - (vs l).length + 1)
    omega

include h hall in
theorem ssa_once {l j : Nat} {i : Inst} {l' j' : Nat} {i' : Inst} {v : Nat} (e : instAt c' l j = some i)
    (e' : instAt c' l' j' = some i') (hm : v ∈ i.tgts) (hm' : v ∈ i'.tgts) : l = l' ∧ j = j' := by
  have r := tgt_range h hall e hm
  have r' := tgt_range h hall e' hm'
  have hl := block_reach h hall e
  have hl' := block_reach h hall e'
  by_cases hne : l = l'
  · subst hne
    refine ⟨rfl, ?_⟩
    rcases inst_cases h hl e with ⟨u, -, hj, rfl⟩ | ⟨hj, i0, e0, rfl⟩ <;>
      rcases inst_cases h hl e' with ⟨u', -, hj', rfl⟩ | ⟨hj', i0', e0', rfl⟩
    · simp only [Inst.phi, List.mem_singleton] at hm hm'
      omega
    · simp only [Inst.phi, List.mem_singleton, renInst, List.mem_range'_1, nextName] at hm hm'
      omega
    · simp only [Inst.phi, List.mem_singleton, renInst, List.mem_range'_1, nextName] at hm hm'
      omega
    · simp only [renInst, List.mem_range'_1, nextName] at hm hm'
      by_cases hjj : j = j'
      · exact hjj
      · exfalso
        rcases Nat.lt_or_gt_of_ne hjj with hlt | hlt
        · have h1 := dsts_take_get (m := j' - (vs l).length) (by exact e0) (by omega)
          omega
        · have h1 := dsts_take_get (m := j - (vs l).length) (by exact e0') (by omega)
          omega
  · rcases h.disj l l' hl hl' hne with h1 | h1 <;> omega

include h hent in
theorem vs_entry : vs c.entry = [] := by
  cases hvs : vs c.entry with
  | nil => rfl
  | cons v r =>
    obtain ⟨-, a, ⟨p, hp, -⟩, -⟩ := h.sound c.entry v (by simp [hvs])
    exact absurd hp (hent p)

include h hph hent in
/-- On every walk to a point, the name a variable has there has been written. -/
theorem trail_names {d : Dom} (t : IsTree c.graph.Edge c.entry d) {ms : List Site} {l j : Nat}
    (tr : Trail c' ms l j) : Reach c.graph.Edge c.entry l ∧
      ∀ v, v < N → tau c vs σ k l j v < N ∨ ∃ s ∈ ms, Defines c' s (tau c vs σ k l j v) := by
  induction tr with
  | start =>
    rw [h.entry]
    refine ⟨.refl, ?_⟩
    intro v hv
    left
    rw [tau_start (Nat.zero_le _), vs_entry h hent, h.start]
    exact hv
  | @inst ms l j tr hj ih =>
    obtain ⟨hl, ih⟩ := ih
    refine ⟨hl, ?_⟩
    intro v hv
    by_cases hjl : j < (vs l).length
    · rw [tau_start (by omega)]
      have := ih v hv
      rw [tau_start (by omega)] at this
      rcases this with h1 | ⟨s, hs, h1⟩
      · exact .inl h1
      · exact .inr ⟨s, List.mem_cons_of_mem _ hs, h1⟩
    · have hlen := len_eq h hl
      obtain ⟨i0, e0⟩ : ∃ i0, instAt c l (j - (vs l).length) = some i0 :=
        ⟨(blockOf c l)[j - (vs l).length]'(by omega), List.getElem?_eq_getElem (by omega)⟩
      have e1 := inst_ren h hl e0
      have hjj : (vs l).length + (j - (vs l).length) = j := by omega
      rw [hjj] at e1
      have htau : tau c vs σ k l (j + 1) = bump (tau c vs σ k l j) (nextName c vs k l j) i0.tgts := by
        have h1 : j + 1 - (vs l).length = (j - (vs l).length) + 1 := by omega
        rw [tau, h1, dsts_take_succ e0, ← List.append_assoc, bump_append]
        simp only [tau, nextName, List.length_append, Nat.add_assoc]
      rw [htau]
      by_cases hm : v ∈ i0.tgts
      · right
        refine ⟨.inst l j, by simp, ?_⟩
        have hnp : i0.t ≠ .phi ∨ i0.t = .phi := by
          by_cases hx : i0.t = .phi
          · exact .inr hx
          · exact .inl hx
        rcases hnp with hnp | hnp
        · refine ⟨_, e1, hnp, ?_⟩
          simp only [renInst, List.mem_range'_1]
          exact bump_mem hm
        · exact absurd hnp (hph l _ i0 e0)
      · rw [bump_not_mem hm]
        rcases ih v hv with h1 | ⟨s, hs, h1⟩
        · exact .inl h1
        · exact .inr ⟨s, List.mem_cons_of_mem _ hs, h1⟩
  | @jump ms l s tr he ih =>
    obtain ⟨hl, ih⟩ := ih
    rw [h.graph] at he
    have hs : Reach c.graph.Edge c.entry s := .step hl he
    refine ⟨hs, ?_⟩
    intro v hv
    rw [tau_start (Nat.zero_le _)]
    by_cases hm : v ∈ vs s
    · right
      obtain ⟨j, hj⟩ := List.getElem?_of_mem hm
      refine ⟨.phis s, by simp, j, _, inst_phi h hs hj, rfl, ?_⟩
      rw [bump_nodup (h.nodup s) hj]
      simp [Inst.phi]
    · rw [bump_not_mem hm, ← name_edge h t hent hl he hm, ← tau_end h hl]
      rcases ih v hv with h1 | ⟨s', hs', h1⟩
      · exact .inl h1
      · exact .inr ⟨s', List.mem_cons_of_mem _ hs', h1⟩

include h hall in
theorem def_ge {s : Site} {v : Nat} (hd : Defines c' s v) : N ≤ v := by
  have key : ∀ {l j : Nat} {i : Inst}, instAt c' l j = some i → v ∈ i.tgts → N ≤ v := by
    intro l j i e hm
    have h1 := tgt_range h hall e hm
    have h2 := h.lo l (block_reach h hall e)
    omega
  cases s with
  | inst l j =>
    obtain ⟨i, e, -, hm⟩ := hd
    exact key e hm
  | phis l =>
    obtain ⟨j, i, e, -, hm⟩ := hd
    exact key e hm

include h hall in
theorem def_unique {s s' : Site} {v : Nat} (hd : Defines c' s v) (hd' : Defines c' s' v) : s = s' := by
  cases s with
  | inst l j =>
    obtain ⟨i, e, hn, hm⟩ := hd
    cases s' with
    | inst l' j' =>
      obtain ⟨i', e', hn', hm'⟩ := hd'
      obtain ⟨rfl, rfl⟩ := ssa_once h hall e e' hm hm'
      rfl
    | phis l' =>
      obtain ⟨j', i', e', hn', hm'⟩ := hd'
      obtain ⟨rfl, rfl⟩ := ssa_once h hall e e' hm hm'
      rw [e] at e'
      obtain rfl := Option.some.inj e'
      exact absurd hn' hn
  | phis l =>
    obtain ⟨j, i, e, hn, hm⟩ := hd
    cases s' with
    | inst l' j' =>
      obtain ⟨i', e', hn', hm'⟩ := hd'
      obtain ⟨rfl, rfl⟩ := ssa_once h hall e e' hm hm'
      rw [e] at e'
      obtain rfl := Option.some.inj e'
      exact absurd hn hn'
    | phis l' =>
      obtain ⟨j', i', e', hn', hm'⟩ := hd'
      obtain ⟨rfl, rfl⟩ := ssa_once h hall e e' hm hm'
      rfl

include h hph hall hent in
/-- What has a name at a point is available there. -/
theorem avail_name {d : Dom} (t : IsTree c.graph.Edge c.entry d) {l j v : Nat} (hv : v < N) :
    Avail c' (.var (tau c vs σ k l j v)) l j := by
  intro x hx d hd ms tr
  cases hx
  rcases (trail_names h hph hent t tr).2 v hv with h1 | ⟨s, hs, h1⟩
  · have := def_ge h hall hd
    omega
  · rw [def_unique h hall hd h1]
    exact hs

include h hvb in
theorem vs_below {l v : Nat} (hm : v ∈ vs l) : v < N := by
  obtain ⟨⟨a, ha⟩, -⟩ := h.sound l v hm
  simp only [dsts, List.mem_flatMap] at ha
  obtain ⟨i, hi, hv⟩ := ha
  obtain ⟨j, hj⟩ := List.getElem?_of_mem hi
  exact (hvb a j i hj).1 v hv

theorem zip_phi {t : Nat} {es : List (Nat × Arg)} : (Inst.phi t es).labels.zip (Inst.phi t es).args = es :=
  zip_unzip' es

include h hph hall hent hvb in
theorem ssa {d : Dom} (t : IsTree c.graph.Edge c.entry d) : StrictSSA c' where
  once := fun _ _ _ _ _ _ _ e e' hm hm' => ssa_once h hall e e' hm hm'
  avail := by
    intro l j i e hn a ha
    have hl := block_reach h hall e
    rcases inst_cases h hl e with ⟨u, -, hj, rfl⟩ | ⟨hj, i0, e0, rfl⟩
    · exact absurd rfl hn
    · have hn0 := hph l _ i0 e0
      simp only [renInst, if_pos hn0] at ha
      obtain ⟨b, hb, rfl⟩ := List.mem_map.1 ha
      cases b with
      | var v => exact avail_name h hph hall hent t ((hvb l _ i0 e0).2 v hb)
      | builtin p => intro x hx; cases hx
      | const p => intro x hx; cases hx
      | fn p => intro x hx; cases hx
  availPhi := by
    intro l j i e hn p a ha
    have hl := block_reach h hall e
    rcases inst_cases h hl e with ⟨u, hu, hj, rfl⟩ | ⟨hj, i0, e0, rfl⟩
    · rw [zip_phi, h.mem] at ha
      obtain ⟨he, rfl⟩ := ha
      have hp := hall.2 p l he
      have := avail_name h hph hall hent t (l := p) (j := (blockOf c' p).length)
        (vs_below h hvb (List.mem_of_getElem? hu))
      rw [tau_end h hp] at this
      exact this
    · exact absurd hn (hph l _ i0 e0)

include h in
theorem block_some (l : Nat) : (Cfg.block c' l).isSome ↔ (Cfg.block c l).isSome := by
  have h1 := lookup_isSome_iff (m := c'.bblocks) (k := l)
  have h2 := lookup_isSome_iff (m := c.bblocks) (k := l)
  rw [h.keys] at h1
  exact h1.trans h2.symm

theorem shape_ren {σ : Nat → Nat} {k : Nat} {i : Inst} (hn : i.t ≠ .phi) (sh : Shape i) :
    Shape (renInst σ k i) := by
  have h1 := shape_args (f := renArg σ) sh
  have e : renInst σ k i = { { i with args := i.args.map (renArg σ) } with tgts := List.range' k i.tgts.length } := by
    simp [renInst, hn]
  rw [e]
  revert h1
  generalize hj : ({ i with args := i.args.map (renArg σ) } : Inst) = j
  have ht : j.tgts = i.tgts := by rw [← hj]
  rw [← ht]
  intro h1
  cases hty : j.t <;> simp only [Shape, hty] at h1 ⊢
  case propAssign => exact ⟨by simp [h1.1], h1.2⟩
  case condGoto => exact ⟨by simp [h1.1], h1.2⟩
  case call => exact ⟨by simpa using h1.1, h1.2⟩
  case foreignStore => exact ⟨by simp [h1.1], h1.2⟩
  case unknownStore => exact ⟨by simp [h1.1], h1.2⟩
  all_goals
    obtain ⟨⟨x, hx⟩, h2⟩ := h1
    exact ⟨⟨k, by simp [hx]⟩, h2⟩

include h wf hph hall in
theorem wellFormed : WellFormed c' where
  labels := by rw [h.keys]; exact wf.labels
  entryBlock := by rw [h.entry, block_some h]; exact wf.entryBlock
  edgeBlock := by
    intro a b he
    rw [h.graph] at he
    rw [block_some h]
    exact wf.edgeBlock a b he
  shape := by
    intro l j i e
    rcases inst_cases h (block_reach h hall e) e with ⟨u, -, hj, rfl⟩ | ⟨hj, i0, e0, rfl⟩
    · exact ⟨⟨_, rfl⟩, by simp [Inst.phi]⟩
    · exact shape_ren (hph l _ i0 e0) (wf.shape l _ i0 e0)
  branchLast := by
    intro l j i e hn
    have hl := block_reach h hall e
    rcases inst_cases h hl e with ⟨u, -, hj, rfl⟩ | ⟨hj, i0, e0, rfl⟩
    · cases hn
    · have := wf.branchLast l _ i0 e0 hn
      rw [len_eq h hl]
      omega
  branchTo := by
    intro l j i e hn s hs
    have hl := block_reach h hall e
    rw [h.graph]
    rcases inst_cases h hl e with ⟨u, -, hj, rfl⟩ | ⟨hj, i0, e0, rfl⟩
    · cases hn
    · exact wf.branchTo l _ i0 e0 hn s hs
  phiFirst := by
    intro l j j' i i' e hn hle e'
    have hl := block_reach h hall e
    rcases inst_cases h hl e with ⟨u, -, hj, rfl⟩ | ⟨hj, i0, e0, rfl⟩
    · rcases inst_cases h hl e' with ⟨u', -, hj', rfl⟩ | ⟨hj', i0', e0', rfl⟩
      · rfl
      · omega
    · exact absurd hn (hph l _ i0 e0)
  phiOnce := by
    intro l j i e hn
    rcases inst_cases h (block_reach h hall e) e with ⟨u, -, hj, rfl⟩ | ⟨hj, i0, e0, rfl⟩
    · exact h.once l u
    · exact absurd hn (hph l _ i0 e0)

include h hph hall in
theorem phis_complete : PhisComplete c' := by
  intro l j i e hn
  rcases inst_cases h (block_reach h hall e) e with ⟨u, -, hj, rfl⟩ | ⟨hj, i0, e0, rfl⟩
  · constructor
    · have h1 := h.once l u
      have h2 := h.sorted l u
      exact (List.pairwise_and_iff.2 ⟨h2, h1⟩).imp (fun ⟨a, b⟩ => Nat.lt_of_le_of_ne a b)
    · intro p
      rw [h.graph]
      simp only [Inst.phi, List.mem_map, Prod.exists, exists_and_right, exists_eq_right]
      constructor
      · rintro ⟨a, ha⟩
        exact ((h.mem l u p a).1 ha).1
      · intro he
        exact ⟨_, (h.mem l u p _).2 ⟨he, rfl⟩⟩
  · exact absurd hn (hph l _ i0 e0)

theorem bump_le {σ : Nat → Nat} {k : Nat} {ds : List Nat} {v m : Nat} (h1 : σ v < m) (h2 : k + ds.length ≤ m) :
    bump σ k ds v < m := by
  by_cases hm : v ∈ ds
  · have := bump_mem (σ := σ) (k := k) hm
    omega
  · rw [bump_not_mem hm]
    exact h1

include h hph hall hvb in
theorem vars_below {d : Dom} (t : IsTree c.graph.Edge c.entry d) : VarsBelow c' n' := by
  intro l j i e
  have hl := block_reach h hall e
  have hhi := h.hi l hl
  refine ⟨?_, ?_⟩
  · intro v hv
    have := tgt_range h hall e hv
    omega
  · intro x hx
    rcases inst_cases h hl e with ⟨u, hu, hj, rfl⟩ | ⟨hj, i0, e0, rfl⟩
    · simp only [Inst.phi, List.mem_map, Prod.exists, exists_eq_right] at hx
      obtain ⟨p, hp⟩ := hx
      obtain ⟨he, hx⟩ := (h.mem l u p _).1 hp
      have hpr := hall.2 p l he
      injection hx with hx
      rw [hx]
      have h1 := h.hi p hpr
      have h2 := name_lt h t hpr (vs_below h hvb (List.mem_of_getElem? hu))
      exact bump_le (by omega) h1
    · have hn0 := hph l _ i0 e0
      simp only [renInst, if_pos hn0] at hx
      obtain ⟨b, hb, hx⟩ := List.mem_map.1 hx
      cases b with
      | var v =>
        simp only [renArg, Arg.var.injEq] at hx
        rw [← hx]
        have h2 := name_lt h t hl ((hvb l _ i0 e0).2 v hb)
        have h3 := le_size (c := c) (vs := vs) (l := l) (j := j - (vs l).length)
        exact bump_le (by omega) (by rw [List.length_append]; omega)
      | builtin p => cases hx
      | const p => cases hx
      | fn p => cases hx

/-! ## Different variables have different names -/

theorem bump_pos : ∀ {ds : List Nat} {σ : Nat → Nat} {k v : Nat}, v ∈ ds →
    ∃ i, ds[i]? = some v ∧ bump σ k ds v = k + i
  | [], _, _, _, h => by simp at h
  | d :: ds, σ, k, v, h => by
    rw [bump]
    by_cases hv : v ∈ ds
    · obtain ⟨i, h1, h2⟩ := bump_pos (σ := upd σ d k) (k := k + 1) hv
      exact ⟨i + 1, by simpa using h1, by omega⟩
    · rcases List.mem_cons.1 h with rfl | h
      · exact ⟨0, by simp, by rw [bump_not_mem hv, upd, if_pos rfl, Nat.add_zero]⟩
      · exact absurd h hv

include h in
theorem origin {d : Dom} (t : IsTree c.graph.Edge c.entry d) :
    ∀ (m : Nat) {x : Nat}, Reach c.graph.Edge c.entry x → d.postorder.length ≤ m + d.postorder.idxOf x →
    ∀ v, fin c vs σ k x v = v ∨ ∃ (q i : Nat), Reach c.graph.Edge c.entry q ∧
      (allDsts c vs q)[i]? = some v ∧ fin c vs σ k x v = k q + i := by
  intro m
  induction m with
  | zero =>
    intro x hx hm
    have := List.idxOf_lt_length_of_mem ((t.mem x).2 hx)
    omega
  | succ m ih =>
    intro x hx hm v
    by_cases hv : v ∈ allDsts c vs x
    · obtain ⟨i, h1, h2⟩ := bump_pos (σ := σ x) (k := k x) hv
      exact .inr ⟨x, i, hx, h1, h2⟩
    · rw [fin, bump_not_mem hv]
      by_cases he : x = c.entry
      · subst he
        rw [h.start]
        exact .inl rfl
      · obtain ⟨p, -, hi, hlt⟩ := t.idom x hx he
        rw [(h.idom p x hx he hi).1]
        exact ih (dom_reach hx hi.1.1) (by omega) v

include h hph hall hvb in
theorem noClobber {d : Dom} (t : IsTree c.graph.Edge c.entry d) : NoClobber c' := by
  intro l j j' i i' p x e hn _ e' hn' hlt hin
  have hl := block_reach h hall e
  rcases inst_cases h hl e with ⟨u, hu, hj, rfl⟩ | ⟨hj, i0, e0, rfl⟩
  · rcases inst_cases h hl e' with ⟨u', hu', hj', rfl⟩ | ⟨hj', i0', e0', rfl⟩
    · rw [zip_phi, h.mem] at hin
      obtain ⟨he, hx⟩ := hin
      injection hx with hx
      simp only [Inst.phi, List.mem_singleton]
      intro hx'
      rw [hx'] at hx
      have hp := hall.2 p l he
      have hlo := h.lo l hl
      have hb := vs_below h hvb (List.mem_of_getElem? hu')
      rcases origin h t d.postorder.length hp (by omega) u' with h1 | ⟨q, a, hq, h1, h2⟩
      · rw [fin] at h1
        omega
      · rw [fin, ← hx] at h2
        have ha : a < (allDsts c vs q).length := (List.getElem?_eq_some_iff.1 h1).1
        have hjs : (vs l).length ≤ (allDsts c vs l).length := by simp [allDsts]
        by_cases hql : q = l
        · subst hql
          have haj : a = j := by omega
          rw [haj, allDsts, List.getElem?_append_left hj, hu] at h1
          injection h1 with h1
          rw [h1] at hu
          have := (List.getElem?_inj hj' (h.nodup q)).1 (hu'.trans hu.symm)
          omega
        · rcases h.disj q l hq hl hql with h3 | h3 <;> omega
    · exact absurd hn' (hph l _ i0' e0')
  · exact absurd hn (hph l _ i0 e0)

/-! ## The run -/

/-- Two states between blocks: same place, same world, and every variable under the name it has there. -/
def Sim {V W : Type} (c : Cfg) (N : Nat) (vs : Nat → List Nat) (σ : Nat → Nat → Nat) (k : Nat → Nat)
    (x x' : Conf V W) : Prop :=
  x.at_ = x'.at_ ∧ x.world = x'.world ∧ ∀ l, x.at_ = some l → Reach c.graph.Edge c.entry l ∧
    ∀ v, v < N → x.env v = x'.env (bump (σ l) (k l) (vs l) v)

variable {V W : Type} {I : Interp V W}

include h wf hvb in
theorem next_ren {l : Nat} (hl : Reach c.graph.Edge c.entry l) {e e' : Nat → V}
    (he : ∀ v, v < N → e v = e' (fin c vs σ k l v)) :
    next I c l (blockOf c l) e = next I c' l (blockOf c' l) e' := by
  by_cases hz : blockOf c l = []
  · have hb := h.block l hl
    rw [hz] at hb ⊢
    simp only [renAll, List.append_nil] at hb
    simp only [next, List.getLast?_nil, h.graph]
    cases hg : (blockOf c' l).getLast? with
    | none => rfl
    | some i =>
      have := phiList_isPhi (i := i) (by rw [← hb]; exact List.mem_of_getLast? hg)
      simp [this]
  · have hlen : 0 < (blockOf c l).length := List.length_pos_iff.2 hz
    have e0 : instAt c l ((blockOf c l).length - 1) = some ((blockOf c l)[(blockOf c l).length - 1]'(by omega)) :=
      List.getElem?_eq_getElem (by omega)
    generalize hi0 : (blockOf c l)[(blockOf c l).length - 1]'(by omega) = i0 at e0
    have e1 := inst_ren h hl e0
    have hj : (vs l).length + ((blockOf c l).length - 1) = (blockOf c' l).length - 1 := by
      rw [len_eq h hl]; omega
    rw [hj] at e1
    have g0 : (blockOf c l).getLast? = some i0 := by rw [List.getLast?_eq_getElem?]; exact e0
    have g1 := e1
    rw [instAt, ← List.getLast?_eq_getElem?] at g1
    simp only [next, g0, g1, h.graph]
    by_cases hc : i0.t = .condGoto
    · have sh := wf.shape l _ i0 e0
      simp only [Shape, hc] at sh
      obtain ⟨h1, ⟨a, h2⟩, t, f, h3⟩ := sh
      have hτ : tau c vs σ k l ((blockOf c' l).length - 1) = fin c vs σ k l := by
        rw [← tau_end h hl, tau, tau, len_eq h hl]
        have q1 : (vs l).length + (blockOf c l).length - 1 - (vs l).length = (blockOf c l).length - 1 := by omega
        have q2 : (vs l).length + (blockOf c l).length - (vs l).length = (blockOf c l).length - 1 + 1 := by omega
        rw [q1, q2, dsts_take_succ e0, h1, List.append_nil]
      simp only [renInst, hc, h2, h3, hτ, if_true]
      have : valOf I e a = valOf I e' (renArg (fin c vs σ k l) a) :=
        valOf_ren he (fun v hv => (hvb l _ i0 e0).2 v (by simp [h2, hv]))
      rw [this]
      rfl
    · simp [renInst, hc]

include h wf hph hall hent hvb in
theorem sim_step {d : Dom} (t : IsTree c.graph.Edge c.entry d) {x x' : Conf V W} (s : Sim c N vs σ k x x') :
    Sim c N vs σ k (step I c x) (step I c' x') := by
  obtain ⟨s1, s2, s3⟩ := s
  cases hat : x.at_ with
  | none =>
    have h' : x'.at_ = none := by rw [← s1, hat]
    simp only [step, hat, h']
    exact ⟨s1, s2, s3⟩
  | some l =>
    have h' : x'.at_ = some l := by rw [← s1, hat]
    obtain ⟨hl, s4⟩ := s3 l hat
    have hσ : ∀ v, v < N → bump (σ l) (k l) (vs l) v < k l + (vs l).length :=
      bump_lt (fun v hv => name_lt h t hl hv)
    obtain ⟨r1, r2⟩ := execAll_ren (I := I) (N := N) (is := blockOf c l) (e := x.env) (e' := x'.env) (w := x.world)
      (by
        intro i hi
        obtain ⟨j, hj⟩ := List.getElem?_of_mem hi
        exact ⟨hph l j i hj, wf.shape l j i hj, (hvb l j i hj).2⟩) s4 hσ
    have hex : execAll I (blockOf c' l) (x'.env, x'.world) =
        execAll I (renAll (bump (σ l) (k l) (vs l)) (k l + (vs l).length) (blockOf c l)) (x'.env, x.world) := by
      rw [h.block l hl, execAll_phis phiList_isPhi, s2]
    rw [← hex] at r1 r2
    have r3 : ∀ v, v < N → (execAll I (blockOf c l) (x.env, x.world)).1 v =
        (execAll I (blockOf c' l) (x'.env, x'.world)).1 (fin c vs σ k l v) := by
      intro v hv
      rw [r2 v hv, fin, allDsts, bump_append]
    have hnx := next_ren (I := I) h wf hvb hl r3
    simp only [step, hat, h', ← hnx]
    cases hn : next I c l (blockOf c l) (execAll I (blockOf c l) (x.env, x.world)).1 with
    | none => exact ⟨rfl, r1, fun l hl => by cases hl⟩
    | some n =>
      refine ⟨rfl, r1, ?_⟩
      intro m hm
      simp only [Option.some.injEq] at hm
      subst hm
      have he : c.graph.Edge l n := next_edge wf hn
      have hr : Reach c.graph.Edge c.entry n := .step hl he
      refine ⟨hr, ?_⟩
      intro v hv
      simp only
      rw [enter_noPhi _ _ (by
        intro i hi
        obtain ⟨j, hj⟩ := List.getElem?_of_mem hi
        exact hph n j i hj), r3 v hv]
      rw [h.block n hr, enter_append, enter_noPhi _ _ (by
        intro i hi
        obtain ⟨j, hj⟩ := List.getElem?_of_mem hi
        rw [renAll_get] at hj
        cases h0 : (blockOf c n)[j]? with
        | none => rw [h0] at hj; simp at hj
        | some i0 =>
          rw [h0] at hj
          simp only [Option.map_some, Option.some.injEq] at hj
          rw [← hj]
          exact hph n j i0 h0)]
      by_cases hm : v ∈ vs n
      · obtain ⟨j, hj⟩ := List.getElem?_of_mem hm
        have hjl : j < (vs n).length := (List.getElem?_eq_some_iff.1 hj).1
        rw [bump_nodup (h.nodup n) hj]
        rw [enter_phiList (a := .var (fin c vs σ k l v)) (List.nodup_range') (j := j) (v := v)
          (by rw [List.getElem?_range' hjl]; simp) hj
          (lookup_of_mem_nodup (h.once n v) ((h.mem n v l _).2 ⟨he, rfl⟩))]
        rfl
      · rw [bump_not_mem hm, name_edge h t hent hl he hm, enter_other]
        intro i hi _ hin
        obtain ⟨j, hj⟩ := List.getElem?_of_mem hi
        simp only [phiList, List.getElem?_zipWith] at hj
        cases g1 : (List.range' (k n) (vs n).length)[j]? <;> cases g2 : (vs n)[j]? <;> simp [g1, g2] at hj
        rw [← hj] at hin
        simp only [Inst.phi, List.mem_singleton] at hin
        have q := List.mem_of_getElem? g1
        rw [← hin, List.mem_range'_1] at q
        have := name_lt h t hr hv
        omega

include h wf hph hall hent hvb in
theorem sim_run {d : Dom} (t : IsTree c.graph.Edge c.entry d) (e : Nat → V) (w : W) (m : Nat) :
    Sim c N vs σ k (Opt.run I c e w m) (Opt.run I c' e w m) := by
  induction m with
  | zero =>
    refine ⟨by simp [Opt.run, h.entry], rfl, ?_⟩
    intro l hl
    simp only [Opt.run, Option.some.injEq] at hl
    subst hl
    refine ⟨.refl, ?_⟩
    intro v _
    rw [vs_entry h hent, h.start]
    rfl
  | succ m ih => exact sim_step h wf hph hall hent hvb t ih

end

end Verif.Ssa
