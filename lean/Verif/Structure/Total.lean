import Verif.Structure.Context
/-!
# Structuring ends
-/

namespace Verif.Structure

open Verif.Graph Verif.Dom

variable {ι α : Type}

/-- How many labels are not consumed. -/
def left (U C : List Nat) : Nat := (U.filter (fun y => !(C.contains y))).length

theorem left_cons (U C : List Nat) (y : Nat) :
    left (y :: U) C = (if y ∈ C then 0 else 1) + left U C := by
  unfold left
  simp only [List.filter_cons]
  by_cases h : y ∈ C
  · have : C.contains y = true := by simpa using h
    simp [h]
  · simp [h]
    omega

theorem left_mono {U C C' : List Nat} (h : ∀ y ∈ C, y ∈ C') : left U C' ≤ left U C := by
  induction U with
  | nil => simp [left]
  | cons y U ih =>
    rw [left_cons, left_cons]
    by_cases h1 : y ∈ C
    · rw [if_pos h1, if_pos (h y h1)]
      omega
    · rw [if_neg h1]
      split <;> omega

theorem left_lt {U C C' : List Nat} (h : ∀ y ∈ C, y ∈ C') {l : Nat} (hU : l ∈ U) (h1 : l ∉ C)
    (h2 : l ∈ C') : left U C' < left U C := by
  induction U with
  | nil => cases hU
  | cons y U ih =>
    have hm := left_mono (U := U) h
    rw [left_cons, left_cons]
    by_cases hy : y = l
    · subst hy
      rw [if_neg h1, if_pos h2]
      omega
    · have := ih ((List.mem_cons.1 hU).resolve_left (fun e => hy e.symm))
      by_cases h3 : y ∈ C
      · rw [if_pos h3, if_pos (h y h3)]
        omega
      · rw [if_neg h3]
        split <;> omega

theorem opens_spec {x : Ctx ι α} {L : Option Nat} {l k : Nat} {info : LoopInfo}
    (h : x.opens L l = some (k, info)) : x.forest.loops[k]? = some info ∧ info.header = l ∧
      x.forest.parentOf k = L ∧ x.forest.labelForHeader l = some k := by
  obtain ⟨h1, h2⟩ := opens_some h
  refine ⟨h1, h2, ?_⟩
  unfold Ctx.opens at h
  cases hl : x.forest.labelForHeader l with
  | none => simp [hl] at h
  | some k' =>
    simp only [hl] at h
    by_cases hp : (x.forest.parentOf k' == L) = true
    · rw [if_pos hp] at h
      cases hi : x.forest.loops[k']? with
      | none => simp [hi] at h
      | some i =>
        simp only [hi, Option.map_some, Option.some.injEq, Prod.mk.injEq] at h
        obtain ⟨rfl, rfl⟩ := h
        exact ⟨by simpa using hp, rfl⟩
    · rw [if_neg hp] at h
      simp at h

/-- What keeps the walk from getting stuck. -/
structure Ready (x : Ctx ι α) (U : List Nat) : Prop where
  blocks : ∀ l ∈ U, ∃ b, x.prog.bblocks.lookup l = some b
  allowed : ∀ l ∈ x.reachable, l ∈ U
  nodes : ∀ (k : Nat) info, x.forest.loops[k]? = some info → ∀ l ∈ info.nodes, l ∈ U
  parent : ∀ k : Nat, x.forest.parentOf k ≠ some k

/-- One when a loop is opened at the label. -/
def bit (x : Ctx ι α) (L : Option Nat) : Option Nat → Nat
  | none => 0
  | some l => if (x.opens L l).isSome then 1 else 0

theorem bit_le (x : Ctx ι α) (L c : Option Nat) : bit x L c ≤ 1 := by
  cases c with
  | none => simp [bit]
  | some l =>
    simp only [bit]
    split <;> omega

theorem Res.bind_stuck {β γ : Type} {r : Res β} {f : β → Res γ} (h1 : r ≠ .stuck)
    (h2 : ∀ b, r = .ok b → f b ≠ .stuck) : r.bind f ≠ .stuck := by
  cases r with
  | stuck => exact absurd rfl h1
  | err => simp [Res.bind]
  | ok b => exact h2 b rfl

def Valid (x : Ctx ι α) (L : Option Nat) : Prop := ∀ k, L = some k → ∃ info, x.forest.loops[k]? = some info

theorem resolve_total (x : Ctx ι α) {L : Option Nat} (hL : Valid x L) (s : Nat) (A : List Nat) :
    x.resolve L s A ≠ .stuck := by
  unfold Ctx.resolve
  cases L with
  | none => dsimp only; split <;> simp
  | some k =>
    obtain ⟨info, hk⟩ := hL k rfl
    simp only [hk]
    split
    · simp
    · split
      · simp
      · split
        · simp
        · split <;> simp

theorem walk_total {x : Ctx ι α} {U : List Nat} (hr : Ready x U) : ∀ (fuel : Nat) (cur B : Option Nat)
    (A : List Nat) (L : Option Nat) (C : List Nat), (∀ y ∈ A, y ∈ U) → Valid x L →
    2 * left U C + bit x L cur + 1 ≤ fuel → x.walk fuel cur B A L C ≠ .stuck := by
  intro fuel
  induction fuel with
  | zero => intro cur B A L C _ _ h; omega
  | succ fuel ih =>
    intro cur B A L C hA hL hf
    cases cur with
    | none => simp [Ctx.walk]
    | some l =>
      unfold Ctx.walk
      split
      · simp
      · split
        · simp
        · split
          · simp
          · rename_i hAl
            split
            · simp
            · rename_i hCl
              have hlA : l ∈ A := by simpa using hAl
              have hlC : l ∉ C := by simpa using hCl
              have hlU := hA l hlA
              have hlt : ∀ {C' : List Nat}, (∀ y ∈ C, y ∈ C') → l ∈ C' → left U C' + 1 ≤ left U C :=
                fun h1 h2 => left_lt h1 hlU hlC h2
              have hbit := bit_le x
              have hlt1 : left U (l :: C) + 1 ≤ left U C :=
                hlt (fun y hy => List.mem_cons_of_mem _ hy) (by simp)
              have hcall : ∀ start B A L C, (∀ y ∈ A, y ∈ U) → Valid x L →
                  2 * left U C + bit x L (some start) + 1 ≤ fuel →
                  ((x.walk fuel (some start) B A L C).bind fun r => .ok (wrapSeq r.1, r.2)) ≠ .stuck := by
                intro start B A L C h1 h2 h3
                exact Res.bind_stuck (ih _ _ _ _ _ h1 h2 h3) (fun b _ => by simp)
              -- what a node leaves behind
              refine Res.bind_stuck ?_ ?_
              · unfold Ctx.node
                cases ho : x.opens L l with
                | some ki =>
                  obtain ⟨k, info⟩ := ki
                  obtain ⟨hk, hhd, hpar, hlab⟩ := opens_spec ho
                  have hb1 : bit x L (some l) = 1 := by simp [bit, ho]
                  dsimp only
                  unfold Ctx.structLoop
                  have hv : Valid x (some k) := fun k' h => by cases h; exact ⟨info, hk⟩
                  cases loopGuard x.prog info with
                  | some g =>
                    dsimp only
                    refine Res.bind_stuck ?_ (fun b _ => by simp)
                    split
                    · simp
                    · refine hcall _ _ _ _ _ (hr.nodes k info hk) hv ?_
                      rw [hhd]
                      have := hbit (some k) (some g.inside)
                      omega
                  | none =>
                    dsimp only
                    refine Res.bind_stuck ?_ (fun b _ => by simp)
                    refine hcall _ _ _ _ _ (hr.nodes k info hk) hv ?_
                    have : bit x (some k) (some info.header) = 0 := by
                      have hop : x.opens (some k) info.header = none := by
                        unfold Ctx.opens
                        rw [hhd, hlab]
                        have : (x.forest.parentOf k == some k) = false := by
                          simpa using hr.parent k
                        simp [this]
                      simp [bit, hop]
                    omega
                | none =>
                  dsimp only
                  cases hb : x.branches l with
                  | some rb =>
                    obtain ⟨r, insts, c⟩ := rb
                    dsimp only
                    unfold Ctx.structIf
                    refine Res.bind_stuck (hcall _ _ _ _ _ hA hL ?_) ?_
                    · have := hbit L (some r.thenEntry)
                      omega
                    · intro a ha
                      refine Res.bind_stuck (hcall _ _ _ _ _ hA hL ?_) (fun b _ => by simp)
                      obtain ⟨b, hb, hb'⟩ := Res.bind_ok ha
                      cases hb'
                      have hw := (walk_sound x _ _ _ _ _ _ _ _ hb).mono
                      have := left_mono (U := U) hw
                      have := hbit L (some r.elseEntry)
                      dsimp only
                      omega
                  | none =>
                    dsimp only
                    obtain ⟨b, hlk⟩ := hr.blocks l hlU
                    unfold Ctx.structBlock
                    rw [hlk]
                    dsimp only
                    split
                    · simp
                    · refine Res.bind_stuck (resolve_total x hL _ _) ?_
                      intro b _
                      cases b <;> simp
                    · simp
              · intro a ha
                have hC : (∀ y ∈ C, y ∈ a.2.2) ∧ l ∈ a.2.2 := by
                  unfold Ctx.node at ha
                  cases ho : x.opens L l with
                  | some ki =>
                    obtain ⟨k, info⟩ := ki
                    obtain ⟨hk, hhd, hpar, hlab⟩ := opens_spec ho
                    rw [ho] at ha
                    dsimp only at ha
                    unfold Ctx.structLoop at ha
                    cases hg : loopGuard x.prog info with
                    | some g =>
                      rw [hg] at ha
                      dsimp only at ha
                      obtain ⟨b, hb, hb'⟩ := Res.bind_ok ha
                      cases hb'
                      dsimp only
                      split at hb
                      · cases hb
                        rw [hhd]
                        exact ⟨fun y hy => List.mem_cons_of_mem _ hy, by simp⟩
                      · obtain ⟨c, hc, hc'⟩ := Res.bind_ok hb
                        cases hc'
                        have hw := (walk_sound x _ _ _ _ _ _ _ _ hc).mono
                        rw [hhd] at hw
                        exact ⟨fun y hy => hw y (List.mem_cons_of_mem _ hy), hw l (by simp)⟩
                    | none =>
                      rw [hg] at ha
                      dsimp only at ha
                      obtain ⟨b, hb, hb'⟩ := Res.bind_ok ha
                      cases hb'
                      dsimp only
                      obtain ⟨c, hc, hc'⟩ := Res.bind_ok hb
                      cases hc'
                      have hw := walk_sound x _ _ _ _ _ _ _ _ hc
                      rw [hhd] at hw
                      exact ⟨hw.mono, hw.head (by simp)⟩
                  | none =>
                    rw [ho] at ha
                    dsimp only at ha
                    cases hb : x.branches l with
                    | some rb =>
                      obtain ⟨r, insts, c⟩ := rb
                      rw [hb] at ha
                      dsimp only at ha
                      unfold Ctx.structIf at ha
                      obtain ⟨a1, h1, h2⟩ := Res.bind_ok ha
                      obtain ⟨a2, h3, h4⟩ := Res.bind_ok h2
                      cases h4
                      obtain ⟨b1, h5, h6⟩ := Res.bind_ok h1
                      cases h6
                      obtain ⟨b2, h7, h8⟩ := Res.bind_ok h3
                      cases h8
                      have w1 := (walk_sound x _ _ _ _ _ _ _ _ h5).mono
                      have w2 := (walk_sound x _ _ _ _ _ _ _ _ h7).mono
                      exact ⟨fun y hy => w2 y (w1 y (List.mem_cons_of_mem _ hy)), w2 l (w1 l (by simp))⟩
                    | none =>
                      rw [hb] at ha
                      dsimp only at ha
                      unfold Ctx.structBlock at ha
                      split at ha
                      · cases ha
                      · split at ha
                        · cases ha
                          exact ⟨fun y hy => List.mem_cons_of_mem _ hy, by simp⟩
                        · obtain ⟨b, h1, h2⟩ := Res.bind_ok ha
                          cases b with
                          | inl t => cases h2; exact ⟨fun y hy => List.mem_cons_of_mem _ hy, by simp⟩
                          | inr n => cases h2; exact ⟨fun y hy => List.mem_cons_of_mem _ hy, by simp⟩
                        · cases ha
                have := hlt hC.1 hC.2
                have := hbit L a.2.1
                refine Res.bind_stuck (ih _ _ _ _ _ hA hL ?_) (fun b _ => by simp)
                omega

theorem structureCfg_total {P : Prog ι α} (hw : WellFormed P)
    (hb : ∀ l, l = P.entry ∨ l ∈ P.graph.labels → ∃ b, P.bblocks.lookup l = some b) {fuel : Nat}
    (hfuel : 2 * P.graph.labels.length + 4 ≤ fuel) : ∃ c, structureCfg P fuel = some c := by
  obtain ⟨ops, hops⟩ := hw.built
  have w := ((C26_history ops).2 _ hops).wf
  obtain ⟨dom, hdom, td⟩ := calculateDom_tree ops P.graph hops P.entry (P.graph.labels.length + 4) (by omega)
  obtain ⟨pd, hpd⟩ := postdom_some w (fuel := P.graph.labels.length + 4) (by omega)
  have tp := postdom_tree w (by omega) hpd
  obtain ⟨doms, hdoms, -⟩ := td.doms_spec
  obtain ⟨pdoms, hpdoms, -⟩ := tp.doms_spec
  obtain ⟨raw, hraw, hloops⟩ := td.findLoops_spec w
  have hx : context P = some ⟨P, findConds P doms pdoms pd, LoopForest.new P.graph pd raw, reachable P⟩ := by
    simp [context, hdom, hpd, hdoms, hpdoms, hraw]
  have hready : Ready (⟨P, findConds P doms pdoms pd, LoopForest.new P.graph pd raw, reachable P⟩ : Ctx ι α)
      (P.entry :: P.graph.labels) := by
    constructor
    · intro l hl
      exact hb l (List.mem_cons.1 hl)
    · intro l hl
      have := (mem_reachSet w P.entry l).1 hl
      cases this with
      | refl => simp
      | step _ he => exact List.mem_cons_of_mem _ (w.child_label he)
    · intro k info hk l hl
      have h1 := (forest_spec _ _ _ k info hk).1
      rcases hloops info.header with ⟨ns, e1, -, -, e2⟩ | ⟨e1, -⟩
      · rw [h1] at e1
        cases e1
        obtain ⟨c, hc⟩ := loop_child ((e2 l).1 hl)
        exact List.mem_cons_of_mem _ (mem_labels_of_child hc)
      · rw [h1] at e1; cases e1
    · intro k hk
      simp only [LoopForest.parentOf, Option.bind_eq_bind, Option.bind_eq_some_iff] at hk
      obtain ⟨info, h1, h, h2, h3⟩ := hk
      obtain ⟨info', h4, h5⟩ := labelForHeader_spec h3
      rw [h1] at h4
      cases h4
      obtain ⟨e1, e2⟩ := forest_spec _ _ _ k info h1
      obtain ⟨ns, e3, e4, -⟩ := e2 h h2
      rw [← h5, e1] at e3
      cases e3
      omega
  have hwalk := walk_total hready fuel (some P.entry) none (reachable P) none [] hready.allowed
    (fun k h => by cases h) (by
      have h1 : left (P.entry :: P.graph.labels) [] = P.graph.labels.length + 1 := by
        simp [left]
      have := bit_le (⟨P, findConds P doms pdoms pd, LoopForest.new P.graph pd raw, reachable P⟩ : Ctx ι α)
        none (some P.entry)
      omega)
  have hm : ∃ c, buildMachine P = some c := by
    have : ∀ ls : List Nat, (∀ l ∈ ls, l ∈ P.graph.labels) → ∃ bs, ls.mapM (blockOf P) = some bs := by
      intro ls
      induction ls with
      | nil => exact fun _ => ⟨[], rfl⟩
      | cons l ls ih =>
        intro h
        obtain ⟨b, hb'⟩ := hb l (.inr (h l (by simp)))
        obtain ⟨bs, hbs⟩ := ih (fun y hy => h y (List.mem_cons_of_mem _ hy))
        have h1 : blockOf P l = some ⟨l, (buildTerm b (P.graph.children l)).1,
            (buildTerm b (P.graph.children l)).2⟩ := by simp [blockOf, hb']
        exact ⟨_, by simp only [List.mapM_cons, h1, hbs, Option.bind_eq_bind, Option.bind_some]; rfl⟩
    obtain ⟨bs, hbs⟩ := this P.graph.labelsSorted (fun l hl => mem_sortLabels.1 hl)
    refine ⟨.machine 0 bs, ?_⟩
    show ((P.graph.labelsSorted.mapM (blockOf P)).bind fun bs => some (Control.machine 0 bs)) = _
    rw [hbs]
    rfl
  obtain ⟨c, hc⟩ := hm
  simp only [structureCfg, hx, Option.bind_eq_bind, Option.bind_some, Ctx.structure]
  by_cases hv : (!(LoopForest.new P.graph pd raw).valid) = true
  · rw [if_pos hv]
    exact ⟨c, hc⟩
  · rw [if_neg hv]
    split
    · rename_i hs; exact absurd hs hwalk
    · exact ⟨c, hc⟩
    · split
      · exact ⟨_, rfl⟩
      · exact ⟨c, hc⟩

end Verif.Structure
