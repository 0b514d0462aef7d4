import Verif.Structure.Tree
import Verif.Dom.Derived
/-!
# The structurer as a relation, and the simulation between trees and graphs
-/

namespace Verif.Structure

open Verif.Graph

variable {ι α σ ε : Type}

/-! ## The relation -/

inductive Walked (x : Ctx ι α) : Option Nat → Option Nat → List Nat → Option Nat → List Nat →
    List (Tree ι α) → List Nat → Prop where
  | nil {B A L C} : Walked x none B A L C [] C
  | bound {l B A L C} : B = some l → Walked x (some l) B A L C [] C
  | cont {l B A L C k info} : L = some k → x.forest.loops[k]? = some info → info.header = l → l ∈ C →
      Walked x (some l) B A L C [.cont k] C
  | ite {l B A L C r insts c tt te ts C1 C2 C3} : B ≠ some l → l ∈ A → l ∉ C →
      x.branches l = some (r, insts, c) →
      Walked x (some r.thenEntry) (some r.join) A L (l :: C) tt C1 →
      Walked x (some r.elseEntry) (some r.join) A L C1 te C2 →
      Walked x (some r.join) B A L C2 ts C3 →
      Walked x (some l) B A L C (.ite l insts c (wrapSeq tt) (wrapSeq te) r.join :: ts) C3
  | guardSelf {l B A L C k info g ts C2} : B ≠ some l → l ∈ A → l ∉ C →
      x.forest.loops[k]? = some info → info.header = l → loopGuard x.prog info = some g →
      g.inside = l → Walked x info.follow B A L (l :: C) ts C2 →
      Walked x (some l) B A L C
        (.loop l info.follow (.seq [.ite l g.insts g.cond (.seq []) (.brk k) g.outside]) k :: ts) C2
  | guard {l B A L C k info g tt ts C1 C2} : B ≠ some l → l ∈ A → l ∉ C →
      x.forest.loops[k]? = some info → info.header = l → loopGuard x.prog info = some g →
      g.inside ≠ l → Walked x (some g.inside) none info.nodes (some k) (l :: C) tt C1 →
      Walked x info.follow B A L C1 ts C2 →
      Walked x (some l) B A L C
        (.loop l info.follow (.seq [.ite l g.insts g.cond (wrapSeq tt) (.brk k) g.outside]) k :: ts) C2
  | plain {l B A L C k info tt ts C1 C2} : B ≠ some l → l ∈ A → l ∉ C →
      x.forest.loops[k]? = some info → info.header = l →
      Walked x (some l) none info.nodes (some k) C tt C1 →
      Walked x info.follow B A L C1 ts C2 →
      Walked x (some l) B A L C (.loop l info.follow (wrapSeq tt) k :: ts) C2
  | stop {l B A L C insts} : B ≠ some l → l ∈ A → l ∉ C → x.prog.bblocks.lookup l = some insts →
      x.prog.graph.childrenSorted l = [] → Walked x (some l) B A L C [.block l insts] (l :: C)
  | jump {l B A L C insts succ t} : B ≠ some l → l ∈ A → l ∉ C →
      x.prog.bblocks.lookup l = some insts → x.prog.graph.childrenSorted l = [succ] →
      x.resolve L succ A = .ok (.inl t) → Walked x (some l) B A L C [.block l insts, t] (l :: C)
  | next {l B A L C insts succ n ts C1} : B ≠ some l → l ∈ A → l ∉ C →
      x.prog.bblocks.lookup l = some insts → x.prog.graph.childrenSorted l = [succ] →
      x.resolve L succ A = .ok (.inr n) → Walked x (some n) B A L (l :: C) ts C1 →
      Walked x (some l) B A L C (.block l insts :: ts) C1

theorem Res.bind_ok {β γ : Type} {r : Res β} {f : β → Res γ} {c : γ} (h : r.bind f = .ok c) :
    ∃ b, r = .ok b ∧ f b = .ok c := by
  cases r with
  | ok b => exact ⟨b, rfl, h⟩
  | err => simp [Res.bind] at h
  | stuck => simp [Res.bind] at h

theorem opens_some {x : Ctx ι α} {L : Option Nat} {l k : Nat} {info : LoopInfo}
    (h : x.opens L l = some (k, info)) : x.forest.loops[k]? = some info ∧ info.header = l := by
  unfold Ctx.opens at h
  cases hl : x.forest.labelForHeader l with
  | none => simp [hl] at h
  | some k' =>
    simp only [hl] at h
    by_cases hp : (x.forest.parentOf k' == L) = true
    · rw [if_pos hp] at h
      cases hi : x.forest.loops[k']? with
      | none => simp [hi] at h
      | some i =>
        simp only [hi, Option.map_some, Option.some.injEq, Prod.mk.injEq] at h
        obtain ⟨rfl, rfl⟩ := h
        refine ⟨hi, ?_⟩
        unfold LoopForest.labelForHeader at hl
        rw [List.findIdx?_eq_some_iff_getElem] at hl
        obtain ⟨hlt, hh, -⟩ := hl
        rw [List.getElem?_eq_getElem hlt] at hi
        rw [← Option.some.inj hi]
        simpa using hh
    · rw [if_neg hp] at h
      simp at h

theorem isHeader_true {x : Ctx ι α} {L : Option Nat} {l : Nat} (h : x.isHeader L l = true) :
    ∃ k info, L = some k ∧ x.forest.loops[k]? = some info ∧ info.header = l := by
  unfold Ctx.isHeader at h
  cases L with
  | none => simp at h
  | some k =>
    cases hi : x.forest.loops[k]? with
    | none => simp [hi] at h
    | some info =>
      simp only [Option.bind_some, hi, beq_iff_eq] at h
      exact ⟨k, info, rfl, hi, h⟩

theorem walk_sound (x : Ctx ι α) : ∀ (fuel : Nat) (cur B : Option Nat) (A : List Nat) (L : Option Nat)
    (C : List Nat) (ts : List (Tree ι α)) (C' : List Nat),
    x.walk fuel cur B A L C = .ok (ts, C') → Walked x cur B A L C ts C' := by
  intro fuel
  induction fuel with
  | zero => intro cur B A L C ts C' h; simp [Ctx.walk] at h
  | succ fuel ih =>
    intro cur B A L C ts C' h
    cases cur with
    | none =>
      simp only [Ctx.walk, Res.ok.injEq, Prod.mk.injEq] at h
      obtain ⟨rfl, rfl⟩ := h
      exact .nil
    | some l =>
      unfold Ctx.walk at h
      by_cases hb : (B == some l) = true
      · rw [if_pos hb] at h
        simp only [Res.ok.injEq, Prod.mk.injEq] at h
        obtain ⟨rfl, rfl⟩ := h
        exact .bound (by simpa using hb)
      rw [if_neg hb] at h
      by_cases hh : (x.isHeader L l && C.contains l) = true
      · rw [if_pos hh] at h
        simp only [Bool.and_eq_true] at hh
        obtain ⟨k, info, rfl, hk, hl⟩ := isHeader_true hh.1
        simp only [Res.ok.injEq, Prod.mk.injEq, Option.getD_some] at h
        obtain ⟨rfl, rfl⟩ := h
        exact .cont rfl hk hl (by simpa using hh.2)
      rw [if_neg hh] at h
      by_cases hA : (!(A.contains l)) = true
      · rw [if_pos hA] at h; simp at h
      rw [if_neg hA] at h
      by_cases hC : C.contains l = true
      · rw [if_pos hC] at h; simp at h
      rw [if_neg hC] at h
      have hb' : B ≠ some l := by simpa using hb
      have hA' : l ∈ A := by simpa using hA
      have hC' : l ∉ C := by simpa using hC
      obtain ⟨⟨ts1, next, C1⟩, h1, h2⟩ := Res.bind_ok h
      obtain ⟨⟨ts2, C2⟩, h3, h4⟩ := Res.bind_ok h2
      simp only [Res.ok.injEq, Prod.mk.injEq] at h4
      obtain ⟨rfl, rfl⟩ := h4
      have h3' := ih _ _ _ _ _ _ _ h3
      have call : ∀ {start B A L C t C'},
          ((x.walk fuel (some start) B A L C).bind fun r => Res.ok (wrapSeq r.1, r.2)) = .ok (t, C') →
          ∃ ts, t = wrapSeq ts ∧ Walked x (some start) B A L C ts C' := by
        intro start B A L C t C' hc
        obtain ⟨⟨tt, Ct⟩, h5, h6⟩ := Res.bind_ok hc
        simp only [Res.ok.injEq, Prod.mk.injEq] at h6
        obtain ⟨rfl, rfl⟩ := h6
        exact ⟨tt, rfl, ih _ _ _ _ _ _ _ h5⟩
      unfold Ctx.node at h1
      cases ho : x.opens L l with
      | some p =>
        obtain ⟨k, info⟩ := p
        obtain ⟨hk, hl⟩ := opens_some ho
        subst hl
        simp only [ho, Ctx.structLoop] at h1
        cases hg : loopGuard x.prog info with
        | some g =>
          simp only [hg] at h1
          obtain ⟨⟨t, Ct⟩, h5, h6⟩ := Res.bind_ok h1
          simp only [Res.ok.injEq, Prod.mk.injEq] at h6
          obtain ⟨rfl, rfl, rfl⟩ := h6
          by_cases hi : (g.inside == info.header) = true
          · rw [if_pos hi] at h5
            simp only [Res.ok.injEq, Prod.mk.injEq] at h5
            obtain ⟨rfl, rfl⟩ := h5
            exact .guardSelf hb' hA' hC' hk rfl hg (by simpa using hi) h3'
          · rw [if_neg hi] at h5
            obtain ⟨tt, rfl, h7⟩ := call h5
            exact .guard hb' hA' hC' hk rfl hg (by simpa using hi) h7 h3'
        | none =>
          simp only [hg] at h1
          obtain ⟨⟨t, Ct⟩, h5, h6⟩ := Res.bind_ok h1
          simp only [Res.ok.injEq, Prod.mk.injEq] at h6
          obtain ⟨rfl, rfl, rfl⟩ := h6
          obtain ⟨tt, rfl, h7⟩ := call h5
          exact .plain hb' hA' hC' hk rfl h7 h3'
      | none =>
        simp only [ho] at h1
        cases hr : x.branches l with
        | some p =>
          obtain ⟨r, insts, c⟩ := p
          simp only [hr, Ctx.structIf] at h1
          obtain ⟨⟨t, Ct⟩, h5, h6⟩ := Res.bind_ok h1
          obtain ⟨⟨t', Ct'⟩, h7, h8⟩ := Res.bind_ok h6
          simp only [Res.ok.injEq, Prod.mk.injEq] at h8
          obtain ⟨rfl, rfl, rfl⟩ := h8
          obtain ⟨tt, rfl, h9⟩ := call h5
          obtain ⟨te, rfl, h10⟩ := call h7
          exact .ite hb' hA' hC' hr h9 h10 h3'
        | none =>
          simp only [hr, Ctx.structBlock] at h1
          cases hl : x.prog.bblocks.lookup l with
          | none => simp [hl] at h1
          | some insts =>
            simp only [hl] at h1
            cases hc : x.prog.graph.childrenSorted l with
            | nil =>
              simp only [hc, Res.ok.injEq, Prod.mk.injEq] at h1
              obtain ⟨rfl, rfl, rfl⟩ := h1
              cases h3'
              exact .stop hb' hA' hC' hl hc
            | cons succ rest =>
              cases rest with
              | cons _ _ => simp [hc] at h1
              | nil =>
                simp only [hc] at h1
                obtain ⟨r, h5, h6⟩ := Res.bind_ok h1
                cases r with
                | inl t =>
                  simp only [Res.ok.injEq, Prod.mk.injEq] at h6
                  obtain ⟨rfl, rfl, rfl⟩ := h6
                  cases h3'
                  exact .jump hb' hA' hC' hl hc h5
                | inr n =>
                  simp only [Res.ok.injEq, Prod.mk.injEq] at h6
                  obtain ⟨rfl, rfl, rfl⟩ := h6
                  exact .next hb' hA' hC' hl hc h5 h3'

theorem Walked.mono {x : Ctx ι α} {cur B A L C ts C'} (h : Walked x cur B A L C ts C') :
    ∀ y ∈ C, y ∈ C' := by
  induction h with
  | nil => exact fun _ h => h
  | bound _ => exact fun _ h => h
  | cont _ _ _ _ => exact fun _ h => h
  | ite _ _ _ _ _ _ _ i1 i2 i3 => exact fun y hy => i3 y (i2 y (i1 y (List.mem_cons_of_mem _ hy)))
  | guardSelf _ _ _ _ _ _ _ _ i => exact fun y hy => i y (List.mem_cons_of_mem _ hy)
  | guard _ _ _ _ _ _ _ _ _ i1 i2 => exact fun y hy => i2 y (i1 y (List.mem_cons_of_mem _ hy))
  | plain _ _ _ _ _ _ _ i1 i2 => exact fun y hy => i2 y (i1 y hy)
  | stop _ _ _ _ _ => exact fun y hy => List.mem_cons_of_mem _ hy
  | jump _ _ _ _ _ _ => exact fun y hy => List.mem_cons_of_mem _ hy
  | next _ _ _ _ _ _ _ i => exact fun y hy => i y (List.mem_cons_of_mem _ hy)

/-- A label that was processed is consumed. -/
theorem Walked.head {x : Ctx ι α} {l B A L C ts C'} (h : Walked x (some l) B A L C ts C')
    (hb : B ≠ some l) : l ∈ C' := by
  generalize hc : some l = cur at h
  induction h with
  | nil => cases hc
  | bound h => cases hc; exact absurd h hb
  | cont _ _ _ h => cases hc; exact h
  | ite _ _ _ _ h1 h2 h3 => cases hc; exact h3.mono _ (h2.mono _ (h1.mono _ (by simp)))
  | guardSelf _ _ _ _ _ _ _ h => cases hc; exact h.mono _ (by simp)
  | guard _ _ _ _ _ _ _ h1 h2 => cases hc; exact h2.mono _ (h1.mono _ (by simp))
  | plain _ _ _ _ _ h1 h2 i1 _ => cases hc; exact h2.mono _ (i1 (by simp) rfl)
  | stop _ _ _ _ _ => cases hc; simp
  | jump _ _ _ _ _ _ => cases hc; simp
  | next _ _ _ _ _ _ h => cases hc; exact h.mono _ (by simp)

theorem Walked.inv {x : Ctx ι α} {l B A L C ts C'} (h : Walked x (some l) B A L C ts C') :
    B = some l ∨ (∃ k info, L = some k ∧ x.forest.loops[k]? = some info ∧ info.header = l ∧ l ∈ C) ∨
      (l ∉ C ∧ l ∈ A) := by
  cases h with
  | bound h => exact .inl h
  | cont h1 h2 h3 h4 => exact .inr (.inl ⟨_, _, h1, h2, h3, h4⟩)
  | ite _ h1 h2 => exact .inr (.inr ⟨h2, h1⟩)
  | guardSelf _ h1 h2 => exact .inr (.inr ⟨h2, h1⟩)
  | guard _ h1 h2 => exact .inr (.inr ⟨h2, h1⟩)
  | plain _ h1 h2 => exact .inr (.inr ⟨h2, h1⟩)
  | stop _ h1 h2 => exact .inr (.inr ⟨h2, h1⟩)
  | jump _ h1 h2 => exact .inr (.inr ⟨h2, h1⟩)
  | next _ h1 h2 => exact .inr (.inr ⟨h2, h1⟩)

/-! ## Steps of the graph -/

inductive Steps (m : Machine ι α σ ε) (P : Prog ι α) (S : Nat → Prop) :
    Nat → Nat → σ → Nat → σ → Prop where
  | refl {l s} : Steps m P S 0 l s l s
  | step {n l s l1 s1 l2 s2} : S l → move m P l s = .goto l1 s1 → Steps m P S n l1 s1 l2 s2 →
      Steps m P S (n + 1) l s l2 s2

section
variable {m : Machine ι α σ ε} {P : Prog ι α} {S S' : Nat → Prop}

theorem Steps.mono {n l s l' s'} (hS : ∀ y, S y → S' y) (h : Steps m P S n l s l' s') :
    Steps m P S' n l s l' s' := by
  induction h with
  | refl => exact .refl
  | step h1 h2 _ ih => exact .step (hS _ h1) h2 ih

theorem Steps.trans {n n' l s l1 s1 l2 s2} (h : Steps m P S n l s l1 s1)
    (h' : Steps m P S n' l1 s1 l2 s2) : Steps m P S (n + n') l s l2 s2 := by
  induction h with
  | refl => simpa using h'
  | step h1 h2 _ ih =>
    rw [Nat.add_right_comm]
    exact .step h1 h2 (ih h')

theorem Steps.run {n l s l' s'} (h : Steps m P S n l s l' s') :
    ∀ k, runCfg m P (n + k) l s = runCfg m P k l' s' := by
  induction h with
  | refl => intro k; simp
  | step h1 h2 _ ih =>
    intro k
    rw [Nat.add_right_comm]
    simp only [runCfg, h2]
    exact ih k
end

/-- The program stops from a label, having executed only blocks in `S`. -/
def Halts (m : Machine ι α σ ε) (P : Prog ι α) (S : Nat → Prop) (l : Nat) (s : σ) (o : End σ ε) : Prop :=
  ∃ n z s1, Steps m P S n l s z s1 ∧ S z ∧ move m P z s1 = .stop o

/-- What the structurer needs to know about its inputs. -/
structure Sound (x : Ctx ι α) (real : Nat → Prop) : Prop where
  jump : ∀ l b c t f, x.prog.bblocks.lookup l = some b → b.getLast? = some (.condGoto c t f) →
    t ∈ x.prog.graph.children l ∧ f ∈ x.prog.graph.children l
  entries : ∀ l r b c t f, x.conds l = some r → x.prog.bblocks.lookup l = some b →
    b.getLast? = some (.condGoto c t f) → r.thenEntry = t ∧ r.elseEntry = f
  joins : ∀ l r, x.conds l = some r → real r.join → ∀ e z p, e = r.thenEntry ∨ e = r.elseEntry →
    Verif.Graph.Walk x.prog.graph.Edge e p z → x.prog.graph.children z = [] → r.join ∈ p
  allowed : ∀ l ∈ x.reachable, real l
  nodes : ∀ (k : Nat) info, x.forest.loops[k]? = some info →
    real info.header ∧ ∀ n ∈ info.nodes, real n ∧ x.prog.graph.children n ≠ []
  guards : ∀ (k : Nat) info b c t f, x.forest.loops[k]? = some info →
    x.prog.bblocks.lookup info.header = some b → b.getLast? = some (.condGoto c t f) →
    f ∈ info.nodes → t ∉ info.nodes → info.follow ≠ some t
  ancestors : ∀ (k : Nat) info l s, x.forest.loops[k]? = some info → l ∈ info.nodes →
    x.prog.graph.children l = [s] → s ≠ info.header → info.follow ≠ some s →
    x.forest.ancestor s x.forest.loops.length k = none

theorem runInsts_append (m : Machine ι α σ ε) : ∀ (a b : List (Inst ι α)) (s : σ),
    runInsts m (a ++ b) s = match runInsts m a s with
      | .error e => .error e
      | .ok s => runInsts m b s
  | [], b, s => by simp [runInsts]
  | .op i :: a, b, s => by
    simp only [List.cons_append, runInsts]
    cases m.exec i s with
    | error e => rfl
    | ok s => exact runInsts_append m a b s
  | .condGoto _ _ _ :: a, b, s => by
    simp only [List.cons_append, runInsts]
    exact runInsts_append m a b s

theorem runInsts_dropLast (m : Machine ι α σ ε) {b : List (Inst ι α)} {c : α} {t f : Nat}
    (h : b.getLast? = some (.condGoto c t f)) (s : σ) : runInsts m b.dropLast s = runInsts m b s := by
  have hb : b = b.dropLast ++ [.condGoto c t f] := by
    obtain ⟨ys, rfl⟩ := List.getLast?_eq_some_iff.1 h
    simp
  conv => rhs; rw [hb, runInsts_append]
  cases runInsts m b.dropLast s <;> simp [runInsts]

/-- A block with a conditional jump. -/
theorem move_cond {m : Machine ι α σ ε} {P : Prog ι α} {l : Nat} {b : List (Inst ι α)} {c : α} {t f : Nat}
    (hl : P.bblocks.lookup l = some b) (h : b.getLast? = some (.condGoto c t f)) (s : σ) :
    move m P l s = match runInsts m b.dropLast s with
      | .error e => .stop (.thrown e)
      | .ok s => .goto (if m.truthy c s then t else f) s := by
  simp only [move, hl, runInsts_dropLast m h]
  cases runInsts m b s <;> simp [h]

theorem sort_one {g : Graph} {l n : Nat} (h : g.childrenSorted l = [n]) : g.children l = [n] := by
  have := sortLabels_perm (l := g.children l)
  unfold Graph.childrenSorted at h
  rw [h] at this
  exact List.perm_singleton.1 this.symm

theorem sort_nil {g : Graph} {l : Nat} (h : g.childrenSorted l = []) : g.children l = [] := by
  have := sortLabels_perm (l := g.children l)
  unfold Graph.childrenSorted at h
  rw [h] at this
  exact List.perm_nil.1 this.symm

section
variable {m : Machine ι α σ ε} {x : Ctx ι α} {real : Nat → Prop} (so : Sound x real)
include so

/-- A block with one successor. -/
theorem Sound.move_one {l n : Nat} {b : List (Inst ι α)} (hl : x.prog.bblocks.lookup l = some b)
    (h : x.prog.graph.children l = [n]) (s : σ) :
    move m x.prog l s = match runInsts m b s with
      | .error e => .stop (.thrown e)
      | .ok s => .goto n s := by
  cases hg : b.getLast? with
  | none => simp only [move, hl, hg, h]; cases runInsts m b s <;> rfl
  | some i =>
    cases i with
    | op i => simp only [move, hl, hg, h]; cases runInsts m b s <;> rfl
    | condGoto c t f =>
      obtain ⟨ht, hf⟩ := so.jump l b c t f hl hg
      rw [h] at ht hf
      simp only [List.mem_singleton] at ht hf
      subst ht hf
      simp only [move, hl, hg]
      cases runInsts m b s <;> simp

/-- A block without successors. -/
theorem Sound.move_none {l : Nat} {b : List (Inst ι α)} (hl : x.prog.bblocks.lookup l = some b)
    (h : x.prog.graph.children l = []) (s : σ) :
    move m x.prog l s = match runInsts m b s with
      | .error e => .stop (.thrown e)
      | .ok s => .stop (.done s) := by
  cases hg : b.getLast? with
  | none => simp only [move, hl, hg, h]; cases runInsts m b s <;> rfl
  | some i =>
    cases i with
    | op i => simp only [move, hl, hg, h]; cases runInsts m b s <;> rfl
    | condGoto c t f =>
      obtain ⟨ht, -⟩ := so.jump l b c t f hl hg
      rw [h] at ht
      simp at ht

theorem Sound.edge {l l1 : Nat} {s s1 : σ} (h : move m x.prog l s = .goto l1 s1) :
    l1 ∈ x.prog.graph.children l := by
  unfold move at h
  cases hl : x.prog.bblocks.lookup l with
  | none => simp [hl] at h
  | some b =>
    simp only [hl] at h
    cases hr : runInsts m b s with
    | error e => simp [hr] at h
    | ok s' =>
      simp only [hr] at h
      split at h
      · rename_i c t f hg
        obtain ⟨ht, hf⟩ := so.jump l b c t f hl hg
        simp only [Move.goto.injEq] at h
        rw [← h.1]
        split
        · exact ht
        · exact hf
      · split at h
        · simp at h
        · rename_i hc
          simp only [Move.goto.injEq] at h
          rw [hc]
          simp [h.1]
        · simp at h

omit so in
theorem stop_childless {l : Nat} {s s' : σ} (h : move m x.prog l s = .stop (.done s')) :
    x.prog.graph.children l = [] := by
  unfold move at h
  cases hl : x.prog.bblocks.lookup l with
  | none => simp [hl] at h
  | some b =>
    simp only [hl] at h
    cases hr : runInsts m b s with
    | error e => simp [hr] at h
    | ok s' =>
      simp only [hr] at h
      split at h
      · simp at h
      · split at h
        · assumption
        · simp at h
        · simp at h

theorem Sound.path {S : Nat → Prop} {n l z : Nat} {s s1 : σ} (h : Steps m x.prog S n l s z s1) (hz : S z) :
    ∃ p, Verif.Graph.Walk x.prog.graph.Edge l p z ∧ ∀ y ∈ p, S y := by
  induction h with
  | refl => exact ⟨_, .start, by simpa using hz⟩
  | @step n l s l1 s1 l2 s2 h1 h2 _ ih =>
    obtain ⟨p, hp, hS⟩ := ih hz
    refine ⟨l :: p, Verif.Dom.walk_cons (so.edge h2) hp, ?_⟩
    intro y hy
    rcases List.mem_cons.1 hy with rfl | hy
    · exact h1
    · exact hS y hy
end

end Verif.Structure
