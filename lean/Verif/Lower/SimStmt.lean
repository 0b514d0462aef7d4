import Verif.Lower.SimS
/-!
# Translated statements do what statements do: the induction
-/

namespace Verif.Lower

open Verif.Il Verif.Lin Verif.Opt

section
variable {V W : Type} {I : Interp V W} {num : V → W → V × W} {code : List Inst} {μ : Nat → Option Nat} {upd : Bool}

theorem extC {e : Expr} {C C' : S} {is : List Inst} {a : Arg} (w : Wf C) (h : compileE e C = some (C', is, a)) :
    Ext C C' := (partC [] w h).1.ext

theorem extO {e : Option Expr} {C C' : S} {is : List Inst} {a : Option Arg} (w : Wf C)
    (h : compileOpt e C = some (C', is, a)) : Ext C C' := (partO [] w h).1.ext

theorem extS {s : Stmt} {x : Ctx} {name : Option Nat} {C C' : S} {is : List Inst} (w : Wf C)
    (h : compileS x name s C = some (C', is)) : Ext C C' := (partS s x.targets w (fun _ h => h) h).1.ext

theorem extSs {s : Stmts} {x : Ctx} {C C' : S} {is : List Inst} (w : Wf C)
    (h : compileSs x s C = some (C', is)) : Ext C C' := (partSs s x.targets w (fun _ h => h) h).1.ext

theorem simC (hp : Placed code) (inj : Inj μ) (hnum : upd = true → ∀ v w, num v w = (v, w)) {e : Expr} {C C' : S} {is : List Inst} {a : Arg}
    {pc : Nat} {env : Nat → V} {σ : St V W} (ho : e.ordered upd = true) (w : Wf C) (g : Good μ C')
    (h : compileE e C = some (C', is, a)) (hat : At code pc is) (ag : Agree μ σ.vars env) :
    EndsV I code μ C.temp pc (pc + is.length) a env σ (eval I num e σ) := by
  obtain ⟨th, h⟩ := compileE_iff.1 h
  exact (simE hp inj hnum e ho w g h hat (by simp) ag).value

/-- An expression that may be missing. -/
theorem simO (hp : Placed code) (inj : Inj μ) (hnum : upd = true → ∀ v w, num v w = (v, w)) {e : Option Expr} {C C' : S} {is : List Inst}
    {a : Option Arg} {pc : Nat} {env : Nat → V} {σ : St V W} (ho : orderedOpt upd e = true) (w : Wf C) (g : Good μ C')
    (h : compileOpt e C = some (C', is, a)) (hat : At code pc is) (ag : Agree μ σ.vars env) :
    ∃ env', To I code ⟨pc, env, σ.world⟩ ⟨pc + is.length, env', (effect I num e σ).world⟩ ∧
      Agree μ (effect I num e σ).vars env' ∧
      (effect I num e σ) = (test I num e σ).2 ∧
      (match a with
        | none => (test I num e σ).1 = true
        | some a => (test I num e σ).1 = I.truthy (valOf I env' a)) := by
  cases e with
  | none =>
    simp only [compileOpt, Option.some.injEq, Prod.mk.injEq] at h
    obtain ⟨rfl, rfl, rfl⟩ := h
    exact ⟨env, .refl, ag, rfl, rfl⟩
  | some e =>
    simp only [compileOpt, Option.bind_eq_bind, Option.bind_eq_some_iff, Option.some.injEq, Prod.mk.injEq] at h
    obtain ⟨⟨C1, is1, a1⟩, h1, rfl, rfl, rfl⟩ := h
    obtain ⟨env', t, ag', -, v⟩ := simC (I := I) hp inj hnum ho w g h1 hat ag
    exact ⟨env', t, ag', rfl, by simp only [test]; rw [v]⟩

/-! ## The tests of a `switch` -/

theorem pick_none {v : V} : ∀ (cs : Cases) (s : St V W), cs.hasTest = false → pick I num v cs s = (none, s)
  | .nil, s, _ => rfl
  | .cons none _ cs, s, h => by simp [pick, pick_none cs s h]
  | .cons (some _) _ _, _, h => by simp [Cases.hasTest] at h

theorem pick_lt {v : V} : ∀ (cs : Cases) (s : St V W) (k : Nat), (pick I num v cs s).1 = some k → k < cs.length
  | .nil, s, k, h => by simp [pick] at h
  | .cons none _ cs, s, k, h => by
    simp only [pick, Option.map_eq_some_iff] at h
    obtain ⟨j, hj, rfl⟩ := h
    have := pick_lt cs s j hj
    simp only [Cases.length]
    omega
  | .cons (some e) _ cs, s, k, h => by
    simp only [pick] at h
    split at h
    · cases h
      simp [Cases.length]
    · simp only [Option.map_eq_some_iff] at h
      obtain ⟨j, hj, rfl⟩ := h
      have := pick_lt cs _ j hj
      simp only [Cases.length]
      omega

theorem simT (hp : Placed code) (inj : Inj μ) (hnum : upd = true → ∀ v w, num v w = (v, w)) {d other po : Nat} {v : V}
    (hother : Is code other po) (fd : Fresh μ d) :
    ∀ (cs : Cases) {l : Nat} {C C' : S} {is : List Inst} {pc : Nat} {env : Nat → V} {σ : St V W},
    cs.ordered upd = true → Wf C → Good μ C' → d < C.temp → (∀ k, k < cs.length → ∃ p, Is code (l + k) p) →
    compileTests d other cs l C = some (C', is) → At code pc is → Agree μ σ.vars env → env d = v →
    ∃ env' p, To I code ⟨pc, env, σ.world⟩ ⟨p, env', (pick I num v cs σ).2.world⟩ ∧
      Agree μ (pick I num v cs σ).2.vars env' ∧
      (match (pick I num v cs σ).1 with
        | some k => Is code (l + k) p
        | none => if cs.hasTest then p = po else p = pc + is.length)
  | .nil, l, C, C', is, pc, env, σ, ho, w, g, hd, hl, h, hat, ag, hv => by
    simp only [compileTests, Option.some.injEq, Prod.mk.injEq] at h
    obtain ⟨rfl, rfl⟩ := h
    exact ⟨env, pc, .refl, ag, rfl⟩
  | .cons none b cs, l, C, C', is, pc, env, σ, ho, w, g, hd, hl, h, hat, ag, hv => by
    simp only [compileTests] at h
    simp only [Cases.ordered, Bool.and_eq_true] at ho
    obtain ⟨env', p, t, ag', hr⟩ := simT hp inj hnum hother fd cs ho.2 w g hd (fun k hk => by
      have := hl (k + 1) (by simp only [Cases.length]; omega)
      rwa [← Nat.add_assoc, Nat.add_right_comm] at this) h hat ag hv
    refine ⟨env', p, t, ag', ?_⟩
    simp only [pick, Cases.hasTest]
    cases hk : (pick I num v cs σ).1 with
    | none =>
      rw [hk] at hr
      exact hr
    | some k =>
      rw [hk] at hr
      simpa [← Nat.add_assoc, Nat.add_right_comm] using hr
  | .cons (some e) b cs, l, C, C', is, pc, env, σ, ho, w, g, hd, hl, h, hat, ag, hv => by
    simp only [compileTests, Option.bind_eq_bind, Option.bind_eq_some_iff, Option.some.injEq, Prod.mk.injEq] at h
    obtain ⟨⟨C1, is1, a1⟩, h1, ⟨C2, is2⟩, h2, rfl, rfl⟩ := h
    simp only [Cases.ordered, orderedOpt, Bool.and_eq_true] at ho
    split_at hat
    obtain ⟨⟨hat1, hat2, hat3⟩, hat4⟩ := hat
    have x1 := extC w h1
    have w1 := x1.wf w
    have wb : Wf C1.bumpT := (Ext.bumpT _).wf w1
    have hd1 : d < C1.temp := Nat.lt_of_lt_of_le hd x1.temp
    have x2 : Ext C1.bumpT C2 := (partT (other := other) cs (other :: List.range' (l + 1) cs.length) wb
      (Nat.lt_succ_of_lt hd1) (by simp) (fun k h1 h2 => by simp; omega) h2).ext
    have gb := g.back x2
    have fr := gb.fresh w1
    obtain ⟨e1, s1, ag1, k1, v1⟩ := simC (I := I) hp inj hnum ho.1.1 w (gb.back (Ext.bumpT _)) h1 hat1 ag
    have hv1 : e1 d = v := (k1 d hd fd).trans hv
    have sb := to_bin (I := I) (e := e1) (w := (eval I num e σ).2.world) hat2
    rw [v1, show valOf I e1 (.var d) = v from hv1] at sb
    obtain ⟨p0, hp0⟩ := hl 0 (by simp [Cases.length])
    have ag2 := ag1.set (v := (I.op (.bin .strictEq) [v, (eval I num e σ).1] (eval I num e σ).2.world).1) fr
    have hset : set e1 C1.temp (I.op (.bin .strictEq) [v, (eval I num e σ).1] (eval I num e σ).2.world).1 d = v := by
      rw [set_ne (by omega), hv1]
    rw [pick]
    dsimp only
    generalize hR : doOp I (.bin .strictEq) [v, (eval I num e σ).1] (eval I num e σ).2 = R at *
    have hR1 : (I.op (.bin .strictEq) [v, (eval I num e σ).1] (eval I num e σ).2.world).1 = R.1 := by rw [← hR]; rfl
    have hR2 : (I.op (.bin .strictEq) [v, (eval I num e σ).1] (eval I num e σ).2.world).2 = R.2.world := by rw [← hR]; rfl
    have hR3 : (eval I num e σ).2.vars = R.2.vars := by rw [← hR]; rfl
    rw [hR1, hR2] at sb
    rw [hR1] at ag2 hset
    rw [hR3] at ag2
    have hc1 : valOf I (set e1 C1.temp R.1) (.var C1.temp) = R.1 := set_self
    split
    · rename_i hc
      refine ⟨_, p0, s1.trans (sb.trans (to_cond hat3 ?_)), ag2, hp0⟩
      rw [hc1, if_pos hc]
      exact goTo_is hp0
    · rename_i hc
      cases ht : cs.hasTest with
      | false =>
        rw [pick_none cs _ ht]
        refine ⟨_, po, s1.trans (sb.trans (to_cond hat3 ?_)), ag2, ?_⟩
        · rw [hc1, if_neg hc, ht]
          exact goTo_is hother
        · simp [Cases.hasTest]
      | true =>
        have sc : To I code ⟨pc + is1.length + 1, set e1 C1.temp R.1, R.2.world⟩
            ⟨pc + is1.length + 1 + 1, set e1 C1.temp R.1, R.2.world⟩ := by
          refine to_cond hat3 ?_
          rw [hc1, if_neg hc, ht]
          exact goTo_dummy
        obtain ⟨env', p, t, ag', hr⟩ := simT hp inj hnum hother fd cs ho.2 wb g (Nat.lt_succ_of_lt hd1) (fun k hk => by
          have := hl (k + 1) (by simp only [Cases.length]; omega)
          rwa [← Nat.add_assoc, Nat.add_right_comm] at this) h2 hat4 ag2 hset
        refine ⟨env', p, s1.trans (sb.trans (sc.trans t)), ag', ?_⟩
        cases hk : (pick I num v cs R.2).1 with
        | none =>
          rw [hk] at hr
          simpa [ht, Cases.hasTest] using hr
        | some k =>
          rw [hk] at hr
          simpa [← Nat.add_assoc, Nat.add_right_comm] using hr

theorem default_eq : ∀ cs : Cases, cs.defaultOr = cs.defaultAt.getD cs.length
  | .nil => rfl
  | .cons none _ _ => rfl
  | .cons (some _) _ cs => by
    simp only [Cases.defaultOr, Cases.defaultAt, Cases.length, default_eq cs]
    cases cs.defaultAt <;> rfl

mutual
theorem init_normal {F : Nat} : ∀ (s : Stmt) (ls : List Nat) (σ : St V W), s.isInit = true →
    ∃ s', execS I num F s ls σ = .done .normal s'
  | .expr _, _, _, _ => by rw [execS]; exact ⟨_, rfl⟩
  | .empty, _, _, _ => by rw [execS]; exact ⟨_, rfl⟩
  | .decl k x i, _, _, _ => by
    cases i <;> cases k <;> simp [execS]
  | .block ss, ls, σ, h => by
    rw [execS]
    exact init_normals ss σ (by simpa [Stmt.isInit] using h)
  | .ifThen _ _, _, _, h => by simp [Stmt.isInit] at h
  | .ifElse _ _ _, _, _, h => by simp [Stmt.isInit] at h
  | .while_ _ _, _, _, h => by simp [Stmt.isInit] at h
  | .doWhile _ _, _, _, h => by simp [Stmt.isInit] at h
  | .for_ _ _ _ _, _, _, h => by simp [Stmt.isInit] at h
  | .switch _ _, _, _, h => by simp [Stmt.isInit] at h
  | .brk _, _, _, h => by simp [Stmt.isInit] at h
  | .cont _, _, _, h => by simp [Stmt.isInit] at h
  | .labeled _ _, _, _, h => by simp [Stmt.isInit] at h
  | .ret _, _, _, h => by simp [Stmt.isInit] at h
  | .throw _, _, _, h => by simp [Stmt.isInit] at h
theorem init_normals {F : Nat} : ∀ (ss : Stmts) (σ : St V W), ss.isInit = true →
    ∃ s', execSs I num F ss σ = .done .normal s'
  | .nil, _, _ => by rw [execSs]; exact ⟨_, rfl⟩
  | .cons s ss, σ, h => by
    simp only [Stmts.isInit, Bool.and_eq_true] at h
    obtain ⟨s', hs⟩ := init_normal s [] σ h.1
    rw [execSs, hs]
    exact init_normals ss s' h.2
end

theorem lt_of_at {pc : Nat} {i : Inst} (h : code[pc]? = some i) : pc < code.length := by
  rw [List.getElem?_eq_some_iff] at h
  exact h.1

mutual
theorem simS (hp : Placed code) (inj : Inj μ) (hnum : upd = true → ∀ v w, num v w = (v, w)) {F : Nat} :
    ∀ (s : Stmt) {x : Ctx} {name : Option Nat} {ls : List Nat} {C C' : S} {is : List Inst} {pc : Nat} {env : Nat → V}
      {σ : St V W},
    s.ordered upd = true → Wf C → Good μ C' → compileS x name s C = some (C', is) → At code pc is →
    (∀ l ∈ x.targets, ∃ p, Is code l p) → LsOk x name ls → (name.isSome = true → s.isLoop = true) →
    Agree μ σ.vars env →
    Lands I code μ x name (pc + is.length) F ⟨pc, env, σ.world⟩ (execS I num F s ls σ)
  | .expr e, x, name, ls, C, C', is, pc, env, σ, ho, w, g, h, hat, hx, hls, hnm, ag => by
    simp only [compileS, Option.bind_eq_bind, Option.bind_eq_some_iff, Option.some.injEq, Prod.mk.injEq] at h
    obtain ⟨⟨C1, is1, a1⟩, h1, rfl, rfl⟩ := h
    obtain ⟨e1, s1, ag1, -, -⟩ := simC (I := I) hp inj hnum ho w g h1 hat ag
    rw [execS]
    exact ⟨e1, _, s1, ag1, rfl⟩
  | .empty, x, name, ls, C, C', is, pc, env, σ, ho, w, g, h, hat, hx, hls, hnm, ag => by
    simp only [compileS, Option.some.injEq, Prod.mk.injEq] at h
    obtain ⟨rfl, rfl⟩ := h
    rw [execS]
    exact ⟨env, _, .refl, ag, rfl⟩
  | .decl kind v (some e), x, name, ls, C, C', is, pc, env, σ, ho, w, g, h, hat, hx, hls, hnm, ag => by
    simp only [compileS, Option.bind_eq_bind, Option.bind_eq_some_iff, Option.some.injEq, Prod.mk.injEq] at h
    obtain ⟨⟨C1, is1, a1⟩, h1, ⟨C2, d⟩, h2, rfl, rfl⟩ := h
    split_at hat
    obtain ⟨hat1, hat2, hat3⟩ := hat
    have wb : Wf C.bumpT := (Ext.bumpT _).wf w
    have x1 := extC wb h1
    have w1 := x1.wf wb
    obtain ⟨e2, l2, hdb⟩ := dest_ok h2 w1
    have g1 := g.back e2
    have hd := dest_is w1 h2 g
    have fr := (g1.back x1).fresh w
    obtain ⟨e1, s1, ag1, k1, v1⟩ := simC (I := I) hp inj hnum ho wb g1 h1 hat1 ag
    have sa := to_assign (I := I) (e := e1) (w := (eval I num e σ).2.world) hat2
    obtain ⟨e3, s3, ag3, -, -⟩ := sim_store (T := 0) (I := I) inj hd hat3 (ag1.set (v := valOf I e1 a1) fr)
    rw [show valOf I (set e1 C.temp (valOf I e1 a1)) (.var C.temp) = _ from set_self] at s3 ag3
    rw [v1] at s3 ag3 sa
    rw [execS]
    exact ⟨e3, _, (s1.trans (sa.trans s3)).cast (by simp; omega) rfl rfl, ag3, rfl⟩
  | .decl .const v none, x, name, ls, C, C', is, pc, env, σ, ho, w, g, h, hat, hx, hls, hnm, ag => by simp [compileS] at h
  | .decl .let_ v none, x, name, ls, C, C', is, pc, env, σ, ho, w, g, h, hat, hx, hls, hnm, ag => by
    simp only [compileS, Option.bind_eq_bind, Option.bind_eq_some_iff, Option.some.injEq, Prod.mk.injEq] at h
    obtain ⟨⟨C2, d⟩, h2, rfl, rfl⟩ := h
    split_at hat
    obtain ⟨e3, s3, ag3, -, -⟩ := sim_store (T := 0) (I := I) inj (dest_is w h2 g) hat ag
    rw [execS]
    · exact ⟨e3, _, s3, ag3, rfl⟩
  | .decl .var v none, x, name, ls, C, C', is, pc, env, σ, ho, w, g, h, hat, hx, hls, hnm, ag => by
    simp only [compileS, Option.some.injEq, Prod.mk.injEq] at h
    obtain ⟨rfl, rfl⟩ := h
    rw [execS]
    · exact ⟨env, _, .refl, ag, rfl⟩
    · simp
  | .block ss, x, name, ls, C, C', is, pc, env, σ, ho, w, g, h, hat, hx, hls, hnm, ag => by
    simp only [compileS] at h
    have hn : name = none := by
      cases name
      · rfl
      · simp [Stmt.isLoop] at hnm
    subst hn
    rw [execS]
    exact simSs hp inj hnum ss ho w g h hat hx ag
  | .ifThen c t, x, name, ls, C, C', is, pc, env, σ, ho, w, g, h, hat, hx, hls, hnm, ag => by
    have hn : name = none := by
      cases name
      · rfl
      · simp [Stmt.isLoop] at hnm
    subst hn
    simp only [compileS, Option.bind_eq_bind, Option.bind_eq_some_iff, Option.some.injEq, Prod.mk.injEq] at h
    obtain ⟨⟨C1, is1, a1⟩, h1, ⟨C2, is2⟩, h2, rfl, rfl⟩ := h
    simp only [Stmt.ordered, Bool.and_eq_true] at ho
    split_at hat
    obtain ⟨⟨⟨hat1, hat2⟩, hat3⟩, hat4⟩ := hat
    have x1 := extC w h1
    have wb : Wf C1.bumpL := (Ext.bumpL _).wf (x1.wf w)
    have x2 := extS wb h2
    obtain ⟨e1, s1, ag1, k1, v1⟩ := simC (I := I) hp inj hnum ho.1 w ((g.back x2).back (Ext.bumpL _)) h1 hat1 ag
    have sc := to_cond (I := I) (e := e1) (w := (eval I num c σ).2.world) hat2 (go_fall _ (place hp hat4))
    rw [v1] at sc
    rw [execS]
    dsimp only
    have hlen : pc + (is1 ++ [Inst.condGoto a1 dummyLabel C1.label] ++ is2 ++ [label C1.label]).length =
      pc + is1.length + 1 + is2.length + 1 := by simp; omega
    rw [hlen]
    split
    · rename_i hc
      rw [if_pos hc] at sc
      refine Lands.pre (s1.trans sc) (Lands.bind (simS hp inj hnum t (ls := []) ho.2 wb g h2 hat3 hx LsOk.nil (by simp) ag1) ?_ ?_)
      · intro c s env pc hr ag he
        rw [hr]
        cases c with
        | normal =>
          cases he
          exact ⟨env, _, to_label hat4, ag, rfl⟩
        | brk l => cases l <;> exact ⟨env, _, .refl, ag, he⟩
        | cont l => cases l <;> exact ⟨env, _, .refl, ag, he⟩
        | ret => exact ⟨env, _, .refl, ag, he⟩
      · intro s hs
        exact hs
    · rename_i hc
      rw [if_neg hc] at sc
      exact ⟨e1, _, s1.trans (sc.trans (to_label hat4)), ag1, rfl⟩
  | .ifElse c t f, x, name, ls, C, C', is, pc, env, σ, ho, w, g, h, hat, hx, hls, hnm, ag => by
    have hn : name = none := by
      cases name
      · rfl
      · simp [Stmt.isLoop] at hnm
    subst hn
    simp only [compileS, Option.bind_eq_bind, Option.bind_eq_some_iff, Option.some.injEq, Prod.mk.injEq] at h
    obtain ⟨⟨C1, is1, a1⟩, h1, ⟨C2, is2⟩, h2, ⟨C3, is3⟩, h3, rfl, rfl⟩ := h
    simp only [Stmt.ordered, Bool.and_eq_true] at ho
    split_at hat
    obtain ⟨⟨⟨⟨⟨hat1, hat2⟩, hat3⟩, hat4, hat5⟩, hat6⟩, hat7⟩ := hat
    have x1 := extC w h1
    have xb : Ext C1 C1.bumpL.bumpL := (Ext.bumpL _).trans (Ext.bumpL _)
    have wb := xb.wf (x1.wf w)
    have x2 := extS wb h2
    have w2 := x2.wf wb
    have x3 := extS w2 h3
    have g2 := g.back x3
    obtain ⟨e1, s1, ag1, k1, v1⟩ := simC (I := I) hp inj hnum ho.1.1 w ((g2.back x2).back xb) h1 hat1 ag
    have sc := to_cond (I := I) (e := e1) (w := (eval I num c σ).2.world) hat2 (go_jump _ (place hp hat5))
    rw [v1] at sc
    rw [execS]
    dsimp only
    have hlen : pc + (is1 ++ [Inst.condGoto a1 C1.label dummyLabel] ++ is2 ++ [goto (C1.label + 1), label C1.label] ++ is3 ++
      [label (C1.label + 1)]).length = pc + is1.length + 1 + is2.length + 1 + 1 + is3.length + 1 := by simp; omega
    rw [hlen]
    split
    · rename_i hc
      rw [if_pos hc] at sc
      refine Lands.pre (s1.trans (sc.trans (to_label hat5)))
        (Lands.bind (simS hp inj hnum t (ls := []) ho.1.2 w2 g h3 hat6 hx LsOk.nil (by simp) ag1) ?_ ?_)
      · intro c s env pc hr ag he
        rw [hr]
        cases c with
        | normal =>
          cases he
          exact ⟨env, _, to_label hat7, ag, rfl⟩
        | brk l => cases l <;> exact ⟨env, _, .refl, ag, he⟩
        | cont l => cases l <;> exact ⟨env, _, .refl, ag, he⟩
        | ret => exact ⟨env, _, .refl, ag, he⟩
      · intro s hs
        exact hs
    · rename_i hc
      rw [if_neg hc] at sc
      refine Lands.pre (s1.trans sc)
        (Lands.bind (simS hp inj hnum f (ls := []) ho.2 wb g2 h2 hat3 hx LsOk.nil (by simp) ag1) ?_ ?_)
      · intro c s env pc hr ag he
        rw [hr]
        cases c with
        | normal =>
          cases he
          exact ⟨env, _, (to_goto hat4 (place hp hat7)).trans (to_label hat7), ag, rfl⟩
        | brk l => cases l <;> exact ⟨env, _, .refl, ag, he⟩
        | cont l => cases l <;> exact ⟨env, _, .refl, ag, he⟩
        | ret => exact ⟨env, _, .refl, ag, he⟩
      · intro s hs
        exact hs
  | .while_ c b, x, name, ls, C, C', is, pc, env, σ, ho, w, g, h, hat, hx, hls, hnm, ag => by
    simp only [compileS, Option.bind_eq_bind, Option.bind_eq_some_iff, Option.some.injEq, Prod.mk.injEq] at h
    obtain ⟨⟨C1, is1, a1⟩, h1, ⟨C2, is2⟩, h2, rfl, rfl⟩ := h
    simp only [Stmt.ordered, Bool.and_eq_true] at ho
    split_at hat
    obtain ⟨⟨⟨⟨hat0, hat1⟩, hat2⟩, hat3⟩, hat4, hat5⟩ := hat
    have xb : Ext C C.bumpL.bumpL := (Ext.bumpL _).trans (Ext.bumpL _)
    have wb := xb.wf w
    have x1 := extC wb h1
    have w1 := x1.wf wb
    have x2 := extS w1 h2
    have g1 := g.back x2
    have hb := place hp hat0
    have hx' : ∀ l ∈ (x.enterLoop name (C.label + 1) C.label).targets, ∃ p, Is code l p := by
      intro l hl
      rcases enterLoop_targets hl with rfl | rfl | hl
      · exact ⟨_, place hp hat5⟩
      · exact ⟨_, hb⟩
      · exact hx l hl
    have hlen : pc + ([label C.label] ++ is1 ++ [Inst.condGoto a1 dummyLabel (C.label + 1)] ++ is2 ++
      [goto C.label, label (C.label + 1)]).length = pc + 1 + is1.length + 1 + is2.length + 1 + 1 := by simp; omega
    rw [hlen, execS]
    refine lands_loop (lt_of_at hat0) ?_ F (Nat.le_refl _) σ env ag
    intro σ env ag
    obtain ⟨e1, s1, ag1, k1, v1⟩ := simC (I := I) hp inj hnum ho.1 wb g1 h1 hat1 ag
    have sc := to_cond (I := I) (e := e1) (w := (eval I num c σ).2.world) hat2 (go_fall _ (place hp hat5))
    rw [v1] at sc
    dsimp only
    by_cases hc : I.truthy (eval I num c σ).1 = true
    · rw [if_pos hc] at sc ⊢
      have sb := simS hp inj hnum b (F := F) (ls := []) ho.2 w1 g h2 hat3 hx' LsOk.nil (by simp) ag1
      have t0 : To1 I code ⟨pc, env, σ.world⟩ ⟨pc + 1 + is1.length + 1, e1, (eval I num c σ).2.world⟩ :=
        (To1.label hat0).trans (s1.trans sc)
      -- the end of the body goes back to the test
      have sb' : Lands I code μ (x.enterLoop name (C.label + 1) C.label) none pc F
          ⟨pc + 1 + is1.length + 1, e1, (eval I num c σ).2.world⟩ (execS I num F b [] (eval I num c σ).2) := by
        refine Lands.bind sb ?_ (fun s hs => hs)
        intro c s env p hr ag he
        rw [hr]
        cases c with
        | normal =>
          cases he
          exact ⟨env, _, to_goto hat4 hb, ag, rfl⟩
        | brk l => cases l <;> exact ⟨env, _, .refl, ag, he⟩
        | cont l => cases l <;> exact ⟨env, _, .refl, ag, he⟩
        | ret => exact ⟨env, _, .refl, ag, he⟩
      rcases lands_body hls hat0 hat5 hp sb' with ⟨s, hs, env', t, ag'⟩ | ⟨r', hr, hl⟩
      · rw [hs]
        exact ⟨env', t0.trans t, ag'⟩
      · rw [hr]
        exact hl.pre ((to_label hat0).trans (s1.trans sc))
    · rw [if_neg hc] at sc ⊢
      exact ⟨e1, _, (to_label hat0).trans (s1.trans (sc.trans (to_label hat5))), ag1, rfl⟩
  | .doWhile b c, x, name, ls, C, C', is, pc, env, σ, ho, w, g, h, hat, hx, hls, hnm, ag => by
    simp only [compileS, Option.bind_eq_bind, Option.bind_eq_some_iff, Option.some.injEq, Prod.mk.injEq] at h
    obtain ⟨⟨C1, is1⟩, h1, ⟨C2, is2, a2⟩, h2, rfl, rfl⟩ := h
    simp only [Stmt.ordered, Bool.and_eq_true] at ho
    split_at hat
    obtain ⟨⟨⟨⟨hat0, hat1⟩, hat2⟩, hat3⟩, hat4, hat5⟩ := hat
    have xb : Ext C C.bumpL.bumpL.bumpL := ((Ext.bumpL _).trans (Ext.bumpL _)).trans (Ext.bumpL _)
    have wb := xb.wf w
    have x1 := extS wb h1
    have w1 := x1.wf wb
    have x2 := extC w1 h2
    have g1 := g.back x2
    have he := place hp hat0
    have ha := place hp hat5
    have hx' : ∀ l ∈ (x.enterLoop name (C.label + 2) (C.label + 1)).targets, ∃ p, Is code l p := by
      intro l hl
      rcases enterLoop_targets hl with rfl | rfl | hl
      · exact ⟨_, ha⟩
      · exact ⟨_, place hp hat2⟩
      · exact hx l hl
    have hlen : pc + ([label C.label] ++ is1 ++ [label (C.label + 1)] ++ is2 ++
      [Inst.condGoto a2 C.label (C.label + 2), label (C.label + 2)]).length = pc + 1 + is1.length + 1 + is2.length + 1 + 1 := by
      simp; omega
    rw [hlen, execS]
    refine lands_loop (lt_of_at hat0) ?_ F (Nat.le_refl _) σ env ag
    intro σ env ag
    have sb := simS hp inj hnum b (F := F) (ls := []) ho.2 wb g1 h1 hat1 hx' LsOk.nil (by simp) ag
    rcases lands_body hls hat2 hat5 hp sb with ⟨s, hs, env', t, ag'⟩ | ⟨r', hr, hl⟩
    · rw [hs]
      obtain ⟨e1, s1, ag1, k1, v1⟩ := simC (I := I) hp inj hnum ho.1 w1 g h2 hat3 ag'
      dsimp only
      by_cases hc : I.truthy (eval I num c s).1 = true
      · rw [if_pos hc]
        refine ⟨e1, (To1.label hat0).trans (t.trans ((to_label hat2).trans (s1.trans (to_cond hat4 ?_)))), ag1⟩
        rw [v1, if_pos hc]
        exact goTo_is he
      · rw [if_neg hc]
        refine ⟨e1, _, (to_label hat0).trans (t.trans ((to_label hat2).trans (s1.trans
          ((to_cond hat4 (p := pc + 1 + is1.length + 1 + is2.length + 1) ?_).trans (to_label hat5))))), ag1, rfl⟩
        rw [v1, if_neg hc]
        exact goTo_is ha
    · rw [hr]
      exact hl.pre (to_label hat0)
  | .for_ init c post b, x, name, ls, C, C', is, pc, env, σ, ho, w, g, h, hat, hx, hls, hnm, ag => by
    simp only [compileS, Option.bind_eq_bind, Option.bind_eq_some_iff, Option.some.injEq, Prod.mk.injEq] at h
    obtain ⟨⟨C0, is0⟩, h0, ⟨C1, is1, a1⟩, h1, ⟨C2, is2⟩, h2, ⟨C3, is3, a3⟩, h3, rfl, rfl⟩ := h
    simp only [Stmt.ordered, Bool.and_eq_true] at ho
    obtain ⟨⟨⟨⟨hoi, ho0⟩, ho1⟩, ho3⟩, ho2⟩ := ho
    generalize hJ : (a1.map (fun a => Inst.condGoto a dummyLabel (C0.label + 2))).toList = J at *
    split_at hat
    obtain ⟨⟨⟨⟨⟨⟨⟨hat0, hatE⟩, hat1⟩, hatJ⟩, hat2⟩, hatN⟩, hat3⟩, hatG, hatA⟩ := hat
    have x0 := extS w h0
    have w0 := x0.wf w
    have xb : Ext C0 C0.bumpL.bumpL.bumpL := ((Ext.bumpL _).trans (Ext.bumpL _)).trans (Ext.bumpL _)
    have wb := xb.wf w0
    have x1 := extO wb h1
    have w1 := x1.wf wb
    have x2 := extS w1 h2
    have w2 := x2.wf w1
    have x3 := extO w2 h3
    have g2 := g.back x3
    have g1 := g2.back x2
    have g0 := (g1.back x1).back xb
    have hent := place hp hatE
    have ha := place hp hatA
    have hx' : ∀ l ∈ (x.enterLoop name (C0.label + 2) (C0.label + 1)).targets, ∃ p, Is code l p := by
      intro l hl
      rcases enterLoop_targets hl with rfl | rfl | hl
      · exact ⟨_, ha⟩
      · exact ⟨_, place hp hatN⟩
      · exact hx l hl
    have hlen : pc + (is0 ++ [label C0.label] ++ is1 ++ J ++ is2 ++ [label (C0.label + 1)] ++ is3 ++
      [goto C0.label, label (C0.label + 2)]).length =
      pc + is0.length + 1 + is1.length + J.length + is2.length + 1 + is3.length + 1 + 1 := by simp; omega
    have si := simS hp inj hnum init (F := F) (ls := []) ho0 w g0 h0 hat0 hx LsOk.nil (by simp) ag
    obtain ⟨σ0, hσ0⟩ := init_normal (I := I) (num := num) (F := F) init [] σ hoi
    rw [hlen, execS, hσ0]
    rw [hσ0] at si
    obtain ⟨e0, p0, s0, ag0, rfl⟩ := si
    refine Lands.pre s0 ?_
    dsimp only
    refine lands_loop (lt_of_at hatE) ?_ F (Nat.le_refl _) σ0 e0 ag0
    intro σ env ag
    obtain ⟨e1, s1, ag1, hst, hc1⟩ := simO (I := I) hp inj hnum ho1 wb g1 h1 hat1 ag
    rw [hst] at s1 ag1
    have sj : To I code ⟨pc + is0.length + 1 + is1.length, e1, (test I num c σ).2.world⟩
        ⟨if (test I num c σ).1 = true then pc + is0.length + 1 + is1.length + J.length else
          pc + is0.length + 1 + is1.length + J.length + is2.length + 1 + is3.length + 1, e1, (test I num c σ).2.world⟩ := by
      cases a1 with
      | none =>
        rw [if_pos hc1, ← hJ]
        exact .refl
      | some a =>
        subst hJ
        simp only [Option.map_some, Option.toList_some, at_cons, at_nil, and_true] at hatJ
        dsimp only at hc1
        rw [hc1]
        exact to_cond hatJ (go_fall _ ha)
    by_cases hc : (test I num c σ).1 = true
    · rw [if_pos hc] at sj ⊢
      have sb := simS hp inj hnum b (F := F) (ls := []) ho2 w1 g2 h2 hat2 hx' LsOk.nil (by simp) ag1
      rcases lands_body hls hatN hatA hp sb with ⟨s, hs, env', t, ag'⟩ | ⟨r', hr, hl⟩
      · rw [hs]
        obtain ⟨e3, s3, ag3, -, -⟩ := simO (I := I) hp inj hnum ho3 w2 g h3 hat3 ag'
        exact ⟨e3, (To1.label hatE).trans (s1.trans (sj.trans (t.trans ((to_label hatN).trans (s3.trans (to_goto hatG hent)))))), ag3⟩
      · rw [hr]
        exact hl.pre ((to_label hatE).trans (s1.trans sj))
    · rw [if_neg hc] at sj ⊢
      exact ⟨e1, _, (to_label hatE).trans (s1.trans (sj.trans (to_label hatA))), ag1, rfl⟩
  | .switch d cs, x, name, ls, C, C', is, pc, env, σ, ho, w, g, h, hat, hx, hls, hnm, ag => by
    have hn : name = none := by
      cases name
      · rfl
      · simp [Stmt.isLoop] at hnm
    subst hn
    simp only [compileS, Option.bind_eq_bind, Option.bind_eq_some_iff] at h
    obtain ⟨⟨C1, is1, a1⟩, h1, h⟩ := h
    simp only [Stmt.ordered, Bool.and_eq_true] at ho
    have wb : Wf C.bumpT := (Ext.bumpT _).wf w
    have x1 := extC wb h1
    have w1 := x1.wf wb
    rw [execS]
    split at h
    · rename_i hnil
      cases cs with
      | cons _ _ _ => simp [Cases.isNil] at hnil
      | nil =>
        simp only [Option.some.injEq, Prod.mk.injEq] at h
        obtain ⟨rfl, rfl⟩ := h
        split_at hat
        have fr := (g.back x1).fresh w
        obtain ⟨e1, s1, ag1, k1, v1⟩ := simC (I := I) hp inj hnum ho.1 wb g h1 hat.1 ag
        simp only [pick, execCs]
        exact ⟨_, _, (s1.trans (to_assign hat.2)).cast (by simp; omega) rfl rfl, ag1.set fr, rfl⟩
    · simp only [Option.bind_eq_some_iff, Option.some.injEq, Prod.mk.injEq] at h
      obtain ⟨⟨C2, is2⟩, h2, ⟨C3, is3⟩, h3, rfl, rfl⟩ := h
      generalize hJ : (if cs.hasTest then [] else [goto ((cs.defaultAt.map (C1.label + 1 + ·)).getD C1.label)] : List Inst) = J at *
      split_at hat
      obtain ⟨⟨⟨⟨⟨hat1, hat2⟩, hat3⟩, hatJ⟩, hat4⟩, hat5⟩ := hat
      have xl : Ext C1 { C1 with label := C1.label + 1 + cs.length } := Ext.labels C1 _ (by omega)
      have wl := xl.wf w1
      have hd1 : C.temp < C1.temp := x1.temp
      let O := C1.label :: List.range' (C1.label + 1) cs.length
      have x2 : Ext { C1 with label := C1.label + 1 + cs.length } C2 := by
        refine (partT cs O wl hd1 ?_ (fun k h1 h2 => by simp [O]; omega) h2).ext
        cases hda : cs.defaultAt with
        | none => simp [O]
        | some k =>
          have := defaultAt_lt cs hda
          simp [O]
          omega
      have w2 := x2.wf wl
      let x' : Ctx := { x with brk := C1.label :: x.brk }
      have x3 : Ext C2 C3 := (partCs cs x'.targets w2 (fun _ h => h) h3).ext
      have g2 := g.back x3
      have g1 := (g2.back x2).back xl
      have fr := (g1.back x1).fresh w
      have ha := place hp hat5
      have hx' : ∀ l ∈ x'.targets, ∃ p, Is code l p := by
        intro l hl
        have : l = C1.label ∨ l ∈ x.targets := by
          simp only [x', Ctx.targets, List.mem_append, List.mem_cons] at hl ⊢
          grind
        rcases this with rfl | h
        · exact ⟨_, ha⟩
        · exact hx l h
      -- the clauses, each at its label; behind them the label of the end
      have hcs : ∀ k, k ≤ cs.length → ∃ p, Is code (if k < cs.length then C1.label + 1 + k else C1.label) p ∧
          ∀ env (σ : St V W), Agree μ σ.vars env → Lands I code μ x' none
            (pc + is1.length + 1 + is2.length + J.length + is3.length) F ⟨p, env, σ.world⟩ (execCs I num F cs k σ) := by
        intro k hk
        obtain ⟨p, h1, h2, h3⟩ := simCs hp inj hnum (F := F) cs ho.2 w2 g h3 hat4 hx' k hk
        refine ⟨p, ?_, h3⟩
        split
        · exact place hp (h1 ‹_›)
        · have := h2 (by omega)
          subst this
          exact ha
      obtain ⟨e1, s1, ag1, k1, v1⟩ := simC (I := I) hp inj hnum ho.1 wb g1 h1 hat1 ag
      have sa := to_assign (I := I) (e := e1) (w := (eval I num d σ).2.world) hat2
      rw [v1] at sa
      obtain ⟨po, hpo, hlo⟩ := hcs cs.defaultOr (by
        rw [default_eq]
        cases hda : cs.defaultAt with
        | none => simp
        | some k => exact Nat.le_of_lt (defaultAt_lt cs hda))
      have hother : Is code ((cs.defaultAt.map (C1.label + 1 + ·)).getD C1.label) po := by
        rw [default_eq] at hpo
        cases hda : cs.defaultAt with
        | none => simpa [hda] using hpo
        | some k =>
          have := defaultAt_lt cs hda
          simpa [hda, this] using hpo
      obtain ⟨e2, p2, s2, ag2, hr⟩ := simT hp inj hnum hother fr cs ho.2 wl g2 hd1 (fun k hk => by
        obtain ⟨p, hp', -⟩ := hcs k (by omega)
        rw [if_pos hk] at hp'
        exact ⟨p, hp'⟩) h2 hat3 (ag1.set (v := (eval I num d σ).1) fr) set_self
      have key : ∃ p3, To I code ⟨pc, env, σ.world⟩ ⟨p3, e2, (pick I num (eval I num d σ).1 cs (eval I num d σ).2).2.world⟩ ∧
          Lands I code μ x' none (pc + is1.length + 1 + is2.length + J.length + is3.length) F
            ⟨p3, e2, (pick I num (eval I num d σ).1 cs (eval I num d σ).2).2.world⟩
            (execCs I num F cs ((pick I num (eval I num d σ).1 cs (eval I num d σ).2).1.getD cs.defaultOr)
              (pick I num (eval I num d σ).1 cs (eval I num d σ).2).2) := by
        cases hk : (pick I num (eval I num d σ).1 cs (eval I num d σ).2).1 with
        | some k =>
          rw [hk] at hr
          have hlt := pick_lt cs _ k hk
          obtain ⟨p, hp', hl⟩ := hcs k (by omega)
          rw [if_pos hlt] at hp'
          have := hr.unique hp'
          subst this
          exact ⟨_, s1.trans (sa.trans s2), hl _ _ ag2⟩
        | none =>
          rw [hk] at hr
          refine ⟨po, ?_, hlo _ _ ag2⟩
          cases ht : cs.hasTest with
          | true =>
            simp only [ht, if_true] at hr
            subst hr
            exact s1.trans (sa.trans s2)
          | false =>
            simp only [ht, Bool.false_eq_true, if_false] at hr hJ
            subst hr
            subst hJ
            simp only [at_cons, at_nil, and_true] at hatJ
            exact s1.trans (sa.trans (s2.trans (to_goto hatJ hother)))
      obtain ⟨p3, s3, hl⟩ := key
      have hlen : pc + (is1 ++ [Inst.varAssign C.temp a1] ++ is2 ++ J ++ is3 ++ [label C1.label]).length =
        pc + is1.length + 1 + is2.length + J.length + is3.length + 1 := by simp; omega
      rw [hlen]
      refine Lands.pre s3 (Lands.bind hl ?_ ?_)
      · intro c s env p hr ag he
        rw [hr]
        cases c with
        | normal =>
          cases he
          exact ⟨env, _, to_label hat5, ag, rfl⟩
        | brk l =>
          cases l with
          | none =>
            obtain ⟨l, hl, hpl⟩ := he
            simp only [x', List.head?_cons, Option.some.injEq] at hl
            subst hl
            have := hpl.unique ha
            subst this
            exact ⟨env, _, to_label hat5, ag, rfl⟩
          | some m => exact ⟨env, _, .refl, ag, he⟩
        | cont l => cases l <;> exact ⟨env, _, .refl, ag, he⟩
        | ret => exact ⟨env, _, .refl, ag, he⟩
      · intro s hs
        rw [hs]
  | .brk none, x, name, ls, C, C', is, pc, env, σ, ho, w, g, h, hat, hx, hls, hnm, ag => by
    simp only [compileS, Option.bind_eq_bind, Option.bind_eq_some_iff, Option.some.injEq, Prod.mk.injEq] at h
    obtain ⟨l, hl, rfl, rfl⟩ := h
    split_at hat
    obtain ⟨p, hpl⟩ := hx l (by simp [Ctx.targets, List.mem_of_mem_head? hl])
    rw [execS]
    exact ⟨env, p, to_goto hat hpl, ag, l, hl, hpl⟩
  | .brk (some n), x, name, ls, C, C', is, pc, env, σ, ho, w, g, h, hat, hx, hls, hnm, ag => by
    simp only [compileS, Option.bind_eq_bind, Option.bind_eq_some_iff, Option.some.injEq, Prod.mk.injEq] at h
    obtain ⟨e, hl, rfl, rfl⟩ := h
    split_at hat
    have hn : name = none := by
      cases name
      · rfl
      · simp [Stmt.isLoop] at hnm
    subst hn
    obtain ⟨p, hpl⟩ := hx _ (lookup_targets hl).1
    rw [execS]
    exact ⟨env, p, to_goto hat hpl, ag, e, hl, hpl⟩
  | .cont none, x, name, ls, C, C', is, pc, env, σ, ho, w, g, h, hat, hx, hls, hnm, ag => by
    simp only [compileS, Option.bind_eq_bind, Option.bind_eq_some_iff, Option.some.injEq, Prod.mk.injEq] at h
    obtain ⟨l, hl, rfl, rfl⟩ := h
    split_at hat
    obtain ⟨p, hpl⟩ := hx l (by simp [Ctx.targets, List.mem_of_mem_head? hl])
    rw [execS]
    exact ⟨env, p, to_goto hat hpl, ag, l, hl, hpl⟩
  | .cont (some n), x, name, ls, C, C', is, pc, env, σ, ho, w, g, h, hat, hx, hls, hnm, ag => by
    simp only [compileS, Option.bind_eq_bind, Option.bind_eq_some_iff, Option.some.injEq, Prod.mk.injEq] at h
    obtain ⟨e, he, l, hl, rfl, rfl⟩ := h
    split_at hat
    obtain ⟨p, hpl⟩ := hx _ ((lookup_targets he).2 l hl)
    rw [execS]
    exact ⟨env, p, to_goto hat hpl, ag, e, l, he, hl, hpl⟩
  | .labeled n b, x, name, ls, C, C', is, pc, env, σ, ho, w, g, h, hat, hx, hls, hnm, ag => by
    have hn : name = none := by
      cases name
      · rfl
      · simp [Stmt.isLoop] at hnm
    subst hn
    simp only [compileS] at h
    rw [execS]
    split at h
    · rename_i hloop
      have sb := simS hp inj hnum b (F := F) (ls := n :: ls) ho w g h hat hx (by
        refine ⟨fun m hm => ?_, fun m hm => ?_⟩
        · rcases List.mem_cons.1 hm with rfl | hm
          · exact .inl rfl
          · exact .inr ((hls.1 m hm).resolve_left (by simp))
        · cases hm
          simp) (fun _ => hloop) ag
      refine Lands.bind sb ?_ (fun s hs => by rw [hs])
      intro c s env p hr ag he
      rw [hr]
      cases c with
      | normal => exact ⟨env, _, .refl, ag, he⟩
      | brk l =>
        cases l with
        | none => exact ⟨env, _, .refl, ag, he⟩
        | some m =>
          dsimp only
          simp only [Exit, Option.some.injEq] at he
          by_cases hm : m = n
          · rw [if_pos hm]
            rw [if_pos hm.symm] at he
            exact ⟨env, _, .refl, ag, he⟩
          · rw [if_neg hm]
            rw [if_neg (fun h => hm h.symm)] at he
            exact ⟨env, _, .refl, ag, he⟩
      | cont l => cases l <;> exact ⟨env, _, .refl, ag, he⟩
      | ret => exact ⟨env, _, .refl, ag, he⟩
    · simp only [Option.bind_eq_bind, Option.bind_eq_some_iff, Option.some.injEq, Prod.mk.injEq] at h
      obtain ⟨⟨C1, is1⟩, h1, rfl, rfl⟩ := h
      split_at hat
      have ha := place hp hat.2
      have sb := simS hp inj hnum b (F := F) (ls := n :: ls) (name := none) ho ((Ext.bumpL _).wf w) g h1 hat.1 (by
          intro l hl
          have : l = C.label ∨ l ∈ x.targets := by
            simp only [Ctx.targets, List.mem_append, List.map_cons, List.mem_cons, List.filterMap_cons] at hl ⊢
            grind
          rcases this with rfl | h
          · exact ⟨_, ha⟩
          · exact hx l h) (by
        refine ⟨fun m hm => .inr ?_, by simp⟩
        by_cases hmn : m = n
        · subst hmn
          exact ⟨C.label, by simp⟩
        · have hm' : m ∈ ls := (List.mem_cons.1 hm).resolve_left hmn
          obtain ⟨q, hq⟩ := (hls.1 m hm').resolve_left (by simp)
          refine ⟨q, ?_⟩
          simp only [List.lookup_cons]
          rw [show (m == n) = false by simpa using hmn]
          exact hq) (by simp) ag
      rw [show pc + (is1 ++ [label C.label]).length = pc + is1.length + 1 by simp; omega]
      refine Lands.bind sb ?_ (fun s hs => by rw [hs])
      intro c s env p hr ag he
      rw [hr]
      cases c with
      | normal =>
        cases he
        exact ⟨env, _, to_label hat.2, ag, rfl⟩
      | brk l =>
        cases l with
        | none => exact ⟨env, _, .refl, ag, he⟩
        | some m =>
          dsimp only
          simp only [Exit, reduceCtorEq, if_false, List.lookup_cons] at he
          obtain ⟨e, he, hpl⟩ := he
          by_cases hm : m = n
          · subst hm
            rw [if_pos rfl]
            simp only [beq_self_eq_true, Option.some.injEq] at he
            subst he
            have := hpl.unique ha
            subst this
            exact ⟨env, _, to_label hat.2, ag, rfl⟩
          · rw [if_neg hm]
            rw [show (m == n) = false by simpa using hm] at he
            exact ⟨env, _, .refl, ag, e, he, hpl⟩
      | cont l =>
        cases l with
        | none => exact ⟨env, _, .refl, ag, he⟩
        | some m =>
          obtain ⟨e, l, he, hl, hpl⟩ := he
          simp only [List.lookup_cons] at he
          by_cases hm : m = n
          · subst hm
            simp only [beq_self_eq_true, Option.some.injEq] at he
            subst he
            cases hl
          · rw [show (m == n) = false by simpa using hm] at he
            exact ⟨env, _, .refl, ag, e, l, he, hl, hpl⟩
      | ret => exact ⟨env, _, .refl, ag, he⟩
  | .ret e, x, name, ls, C, C', is, pc, env, σ, ho, w, g, h, hat, hx, hls, hnm, ag => by
    simp only [compileS, Option.bind_eq_bind, Option.bind_eq_some_iff, Option.some.injEq, Prod.mk.injEq] at h
    obtain ⟨⟨C1, is1, a1⟩, h1, l, hl, rfl, rfl⟩ := h
    split_at hat
    obtain ⟨p, hpl⟩ := hx l (by simp [Ctx.targets, hl])
    obtain ⟨e1, s1, ag1, -, -⟩ := simO (I := I) hp inj hnum ho w g h1 hat.1 ag
    rw [execS]
    exact ⟨e1, p, s1.trans (to_goto hat.2 hpl), ag1, l, hl, hpl⟩
  | .throw e, x, name, ls, C, C', is, pc, env, σ, ho, w, g, h, hat, hx, hls, hnm, ag => by
    simp only [compileS, Option.bind_eq_bind, Option.bind_eq_some_iff, Option.some.injEq, Prod.mk.injEq] at h
    obtain ⟨⟨C1, is1, a1⟩, h1, l, hl, rfl, rfl⟩ := h
    split_at hat
    obtain ⟨p, hpl⟩ := hx l (by simp [Ctx.targets, hl])
    obtain ⟨e1, s1, ag1, -, -⟩ := simC (I := I) hp inj hnum ho w g h1 hat.1 ag
    rw [execS]
    exact ⟨e1, p, s1.trans (to_goto hat.2 hpl), ag1, l, hl, hpl⟩

theorem simSs (hp : Placed code) (inj : Inj μ) (hnum : upd = true → ∀ v w, num v w = (v, w)) {F : Nat} :
    ∀ (ss : Stmts) {x : Ctx} {C C' : S} {is : List Inst} {pc : Nat} {env : Nat → V} {σ : St V W},
    ss.ordered upd = true → Wf C → Good μ C' → compileSs x ss C = some (C', is) → At code pc is →
    (∀ l ∈ x.targets, ∃ p, Is code l p) → Agree μ σ.vars env →
    Lands I code μ x none (pc + is.length) F ⟨pc, env, σ.world⟩ (execSs I num F ss σ)
  | .nil, x, C, C', is, pc, env, σ, ho, w, g, h, hat, hx, ag => by
    simp only [compileSs, Option.some.injEq, Prod.mk.injEq] at h
    obtain ⟨rfl, rfl⟩ := h
    rw [execSs]
    exact ⟨env, _, .refl, ag, rfl⟩
  | .cons s ss, x, C, C', is, pc, env, σ, ho, w, g, h, hat, hx, ag => by
    simp only [compileSs, Option.bind_eq_bind, Option.bind_eq_some_iff, Option.some.injEq, Prod.mk.injEq] at h
    obtain ⟨⟨C1, is1⟩, h1, ⟨C2, is2⟩, h2, rfl, rfl⟩ := h
    simp only [Stmts.ordered, Bool.and_eq_true] at ho
    split_at hat
    have x1 := extS w h1
    have w1 := x1.wf w
    have x2 := extSs w1 h2
    have sb := simS hp inj hnum s (F := F) (ls := []) ho.1 w (g.back x2) h1 hat.1 hx LsOk.nil (by simp) ag
    rw [execSs, List.length_append, ← Nat.add_assoc]
    refine Lands.bind sb ?_ (fun s hs => by rw [hs])
    intro c s env p hr ag he
    rw [hr]
    cases c with
    | normal =>
      cases he
      exact simSs hp inj hnum ss ho.2 w1 g h2 hat.2 hx ag
    | brk l => cases l <;> exact ⟨env, _, .refl, ag, he⟩
    | cont l => cases l <;> exact ⟨env, _, .refl, ag, he⟩
    | ret => exact ⟨env, _, .refl, ag, he⟩

theorem simCs (hp : Placed code) (inj : Inj μ) (hnum : upd = true → ∀ v w, num v w = (v, w)) {F : Nat} :
    ∀ (cs : Cases) {x : Ctx} {l : Nat} {C C' : S} {is : List Inst} {pc : Nat},
    cs.ordered upd = true → Wf C → Good μ C' → compileCases x cs l C = some (C', is) → At code pc is →
    (∀ l ∈ x.targets, ∃ p, Is code l p) → ∀ k, k ≤ cs.length →
    ∃ p, (k < cs.length → code[p]? = some (label (l + k))) ∧ (k = cs.length → p = pc + is.length) ∧
      ∀ env (σ : St V W), Agree μ σ.vars env →
        Lands I code μ x none (pc + is.length) F ⟨p, env, σ.world⟩ (execCs I num F cs k σ)
  | .nil, x, l, C, C', is, pc, ho, w, g, h, hat, hx, k, hk => by
    simp only [compileCases, Option.some.injEq, Prod.mk.injEq] at h
    obtain ⟨rfl, rfl⟩ := h
    refine ⟨pc, fun h => absurd h (by simp [Cases.length]), fun _ => rfl, fun env σ ag => ?_⟩
    rw [execCs]
    exact ⟨env, _, .refl, ag, rfl⟩
  | .cons e b cs, x, l, C, C', is, pc, ho, w, g, h, hat, hx, k, hk => by
    simp only [compileCases, Option.bind_eq_bind, Option.bind_eq_some_iff, Option.some.injEq, Prod.mk.injEq] at h
    obtain ⟨⟨C1, is1⟩, h1, ⟨C2, is2⟩, h2, rfl, rfl⟩ := h
    simp only [Cases.ordered, Bool.and_eq_true] at ho
    split_at hat
    obtain ⟨⟨hat0, hat1⟩, hat2⟩ := hat
    have x1 := extSs w h1
    have w1 := x1.wf w
    have x2 : Ext C1 C2 := (partCs cs x.targets w1 (fun _ h => h) h2).ext
    have hlen : pc + ([label l] ++ is1 ++ is2).length = pc + 1 + is1.length + is2.length := by simp; omega
    rw [hlen]
    cases k with
    | zero =>
      refine ⟨pc, fun _ => hat0, fun h => absurd h (by simp [Cases.length]), fun env σ ag => ?_⟩
      have sb := simSs hp inj hnum b (F := F) ho.1.2 w (g.back x2) h1 hat1 hx ag
      rw [execCs]
      refine Lands.pre (to_label hat0) (Lands.bind sb ?_ (fun s hs => by rw [hs]))
      intro c s env p hr ag he
      rw [hr]
      cases c with
      | normal =>
        cases he
        obtain ⟨p, h1, h2, h3⟩ := simCs hp inj hnum (F := F) cs ho.2 w1 g h2 hat2 hx 0 (Nat.zero_le _)
        have hp0 : p = pc + 1 + is1.length := by
          cases cs with
          | nil =>
            have := h2 rfl
            simp only [compileCases, Option.some.injEq, Prod.mk.injEq] at *
            obtain ⟨rfl, rfl⟩ := ‹_›
            simpa using this
          | cons e' b' cs' =>
            simp only [compileCases, Option.bind_eq_bind, Option.bind_eq_some_iff, Option.some.injEq, Prod.mk.injEq] at *
            obtain ⟨⟨_, _⟩, -, ⟨_, _⟩, -, rfl, rfl⟩ := ‹_›
            split_at hat2
            exact (place hp (h1 (by simp [Cases.length]))).unique (place hp hat2.1.1)
        subst hp0
        exact h3 env s ag
      | brk l => cases l <;> exact ⟨env, _, .refl, ag, he⟩
      | cont l => cases l <;> exact ⟨env, _, .refl, ag, he⟩
      | ret => exact ⟨env, _, .refl, ag, he⟩
    | succ k =>
      obtain ⟨p, h1, h2, h3⟩ := simCs hp inj hnum (F := F) cs ho.2 w1 g h2 hat2 hx k (by simp only [Cases.length] at hk; omega)
      refine ⟨p, fun h => ?_, fun h => h2 (by simp only [Cases.length] at h; omega), fun env σ ag => ?_⟩
      · rw [h1 (by simp only [Cases.length] at h; omega)]
        congr 2
        omega
      · rw [execCs]
        exact h3 env σ ag
end

end

end Verif.Lower
