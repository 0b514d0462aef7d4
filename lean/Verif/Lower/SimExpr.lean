import Verif.Lower.SimE
/-!
# Translated expressions compute the values of expressions: the induction
-/

namespace Verif.Lower

open Verif.Il Verif.Lin Verif.Opt

section
variable {V W : Type} {I : Interp V W} {num : V → W → V × W} {code : List Inst} {μ : Nat → Option Nat} {upd : Bool}

macro "split_at" h:ident : tactic => `(tactic| simp only [at_append, at_cons, at_nil, and_true, List.length_append,
  List.length_cons, List.length_nil, ← Nat.add_assoc, Nat.add_zero, Nat.zero_add] at $h:ident)

mutual
theorem simE (hp : Placed code) (inj : Inj μ) (hnum : upd = true → ∀ v w, num v w = (v, w)) :
    ∀ (e : Expr) {ch : Option Nat} {C C' : S} {is : List Inst} {th a : Arg} {pc : Nat} {env : Nat → V} {σ : St V W},
    e.ordered upd = true → Wf C → Good μ C' → compileR e ch C = some (C', is, th, a) → At code pc is →
    (∀ l, ch = some l → ∃ p, Is code l p) → Agree μ σ.vars env →
    Ends I code μ C.temp pc (pc + is.length) ch th a env σ (ref I num e σ)
  | .lit c, ch, C, C', is, th, a, pc, env, σ, ho, w, g, h, hat, hch, ag => by
    simp only [compileR, Option.some.injEq, Prod.mk.injEq] at h
    obtain ⟨rfl, rfl, rfl, rfl⟩ := h
    exact EndsV.plain ⟨env, .refl, ag, .refl, rfl⟩
  | .builtin c, ch, C, C', is, th, a, pc, env, σ, ho, w, g, h, hat, hch, ag => by
    simp only [compileR, Option.some.injEq, Prod.mk.injEq] at h
    obtain ⟨rfl, rfl, rfl, rfl⟩ := h
    exact EndsV.plain ⟨env, .refl, ag, .refl, rfl⟩
  | .fn c, ch, C, C', is, th, a, pc, env, σ, ho, w, g, h, hat, hch, ag => by
    simp only [compileR, Option.some.injEq, Prod.mk.injEq] at h
    obtain ⟨rfl, rfl, rfl, rfl⟩ := h
    exact EndsV.plain ⟨env, .refl, ag, .refl, rfl⟩
  | .ident x, ch, C, C', is, th, a, pc, env, σ, ho, w, g, h, hat, hch, ag => by
    simp only [compileR, Option.some.injEq, Prod.mk.injEq] at h
    obtain ⟨rfl, rfl, rfl, rfl⟩ := h
    exact EndsV.plain (sim_id w g hat ag)
  | .unary op e, ch, C, C', is, th, a, pc, env, σ, ho, w, g, h, hat, hch, ag => by
    simp only [compileR] at h
    split at h
    · rename_i n hn
      obtain ⟨rfl, rfl⟩ := typeof_some hn
      simp only [Option.some.injEq, Prod.mk.injEq] at h
      obtain ⟨rfl, rfl, rfl, rfl⟩ := h
      split_at hat
      exact EndsV.plain ⟨_, to_un hat, ag.set (g.fresh w), Keep.refl.set (Nat.le_refl _), set_self⟩
    · rename_i hn
      simp only [Option.bind_eq_bind, Option.bind_eq_some_iff, Option.some.injEq, Prod.mk.injEq] at h
      obtain ⟨⟨C1, is1, th1, a1⟩, h1, rfl, rfl, rfl, rfl⟩ := h
      split_at hat
      have x1 := extE w h1
      have g1 := g.back (Ext.bumpT _)
      obtain ⟨e1, t1, ag1, k1, v1⟩ := (simE hp inj hnum e ho w g1 h1 hat.1 (by simp) ag).value
      rw [typeof_none hn]
      have hb := to_un (I := I) (e := e1) (w := (value I (ref I num e σ)).2.world) hat.2
      rw [v1, UnaryOp.il_means] at hb
      exact EndsV.plain ⟨_, (t1.trans hb).cast (by simp; omega) rfl rfl, ag1.set (g.fresh (x1.wf w)), k1.set x1.temp, set_self⟩
  | .arith op l r, ch, C, C', is, th, a, pc, env, σ, ho, w, g, h, hat, hch, ag => by
    simp only [compileR, Option.bind_eq_bind, Option.bind_eq_some_iff, Option.some.injEq, Prod.mk.injEq] at h
    obtain ⟨⟨C1, is1, th1, a1⟩, h1, ⟨C2, is2, th2, a2⟩, h2, rfl, rfl, rfl, rfl⟩ := h
    simp only [Expr.ordered, Bool.and_eq_true] at ho
    split_at hat
    have x1 := extE w h1
    have w1 := x1.wf w
    have x2 := extE w1 h2
    have g2 := g.back (Ext.bumpT _)
    have g1 := g2.back x2
    obtain ⟨e1, t1, ag1, k1, v1⟩ := (simE hp inj hnum l ho.1.1 w g1 h1 hat.1.1 (by simp) ag).value
    obtain ⟨e2, t2, ag2, k2, v2⟩ := (simE hp inj hnum r ho.1.2 w1 g2 h2 hat.1.2 (by simp) ag1).value
    have va := (argOk inj l w g1 h1).1.keep (I := I) k2 (Nat.le_refl _) ag1 ag2 (spared_vars ho.2 _)
    have hb := to_bin (I := I) (e := e2) (w := (value I (ref I num r (value I (ref I num l σ)).2)).2.world) hat.2
    rw [va, v1, v2, ArithOp.il_means] at hb
    exact EndsV.plain ⟨_, (t1.trans (t2.trans hb)).cast (by simp; omega) rfl rfl, ag2.set (g.fresh (x2.wf w1)),
      (k1.trans k2 x1.temp).set (x1.trans x2).temp, set_self⟩
  | .cmp op l r, ch, C, C', is, th, a, pc, env, σ, ho, w, g, h, hat, hch, ag => by
    simp only [compileR, Option.bind_eq_bind, Option.bind_eq_some_iff, Option.some.injEq, Prod.mk.injEq] at h
    obtain ⟨o, hop, ⟨C1, is1, th1, a1⟩, h1, ⟨C2, is2, th2, a2⟩, h2, rfl, rfl, rfl, rfl⟩ := h
    simp only [Expr.ordered, Bool.and_eq_true] at ho
    split_at hat
    have x1 := extE w h1
    have w1 := x1.wf w
    have x2 := extE w1 h2
    have g2 := g.back (Ext.bumpT _)
    have g1 := g2.back x2
    obtain ⟨e1, t1, ag1, k1, v1⟩ := (simE hp inj hnum l ho.1.1 w g1 h1 hat.1.1 (by simp) ag).value
    obtain ⟨e2, t2, ag2, k2, v2⟩ := (simE hp inj hnum r ho.1.2 w1 g2 h2 hat.1.2 (by simp) ag1).value
    have va := (argOk inj l w g1 h1).1.keep (I := I) k2 (Nat.le_refl _) ag1 ag2 (spared_vars ho.2 _)
    have hb := to_bin (I := I) (e := e2) (w := (value I (ref I num r (value I (ref I num l σ)).2)).2.world) hat.2
    rw [va, v1, v2, CmpOp.il_means hop] at hb
    exact EndsV.plain ⟨_, (t1.trans (t2.trans hb)).cast (by simp; omega) rfl rfl, ag2.set (g.fresh (x2.wf w1)),
      (k1.trans k2 x1.temp).set (x1.trans x2).temp, set_self⟩
  | .log op l r, ch, C, C', is, th, a, pc, env, σ, ho, w, g, h, hat, hch, ag => by
    simp only [compileR, Option.bind_eq_bind, Option.bind_eq_some_iff] at h
    obtain ⟨⟨C1, is1, th1, a1⟩, h1, h⟩ := h
    simp only [Expr.ordered, Bool.and_eq_true] at ho
    have w0 : Wf C.bumpL.bumpT := ((Ext.bumpL _).trans (Ext.bumpT _)).wf w
    have x1 := extE w0 h1
    have w1 := x1.wf w0
    have t01 : C.temp + 1 ≤ C1.temp := x1.temp
    rw [ref]
    cases op with
    | and =>
      simp only [Option.bind_eq_some_iff, Option.some.injEq, Prod.mk.injEq] at h
      obtain ⟨⟨C2, is2, th2, a2⟩, h2, rfl, rfl, rfl, rfl⟩ := h
      split_at hat
      obtain ⟨⟨⟨hat1, hat2, hat3⟩, hat4⟩, hat5, hat6⟩ := hat
      have x2 := extE w1 h2
      have g1 := g.back x2
      have fr : Fresh μ C.temp := Good.fresh (C := C.bumpL) (g1.back x1) w
      have hl := place hp hat6
      obtain ⟨e1, s1, ag1, k1, v1⟩ := (simE hp inj hnum l ho.1 w0 g1 h1 hat1 (by simp) ag).value
      have k1' : Keep μ C.temp env e1 := fun t ht hf => k1 t (Nat.lt_succ_of_lt ht) hf
      have sa := to_assign (I := I) (e := e1) (w := (value I (ref I num l σ)).2.world) hat2
      have ag1' : Agree μ (value I (ref I num l σ)).2.vars (set e1 C.temp (valOf I e1 a1)) := ag1.set fr
      have sc := to_cond (I := I) (e := set e1 C.temp (valOf I e1 a1)) (w := (value I (ref I num l σ)).2.world) hat3
        (go_fall _ hl)
      rw [set_same, v1] at sc
      dsimp only
      split
      · rename_i hc
        change I.truthy (value I (ref I num l σ)).1 = true at hc
        rw [v1] at ag1'
        rw [if_pos hc] at sc
        obtain ⟨e2, s2, ag2, k2, v2⟩ := (simE hp inj hnum r ho.2 w1 g h2 hat4 (by simp) ag1').value
        have sb := to_assign (I := I) (e := e2) (w := (value I (ref I num r (value I (ref I num l σ)).2)).2.world) hat5
        rw [v1] at sa
        refine EndsV.plain ⟨_, (s1.trans (sa.trans (sc.trans (s2.trans (sb.trans (to_label hat6)))))).cast ?_ rfl rfl,
          ag2.set fr, ?_, ?_⟩
        · simp; omega
        · exact ((k1'.set (Nat.le_refl _)).trans k2 (by omega)).set (Nat.le_refl _)
        · exact set_self.trans v2
      · rename_i hc
        change ¬ I.truthy (value I (ref I num l σ)).1 = true at hc
        rw [if_neg hc] at sc
        rw [v1] at sa ag1'
        refine EndsV.plain ⟨_, (s1.trans (sa.trans (sc.trans (to_label hat6)))).cast ?_ rfl rfl,
          ag1', k1'.set (Nat.le_refl _), set_self⟩
        simp; omega
    | or =>
      simp only [Option.bind_eq_some_iff, Option.some.injEq, Prod.mk.injEq] at h
      obtain ⟨⟨C2, is2, th2, a2⟩, h2, rfl, rfl, rfl, rfl⟩ := h
      split_at hat
      obtain ⟨⟨⟨hat1, hat2, hat3⟩, hat4⟩, hat5, hat6⟩ := hat
      have x2 := extE w1 h2
      have g1 := g.back x2
      have fr : Fresh μ C.temp := Good.fresh (C := C.bumpL) (g1.back x1) w
      have hl := place hp hat6
      obtain ⟨e1, s1, ag1, k1, v1⟩ := (simE hp inj hnum l ho.1 w0 g1 h1 hat1 (by simp) ag).value
      have k1' : Keep μ C.temp env e1 := fun t ht hf => k1 t (Nat.lt_succ_of_lt ht) hf
      have sa := to_assign (I := I) (e := e1) (w := (value I (ref I num l σ)).2.world) hat2
      have ag1' : Agree μ (value I (ref I num l σ)).2.vars (set e1 C.temp (valOf I e1 a1)) := ag1.set fr
      have sc := to_cond (I := I) (e := set e1 C.temp (valOf I e1 a1)) (w := (value I (ref I num l σ)).2.world) hat3
        (go_not _ hl)
      rw [set_same, v1] at sc
      dsimp only
      split
      · rename_i hc
        change (!I.truthy (value I (ref I num l σ)).1) = true at hc
        rw [v1] at ag1'
        rw [if_pos hc] at sc
        obtain ⟨e2, s2, ag2, k2, v2⟩ := (simE hp inj hnum r ho.2 w1 g h2 hat4 (by simp) ag1').value
        have sb := to_assign (I := I) (e := e2) (w := (value I (ref I num r (value I (ref I num l σ)).2)).2.world) hat5
        rw [v1] at sa
        refine EndsV.plain ⟨_, (s1.trans (sa.trans (sc.trans (s2.trans (sb.trans (to_label hat6)))))).cast ?_ rfl rfl,
          ag2.set fr, ?_, ?_⟩
        · simp; omega
        · exact ((k1'.set (Nat.le_refl _)).trans k2 (by omega)).set (Nat.le_refl _)
        · exact set_self.trans v2
      · rename_i hc
        change ¬ (!I.truthy (value I (ref I num l σ)).1) = true at hc
        rw [if_neg hc] at sc
        rw [v1] at sa ag1'
        refine EndsV.plain ⟨_, (s1.trans (sa.trans (sc.trans (to_label hat6)))).cast ?_ rfl rfl,
          ag1', k1'.set (Nat.le_refl _), set_self⟩
        simp; omega
    | nullish =>
      simp only [Option.bind_eq_some_iff, Option.some.injEq, Prod.mk.injEq] at h
      obtain ⟨⟨C2, is2, th2, a2⟩, h2, rfl, rfl, rfl, rfl⟩ := h
      split_at hat
      obtain ⟨⟨⟨hat1, hat2, hat3, hat3'⟩, hat4⟩, hat5, hat6⟩ := hat
      have wb : Wf C1.bumpT := (Ext.bumpT _).wf w1
      have x2 := extE wb h2
      have gb := g.back x2
      have g1 := gb.back (Ext.bumpT _)
      have fr : Fresh μ C.temp := Good.fresh (C := C.bumpL) (g1.back x1) w
      have frb : Fresh μ C1.temp := gb.fresh w1
      have hl := place hp hat6
      obtain ⟨e1, s1, ag1, k1, v1⟩ := (simE hp inj hnum l ho.1 w0 g1 h1 hat1 (by simp) ag).value
      have k1' : Keep μ C.temp env e1 := fun t ht hf => k1 t (Nat.lt_succ_of_lt ht) hf
      have sa := to_assign (I := I) (e := e1) (w := (value I (ref I num l σ)).2.world) hat2
      have sn := to_bin (I := I) (e := set e1 C.temp (valOf I e1 a1)) (w := (value I (ref I num l σ)).2.world) hat3
      rw [show valOf I (set e1 C.temp (valOf I e1 a1)) (.var C.temp) = _ from set_self] at sn
      rw [v1] at sa sn
      have ag1' := (ag1.set (v := (value I (ref I num l σ)).1) fr).set
        (v := (I.op (.bin .looseEq) [(value I (ref I num l σ)).1, nullV I] (value I (ref I num l σ)).2.world).1) frb
      have sc := to_cond (I := I) (e := set (set e1 C.temp (value I (ref I num l σ)).1) C1.temp
        (I.op (.bin .looseEq) [(value I (ref I num l σ)).1, nullV I] (value I (ref I num l σ)).2.world).1)
        (w := (I.op (.bin .looseEq) [(value I (ref I num l σ)).1, nullV I] (value I (ref I num l σ)).2.world).2) hat3'
        (go_fall _ hl)
      rw [show valOf I (set _ C1.temp _) (.var C1.temp) = _ from set_self] at sc
      dsimp only
      split
      · rename_i hc
        change I.truthy (I.op (.bin .looseEq) [(value I (ref I num l σ)).1, nullV I] (value I (ref I num l σ)).2.world).1 = true at hc
        rw [if_pos hc] at sc
        obtain ⟨e2, s2, ag2, k2, v2⟩ := (simE hp inj hnum r ho.2 wb g h2 hat4 (by simp)
          (σ := (goesOn I .nullish (value I (ref I num l σ)).1 (value I (ref I num l σ)).2).2) ag1').value
        have sb := to_assign (I := I) (e := e2) (w := (value I (ref I num r
          (goesOn I .nullish (value I (ref I num l σ)).1 (value I (ref I num l σ)).2).2)).2.world) hat5
        refine EndsV.plain ⟨_, (s1.trans (sa.trans (sn.trans (sc.trans (s2.trans (sb.trans (to_label hat6))))))).cast ?_ rfl rfl,
          ag2.set fr, ?_, ?_⟩
        · simp; omega
        · exact (((k1'.set (Nat.le_refl _)).set (by omega)).trans k2 (show C.temp ≤ C1.temp + 1 by omega)).set (Nat.le_refl _)
        · exact set_self.trans v2
      · rename_i hc
        change ¬ I.truthy (I.op (.bin .looseEq) [(value I (ref I num l σ)).1, nullV I] (value I (ref I num l σ)).2.world).1 = true at hc
        rw [if_neg hc] at sc
        refine EndsV.plain ⟨_, (s1.trans (sa.trans (sn.trans (sc.trans (to_label hat6))))).cast ?_ rfl rfl,
          ag1', (k1'.set (Nat.le_refl _)).set (by omega), ?_⟩
        · simp; omega
        · show set _ C1.temp _ C.temp = _
          rw [set_ne (by omega), set_self]
  | .comma l r, ch, C, C', is, th, a, pc, env, σ, ho, w, g, h, hat, hch, ag => by
    simp only [compileR, Option.bind_eq_bind, Option.bind_eq_some_iff, Option.some.injEq, Prod.mk.injEq] at h
    obtain ⟨⟨C1, is1, th1, a1⟩, h1, ⟨C2, is2, th2, a2⟩, h2, rfl, rfl, rfl, rfl⟩ := h
    simp only [Expr.ordered, Bool.and_eq_true] at ho
    split_at hat
    have x1 := extE w h1
    have w1 := x1.wf w
    have x2 := extE w1 h2
    obtain ⟨e1, t1, ag1, k1, v1⟩ := (simE hp inj hnum l ho.1 w (g.back x2) h1 hat.1 (by simp) ag).value
    obtain ⟨e2, t2, ag2, k2, v2⟩ := (simE hp inj hnum r ho.2 w1 g h2 hat.2 (by simp) ag1).value
    rw [ref]
    exact EndsV.plain ⟨_, (t1.trans t2).cast (by simp; omega) rfl rfl, ag2, k1.trans k2 x1.temp, v2⟩
  | .cond c t f, ch, C, C', is, th, a, pc, env, σ, ho, w, g, h, hat, hch, ag => by
    simp only [compileR, Option.bind_eq_bind, Option.bind_eq_some_iff, Option.some.injEq, Prod.mk.injEq] at h
    obtain ⟨⟨C1, is1, th1, a1⟩, h1, ⟨C2, is2, th2, a2⟩, h2, ⟨C3, is3, th3, a3⟩, h3, rfl, rfl, rfl, rfl⟩ := h
    simp only [Expr.ordered, Bool.and_eq_true] at ho
    split_at hat
    obtain ⟨⟨⟨⟨⟨hat1, hat2⟩, hat3⟩, hat4, hat5, hat6⟩, hat7⟩, hat8, hat9⟩ := hat
    have x1 := extE w h1
    have w1 := x1.wf w
    have xb : Ext C1.bumpT C1.bumpT.bumpL.bumpL := (Ext.bumpL _).trans (Ext.bumpL _)
    have wb := xb.wf ((Ext.bumpT _).wf w1)
    have x2 := extE wb h2
    have w2 := x2.wf wb
    have x3 := extE w2 h3
    have g2 := g.back x3
    have gb := (g2.back x2).back xb
    have fr : Fresh μ C1.temp := gb.fresh w1
    have t12 : C1.temp + 1 ≤ C2.temp := x2.temp
    have t01 : C.temp ≤ C1.temp := x1.temp
    obtain ⟨e1, s1, ag1, k1, v1⟩ := (simE hp inj hnum c ho.1.1 w (gb.back (Ext.bumpT _)) h1 hat1 (by simp) ag).value
    have sc := to_cond (I := I) (e := e1) (w := (value I (ref I num c σ)).2.world) hat2 (go_jump _ (place hp hat6))
    rw [v1] at sc
    have hl := place hp hat9
    rw [ref]
    dsimp only
    split
    · rename_i hc
      rw [if_pos hc] at sc
      obtain ⟨e2, s2, ag2, k2, v2⟩ := (simE hp inj hnum t ho.1.2 w2 g h3 hat7 (by simp) ag1).value
      have sb := to_assign (I := I) (e := e2) (w := (value I (ref I num t (value I (ref I num c σ)).2)).2.world) hat8
      refine EndsV.plain ⟨_, (s1.trans (sc.trans ((to_label hat6).trans (s2.trans (sb.trans (to_label hat9)))))).cast ?_ rfl rfl,
        ag2.set fr, (k1.trans k2 (by omega)).set t01, set_self.trans v2⟩
      simp; omega
    · rename_i hc
      rw [if_neg hc] at sc
      obtain ⟨e2, s2, ag2, k2, v2⟩ := (simE hp inj hnum f ho.2 wb g2 h2 hat3 (by simp) ag1).value
      have sb := to_assign (I := I) (e := e2) (w := (value I (ref I num f (value I (ref I num c σ)).2)).2.world) hat4
      refine EndsV.plain ⟨_, (s1.trans (sc.trans (s2.trans (sb.trans ((to_goto hat5 hl).trans (to_label hat9)))))).cast ?_ rfl rfl,
        ag2.set fr, (k1.trans k2 (show C.temp ≤ C1.temp + 1 by omega)).set t01, set_self.trans v2⟩
      simp; omega
  | .update inc pre (.ident (.local y)), ch, C, C', is, th, a, pc, env, σ, ho, w, g, h, hat, hch, ag => by
    simp only [compileR, Option.bind_eq_bind, Option.bind_some] at h
    simp only [Option.bind_eq_some_iff] at h
    obtain ⟨v, hv, h⟩ := h
    simp only [compileId] at h hv
    simp only [Arg.maybeVar, Option.some.injEq] at hv
    subst hv
    generalize hst : symTemp C y = q at *
    obtain ⟨C1, t⟩ := q
    obtain ⟨h1, h2, h3, h4⟩ := symTemp_ok hst w
    dsimp only at *
    rw [ref]
    simp only [readVar, hnum ho]
    cases pre with
    | true =>
      simp only [if_true, Option.some.injEq, Prod.mk.injEq] at h
      obtain ⟨rfl, rfl, rfl, rfl⟩ := h
      simp only [List.nil_append] at hat
      split_at hat
      have hμ := g.1 y t h4
      have sb := to_bin (I := I) (e := env) (w := σ.world) hat
      have hv : valOf I env (.var t) = σ.vars y := ag y t hμ
      rw [hv] at sb
      refine EndsV.plain ⟨_, (sb.cast (by simp) rfl ?_), ag.write inj hμ, Keep.refl.write hμ, set_self.trans ?_⟩
      · cases inc <;> rfl
      · cases inc <;> rfl
    | false =>
      simp only [Bool.false_eq_true, if_false, Option.some.injEq, Prod.mk.injEq] at h
      obtain ⟨rfl, rfl, rfl, rfl⟩ := h
      simp only [List.nil_append] at hat
      split_at hat
      have hμ := (g.back (Ext.bumpT _)).1 y t h4
      have hv : valOf I env (.var t) = σ.vars y := ag y t hμ
      have sa := to_assign (I := I) (e := env) (w := σ.world) hat.1
      have ne : t ≠ C1.temp := by omega
      have sb := to_bin (I := I) (e := set env C1.temp (valOf I env (.var t))) (w := σ.world) hat.2
      rw [show valOf I (set env C1.temp (valOf I env (.var t))) (.var t) = σ.vars y from (set_ne ne).trans hv] at sb
      rw [hv] at sa sb
      refine EndsV.plain ⟨_, ((sa.trans sb).cast (by simp) rfl ?_), (ag.set (g.fresh (h1.wf w))).write inj hμ,
        (Keep.refl.set h1.temp).write hμ, ?_⟩
      · cases inc <;> rfl
      · show set _ t _ C1.temp = _
        rw [set_ne (by omega), set_self]
        rfl
  | .update inc pre (.ident (.foreign y)), ch, C, C', is, th, a, pc, env, σ, ho, w, g, h, hat, hch, ag => by
    simp [Expr.ordered] at ho
  | .update inc pre (.ident (.unknown y)), ch, C, C', is, th, a, pc, env, σ, ho, w, g, h, hat, hch, ag => by
    simp [Expr.ordered] at ho
  | .update inc pre (.ident (.builtin y)), ch, C, C', is, th, a, pc, env, σ, ho, w, g, h, hat, hch, ag => by
    simp [Expr.ordered] at ho
  | .update inc pre (.lit _), ch, C, C', is, th, a, pc, env, σ, ho, w, g, h, hat, hch, ag => by
    simp [Expr.ordered] at ho
  | .update inc pre (.builtin _), ch, C, C', is, th, a, pc, env, σ, ho, w, g, h, hat, hch, ag => by
    simp [Expr.ordered] at ho
  | .update inc pre (.fn _), ch, C, C', is, th, a, pc, env, σ, ho, w, g, h, hat, hch, ag => by
    simp [Expr.ordered] at ho
  | .update inc pre (.unary _ _), ch, C, C', is, th, a, pc, env, σ, ho, w, g, h, hat, hch, ag => by
    simp [Expr.ordered] at ho
  | .update inc pre (.arith _ _ _), ch, C, C', is, th, a, pc, env, σ, ho, w, g, h, hat, hch, ag => by
    simp [Expr.ordered] at ho
  | .update inc pre (.cmp _ _ _), ch, C, C', is, th, a, pc, env, σ, ho, w, g, h, hat, hch, ag => by
    simp [Expr.ordered] at ho
  | .update inc pre (.log _ _ _), ch, C, C', is, th, a, pc, env, σ, ho, w, g, h, hat, hch, ag => by
    simp [Expr.ordered] at ho
  | .update inc pre (.comma _ _), ch, C, C', is, th, a, pc, env, σ, ho, w, g, h, hat, hch, ag => by
    simp [Expr.ordered] at ho
  | .update inc pre (.cond _ _ _), ch, C, C', is, th, a, pc, env, σ, ho, w, g, h, hat, hch, ag => by
    simp [Expr.ordered] at ho
  | .update inc pre (.update _ _ _), ch, C, C', is, th, a, pc, env, σ, ho, w, g, h, hat, hch, ag => by
    simp [Expr.ordered] at ho
  | .update inc pre (.assign _ _ _), ch, C, C', is, th, a, pc, env, σ, ho, w, g, h, hat, hch, ag => by
    simp [Expr.ordered] at ho
  | .update inc pre (.assignMember _ _ _ _), ch, C, C', is, th, a, pc, env, σ, ho, w, g, h, hat, hch, ag => by
    simp [Expr.ordered] at ho
  | .update inc pre (.member _ _ _), ch, C, C', is, th, a, pc, env, σ, ho, w, g, h, hat, hch, ag => by
    simp [Expr.ordered] at ho
  | .update inc pre (.call _ _ _), ch, C, C', is, th, a, pc, env, σ, ho, w, g, h, hat, hch, ag => by
    simp [Expr.ordered] at ho
  | .update inc pre (.new _ _), ch, C, C', is, th, a, pc, env, σ, ho, w, g, h, hat, hch, ag => by
    simp [Expr.ordered] at ho
  | .update inc pre (.internal _ _), ch, C, C', is, th, a, pc, env, σ, ho, w, g, h, hat, hch, ag => by
    simp [Expr.ordered] at ho
  | .assign .plain x e, ch, C, C', is, th, a, pc, env, σ, ho, w, g, h, hat, hch, ag => by
    simp only [compileR, Option.bind_eq_bind, Option.bind_eq_some_iff, Option.some.injEq, Prod.mk.injEq] at h
    obtain ⟨⟨C0, d⟩, h0, ⟨C1, is1, th1, a1⟩, h1, rfl, rfl, rfl, rfl⟩ := h
    simp only [Expr.ordered] at ho
    split_at hat
    obtain ⟨e0, l0, hdb⟩ := dest_ok h0 w
    have w0 := e0.wf w
    have w0' : Wf C0.bumpT := (Ext.bumpT _).wf w0
    have x1 := extE w0' h1
    have g0 := g.back x1
    have hd := dest_is w h0 (g0.back (Ext.bumpT _))
    have fr := g0.fresh w0
    have t0 : C.temp ≤ C0.temp := e0.temp
    obtain ⟨e1, s1, ag1, k1, v1⟩ := (simE hp inj hnum e ho w0' g h1 hat.1 (by simp) ag).value
    have sa := to_assign (I := I) (e := e1) (w := (value I (ref I num e σ)).2.world) hat.2.1
    obtain ⟨e2, s2, ag2, k2, f2⟩ := sim_store (T := C.temp) (I := I) inj hd hat.2.2 (ag1.set (v := valOf I e1 a1) fr)
    rw [set_same] at s2 ag2
    rw [v1] at s2 ag2 sa k2 f2
    rw [ref]
    refine EndsV.plain ⟨e2, (s1.trans (sa.trans s2)).cast (by simp; omega) rfl rfl, ag2, ?_, ?_⟩
    · have k1' : Keep μ C.temp env e1 := fun t ht hf => k1 t (show t < C0.temp + 1 by omega) hf
      exact (k1'.set t0).trans k2 (Nat.le_refl _)
    · exact (f2 _ fr).trans set_self
  | .assign (.arith op) x e, ch, C, C', is, th, a, pc, env, σ, ho, w, g, h, hat, hch, ag => by
    simp only [compileR, Option.bind_eq_bind, Option.bind_eq_some_iff, Option.some.injEq, Prod.mk.injEq] at h
    obtain ⟨⟨C0, d⟩, h0, ⟨C1, is1, th1, a1⟩, h1, rfl, rfl, rfl, rfl⟩ := h
    split_at hat
    obtain ⟨⟨hat1, hat2⟩, hat3, hat4⟩ := hat
    obtain ⟨e0, l0, hdb⟩ := dest_ok h0 w
    have w0 := e0.wf w
    have w0' : Wf C0.bumpT := (Ext.bumpT _).wf w0
    have x1 := extE w0' h1
    have g1 : Good μ C1 := g.back ext_load
    have g0 := g1.back x1
    have hd := dest_is w h0 (g0.back (Ext.bumpT _))
    have fr := g0.fresh w0
    have t0 : C.temp ≤ C0.temp := e0.temp
    have t1 : C0.temp + 1 ≤ C1.temp := x1.temp
    -- the value of the right operand, with the old value
    have main : ∃ e2, To I code ⟨pc, env, σ.world⟩ ⟨pc + is1.length + (d.load C1).2.1.length, e2,
          (value I (ref I num e (readVar I x σ).2)).2.world⟩ ∧
        Agree μ (value I (ref I num e (readVar I x σ).2)).2.vars e2 ∧ Keep μ (C0.temp + 1) env e2 ∧
        valOf I e2 (d.load C1).2.2 = (readVar I x σ).1 ∧ valOf I e2 a1 = (value I (ref I num e (readVar I x σ).2)).1 := by
      have quiet : e.quiet = true → ∃ e2, To I code ⟨pc, env, σ.world⟩ ⟨pc + is1.length + (d.load C1).2.1.length, e2,
          (value I (ref I num e (readVar I x σ).2)).2.world⟩ ∧
        Agree μ (value I (ref I num e (readVar I x σ).2)).2.vars e2 ∧ Keep μ (C0.temp + 1) env e2 ∧
        valOf I e2 (d.load C1).2.2 = (readVar I x σ).1 ∧ valOf I e2 a1 = (value I (ref I num e (readVar I x σ).2)).1 := fun hq => by
        obtain ⟨hnil, hst, hval⟩ := sim_quiet (I := I) (num := num) hq w0' g1 h1 (readVar I x σ).2
        subst hnil
        obtain ⟨e2, s2, ag2, k2, v2⟩ := sim_load (I := I) (σ := σ) (x1.wf w0') hd g hat2 ag
        refine ⟨e2, s2.cast rfl rfl (by rw [hst]), by rw [hst]; exact ag2,
          fun t ht hf => k2 t (Nat.lt_of_lt_of_le ht t1) hf, v2, hval _ _ ag2 rfl⟩
      cases x with
      | «local» y =>
        simp only [Expr.ordered, Bool.and_eq_true, Bool.not_eq_true'] at ho
        cases d with
        | temp t =>
          obtain ⟨e1, s1, ag1, k1, v1⟩ := (simE hp inj hnum e ho.1 w0' g1 h1 hat1 (by simp) ag).value
          refine ⟨e1, s1, ag1, k1, ?_, v1⟩
          show e1 t = σ.vars y
          rw [ag1 y t hd, vars_value]
          exact vars_ref y e σ ho.2
        | _ => exact hd.elim
      | foreign y => exact quiet ho
      | unknown y => exact quiet ho
      | builtin y => exact quiet ho
    obtain ⟨e2, s2, ag2, k2, vo, va⟩ := main
    have sb := to_bin (I := I) (e := e2) (w := (value I (ref I num e (readVar I x σ).2)).2.world) hat3
    rw [vo, va, ArithOp.assignIl_means] at sb
    rw [ref]
    obtain ⟨e3, s3, ag3, k3, f3⟩ := sim_store (T := C.temp) (I := I) inj hd hat4
      (σ := (doOp I (.bin op.means) [(readVar I x σ).1, (value I (ref I num e (readVar I x σ).2)).1]
        (value I (ref I num e (readVar I x σ).2)).2).2) (ag2.set
      (v := (doOp I (.bin op.means) [(readVar I x σ).1, (value I (ref I num e (readVar I x σ).2)).1]
        (value I (ref I num e (readVar I x σ).2)).2).1) fr)
    rw [show valOf I (set e2 C0.temp _) (.var C0.temp) = _ from set_self] at s3 ag3
    refine EndsV.plain ⟨e3, (s2.trans (sb.trans s3)).cast (by simp; omega) rfl rfl, ag3, ?_, ?_⟩
    · have k2' : Keep μ C.temp env e2 := fun t ht hf => k2 t (by omega) hf
      exact (k2'.set t0).trans k3 (Nat.le_refl _)
    · exact (f3 _ fr).trans set_self
  | .assign (.log op) x e, ch, C, C', is, th, a, pc, env, σ, ho, w, g, h, hat, hch, ag => by
    simp only [compileR, Option.bind_eq_bind, Option.bind_eq_some_iff, Option.some.injEq, Prod.mk.injEq] at h
    obtain ⟨⟨C0, d⟩, h0, ⟨C3, is3, th3, a3⟩, h3, rfl, rfl, rfl, rfl⟩ := h
    simp only [Expr.ordered] at ho
    split_at hat
    obtain ⟨⟨⟨⟨hat1, hat2⟩, hat3⟩, hat4⟩, hat5, hat6, hat7⟩ := hat
    obtain ⟨e0, l0, hdb⟩ := dest_ok h0 w
    have w0 := e0.wf w
    have w0' : Wf C0.bumpT := (Ext.bumpT _).wf w0
    have xl : Ext C0.bumpT (d.load C0.bumpT).1 := ext_load
    have wl := xl.wf w0'
    have wj := (Ext.bumpL _).wf wl
    have xj : Ext (d.load C0.bumpT).1.bumpL (logJump (d.load C0.bumpT).1.bumpL op C0.temp (d.load C0.bumpT).1.label).1 :=
      ext_logJump
    have wr := xj.wf wj
    have x3 := extE wr h3
    have gj := g.back x3
    have gl := (gj.back xj).back (Ext.bumpL _)
    have g0 := gl.back xl
    have hd := dest_is w h0 (g0.back (Ext.bumpT _))
    have fr := g0.fresh w0
    have t0 : C.temp ≤ C0.temp := e0.temp
    have tl : C0.temp + 1 ≤ (d.load C0.bumpT).1.temp := xl.temp
    have tj : (d.load C0.bumpT).1.temp ≤ (logJump (d.load C0.bumpT).1.bumpL op C0.temp (d.load C0.bumpT).1.label).1.temp := xj.temp
    have hl := place hp hat7
    obtain ⟨e1, s1, ag1, k1, v1⟩ := sim_load (I := I) (σ := σ) w0' hd gl hat1 ag
    have sa := to_assign (I := I) (e := e1) (w := (readVar I x σ).2.world) hat2
    rw [v1] at sa
    obtain ⟨e2, s2, ag2, k2⟩ := sim_logJump (I := I) (env := set e1 C0.temp (readVar I x σ).1) (σ := (readVar I x σ).2)
      wj gj hat3 hl (ag1.set fr)
    rw [set_self] at s2 ag2
    have k1' : Keep μ C.temp env e1 := fun t ht hf => k1 t (show t < C0.temp + 1 by omega) hf
    have k2' : Keep μ C.temp env e2 := (k1'.set t0).trans k2 (show C.temp ≤ (d.load C0.bumpT).1.temp by omega)
    have hv2 : e2 C0.temp = (readVar I x σ).1 := (k2 _ (by exact tl) fr).trans set_self
    rw [ref]
    dsimp only
    generalize hg : goesOn I op (readVar I x σ).1 (readVar I x σ).2 = G at *
    split
    · rename_i hc
      rw [if_pos hc] at s2
      obtain ⟨e3, s3, ag3, k3, v3⟩ := (simE hp inj hnum e ho wr g h3 hat4 (by simp) ag2).value
      have sb := to_assign (I := I) (e := e3) (w := (value I (ref I num e G.2)).2.world) hat5
      obtain ⟨e4, s4, ag4, k4, f4⟩ := sim_store (T := C.temp) (I := I) inj hd hat6 (ag3.set (v := valOf I e3 a3) fr)
      rw [set_same] at s4 ag4
      rw [v3] at s4 ag4 sb k4 f4
      refine EndsV.plain ⟨e4, (s1.trans (sa.trans (s2.trans (s3.trans (sb.trans (s4.trans (to_label hat7))))))).cast ?_ rfl rfl,
        ag4, ?_, ?_⟩
      · simp; omega
      · exact ((k2'.trans k3 (by omega)).set t0).trans k4 (Nat.le_refl _)
      · exact (f4 _ fr).trans set_self
    · rename_i hc
      rw [if_neg hc] at s2
      refine EndsV.plain ⟨e2, (s1.trans (sa.trans (s2.trans (to_label hat7)))).cast ?_ rfl rfl, ag2, k2', hv2⟩
      simp; omega
  | .assignMember .plain o k e, ch, C, C', is, th, a, pc, env, σ, ho, w, g, h, hat, hch, ag => by
    simp only [compileR, Option.bind_eq_bind, Option.bind_eq_some_iff, Option.some.injEq, Prod.mk.injEq] at h
    obtain ⟨⟨C1, is1, th1, a1⟩, h1, ⟨C2, is2, th2, a2⟩, h2, ⟨C3, is3, th3, a3⟩, h3, rfl, rfl, rfl, rfl⟩ := h
    simp only [Expr.ordered, Bool.and_eq_true] at ho
    obtain ⟨⟨⟨⟨⟨ho1, ho2⟩, ho3⟩, ho4⟩, ho5⟩, ho6⟩ := ho
    split_at hat
    obtain ⟨⟨⟨hat1, hat2⟩, hat3⟩, hat4, hat5⟩ := hat
    have x1 := extE w h1
    have w1 := x1.wf w
    have x2 := extE w1 h2
    have w2 := x2.wf w1
    have wb : Wf C2.bumpT := (Ext.bumpT _).wf w2
    have x3 := extE wb h3
    have gb := g.back x3
    have g2 := gb.back (Ext.bumpT _)
    have g1 := g2.back x2
    have fr := gb.fresh w2
    have q1 : C.temp ≤ C1.temp := x1.temp
    have q2 : C1.temp ≤ C2.temp := x2.temp
    have q3 : C2.temp + 1 ≤ C3.temp := x3.temp
    obtain ⟨e1, s1, ag1, k1, v1⟩ := (simE hp inj hnum o ho1 w g1 h1 hat1 (by simp) ag).value
    obtain ⟨e2, s2, ag2, k2, v2⟩ := (simE hp inj hnum k ho2 w1 g2 h2 hat2 (by simp) ag1).value
    obtain ⟨e3, s3, ag3, k3, v3⟩ := (simE hp inj hnum e ho3 wb g h3 hat3 (by simp) ag2).value
    have ok1 := (argOk inj o w g1 h1).1
    have ok2 := (argOk inj k w1 g2 h2).1
    have va1 := ok1.keep (I := I) k2 (Nat.le_refl _) ag1 ag2 (spared_vars ho4 _)
    have va2 := ok1.keep (I := I) k3 (show C1.temp ≤ C2.temp + 1 by omega) ag2 ag3 (spared_vars ho5 _)
    have vb2 := ok2.keep (I := I) k3 (show C2.temp ≤ C2.temp + 1 by omega) ag2 ag3 (spared_vars ho6 _)
    have sa := to_assign (I := I) (e := e3) (w := (value I (ref I num e (value I (ref I num k (value I (ref I num o σ)).2)).2)).2.world) hat4
    have ks : Keep μ C2.temp e3 (set e3 C2.temp (valOf I e3 a3)) := Keep.refl.set (Nat.le_refl _)
    have ags := ag3.set (v := valOf I e3 a3) fr
    have va3 := ok1.keep (I := I) ks q2 ag3 ags (fun _ _ => rfl)
    have vb3 := ok2.keep (I := I) ks (Nat.le_refl _) ag3 ags (fun _ _ => rfl)
    have sp := to_prop (I := I) (e := set e3 C2.temp (valOf I e3 a3))
      (w := (value I (ref I num e (value I (ref I num k (value I (ref I num o σ)).2)).2)).2.world) hat5
    rw [va3, va2, va1, vb3, vb2, set_same, v1, v2, v3] at sp
    rw [v3] at sa ags
    rw [ref]
    refine EndsV.plain ⟨_, (s1.trans (s2.trans (s3.trans (sa.trans sp)))).cast (by simp; omega) rfl rfl, ags, ?_, set_self⟩
    exact ((k1.trans k2 q1).trans k3 (show C.temp ≤ C2.temp + 1 by omega)).set (by omega)
  | .assignMember (.arith op) o k e, ch, C, C', is, th, a, pc, env, σ, ho, w, g, h, hat, hch, ag => by
    simp only [compileR, Option.bind_eq_bind, Option.bind_eq_some_iff, Option.some.injEq, Prod.mk.injEq] at h
    obtain ⟨⟨C1, is1, th1, a1⟩, h1, ⟨C2, is2, th2, a2⟩, h2, ⟨C3, is3, th3, a3⟩, h3, rfl, rfl, rfl, rfl⟩ := h
    simp only [Expr.ordered, Bool.and_eq_true] at ho
    obtain ⟨⟨⟨ho1, ho2⟩, ho4⟩, hq⟩ := ho
    split_at hat
    obtain ⟨⟨⟨hat1, hat2⟩, hat3⟩, hat4, hat5, hat6⟩ := hat
    have x1 := extE w h1
    have w1 := x1.wf w
    have x2 := extE w1 h2
    have w2 := x2.wf w1
    have wb : Wf C2.bumpT := (Ext.bumpT _).wf w2
    have x3 := extE wb h3
    have w3 := x3.wf wb
    have g3 := g.back (Ext.bumpT _)
    have gb := g3.back x3
    have g2 := gb.back (Ext.bumpT _)
    have g1 := g2.back x2
    have fr := gb.fresh w2
    have fr3 := g.fresh w3
    have q1 : C.temp ≤ C1.temp := x1.temp
    have q2 : C1.temp ≤ C2.temp := x2.temp
    have q3 : C2.temp + 1 ≤ C3.temp := x3.temp
    obtain ⟨e1, s1, ag1, k1, v1⟩ := (simE hp inj hnum o ho1 w g1 h1 hat1 (by simp) ag).value
    obtain ⟨e2, s2, ag2, k2, v2⟩ := (simE hp inj hnum k ho2 w1 g2 h2 hat2 (by simp) ag1).value
    have ok1 := (argOk inj o w g1 h1).1
    have ok2 := (argOk inj k w1 g2 h2).1
    have va1 := ok1.keep (I := I) k2 (Nat.le_refl _) ag1 ag2 (spared_vars ho4 _)
    rw [ref]
    dsimp only
    generalize hA : value I (ref I num o σ) = A at *
    generalize hB : value I (ref I num k A.2) = B at *
    obtain ⟨hnil, hst, hval⟩ := sim_quiet (I := I) (num := num) hq wb g3 h3 (doOp I (.bin .getProp) [A.1, B.1] B.2).2
    subst hnil
    generalize hD : value I (ref I num e (doOp I (.bin .getProp) [A.1, B.1] B.2).2) = D at *
    have sg := to_bin (I := I) (e := e2) (w := B.2.world) hat4
    rw [va1, v1, v2] at sg
    have ag3 := ag2.set (v := (I.op (.bin .getProp) [A.1, B.1] B.2.world).1) fr3
    have ks : Keep μ C3.temp e2 (set e2 C3.temp (I.op (.bin .getProp) [A.1, B.1] B.2.world).1) := Keep.refl.set (Nat.le_refl _)
    have va2 := ok1.keep (I := I) ks (by omega) ag2 ag3 (fun _ _ => rfl)
    have vb2 := ok2.keep (I := I) ks (by omega) ag2 ag3 (fun _ _ => rfl)
    have vd := hval (doOp I (.bin .getProp) [A.1, B.1] B.2).2 _ ag3 rfl
    have sr := to_bin (I := I) (e := set e2 C3.temp (I.op (.bin .getProp) [A.1, B.1] B.2.world).1)
      (w := (I.op (.bin .getProp) [A.1, B.1] B.2.world).2) hat5
    rw [vd, show valOf I (set e2 C3.temp _) (.var C3.temp) = _ from set_self, ArithOp.assignIl_means] at sr
    have ag4 := ag3.set (v := (I.op (.bin op.means) [(I.op (.bin .getProp) [A.1, B.1] B.2.world).1, D.1]
      (I.op (.bin .getProp) [A.1, B.1] B.2.world).2).1) fr
    have ks' := Keep.refl (μ := μ) (T := C2.temp) (env := set e2 C3.temp (I.op (.bin .getProp) [A.1, B.1] B.2.world).1) |>.set
      (v := (I.op (.bin op.means) [(I.op (.bin .getProp) [A.1, B.1] B.2.world).1, D.1]
      (I.op (.bin .getProp) [A.1, B.1] B.2.world).2).1) (Nat.le_refl _)
    have va3 := ok1.keep (I := I) ks' (by omega) ag3 ag4 (fun _ _ => rfl)
    have vb3 := ok2.keep (I := I) ks' (by omega) ag3 ag4 (fun _ _ => rfl)
    have sp := to_prop (I := I) (e := set (set e2 C3.temp (I.op (.bin .getProp) [A.1, B.1] B.2.world).1) C2.temp
      (I.op (.bin op.means) [(I.op (.bin .getProp) [A.1, B.1] B.2.world).1, D.1]
      (I.op (.bin .getProp) [A.1, B.1] B.2.world).2).1)
      (w := (I.op (.bin op.means) [(I.op (.bin .getProp) [A.1, B.1] B.2.world).1, D.1]
      (I.op (.bin .getProp) [A.1, B.1] B.2.world).2).2) hat6
    rw [va3, va2, va1, vb3, vb2, v1, v2, show valOf I (set _ C2.temp _) (.var C2.temp) = _ from set_self] at sp
    rw [show D = (D.1, D.2) from rfl, hst]
    refine EndsV.plain ⟨_, (s1.trans (s2.trans (sg.trans (sr.trans sp)))).cast (by simp; omega) rfl rfl, ag4, ?_, set_self⟩
    exact ((k1.trans k2 q1).set (by omega)).set (by omega)
  | .assignMember (.log op) o k e, ch, C, C', is, th, a, pc, env, σ, ho, w, g, h, hat, hch, ag => by
    simp only [compileR, Option.bind_eq_bind, Option.bind_eq_some_iff, Option.some.injEq, Prod.mk.injEq] at h
    obtain ⟨⟨C1, is1, th1, a1⟩, h1, ⟨C2, is2, th2, a2⟩, h2, ⟨C4, is4, th4, a4⟩, h4, rfl, rfl, rfl, rfl⟩ := h
    simp only [Expr.ordered, Bool.and_eq_true] at ho
    obtain ⟨⟨⟨⟨⟨ho1, ho2⟩, ho3⟩, ho4⟩, ho5⟩, ho6⟩ := ho
    split_at hat
    obtain ⟨⟨⟨⟨⟨hat1, hat2⟩, hat3, hat4⟩, hat5⟩, hat6⟩, hat7, hat8, hat9⟩ := hat
    have x1 := extE w h1
    have w1 := x1.wf w
    have x2 := extE w1 h2
    have w2 := x2.wf w1
    have wb : Wf C2.bumpT := (Ext.bumpT _).wf w2
    have wbb : Wf C2.bumpT.bumpT := (Ext.bumpT _).wf wb
    have wj : Wf C2.bumpT.bumpT.bumpL := (Ext.bumpL _).wf wbb
    have xj : Ext C2.bumpT.bumpT.bumpL (logJump C2.bumpT.bumpT.bumpL op C2.temp C2.bumpT.bumpT.label).1 := ext_logJump
    have wr := xj.wf wj
    have x4 := extE wr h4
    have gj := g.back x4
    have gbb := (gj.back xj).back (Ext.bumpL _)
    have gb := gbb.back (Ext.bumpT _)
    have g2 := gb.back (Ext.bumpT _)
    have g1 := g2.back x2
    have fr : Fresh μ C2.temp := gb.fresh w2
    have fr2 : Fresh μ (C2.temp + 1) := gbb.fresh wb
    have q1 : C.temp ≤ C1.temp := x1.temp
    have q2 : C1.temp ≤ C2.temp := x2.temp
    have q3 : C2.temp + 2 ≤ (logJump C2.bumpT.bumpT.bumpL op C2.temp C2.bumpT.bumpT.label).1.temp := xj.temp
    have hl := place hp hat9
    obtain ⟨e1, s1, ag1, k1, v1⟩ := (simE hp inj hnum o ho1 w g1 h1 hat1 (by simp) ag).value
    obtain ⟨e2, s2, ag2, k2, v2⟩ := (simE hp inj hnum k ho2 w1 g2 h2 hat2 (by simp) ag1).value
    have ok1 := (argOk inj o w g1 h1).1
    have ok2 := (argOk inj k w1 g2 h2).1
    have va1 := ok1.keep (I := I) k2 (Nat.le_refl _) ag1 ag2 (spared_vars ho4 _)
    rw [ref]
    dsimp only
    generalize hA : value I (ref I num o σ) = A at *
    generalize hB : value I (ref I num k A.2) = B at *
    have sg := to_bin (I := I) (e := e2) (w := B.2.world) hat3
    rw [va1, v1, v2] at sg
    generalize hO : doOp I (.bin .getProp) [A.1, B.1] B.2 = O at *
    have hO1 : (I.op (.bin .getProp) [A.1, B.1] B.2.world).1 = O.1 := by rw [← hO]; rfl
    have hO2 : (I.op (.bin .getProp) [A.1, B.1] B.2.world).2 = O.2.world := by rw [← hO]; rfl
    have hO3 : B.2.vars = O.2.vars := by rw [← hO]; rfl
    rw [hO1, hO2] at sg
    rw [hO3] at ag2
    have sa := to_assign (I := I) (e := set e2 (C2.temp + 1) O.1) (w := O.2.world) hat4
    rw [show valOf I (set e2 (C2.temp + 1) O.1) (.var C2.bumpT.temp) = _ from set_self] at sa
    have ag3 := (ag2.set (v := O.1) fr2).set (v := O.1) fr
    have kk : Keep μ C2.temp e2 (set (set e2 (C2.temp + 1) O.1) C2.temp O.1) :=
      (Keep.refl.set (Nat.le_succ _)).set (Nat.le_refl _)
    obtain ⟨e4, s4, ag4, k4⟩ := sim_logJump (I := I) (env := set (set e2 (C2.temp + 1) O.1) C2.temp O.1) (σ := O.2)
      wj gj hat5 hl ag3
    rw [set_self] at s4 ag4
    have k4' : Keep μ C2.temp e2 e4 := kk.trans k4 (show C2.temp ≤ C2.temp + 2 by omega)
    have kall : Keep μ C.temp env e4 := (k1.trans k2 q1).trans k4' (by omega)
    have hv4 : e4 C2.temp = O.1 := (k4 _ (show C2.temp < C2.temp + 2 by omega) fr).trans set_self
    have hgv : (goesOn I op O.1 O.2).2.vars = O.2.vars := vars_goesOn
    generalize hg : goesOn I op O.1 O.2 = G at *
    split
    · rename_i hc
      rw [if_pos hc] at s4
      obtain ⟨e5, s5, ag5, k5, v5⟩ := (simE hp inj hnum e ho3 wr g h4 hat6 (by simp) ag4).value
      have va4 := ok1.keep (I := I) k4' q2 ag2 ag4 (fun x _ => by rw [hgv])
      have vb4 := ok2.keep (I := I) k4' (Nat.le_refl _) ag2 ag4 (fun x _ => by rw [hgv])
      have va5 := ok1.keep (I := I) k5 (by omega) ag4 ag5 (spared_vars ho5 _)
      have vb5 := ok2.keep (I := I) k5 (by omega) ag4 ag5 (spared_vars ho6 _)
      have sb := to_assign (I := I) (e := e5) (w := (value I (ref I num e G.2)).2.world) hat7
      have ags := ag5.set (v := valOf I e5 a4) fr
      have ks : Keep μ C2.temp e5 (set e5 C2.temp (valOf I e5 a4)) := Keep.refl.set (Nat.le_refl _)
      have va6 := ok1.keep (I := I) ks q2 ag5 ags (fun _ _ => rfl)
      have vb6 := ok2.keep (I := I) ks (Nat.le_refl _) ag5 ags (fun _ _ => rfl)
      have sp := to_prop (I := I) (e := set e5 C2.temp (valOf I e5 a4)) (w := (value I (ref I num e G.2)).2.world) hat8
      rw [va6, va5, va4, va1, vb6, vb5, vb4, set_same, v1, v2, v5] at sp
      rw [v5] at sb ags
      refine EndsV.plain ⟨_, (s1.trans (s2.trans (sg.trans (sa.trans (s4.trans (s5.trans (sb.trans (sp.trans
        (to_label hat9))))))))).cast ?_ rfl rfl, ags, ?_, set_self⟩
      · simp; omega
      · exact (kall.trans k5 (by omega)).set (by omega)
    · rename_i hc
      rw [if_neg hc] at s4
      refine EndsV.plain ⟨e4, (s1.trans (s2.trans (sg.trans (sa.trans (s4.trans (to_label hat9)))))).cast ?_ rfl rfl,
        ag4, kall, hv4⟩
      simp; omega
  | .member o k opt, ch, C, C', is, th, a, pc, env, σ, ho, w, g, h, hat, hch, ag => by
    simp only [compileR, Option.bind_eq_bind, Option.bind_eq_some_iff, Option.some.injEq, Prod.mk.injEq] at h
    obtain ⟨⟨C1, is1, th1, a1⟩, h1, ⟨C3, is3, th3, a3⟩, h3, rfl, rfl, rfl, rfl⟩ := h
    simp only [Expr.ordered, Bool.and_eq_true] at ho
    split_at hat
    obtain ⟨⟨⟨⟨hat1, hat2⟩, hat3⟩, hat4⟩, hat5⟩ := hat
    have x0 : Ext C (setupChain C ch).1 := setup_ext (A := C) (chain := ch) rfl
    have w0 := x0.wf w
    have x1 := extE w0 h1
    have w1 := x1.wf w0
    have xj : Ext C1 (chainJump C1 opt a1 (setupChain C ch).2.2).1 := ext_chainJump
    have wj := xj.wf w1
    have wb := (Ext.bumpT _).wf wj
    have x3 := extE wb h3
    have g3 := g.back ext_complete
    have gb := g3.back x3
    have gj := gb.back (Ext.bumpT _)
    have g1 := gj.back xj
    have fr := gb.fresh wj
    have q0 := x0.temp
    have q1 : (setupChain C ch).1.temp ≤ C1.temp := x1.temp
    have q2 : C1.temp ≤ (chainJump C1 opt a1 (setupChain C ch).2.2).1.temp := xj.temp
    have q3 : (chainJump C1 opt a1 (setupChain C ch).2.2).1.temp + 1 ≤ C3.temp := x3.temp
    have qq := Nat.le_trans q0 (Nat.le_trans q1 q2)
    obtain ⟨p, hl⟩ := chain_is hp hch hat5
    rw [show ∀ x y : List Inst, pc + (x ++ y).length = pc + x.length + y.length by simp [Nat.add_assoc]]
    refine Ends.complete hp qq fr ?_ ?_
    · have : pc + (is1 ++ (chainJump C1 opt a1 (setupChain C ch).2.2).2 ++ is3 ++
        [Inst.bin (chainJump C1 opt a1 (setupChain C ch).2.2).1.temp a1 .getProp a3]).length =
        pc + is1.length + (chainJump C1 opt a1 (setupChain C ch).2.2).2.length + is3.length + 1 := by simp; omega
      rw [this]
      exact hat5
    obtain ⟨e1, pc1, s1, ag1, k1, hr⟩ := simE hp inj hnum o ho.1.1 w0 g1 h1 hat1 (fun l hl' => by
      cases hl'
      exact ⟨p, hl⟩) ag
    rw [ref]
    generalize ref I num o σ = R at *
    obtain ⟨R, s⟩ := R
    have k1' : Keep μ C.temp env e1 := fun t ht hf => k1 t (by omega) hf
    cases R with
    | none => exact ⟨e1, pc1, s1, ag1, k1', hr⟩
    | some q =>
      obtain ⟨tv, va⟩ := q
      obtain ⟨rfl, v1, -⟩ := hr
      dsimp only at s1 ag1 ⊢
      obtain ⟨e2, s2, ag2, k2⟩ := sim_chainJump (I := I) (σ := s) w1 gj hat2 hl ag1
      rw [v1] at s2 ag2
      have hnv := vars_opt (I := I) (opt := opt) (v := va) (s := s)
      generalize (if opt = true then nullish I va s else (false, s)) = N at *
      split
      · rename_i hc
        rw [if_pos hc] at s2
        exact ⟨e2, p, s1.trans s2, ag2, k1'.trans k2 (by omega), hl⟩
      · rename_i hc
        rw [if_neg hc] at s2
        obtain ⟨e3, s3, ag3, k3, v3⟩ := (simE hp inj hnum k ho.1.2 wb g3 h3 hat3 (by simp) ag2).value
        have ok1 := (argOk inj o w0 g1 h1).1
        have va2 := ok1.keep (I := I) k2 (Nat.le_refl _) ag1 ag2 (fun x _ => by rw [hnv])
        have va3 := ok1.keep (I := I) k3 (Nat.le_succ_of_le q2) ag2 ag3 (spared_vars ho.2 _)
        have sb := to_bin (I := I) (e := e3) (w := (value I (ref I num k N.2)).2.world) hat4
        have ag4 := ag3.set (v := (I.op (.bin .getProp) [va, (value I (ref I num k N.2)).1] (value I (ref I num k N.2)).2.world).1) fr
        have ks : Keep μ C1.temp e3 (set e3 (chainJump C1 opt a1 (setupChain C ch).2.2).1.temp
          (I.op (.bin .getProp) [va, (value I (ref I num k N.2)).1] (value I (ref I num k N.2)).2.world).1) := Keep.refl.set q2
        have va4 := ok1.keep (I := I) ks (Nat.le_refl _) ag3 ag4 (fun _ _ => rfl)
        rw [va3, va2, v1, v3] at sb
        refine ⟨_, _, s1.trans (s2.trans (s3.trans sb)), ag4, ?_, ?_, set_self, ?_⟩
        · exact ((k1'.trans k2 (by omega)).trans k3 (by show C.temp ≤ _ + 1; omega)).set (by omega)
        · simp; omega
        · rw [va4, va3, va2, v1]
  | .call c as opt, ch, C, C', is, th, a, pc, env, σ, ho, w, g, h, hat, hch, ag => by
    simp only [compileR] at h
    split at h
    · simp at h
    simp only [Option.bind_eq_bind, Option.bind_eq_some_iff, Option.some.injEq, Prod.mk.injEq] at h
    obtain ⟨⟨C1, is1, th1, a1⟩, h1, ⟨C3, is3, bs⟩, h3, rfl, rfl, rfl, rfl⟩ := h
    simp only [Expr.ordered, Bool.and_eq_true] at ho
    split_at hat
    obtain ⟨⟨⟨⟨hat1, hat2⟩, hat3⟩, hat4⟩, hat5⟩ := hat
    have x0 : Ext C (setupChain C ch).1 := setup_ext (A := C) (chain := ch) rfl
    have w0 := x0.wf w
    have x1 := extE w0 h1
    have w1 := x1.wf w0
    have wb : Wf C1.bumpT := (Ext.bumpT _).wf w1
    have xj : Ext C1.bumpT (chainJump C1.bumpT opt a1 (setupChain C ch).2.2).1 := ext_chainJump
    have wj := xj.wf wb
    have x3 := extA wj h3
    have g3 := g.back ext_complete
    have gj := g3.back x3
    have gb := gj.back xj
    have g1 := gb.back (Ext.bumpT _)
    have fr := gb.fresh w1
    have q0 := x0.temp
    have q1 : (setupChain C ch).1.temp ≤ C1.temp := x1.temp
    have q2 : C1.temp + 1 ≤ (chainJump C1.bumpT opt a1 (setupChain C ch).2.2).1.temp := xj.temp
    obtain ⟨p, hl⟩ := chain_is hp hch hat5
    rw [show ∀ x y : List Inst, pc + (x ++ y).length = pc + x.length + y.length by simp [Nat.add_assoc]]
    refine Ends.complete hp (Nat.le_trans q0 q1) fr ?_ ?_
    · have : pc + (is1 ++ (chainJump C1.bumpT opt a1 (setupChain C ch).2.2).2 ++ is3 ++
        [Inst.call (some C1.temp) a1 th1 bs (spreadsFrom 2 as)]).length =
        pc + is1.length + (chainJump C1.bumpT opt a1 (setupChain C ch).2.2).2.length + is3.length + 1 := by simp; omega
      rw [this]
      exact hat5
    obtain ⟨e1, pc1, s1, ag1, k1, hr⟩ := simE hp inj hnum c ho.1.1.1 w0 g1 h1 hat1 (fun l hl' => by
      cases hl'
      exact ⟨p, hl⟩) ag
    rw [ref]
    generalize ref I num c σ = R at *
    obtain ⟨R, s⟩ := R
    have k1' : Keep μ C.temp env e1 := fun t ht hf => k1 t (by omega) hf
    cases R with
    | none => exact ⟨e1, pc1, s1, ag1, k1', hr⟩
    | some q =>
      obtain ⟨tv, va⟩ := q
      obtain ⟨rfl, v1, vt⟩ := hr
      dsimp only at s1 ag1 ⊢
      obtain ⟨e2, s2, ag2, k2⟩ := sim_chainJump (I := I) (σ := s) wb gj hat2 hl ag1
      rw [v1] at s2 ag2
      have hnv := vars_opt (I := I) (opt := opt) (v := va) (s := s)
      generalize (if opt = true then nullish I va s else (false, s)) = N at *
      split
      · rename_i hc
        rw [if_pos hc] at s2
        exact ⟨e2, p, s1.trans s2, ag2, k1'.trans k2 (by show C.temp ≤ C1.temp + 1; omega), hl⟩
      · rename_i hc
        rw [if_neg hc] at s2
        obtain ⟨e3, s3, ag3, k3, v3⟩ := simA hp inj hnum as ho.1.1.2 wj g3 h3 hat3 ag2
        obtain ⟨ok1, okt⟩ := argOk inj c w0 g1 h1
        have va2 := ok1.keep (I := I) k2 (Nat.le_succ _) ag1 ag2 (fun x _ => by rw [hnv])
        have vt2 := okt.keep (I := I) k2 (Nat.le_succ _) ag1 ag2 (fun x _ => by rw [hnv])
        have va3 := ok1.keep (I := I) k3 (by omega) ag2 ag3 (spared_args ho.1.2 _)
        have vt3 := okt.keep (I := I) k3 (by omega) ag2 ag3 (spared_args ho.2 _)
        have sb := to_call (I := I) (e := e3) (w := (argVals I num as N.2).2.world) hat4
        rw [va3, va2, v1, v3, vt3, vt2, vt, spreadsFrom_eq] at sb
        refine ⟨_, _, s1.trans (s2.trans (s3.trans sb)), ag3.set fr, ?_, ?_, set_self, rfl⟩
        · exact ((k1'.trans k2 (by show C.temp ≤ C1.temp + 1; omega)).trans k3 (by omega)).set (by omega)
        · simp; omega
  | .new c as, ch, C, C', is, th, a, pc, env, σ, ho, w, g, h, hat, hch, ag => by
    simp only [compileR, Option.bind_eq_bind, Option.bind_eq_some_iff, Option.some.injEq, Prod.mk.injEq] at h
    obtain ⟨⟨C1, is1, th1, a1⟩, h1, ⟨C3, is3, bs⟩, h3, rfl, rfl, rfl, rfl⟩ := h
    simp only [Expr.ordered, Bool.and_eq_true] at ho
    split_at hat
    obtain ⟨⟨⟨hat1, hat3⟩, hat4⟩, hat5⟩ := hat
    have x0 : Ext C (setupChain C ch).1 := setup_ext (A := C) (chain := ch) rfl
    have w0 := x0.wf w
    have x1 := extE w0 h1
    have w1 := x1.wf w0
    have wb : Wf C1.bumpT := (Ext.bumpT _).wf w1
    have x3 := extA wb h3
    have g3 := g.back ext_complete
    have gb := g3.back x3
    have g1 := gb.back (Ext.bumpT _)
    have fr := gb.fresh w1
    have q0 := x0.temp
    have q1 : (setupChain C ch).1.temp ≤ C1.temp := x1.temp
    rw [show ∀ x y : List Inst, pc + (x ++ y).length = pc + x.length + y.length by simp [Nat.add_assoc]]
    refine Ends.complete hp (Nat.le_trans q0 q1) fr ?_ ?_
    · have : pc + (is1 ++ is3 ++ [Inst.call (some C1.temp) (.builtin newCallee) a1 bs (spreadsFrom 2 as)]).length =
        pc + is1.length + is3.length + 1 := by simp; omega
      rw [this]
      exact hat5
    obtain ⟨e1, s1, ag1, k1, v1⟩ := (simE hp inj hnum c ho.1.1 w0 g1 h1 hat1 (by simp) ag).value
    have k1' : Keep μ C.temp env e1 := fun t ht hf => k1 t (by omega) hf
    obtain ⟨e3, s3, ag3, k3, v3⟩ := simA hp inj hnum as ho.1.2 wb g3 h3 hat3 ag1
    have va3 := (argOk inj c w0 g1 h1).1.keep (I := I) k3 (Nat.le_succ _) ag1 ag3 (spared_args ho.2 _)
    have sb := to_call (I := I) (e := e3) (w := (argVals I num as (value I (ref I num c σ)).2).2.world) hat4
    rw [va3, v1, v3, spreadsFrom_eq] at sb
    rw [ref]
    refine EndsV.plain ⟨_, (s1.trans (s3.trans sb)).cast ?_ rfl rfl, ag3.set fr, ?_, set_self⟩
    · simp; omega
    · exact (k1'.trans k3 (show C.temp ≤ C1.temp + 1 by omega)).set (by omega)
  | .internal n as, ch, C, C', is, th, a, pc, env, σ, ho, w, g, h, hat, hch, ag => by
    simp only [compileR, Option.bind_eq_bind, Option.bind_eq_some_iff, Option.some.injEq, Prod.mk.injEq] at h
    obtain ⟨⟨C3, is3, bs⟩, h3, rfl, rfl, rfl, rfl⟩ := h
    simp only [Expr.ordered] at ho
    split_at hat
    have x3 := extA w h3
    obtain ⟨e3, s3, ag3, k3, v3⟩ := simA hp inj hnum as ho w (g.back (Ext.bumpT _)) h3 hat.1 ag
    have sb := to_call (I := I) (e := e3) (w := (argVals I num as σ).2.world) hat.2
    rw [v3, spreadsFrom_eq] at sb
    rw [ref]
    refine EndsV.plain ⟨_, (s3.trans sb).cast ?_ rfl rfl, ag3.set (g.fresh (x3.wf w)), k3.set x3.temp, set_self⟩
    simp; omega

theorem simA (hp : Placed code) (inj : Inj μ) (hnum : upd = true → ∀ v w, num v w = (v, w)) :
    ∀ (as : Args) {C C' : S} {is : List Inst} {bs : List Arg} {pc : Nat} {env : Nat → V} {σ : St V W},
    as.ordered upd = true → Wf C → Good μ C' → compileArgs as C = some (C', is, bs) → At code pc is →
    Agree μ σ.vars env →
    ∃ env', To I code ⟨pc, env, σ.world⟩ ⟨pc + is.length, env', (argVals I num as σ).2.world⟩ ∧
      Agree μ (argVals I num as σ).2.vars env' ∧ Keep μ C.temp env env' ∧
      bs.map (valOf I env') = (argVals I num as σ).1
  | .nil, C, C', is, bs, pc, env, σ, ho, w, g, h, hat, ag => by
    simp only [compileArgs, Option.some.injEq, Prod.mk.injEq] at h
    obtain ⟨rfl, rfl, rfl⟩ := h
    exact ⟨env, .refl, ag, .refl, rfl⟩
  | .cons sp e rest, C, C', is, bs, pc, env, σ, ho, w, g, h, hat, ag => by
    simp only [compileArgs, Option.bind_eq_bind, Option.bind_eq_some_iff, Option.some.injEq, Prod.mk.injEq] at h
    obtain ⟨⟨C1, is1, th1, a1⟩, h1, ⟨C2, is2, bs2⟩, h2, rfl, rfl, rfl⟩ := h
    simp only [Args.ordered, Bool.and_eq_true] at ho
    split_at hat
    have x1 := extE w h1
    have w1 := x1.wf w
    have g1 := g.back (extA w1 h2)
    obtain ⟨e1, s1, ag1, k1, v1⟩ := (simE hp inj hnum e ho.1.1 w g1 h1 hat.1 (by simp) ag).value
    obtain ⟨e2, s2, ag2, k2, v2⟩ := simA hp inj hnum rest ho.1.2 w1 g h2 hat.2 ag1
    have va := (argOk inj e w g1 h1).1.keep (I := I) k2 (Nat.le_refl _) ag1 ag2 (spared_args ho.2 _)
    refine ⟨e2, (s1.trans s2).cast (by simp; omega) rfl rfl, ag2, k1.trans k2 x1.temp, ?_⟩
    simp only [List.map_cons, argVals, va, v1, v2]
end

end

end Verif.Lower
