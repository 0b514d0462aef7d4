import Verif.Lower.Sim
/-!
# Where the value of an expression is found
-/

namespace Verif.Lower

open Verif.Il Verif.Lin Verif.Opt

variable {μ : Nat → Option Nat}

theorem extE {e : Expr} {ch : Option Nat} {C C' : S} {is : List Inst} {th a : Arg} (w : Wf C)
    (h : compileR e ch C = some (C', is, th, a)) : Ext C C' :=
  (partE e ch.toList w (by simp) h).1.ext

theorem extA {as : Args} {C C' : S} {is : List Inst} {bs : List Arg} (w : Wf C)
    (h : compileArgs as C = some (C', is, bs)) : Ext C C' :=
  (partA as [] w h).1.ext

theorem bOfPart {e : Expr} {ch : Option Nat} {C C' : S} {is : List Inst} {th a : Arg} (w : Wf C)
    (h : compileR e ch C = some (C', is, th, a)) : ArgB C'.temp th ∧ ArgB C'.temp a :=
  (partE e ch.toList w (by simp) h).2

theorem ArgOk.ofB {T : Nat} {late : Option Nat} {a : Arg} (h : ArgB T a)
    (h' : ∀ t x, a = .var t → μ x = some t → late = some x) : ArgOk μ T late a := by
  intro t e
  subst e
  exact ⟨h t rfl, fun x hx => h' t x rfl hx⟩

theorem argOk (inj : Inj μ) : ∀ (e : Expr) {ch : Option Nat} {C C' : S} {is : List Inst} {th a : Arg}, Wf C → Good μ C' →
    compileR e ch C = some (C', is, th, a) → ArgOk μ C'.temp e.late a ∧ ArgOk μ C'.temp e.lateThis th := by
  intro e
  induction e using Expr.rec (motive_2 := fun _ => True) with
  | nil => trivial
  | cons => trivial
  | lit c =>
    intro ch C C' is th a w g h
    simp only [compileR, Option.some.injEq, Prod.mk.injEq] at h
    obtain ⟨rfl, rfl, rfl, rfl⟩ := h
    exact ⟨fun t e => by simp at e, .undef⟩
  | builtin c =>
    intro ch C C' is th a w g h
    simp only [compileR, Option.some.injEq, Prod.mk.injEq] at h
    obtain ⟨rfl, rfl, rfl, rfl⟩ := h
    exact ⟨fun t e => by simp at e, .undef⟩
  | fn c =>
    intro ch C C' is th a w g h
    simp only [compileR, Option.some.injEq, Prod.mk.injEq] at h
    obtain ⟨rfl, rfl, rfl, rfl⟩ := h
    exact ⟨fun t e => by simp at e, .undef⟩
  | ident x =>
    intro ch C C' is th a w g h
    simp only [compileR, Option.some.injEq, Prod.mk.injEq] at h
    obtain ⟨rfl, rfl, rfl, rfl⟩ := h
    refine ⟨?_, .undef⟩
    cases x with
    | «local» s =>
      simp only [compileId] at g ⊢
      obtain ⟨h1, h2, h3, h4⟩ := symTemp_ok rfl w (s := s)
      intro t e
      cases e
      exact ⟨h3, fun y hy => by rw [inj y s _ hy (g.1 s _ h4)]; rfl⟩
    | builtin n => exact fun t e => by simp [compileId] at e
    | foreign s => exact .fresh (Nat.lt_succ_self _) (g.fresh w)
    | unknown s => exact .fresh (Nat.lt_succ_self _) (g.fresh w)
  | unary op e ih =>
    intro ch C C' is th a w g h
    simp only [compileR] at h
    split at h
    · simp only [Option.some.injEq, Prod.mk.injEq] at h
      obtain ⟨rfl, rfl, rfl, rfl⟩ := h
      exact ⟨.fresh (Nat.lt_succ_self _) (g.fresh w), .undef⟩
    · simp only [Option.bind_eq_bind, Option.bind_eq_some_iff, Option.some.injEq, Prod.mk.injEq] at h
      obtain ⟨⟨C1, is1, th1, a1⟩, h1, rfl, rfl, rfl, rfl⟩ := h
      exact ⟨.fresh (Nat.lt_succ_self _) (g.fresh ((extE w h1).wf w)), .undef⟩
  | arith op l r ihl ihr =>
    intro ch C C' is th a w g h
    simp only [compileR, Option.bind_eq_bind, Option.bind_eq_some_iff, Option.some.injEq, Prod.mk.injEq] at h
    obtain ⟨⟨C1, is1, th1, a1⟩, h1, ⟨C2, is2, th2, a2⟩, h2, rfl, rfl, rfl, rfl⟩ := h
    have w1 := (extE w h1).wf w
    exact ⟨.fresh (Nat.lt_succ_self _) (g.fresh ((extE w1 h2).wf w1)), .undef⟩
  | cmp op l r ihl ihr =>
    intro ch C C' is th a w g h
    simp only [compileR, Option.bind_eq_bind, Option.bind_eq_some_iff, Option.some.injEq, Prod.mk.injEq] at h
    obtain ⟨o, ho, ⟨C1, is1, th1, a1⟩, h1, ⟨C2, is2, th2, a2⟩, h2, rfl, rfl, rfl, rfl⟩ := h
    have w1 := (extE w h1).wf w
    exact ⟨.fresh (Nat.lt_succ_self _) (g.fresh ((extE w1 h2).wf w1)), .undef⟩
  | log op l r ihl ihr =>
    intro ch C C' is th a w g h
    simp only [compileR, Option.bind_eq_bind, Option.bind_eq_some_iff] at h
    obtain ⟨⟨C1, is1, th1, a1⟩, h1, h⟩ := h
    have w0 : Wf C.bumpL.bumpT := ((Ext.bumpL _).trans (Ext.bumpT _)).wf w
    have x1 := extE w0 h1
    have fin : ∀ {C2 : S}, Ext C1 C2 → Good μ C2 → ArgOk μ C2.temp none (.var C.temp) := by
      intro C2 x2 g2
      refine .fresh ?_ (Good.fresh (C := C.bumpL) (g2.back (x1.trans x2)) w)
      have : C.temp + 1 ≤ C2.temp := (x1.trans x2).temp
      omega
    cases op <;> simp only [Option.bind_eq_some_iff, Option.some.injEq, Prod.mk.injEq] at h <;>
      obtain ⟨⟨C2, is2, th2, a2⟩, h2, rfl, rfl, rfl, rfl⟩ := h
    · exact ⟨fin (extE (x1.wf w0) h2) g, .undef⟩
    · exact ⟨fin (extE (x1.wf w0) h2) g, .undef⟩
    · exact ⟨fin ((Ext.bumpT _).trans (extE ((Ext.bumpT _).wf (x1.wf w0)) h2)) g, .undef⟩
  | comma l r ihl ihr =>
    intro ch C C' is th a w g h
    simp only [compileR, Option.bind_eq_bind, Option.bind_eq_some_iff, Option.some.injEq, Prod.mk.injEq] at h
    obtain ⟨⟨C1, is1, th1, a1⟩, h1, ⟨C2, is2, th2, a2⟩, h2, rfl, rfl, rfl, rfl⟩ := h
    exact ⟨(ihr ((extE w h1).wf w) g h2).1, .undef⟩
  | cond c t f ihc iht ihf =>
    intro ch C C' is th a w g h
    simp only [compileR, Option.bind_eq_bind, Option.bind_eq_some_iff, Option.some.injEq, Prod.mk.injEq] at h
    obtain ⟨⟨C1, is1, th1, a1⟩, h1, ⟨C2, is2, th2, a2⟩, h2, ⟨C3, is3, th3, a3⟩, h3, rfl, rfl, rfl, rfl⟩ := h
    have w1 := (extE w h1).wf w
    have xb : Ext C1.bumpT C1.bumpT.bumpL.bumpL := (Ext.bumpL _).trans (Ext.bumpL _)
    have wb := xb.wf ((Ext.bumpT _).wf w1)
    have x2 := extE wb h2
    have x3 := extE (x2.wf wb) h3
    have x := xb.trans (x2.trans x3)
    have : C1.temp + 1 ≤ C3.temp := x.temp
    exact ⟨.fresh this ((g.back x).fresh w1), .undef⟩
  | update inc pre e ih =>
    intro ch C C' is th a w g h
    simp only [compileR, Option.bind_eq_bind, Option.bind_eq_some_iff] at h
    obtain ⟨⟨C1, is1, th1, a1⟩, h1, v, hv, h⟩ := h
    dsimp only at h
    split at h <;> simp only [Option.some.injEq, Prod.mk.injEq] at h <;> obtain ⟨rfl, rfl, rfl, rfl⟩ := h
    · rename_i hp
      subst hp
      exact ⟨(ih w g h1).1, .undef⟩
    · exact ⟨.fresh (Nat.lt_succ_self _) (g.fresh ((extE w h1).wf w)), .undef⟩
  | assign op x e ih =>
    intro ch C C' is th a w g h
    have hx := extE w h
    have hb := bOfPart w h
    simp only [compileR, Option.bind_eq_bind, Option.bind_eq_some_iff] at h
    obtain ⟨⟨C0, d⟩, h0, h⟩ := h
    obtain ⟨e0, l0, hd⟩ := dest_ok h0 w
    have w0 := e0.wf w
    have w1 : Wf C0.bumpT := (Ext.bumpT _).wf w0
    have fin : ∀ {C2 : S}, Ext C0.bumpT C2 → Good μ C2 → ArgOk μ C2.temp none (.var C0.temp) := by
      intro C2 x2 g2
      refine .fresh ?_ ((g2.back x2).fresh w0)
      have : C0.temp + 1 ≤ C2.temp := x2.temp
      omega
    cases op with
    | plain =>
      simp only [Option.bind_eq_some_iff, Option.some.injEq, Prod.mk.injEq] at h
      obtain ⟨⟨C1, is1, th1, a1⟩, h1, rfl, rfl, rfl, rfl⟩ := h
      exact ⟨fin (extE w1 h1) g, .undef⟩
    | arith op =>
      simp only [Option.bind_eq_some_iff, Option.some.injEq, Prod.mk.injEq] at h
      obtain ⟨⟨C1, is1, th1, a1⟩, h1, rfl, rfl, rfl, rfl⟩ := h
      have x1 := extE w1 h1
      refine ⟨fin (x1.trans ?_) g, .undef⟩
      cases d
      · exact .refl _
      · exact .bumpT _
      · exact .bumpT _
    | log op =>
      simp only [Option.bind_eq_some_iff, Option.some.injEq, Prod.mk.injEq] at h
      obtain ⟨⟨C3, is3, th3, a3⟩, h3, rfl, rfl, rfl, rfl⟩ := h
      have xl : Ext C0.bumpT (d.load C0.bumpT).1 := by
        cases d
        · exact .refl _
        · exact .bumpT _
        · exact .bumpT _
      have xj : Ext (d.load C0.bumpT).1 (logJump (d.load C0.bumpT).1.bumpL op C0.temp (d.load C0.bumpT).1.label).1 := by
        cases op
        · exact .bumpL _
        · exact .bumpL _
        · exact (Ext.bumpL _).trans (.bumpT _)
      have x := xl.trans xj
      exact ⟨fin (x.trans (extE (x.wf w1) h3)) g, .undef⟩
  | assignMember op o k e iho ihk ihe =>
    intro ch C C' is th a w g h
    simp only [compileR, Option.bind_eq_bind, Option.bind_eq_some_iff] at h
    obtain ⟨⟨C1, is1, th1, a1⟩, h1, ⟨C2, is2, th2, a2⟩, h2, h⟩ := h
    have w1 := (extE w h1).wf w
    have w2 := (extE w1 h2).wf w1
    have w3 : Wf C2.bumpT := (Ext.bumpT _).wf w2
    have fin : ∀ {C3 : S}, Ext C2.bumpT C3 → Good μ C3 → ArgOk μ C3.temp none (.var C2.temp) := by
      intro C2 x2 g2
      refine .fresh ?_ ((g2.back x2).fresh w2)
      exact x2.temp
    cases op with
    | plain =>
      simp only [Option.bind_eq_some_iff, Option.some.injEq, Prod.mk.injEq] at h
      obtain ⟨⟨C3, is3, th3, a3⟩, h3, rfl, rfl, rfl, rfl⟩ := h
      exact ⟨fin (extE w3 h3) g, .undef⟩
    | arith op =>
      simp only [Option.bind_eq_some_iff, Option.some.injEq, Prod.mk.injEq] at h
      obtain ⟨⟨C3, is3, th3, a3⟩, h3, rfl, rfl, rfl, rfl⟩ := h
      exact ⟨fin ((extE w3 h3).trans (.bumpT _)) g, .undef⟩
    | log op =>
      simp only [Option.bind_eq_some_iff, Option.some.injEq, Prod.mk.injEq] at h
      obtain ⟨⟨C4, is4, th4, a4⟩, h4, rfl, rfl, rfl, rfl⟩ := h
      have x : Ext C2.bumpT (logJump C2.bumpT.bumpT.bumpL op C2.temp C2.bumpT.bumpT.label).1 := by
        cases op
        · exact (Ext.bumpT _).trans (.bumpL _)
        · exact (Ext.bumpT _).trans (.bumpL _)
        · exact (Ext.bumpT _).trans ((Ext.bumpL _).trans (.bumpT _))
      exact ⟨fin (x.trans (extE (x.wf w3) h4)) g, .undef⟩
  | member o k opt iho ihk =>
    intro ch C C' is th a w g h
    simp only [compileR, Option.bind_eq_bind, Option.bind_eq_some_iff, Option.some.injEq, Prod.mk.injEq] at h
    obtain ⟨⟨C1, is1, th1, a1⟩, h1, ⟨C3, is3, th3, a3⟩, h3, rfl, rfl, rfl, rfl⟩ := h
    have w0 := (setup_ext (A := C) (chain := ch) rfl).wf w
    have x1 := extE w0 h1
    have w1 := x1.wf w0
    have xj : Ext C1 (chainJump C1 opt a1 (setupChain C ch).2.2).1 := by
      unfold chainJump
      split
      · exact .bumpT _
      · exact .refl _
    have w2 := xj.wf w1
    have x3 := extE ((Ext.bumpT _).wf w2) h3
    have xc : Ext C3 (completeChain C3 (setupChain C ch).2.1 (chainJump C1 opt a1 (setupChain C ch).2.2).1.temp
        (setupChain C ch).2.2).1 := by
      unfold completeChain
      split
      · exact .bumpL _
      · exact .refl _
    have x := x3.trans xc
    refine ⟨.fresh ?_ ((g.back x).fresh w2), ?_⟩
    · exact x.temp
    · have x' := xj.trans ((Ext.bumpT _).trans x)
      exact (iho w0 (g.back x') h1).1.mono x'.temp
  | call c as opt ihc iha =>
    intro ch C C' is th a w g h
    simp only [compileR] at h
    split at h
    · simp at h
    · simp only [Option.bind_eq_bind, Option.bind_eq_some_iff, Option.some.injEq, Prod.mk.injEq] at h
      obtain ⟨⟨C1, is1, th1, a1⟩, h1, ⟨C3, is3, bs⟩, h3, rfl, rfl, rfl, rfl⟩ := h
      have w0 := (setup_ext (A := C) (chain := ch) rfl).wf w
      have x1 := extE w0 h1
      have w1 := x1.wf w0
      have xj : Ext C1.bumpT (chainJump C1.bumpT opt a1 (setupChain C ch).2.2).1 := by
        unfold chainJump
        split
        · exact .bumpT _
        · exact .refl _
      have w2 := xj.wf ((Ext.bumpT _).wf w1)
      have x3 := extA w2 h3
      have xc : Ext C3 (completeChain C3 (setupChain C ch).2.1 C1.temp (setupChain C ch).2.2).1 := by
        unfold completeChain
        split
        · exact .bumpL _
        · exact .refl _
      have x := xj.trans (x3.trans xc)
      exact ⟨.fresh x.temp ((g.back x).fresh w1), .undef⟩
  | new c as ihc iha =>
    intro ch C C' is th a w g h
    simp only [compileR, Option.bind_eq_bind, Option.bind_eq_some_iff, Option.some.injEq, Prod.mk.injEq] at h
    obtain ⟨⟨C1, is1, th1, a1⟩, h1, ⟨C3, is3, bs⟩, h3, rfl, rfl, rfl, rfl⟩ := h
    have w0 := (setup_ext (A := C) (chain := ch) rfl).wf w
    have w1 := (extE w0 h1).wf w0
    have x3 := extA ((Ext.bumpT _).wf w1) h3
    have xc : Ext C3 (completeChain C3 (setupChain C ch).2.1 C1.temp (setupChain C ch).2.2).1 := by
      unfold completeChain
      split
      · exact .bumpL _
      · exact .refl _
    have x := x3.trans xc
    exact ⟨.fresh x.temp ((g.back x).fresh w1), .undef⟩
  | internal n as iha =>
    intro ch C C' is th a w g h
    simp only [compileR, Option.bind_eq_bind, Option.bind_eq_some_iff, Option.some.injEq, Prod.mk.injEq] at h
    obtain ⟨⟨C3, is3, bs⟩, h3, rfl, rfl, rfl, rfl⟩ := h
    exact ⟨.fresh (Nat.lt_succ_self _) (g.fresh ((extA w h3).wf w)), .undef⟩

end Verif.Lower
