import Verif.Lower.Static
/-!
# Labels and variables of translated expressions
-/

namespace Verif.Lower

open Verif.Il Verif.Lin Verif.Opt

theorem setup_ext {A B : S} {chain : Option Nat} {did : Bool} {l : Nat} (h : setupChain A chain = (B, did, l)) :
    Ext A B := by
  cases chain <;> simp only [setupChain, Prod.mk.injEq] at h <;> obtain ⟨rfl, rfl, rfl⟩ := h
  · exact .bumpL _
  · exact .refl _

theorem maybeVar_eq {a : Arg} {v : Nat} (h : a.maybeVar = some v) : a = .var v := by
  cases a <;> simp_all [Arg.maybeVar]

mutual
theorem partE : ∀ (e : Expr) {ch : Option Nat} {C C' : S} {is : List Inst} {th a : Arg} (O : List Nat), Wf C →
    (∀ x ∈ ch, x ∈ O) → compileR e ch C = some (C', is, th, a) →
    Part [] O C C' is ∧ ArgB C'.temp th ∧ ArgB C'.temp a
  | .lit c, ch, C, C', is, th, a, O, w, hO, h => by
    simp only [compileR, Option.some.injEq, Prod.mk.injEq] at h
    obtain ⟨rfl, rfl, rfl, rfl⟩ := h
    exact ⟨.nil, .undef, by simp [ArgB]⟩
  | .builtin c, ch, C, C', is, th, a, O, w, hO, h => by
    simp only [compileR, Option.some.injEq, Prod.mk.injEq] at h
    obtain ⟨rfl, rfl, rfl, rfl⟩ := h
    exact ⟨.nil, .undef, by simp [ArgB]⟩
  | .fn c, ch, C, C', is, th, a, O, w, hO, h => by
    simp only [compileR, Option.some.injEq, Prod.mk.injEq] at h
    obtain ⟨rfl, rfl, rfl, rfl⟩ := h
    exact ⟨.nil, .undef, by simp [ArgB]⟩
  | .ident x, ch, C, C', is, th, a, O, w, hO, h => by
    simp only [compileR, Option.some.injEq, Prod.mk.injEq] at h
    obtain ⟨rfl, rfl, rfl, rfl⟩ := h
    have := compileId_ok (O := O) (A := C) (x := x) rfl w
    exact ⟨this.1, .undef, this.2⟩
  | .unary op e, ch, C, C', is, th, a, O, w, hO, h => by
    simp only [compileR] at h
    split at h
    · simp only [Option.some.injEq, Prod.mk.injEq] at h
      obtain ⟨rfl, rfl, rfl, rfl⟩ := h
      exact ⟨.bumpT (.inst (inner_un (Nat.lt_succ_self _) (by simp [ArgB]))), .undef, .var (Nat.lt_succ_self _)⟩
    · simp only [Option.bind_eq_bind, Option.bind_eq_some_iff, Option.some.injEq, Prod.mk.injEq] at h
      obtain ⟨⟨C1, is1, th1, a1⟩, h1, rfl, rfl, rfl, rfl⟩ := h
      obtain ⟨p, -, ha⟩ := partE e O w (by simp) h1
      exact ⟨p.append (.bumpT (.inst (inner_un (Nat.lt_succ_self _) (ha.mono (Nat.le_succ _))))), .undef,
        .var (Nat.lt_succ_self _)⟩
  | .arith op l r, ch, C, C', is, th, a, O, w, hO, h => by
    simp only [compileR, Option.bind_eq_bind, Option.bind_eq_some_iff, Option.some.injEq, Prod.mk.injEq] at h
    obtain ⟨⟨C1, is1, th1, a1⟩, h1, ⟨C2, is2, th2, a2⟩, h2, rfl, rfl, rfl, rfl⟩ := h
    obtain ⟨p1, -, ha1⟩ := partE l O w (by simp) h1
    obtain ⟨p2, -, ha2⟩ := partE r O (p1.ext.wf w) (by simp) h2
    refine ⟨(p1.append p2).append (.bumpT (.inst (inner_bin (Nat.lt_succ_self _) (ha1.mono ?_)
      (ha2.mono (Nat.le_succ _))))), .undef, .var (Nat.lt_succ_self _)⟩
    exact Nat.le_succ_of_le p2.ext.temp
  | .cmp op l r, ch, C, C', is, th, a, O, w, hO, h => by
    simp only [compileR, Option.bind_eq_bind, Option.bind_eq_some_iff, Option.some.injEq, Prod.mk.injEq] at h
    obtain ⟨o, ho, ⟨C1, is1, th1, a1⟩, h1, ⟨C2, is2, th2, a2⟩, h2, rfl, rfl, rfl, rfl⟩ := h
    obtain ⟨p1, -, ha1⟩ := partE l O w (by simp) h1
    obtain ⟨p2, -, ha2⟩ := partE r O (p1.ext.wf w) (by simp) h2
    refine ⟨(p1.append p2).append (.bumpT (.inst (inner_bin (Nat.lt_succ_self _) (ha1.mono ?_)
      (ha2.mono (Nat.le_succ _))))), .undef, .var (Nat.lt_succ_self _)⟩
    exact Nat.le_succ_of_le p2.ext.temp
  | .log op l r, ch, C, C', is, th, a, O, w, hO, h => by
    simp only [compileR, Option.bind_eq_bind, Option.bind_eq_some_iff] at h
    obtain ⟨⟨C1, is1, th1, a1⟩, h1, h⟩ := h
    have w0 : Wf C.bumpL.bumpT := ((Ext.bumpL C).trans (Ext.bumpT _)).wf w
    obtain ⟨p1, -, ha1⟩ := partE l (C.label :: O) w0 (by simp) h1
    have hr1 : C.temp < C1.temp := p1.ext.temp
    cases op with
    | and =>
      simp only [Option.bind_eq_some_iff, Option.some.injEq, Prod.mk.injEq] at h
      obtain ⟨⟨C2, is2, th2, a2⟩, h2, rfl, rfl, rfl, rfl⟩ := h
      obtain ⟨p2, -, ha2⟩ := partE r (C.label :: O) (p1.ext.wf w0) (by simp) h2
      have hr2 := p2.ext.temp
      refine ⟨Part.bumpL (E' := [C.label]) (.bumpT ?_) (by simp), .undef, .var (Nat.lt_of_lt_of_le hr1 hr2)⟩
      refine ((p1.append (.insts ?_)).append p2).append ((Part.inst (inner_assign (Nat.lt_of_lt_of_le hr1 hr2) ha2)).append (.lab _))
      simp only [List.mem_cons, List.not_mem_nil, or_false, forall_eq_or_imp, forall_eq]
      exact ⟨inner_assign hr1 ha1, inner_cond ha1 (.inl rfl) (.inr (by simp))⟩
    | or =>
      simp only [Option.bind_eq_some_iff, Option.some.injEq, Prod.mk.injEq] at h
      obtain ⟨⟨C2, is2, th2, a2⟩, h2, rfl, rfl, rfl, rfl⟩ := h
      obtain ⟨p2, -, ha2⟩ := partE r (C.label :: O) (p1.ext.wf w0) (by simp) h2
      have hr2 := p2.ext.temp
      refine ⟨Part.bumpL (E' := [C.label]) (.bumpT ?_) (by simp), .undef, .var (Nat.lt_of_lt_of_le hr1 hr2)⟩
      refine ((p1.append (.insts ?_)).append p2).append ((Part.inst (inner_assign (Nat.lt_of_lt_of_le hr1 hr2) ha2)).append (.lab _))
      simp only [List.mem_cons, List.not_mem_nil, or_false, forall_eq_or_imp, forall_eq]
      exact ⟨inner_assign hr1 ha1, inner_cond ha1 (.inr (by simp)) (.inl rfl)⟩
    | nullish =>
      simp only [Option.bind_eq_some_iff, Option.some.injEq, Prod.mk.injEq] at h
      obtain ⟨⟨C2, is2, th2, a2⟩, h2, rfl, rfl, rfl, rfl⟩ := h
      obtain ⟨p2, -, ha2⟩ := partE r (C.label :: O) ((p1.ext.trans (.bumpT _)).wf w0) (by simp) h2
      have hr2 : C1.temp + 1 ≤ C2.temp := p2.ext.temp
      have hr3 : C.temp < C2.temp := by omega
      refine ⟨Part.bumpL (E' := [C.label]) (.bumpT ?_) (by simp), .undef, .var hr3⟩
      refine ((p1.append (.bumpT (.insts ?_))).append p2).append ((Part.inst (inner_assign hr3 ha2)).append (.lab _))
      have e : C1.bumpT.temp = C1.temp + 1 := rfl
      simp only [List.mem_cons, List.not_mem_nil, or_false, forall_eq_or_imp, forall_eq, e]
      exact ⟨inner_assign (by omega) (ha1.mono (Nat.le_succ _)),
        inner_bin (Nat.lt_succ_self _) (.var (by omega)) (by simp [ArgB]),
        inner_cond (.var (Nat.lt_succ_self _)) (.inl rfl) (.inr (by simp))⟩
  | .comma l r, ch, C, C', is, th, a, O, w, hO, h => by
    simp only [compileR, Option.bind_eq_bind, Option.bind_eq_some_iff, Option.some.injEq, Prod.mk.injEq] at h
    obtain ⟨⟨C1, is1, th1, a1⟩, h1, ⟨C2, is2, th2, a2⟩, h2, rfl, rfl, rfl, rfl⟩ := h
    obtain ⟨p1, -, ha1⟩ := partE l O w (by simp) h1
    obtain ⟨p2, -, ha2⟩ := partE r O (p1.ext.wf w) (by simp) h2
    exact ⟨p1.append p2, .undef, ha2⟩
  | .cond c t f, ch, C, C', is, th, a, O, w, hO, h => by
    simp only [compileR, Option.bind_eq_bind, Option.bind_eq_some_iff, Option.some.injEq, Prod.mk.injEq] at h
    obtain ⟨⟨C1, is1, th1, a1⟩, h1, ⟨C2, is2, th2, a2⟩, h2, ⟨C3, is3, th3, a3⟩, h3, rfl, rfl, rfl, rfl⟩ := h
    obtain ⟨p1, -, ha1⟩ := partE c O w (by simp) h1
    have w1 : Wf C1.bumpT.bumpL.bumpL := ((Ext.bumpT _).trans ((Ext.bumpL _).trans (Ext.bumpL _))).wf (p1.ext.wf w)
    let O' := (C1.label + 1) :: C1.label :: O
    obtain ⟨p2, -, ha2⟩ := partE f O' w1 (by simp) h2
    obtain ⟨p3, -, ha3⟩ := partE t O' (p2.ext.wf w1) (by simp) h3
    have hr2 : C1.temp + 1 ≤ C2.temp := p2.ext.temp
    have hr3 := p3.ext.temp
    refine ⟨?_, .undef, .var (Nat.lt_of_lt_of_le hr2 hr3)⟩
    have q : Part [C1.label, C1.label + 1] O' C1.bumpT.bumpL.bumpL C3 ([Inst.condGoto a1 C1.label dummyLabel] ++ is2 ++
        [Inst.varAssign C1.temp a2, goto (C1.label + 1), label C1.label] ++ is3 ++
        [Inst.varAssign C1.temp a3, label (C1.label + 1)]) := by
      refine ((((Part.inst (inner_cond (ha1.mono (Nat.le_succ _)) (.inr (by simp [O'])) (.inl rfl))).append p2).append
        (js := [Inst.varAssign C1.temp a2, goto (C1.label + 1)] ++ [label C1.label])
        ((Part.insts ?_).append (.lab _))).append p3).append ((Part.inst (inner_assign (by omega) ha3)).append (.lab _))
      simp only [List.mem_cons, List.not_mem_nil, or_false, forall_eq_or_imp, forall_eq]
      exact ⟨inner_assign (by omega) ha2, inner_goto (by simp [O'])⟩
    have q' : Part [C1.label] (C1.label :: O) C1.bumpT.bumpL C3 _ := Part.bumpL q (E := [C1.label]) (by
      intro l
      have : C1.bumpT.bumpL.label = C1.label + 1 := rfl
      simp only [List.count_cons, List.count_nil, this]
      omega)
    have q'' := p1.append (Part.bumpT (Part.bumpL (A := C1.bumpT) (E := []) q' (by
      have : C1.bumpT.label = C1.label := rfl
      simp [this])))
    simpa [List.append_assoc] using q''
  | .update inc pre e, ch, C, C', is, th, a, O, w, hO, h => by
    simp only [compileR, Option.bind_eq_bind, Option.bind_eq_some_iff] at h
    obtain ⟨⟨C1, is1, th1, a1⟩, h1, v, hv, h⟩ := h
    obtain ⟨p1, -, ha1⟩ := partE e O w (by simp) h1
    have := maybeVar_eq hv
    subst this
    have hv' : v < C1.temp := ha1 v rfl
    dsimp only at h
    split at h
    · simp only [Option.some.injEq, Prod.mk.injEq] at h
      obtain ⟨rfl, rfl, rfl, rfl⟩ := h
      exact ⟨p1.append (.inst (inner_bin hv' ha1 (by simp [ArgB, one]))), .undef, ha1⟩
    · simp only [Option.some.injEq, Prod.mk.injEq] at h
      obtain ⟨rfl, rfl, rfl, rfl⟩ := h
      refine ⟨p1.append (.bumpT (.insts ?_)), .undef, .var (Nat.lt_succ_self _)⟩
      simp only [List.mem_cons, List.not_mem_nil, or_false, forall_eq_or_imp, forall_eq]
      exact ⟨inner_assign (Nat.lt_succ_self _) (ha1.mono (Nat.le_succ _)),
        inner_bin (Nat.lt_succ_of_lt hv') (ha1.mono (Nat.le_succ _)) (by simp [ArgB, one])⟩
  | .assign op x e, ch, C, C', is, th, a, O, w, hO, h => by
    simp only [compileR, Option.bind_eq_bind, Option.bind_eq_some_iff] at h
    obtain ⟨⟨C0, d⟩, h0, h⟩ := h
    obtain ⟨e0, l0, hd⟩ := dest_ok h0 w
    have w0 : Wf C0.bumpT := (e0.trans (.bumpT _)).wf w
    have p0 : Part [] O C C0.bumpT [] := (Part.ofExt e0 l0).thenT
    cases op with
    | plain =>
      simp only [Option.bind_eq_some_iff, Option.some.injEq, Prod.mk.injEq] at h
      obtain ⟨⟨C1, is1, th1, a1⟩, h1, rfl, rfl, rfl, rfl⟩ := h
      obtain ⟨p1, -, ha1⟩ := partE e O w0 (by simp) h1
      have hv : C0.temp < C1.temp := p1.ext.temp
      refine ⟨(p0.append p1).append (.insts ?_), .undef, .var hv⟩
      simp only [List.mem_cons, List.not_mem_nil, or_false, forall_eq_or_imp, forall_eq]
      exact ⟨inner_assign hv ha1, inner_store (hd.mono (by omega)) ha1⟩
    | arith op =>
      simp only [Option.bind_eq_some_iff, Option.some.injEq, Prod.mk.injEq] at h
      obtain ⟨⟨C1, is1, th1, a1⟩, h1, rfl, rfl, rfl, rfl⟩ := h
      obtain ⟨p1, -, ha1⟩ := partE e O w0 (by simp) h1
      have hv : C0.temp < C1.temp := p1.ext.temp
      generalize hl : d.load C1 = s at *
      obtain ⟨C2, ls, old⟩ := s
      obtain ⟨p2, ha2, -⟩ := load_ok (O := O) hl (hd.mono (by omega))
      have ht := p2.ext.temp
      dsimp only
      refine ⟨((p0.append p1).append p2).append (.insts ?_), .undef, .var (by omega)⟩
      simp only [List.mem_cons, List.not_mem_nil, or_false, forall_eq_or_imp, forall_eq]
      exact ⟨inner_bin (by omega) ha2 (ha1.mono ht), inner_store (hd.mono (by omega)) (.var (by omega))⟩
    | log op =>
      simp only [Option.bind_eq_some_iff, Option.some.injEq, Prod.mk.injEq] at h
      obtain ⟨⟨C3, is3, th3, a3⟩, h3, rfl, rfl, rfl, rfl⟩ := h
      generalize hl : d.load C0.bumpT = s at *
      obtain ⟨C1, ls, old⟩ := s
      obtain ⟨p1, ha1, -⟩ := load_ok (O := O) hl (hd.mono (Nat.le_succ _))
      dsimp only at h3 ⊢
      have hv1 : C0.temp < C1.temp := p1.ext.temp
      generalize hj : logJump C1.bumpL op C0.temp C1.label = s at *
      obtain ⟨C2, js⟩ := s
      have p2 := logJump_ok (O := C1.label :: O) hj hv1 (by simp)
      dsimp only at h3 ⊢
      have hv2 : C1.temp ≤ C2.temp := p2.ext.temp
      obtain ⟨p3, -, ha3⟩ := partE e (C1.label :: O) (p2.ext.wf ((p1.ext.trans (.bumpL _)).wf w0)) (by simp) h3
      have hv3 : C2.temp ≤ C3.temp := p3.ext.temp
      refine ⟨?_, .undef, .var (by omega)⟩
      have q : Part [] O C1 C3 ([Inst.varAssign C0.temp old] ++ js ++ is3 ++
          [Inst.varAssign C0.temp a3, d.store a3, label C1.label]) := by
        refine Part.bumpL (E' := [C1.label]) ?_ (by simp)
        refine (((Part.inst (A := C1.bumpL) (inner_assign hv1 ha1)).append p2).append p3).append
          (js := [Inst.varAssign C0.temp a3, d.store a3] ++ [label C1.label]) ((Part.insts ?_).append (.lab _))
        simp only [List.mem_cons, List.not_mem_nil, or_false, forall_eq_or_imp, forall_eq]
        exact ⟨inner_assign (by omega) ha3, inner_store (hd.mono (by omega)) ha3⟩
      have q' := (p0.append p1).append q
      simpa [List.append_assoc] using q'
  | .assignMember op o k e, ch, C, C', is, th, a, O, w, hO, h => by
    simp only [compileR, Option.bind_eq_bind, Option.bind_eq_some_iff] at h
    obtain ⟨⟨C1, is1, th1, a1⟩, h1, ⟨C2, is2, th2, a2⟩, h2, h⟩ := h
    obtain ⟨p1, -, ha1⟩ := partE o O w (by simp) h1
    have w1 := p1.ext.wf w
    obtain ⟨p2, -, ha2⟩ := partE k O w1 (by simp) h2
    have w2 := p2.ext.wf w1
    have t2 := p2.ext.temp
    have w3 : Wf C2.bumpT := (Ext.bumpT _).wf w2
    cases op with
    | plain =>
      simp only [Option.bind_eq_some_iff, Option.some.injEq, Prod.mk.injEq] at h
      obtain ⟨⟨C3, is3, th3, a3⟩, h3, rfl, rfl, rfl, rfl⟩ := h
      obtain ⟨p3, -, ha3⟩ := partE e O w3 (by simp) h3
      have hv : C2.temp < C3.temp := p3.ext.temp
      refine ⟨((p1.append p2).append (.bumpT p3)).append (.insts ?_), .undef, .var hv⟩
      simp only [List.mem_cons, List.not_mem_nil, or_false, forall_eq_or_imp, forall_eq]
      exact ⟨inner_assign hv ha3, inner_prop (ha1.mono (by omega)) (ha2.mono (by omega)) ha3⟩
    | arith op =>
      simp only [Option.bind_eq_some_iff, Option.some.injEq, Prod.mk.injEq] at h
      obtain ⟨⟨C3, is3, th3, a3⟩, h3, rfl, rfl, rfl, rfl⟩ := h
      obtain ⟨p3, -, ha3⟩ := partE e O w3 (by simp) h3
      have hv : C2.temp < C3.temp := p3.ext.temp
      have e3 : C3.bumpT.temp = C3.temp + 1 := rfl
      refine ⟨((p1.append p2).append (.bumpT p3)).append (.bumpT (.insts ?_)), .undef, .var (show C2.temp < C3.temp + 1 by omega)⟩
      simp only [List.mem_cons, List.not_mem_nil, or_false, forall_eq_or_imp, forall_eq]
      exact ⟨inner_bin (by omega) (ha1.mono (by omega)) (ha2.mono (by omega)),
        inner_bin (by omega) (.var (by omega)) (ha3.mono (by omega)),
        inner_prop (ha1.mono (by omega)) (ha2.mono (by omega)) (.var (by omega))⟩
    | log op =>
      simp only [Option.bind_eq_some_iff, Option.some.injEq, Prod.mk.injEq] at h
      obtain ⟨⟨C4, is4, th4, a4⟩, h4, rfl, rfl, rfl, rfl⟩ := h
      have eb : C2.bumpT.bumpT.label = C2.label := rfl
      have e2 : C2.bumpT.bumpT.bumpL.temp = C2.temp + 2 := rfl
      have ez : C2.bumpT.temp = C2.temp + 1 := rfl
      have hv : C2.temp < C2.bumpT.bumpT.bumpL.temp := by omega
      dsimp only at h4 ⊢
      rw [eb] at h4 ⊢
      generalize hj : logJump C2.bumpT.bumpT.bumpL op C2.temp C2.label = s at *
      obtain ⟨C3, js⟩ := s
      have p3 := logJump_ok (O := C2.label :: O) hj hv (by simp)
      dsimp only at h4 ⊢
      have t3 : C2.temp + 2 ≤ C3.temp := p3.ext.temp
      obtain ⟨p4, -, ha4⟩ := partE e (C2.label :: O) (p3.ext.wf (((Ext.bumpT _).trans (.bumpL _)).wf w3)) (by simp) h4
      have t4 := p4.ext.temp
      refine ⟨?_, .undef, .var (by omega)⟩
      have q : Part [] O C2 C4 ([Inst.bin C2.bumpT.temp a1 .getProp a2, Inst.varAssign C2.temp (.var C2.bumpT.temp)] ++
          js ++ is4 ++
          ([Inst.varAssign C2.temp a4, Inst.propAssign a1 a2 a4] ++ [label C2.label])) := by
        refine .bumpT (.bumpT (Part.bumpL (E' := [C2.label]) ?_ (by simp [eb])))
        rw [eb]
        refine (((Part.insts ?_).append p3).append p4).append ((Part.insts ?_).append (.lab _))
        · simp only [List.mem_cons, List.not_mem_nil, or_false, forall_eq_or_imp, forall_eq]
          exact ⟨inner_bin (by omega) (ha1.mono (by omega)) (ha2.mono (by omega)),
            inner_assign (by omega) (.var (by omega))⟩
        · simp only [List.mem_cons, List.not_mem_nil, or_false, forall_eq_or_imp, forall_eq]
          exact ⟨inner_assign (by omega) ha4, inner_prop (ha1.mono (by omega)) (ha2.mono (by omega)) ha4⟩
      have q' := (p1.append p2).append q
      simpa [List.append_assoc] using q'
  | .member o k opt, ch, C, C', is, th, a, O, w, hO, h => by
    simp only [compileR, Option.bind_eq_bind, Option.bind_eq_some_iff, Option.some.injEq, Prod.mk.injEq] at h
    obtain ⟨⟨C1, is1, th1, a1⟩, h1, ⟨C3, is3, th3, a3⟩, h3, rfl, rfl, rfl, rfl⟩ := h
    generalize hs : setupChain C ch = s at *
    obtain ⟨C0, did, l⟩ := s
    have e0 := setup_ext hs
    dsimp only at h1 h3 ⊢
    have w0 := e0.wf w
    obtain ⟨p1, -, ha1⟩ := partE o (l :: O) w0 (by simp) h1
    generalize hj : chainJump C1 opt a1 l = s at *
    obtain ⟨C2, js⟩ := s
    dsimp only at h3 ⊢
    have p2 := chainJump_ok (O := l :: O) hj ha1 (by simp)
    have w2 := p2.ext.wf (p1.ext.wf w0)
    obtain ⟨p3, -, ha3⟩ := partE k (l :: O) ((Ext.bumpT _).wf w2) (by simp) h3
    have t2 := p2.ext.temp
    have t3 : C2.temp < C3.temp := p3.ext.temp
    generalize hf : completeChain C3 did C2.temp l = s at *
    obtain ⟨C4, ls⟩ := s
    dsimp only
    have q := chain_ok hs hO (((p1.append p2).append (.bumpT p3)).append
      (.inst (inner_bin t3 (ha1.mono (by omega)) ha3 (o := .getProp)))) t3 hf
    have t4 : C3.temp ≤ C4.temp := by
      unfold completeChain at hf
      split at hf <;> simp only [Prod.mk.injEq] at hf <;> obtain ⟨rfl, rfl⟩ := hf <;> exact Nat.le_refl _
    refine ⟨by simpa [List.append_assoc] using q, ha1.mono (by omega), .var (by omega)⟩
  | .call c as opt, ch, C, C', is, th, a, O, w, hO, h => by
    simp only [compileR] at h
    split at h
    · simp at h
    · simp only [Option.bind_eq_bind, Option.bind_eq_some_iff, Option.some.injEq, Prod.mk.injEq] at h
      obtain ⟨⟨C1, is1, th1, a1⟩, h1, ⟨C3, is3, bs⟩, h3, rfl, rfl, rfl, rfl⟩ := h
      generalize hs : setupChain C ch = s at *
      obtain ⟨C0, did, l⟩ := s
      have e0 := setup_ext hs
      dsimp only at h1 h3 ⊢
      have w0 := e0.wf w
      obtain ⟨p1, hth, ha1⟩ := partE c (l :: O) w0 (by simp) h1
      generalize hj : chainJump C1.bumpT opt a1 l = s at *
      obtain ⟨C2, js⟩ := s
      dsimp only at h3 ⊢
      have p2 := chainJump_ok (O := l :: O) hj (ha1.mono (Nat.le_succ _)) (by simp)
      have w2 := p2.ext.wf ((Ext.bumpT _).wf (p1.ext.wf w0))
      obtain ⟨p3, hbs⟩ := partA as (l :: O) w2 h3
      have t2 : C1.temp + 1 ≤ C2.temp := p2.ext.temp
      have t3 : C2.temp ≤ C3.temp := p3.ext.temp
      generalize hf : completeChain C3 did C1.temp l = s at *
      obtain ⟨C4, ls⟩ := s
      dsimp only
      have q := chain_ok hs hO (((p1.append (.bumpT p2)).append p3).append
        (.inst (inner_call (show C1.temp < C3.temp by omega) (ha1.mono (by omega)) (hth.mono (by omega)) hbs (sp := spreadsFrom 2 as)))) (res := C1.temp) (by omega) hf
      have t4 : C3.temp ≤ C4.temp := by
        unfold completeChain at hf
        split at hf <;> simp only [Prod.mk.injEq] at hf <;> obtain ⟨rfl, rfl⟩ := hf <;> exact Nat.le_refl _
      refine ⟨by simpa [List.append_assoc] using q, .undef, .var (by omega)⟩
  | .new c as, ch, C, C', is, th, a, O, w, hO, h => by
    simp only [compileR, Option.bind_eq_bind, Option.bind_eq_some_iff, Option.some.injEq, Prod.mk.injEq] at h
    obtain ⟨⟨C1, is1, th1, a1⟩, h1, ⟨C3, is3, bs⟩, h3, rfl, rfl, rfl, rfl⟩ := h
    generalize hs : setupChain C ch = s at *
    obtain ⟨C0, did, l⟩ := s
    have e0 := setup_ext hs
    dsimp only at h1 h3 ⊢
    have w0 := e0.wf w
    obtain ⟨p1, -, ha1⟩ := partE c (l :: O) w0 (by simp) h1
    have w2 := (Ext.bumpT _).wf (p1.ext.wf w0)
    obtain ⟨p3, hbs⟩ := partA as (l :: O) w2 h3
    have t3 : C1.temp < C3.temp := p3.ext.temp
    generalize hf : completeChain C3 did C1.temp l = s at *
    obtain ⟨C4, ls⟩ := s
    dsimp only
    have q := chain_ok hs hO ((p1.append (.bumpT p3)).append
      (.inst (inner_call (a := .builtin newCallee) t3 (by simp [ArgB]) (ha1.mono (by omega)) hbs (sp := spreadsFrom 2 as)))) t3 hf
    have t4 : C3.temp ≤ C4.temp := by
      unfold completeChain at hf
      split at hf <;> simp only [Prod.mk.injEq] at hf <;> obtain ⟨rfl, rfl⟩ := hf <;> exact Nat.le_refl _
    refine ⟨by simpa [List.append_assoc] using q, .undef, .var (by omega)⟩
  | .internal n as, ch, C, C', is, th, a, O, w, hO, h => by
    simp only [compileR, Option.bind_eq_bind, Option.bind_eq_some_iff, Option.some.injEq, Prod.mk.injEq] at h
    obtain ⟨⟨C3, is3, bs⟩, h3, rfl, rfl, rfl, rfl⟩ := h
    obtain ⟨p3, hbs⟩ := partA as O w h3
    exact ⟨p3.append (.bumpT (.inst (inner_call (Nat.lt_succ_self _) (by simp [ArgB]) .undef
      (fun x hx => (hbs x hx).mono (Nat.le_succ _))))), .undef, .var (Nat.lt_succ_self _)⟩

theorem partA : ∀ (as : Args) {C C' : S} {is : List Inst} {bs : List Arg} (O : List Nat), Wf C →
    compileArgs as C = some (C', is, bs) → Part [] O C C' is ∧ ∀ a ∈ bs, ArgB C'.temp a
  | .nil, C, C', is, bs, O, w, h => by
    simp only [compileArgs, Option.some.injEq, Prod.mk.injEq] at h
    obtain ⟨rfl, rfl, rfl⟩ := h
    exact ⟨.nil, by simp⟩
  | .cons sp e rest, C, C', is, bs, O, w, h => by
    simp only [compileArgs, Option.bind_eq_bind, Option.bind_eq_some_iff, Option.some.injEq, Prod.mk.injEq] at h
    obtain ⟨⟨C1, is1, th1, a1⟩, h1, ⟨C2, is2, bs2⟩, h2, rfl, rfl, rfl⟩ := h
    obtain ⟨p1, -, ha1⟩ := partE e O w (by simp) h1
    obtain ⟨p2, hbs⟩ := partA rest O (p1.ext.wf w) h2
    refine ⟨p1.append p2, ?_⟩
    simp only [List.mem_cons, forall_eq_or_imp]
    exact ⟨ha1.mono p2.ext.temp, hbs⟩
end

end Verif.Lower
