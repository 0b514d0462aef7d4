import Verif.Emit.StmtParse

/-!
# The statement printer of `stmt.rs` writes statements the parser reads back
-/

namespace Verif.Emit

theorem printedA {e : Expr} (h : okA e = true) : Printed e (emitA e) := by
  have := printed_of_res (goodA e h)
  simpa [emitA, wrap_one] using this

theorem printedA_parens {e : Expr} (h : okA e = true) : Printed e (parens (emitA e)) := by
  have := printed_parens (goodA e h)
  simpa [emitA, wrap_one] using this

/-- The first token of a text that is no parenthesis is that of the leftmost part. -/
theorem bodyA_badHead (t : Tok) (ht : badHead t = true) : ∀ e : Expr,
    (∀ n : Nat, leftmost e ≠ .obj n ∧ leftmost e ≠ .func n) → (bodyA e).head? ≠ some t
  | .id _, _ => by cases t <;> simp_all [bodyA, badHead]
  | .num _, _ => by cases t <;> simp_all [bodyA, badHead]
  | .obj n, h => absurd rfl (h n).1
  | .prim _, _ => by cases t <;> simp_all [bodyA, badHead]
  | .tpl _, _ => by cases t <;> simp_all [bodyA, badHead]
  | .regex _, _ => by cases t <;> simp_all [bodyA, badHead]
  | .func n, h => absurd rfl (h n).2
  | .arr _, _ => by cases t <;> simp_all [bodyA, badHead]
  | .arrow _ _, _ => by cases t <;> simp_all [bodyA, badHead]
  | .unary op e, _ => by
    have hl : t ≠ .lp := by rintro rfl; simp [badHead] at ht
    by_cases ho : op = .new
    · subst ho
      have : ∃ r : List Tok, bodyA (.unary .new e) = .new :: r := by
        cases e with
        | call opt f as => cases opt <;> exact ⟨_, rfl⟩
        | _ => exact ⟨_, rfl⟩
      obtain ⟨r, hr⟩ := this
      rw [hr]
      cases t <;> simp_all [badHead]
    · have : bodyA (.unary op e) = unTok op ++ wrap (precA e) (prec (.un op)) (bodyA e) := by
        cases op <;> first | exact absurd rfl ho | rfl
      rw [this]
      cases t <;> simp [badHead] at ht <;> cases op <;> simp_all [unTok]
  | .post op e, h => by
    have hl : t ≠ .lp := by rintro rfl; simp [badHead] at ht
    simp only [bodyA]
    exact head_wrap hl (bodyA_ne e) (bodyA_badHead t ht e (by simpa [leftmost] using h))
  | .binary b l r, h => by
    have hl : t ≠ .lp := by rintro rfl; simp [badHead] at ht
    simp only [bodyA]
    split
    · exact head_parens hl
    · exact head_wrap hl (bodyA_ne l) (bodyA_badHead t ht l (by simpa [leftmost] using h))
  | .cond c a b, h => by
    have hl : t ≠ .lp := by rintro rfl; simp [badHead] at ht
    simp only [bodyA, List.append_assoc]
    exact head_wrap hl (bodyA_ne c) (bodyA_badHead t ht c (by simpa [leftmost] using h))
  | .call opt f as, h => by
    have hl : t ≠ .lp := by rintro rfl; simp [badHead] at ht
    simp only [bodyA, List.append_assoc]
    exact head_wrap hl (bodyA_ne f) (bodyA_badHead t ht f (by simpa [leftmost] using h))
  | .member opt o p, h => by
    have hl : t ≠ .lp := by rintro rfl; simp [badHead] at ht
    simp only [bodyA]
    exact head_wrap hl (bodyA_ne o) (bodyA_badHead t ht o (by simpa [leftmost] using h))
  | .index opt o i, h => by
    have hl : t ≠ .lp := by rintro rfl; simp [badHead] at ht
    simp only [bodyA, List.append_assoc]
    exact head_wrap hl (bodyA_ne o) (bodyA_badHead t ht o (by simpa [leftmost] using h))
  | .tagged f n, h => by
    have hl : t ≠ .lp := by rintro rfl; simp [badHead] at ht
    simp only [bodyA]
    exact head_wrap hl (bodyA_ne f) (bodyA_badHead t ht f (by simpa [leftmost] using h))

/-- An expression statement is read back. -/
theorem exprStmtA_printed {e : Expr} (h : okA e = true) (hs : startsBlock e = false) :
    Printed e (exprStmtA e) ∧ ∀ t : Tok, (exprStmtA e).head? = some t → badHead t = false := by
  unfold exprStmtA
  split
  · refine ⟨printedA_parens h, ?_⟩
    intro t ht
    simp only [parens, List.head?_cons, Option.some.injEq] at ht
    subst ht; rfl
  · rename_i hp
    refine ⟨printedA h, ?_⟩
    intro t ht
    cases hb : badHead t with
    | false => rfl
    | true =>
      refine absurd ht ?_
      rw [emitA, wrap_one]
      refine bodyA_badHead t hb e fun n => ⟨?_, ?_⟩
      · intro hl
        simp only [startsBlock, hl] at hs
        have : e = .obj n := by simpa using hs
        subst this
        simp [stmtParens] at hp
      · intro hl
        simp only [startsBlock, hl] at hs
        have : e = .func n := by simpa using hs
        subst this
        simp [stmtParens] at hp

theorem declsOK_of {ok : Expr → Bool} {pr : Expr → List Tok} (hpr : ∀ e : Expr, ok e = true → Printed e (pr e))
    {ds : List Declarator} (h : okDecls ok ds = true) : ds ≠ [] ∧ DeclsOK pr ds := by
  simp only [okDecls, Bool.and_eq_true, bne_iff_ne, ne_eq, List.all_eq_true] at h
  refine ⟨h.1, fun d hd e he => ?_⟩
  have := h.2 d hd
  rw [he] at this
  simp only [Option.all_some, Bool.and_eq_true, Bool.not_eq_true'] at this
  exact ⟨hpr e this.1, this.2⟩

theorem initOK_of {ok : Expr → Bool} {pr : Expr → List Tok} (hpr : ∀ e : Expr, ok e = true → Printed e (pr e))
    {i : ForInit} (h : okInit ok pr i = true) : InitOK pr i ∧ Tok.in_ ∉ initTok pr i := by
  simp only [okInit, Bool.and_eq_true, Bool.not_eq_true', List.contains_eq_mem,
    decide_eq_false_iff_not] at h
  refine ⟨?_, h.2⟩
  cases i with
  | none => trivial
  | expr e => exact hpr e h.1
  | decl m ds => exact declsOK_of hpr h.1

theorem optOK_of {ok : Expr → Bool} {pr : Expr → List Tok} (hpr : ∀ e : Expr, ok e = true → Printed e (pr e))
    {o : Option Expr} (h : o.all ok = true) : OptOK pr o := by
  intro e he
  subst he
  exact hpr e (by simpa using h)

/-- What the parser leaves of the statement's semicolon and what follows. -/
def leftOf : Bool → List Tok → List Tok
  | true, rest => .semi :: rest
  | false, rest => rest

/-- The one statement of a `for` body. -/
def lastOf (f : Stmt → Bool) : Stmts → Bool
  | .cons s .nil => f s
  | _ => false

theorem leavesSemi_for (i : ForInit) (c p : Option Expr) (b : Stmts) :
    leavesSemi (.forT i c p b) = lastOf leavesSemi b := by
  cases b with
  | nil => rfl
  | cons s r => cases r <;> rfl

theorem endsIf_for (i : ForInit) (c p : Option Expr) (b : Stmts) :
    endsIf (.forT i c p b) = lastOf endsIf b := by
  cases b with
  | nil => rfl
  | cons s r => cases r <;> rfl

theorem labTok_jump (l : Option Nat) (rest : List Tok) :
    jumpLabel (labTok l ++ .semi :: rest) =
      some (l, if l.isSome then .semi :: rest else rest) := by
  cases l <;> rfl

theorem stmtA_head : ∀ s : Stmt, okSA s = true → ∃ (t : Tok) (r : List Tok), stmtA s = t :: r ∧
    t ≠ .nl ∧ t ≠ .rbrace ∧ t ≠ .kelse ∧ (t = .lbrace → ∃ b : Stmts, s = .block b)
  | .empty, _ => by simp only [stmtA]; exact ⟨_, _, rfl, by simp, by simp, by simp, by simp⟩
  | .block b, _ => by simp only [stmtA]; exact ⟨_, _, rfl, by simp, by simp, by simp, by simp⟩
  | .expr e, h => by
    simp only [okSA, Bool.and_eq_true, Bool.not_eq_true'] at h
    obtain ⟨t, r, hr, ht⟩ := (exprStmtA_printed h.1 h.2).1.starts
    refine ⟨t, r ++ [.semi], by simp [stmtA, hr], ?_⟩
    cases t <;> simp_all [startsOperand]
  | .ifs c t, _ => by simp only [stmtA]; exact ⟨_, _, rfl, by simp, by simp, by simp, by simp⟩
  | .ifElse c t f, _ => by simp only [stmtA]; exact ⟨_, _, rfl, by simp, by simp, by simp, by simp⟩
  | .while_ c b, _ => by simp only [stmtA]; exact ⟨_, _, rfl, by simp, by simp, by simp, by simp⟩
  | .doWhile b c, _ => by simp only [stmtA]; exact ⟨_, _, rfl, by simp, by simp, by simp, by simp⟩
  | .forT i c p b, _ => by simp only [stmtA, headTok]; exact ⟨_, _, rfl, by simp, by simp, by simp, by simp⟩
  | .var_ m ds, _ => by
    simp only [stmtA]
    refine ⟨_, _, rfl, ?_⟩
    cases m <;> simp [modeTok]
  | .brk l, _ => by simp only [stmtA]; exact ⟨_, _, rfl, by simp, by simp, by simp, by simp⟩
  | .cont l, _ => by simp only [stmtA]; exact ⟨_, _, rfl, by simp, by simp, by simp, by simp⟩
  | .ret e, _ => by simp only [stmtA]; exact ⟨_, _, rfl, by simp, by simp, by simp, by simp⟩
  | .throw e, _ => by simp only [stmtA]; exact ⟨_, _, rfl, by simp, by simp, by simp, by simp⟩
  | .label n s, _ => by simp only [stmtA]; exact ⟨_, _, rfl, by simp, by simp, by simp, by simp⟩
  | .debugger, _ => by simp only [stmtA]; exact ⟨_, _, rfl, by simp, by simp, by simp, by simp⟩
  | .decl n, _ => by simp only [stmtA]; exact ⟨_, _, rfl, by simp, by simp, by simp, by simp⟩

theorem norm_empty_list {s : Stmt} (h : isEmpty s = false) (b : Bool) (ss : Stmts) :
    normL b (.cons s ss) = .cons (norm b s) (normL b ss) := by
  simp [normL, h]

theorem isEmpty_norm (b : Bool) (s s' : Stmt) (h : norm b s' = norm b s) : isEmpty s' = isEmpty s := by
  cases s <;> cases s' <;> simp [norm] at h <;> rfl

theorem isEmpty_eq {s : Stmt} (h : isEmpty s = true) : s = .empty := by
  cases s <;> first | rfl | simp [isEmpty] at h

/-- What is left after a list. -/
abbrev ListEnd (tail : List Tok) : Prop := tail = [] ∨ ∃ r : List Tok, tail = .rbrace :: r

theorem noElse_head {t : Tok} {r : List Tok} (hn : t ≠ .nl) (he : t ≠ .kelse) : NoElse (t :: r) := by
  intro q hq
  rw [dropNls_head hn] at hq
  simp only [List.cons.injEq] at hq
  exact he hq.1

theorem noElse_end {tail : List Tok} (h : ListEnd tail) : NoElse tail := by
  rcases h with rfl | ⟨r, rfl⟩
  · intro q hq; simp [dropNls] at hq
  · exact noElse_head (by simp) (by simp)

/-- The list text does not begin with `else`. -/
theorem listA_noElse : ∀ (ss : Stmts), okLA ss = true → ∀ tail : List Tok, ListEnd tail →
    NoElse (listA ss ++ tail)
  | .nil, _, tail, ht => by simpa [listA] using noElse_end ht
  | .cons s rest, h, tail, ht => by
    simp only [okLA, Bool.and_eq_true] at h
    cases he : isEmpty s with
    | true => simpa [listA, he] using listA_noElse rest h.2 tail ht
    | false =>
      obtain ⟨t, r, hr, h1, h2, h3, _⟩ := stmtA_head s h.1
      simp only [listA, he, hr]
      exact noElse_head h1 h3

theorem leaves_not_endsIf : ∀ s : Stmt, leavesSemi s = true → endsIf s = false
  | .label n s, h => by simp only [leavesSemi] at h; simpa [endsIf] using leaves_not_endsIf s h
  | .while_ c s, h => by simp only [leavesSemi] at h; simpa [endsIf] using leaves_not_endsIf s h
  | .ifs c s, h => by simp only [leavesSemi] at h; simp [endsIf, h]
  | .ifElse c t s, h => by simp only [leavesSemi] at h; simpa [endsIf] using leaves_not_endsIf s h
  | .forT i c p b, h => by
    cases b with
    | nil => simp [leavesSemi] at h
    | cons s r =>
      cases r with
      | nil => simp only [leavesSemi] at h; simpa [endsIf] using leaves_not_endsIf s h
      | cons _ _ => simp [leavesSemi] at h
  | .empty, _ => rfl
  | .block b, _ => rfl
  | .expr _, _ => rfl
  | .doWhile _ _, _ => rfl
  | .var_ _ _, _ => rfl
  | .brk _, _ => rfl
  | .cont _, _ => rfl
  | .ret _, _ => rfl
  | .throw _, _ => rfl
  | .debugger, _ => rfl
  | .decl _, _ => rfl

mutual
theorem readA : ∀ s : Stmt, okSA s = true → ∀ rest : List Tok, (endsIf s = true → NoElse rest) →
    ∃ s' : Stmt, stmt (stmtA s ++ rest) = some (s', leftOf (leavesSemi s) rest) ∧ norm false s' = norm false s
  | .empty, _, rest, _ => ⟨.empty, by simp only [stmtA]; rw [stmt.eq_def]; rfl, rfl⟩
  | .block b, h, rest, _ => by
    obtain ⟨b', hb, hn⟩ := readListA b (by simpa [okSA] using h) (.rbrace :: rest) (.inr ⟨_, rfl⟩)
    refine ⟨.block b', ?_, by simp [norm, hn]⟩
    simp only [stmtA, List.cons_append, List.append_assoc, List.nil_append, leftOf, leavesSemi]
    simpa using stmt_block hb
  | .expr e, h, rest, _ => by
    simp only [okSA, Bool.and_eq_true, Bool.not_eq_true'] at h
    obtain ⟨hp, hb⟩ := exprStmtA_printed h.1 h.2
    refine ⟨.expr e, ?_, rfl⟩
    simp only [stmtA, List.append_assoc, List.cons_append, List.nil_append]
    exact stmt_expr hp hb (rest := .semi :: rest) trivial
  | .ifs c t, h, rest, hr => by
    simp only [okSA, Bool.and_eq_true] at h
    have hr' : endsIf t = true → NoElse rest := by
      intro he
      refine hr ?_
      simp only [endsIf]
      cases hl : leavesSemi t with
      | false => rfl
      | true => exact absurd he (by simp [leaves_not_endsIf t hl])
    obtain ⟨t', ht, hn⟩ := readA t h.2 rest hr'
    refine ⟨.ifs c t', ?_, by simp [norm, hn]⟩
    have hne : NoElse (leftOf (leavesSemi t) rest) := by
      cases hl : leavesSemi t with
      | true => exact noElse_head (by simp) (by simp)
      | false => exact hr (by simpa [endsIf] using hl)
    have := stmt_ifs (printedA h.1) ht hne
    simpa [stmtA, leavesSemi, List.append_assoc] using this
  | .ifElse c t f, h, rest, hr => by
    simp only [okSA, Bool.and_eq_true, Bool.not_eq_true'] at h
    obtain ⟨⟨⟨⟨hc, ht⟩, hf⟩, hl⟩, he⟩ := h
    obtain ⟨f', hf', hnf⟩ := readA f hf rest (by simpa [endsIf] using hr)
    obtain ⟨t', ht', hnt⟩ := readA t ht (.kelse :: (stmtA f ++ rest)) (by simp [he])
    refine ⟨.ifElse c t' f', ?_, by simp [norm, hnt, hnf]⟩
    rw [hl, leftOf] at ht'
    have := stmt_ifElse (printedA hc) ht' hf'
    simpa [stmtA, leavesSemi, List.append_assoc] using this
  | .while_ c b, h, rest, hr => by
    simp only [okSA, Bool.and_eq_true] at h
    obtain ⟨b', hb, hn⟩ := readA b h.2 rest (by simpa [endsIf] using hr)
    refine ⟨.while_ c b', ?_, by simp [norm, hn]⟩
    have := stmt_while (printedA h.1) hb
    simpa [stmtA, leavesSemi, List.append_assoc] using this
  | .doWhile b c, h, rest, hr => by
    simp only [okSA, Bool.and_eq_true] at h
    obtain ⟨b', hb, hn⟩ := readA b h.2 (.kwhile :: .lp :: emitA c ++ .rp :: .semi :: rest)
      (fun _ => noElse_head (by simp) (by simp))
    refine ⟨.doWhile b' c, ?_, by simp [norm, hn]⟩
    have := stmt_do (printedA h.1) hb (rest := .semi :: rest)
      (by cases leavesSemi b <;> rfl)
    simpa [leftOf, stmtA, leavesSemi, List.append_assoc] using this
  | .forT i c p b, h, rest, hr => by
    simp only [okSA, Bool.and_eq_true] at h
    obtain ⟨⟨⟨hi, hc⟩, hp⟩, hb⟩ := h
    obtain ⟨b', hb', hn⟩ := readForA b hb rest (by rwa [endsIf_for] at hr)
    obtain ⟨h1, h2⟩ := initOK_of (fun e he => printedA he) hi
    refine ⟨.forT i c p b', ?_, by simp [norm, hn]⟩
    have := stmt_for emitA h1 h2 (optOK_of (fun e he => printedA he) hc)
      (optOK_of (fun e he => printedA he) hp) hb'
    rw [leavesSemi_for]
    simpa [stmtA, List.append_assoc] using this
  | .var_ m ds, h, rest, _ => by
    obtain ⟨h1, h2⟩ := declsOK_of (fun e he => printedA he) (by simpa [okSA] using h)
    refine ⟨.var_ m ds, ?_, rfl⟩
    have := stmt_var emitA m ds h1 h2 (.semi :: rest) trivial
    simpa [skipSemi, dropNls, leftOf, stmtA, leavesSemi, List.append_assoc] using this
  | .brk l, _, rest, _ => by
    refine ⟨.brk l, ?_, rfl⟩
    rw [stmt.eq_def]
    simp only [stmtA, List.cons_append, dropNls, List.append_assoc, List.nil_append, labTok_jump,
      Option.bind_eq_bind, Option.bind_some]
    cases l <;> rfl
  | .cont l, _, rest, _ => by
    refine ⟨.cont l, ?_, rfl⟩
    rw [stmt.eq_def]
    simp only [stmtA, List.cons_append, dropNls, List.append_assoc, List.nil_append, labTok_jump,
      Option.bind_eq_bind, Option.bind_some]
    cases l <;> rfl
  | .ret none, _, rest, _ => ⟨.ret none, by simp only [stmtA]; rw [stmt.eq_def]; rfl, rfl⟩
  | .ret (some e), h, rest, _ => by
    refine ⟨.ret (some e), ?_, rfl⟩
    have := stmt_ret (printedA (e := e) (by simpa [okSA] using h)) (rest := .semi :: rest) trivial
    simpa [skipSemi, dropNls, leftOf, stmtA, optTok, leftOf, leavesSemi, List.append_assoc] using this
  | .throw e, h, rest, _ => by
    refine ⟨.throw e, ?_, rfl⟩
    have := stmt_throw (printedA (e := e) (by simpa [okSA] using h)) (rest := .semi :: rest) trivial
    simpa [skipSemi, dropNls, leftOf, stmtA, leavesSemi, List.append_assoc] using this
  | .label n s, h, rest, hr => by
    obtain ⟨s', hs, hn⟩ := readA s (by simpa [okSA] using h) rest (by simpa [endsIf] using hr)
    refine ⟨.label n s', ?_, by simp [norm, hn]⟩
    have := stmt_label (n := n) hs
    simpa [stmtA, leavesSemi, List.append_assoc] using this
  | .debugger, _, rest, _ => ⟨.debugger, by simp only [stmtA]; rw [stmt.eq_def]; rfl, rfl⟩
  | .decl n, _, rest, _ => ⟨.decl n, by simp only [stmtA]; rw [stmt.eq_def]; rfl, rfl⟩
theorem readForA : ∀ b : Stmts, okLA b = true → ∀ rest : List Tok,
    (lastOf endsIf b = true → NoElse rest) →
    ∃ b' : Stmts, forBody (forBodyA b ++ rest) = some (b', leftOf (lastOf leavesSemi b) rest) ∧
      oneBlock (normL false b') = oneBlock (normL false b)
  | .nil, _, rest, _ => ⟨.nil, by
      have := forBody_block (stmts_end (tail := .rbrace :: rest) (.inr ⟨_, rfl⟩))
      simpa [forBodyA, listA, lastOf, leftOf] using this, rfl⟩
  | .cons s .nil, h, rest, hr => by
    have hs : okSA s = true := by simpa [okLA] using h
    by_cases hb : ∃ b : Stmts, s = .block b
    · obtain ⟨b, rfl⟩ := hb
      obtain ⟨b', hb', hn⟩ := readListA b (by simpa [okSA] using hs) (.rbrace :: rest) (.inr ⟨_, rfl⟩)
      refine ⟨b', ?_, ?_⟩
      · have := forBody_block hb'
        simpa [forBodyA, stmtA, leavesSemi, lastOf, leftOf, List.append_assoc] using this
      · simp [normL, norm, isEmpty, oneBlock, hn]
    · obtain ⟨s', hs', hn⟩ := readA s hs rest (by simpa [lastOf] using hr)
      obtain ⟨t, r, htr, h1, h2, h3, h4⟩ := stmtA_head s hs
      refine ⟨.cons s' .nil, ?_, ?_⟩
      · simp only [forBodyA]
        rw [htr] at hs' ⊢
        rw [List.cons_append] at hs' ⊢
        rw [forBody_stmt h1 (fun h => hb (h4 h)) hs']
        rfl
      · have := isEmpty_norm false s s' hn
        simp [normL, this, hn]
  | .cons s (.cons s2 r), h, rest, _ => by
    obtain ⟨b', hb', hn⟩ := readListA (.cons s (.cons s2 r)) h (.rbrace :: rest) (.inr ⟨_, rfl⟩)
    refine ⟨b', ?_, by rw [hn]⟩
    have := forBody_block hb'
    simpa [forBodyA, lastOf, leftOf, List.append_assoc] using this
theorem readListA : ∀ ss : Stmts, okLA ss = true → ∀ tail : List Tok, ListEnd tail →
    ∃ ss' : Stmts, stmts (listA ss ++ tail) = some (ss', tail) ∧ normL false ss' = normL false ss
  | .nil, _, tail, ht => ⟨.nil, by simpa [listA] using stmts_end ht, rfl⟩
  | .cons s rest, h, tail, ht => by
    simp only [okLA, Bool.and_eq_true] at h
    obtain ⟨rest', hr, hn⟩ := readListA rest h.2 tail ht
    cases he : isEmpty s with
    | true => exact ⟨rest', by simpa [listA, he] using hr, by simpa [normL, he] using hn⟩
    | false =>
      obtain ⟨s', hs, hns⟩ := readA s h.1 (listA rest ++ tail) (fun _ => listA_noElse rest h.2 tail ht)
      obtain ⟨t, r, htr, h1, h2, h3, h4⟩ := stmtA_head s h.1
      have he' := isEmpty_norm false s s' hns
      simp only [listA, he, List.append_assoc]
      rw [htr] at hs ⊢
      rw [if_neg (by simp), List.cons_append] at *
      cases hl : leavesSemi s with
      | true =>
        rw [hl] at hs
        refine ⟨.cons s' (.cons .empty rest'), stmts_cons h1 h2 hs (stmts_semi hr), ?_⟩
        have hz : isEmpty .empty = true := rfl
        simp [normL, he, he', hns, hn, hz]
      | false =>
        rw [hl] at hs
        refine ⟨.cons s' rest', stmts_cons h1 h2 hs hr, ?_⟩
        simp [normL, he, he', hns, hn]
end

end Verif.Emit
