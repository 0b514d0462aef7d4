import Verif.Emit.StmtJ

/-!
# C38 and C70: what the statement printers write is read back as the same program
-/

namespace Verif.Emit

/-- C38: whether the printer of `js_stmt.rs` writes all semicolons or leaves out those it takes for
superfluous, the parser reads back the statements that were printed, one by one, up to empty statements
and braces around bodies. Missing: the statements listed at `okSJ` and `okProgJ`; for each of them a
`…_violated` theorem below shows that the printed text is not read back. -/
theorem C38_roundtrip_partial (st : Style) (ss : Stmts) (h : okProgJ st ss = true) :
    ∃ (ts : List Tok) (ss' : Stmts), emitProgJ st ss = some ts ∧ program ts = some ss' ∧
      sameJ ss' ss := by
  simp only [okProgJ, Bool.and_eq_true] at h
  obtain ⟨⟨ss', h1, h2⟩, _⟩ := readListJ st ss none (by simpa using h.1) [] (.inl rfl) (fun _ => h.2)
  refine ⟨listJ st none ss, ss', ?_, ?_, h2⟩
  · rw [emitProgJ, okLJ_supported st ss false h.1]; rfl
  · rw [List.append_nil] at h1
    simp [program, h1]

/-- C38: leaving out semicolons makes no difference to what is read. -/
theorem C38_styles_agree_partial (ss : Stmts) (h1 : okProgJ .semicolons ss = true)
    (h2 : okProgJ .asiNewlines ss = true) :
    ∃ (ts us : List Tok) (p q : Stmts),
      emitProgJ .semicolons ss = some ts ∧ emitProgJ .asiNewlines ss = some us ∧
      program ts = some p ∧ program us = some q ∧ sameJ p q := by
  obtain ⟨ts, p, a1, a2, a3⟩ := C38_roundtrip_partial .semicolons ss h1
  obtain ⟨us, q, b1, b2, b3⟩ := C38_roundtrip_partial .asiNewlines ss h2
  exact ⟨ts, us, p, q, a1, b1, a2, b2, a3.trans b3.symm⟩

/-- C70: the parser reads back the program that the printer of `stmt.rs` has written, up to empty
statements in lists and a block as the body of `for`. Missing: the statements listed at `okSA`; for each
of them a `…_violated` theorem below shows that the printed text is not read back. -/
theorem C70_roundtrip_partial (ss : Stmts) (h : okLA ss = true) :
    ∃ ss' : Stmts, program (listA ss) = some ss' ∧ sameA ss' ss := by
  obtain ⟨ss', h1, h2⟩ := readListA ss h [] (.inl rfl)
  rw [List.append_nil] at h1
  exact ⟨ss', by simp [program, h1], h2⟩

/-- C70: programs with the same text are the same program. -/
theorem C70_injective_partial (p q : Stmts) (hp : okLA p = true) (hq : okLA q = true)
    (h : listA p = listA q) : sameA p q := by
  obtain ⟨p', a1, a2⟩ := C70_roundtrip_partial p hp
  obtain ⟨q', b1, b2⟩ := C70_roundtrip_partial q hq
  rw [h, b1] at a1
  simp only [Option.some.injEq] at a1
  subst a1
  exact a2.symm.trans b2

/-! ### Concrete cases -/

set_option hygiene false in
/-- Run the printer of `stmt.rs`, which is defined by well-founded recursion. -/
macro "printA" : tactic => `(tactic|
  simp (decide := true) [list, sampleStmtsA, listA, stmtA, forBodyA, isEmpty, exprStmtA, stmtParens, emitA, bodyA, wrap,
    precA, parens, headTok, initTok, optTok, labTok, declsTok, declTok, modeTok, itemsA, unTok, binTok,
    postTok, dotTok, callTok, brackTok, forceLeftA, forceRightA])

/-- A list. -/
def list : List Stmt → Stmts
  | [] => .nil
  | s :: ss => .cons s (list ss)

/-- `let a = b, c; -d; if (x) break L; else { y(); [empty] } for (var i = 0; i < n; i++) {…} /r/.t;` -/
def sampleStmts : Stmts :=
  list [.var_ .let_ [(1, some (.id 2)), (3, none)], .expr (.unary .neg (.id 4)), .empty,
    .ifElse (.id 5) (.brk (some 6)) (.block (list [.expr (.call false (.id 7) .nil), .empty])),
    .forT (.decl .var [(8, some (.num 0))]) (some (.binary .lt (.id 8) (.id 9)))
      (some (.post .incr (.id 8))) (list [.expr (.id 10), .expr (.regex 11), .brk none]),
    .expr (.member false (.regex 12) 13)]

example : okProgJ .asiNewlines sampleStmts = true ∧ okProgJ .semicolons sampleStmts = true := by
  decide +kernel

/-- The semicolons that are needed are there: in front of `/r/`. -/
example : emitProgJ .asiNewlines sampleStmts = some
    [.klet, .id 1, .eq, .id 2, .comma, .id 3, .nl, .minus, .id 4, .nl, .kif, .lp, .id 5, .rp,
     .lbrace, .kbreak, .id 6, .rbrace, .kelse, .lbrace, .id 7, .lp, .rp, .rbrace,
     .kfor, .lp, .kvar, .id 8, .eq, .num 0, .semi, .id 8, .lt, .id 9, .semi, .id 8, .plusplus, .rp,
     .lbrace, .id 10, .semi, .regex 11, .nl, .kbreak, .rbrace, .regex 12, .dot, .id 13] := by
  decide +kernel

/-- `if (a) while (b) { c(); } else do d: ; while (e); return; ({}); throw f;` … -/
def sampleStmtsA : Stmts :=
  list [.ifElse (.id 1) (.while_ (.id 2) (.block (list [.expr (.call false (.id 3) .nil)])))
      (.doWhile (.label 4 .empty) (.id 5)),
    .ret none, .expr (.obj 6), .throw (.id 7), .debugger, .cont (some 8),
    .forT .none none none (list [.block (list [.decl 9])]),
    .ifs (.id 10) (.ifs (.id 11) (.brk none)), .expr (.call false (.arrow 12 (.id 12)) .nil)]

example : okLA sampleStmtsA = true := by decide +kernel

example : listA sampleStmtsA =
    [.kif, .lp, .id 1, .rp, .kwhile, .lp, .id 2, .rp, .lbrace, .id 3, .lp, .rp, .semi, .rbrace, .kelse,
     .kdo, .id 4, .colon, .semi, .kwhile, .lp, .id 5, .rp, .semi,
     .kreturn, .semi, .lp, .obj 6, .rp, .semi, .kthrow, .id 7, .semi, .kdebugger, .semi,
     .kcontinue, .id 8, .semi, .kfor, .lp, .semi, .semi, .rp, .lbrace, .decl 9, .rbrace,
     .kif, .lp, .id 10, .rp, .kif, .lp, .id 11, .rp, .kbreak, .semi,
     .lp, .arrow 12, .id 12, .rp, .lp, .rp, .semi] := by printA

/-- The relations tell programs apart. -/
example : ¬ sameJ (list [.expr (.id 1), .expr (.id 2)]) (list [.expr (.binary .comma (.id 1) (.id 2))]) ∧
    ¬ sameA (list [.ifs (.id 1) (.ifElse (.id 2) (.expr (.id 3)) (.expr (.id 4)))])
      (list [.ifElse (.id 1) (.ifs (.id 2) (.expr (.id 3))) (.expr (.id 4))]) ∧
    ¬ sameA (list [.brk none]) (list []) := by
  unfold sameJ sameA
  decide +kernel

/-! ### Where the printers lose the program -/

theorem sample_forIn :
    isForIn [.id 1, .in_, .id 2, .semi, .semi, .rp, .lbrace, .rbrace] = true := by
  have h : exprMin [.in_] false 1 [.id 1, .in_, .id 2, .semi, .semi, .rp, .lbrace, .rbrace] =
      some (.id 1, [.in_, .id 2, .semi, .semi, .rp, .lbrace, .rbrace]) := by prun
  simp [isForIn, h]

set_option hygiene false in
/-- One step of running the statement parser on concrete tokens. -/
macro "sstep" : tactic => `(tactic|
  ((first
    | rw [loop.eq_def] | rw [operand.eq_def] | rw [newChain.eq_def] | rw [callArgs.eq_def]
    | rw [arrElems.eq_def] | rw [exprMin.eq_def] | rw [headerDeclarators.eq_def]
    | rw [declarators.eq_def] | rw [forBody.eq_def] | rw [stmt.eq_def] | rw [stmts.eq_def])
   try simp (decide := true) only [unaryOf, binaryOf, isYield, isArrow, expect, powDisallowed,
     isTarget, dropNl, BinOp.isAssignment, hasOperand, startsOperand, List.contains_cons,
     List.contains_nil, List.head?_cons, List.tail_cons, List.tail_nil, Option.bind_eq_bind, Option.bind_some,
     Option.bind_none, if_true, if_false, ite_true, ite_false, ↓reduceIte, Bool.false_eq_true,
     Bool.or_false, Bool.and_false, Bool.false_and, Bool.true_and, Bool.and_true, Bool.not_true,
     Bool.not_false, reduceCtorEq, beq_self_eq_true, Option.some.injEq, List.head?_nil,
     dropNls, skipSemi, jumpLabel, varMode, initialiser, sample_forIn, forInit, forPart, program]))

/-- Run the statement parser on concrete tokens. -/
macro "srun" : tactic => `(tactic| (unfold program; repeat sstep))

/-- A printed program is not read back. -/
theorem lostJ {st : Style} {ss : Stmts} {ts : List Tok} {p : Option Stmts}
    (h1 : emitProgJ st ss = some ts) (h2 : program ts = p) (h3 : ∀ q : Stmts, p = some q → ¬ sameJ q ss) :
    ¬ ∃ (ts : List Tok) (ss' : Stmts), emitProgJ st ss = some ts ∧ program ts = some ss' ∧
      sameJ ss' ss := by
  rintro ⟨us, q, a1, a2, a3⟩
  rw [h1] at a1
  simp only [Option.some.injEq] at a1
  subst a1
  exact h3 q (by rw [← h2, a2]) a3

theorem lostA {ss : Stmts} {ts : List Tok} {p : Option Stmts}
    (h1 : listA ss = ts) (h2 : program ts = p) (h3 : ∀ q : Stmts, p = some q → ¬ sameA q ss) :
    ¬ ∃ ss' : Stmts, program (listA ss) = some ss' ∧ sameA ss' ss := by
  rintro ⟨q, a2, a3⟩
  rw [h1] at a2
  exact h3 q (by rw [← h2, a2]) a3

/-- `x` and `(a, b) + c` on the next line are read as a call of `x`, and so are `x` and `(a = b).p`: the
check looks at the leftmost name and not at the parentheses in front of it. -/
theorem C38_paren_start_violated :
    (¬ ∃ (ts : List Tok) (ss' : Stmts), emitProgJ .asiNewlines (list [.expr (.id 1), .expr (.binary .add (.binary .comma (.id 2) (.id 3)) (.id 4))]) = some ts ∧
      program ts = some ss' ∧ sameJ ss' (list [.expr (.id 1), .expr (.binary .add (.binary .comma (.id 2) (.id 3)) (.id 4))])) ∧
    (¬ ∃ (ts : List Tok) (ss' : Stmts), emitProgJ .asiNewlines (list [.expr (.id 1), .expr (.member false (.binary .assign (.id 2) (.id 3)) 4)]) = some ts ∧
      program ts = some ss' ∧ sameJ ss' (list [.expr (.id 1), .expr (.member false (.binary .assign (.id 2) (.id 3)) 4)])) := by
  refine ⟨?_, ?_⟩
  · refine lostJ (ts := [.id 1, .nl, .lp, .id 2, .comma, .id 3, .rp, .plus, .id 4])
      (p := some (list [.expr (.binary .add (.call false (.id 1)
      (.item false (.id 2) (.item false (.id 3) .nil))) (.id 4))])) (by decide +kernel) (by srun) ?_
    rintro q ⟨⟩
    unfold sameJ
    decide +kernel
  · refine lostJ (ts := [.id 1, .nl, .lp, .id 2, .eq, .id 3, .rp, .dot, .id 4])
      (p := some (list [.expr (.member false (.call false (.id 1)
      (.item false (.binary .assign (.id 2) (.id 3)) .nil)) 4)])) (by decide +kernel) (by srun) ?_
    rintro q ⟨⟩
    unfold sameJ
    decide +kernel

/-- `x` and `typeof y` on the next line: the parser, which takes `typeof` for an operator between two
expressions, refuses it. -/
theorem C38_typeof_start_violated :
    (¬ ∃ (ts : List Tok) (ss' : Stmts), emitProgJ .asiNewlines (list [.expr (.id 1), .expr (.unary .typeof (.id 2))]) = some ts ∧
      program ts = some ss' ∧ sameJ ss' (list [.expr (.id 1), .expr (.unary .typeof (.id 2))])) := by
  refine lostJ (ts := [.id 1, .nl, .typeof, .id 2])
    (p := none) (by decide +kernel) (by srun) ?_
  rintro q ⟨⟩

/-- `let x = (a, b)` is written without the parentheses. -/
theorem C38_comma_initialiser_violated :
    (¬ ∃ (ts : List Tok) (ss' : Stmts), emitProgJ .semicolons (list [.var_ .let_ [(1, some (.binary .comma (.id 2) (.id 3)))]]) = some ts ∧
      program ts = some ss' ∧ sameJ ss' (list [.var_ .let_ [(1, some (.binary .comma (.id 2) (.id 3)))]])) ∧
    (¬ ∃ (ts : List Tok) (ss' : Stmts), emitProgJ .asiNewlines (list [.var_ .let_ [(1, some (.binary .comma (.id 2) (.id 3)))]]) = some ts ∧
      program ts = some ss' ∧ sameJ ss' (list [.var_ .let_ [(1, some (.binary .comma (.id 2) (.id 3)))]])) := by
  refine ⟨?_, ?_⟩
  · refine lostJ (ts := [.klet, .id 1, .eq, .id 2, .comma, .id 3, .semi])
      (p := some (list [.var_ .let_ [(1, some (.id 2)), (3, none)]])) (by decide +kernel) (by srun) ?_
    rintro q ⟨⟩
    unfold sameJ
    decide +kernel
  · refine lostJ (ts := [.klet, .id 1, .eq, .id 2, .comma, .id 3])
      (p := some (list [.var_ .let_ [(1, some (.id 2)), (3, none)]])) (by decide +kernel) (by srun) ?_
    rintro q ⟨⟩
    unfold sameJ
    decide +kernel

/-- `for ((a in b);;) {}` and `for (var x = (a in b);;) {}` are written without the parentheses. -/
theorem C38_for_in_violated :
    (¬ ∃ (ts : List Tok) (ss' : Stmts), emitProgJ .semicolons (list [.forT (.expr (.binary .in_ (.id 1) (.id 2))) none none .nil]) = some ts ∧
      program ts = some ss' ∧ sameJ ss' (list [.forT (.expr (.binary .in_ (.id 1) (.id 2))) none none .nil])) ∧
    (¬ ∃ (ts : List Tok) (ss' : Stmts), emitProgJ .semicolons (list [.forT (.decl .var [(3, some (.binary .in_ (.id 1) (.id 2)))]) none none .nil]) = some ts ∧
      program ts = some ss' ∧ sameJ ss' (list [.forT (.decl .var [(3, some (.binary .in_ (.id 1) (.id 2)))]) none none .nil])) := by
  refine ⟨?_, ?_⟩
  · refine lostJ (ts := [.kfor, .lp, .id 1, .in_, .id 2, .semi, .semi, .rp, .lbrace, .rbrace])
      (p := none) (by decide +kernel) (by srun) ?_
    rintro q ⟨⟩
  · refine lostJ (ts := [.kfor, .lp, .kvar, .id 3, .eq, .id 1, .in_, .id 2, .semi, .semi, .rp, .lbrace, .rbrace])
      (p := none) (by decide +kernel) (by srun) ?_
    rintro q ⟨⟩

/-- `if (a) { if (b) c; } else d;`, where the braces are only in the tree, is read with the `else` at the
inner `if`. -/
theorem C70_dangling_else_violated :
    (¬ ∃ ss' : Stmts, program (listA (list [.ifElse (.id 1) (.ifs (.id 2) (.expr (.id 3))) (.expr (.id 4))])) = some ss' ∧
      sameA ss' (list [.ifElse (.id 1) (.ifs (.id 2) (.expr (.id 3))) (.expr (.id 4))])) := by
  refine lostA (ts := [.kif, .lp, .id 1, .rp, .kif, .lp, .id 2, .rp, .id 3, .semi, .kelse, .id 4, .semi])
    (p := some (list [.ifs (.id 1) (.ifElse (.id 2) (.expr (.id 3)) (.expr (.id 4)))])) (by printA) (by srun) ?_
  rintro q ⟨⟩
  unfold sameA
  decide +kernel

/-- `if (a) break L; else b;`, `if (a) continue L; else b;`, `if (a) debugger; else b;` and
`if (a) do x; while (y); else b;` are refused: the parser does not take the semicolon. -/
theorem C70_semicolon_else_violated :
    (¬ ∃ ss' : Stmts, program (listA (list [.ifElse (.id 1) (.brk (some 2)) (.expr (.id 3))])) = some ss' ∧
      sameA ss' (list [.ifElse (.id 1) (.brk (some 2)) (.expr (.id 3))])) ∧
    (¬ ∃ ss' : Stmts, program (listA (list [.ifElse (.id 1) (.cont (some 2)) (.expr (.id 3))])) = some ss' ∧
      sameA ss' (list [.ifElse (.id 1) (.cont (some 2)) (.expr (.id 3))])) ∧
    (¬ ∃ ss' : Stmts, program (listA (list [.ifElse (.id 1) .debugger (.expr (.id 3))])) = some ss' ∧
      sameA ss' (list [.ifElse (.id 1) .debugger (.expr (.id 3))])) ∧
    (¬ ∃ ss' : Stmts, program (listA (list [.ifElse (.id 1) (.doWhile (.expr (.id 4)) (.id 5)) (.expr (.id 3))])) = some ss' ∧
      sameA ss' (list [.ifElse (.id 1) (.doWhile (.expr (.id 4)) (.id 5)) (.expr (.id 3))])) := by
  refine ⟨?_, ?_, ?_, ?_⟩
  · refine lostA (ts := [.kif, .lp, .id 1, .rp, .kbreak, .id 2, .semi, .kelse, .id 3, .semi])
      (p := none) (by printA) (by srun) ?_
    rintro q ⟨⟩
  · refine lostA (ts := [.kif, .lp, .id 1, .rp, .kcontinue, .id 2, .semi, .kelse, .id 3, .semi])
      (p := none) (by printA) (by srun) ?_
    rintro q ⟨⟩
  · refine lostA (ts := [.kif, .lp, .id 1, .rp, .kdebugger, .semi, .kelse, .id 3, .semi])
      (p := none) (by printA) (by srun) ?_
    rintro q ⟨⟩
  · refine lostA (ts := [.kif, .lp, .id 1, .rp, .kdo, .id 4, .semi, .kwhile, .lp, .id 5, .rp, .semi, .kelse, .id 3, .semi])
      (p := none) (by printA) (by srun) ?_
    rintro q ⟨⟩

/-- `({}).x;` and `(function () {})();` are written without the parentheses. -/
theorem C70_brace_start_violated :
    (¬ ∃ ss' : Stmts, program (listA (list [.expr (.member false (.obj 1) 2)])) = some ss' ∧
      sameA ss' (list [.expr (.member false (.obj 1) 2)])) ∧
    (¬ ∃ ss' : Stmts, program (listA (list [.expr (.call false (.func 1) .nil)])) = some ss' ∧
      sameA ss' (list [.expr (.call false (.func 1) .nil)])) := by
  refine ⟨?_, ?_⟩
  · refine lostA (ts := [.obj 1, .dot, .id 2, .semi])
      (p := none) (by printA) (by srun) ?_
    rintro q ⟨⟩
  · refine lostA (ts := [.func 1, .lp, .rp, .semi])
      (p := none) (by printA) (by srun) ?_
    rintro q ⟨⟩

/-- `let x = (a, b)` is written without the parentheses. -/
theorem C70_comma_initialiser_violated :
    (¬ ∃ ss' : Stmts, program (listA (list [.var_ .let_ [(1, some (.binary .comma (.id 2) (.id 3)))]])) = some ss' ∧
      sameA ss' (list [.var_ .let_ [(1, some (.binary .comma (.id 2) (.id 3)))]])) := by
  refine lostA (ts := [.klet, .id 1, .eq, .id 2, .comma, .id 3, .semi])
    (p := some (list [.var_ .let_ [(1, some (.id 2)), (3, none)]])) (by printA) (by srun) ?_
  rintro q ⟨⟩
  unfold sameA
  decide +kernel

/-- `for ((a in b);;) {}` and `for (var x = (a in b);;) {}` are written without the parentheses. -/
theorem C70_for_in_violated :
    (¬ ∃ ss' : Stmts, program (listA (list [.forT (.expr (.binary .in_ (.id 1) (.id 2))) none none .nil])) = some ss' ∧
      sameA ss' (list [.forT (.expr (.binary .in_ (.id 1) (.id 2))) none none .nil])) ∧
    (¬ ∃ ss' : Stmts, program (listA (list [.forT (.decl .var [(3, some (.binary .in_ (.id 1) (.id 2)))]) none none .nil])) = some ss' ∧
      sameA ss' (list [.forT (.decl .var [(3, some (.binary .in_ (.id 1) (.id 2)))]) none none .nil])) := by
  refine ⟨?_, ?_⟩
  · refine lostA (ts := [.kfor, .lp, .id 1, .in_, .id 2, .semi, .semi, .rp, .lbrace, .rbrace])
      (p := none) (by printA) (by srun) ?_
    rintro q ⟨⟩
  · refine lostA (ts := [.kfor, .lp, .kvar, .id 3, .eq, .id 1, .in_, .id 2, .semi, .semi, .rp, .lbrace, .rbrace])
      (p := none) (by printA) (by srun) ?_
    rintro q ⟨⟩

end Verif.Emit
