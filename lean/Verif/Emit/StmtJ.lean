import Verif.Emit.StmtA

/-!
# The printer that may leave out semicolons writes statements the parser reads back
-/

namespace Verif.Emit

theorem printedJ {e : Expr} (h : okJ e = true) : Printed e (exprJ e) := by
  have := printed_of_res (goodJ e h)
  simpa [exprJ, wrap_one] using this

/-! ### The first token of an expression -/

theorem bodyJ_badHead (t : Tok) (ht : badHead t = true) : ∀ e : Expr, okJ e = true →
    (bodyJ e).head? ≠ some t
  | .id _, _ => by cases t <;> simp_all [bodyJ, badHead]
  | .num _, _ => by cases t <;> simp_all [bodyJ, badHead]
  | .obj _, h => by simp [okJ] at h
  | .prim _, _ => by cases t <;> simp_all [bodyJ, badHead]
  | .tpl _, h => by simp [okJ] at h
  | .regex _, _ => by cases t <;> simp_all [bodyJ, badHead]
  | .func _, h => by simp [okJ] at h
  | .arr _, h => by simp [okJ] at h
  | .tagged _ _, h => by simp [okJ] at h
  | .arrow _ _, _ => by cases t <;> simp_all [bodyJ, badHead]
  | .unary op e, h => by
    cases t <;> simp [badHead] at ht <;> cases op <;> simp_all [bodyJ, unTok, okJ]
  | .post op e, h => by
    have hl : t ≠ .lp := by rintro rfl; simp [badHead] at ht
    have h : okJ e = true := by simpa [okJ] using h
    simp only [bodyJ]
    exact head_wrap hl (bodyJ_ne e h) (bodyJ_badHead t ht e h)
  | .binary b l r, h => by
    have hl : t ≠ .lp := by rintro rfl; simp [badHead] at ht
    simp only [okJ, Bool.and_eq_true] at h
    simp only [bodyJ]
    split
    · exact head_parens hl
    · exact head_wrap hl (bodyJ_ne l h.1.1.1.1) (bodyJ_badHead t ht l h.1.1.1.1)
  | .cond c a b, h => by
    have hl : t ≠ .lp := by rintro rfl; simp [badHead] at ht
    simp only [okJ, Bool.and_eq_true] at h
    simp only [bodyJ, List.append_assoc]
    exact head_wrap hl (bodyJ_ne c h.1.1) (bodyJ_badHead t ht c h.1.1)
  | .call opt f as, h => by
    have hl : t ≠ .lp := by rintro rfl; simp [badHead] at ht
    simp only [okJ, Bool.and_eq_true] at h
    simp only [bodyJ, List.append_assoc]
    exact head_wrap hl (bodyJ_ne f h.1) (bodyJ_badHead t ht f h.1)
  | .member opt o p, h => by
    have hl : t ≠ .lp := by rintro rfl; simp [badHead] at ht
    have h : okJ o = true := by simpa [okJ] using h
    simp only [bodyJ]
    exact head_wrap hl (bodyJ_ne o h) (bodyJ_badHead t ht o h)
  | .index opt o i, h => by
    have hl : t ≠ .lp := by rintro rfl; simp [badHead] at ht
    simp only [okJ, Bool.and_eq_true] at h
    simp only [bodyJ, List.append_assoc]
    exact head_wrap hl (bodyJ_ne o h.1) (bodyJ_badHead t ht o h.1)

theorem exprJ_badHead {e : Expr} (h : okJ e = true) :
    ∀ t : Tok, (exprJ e).head? = some t → badHead t = false := by
  intro t ht
  cases hb : badHead t with
  | false => rfl
  | true =>
    rw [exprJ, wrap_one] at ht
    exact absurd ht (bodyJ_badHead t hb e h)

theorem head_nowrap {P M : Nat} {ts tail : List Tok} (h : ¬ P < M) (hne : ts ≠ []) :
    (wrap P M ts ++ tail).head? = ts.head? := by
  rw [wrap, if_neg h]
  cases ts with
  | nil => exact absurd rfl hne
  | cons t r => rfl

/-- Without a parenthesis in front the text starts with the leftmost part. -/
theorem bodyJ_leftmost : ∀ e : Expr, okJ e = true → parenStart e = false →
    (bodyJ e).head? = (bodyJ (leftmost e)).head?
  | .id _, _, _ => rfl
  | .num _, _, _ => rfl
  | .obj _, h, _ => by simp [okJ] at h
  | .prim _, _, _ => rfl
  | .tpl _, h, _ => by simp [okJ] at h
  | .regex _, _, _ => rfl
  | .func _, h, _ => by simp [okJ] at h
  | .arr _, h, _ => by simp [okJ] at h
  | .tagged _ _, h, _ => by simp [okJ] at h
  | .arrow _ _, _, _ => rfl
  | .unary _ _, _, _ => rfl
  | .post op e, h, hp => by
    have h : okJ e = true := by simpa [okJ] using h
    simp only [parenStart, Bool.or_eq_false_iff, decide_eq_false_iff_not] at hp
    have hq : prec (.post op) = 17 := by cases op <;> decide
    simp only [bodyJ, hq]
    rw [head_nowrap hp.1 (bodyJ_ne e h), bodyJ_leftmost e h hp.2, leftmost]
  | .binary b l r, h, hp => by
    simp only [okJ, Bool.and_eq_true] at h
    simp only [parenStart, Bool.or_eq_false_iff, decide_eq_false_iff_not] at hp
    simp only [bodyJ, hp.1.2, Bool.false_eq_true, if_false]
    rw [head_nowrap hp.1.1 (bodyJ_ne l h.1.1.1.1), bodyJ_leftmost l h.1.1.1.1 hp.2, leftmost]
  | .cond c a b, h, hp => by
    simp only [okJ, Bool.and_eq_true] at h
    simp only [parenStart, Bool.or_eq_false_iff, decide_eq_false_iff_not] at hp
    have hq : prec .conditional + 1 = 5 := by decide
    simp only [bodyJ, List.append_assoc, hq]
    rw [head_nowrap hp.1 (bodyJ_ne c h.1.1), bodyJ_leftmost c h.1.1 hp.2, leftmost]
  | .call opt f as, h, hp => by
    simp only [okJ, Bool.and_eq_true] at h
    simp only [parenStart, Bool.or_eq_false_iff, decide_eq_false_iff_not] at hp
    simp only [bodyJ, List.append_assoc]
    rw [head_nowrap hp.1 (bodyJ_ne f h.1), bodyJ_leftmost f h.1 hp.2, leftmost]
  | .member opt o p, h, hp => by
    have h : okJ o = true := by simpa [okJ] using h
    simp only [parenStart, Bool.or_eq_false_iff, decide_eq_false_iff_not] at hp
    simp only [bodyJ]
    rw [head_nowrap hp.1 (bodyJ_ne o h), bodyJ_leftmost o h hp.2, leftmost]
  | .index opt o i, h, hp => by
    simp only [okJ, Bool.and_eq_true] at h
    simp only [parenStart, Bool.or_eq_false_iff, decide_eq_false_iff_not] at hp
    simp only [bodyJ, List.append_assoc]
    rw [head_nowrap hp.1 (bodyJ_ne o h.1), bodyJ_leftmost o h.1 hp.2, leftmost]

/-- The leftmost part is no compound. -/
def isLeft : Expr → Bool
  | .post _ _ | .binary _ _ _ | .cond _ _ _ | .call _ _ _ | .member _ _ _ | .index _ _ _
  | .tagged _ _ => false
  | _ => true

theorem leftmost_spec : ∀ e : Expr, okJ e = true →
    okJ (leftmost e) = true ∧ isLeft (leftmost e) = true ∧ exprStart e = exprStart (leftmost e)
  | .id _, _ => ⟨rfl, rfl, rfl⟩
  | .num _, _ => ⟨rfl, rfl, rfl⟩
  | .obj _, h => by simp [okJ] at h
  | .prim _, _ => ⟨rfl, rfl, rfl⟩
  | .tpl _, h => by simp [okJ] at h
  | .regex _, _ => ⟨rfl, rfl, rfl⟩
  | .func _, h => by simp [okJ] at h
  | .arr _, h => by simp [okJ] at h
  | .tagged _ _, h => by simp [okJ] at h
  | .arrow _ _, h => ⟨h, rfl, rfl⟩
  | .unary _ _, h => ⟨h, rfl, rfl⟩
  | .post op e, h => leftmost_spec e (by simpa [okJ] using h)
  | .binary b l r, h => leftmost_spec l (by simp only [okJ, Bool.and_eq_true] at h; exact h.1.1.1.1)
  | .cond c a b, h => leftmost_spec c (by simp only [okJ, Bool.and_eq_true] at h; exact h.1.1)
  | .call opt f as, h => leftmost_spec f (by simp only [okJ, Bool.and_eq_true] at h; exact h.1)
  | .member opt o p, h => leftmost_spec o (by simpa [okJ] using h)
  | .index opt o i, h => leftmost_spec o (by simp only [okJ, Bool.and_eq_true] at h; exact h.1)

/-- An expression that may follow and for which no semicolon is written does not go on with the one
before it. -/
theorem exprJ_joins {e : Expr} (h : okJ e = true) (ha : okAfter (.expr e) = true)
    (hz : isHazard (exprStart e) = false) :
    ∀ t : Tok, (exprJ e).head? = some t → joins t = false := by
  intro t ht
  obtain ⟨h1, h2, h3⟩ := leftmost_spec e h
  rw [h3] at hz
  rw [exprJ, wrap_one] at ht
  simp only [okAfter, Bool.or_eq_true, Bool.and_eq_true, Bool.not_eq_true'] at ha
  have hg : guarded e = false := by
    unfold guarded
    split <;> first | rfl | (rename_i heq; rw [heq] at hz; simp [exprStart, isHazard] at hz)
  rw [hg] at ha
  simp only [Bool.false_eq_true, false_or] at ha
  rw [bodyJ_leftmost e h ha.1] at ht
  have ha := ha.2
  unfold guarded at hg
  unfold typeofStart at ha
  generalize leftmost e = l at *
  cases l with
  | unary op x => cases op <;> simp_all [bodyJ, unTok, okJ] <;> subst ht <;> rfl
  | _ => simp_all [bodyJ, okJ, isLeft] <;> subst ht <;> rfl

/-! ### Statements -/

theorem stmtHead_ne {t : Tok} (h : stmtHead t = true) :
    t ≠ .nl ∧ t ≠ .rbrace ∧ t ≠ .kelse ∧ t ≠ .semi := by
  cases t <;> simp_all [stmtHead, startsOperand]

theorem stmtJ_head (st : Style) (s : Stmt) (h : okSJ st s = true) (he : isEmpty s = false) :
    ∃ (t : Tok) (r : List Tok), stmtJ st s = t :: r ∧ stmtHead t = true ∧
      (okAfter s = true → isHazard (stmtStart s) = false → joins t = false) := by
  cases s with
  | empty => simp [isEmpty] at he
  | block b => simp only [stmtJ]; exact ⟨_, _, rfl, rfl, fun _ _ => rfl⟩
  | brk l => simp only [stmtJ]; exact ⟨_, _, rfl, rfl, fun _ _ => rfl⟩
  | expr e =>
    have h : okJ e = true := by simpa [okSJ] using h
    obtain ⟨t, r, hr, ht⟩ := (printedJ h).starts
    refine ⟨t, r ++ semiJ st, by simp [stmtJ, hr], by simp [stmtHead, ht], ?_⟩
    intro ha hz
    exact exprJ_joins h ha hz t (by simp [hr])
  | ifs c t => simp only [stmtJ]; exact ⟨_, _, rfl, rfl, fun _ _ => rfl⟩
  | ifElse c t f => simp only [stmtJ]; exact ⟨_, _, rfl, rfl, fun _ _ => rfl⟩
  | while_ c b => simp only [stmtJ]; exact ⟨_, _, rfl, rfl, fun _ _ => rfl⟩
  | forT i c p b => simp only [stmtJ, headTok]; exact ⟨_, _, rfl, rfl, fun _ _ => rfl⟩
  | var_ m ds => simp only [stmtJ]; refine ⟨_, _, rfl, ?_⟩; cases m <;> exact ⟨rfl, fun _ _ => rfl⟩
  | _ => simp [okSJ] at h

/-- What may follow the statement. -/
def RestJ (st : Style) (s : Stmt) (rest : List Tok) : Prop :=
  match s with
  | .ifs _ _ => NoElse rest
  | .expr _ => st = .asiNewlines → After true rest
  | .var_ _ ds => st = .asiNewlines → After (endsWithInit ds) rest
  | .brk none => st = .asiNewlines → After false rest ∧ rest ≠ []
  | _ => True

/-- What the parser leaves. -/
def leftJ (st : Style) (s : Stmt) (rest : List Tok) : List Tok :=
  match st, s with
  | .semicolons, .brk (some _) => .semi :: rest
  | .semicolons, _ => rest
  | .asiNewlines, .expr _ => skipSemi rest
  | .asiNewlines, .var_ _ _ => skipSemi rest
  | .asiNewlines, .brk none => skipSemi rest
  | .asiNewlines, _ => rest

theorem restJ_rbrace (st : Style) (s : Stmt) (r : List Tok) : RestJ st s (.rbrace :: r) := by
  unfold RestJ
  split
  · exact noElse_head (by simp) (by simp)
  · intro _; trivial
  · intro _; trivial
  · intro _; exact ⟨trivial, by simp⟩
  · trivial

theorem leftJ_rbrace (st : Style) (s : Stmt) (r : List Tok) :
    leftJ st s (.rbrace :: r) = .rbrace :: r ∨ leftJ st s (.rbrace :: r) = .semi :: .rbrace :: r := by
  unfold leftJ
  split
  all_goals first | exact .inr rfl | exact .inl rfl

theorem asBlockJ_eq (st : Style) (s : Stmt) (he : isEmpty s = false) (hb : ∀ b : Stmts, s ≠ .block b)
    (h : okSJ st s = true) : asBlockJ st s = .lbrace :: stmtJ st s ++ [.rbrace] := by
  cases s with
  | empty => simp [isEmpty] at he
  | block b => exact absurd rfl (hb b)
  | brk l => simp only [asBlockJ, stmtJ]
  | expr e => simp only [asBlockJ, stmtJ]
  | ifs c t => simp only [asBlockJ, stmtJ]
  | ifElse c t f => simp only [asBlockJ, stmtJ]
  | while_ c b => simp only [asBlockJ, stmtJ]
  | forT i c p b => simp only [asBlockJ, stmtJ]
  | var_ m ds => simp only [asBlockJ, stmtJ]
  | _ => simp [okSJ] at h

theorem inBraces_norm {s : Stmt} (he : isEmpty s = false) (hb : ∀ b : Stmts, s ≠ .block b) :
    inBraces (norm true s) = .block (.cons (norm true s) .nil) := by
  cases s <;> first | rfl | exact absurd rfl (hb _) | simp [isEmpty] at he

/-- How a statement is read back. -/
def ReadJ (st : Style) (s : Stmt) : Prop :=
  ∀ rest : List Tok, RestJ st s rest →
    ∃ s' : Stmt, stmt (stmtJ st s ++ rest) = some (s', leftJ st s rest) ∧ norm true s' = norm true s

theorem read_asBlock {st : Style} {s : Stmt} (h : okSJ st s = true)
    (hr : isEmpty s = false → ReadJ st s) (rest : List Tok) :
    ∃ s' : Stmt, stmt (asBlockJ st s ++ rest) = some (s', rest) ∧
      inBraces (norm true s') = inBraces (norm true s) := by
  cases he : isEmpty s with
  | true =>
    obtain rfl := isEmpty_eq he
    refine ⟨.block .nil, ?_, rfl⟩
    have := stmt_block (stmts_end (tail := .rbrace :: rest) (.inr ⟨_, rfl⟩))
    simpa [asBlockJ] using this
  | false =>
    have hr := hr he
    by_cases hb : ∃ b : Stmts, s = .block b
    · obtain ⟨b, rfl⟩ := hb
      obtain ⟨s', hs, hn⟩ := hr rest trivial
      refine ⟨s', ?_, by rw [hn]⟩
      have : leftJ st (.block b) rest = rest := by cases st <;> rfl
      rw [this] at hs
      simpa [asBlockJ, stmtJ] using hs
    · have hb : ∀ b : Stmts, s ≠ .block b := fun b h => hb ⟨b, h⟩
      obtain ⟨s', hs, hn⟩ := hr (.rbrace :: rest) (restJ_rbrace st s rest)
      obtain ⟨t, r, htr, hh, _⟩ := stmtJ_head st s h he
      obtain ⟨n1, n2, _, _⟩ := stmtHead_ne hh
      rw [htr, List.cons_append] at hs
      have he' := isEmpty_norm true s s' hn
      have hz : isEmpty .empty = true := rfl
      rw [asBlockJ_eq st s he hb h, inBraces_norm he hb, htr]
      rcases leftJ_rbrace st s rest with hl | hl
      · rw [hl] at hs
        have := stmt_block (stmts_cons n1 n2 hs (stmts_end (.inr ⟨rest, rfl⟩)))
        refine ⟨_, by simpa [List.append_assoc] using this, ?_⟩
        simp [norm, normL, inBraces, he, he', hn]
      · rw [hl] at hs
        have := stmt_block (stmts_cons n1 n2 hs (stmts_semi (stmts_end (.inr ⟨rest, rfl⟩))))
        refine ⟨_, by simpa [List.append_assoc] using this, ?_⟩
        simp [norm, normL, inBraces, he, he', hn, hz]

/-! ### Lists -/

theorem noElse_nl {t : Tok} {r : List Tok} (h : t ≠ .kelse) : NoElse (.nl :: t :: r) := by
  intro q hq
  simp only [dropNls, List.cons.injEq] at hq
  exact h hq.1

/-- What follows a statement of a list. -/
theorem list_rest (st : Style) (p : Stmt) (hp : okSJ st p = true) : ∀ (ss : Stmts),
    okLJ st (endsOpen p) ss = true → ∀ tail : List Tok, ListEnd tail →
    (tail = [] → isBareBreak p = false) → RestJ st p (listJ st (some p) ss ++ tail)
  | .nil, _, tail, ht, hb => by
    rcases ht with rfl | ⟨r, rfl⟩
    · have hb := hb rfl
      simp only [listJ, List.append_nil]
      unfold RestJ
      split
      · exact noElse_end (.inl rfl)
      · intro _; trivial
      · intro _; trivial
      · simp [isBareBreak] at hb
      · trivial
    · simpa [listJ] using restJ_rbrace st p r
  | .cons s rest, h, tail, ht, hb => by
    cases he : isEmpty s with
    | true =>
      simp only [okLJ, he, if_true] at h
      simp only [listJ, he, if_true]
      exact list_rest st p hp rest h tail ht hb
    | false =>
      simp only [okLJ, he, Bool.false_eq_true, if_false, Bool.and_eq_true, Bool.or_eq_true,
        decide_eq_true_eq, Bool.not_eq_true'] at h
      obtain ⟨⟨h1, h2⟩, _⟩ := h
      obtain ⟨t, r, htr, hh, hj⟩ := stmtJ_head st s h1 he
      obtain ⟨n1, n2, n3, n4⟩ := stmtHead_ne hh
      simp only [listJ, he, Bool.false_eq_true, if_false, htr]
      cases st with
      | semicolons =>
        unfold RestJ
        split
        · simp only [reduceCtorEq, if_false, List.nil_append, List.cons_append]
          exact noElse_head n1 n3
        all_goals first | trivial | (intro hst; simp at hst)
      | asiNewlines =>
        simp only [reduceCtorEq, false_or] at h2
        simp only [if_true]
        unfold RestJ
        split
        · simp only [separatorBetween]
          split
          · simp only [sepToks, List.nil_append, List.cons_append]; exact noElse_head n1 n3
          · exact noElse_head (by simp) (by simp)
          · split
            · exact noElse_head (by simp) (by simp)
            · exact noElse_nl n3
        · intro _
          simp only [separatorBetween, leafEnd, tailExpr, Bool.and_true]
          split
          · trivial
          · rename_i hz
            exact ⟨hh, fun _ => hj (by simpa [endsOpen] using h2) (by simpa using hz)⟩
        · rename_i m ds
          intro _
          simp only [separatorBetween, leafEnd]
          by_cases hz : (isHazard (stmtStart s) && tailExpr (.var_ m ds)) = true
          · rw [if_pos hz]; trivial
          · rw [if_neg hz]
            simp only [tailExpr] at hz
            refine ⟨hh, fun ho => ?_⟩
            rw [ho] at hz
            have : endsOpen (.var_ m ds) = true := ho
            exact hj (by simpa [this] using h2) (by simpa using hz)
        · intro _
          simp only [separatorBetween, leafEnd, tailExpr, Bool.and_false, Bool.false_eq_true, if_false]
          exact ⟨⟨hh, by simp⟩, by simp [sepToks]⟩
        · trivial

/-- The two ways a list is read. -/
def ReadL (st : Style) (prev : Option Stmt) (ss : Stmts) (tail : List Tok) : Prop :=
  (∃ ss' : Stmts, stmts (listJ st prev ss ++ tail) = some (ss', tail) ∧
    normL true ss' = normL true ss) ∧
  (∃ ss' : Stmts, stmts (skipSemi (listJ st prev ss ++ tail)) = some (ss', tail) ∧
    normL true ss' = normL true ss)

theorem ReadL.left {st : Style} {prev : Option Stmt} {ss : Stmts} {tail : List Tok}
    (h : ReadL st prev ss tail) (s : Stmt) :
    ∃ ss' : Stmts, stmts (leftJ st s (listJ st prev ss ++ tail)) = some (ss', tail) ∧
      normL true ss' = normL true ss := by
  obtain ⟨⟨a, ha, hna⟩, h2⟩ := h
  unfold leftJ
  split
  · exact ⟨.cons .empty a, stmts_semi ha, by
      have hz : isEmpty .empty = true := rfl
      simp [normL, hz, hna]⟩
  all_goals first | exact ⟨a, ha, hna⟩ | exact h2

theorem readL_cons {st : Style} {prev : Option Stmt} {s : Stmt} {rest : Stmts} {tail : List Tok}
    (h : okSJ st s = true) (he : isEmpty s = false) (hr : ReadJ st s)
    (hrest : RestJ st s (listJ st (some s) rest ++ tail)) (hl : ReadL st (some s) rest tail) :
    ReadL st prev (.cons s rest) tail := by
  obtain ⟨s', hs, hn⟩ := hr _ hrest
  obtain ⟨rest', hrs, hnr⟩ := hl.left s
  obtain ⟨t, r, htr, hh, _⟩ := stmtJ_head st s h he
  obtain ⟨n1, n2, n3, n4⟩ := stmtHead_ne hh
  rw [htr, List.cons_append] at hs
  have hc := stmts_cons n1 n2 hs hrs
  have he' := isEmpty_norm true s s' hn
  have hz : isEmpty .empty = true := rfl
  have hnc : normL true (.cons s' rest') = normL true (.cons s rest) := by
    simp [normL, he, he', hn, hnr]
  have hnc2 : normL true (.cons .empty (.cons s' rest')) = normL true (.cons s rest) := by
    rw [← hnc]; simp [normL, hz]
  have hX : ∀ sep : Separator,
      (∃ ss' : Stmts, stmts (sepToks sep ++ t :: (r ++ (listJ st (some s) rest ++ tail))) =
        some (ss', tail) ∧ normL true ss' = normL true (.cons s rest)) ∧
      (∃ ss' : Stmts, stmts (skipSemi (sepToks sep ++ t :: (r ++ (listJ st (some s) rest ++ tail)))) =
        some (ss', tail) ∧ normL true ss' = normL true (.cons s rest)) := by
    intro sep
    cases sep with
    | none =>
      simp only [sepToks, List.nil_append, skipSemi_head n1 n4]
      exact ⟨⟨_, hc, hnc⟩, ⟨_, hc, hnc⟩⟩
    | newline =>
      have : ∀ q : List Tok, skipSemi (.nl :: t :: q) = .nl :: t :: q := by
        intro q; unfold skipSemi; simp only [dropNls]
        split
        · rename_i heq; simp only [List.cons.injEq] at heq; exact absurd heq.1 n4
        · rfl
      simp only [sepToks, List.cons_append, List.nil_append, this, stmts_nl n1]
      exact ⟨⟨_, hc, hnc⟩, ⟨_, hc, hnc⟩⟩
    | semicolon =>
      have : ∀ q : List Tok, skipSemi (.semi :: q) = q := fun _ => rfl
      simp only [sepToks, List.cons_append, List.nil_append, this]
      exact ⟨⟨_, stmts_semi hc, hnc2⟩, ⟨_, hc, hnc⟩⟩
  unfold ReadL
  simp only [listJ, he, Bool.false_eq_true, if_false, htr, List.append_assoc, List.cons_append]
  split
  · exact hX _
  · simpa [sepToks] using hX .none

theorem readJ_expr {st : Style} {e : Expr} (h : okJ e = true) : ReadJ st (.expr e) := by
  intro rest hr
  refine ⟨.expr e, ?_, rfl⟩
  cases st with
  | semicolons =>
    have := stmt_expr (printedJ h) (exprJ_badHead h) (rest := .semi :: rest) trivial
    simpa [stmtJ, semiJ, leftJ, skipSemi, dropNls] using this
  | asiNewlines =>
    have := stmt_expr (printedJ h) (exprJ_badHead h) (rest := rest) (hr rfl)
    simpa [stmtJ, semiJ, leftJ] using this

theorem readJ_var {st : Style} {m : VarMode} {ds : List Declarator} (h : okDecls okJ ds = true) :
    ReadJ st (.var_ m ds) := by
  intro rest hr
  obtain ⟨h1, h2⟩ := declsOK_of (pr := exprJ) (fun e he => printedJ he) h
  refine ⟨.var_ m ds, ?_, rfl⟩
  cases st with
  | semicolons =>
    have := stmt_var exprJ m ds h1 h2 (.semi :: rest) trivial
    simpa [stmtJ, semiJ, leftJ, skipSemi, dropNls] using this
  | asiNewlines =>
    have := stmt_var exprJ m ds h1 h2 rest (hr rfl)
    simpa [stmtJ, semiJ, leftJ] using this

theorem jump_none {rest : List Tok} (h : After false rest) (hn : rest ≠ []) :
    jumpLabel rest = some (none, skipSemi rest) := by
  unfold After at h
  split at h
  · exact absurd rfl hn
  · rfl
  · rfl
  · rename_i t r
    obtain ⟨n1, n2, n3, n4⟩ := stmtHead_ne h.1
    unfold skipSemi
    cases t <;> first | rfl | exact absurd rfl n4
  · exact h.elim

theorem readJ_brk {st : Style} {l : Option Nat} : ReadJ st (.brk l) := by
  intro rest hr
  refine ⟨.brk l, ?_, rfl⟩
  rw [stmt.eq_def]
  cases st with
  | semicolons =>
    simp only [stmtJ, semiJ, List.cons_append, dropNls, List.append_assoc, List.nil_append, labTok_jump,
      Option.bind_eq_bind, Option.bind_some]
    cases l <;> rfl
  | asiNewlines =>
    cases l with
    | some n => rfl
    | none =>
      obtain ⟨h1, h2⟩ := hr rfl
      simp only [stmtJ, semiJ, labTok, List.cons_append, dropNls, List.nil_append,
        jump_none h1 h2, Option.bind_eq_bind, Option.bind_some]
      rfl

mutual
theorem readJ (st : Style) : ∀ s : Stmt, okSJ st s = true → isEmpty s = false → ReadJ st s
  | .empty, _, he => by simp [isEmpty] at he
  | .block b, h, _ => by
    intro rest _
    obtain ⟨⟨b', hb, hn⟩, _⟩ := readListJ st b none (by simpa [okSJ] using h) (.rbrace :: rest)
      (.inr ⟨_, rfl⟩) (by simp)
    refine ⟨.block b', ?_, by simp [norm, hn]⟩
    have hl : leftJ st (.block b) rest = rest := by cases st <;> rfl
    rw [hl]
    simpa [stmtJ, List.append_assoc] using stmt_block hb
  | .brk l, _, _ => readJ_brk
  | .expr e, h, _ => readJ_expr (by simpa [okSJ] using h)
  | .var_ m ds, h, _ => readJ_var (by simpa [okSJ] using h)
  | .ifs c t, h, _ => by
    intro rest hr
    simp only [okSJ, Bool.and_eq_true] at h
    obtain ⟨t', ht, hn⟩ := read_asBlock h.2 (readJ st t h.2) rest
    refine ⟨.ifs c t', ?_, by simp [norm, hn]⟩
    have hl : leftJ st (.ifs c t) rest = rest := by cases st <;> rfl
    rw [hl]
    simpa [stmtJ, List.append_assoc] using stmt_ifs (printedJ h.1) ht hr
  | .ifElse c t f, h, _ => by
    intro rest hr
    simp only [okSJ, Bool.and_eq_true] at h
    obtain ⟨f', hf, hnf⟩ := read_asBlock h.2 (readJ st f h.2) rest
    obtain ⟨t', ht, hnt⟩ := read_asBlock h.1.2 (readJ st t h.1.2) (.kelse :: (asBlockJ st f ++ rest))
    refine ⟨.ifElse c t' f', ?_, by simp [norm, hnf, hnt]⟩
    have hl : leftJ st (.ifElse c t f) rest = rest := by cases st <;> rfl
    rw [hl]
    simpa [stmtJ, List.append_assoc] using stmt_ifElse (printedJ h.1.1) ht hf
  | .while_ c b, h, _ => by
    intro rest hr
    simp only [okSJ, Bool.and_eq_true] at h
    obtain ⟨b', hb, hn⟩ := read_asBlock h.2 (readJ st b h.2) rest
    refine ⟨.while_ c b', ?_, by simp [norm, hn]⟩
    have hl : leftJ st (.while_ c b) rest = rest := by cases st <;> rfl
    rw [hl]
    simpa [stmtJ, List.append_assoc] using stmt_while (printedJ h.1) hb
  | .forT i c p b, h, _ => by
    intro rest _
    simp only [okSJ, Bool.and_eq_true] at h
    obtain ⟨⟨⟨hi, hc⟩, hp⟩, hb⟩ := h
    obtain ⟨⟨b', hb', hn⟩, _⟩ := readListJ st b none hb (.rbrace :: rest) (.inr ⟨_, rfl⟩) (by simp)
    obtain ⟨h1, h2⟩ := initOK_of (fun e he => printedJ he) hi
    refine ⟨.forT i c p b', ?_, by simp [norm, hn]⟩
    have hl : leftJ st (.forT i c p b) rest = rest := by cases st <;> rfl
    rw [hl]
    have := stmt_for exprJ h1 h2 (optOK_of (fun e he => printedJ he) hc)
      (optOK_of (fun e he => printedJ he) hp) (forBody_block hb')
    simpa [stmtJ, List.append_assoc] using this
  | .doWhile _ _, h, _ => by simp [okSJ] at h
  | .cont _, h, _ => by simp [okSJ] at h
  | .ret _, h, _ => by simp [okSJ] at h
  | .throw _, h, _ => by simp [okSJ] at h
  | .label _ _, h, _ => by simp [okSJ] at h
  | .debugger, h, _ => by simp [okSJ] at h
  | .decl _, h, _ => by simp [okSJ] at h
theorem readListJ (st : Style) : ∀ (ss : Stmts) (prev : Option Stmt),
    okLJ st (prev.any endsOpen) ss = true → ∀ tail : List Tok, ListEnd tail →
    (tail = [] → noBareBreak ss = true) → ReadL st prev ss tail
  | .nil, prev, _, tail, ht, _ => by
    have h1 : stmts tail = some (.nil, tail) := stmts_end ht
    have h2 : skipSemi tail = tail := by rcases ht with rfl | ⟨r, rfl⟩ <;> rfl
    unfold ReadL
    simp only [listJ, List.nil_append, h2]
    exact ⟨⟨_, h1, rfl⟩, ⟨_, h1, rfl⟩⟩
  | .cons s rest, prev, h, tail, ht, hb => by
    cases he : isEmpty s with
    | true =>
      simp only [okLJ, he, if_true] at h
      have := readListJ st rest prev h tail ht (fun hz => by
        have := hb hz
        simp only [noBareBreak, Bool.and_eq_true] at this
        exact this.2)
      unfold ReadL at this ⊢
      simp only [listJ, he, if_true, normL]
      exact this
    | false =>
      simp only [okLJ, he, Bool.false_eq_true, if_false, Bool.and_eq_true] at h
      have hb1 : tail = [] → isBareBreak s = false := fun hz => by
        have := hb hz
        simp only [noBareBreak, Bool.and_eq_true, Bool.not_eq_true'] at this
        exact this.1
      have hb2 : tail = [] → noBareBreak rest = true := fun hz => by
        have := hb hz
        simp only [noBareBreak, Bool.and_eq_true] at this
        exact this.2
      have hl := readListJ st rest (some s) (by simpa using h.2) tail ht hb2
      exact readL_cons h.1.1 he (readJ st s h.1.1 he)
        (list_rest st s h.1.1 rest h.2 tail ht hb1) hl
end

/-! ### The printer does not refuse such programs -/

theorem all_supported {ds : List Declarator} (h : okDecls okJ ds = true) :
    (ds.all fun d => d.2.all supportedJ) = true := by
  simp only [okDecls, Bool.and_eq_true, List.all_eq_true] at h ⊢
  intro d hd
  have := h.2 d hd
  cases hd2 : d.2 with
  | none => rfl
  | some e =>
    rw [hd2] at this
    simp only [Option.all_some, Bool.and_eq_true] at this ⊢
    exact okJ_supported e this.1

theorem opt_supported {o : Option Expr} (h : o.all okJ = true) : o.all supportedJ = true := by
  cases o with
  | none => rfl
  | some e => exact okJ_supported e (by simpa using h)

mutual
theorem okSJ_supported (st : Style) : ∀ s : Stmt, okSJ st s = true → supportedSJ s = true
  | .empty, _ => rfl
  | .block b, h => by simpa [supportedSJ] using okLJ_supported st b false (by simpa [okSJ] using h)
  | .brk l, _ => rfl
  | .expr e, h => by simpa [supportedSJ] using okJ_supported e (by simpa [okSJ] using h)
  | .var_ m ds, h => by
    simp only [supportedSJ]
    exact all_supported (by simpa [okSJ] using h)
  | .ifs c t, h => by
    simp only [okSJ, Bool.and_eq_true] at h
    simp [supportedSJ, okJ_supported c h.1, okSJ_supported st t h.2]
  | .ifElse c t f, h => by
    simp only [okSJ, Bool.and_eq_true] at h
    simp [supportedSJ, okJ_supported c h.1.1, okSJ_supported st t h.1.2, okSJ_supported st f h.2]
  | .while_ c b, h => by
    simp only [okSJ, Bool.and_eq_true] at h
    simp [supportedSJ, okJ_supported c h.1, okSJ_supported st b h.2]
  | .forT i c p b, h => by
    simp only [okSJ, Bool.and_eq_true] at h
    obtain ⟨⟨⟨hi, hc⟩, hp⟩, hb⟩ := h
    simp only [okInit, Bool.and_eq_true] at hi
    simp only [supportedSJ, Bool.and_eq_true]
    refine ⟨⟨⟨?_, opt_supported hc⟩, opt_supported hp⟩, okLJ_supported st b false hb⟩
    cases i with
    | none => rfl
    | expr e => exact okJ_supported e hi.1
    | decl m ds => exact all_supported hi.1
  | .doWhile _ _, h => by simp [okSJ] at h
  | .cont _, h => by simp [okSJ] at h
  | .ret _, h => by simp [okSJ] at h
  | .throw _, h => by simp [okSJ] at h
  | .label _ _, h => by simp [okSJ] at h
  | .debugger, h => by simp [okSJ] at h
  | .decl _, h => by simp [okSJ] at h
theorem okLJ_supported (st : Style) : ∀ (ss : Stmts) (op : Bool), okLJ st op ss = true →
    supportedLJ ss = true
  | .nil, _, _ => rfl
  | .cons s rest, op, h => by
    simp only [okLJ] at h
    split at h
    · rename_i he
      obtain rfl := isEmpty_eq he
      simp [supportedLJ, supportedSJ, okLJ_supported st rest op h]
    · simp only [Bool.and_eq_true] at h
      simp [supportedLJ, okSJ_supported st s h.1.1, okLJ_supported st rest _ h.2]
end

end Verif.Emit
