import Verif.Emit.EmitH
import Verif.Emit.EmitJ

/-!
# C37: what the printers write is read back as the same expression
-/

namespace Verif.Emit

theorem ends_follow {term : List Tok} {asi : Bool} {rest : List Tok} (h : Ends term asi rest)
    (k : Nat) : StopsAt term asi k rest ∧ Follow term asi k rest := by
  obtain ⟨h1, h2⟩ := h
  have hs : StopsAt term asi k rest := by
    cases rest with
    | nil => exact h1
    | cons t r =>
      by_cases hn : t = .nl
      · subst hn
        cases r with
        | nil =>
          rcases h1 with h1 | ⟨ha, _⟩
          · exact .inl h1
          · exact .inr (.inl ⟨ha, .inr ⟨rfl, trivial⟩⟩)
        | cons u q =>
          refine .inr (.inl ⟨h1.1, .inr ⟨rfl, ?_⟩⟩)
          have := h1.2
          cases u <;> simp_all [NoJoin, joins, binaryOf]
      · have h1' : t ∈ term ∨ (asi = true ∧ (t = .rbrace ∨ t = .nl)) := by
          split at h1
          · simp_all
          · simp_all
          · simp_all
        rcases h1' with h | ⟨ha, h | h⟩
        · exact .inl h
        · exact .inr (.inl ⟨ha, .inl h⟩)
        · exact absurd h hn
  exact ⟨hs, .inr ⟨hs, fun _ => h2⟩⟩

theorem roundTrip_of_res {e : Expr} {ea : Bool} {ts : List Tok} {print : Expr → List Tok}
    (hp : print e = ts) (h : Res e ea ts) : RoundTrip print e := by
  intro term asi rest ht he hc hi
  obtain ⟨k, hb, _⟩ := h
  have hsh := sh_parse (Sh.bare 1 e k ts (precA_pos e) hb)
  rw [hp]
  exact hsh.run term asi rest ht (Nat.le_refl _) (fun hm => .inr (not_comma_prec (hc hm)))
    (fun a => hp ▸ hi a) (ends_follow he k).2 (ends_follow he 1).1

/-- C37 (syntax tree printer): every expression of `okA` is read back from its printed form as the
same tree, in every context in which an expression may stand. Missing: the expressions outside
`okA`, for which the statement is false, see the `_violated` theorems below. -/
theorem C37_ast_roundtrip_partial (e : Expr) (h : okA e = true) : RoundTrip emitA e :=
  roundTrip_of_res (wrap_one e _) (goodA e h)

/-- C37 (lowered form printer): the same for `okH`. -/
theorem C37_hir_roundtrip_partial (e : Expr) (h : okH e = true) : RoundTrip emitH e :=
  roundTrip_of_res (wrap_zero _ _) (goodH e h)

/-- C37 (third printer): every expression of `okJ` is printed, and read back from its printed form as
the same tree. -/
theorem C37_js_roundtrip_partial (e : Expr) (h : okJ e = true) :
    ∃ ts : List Tok, emitJ e = some ts ∧ RoundTrip (fun _ => ts) e := by
  refine ⟨bodyJ e, ?_, roundTrip_of_res rfl (goodJ e h)⟩
  simp [emitJ, okJ_supported e h, wrap_one]

/-- Two printable expressions with the same text are the same expression. -/
theorem C37_ast_injective_partial (e₁ e₂ : Expr) (h₁ : okA e₁ = true) (h₂ : okA e₂ = true)
    (h : emitA e₁ = emitA e₂) : e₁ = e₂ := by
  have a := C37_ast_roundtrip_partial e₁ h₁ [.semi] true [.semi]
    (by simp [Terminators]) (by simp [Ends]) (by simp) (by simp)
  have b := C37_ast_roundtrip_partial e₂ h₂ [.semi] true [.semi]
    (by simp [Terminators]) (by simp [Ends]) (by simp) (by simp)
  rw [h, b] at a
  simpa using a.symm

/-- Two printable lowered expressions with the same text are the same expression. -/
theorem C37_hir_injective_partial (e₁ e₂ : Expr) (h₁ : okH e₁ = true) (h₂ : okH e₂ = true)
    (h : emitH e₁ = emitH e₂) : e₁ = e₂ := by
  have a := C37_hir_roundtrip_partial e₁ h₁ [.semi] true [.semi]
    (by simp [Terminators]) (by simp [Ends]) (by simp) (by simp)
  have b := C37_hir_roundtrip_partial e₂ h₂ [.semi] true [.semi]
    (by simp [Terminators]) (by simp [Ends]) (by simp) (by simp)
  rw [h, b] at a
  simpa using a.symm

/-- Two expressions of `okJ` for which the third printer writes the same text are the same. -/
theorem C37_js_injective_partial (e₁ e₂ : Expr) (h₁ : okJ e₁ = true) (h₂ : okJ e₂ = true)
    (h : emitJ e₁ = emitJ e₂) : e₁ = e₂ := by
  obtain ⟨ts, ht, a⟩ := C37_js_roundtrip_partial e₁ h₁
  obtain ⟨ts', ht', b⟩ := C37_js_roundtrip_partial e₂ h₂
  have hts : ts = ts' := by rw [ht, ht'] at h; simpa using h
  subst hts
  have a := a [.semi] true [.semi] (by simp [Terminators]) (by simp [Ends]) (by simp) (by simp)
  have b := b [.semi] true [.semi] (by simp [Terminators]) (by simp [Ends]) (by simp) (by simp)
  rw [b] at a
  simpa using a.symm

/-! ### Concrete cases -/

/-- `(a, b) + (c = d) ** -e ? f => ({}).x : new ((g ?? (h || i))[j, k])(...m?.())`. -/
def sample : Expr :=
  .cond (.binary .add (.binary .comma (.id 1) (.id 2))
      (.binary .pow (.binary .assign (.id 3) (.id 4)) (.unary .neg (.id 5))))
    (.arrow 6 (.member false (.obj 0) 7))
    (.unary .new (.call false (.index false (.binary .nullish (.id 8)
        (.binary .lor (.id 9) (.id 10))) (.binary .comma (.id 11) (.id 12)))
      (.item true (.call true (.id 13) .nil) .nil)))

example : okA sample = true := by decide

example : emitA sample =
    [.lp, .id 1, .comma, .id 2, .rp, .plus, .lp, .id 3, .eq, .id 4, .rp, .starstar, .minus, .id 5,
     .question, .lp, .arrow 6, .lp, .obj 0, .dot, .id 7, .rp, .rp, .colon,
     .new, .lp, .id 8, .qq, .lp, .id 9, .barbar, .id 10, .rp, .rp, .lb, .id 11, .comma, .id 12, .rb,
     .lp, .dots, .id 13, .qdotLp, .rp, .rp] := by decide

/-- The hypotheses of `RoundTrip` are met: an argument in a call, a branch of a conditional, and a
last statement without semicolon. -/
example : Terminators [.comma, .rp] ∧ Ends [.comma, .rp] false [.rp, .plus, .id 1] ∧
    Terminators [.colon] ∧ Ends [.colon] false [.colon, .id 2] ∧
    Terminators [.semi] ∧ Ends [.semi] true [] := by
  refine ⟨?_, ?_, ?_, ?_, ?_, ?_⟩ <;> simp [Ends, Terminators]

/-- A lowered expression: `a = (b => ({})), new (p?.q)(...r)`. -/
def sampleH : Expr :=
  .binary .comma (.binary .assign (.id 3) (.arrow 4 (.obj 5)))
    (.unary .new (.call false (.member true (.id 1) 2) (.item true (.id 6) .nil)))

example : okH sampleH = true := by decide

example : emitH sampleH =
    [.id 3, .eq, .lp, .arrow 4, .lp, .obj 5, .rp, .rp, .comma, .new, .lp, .id 1, .qdot, .id 2, .rp,
     .lp, .dots, .id 6, .rp] := by decide

/-- For the third printer: `a ? (b = c) ** -d : (x => y ? z => z : /r/).p(...q)`. -/
def sampleJ : Expr :=
  .cond (.id 1) (.binary .pow (.binary .assign (.id 2) (.id 3)) (.unary .neg (.id 4)))
    (.call false (.member false (.arrow 5 (.cond (.id 6) (.arrow 7 (.id 7)) (.regex 8))) 9)
      (.item true (.id 10) .nil))

example : okJ sampleJ = true := by decide

example : emitJ sampleJ = some
    [.id 1, .question, .lp, .id 2, .eq, .id 3, .rp, .starstar, .minus, .id 4, .colon, .lp, .arrow 5,
     .id 6, .question, .arrow 7, .id 7, .colon, .regex 8, .rp, .dot, .id 9, .lp, .dots, .id 10,
     .rp] := by decide

/-! ### Where the printers lose the expression -/

/-- How to refute `RoundTrip`: as a last statement, the text is read differently or not at all. -/
theorem not_roundTrip {print : Expr → List Tok} {e : Expr} {ts : List Tok}
    (hp : print e = ts) (h : exprMin [] true 1 ts ≠ some (e, [])) : ¬ RoundTrip print e := by
  intro hr
  apply h
  have := hr [] true [] (by simp [Terminators]) (by simp [Ends]) (by simp) (by simp)
  rw [List.append_nil, hp] at this
  exact this

/-- `f((a, b))` is printed as `f(a, b)`. -/
theorem C37_comma_argument_violated :
    ¬ RoundTrip emitA (.call false (.id 1) (.item false (.binary .comma (.id 2) (.id 3)) .nil)) ∧
    ¬ RoundTrip emitH (.call false (.id 1) (.item false (.binary .comma (.id 2) (.id 3)) .nil)) := by
  constructor
  · refine not_roundTrip (ts := [.id 1, .lp, .id 2, .comma, .id 3, .rp]) (by decide) ?_
    prun
  · refine not_roundTrip (ts := [.id 1, .lp, .id 2, .comma, .id 3, .rp]) (by decide) ?_
    prun

/-- `[a, ,]` is printed as `[a,]`, which has no hole. -/
theorem C37_trailing_hole_violated :
    ¬ RoundTrip emitA (.arr (.item false (.id 1) (.hole .nil))) ∧
    ¬ RoundTrip emitH (.arr (.item false (.id 1) (.hole .nil))) := by
  refine ⟨not_roundTrip (ts := [.lb, .id 1, .comma, .rb]) (by decide) ?_,
    not_roundTrip (ts := [.lb, .id 1, .comma, .rb]) (by decide) ?_⟩
  all_goals prun

/-- `(x => a), b` is printed as `x => a, b`, whose body is read as a comma expression. -/
theorem C37_arrow_comma_violated :
    ¬ RoundTrip emitA (.binary .comma (.arrow 1 (.id 2)) (.id 3)) ∧
    ¬ RoundTrip emitH (.binary .comma (.arrow 1 (.id 2)) (.id 3)) := by
  refine ⟨not_roundTrip (ts := [.arrow 1, .id 2, .comma, .id 3]) (by decide) ?_,
    not_roundTrip (ts := [.arrow 1, .id 2, .comma, .id 3]) (by decide) ?_⟩
  all_goals prun

/-- `new (f())()` is printed as `new f()()`. -/
theorem C37_new_call_violated :
    ¬ RoundTrip emitA (.unary .new (.call false (.call false (.id 1) .nil) .nil)) ∧
    ¬ RoundTrip emitH (.unary .new (.call false (.call false (.id 1) .nil) .nil)) := by
  refine ⟨not_roundTrip (ts := [.new, .id 1, .lp, .rp, .lp, .rp]) (by decide) ?_,
    not_roundTrip (ts := [.new, .id 1, .lp, .rp, .lp, .rp]) (by decide) ?_⟩
  all_goals prun

/-- `new (f().g)()` is printed as `new f().g()`. -/
theorem C37_new_call_member_violated :
    ¬ RoundTrip emitA (.unary .new (.call false (.member false (.call false (.id 1) .nil) 2) .nil)) ∧
    ¬ RoundTrip emitH (.unary .new (.call false (.member false (.call false (.id 1) .nil) 2) .nil)) := by
  refine ⟨not_roundTrip (ts := [.new, .id 1, .lp, .rp, .dot, .id 2, .lp, .rp]) (by decide) ?_,
    not_roundTrip (ts := [.new, .id 1, .lp, .rp, .dot, .id 2, .lp, .rp]) (by decide) ?_⟩
  all_goals prun

/-- ``new (f`t`)()`` is printed as ``new f`t`()``. -/
theorem C37_new_template_violated :
    ¬ RoundTrip emitA (.unary .new (.call false (.tagged (.id 1) 2) .nil)) ∧
    ¬ RoundTrip emitH (.unary .new (.call false (.tagged (.id 1) 2) .nil)) := by
  refine ⟨not_roundTrip (ts := [.new, .id 1, .tpl 2, .lp, .rp]) (by decide) ?_,
    not_roundTrip (ts := [.new, .id 1, .tpl 2, .lp, .rp]) (by decide) ?_⟩
  all_goals prun

/-- `(new C).p`, `(new C)()`, `(new C)[i]` and `new (new C)()` lose the parentheses around a `new`
without arguments. -/
theorem C37_bare_new_violated :
    ¬ RoundTrip emitA (.member false (.unary .new (.id 1)) 2) ∧
    ¬ RoundTrip emitA (.call false (.unary .new (.id 1)) .nil) ∧
    ¬ RoundTrip emitA (.index false (.unary .new (.id 1)) (.id 2)) ∧
    ¬ RoundTrip emitA (.unary .new (.call false (.unary .new (.id 1)) .nil)) := by
  refine ⟨not_roundTrip (ts := [.new, .id 1, .dot, .id 2]) (by decide) ?_,
    not_roundTrip (ts := [.new, .id 1, .lp, .rp]) (by decide) ?_,
    not_roundTrip (ts := [.new, .id 1, .lb, .id 2, .rb]) (by decide) ?_,
    not_roundTrip (ts := [.new, .new, .id 1, .lp, .rp]) (by decide) ?_⟩
  all_goals prun

/-- The lowered form printer writes `(await x) ** y` without the parentheses; the parser refuses it. -/
theorem C37_await_power_violated :
    ¬ RoundTrip emitH (.binary .pow (.unary .await (.id 1)) (.id 2)) := by
  refine not_roundTrip (ts := [.await, .id 1, .starstar, .id 2]) (by decide) ?_
  prun

/-- The lowered form printer writes `x => ({}).p` as `x => {}.p`, with a block as body. -/
theorem C37_arrow_brace_violated :
    ¬ RoundTrip emitH (.arrow 1 (.member false (.obj 2) 3)) := by
  refine not_roundTrip (ts := [.arrow 1, .obj 2, .dot, .id 3]) (by decide) ?_
  prun

/-- The lowered form printer writes `new (f?.())` as `new f?.()`. -/
theorem C37_new_optional_violated :
    ¬ RoundTrip emitH (.unary .new (.call true (.id 1) .nil)) := by
  refine not_roundTrip (ts := [.new, .id 1, .qdotLp, .rp]) (by decide) ?_
  prun

/-- The third printer writes `(a ** b) ** c` as `a ** b ** c`, which is `a ** (b ** c)`; `f((a, b))` as
`f(a, b)`; and `(x => a), b` as `x => a, b`. -/
theorem C37_js_violated :
    (∃ ts : List Tok, emitJ (.binary .pow (.binary .pow (.id 1) (.id 2)) (.id 3)) = some ts ∧
      ¬ RoundTrip (fun _ => ts) (.binary .pow (.binary .pow (.id 1) (.id 2)) (.id 3))) ∧
    (∃ ts : List Tok,
      emitJ (.call false (.id 1) (.item false (.binary .comma (.id 2) (.id 3)) .nil)) = some ts ∧
      ¬ RoundTrip (fun _ => ts)
        (.call false (.id 1) (.item false (.binary .comma (.id 2) (.id 3)) .nil))) ∧
    (∃ ts : List Tok, emitJ (.binary .comma (.arrow 1 (.id 2)) (.id 3)) = some ts ∧
      ¬ RoundTrip (fun _ => ts) (.binary .comma (.arrow 1 (.id 2)) (.id 3))) := by
  refine ⟨⟨[.id 1, .starstar, .id 2, .starstar, .id 3], by decide, not_roundTrip rfl ?_⟩,
    ⟨[.id 1, .lp, .id 2, .comma, .id 3, .rp], by decide, not_roundTrip rfl ?_⟩,
    ⟨[.arrow 1, .id 2, .comma, .id 3], by decide, not_roundTrip rfl ?_⟩⟩
  all_goals prun

/-- Where a comma ends the expression, the body `(a, b)` of an arrow function is torn: `f(x => (a, b))`
is printed as `f(x => a, b)`. -/
theorem C37_js_arrow_body_violated :
    ∃ ts : List Tok, emitJ (.call false (.id 1)
        (.item false (.arrow 2 (.binary .comma (.id 3) (.id 4))) .nil)) = some ts ∧
      ¬ RoundTrip (fun _ => ts) (.call false (.id 1)
        (.item false (.arrow 2 (.binary .comma (.id 3) (.id 4))) .nil)) := by
  refine ⟨[.id 1, .lp, .arrow 2, .id 3, .comma, .id 4, .rp], by decide, not_roundTrip rfl ?_⟩
  prun

end Verif.Emit
