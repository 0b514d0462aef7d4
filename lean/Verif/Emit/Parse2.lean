import Verif.Emit.Parse

/-!
# The parser reads renderings back: one lemma for each form
-/

namespace Verif.Emit

theorem precA_pos (e : Expr) : 1 ≤ precA e := by
  cases e with
  | binary b l r => exact prec_pos b
  | unary u e => simp only [precA]; cases u <;> decide
  | post p e => simp only [precA]; cases p <;> decide
  | cond c t f => simp only [precA]; decide
  | _ => simp [precA]

theorem starts_not_term {term : List Tok} (ht : TermOK term) {t : Tok}
    (h : startsOperand t = true) : t ∉ term := by
  intro hm
  have := ht t hm
  simp only [List.mem_cons, List.not_mem_nil, or_false] at this
  rcases this with h1 | h1 | h1 | h1 | h1 | h1 | h1 <;> (subst h1; simp [startsOperand] at h)

theorem op_not_term {term : List Tok} (ht : TermOK term) {t : Tok} {op : Op}
    (h : binaryOf t = some op) (hc : t = .comma → Tok.comma ∉ term)
    (hi : t = .in_ → Tok.in_ ∉ term) : t ∉ term := by
  intro hm
  have := ht t hm
  simp only [List.mem_cons, List.not_mem_nil, or_false] at this
  rcases this with h1 | h1 | h1 | h1 | h1 | h1 | h1 <;> subst h1 <;>
    first
    | (simp [binaryOf] at h; done)
    | exact hc rfl hm
    | exact hi rfl hm

theorem Starts.app {ts : List Tok} (h : Starts ts) (r : List Tok) : Starts (ts ++ r) := by
  obtain ⟨t, q, rfl, h⟩ := h
  exact ⟨t, q ++ r, rfl, h⟩

theorem has_of_starts {term : List Tok} (ht : TermOK term) {ts : List Tok} (h : Starts ts) :
    hasOperand term ts = true := by
  obtain ⟨t, r, rfl, h⟩ := h
  simp [hasOperand, h, starts_not_term ht h]

theorem termOK_rp : TermOK [.rp] := by intro t h; simp at h; subst h; simp
theorem termOK_rb : TermOK [.rb] := by intro t h; simp at h; subst h; simp
theorem termOK_colon : TermOK [.colon] := by intro t h; simp at h; subst h; simp
theorem termOK_comma_rp : TermOK [.comma, .rp] := by
  intro t h; simp at h; rcases h with h | h <;> subst h <;> simp
theorem termOK_comma_rb : TermOK [.comma, .rb] := by
  intro t h; simp at h; rcases h with h | h <;> subst h <;> simp

/-! ## Parentheses -/

theorem operand_lp (term : List Tok) (asi : Bool) (r : List Tok) :
    operand term asi (.lp :: r) = (exprMin [.rp] asi 1 r).bind fun x =>
      (expect .rp x.2).bind fun r => some ((x.1, true), r) := by
  rw [operand.eq_def]; rfl

theorem operand_parens {e : Expr} {k : Nat} {ts : List Tok} (h : PBare e k ts) (term : List Tok)
    (asi : Bool) (rest : List Tok) :
    operand term asi (parens ts ++ rest) = some ((e, true), rest) := by
  simp only [parens, List.cons_append, List.append_assoc, List.nil_append]
  rw [operand_lp, h.2.1 [.rp] asi 1 (.rp :: rest) termOK_rp (precA_pos e) (Nat.le_refl _) (by simp)
    (by simp)
    (follow_term _ _ _ _ _ (by simp) (by simp)), loop_term _ _ _ _ _ _ _ (by simp)]
  simp [expect]

theorem starts_parens (ts : List Tok) : Starts (parens ts) := ⟨.lp, _, rfl, rfl⟩

theorem p_paren (m : Nat) {e : Expr} {k : Nat} {ts : List Tok} (h : PBare e k ts) :
    PSh m e true 20 (parens ts) :=
  ⟨starts_parens ts, fun _ _ _ _ _ _ _ _ _ _ =>
    exprMin_of_operand (operand_parens h _ _ _) (fun _ => .inl rfl)⟩

theorem p_bare {m : Nat} {e : Expr} {k : Nat} {ts : List Tok} (hm : m ≤ precA e)
    (h : PBare e k ts) : PSh m e false k ts :=
  ⟨h.1, fun term asi m' rest ht h1 h2 hc hi hf =>
    h.2.1 term asi m' rest ht (by omega) h2 (fun a => by simpa using hc a) hi hf⟩

/-! ## Primaries -/

theorem p_atom {e : Expr} {t : Tok} (hs : startsOperand t = true)
    (hy : isYield e = false ∧ isArrow e = false)
    (h : ∀ (term : List Tok) (asi : Bool) (r : List Tok),
      operand term asi (t :: r) = some ((e, false), r)) : PBare e 20 [t] :=
  ⟨⟨t, [], rfl, hs⟩,
   fun term asi m' rest _ _ _ _ _ _ => exprMin_of_operand (h term asi rest) (fun _ => .inr hy),
   fun _ term asi rest _ _ => h term asi rest⟩

theorem p_id (n : Nat) : PBare (.id n) 20 [.id n] :=
  p_atom rfl ⟨rfl, rfl⟩ (fun _ _ _ => by rw [operand.eq_def]; rfl)
theorem p_num (n : Nat) : PBare (.num n) 20 [.num n] :=
  p_atom rfl ⟨rfl, rfl⟩ (fun _ _ _ => by rw [operand.eq_def]; rfl)
theorem p_obj (n : Nat) : PBare (.obj n) 20 [.obj n] :=
  p_atom rfl ⟨rfl, rfl⟩ (fun _ _ _ => by rw [operand.eq_def]; rfl)
theorem p_prim (n : Nat) : PBare (.prim n) 20 [.prim n] :=
  p_atom rfl ⟨rfl, rfl⟩ (fun _ _ _ => by rw [operand.eq_def]; rfl)
theorem p_regex (n : Nat) : PBare (.regex n) 20 [.regex n] :=
  p_atom rfl ⟨rfl, rfl⟩ (fun _ _ _ => by rw [operand.eq_def]; rfl)
theorem p_tpl (n : Nat) : PBare (.tpl n) 20 [.tpl n] :=
  p_atom rfl ⟨rfl, rfl⟩ (fun _ _ _ => by rw [operand.eq_def]; rfl)

theorem p_func (n : Nat) : PBare (.func n) 20 [.func n] :=
  p_atom rfl ⟨rfl, rfl⟩ (fun _ _ _ => by rw [operand.eq_def]; rfl)

theorem in_right {x y : List Tok} (h : Tok.in_ ∉ x ++ y) : Tok.in_ ∉ y := fun a => h (by simp [a])
theorem in_left {x y : List Tok} (h : Tok.in_ ∉ x ++ y) : Tok.in_ ∉ x := fun a => h (by simp [a])

/-! ## Prefix operators -/

theorem operand_un (op : UnOp) (ho : op ≠ .new) (term : List Tok) (asi : Bool) (ts : List Tok)
    (ht : TermOK term) (hs : Starts ts) :
    operand term asi (unTok op ++ ts) = (exprMin term asi (nextMin (.un op)) ts).bind fun x =>
      some ((.unary op x.1, false), x.2) := by
  have hh := has_of_starts ht hs
  cases op with
  | new => exact absurd rfl ho
  | await =>
    rw [operand.eq_def]
    simp only [unTok, List.cons_append, List.nil_append, unaryOf, hh, if_true]
    rfl
  | yieldStar =>
    rw [operand.eq_def]
    simp only [unTok, List.cons_append, List.nil_append, unaryOf, hh, if_true]
    rfl
  | yield =>
    obtain ⟨t, r, rfl, h⟩ := hs
    rw [operand.eq_def]
    simp only [unTok, List.cons_append, List.nil_append, unaryOf, hh, if_true]
    split
    · rename_i heq
      simp only [List.cons.injEq] at heq
      rw [heq.1] at h; simp [startsOperand] at h
    · rfl
  | _ => rw [operand.eq_def]; rfl

theorem starts_unTok (op : UnOp) (ts : List Tok) : Starts (unTok op ++ ts) := by
  cases op <;> exact ⟨_, _, rfl, rfl⟩

theorem p_un {op : UnOp} {e : Expr} {p : Bool} {k : Nat} {ts : List Tok} (ho : op ≠ .new)
    (h : PSh (nextMin (.un op)) e p k ts) (hsh : p = true ∨ nextMin (.un op) ≤ precA e) :
    PBare (.unary op e) (min (nextMin (.un op)) k) (unTok op ++ ts) := by
  refine ⟨starts_unTok op ts, ?_, ?_⟩
  · intro term asi m' rest ht hm h1 hc hin hf
    have hle : nextMin (.un op) ≤ 18 := by rw [nextMin_un]; exact prec_op_le _
    have hst : StopsAt term asi (nextMin (.un op)) rest :=
      (hf.stops (by omega)).mono (Nat.min_le_left _ _)
    have hrun := h.run term asi rest ht (nextMin_un_pos op)
      (fun _ => hsh.imp id (fun h => by
        have : 2 ≤ nextMin (.un op) := by cases op <;> decide
        omega))
      (fun a => in_right (hin a)) (hf.mono (Nat.min_le_right _ _)) hst
    refine exprMin_of_operand ?_ ?_
    · rw [List.append_assoc, operand_un op ho term asi _ ht (h.1.app rest), hrun]; rfl
    · intro h3
      right
      have := un_prec_yield op ho (by simp only [precA] at hm; omega)
      refine ⟨?_, rfl⟩
      cases op <;> simp_all [isYield]
  · intro hb
    cases op <;> simp_all [isBase]

/-! ## Postfix operators -/

theorem p_post {op : PostOp} {e : Expr} {p : Bool} {k : Nat} {ts : List Tok}
    (h : PSh (prec (.post op)) e p k ts) (hk : prec (.post op) < k)
    (hsh : p = true ∨ prec (.post op) ≤ precA e) :
    PBare (.post op e) 20 (ts ++ [postTok op]) := by
  refine ⟨h.1.app _, ?_, by simp [isBase]⟩
  intro term asi m' rest ht hm h1 hc hin hf
  have h17 := pv_post op
  simp only [precA] at hm
  rw [List.append_assoc, h.2 term asi m' _ ht hm h1 (fun _ => hsh.imp id (fun h => by omega))
    (fun a => in_left (hin a)) ?_]
  · have hn : postTok op ∉ term := starts_not_term ht (by cases op <;> rfl)
    rw [loop.eq_def]
    simp only [List.singleton_append, List.contains_eq_mem, hn, decide_false, Bool.false_eq_true,
      if_false]
    cases op <;> simp only [postTok] <;> rw [if_neg (by omega)]
  · right
    refine ⟨?_, by omega⟩
    cases op with
    | incr => exact .inr (.inr (.inl ⟨rfl, by omega⟩))
    | decr => exact .inr (.inr (.inr (.inl ⟨rfl, by omega⟩)))

/-! ## Binary operators -/

theorem yield_prec {e : Expr} (h : isYield e = true) : precA e = 3 := by
  cases e with
  | unary u e => cases u <;> first | (simp [isYield] at h; done) | (simp only [precA]; decide)
  | _ => simp [isYield] at h

theorem p_bin {b : BinOp} {l r : Expr} {pl pr : Bool} {kl kr : Nat} {tl tr : List Tok}
    (ha : b.isAssignment = true → isTarget (l, pl) = true)
    (hpow : b = .pow → pl = false → powDisallowed l = false)
    (hl : PSh (leftMin b) l pl kl tl) (hlp : pl = true ∨ leftMin b ≤ precA l)
    (hk : prec (.bin b) < kl)
    (hr : PSh (rightMin b) r pr kr tr) (hrp : pr = true ∨ rightMin b ≤ precA r) :
    PBare (.binary b l r) (min (rightMin b) kr) (tl ++ binTok b :: tr) := by
  refine ⟨hl.1.app _, ?_, by simp [isBase]⟩
  intro term asi m' rest ht hm h1 hc hin hf
  simp only [precA] at hm hc
  have hpp := prec_pos b
  have hpl := prec_le b
  have hlm := leftMin_ge b
  have hrm := rightMin_ge b
  have hop := binaryOf_binTok b
  rw [List.append_assoc, List.cons_append, hl.2 term asi m' _ ht (by omega) h1
    (fun hm => hlp.imp id (fun h => by have := hc hm; omega)) (fun a => in_left (hin a))
    (follow_op _ _ _ _ _ _ hop hk hpp)]
  have hnt : binTok b ∉ term := by
    refine op_not_term ht hop ?_ ?_
    · intro hbc hmem
      rcases binTok_closer b (by simp [hbc]) with this | this
      · subst this
        have := hc hmem
        exact absurd this (by decide)
      · subst this; simp [binTok] at hbc
    · intro hbc hmem
      exact hin hmem (by simp [hbc])
  have hle : rightMin b ≤ 16 := by cases b <;> decide
  rw [loop_op _ _ _ _ _ _ _ _ hnt hop, if_neg (by omega), if_neg]
  · simp only
    rw [if_neg, if_neg, nextMin_bin, hr.run term asi rest ht (by omega)
      (fun hm => hrp.imp id (fun h => by have := hc hm; omega))
      (fun a => fun b => hin a (by simp [b])) (hf.mono (Nat.min_le_right _ _))
      ((hf.stops (by omega)).mono (Nat.min_le_left _ _))]
    · simp
    · cases hb : b.isAssignment with
      | false => simp
      | true => simp [ha hb]
    · by_cases hb : b = .pow
      · cases pl with
        | true => simp
        | false => simp [hpow hb rfl]
      · simp [hb]
  · simp only [Bool.and_eq_true, Bool.not_eq_true', decide_eq_true_eq, not_and]
    rintro ⟨hy, hpf⟩ hgt
    rw [pv_yield] at hgt
    have := yield_prec hy
    rcases hlp with h | h
    · simp [h] at hpf
    · omega

/-! ## Conditional -/

theorem p_cond {c t f : Expr} {pc pt pf : Bool} {kc kt kf : Nat} {tc tt tf : List Tok}
    (hc : PSh (prec .conditional + 1) c pc kc tc)
    (hcp : pc = true ∨ prec .conditional + 1 ≤ precA c) (hk : prec .conditional < kc)
    (h1 : PSh 1 t pt kt tt) (h2 : PSh (prec .conditionalAlternate) f pf kf tf)
    (hfp : pf = true ∨ prec .conditionalAlternate ≤ precA f) :
    PBare (.cond c t f) (min (prec .conditionalAlternate) kf)
      (tc ++ .question :: tt ++ .colon :: tf) := by
  refine ⟨(hc.1.app _).app _, ?_, by simp [isBase]⟩
  intro term asi m' rest ht hm hm1 hcm hin hf
  have hm4 : m' ≤ 4 := by simpa only [precA, pv_cond] using hm
  simp only [pv_cond, pv_alt] at hc hcp hk h2 hfp hf
  have hop : binaryOf .question = some .conditional := rfl
  simp only [List.append_assoc, List.cons_append]
  rw [hc.2 term asi m' _ ht (by omega) hm1 (fun _ => hcp.imp id (fun h => by omega))
    (fun a => fun b => hin a (by simp [b]))
    (follow_op _ _ _ _ _ _ hop (by rw [pv_cond]; omega) (by decide))]
  have hnt : Tok.question ∉ term := op_not_term ht hop (by simp) (by simp)
  rw [loop_op _ _ _ _ _ _ _ _ hnt hop, if_neg (by rw [pv_cond]; omega), if_neg]
  · simp only [pv_alt]
    rw [h1.run [.colon] false (.colon :: (tf ++ rest)) termOK_colon (Nat.le_refl _) (by simp) (by simp)
      (follow_term _ _ _ _ _ (by simp) (by simp)) (.inl (by simp))]
    simp only [Option.bind_some, expect, if_true]
    rw [h2.run term asi rest ht (by omega) (fun _ => hfp.imp id (fun h => by omega))
      (fun a => fun b => hin a (by simp [b]))
      (hf.mono (Nat.min_le_right _ _)) ((hf.stops (by omega)).mono (Nat.min_le_left _ _))]
    simp
  · simp only [Bool.and_eq_true, Bool.not_eq_true', decide_eq_true_eq, not_and]
    rintro ⟨hy, hpf⟩ _
    have := yield_prec hy
    rcases hcp with h | h
    · simp [h] at hpf
    · omega

end Verif.Emit
