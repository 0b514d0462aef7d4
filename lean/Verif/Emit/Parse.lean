import Verif.Emit.Render

/-!
# The parser reads renderings back
-/

namespace Verif.Emit

/-! ## The tables -/

theorem binaryOf_binTok (b : BinOp) : binaryOf (binTok b) = some (.bin b) := by cases b <;> rfl

theorem binTok_closer (b : BinOp) :
    binTok b ∈ [Tok.rp, .rb, .colon, .comma, .semi, .rbrace, .in_] → b = .comma ∨ b = .in_ := by
  cases b <;> decide

theorem nextMin_bin (b : BinOp) : nextMin (.bin b) = rightMin b := by cases b <;> decide

theorem prec_pos (b : BinOp) : 1 ≤ prec (.bin b) := by cases b <;> decide

theorem prec_le (b : BinOp) : prec (.bin b) ≤ 15 := by cases b <;> decide

theorem rightMin_ge (b : BinOp) : prec (.bin b) ≤ rightMin b := by cases b <;> decide

theorem leftMin_ge (b : BinOp) : prec (.bin b) ≤ leftMin b := by cases b <;> decide

theorem leftMin_yield (b : BinOp) : b.isAssignment = false → leftMin b ≤ 3 → prec (.bin b) ≤ 3 := by
  cases b <;> decide

theorem pv_post (p : PostOp) : prec (.post p) = 17 := by cases p <;> decide
theorem pv_cond : prec .conditional = 4 := by decide
theorem pv_alt : prec .conditionalAlternate = 2 := by decide
theorem pv_yield : prec (.un .yield) = 3 := by decide
theorem pv_call : prec .call = 18 := by decide
theorem pv_optCall : prec .optCall = 18 := by decide
theorem pv_member : prec .member = 18 := by decide
theorem pv_optMember : prec .optMember = 18 := by decide
theorem pv_computed : prec .computed = 18 := by decide
theorem pv_optComputed : prec .optComputed = 18 := by decide

theorem prec_op_le (op : Op) : prec op ≤ 18 := by
  cases op with
  | bin b => cases b <;> decide
  | un u => cases u <;> decide
  | post p => cases p <;> decide
  | _ => decide

/-- The precedence of a prefix operator is the one its operand is read with. -/
theorem nextMin_un (u : UnOp) : nextMin (.un u) = prec (.un u) := by cases u <;> decide

theorem nextMin_un_pos (u : UnOp) : 1 ≤ nextMin (.un u) := by cases u <;> decide

theorem un_prec_yield (u : UnOp) : u ≠ .new → 3 < prec (.un u) → u ≠ .yield ∧ u ≠ .yieldStar := by
  cases u <;> decide

/-! ## Stopping -/

theorem loop_nil (term : List Tok) (m : Nat) (l : Expr) (p : Bool) :
    loop term true m l p [] = some (l, []) := by
  rw [loop.eq_def]; rfl

theorem loop_term (term : List Tok) (asi : Bool) (m : Nat) (l : Expr) (p : Bool) (t : Tok)
    (r : List Tok) (h : t ∈ term) : loop term asi m l p (t :: r) = some (l, t :: r) := by
  rw [loop.eq_def]
  simp [h]

/-- The loop at an operator token. -/
theorem loop_op (term : List Tok) (asi : Bool) (m : Nat) (l : Expr) (p : Bool) (t : Tok)
    (r : List Tok) (op : Op) (h : t ∉ term) (hop : binaryOf t = some op) :
    loop term asi m l p (t :: r) =
      if prec op < m then some (l, t :: r) else
      if isYield l && !p && prec op > prec (.un .yield) then none else
        match op with
        | .call => (callArgs r).bind fun x => (expect .rp x.2).bind fun r =>
            loop term asi m (.call false l x.1) false r
        | .optCall => (callArgs r).bind fun x => (expect .rp x.2).bind fun r =>
            loop term asi m (.call true l x.1) false r
        | .computed => (exprMin [.rb] false 1 r).bind fun x => (expect .rb x.2).bind fun r =>
            loop term asi m (.index false l x.1) false r
        | .optComputed => (exprMin [.rb] false 1 r).bind fun x => (expect .rb x.2).bind fun r =>
            loop term asi m (.index true l x.1) false r
        | .conditional => (exprMin [.colon] false 1 r).bind fun x =>
            (expect .colon x.2).bind fun r =>
            (exprMin term asi (prec .conditionalAlternate) r).bind fun y =>
            loop term asi m (.cond l x.1 y.1) false y.2
        | .member =>
          match r with
          | .id n :: r => loop term asi m (.member false l n) false r
          | _ => none
        | .optMember =>
          match r with
          | .id n :: r => loop term asi m (.member true l n) false r
          | _ => none
        | .bin b =>
          if b = .pow && powDisallowed l && !p then none else
          if b.isAssignment && !isTarget (l, p) then none else
          (exprMin term asi (nextMin (.bin b)) r).bind fun x =>
          loop term asi m (.binary b l x.1) false x.2
        | _ => none := by
  rw [loop.eq_def]
  simp only [List.contains_eq_mem, h, decide_false, Bool.false_eq_true, if_false]
  split
  · simp [binaryOf] at hop
  · simp [binaryOf] at hop
  · simp [binaryOf] at hop
  · simp [binaryOf] at hop
  · simp only [hop]
    cases op <;> rfl

theorem loop_nl (term : List Tok) (m : Nat) (l : Expr) (p : Bool) (r : List Tok)
    (h : NoJoin r) : loop term true m l p (.nl :: r) = some (l, .nl :: r) := by
  rw [loop.eq_def]
  by_cases hn : Tok.nl ∈ term
  · simp [hn]
  · simp only [List.contains_eq_mem, hn, decide_false, Bool.false_eq_true, if_false, if_true]
    cases r with
    | nil => rfl
    | cons u q =>
      simp only [NoJoin] at h
      obtain ⟨h1, h2, h3, h4, h5⟩ := h
      simp only
      split
      · rfl
      · cases u <;> simp_all [binaryOf]

theorem loop_stop (term : List Tok) (asi : Bool) (m k : Nat) (l : Expr) (p : Bool)
    (rest : List Tok) (h : StopsAt term asi k rest) (hk : k ≤ m) :
    loop term asi m l p rest = some (l, rest) := by
  cases rest with
  | nil => simp only [StopsAt] at h; subst h; exact loop_nil _ _ _ _
  | cons t r =>
    by_cases ht : t ∈ term
    · exact loop_term _ _ _ _ _ _ _ ht
    · simp only [StopsAt, ht, false_or] at h
      rcases h with ⟨ha, h⟩ | ⟨h, hlt⟩ | ⟨h, hlt⟩ | ⟨op, ho, hlt⟩
      · subst ha
        rcases h with h | ⟨h, hr⟩
        · subst h
          rw [loop.eq_def]; simp [binaryOf]
        · subst h
          exact loop_nl _ _ _ _ _ hr
      · subst h
        rw [loop.eq_def]; simp only [List.contains_eq_mem, ht, decide_false, Bool.false_eq_true,
          if_false, pv_post]
        rw [if_pos (by omega)]
      · subst h
        rw [loop.eq_def]; simp only [List.contains_eq_mem, ht, decide_false, Bool.false_eq_true,
          if_false, pv_post]
        rw [if_pos (by omega)]
      · rw [loop_op _ _ _ _ _ _ _ _ ht ho, if_pos (by omega)]

theorem StopsAt.mono {term : List Tok} {asi : Bool} {k k' : Nat} {rest : List Tok}
    (h : StopsAt term asi k rest) (hk : k ≤ k') : StopsAt term asi k' rest := by
  cases rest with
  | nil => exact h
  | cons t r =>
    rcases h with h | h | ⟨h, h1⟩ | ⟨h, h1⟩ | ⟨op, h, h1⟩
    · exact .inl h
    · exact .inr (.inl h)
    · exact .inr (.inr (.inl ⟨h, by omega⟩))
    · exact .inr (.inr (.inr (.inl ⟨h, by omega⟩)))
    · exact .inr (.inr (.inr (.inr ⟨op, h, by omega⟩)))

theorem Follow.mono {term : List Tok} {asi : Bool} {k k' : Nat} {rest : List Tok}
    (h : Follow term asi k rest) (hk : k ≤ k') : Follow term asi k' rest := by
  rcases h with h | ⟨h, h1⟩
  · exact .inl (by omega)
  · exact .inr ⟨h.mono hk, fun a => h1 (by omega)⟩

theorem StopsAt.asi {term : List Tok} {asi : Bool} {k : Nat} {rest : List Tok}
    (h : StopsAt term asi k rest) : StopsAt term true k rest := by
  cases rest with
  | nil => rfl
  | cons t r =>
    rcases h with h | ⟨_, h⟩ | h
    · exact .inl h
    · exact .inr (.inl ⟨rfl, h⟩)
    · exact .inr (.inr h)

theorem Follow.asi {term : List Tok} {asi : Bool} {k : Nat} {rest : List Tok}
    (h : Follow term asi k rest) : Follow term true k rest := by
  rcases h with h | ⟨h, h1⟩
  · exact .inl h
  · exact .inr ⟨h.asi, h1⟩

theorem Follow.stops {term : List Tok} {asi : Bool} {k : Nat} {rest : List Tok}
    (h : Follow term asi k rest) (hk : k ≤ 18) : StopsAt term asi k rest := by
  rcases h with h | ⟨h, _⟩
  · omega
  · exact h

/-- In front of a terminator everything stops. -/
theorem follow_term (term : List Tok) (asi : Bool) (k : Nat) (t : Tok) (r : List Tok)
    (h : t ∈ term) (hc : Tok.colon ∈ term → t = .colon) : Follow term asi k (t :: r) :=
  .inr ⟨.inl h, fun _ h1 => by simp [hc h1]⟩

/-- In front of an operator looser than the edge. -/
theorem follow_op (term : List Tok) (asi : Bool) (k : Nat) (t : Tok) (r : List Tok) (op : Op)
    (ho : binaryOf t = some op) (h : prec op < k) (h1 : 1 ≤ prec op) :
    Follow term asi k (t :: r) :=
  .inr ⟨.inr (.inr (.inr (.inr ⟨op, ho, h⟩))), fun _ => by omega⟩

/-! ## Motives -/

/-- A rendering starts with a token that starts an operand. -/
def Starts (ts : List Tok) : Prop := ∃ t : Tok, ∃ r : List Tok, ts = t :: r ∧ startsOperand t = true

def PSh (m : Nat) (e : Expr) (p : Bool) (k : Nat) (ts : List Tok) : Prop :=
  Starts ts ∧ ∀ (term : List Tok) (asi : Bool) (m' : Nat) (rest : List Tok), TermOK term → m' ≤ m →
    1 ≤ m' → (Tok.comma ∈ term → p = true ∨ 2 ≤ precA e) → (Tok.in_ ∈ term → Tok.in_ ∉ ts) →
    Follow term asi k rest →
    exprMin term asi m' (ts ++ rest) = loop term asi m' e p rest

def PBare (e : Expr) (k : Nat) (ts : List Tok) : Prop :=
  Starts ts ∧
  (∀ (term : List Tok) (asi : Bool) (m' : Nat) (rest : List Tok), TermOK term → m' ≤ precA e →
    1 ≤ m' → (Tok.comma ∈ term → 2 ≤ precA e) → (Tok.in_ ∈ term → Tok.in_ ∉ ts) →
    Follow term asi k rest →
    exprMin term asi m' (ts ++ rest) = loop term asi m' e false rest) ∧
  (isBase e = true → ∀ (term : List Tok) (asi : Bool) (rest : List Tok), TermOK term →
    Follow term asi k rest → operand term asi (ts ++ rest) = some ((e, false), rest))

def PChain (e : Expr) (ts : List Tok) : Prop :=
  Starts ts ∧ ∀ (term : List Tok) (asi : Bool) (rest : List Tok), TermOK term →
    ((operand term asi (ts ++ rest)).bind fun x => newChain x.1.1 x.2) = newChain e rest

def PIts (h : Bool) (es : Items) (ts : List Tok) : Prop :=
  (h = false → ∀ rest : List Tok, callArgs (ts ++ .rp :: rest) = some (es, .rp :: rest)) ∧
  (∀ rest : List Tok, arrElems (ts ++ .rb :: rest) = some (es, .rb :: rest))

theorem exprMin_bind (term : List Tok) (asi : Bool) (m : Nat) (ts : List Tok) :
    exprMin term asi m ts = (operand term asi ts).bind fun x =>
      if m > 3 && (isYield x.1.1 || isArrow x.1.1) && !x.1.2 then none
      else loop term asi m x.1.1 x.1.2 x.2 := by
  rw [exprMin.eq_def]; rfl

/-- From the operand to the expression. -/
theorem exprMin_of_operand {term : List Tok} {asi : Bool} {m : Nat} {ts rest : List Tok} {e : Expr}
    {p : Bool} (h : operand term asi ts = some ((e, p), rest))
    (hy : 3 < m → p = true ∨ (isYield e = false ∧ isArrow e = false)) :
    exprMin term asi m ts = loop term asi m e p rest := by
  rw [exprMin_bind, h]
  simp only [Option.bind_some]
  rw [if_neg]
  simp only [Bool.and_eq_true, decide_eq_true_eq, Bool.or_eq_true, Bool.not_eq_true', not_and,
    Bool.not_eq_false]
  intro hm
  rcases hy hm.1 with h | ⟨h1, h2⟩
  · exact h
  · simp [h1, h2] at hm

/-- Running a rendered operand up to where it stops. -/
theorem PSh.run {m : Nat} {e : Expr} {p : Bool} {k : Nat} {ts : List Tok} (h : PSh m e p k ts)
    (term : List Tok) (asi : Bool) (rest : List Tok) (ht : TermOK term) (h1 : 1 ≤ m)
    (hc : Tok.comma ∈ term → p = true ∨ 2 ≤ precA e) (hi : Tok.in_ ∈ term → Tok.in_ ∉ ts)
    (hf : Follow term asi k rest)
    (hs : StopsAt term asi m rest) : exprMin term asi m (ts ++ rest) = some (e, rest) := by
  rw [h.2 term asi m rest ht (Nat.le_refl _) h1 hc hi hf]
  exact loop_stop _ _ _ _ _ _ _ hs (Nat.le_refl _)

end Verif.Emit
