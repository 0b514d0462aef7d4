import Verif.Emit.StmtSpec
import Verif.Emit.Theorems

/-!
# Reading printed statements
-/

namespace Verif.Emit

/-! ### The expression parser does not pass a semicolon -/

/-- `r` is what is left of `ts` after some tokens that are no semicolons. -/
def Eats (ts r : List Tok) : Prop := ∃ pre : List Tok, ts = pre ++ r ∧ Tok.semi ∉ pre

theorem Eats.refl (ts : List Tok) : Eats ts ts := ⟨[], rfl, by simp⟩

theorem Eats.cons {t : Tok} {ts r : List Tok} (h : Eats ts r) (ht : t ≠ .semi) : Eats (t :: ts) r := by
  obtain ⟨pre, hp, hs⟩ := h
  exact ⟨t :: pre, by simp [hp], by simp [hs, Ne.symm ht]⟩

theorem Eats.trans {a b c : List Tok} (h : Eats a b) (k : Eats b c) : Eats a c := by
  obtain ⟨p, hp, hs⟩ := h
  obtain ⟨q, hq, ht⟩ := k
  exact ⟨p ++ q, by simp [hp, hq], by simp [hs, ht]⟩

theorem Eats.expect {t : Tok} {ts r : List Tok} (h : expect t ts = some r) (ht : t ≠ .semi) :
    Eats ts r := by
  cases ts with
  | nil => simp [Verif.Emit.expect] at h
  | cons u q =>
    simp only [Verif.Emit.expect] at h
    split at h
    · rename_i hu; subst hu; simp only [Option.some.injEq] at h; subst h; exact (Eats.refl _).cons ht
    · simp at h

theorem Eats.dropNl {ts r : List Tok} (h : Eats (dropNl ts) r) : Eats ts r := by
  unfold Verif.Emit.dropNl at h
  split at h <;> first | exact h.cons (by simp) | exact h

theorem unaryOf_semi {t : Tok} {op : UnOp} (h : unaryOf t = some op) : t ≠ .semi := by
  rintro rfl; simp [unaryOf] at h

theorem binaryOf_semi {t : Tok} {op : Op} (h : binaryOf t = some op) : t ≠ .semi := by
  rintro rfl; simp [binaryOf] at h

set_option hygiene false in
/-- Take the bindings of a parser function apart, with what is known of the parts. -/
macro "eats_bind" : tactic => `(tactic|
  (first
    | (obtain ⟨rx, hx, h⟩ := Option.bind_eq_some_iff.mp h
       replace hx := Eats.expect hx (by simp))
    | (obtain ⟨⟨x, rx⟩, hx, h⟩ := Option.bind_eq_some_iff.mp h
       first
        | replace hx := ho _ _ _ _ hx
        | replace hx := ha _ _ hx
        | replace hx := hc _ _ hx
        | replace hx := he _ _ _ _ _ hx
        | replace hx := hn _ _ _ hx
       simp only at hx)
   try simp only at h))

set_option hygiene false in
/-- Close a goal by following the facts. -/
macro "eats_close" : tactic => `(tactic|
  (repeat' (first
    | exact Eats.refl _
    | assumption
    | (refine Eats.trans (by assumption) ?_)
    | (refine Eats.cons ?_ (by first | assumption | (simp; done)))
    | (refine Eats.trans (hl _ _ _ _ _ _ _ h) ?_)
    | (refine Eats.trans (hn _ _ _ h) ?_))))

theorem eats_all :
    (∀ (term : List Tok) (asi : Bool) (ts : List Tok) (r : Node × List Tok),
      operand term asi ts = some r → Eats ts r.2) ∧
    (∀ (ts : List Tok) (r : Items × List Tok), arrElems ts = some r → Eats ts r.2) ∧
    (∀ (term : List Tok) (asi : Bool) (m : Nat) (ts : List Tok) (r : Expr × List Tok),
      exprMin term asi m ts = some r → Eats ts r.2) ∧
    (∀ (term : List Tok) (asi : Bool) (m : Nat) (l : Expr) (par : Bool) (ts : List Tok)
      (r : Expr × List Tok), loop term asi m l par ts = some r → Eats ts r.2) ∧
    (∀ (ts : List Tok) (r : Items × List Tok), callArgs ts = some r → Eats ts r.2) ∧
    (∀ (c : Expr) (ts : List Tok) (r : Expr × List Tok), newChain c ts = some r → Eats ts r.2) := by
  refine operand.mutual_partial_correctness (fun _ _ ts r => Eats ts r.2) (fun ts r => Eats ts r.2)
    (fun _ _ _ ts r => Eats ts r.2) (fun _ _ _ _ _ ts r => Eats ts r.2) (fun ts r => Eats ts r.2)
    (fun _ ts r => Eats ts r.2) ?_ ?_ ?_ ?_ ?_ ?_
  · intro operand arrElems exprMin callArgs newChain ho ha he hc hn term asi ts r h
    cases ts with
    | nil => simp at h
    | cons t q =>
    simp only at h
    cases hu : unaryOf t with
    | some op =>
      have hsemi := unaryOf_semi hu
      simp only [hu, Option.bind_eq_bind] at h
      cases op <;> simp only at h
      case new =>
        eats_bind; eats_bind
        split at h
        · rename_i hd
          eats_bind; eats_bind
          obtain rfl := Option.some.inj h
          refine Eats.cons ?_ hsemi
          refine Eats.trans (by assumption) (Eats.trans (by assumption) ?_)
          apply Eats.dropNl
          rw [hd]
          eats_close
        · obtain rfl := Option.some.inj h
          eats_close
      all_goals
        (repeat' (first | (split at h) | eats_bind)) <;>
        first
          | (simp at h; done)
          | (obtain rfl := Option.some.inj h; eats_close; done)
    | none =>
      simp only [hu, Option.bind_eq_bind] at h
      cases t <;> simp only at h <;>
        (repeat' (first | (split at h) | eats_bind)) <;>
        first
          | (simp at h; done)
          | (obtain rfl := Option.some.inj h; eats_close; done)
  · intro arrElems exprMin ha he ts r h
    cases ts with
    | nil =>
      simp only [List.head?_nil, reduceCtorEq, if_false, Option.bind_eq_bind, List.tail_nil,
        ite_self] at h
      eats_bind
      split at h
      · obtain rfl := Option.some.inj h; eats_close
      · eats_bind; eats_bind
        obtain rfl := Option.some.inj h; eats_close
    | cons t q =>
      simp only [List.head?_cons, Option.bind_eq_bind, List.tail_cons, Option.some.injEq] at h
      split at h
      · eats_bind
        obtain rfl := Option.some.inj h
        subst_vars
        eats_close
      · split at h
        · obtain rfl := Option.some.inj h; eats_close
        · by_cases hd : t = .dots
          · simp only [hd, if_true] at h
            subst hd
            eats_bind
            split at h
            · obtain rfl := Option.some.inj h; eats_close
            · eats_bind; eats_bind
              obtain rfl := Option.some.inj h; eats_close
          · simp only [hd, if_false] at h
            eats_bind
            split at h
            · obtain rfl := Option.some.inj h; eats_close
            · eats_bind; eats_bind
              obtain rfl := Option.some.inj h; eats_close
  · intro operand loop ho hl term asi m ts r h
    simp only [Option.bind_eq_bind, Option.bind_eq_some_iff] at h
    obtain ⟨⟨l, r1⟩, h1, h2⟩ := h
    simp only at h2
    split at h2
    · simp at h2
    · exact (ho _ _ _ _ h1).trans (hl _ _ _ _ _ _ _ h2)
  · intro exprMin loop callArgs he hl hc term asi m l par ts r h
    cases ts with
    | nil =>
      simp only at h
      split at h
      · obtain rfl := Option.some.inj h; eats_close
      · simp at h
    | cons t q =>
      simp only at h
      split at h
      · obtain rfl := Option.some.inj h; eats_close
      · simp only [Option.bind_eq_bind] at h
        split at h
        case h_5 =>
          cases hb : binaryOf t with
          | none =>
            simp only [hb] at h
            split at h
            · obtain rfl := Option.some.inj h; eats_close
            · simp at h
          | some op =>
            have hsemi := binaryOf_semi hb
            simp only [hb] at h
            (repeat' (first | (split at h) | eats_bind)) <;>
            first
              | (simp at h; done)
              | (obtain rfl := Option.some.inj h; eats_close; done)
              | (eats_close; done)
        all_goals
          (repeat' (first | (split at h) | eats_bind)) <;>
          first
            | (simp at h; done)
            | exact Eats.cons (hl _ _ _ _ _ _ _ h) (by simp)
            | (obtain rfl := Option.some.inj h; eats_close; done)
            | (eats_close; done)
  · intro exprMin callArgs he hc ts r h
    cases ts with
    | nil =>
      simp only [List.head?_nil, reduceCtorEq, if_false, Option.bind_eq_bind, List.tail_nil,
        ite_self] at h
      eats_bind
      split at h
      · eats_bind
        obtain rfl := Option.some.inj h; eats_close
      · obtain rfl := Option.some.inj h; eats_close
    | cons t q =>
      simp only [List.head?_cons, Option.bind_eq_bind, List.tail_cons, Option.some.injEq] at h
      split at h
      · obtain rfl := Option.some.inj h; eats_close
      · by_cases hd : t = .dots
        · simp only [hd, if_true] at h
          subst hd
          eats_bind
          split at h
          · eats_bind
            obtain rfl := Option.some.inj h; eats_close
          · obtain rfl := Option.some.inj h; eats_close
        · simp only [hd, if_false] at h
          eats_bind
          split at h
          · eats_bind
            obtain rfl := Option.some.inj h; eats_close
          · obtain rfl := Option.some.inj h; eats_close
  · intro exprMin newChain he hn c ts r h
    simp only [Option.bind_eq_bind] at h
    split at h
    case h_7 => obtain rfl := Option.some.inj h; eats_close
    all_goals
      rename_i hd
      apply Eats.dropNl
      rw [hd]
      (repeat' eats_bind) <;>
      first
        | (simp at h; done)
        | eats_close

theorem exprMin_eats {term : List Tok} {asi : Bool} {m : Nat} {ts r : List Tok} {e : Expr}
    (h : exprMin term asi m ts = some (e, r)) : Eats ts r := eats_all.2.2.1 _ _ _ _ _ h

/-- The first part of a `for` header without `in` is not taken for `for … in`. -/
theorem not_forIn {ts rest : List Tok} (h : Tok.in_ ∉ ts) : isForIn (ts ++ .semi :: rest) = false := by
  unfold isForIn
  split
  · rename_i heq
    obtain ⟨pre, hp, hs⟩ := exprMin_eats heq
    exfalso
    rcases List.append_eq_append_iff.mp hp with ⟨a, h1, h2⟩ | ⟨a, h1, h2⟩
    · -- `pre = ts ++ a`
      cases a with
      | nil => simp at h2
      | cons x a =>
        simp only [List.cons_append, List.cons.injEq] at h2
        rw [h1, ← h2.1] at hs
        simp at hs
    · cases a with
      | nil => simp at h2
      | cons x a =>
        simp only [List.cons_append, List.cons.injEq] at h2
        rw [h1, ← h2.1] at h
        simp at h
  · rfl

/-! ### Printed expressions -/

/-- `ts` is read as `e`. -/
structure Printed (e : Expr) (ts : List Tok) : Prop where
  starts : Starts ts
  run : ∀ (term : List Tok) (asi : Bool) (rest : List Tok), Terminators term → Ends term asi rest →
    (Tok.comma ∈ term → isComma e = false) → (Tok.in_ ∈ term → Tok.in_ ∉ ts) →
    exprMin term asi 1 (ts ++ rest) = some (e, rest)

theorem printed_of_res {e : Expr} {ea : Bool} {ts : List Tok} (h : Res e ea ts) : Printed e ts := by
  refine ⟨?_, roundTrip_of_res (print := fun _ => ts) rfl h⟩
  obtain ⟨k, hb, _⟩ := h
  exact (bare_parse hb).1

theorem printed_parens {e : Expr} {ea : Bool} {ts : List Tok} (h : Res e ea ts) :
    Printed e (parens ts) := by
  refine ⟨starts_parens ts, ?_⟩
  obtain ⟨k, hb, _⟩ := h
  intro term asi rest ht he hc hi
  exact (p_paren 1 (bare_parse hb)).run term asi rest ht (Nat.le_refl _) (fun _ => .inl rfl) hi
    (ends_follow he _).2 (ends_follow he 1).1

theorem Starts.cons {ts : List Tok} (h : Starts ts) : ∃ (t : Tok) (r : List Tok), ts = t :: r ∧
    startsOperand t = true := h

/-! ### Where a statement ends -/

/-- A token that begins a printed statement. -/
def stmtHead (t : Tok) : Bool :=
  startsOperand t ||
  (match t with
   | .lbrace | .kif | .kwhile | .kdo | .kfor | .kvar | .klet | .kconst | .kbreak | .kcontinue
   | .kreturn | .kthrow | .kdebugger | .decl _ => true
   | _ => false)

/-- What may follow a statement that ends with an expression (`op`) or without semicolon. -/
def After (op : Bool) : List Tok → Prop
  | [] => True
  | .semi :: _ => True
  | .rbrace :: _ => True
  | .nl :: t :: _ => stmtHead t = true ∧ (op = true → joins t = false)
  | _ => False

/-- No `else` follows. -/
def NoElse (rest : List Tok) : Prop := ∀ r : List Tok, dropNls rest ≠ .kelse :: r

theorem dropNls_head {t : Tok} {r : List Tok} (h : t ≠ .nl) : dropNls (t :: r) = t :: r := by
  cases t <;> first | rfl | exact absurd rfl h

theorem skipSemi_head {t : Tok} {r : List Tok} (h : t ≠ .nl) (hs : t ≠ .semi) :
    skipSemi (t :: r) = t :: r := by
  cases t <;> first | rfl | exact absurd rfl h | exact absurd rfl hs

theorem After.ends {rest : List Tok} (h : After true rest) (term : List Tok) (hs : Tok.semi ∈ term)
    (hcol : Tok.colon ∉ term) : Ends term true rest := by
  refine ⟨?_, fun hc => absurd hc hcol⟩
  unfold After at h
  split at h
  · rfl
  · exact .inl hs
  · exact .inr ⟨rfl, .inl rfl⟩
  · exact ⟨rfl, h.2 rfl⟩
  · exact h.elim

/-! ### Expression statements -/

/-- The two tokens that do not begin an expression statement. -/
def badHead : Tok → Bool
  | .obj _ | .func _ => true
  | _ => false

theorem stmt_expr {e : Expr} {ts rest : List Tok} (h : Printed e ts)
    (hb : ∀ t : Tok, ts.head? = some t → badHead t = false) (ha : After true rest) :
    stmt (ts ++ rest) = some (.expr e, skipSemi rest) := by
  obtain ⟨t, r, rfl, hst⟩ := h.starts
  have hr := h.run [.semi] true rest (by simp [Terminators]) (ha.ends _ (by simp) (by simp)) (by simp)
    (by simp)
  have hb := hb t rfl
  rw [stmt.eq_def]
  by_cases hid : ∃ n : Nat, t = .id n
  · obtain ⟨n, rfl⟩ := hid
    simp only [List.cons_append, dropNls]
    split
    · rename_i q hq
      exfalso
      have hq' : r ++ rest = .colon :: q ∨ r ++ rest = .nl :: .colon :: q := by
        revert hq
        split
        · intro h; right; simp_all
        · intro h; left; exact h
      rw [List.cons_append, exprMin_of_operand (p := false) (e := .id n) (rest := r ++ rest)
        (by rw [operand.eq_def]; rfl) (by simp)] at hr
      rcases hq' with hq' | hq'
      · rw [hq', loop.eq_def] at hr
        simp [binaryOf] at hr
      · rw [hq', loop.eq_def] at hr
        simp [binaryOf] at hr
        obtain ⟨_, hrest⟩ := hr
        rw [← hrest] at ha
        simp [After, stmtHead, startsOperand] at ha
    · rw [← List.cons_append, hr]
      rfl
  · cases t <;> simp [startsOperand, badHead] at hst hb hid <;>
      (simp only [List.cons_append, dropNls]; rw [← List.cons_append, hr]; rfl)

/-! ### Other statements -/

theorem ends_term {term : List Tok} {t : Tok} {r : List Tok} (h : t ∈ term) (ht : t ≠ .nl)
    (hc : Tok.colon ∉ term) {asi : Bool} : Ends term asi (t :: r) := by
  refine ⟨?_, fun h => absurd h hc⟩
  cases t <;> first | exact .inl h | exact absurd rfl ht

theorem read_cond {c : Expr} {tc : List Tok} (h : Printed c tc) (r : List Tok) :
    exprMin [.rp] false 1 (tc ++ .rp :: r) = some (c, .rp :: r) :=
  h.run _ _ _ (by simp [Terminators]) (ends_term (by simp) (by simp) (by simp)) (by simp) (by simp)

theorem stmt_block {r r' : List Tok} {b : Stmts} (h : stmts r = some (b, .rbrace :: r')) :
    stmt (.lbrace :: r) = some (.block b, r') := by
  rw [stmt.eq_def]
  simp [dropNls, h, expect]

theorem stmt_ifs {c : Expr} {tc r r' : List Tok} {t : Stmt} (hc : Printed c tc)
    (h : stmt r = some (t, r')) (he : NoElse r') :
    stmt (.kif :: .lp :: tc ++ .rp :: r) = some (.ifs c t, r') := by
  rw [stmt.eq_def]
  simp only [List.cons_append, dropNls, expect, if_true, Option.bind_eq_bind, Option.bind_some,
    read_cond hc, h]
  have he' : ∀ q : List Tok, dropNls r' ≠ .kelse :: q := he
  unfold dropNls at he'
  split
  · rename_i heq; exact absurd heq (he' _)
  · rfl

theorem stmt_ifElse {c : Expr} {tc r r1 r2 : List Tok} {t f : Stmt} (hc : Printed c tc)
    (h : stmt r = some (t, .kelse :: r1)) (h2 : stmt r1 = some (f, r2)) :
    stmt (.kif :: .lp :: tc ++ .rp :: r) = some (.ifElse c t f, r2) := by
  rw [stmt.eq_def]
  simp only [List.cons_append, dropNls, expect, if_true, Option.bind_eq_bind, Option.bind_some,
    read_cond hc, h, h2]

theorem stmt_while {c : Expr} {tc r r' : List Tok} {b : Stmt} (hc : Printed c tc)
    (h : stmt r = some (b, r')) :
    stmt (.kwhile :: .lp :: tc ++ .rp :: r) = some (.while_ c b, r') := by
  rw [stmt.eq_def]
  simp only [List.cons_append, dropNls, expect, if_true, Option.bind_eq_bind, Option.bind_some,
    read_cond hc, h]

theorem stmt_do {c : Expr} {tc r r' rest : List Tok} {b : Stmt} (hc : Printed c tc)
    (h : stmt r = some (b, r')) (hw : dropNls (skipSemi r') = .kwhile :: .lp :: tc ++ .rp :: rest) :
    stmt (.kdo :: r) = some (.doWhile b c, rest) := by
  rw [stmt.eq_def]
  unfold dropNls at hw
  simp only [List.cons_append] at hw
  simp only [dropNls, h, Option.bind_eq_bind, Option.bind_some, hw, expect, if_true, read_cond hc]

theorem stmt_label {n : Nat} {r r' : List Tok} {s : Stmt} (h : stmt r = some (s, r')) :
    stmt (.id n :: .colon :: r) = some (.label n s, r') := by
  rw [stmt.eq_def]
  simp [dropNls, h]

theorem stmt_ret {e : Expr} {ts rest : List Tok} (h : Printed e ts) (ha : After true rest) :
    stmt (.kreturn :: ts ++ rest) = some (.ret (some e), skipSemi rest) := by
  have hr := h.run [.semi] true rest (by simp [Terminators]) (ha.ends _ (by simp) (by simp)) (by simp)
    (by simp)
  obtain ⟨t, r, rfl, hst⟩ := h.starts
  rw [stmt.eq_def]
  simp only [List.cons_append, dropNls]
  rw [List.cons_append] at hr
  cases t <;> simp [startsOperand] at hst <;> simp only [hr, Option.bind_eq_bind, Option.bind_some]

theorem stmt_throw {e : Expr} {ts rest : List Tok} (h : Printed e ts) (ha : After true rest) :
    stmt (.kthrow :: ts ++ rest) = some (.throw e, skipSemi rest) := by
  have hr := h.run [.semi] true rest (by simp [Terminators]) (ha.ends _ (by simp) (by simp)) (by simp)
    (by simp)
  obtain ⟨t, r, rfl, hst⟩ := h.starts
  rw [stmt.eq_def]
  simp only [List.cons_append, dropNls]
  rw [List.cons_append] at hr
  cases t <;> simp [startsOperand] at hst <;> simp only [hr, Option.bind_eq_bind, Option.bind_some]

/-! ### Declarations -/

/-- Declarators whose initialisers are printed by `pr`. -/
def DeclsOK (pr : Expr → List Tok) (ds : List Declarator) : Prop :=
  ∀ d ∈ ds, ∀ e : Expr, d.2 = some e → Printed e (pr e) ∧ isComma e = false

theorem After.mono {rest : List Tok} (h : After true rest) : After false rest := by
  unfold After at h ⊢
  split at h <;> simp_all

/-- What the last declarator leaves. -/
theorem decl_end (rest : List Tok) (n : Nat) (i : Option Expr) : After false rest →
    ((some (i, rest) : Option (Option Expr × List Tok)).bind fun x =>
      match dropNls x.2 with
      | .semi :: r => some ([(n, x.1)], r)
      | .comma :: r => (declarators r).bind fun y => some ((n, x.1) :: y.1, y.2)
      | _ =>
        match x.2 with
        | [] => some ([(n, x.1)], x.2)
        | .rbrace :: _ => some ([(n, x.1)], x.2)
        | .nl :: _ => some ([(n, x.1)], x.2)
        | _ => none) = some ([(n, i)], skipSemi rest) := by
  intro h
  unfold After at h
  split at h
  · rfl
  · rfl
  · rfl
  · rename_i t r
    have ht := h.1
    cases t <;> simp [stmtHead, startsOperand] at ht <;> rfl
  · exact h.elim

theorem initialiser_none {term : List Tok} {asi : Bool} {rest : List Tok}
    (h : ∀ r : List Tok, dropNls rest ≠ .eq :: r) :
    initialiser term asi rest = some (none, rest) := by
  unfold initialiser
  split
  · rename_i heq; exact absurd heq (h _)
  · rfl

theorem After.noEq {op : Bool} {rest : List Tok} (h : After op rest) :
    ∀ r : List Tok, dropNls rest ≠ .eq :: r := by
  intro r hr
  unfold After at h
  split at h
  · simp [dropNls] at hr
  · simp [dropNls] at hr
  · simp [dropNls] at hr
  · simp only [dropNls, List.cons.injEq] at hr
    rw [hr.1] at h
    simp [stmtHead, startsOperand] at h
  · exact h.elim

theorem initialiser_some {term : List Tok} {asi : Bool} {e : Expr} {ts rest : List Tok}
    (h : Printed e ts) (ht : Terminators term) (he : Ends term asi rest)
    (hc : Tok.comma ∈ term → isComma e = false) (hi : Tok.in_ ∈ term → Tok.in_ ∉ ts) :
    initialiser term asi (.eq :: ts ++ rest) = some (some e, rest) := by
  simp only [initialiser, List.cons_append, dropNls, h.run term asi rest ht he hc hi,
    Option.bind_eq_bind, Option.bind_some]

theorem read_decls (pr : Expr → List Tok) : ∀ (ds : List Declarator), ds ≠ [] → DeclsOK pr ds →
    ∀ rest : List Tok, After (endsWithInit ds) rest →
    declarators (declsTok pr ds ++ rest) = some (ds, skipSemi rest)
  | [], h, _, _, _ => absurd rfl h
  | [(n, none)], _, _, rest, ha => by
    rw [declarators.eq_def]
    simp only [declsTok, declTok, List.cons_append, List.nil_append]
    rw [initialiser_none ha.noEq]
    exact decl_end rest n none ha
  | [(n, some e)], _, hd, rest, ha => by
    have ha' : After true rest := ha
    have he := hd (n, some e) (by simp) e rfl
    rw [declarators.eq_def]
    simp only [declsTok, declTok, List.cons_append]
    rw [← List.cons_append, initialiser_some he.1 (by simp [Terminators])
      (ha'.ends _ (by simp) (by simp)) (fun _ => he.2) (by simp)]
    exact decl_end rest n (some e) ha'.mono
  | (n, none) :: d :: ds, _, hd, rest, ha => by
    have ih := read_decls pr (d :: ds) (by simp) (fun x hx => hd x (by simp [hx])) rest
      (by simpa [endsWithInit] using ha)
    rw [declarators.eq_def]
    simp only [declsTok, declTok, List.cons_append, List.nil_append]
    rw [initialiser_none (by intro r; simp [dropNls])]
    simp only [Option.bind_eq_bind, Option.bind_some, dropNls]
    rw [ih]; rfl
  | (n, some e) :: d :: ds, _, hd, rest, ha => by
    have he := hd (n, some e) (by simp) e rfl
    have ih := read_decls pr (d :: ds) (by simp) (fun x hx => hd x (by simp [hx])) rest
      (by simpa [endsWithInit] using ha)
    rw [declarators.eq_def]
    simp only [declsTok, declTok, List.cons_append, List.append_assoc]
    rw [← List.cons_append, initialiser_some he.1 (by simp [Terminators])
      (ends_term (by simp) (by simp) (by simp)) (fun _ => he.2) (by simp)]
    simp only [Option.bind_eq_bind, Option.bind_some, dropNls]
    rw [ih]; rfl

theorem stmt_var (pr : Expr → List Tok) (m : VarMode) (ds : List Declarator) (hn : ds ≠ [])
    (hd : DeclsOK pr ds) (rest : List Tok) (ha : After (endsWithInit ds) rest) :
    stmt (modeTok m :: declsTok pr ds ++ rest) = some (.var_ m ds, skipSemi rest) := by
  have h := read_decls pr ds hn hd rest ha
  rw [stmt.eq_def]
  cases m <;>
    simp only [modeTok, List.cons_append, dropNls, h, Option.bind_eq_bind, Option.bind_some]

/-! ### Headers of `for` -/

theorem read_header (pr : Expr → List Tok) : ∀ (ds : List Declarator), ds ≠ [] → DeclsOK pr ds →
    Tok.in_ ∉ declsTok pr ds → ∀ rest : List Tok,
    headerDeclarators (declsTok pr ds ++ .semi :: rest) = some (ds, .semi :: rest)
  | [], h, _, _, _ => absurd rfl h
  | [(n, none)], _, _, _, rest => by
    rw [headerDeclarators.eq_def]
    simp only [declsTok, declTok, List.cons_append, List.nil_append]
    rw [initialiser_none (by intro r; simp [dropNls])]
    rfl
  | [(n, some e)], _, hd, hi, rest => by
    have he := hd (n, some e) (by simp) e rfl
    rw [headerDeclarators.eq_def]
    simp only [declsTok, declTok, List.cons_append]
    rw [← List.cons_append, initialiser_some he.1 (by simp [Terminators])
      (ends_term (by simp) (by simp) (by simp)) (fun _ => he.2)
      (fun _ h => hi (by simp [declsTok, declTok, h]))]
    rfl
  | (n, none) :: d :: ds, _, hd, hi, rest => by
    have ih := read_header pr (d :: ds) (by simp) (fun x hx => hd x (by simp [hx]))
      (fun h => hi (by simp [declsTok, h])) rest
    rw [headerDeclarators.eq_def]
    simp only [declsTok, declTok, List.cons_append, List.nil_append]
    rw [initialiser_none (by intro r; simp [dropNls])]
    simp only [Option.bind_eq_bind, Option.bind_some]
    rw [ih]; rfl
  | (n, some e) :: d :: ds, _, hd, hi, rest => by
    have he := hd (n, some e) (by simp) e rfl
    have ih := read_header pr (d :: ds) (by simp) (fun x hx => hd x (by simp [hx]))
      (fun h => hi (by simp [declsTok, h])) rest
    rw [headerDeclarators.eq_def]
    simp only [declsTok, declTok, List.cons_append, List.append_assoc]
    rw [← List.cons_append, initialiser_some he.1 (by simp [Terminators])
      (ends_term (by simp) (by simp) (by simp)) (fun _ => he.2)
      (fun _ h => hi (by simp [declsTok, declTok, h]))]
    simp only [Option.bind_eq_bind, Option.bind_some]
    rw [ih]; rfl

/-- The first part of a header, printed by `pr`. -/
def InitOK (pr : Expr → List Tok) : ForInit → Prop
  | .none => True
  | .expr e => Printed e (pr e)
  | .decl _ ds => ds ≠ [] ∧ DeclsOK pr ds

theorem read_init (pr : Expr → List Tok) (i : ForInit) (h : InitOK pr i) (hi : Tok.in_ ∉ initTok pr i)
    (rest : List Tok) : forInit (initTok pr i ++ .semi :: rest) = some (i, rest) := by
  cases i with
  | none => rfl
  | decl m ds =>
    have := read_header pr ds h.1 h.2 (fun h => hi (by simp [initTok, h])) rest
    cases m <;>
      simp only [initTok, modeTok, List.cons_append, forInit, varMode, this, Option.bind_eq_bind,
        Option.bind_some, expect, if_true]
  | expr e =>
    have h : Printed e (pr e) := h
    have hr := h.run [.semi] false (.semi :: rest) (by simp [Terminators])
      (ends_term (by simp) (by simp) (by simp)) (by simp) (by simp)
    have hf := not_forIn (rest := rest) hi
    obtain ⟨t, r, hts, hst⟩ := h.starts
    simp only [initTok] at hf ⊢
    rw [hts] at hr hf ⊢
    rw [List.cons_append] at hr hf ⊢
    have hv : varMode t = none := by cases t <;> first | rfl | simp [startsOperand] at hst
    have hs : t ≠ .semi := by rintro rfl; simp [startsOperand] at hst
    unfold forInit
    split
    · rename_i heq; simp only [List.cons.injEq] at heq; exact absurd heq.1 hs
    · rename_i heq; simp at heq
    · rename_i heq
      simp only [List.cons.injEq] at heq
      obtain ⟨rfl, rfl⟩ := heq
      simp [hv, hf, hr, expect]

/-- An optional expression printed by `pr`. -/
def OptOK (pr : Expr → List Tok) (o : Option Expr) : Prop := ∀ e : Expr, o = some e → Printed e (pr e)

theorem read_part (pr : Expr → List Tok) (o : Option Expr) (h : OptOK pr o) (stop : Tok)
    (hs : stop = .semi ∨ stop = .rp) (rest : List Tok) :
    forPart stop (optTok pr o ++ stop :: rest) = some (o, rest) := by
  cases o with
  | none => simp [optTok, forPart]
  | some e =>
    have h := h e rfl
    have hr := h.run [stop] false (stop :: rest)
      (by rcases hs with rfl | rfl <;> simp [Terminators])
      (ends_term (by simp) (by rcases hs with rfl | rfl <;> simp)
        (by rcases hs with rfl | rfl <;> simp)) (by rcases hs with rfl | rfl <;> simp)
      (by rcases hs with rfl | rfl <;> simp)
    obtain ⟨t, r, hts, hst⟩ := h.starts
    simp only [optTok]
    rw [hts] at hr ⊢
    rw [List.cons_append] at hr ⊢
    have hne : t ≠ stop := by rcases hs with rfl | rfl <;> (rintro rfl; simp [startsOperand] at hst)
    simp [forPart, hne, hr, expect]

theorem stmt_for (pr : Expr → List Tok) {i : ForInit} {c p : Option Expr} (hi : InitOK pr i)
    (hin : Tok.in_ ∉ initTok pr i) (hc : OptOK pr c) (hp : OptOK pr p) {r r' : List Tok} {b : Stmts}
    (hb : forBody r = some (b, r')) :
    stmt (headTok pr i c p ++ r) = some (.forT i c p b, r') := by
  rw [stmt.eq_def]
  simp only [headTok, List.cons_append, dropNls, List.append_assoc, List.nil_append, expect, if_true,
    Option.bind_eq_bind, Option.bind_some]
  rw [read_init pr i hi hin]
  simp only [Option.bind_some]
  rw [read_part pr c hc .semi (.inl rfl)]
  simp only [Option.bind_some]
  rw [read_part pr p hp .rp (.inr rfl)]
  simp only [Option.bind_some, hb]

theorem forBody_block {r r' : List Tok} {b : Stmts} (h : stmts r = some (b, .rbrace :: r')) :
    forBody (.lbrace :: r) = some (b, r') := by
  rw [forBody.eq_def]
  simp [dropNls, h, expect]

theorem forBody_stmt {t : Tok} {r r' : List Tok} {s : Stmt} (ht : t ≠ .nl) (hl : t ≠ .lbrace)
    (h : stmt (t :: r) = some (s, r')) : forBody (t :: r) = some (.cons s .nil, r') := by
  rw [forBody.eq_def]
  have : dropNls (t :: r) = t :: r := dropNls_head ht
  simp only [this]
  split
  · rename_i heq; simp only [List.cons.injEq] at heq; exact absurd heq.1 hl
  · simp [h]

/-! ### Lists -/

theorem stmts_cons {t : Tok} {r r1 r2 : List Tok} {s : Stmt} {ss : Stmts} (ht : t ≠ .nl)
    (hb : t ≠ .rbrace) (h : stmt (t :: r) = some (s, r1)) (h2 : stmts r1 = some (ss, r2)) :
    stmts (t :: r) = some (.cons s ss, r2) := by
  rw [stmts.eq_def]
  have : dropNls (t :: r) = t :: r := dropNls_head ht
  simp only [this]
  split
  · rename_i heq; simp at heq
  · rename_i heq; simp only [List.cons.injEq] at heq; exact absurd heq.1 hb
  · simp [h, h2]

theorem stmts_nl {t : Tok} {r : List Tok} (ht : t ≠ .nl) : stmts (.nl :: t :: r) = stmts (t :: r) := by
  rw [stmts.eq_def, stmts.eq_def]
  have h1 : dropNls (.nl :: t :: r) = t :: r := rfl
  have h2 : dropNls (t :: r) = t :: r := dropNls_head ht
  simp only [h1, h2]

theorem stmts_semi {r r2 : List Tok} {ss : Stmts} (h : stmts r = some (ss, r2)) :
    stmts (.semi :: r) = some (.cons .empty ss, r2) :=
  stmts_cons (by simp) (by simp) (by rw [stmt.eq_def]; rfl) h

theorem stmts_end {tail : List Tok} (h : tail = [] ∨ ∃ r : List Tok, tail = .rbrace :: r) :
    stmts tail = some (.nil, tail) := by
  rcases h with rfl | ⟨r, rfl⟩ <;> (rw [stmts.eq_def]; rfl)

end Verif.Emit
