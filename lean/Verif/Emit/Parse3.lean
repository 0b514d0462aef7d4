import Verif.Emit.Parse2

/-!
# The parser reads renderings back: calls, members, arrays, arrows, `new`
-/

namespace Verif.Emit

/-! ## Arguments and elements -/

theorem expect_self (t : Tok) (r : List Tok) : expect t (t :: r) = some r := by simp [expect]

theorem callArgs_rp (r : List Tok) : callArgs (.rp :: r) = some (.nil, .rp :: r) := by
  rw [callArgs.eq_def]; simp

theorem arrElems_rb (r : List Tok) : arrElems (.rb :: r) = some (.nil, .rb :: r) := by
  rw [arrElems.eq_def]; simp

theorem starts_head {ts : List Tok} (h : Starts ts) (t : Tok) (ht : startsOperand t = false) :
    ts.head? ≠ some t := by
  obtain ⟨u, r, rfl, h⟩ := h
  intro he
  simp at he
  subst he
  simp [h] at ht

/-- Reading one argument. -/
theorem callArgs_item (sp : Bool) (ts : List Tok) (h : Starts ts) :
    callArgs ((if sp then [.dots] else []) ++ ts) =
      (exprMin [.comma, .rp] false 1 ts).bind fun x =>
        match x.2 with
        | .comma :: r => (callArgs r).bind fun y => some (.item sp x.1 y.1, y.2)
        | _ => some (.item sp x.1 .nil, x.2) := by
  rw [callArgs.eq_def]
  have h1 := starts_head h .rp rfl
  have h2 := starts_head h .dots rfl
  cases sp with
  | true => simp; rfl
  | false => simp [h1, h2]; rfl

/-- Reading one element. -/
theorem arrElems_item (sp : Bool) (ts : List Tok) (h : Starts ts) :
    arrElems ((if sp then [.dots] else []) ++ ts) =
      (exprMin [.comma, .rb] false 1 ts).bind fun x =>
        if x.2.head? = some .rb then some (.item sp x.1 .nil, x.2) else
        (expect .comma x.2).bind fun r => (arrElems r).bind fun y => some (.item sp x.1 y.1, y.2) := by
  rw [arrElems.eq_def]
  have h1 := starts_head h .rb rfl
  have h2 := starts_head h .dots rfl
  have h3 := starts_head h .comma rfl
  cases sp with
  | true => simp
  | false => simp [h1, h2, h3]

theorem p_nil (h : Bool) : PIts h .nil [] :=
  ⟨fun _ rest => callArgs_rp rest, fun rest => arrElems_rb rest⟩

theorem p_last (h sp : Bool) {e : Expr} {p : Bool} {k : Nat} {ts : List Tok} (he : PSh 2 e p k ts)
    (hsh : p = true ∨ 2 ≤ precA e) :
    PIts h (.item sp e .nil) ((if sp then [.dots] else []) ++ ts) := by
  constructor
  · intro _ rest
    rw [List.append_assoc, callArgs_item sp _ (he.1.app _),
      he.2 [.comma, .rp] false 1 _ termOK_comma_rp (by omega) (Nat.le_refl _) (fun _ => hsh) (by simp)
        (follow_term _ _ _ _ _ (by simp) (by simp)), loop_term _ _ _ _ _ _ _ (by simp)]
    rfl
  · intro rest
    rw [List.append_assoc, arrElems_item sp _ (he.1.app _),
      he.2 [.comma, .rb] false 1 _ termOK_comma_rb (by omega) (Nat.le_refl _) (fun _ => hsh) (by simp)
        (follow_term _ _ _ _ _ (by simp) (by simp)), loop_term _ _ _ _ _ _ _ (by simp)]
    rfl

theorem p_cons (h sp : Bool) {e : Expr} {rest : Items} {p : Bool} {k : Nat} {ts tr : List Tok}
    (he : PSh 2 e p k ts) (hsh : p = true ∨ 2 ≤ precA e) (hr : PIts h rest tr) :
    PIts h (.item sp e rest) ((if sp then [.dots] else []) ++ ts ++ .comma :: tr) := by
  constructor
  · intro hf q
    simp only [List.append_assoc, List.cons_append]
    rw [callArgs_item sp _ (he.1.app _),
      he.2 [.comma, .rp] false 1 _ termOK_comma_rp (by omega) (Nat.le_refl _) (fun _ => hsh) (by simp)
        (follow_term _ _ _ _ _ (by simp) (by simp)), loop_term _ _ _ _ _ _ _ (by simp)]
    simp only [Option.bind_some]
    rw [hr.1 hf q]; rfl
  · intro q
    simp only [List.append_assoc, List.cons_append]
    rw [arrElems_item sp _ (he.1.app _),
      he.2 [.comma, .rb] false 1 _ termOK_comma_rb (by omega) (Nat.le_refl _) (fun _ => hsh) (by simp)
        (follow_term _ _ _ _ _ (by simp) (by simp)), loop_term _ _ _ _ _ _ _ (by simp)]
    simp only [Option.bind_some, List.head?_cons, Option.some.injEq, reduceCtorEq, if_false,
      expect_self]
    rw [hr.2 q]; rfl

theorem p_hole {rest : Items} {tr : List Tok} (hr : PIts true rest tr) :
    PIts true (.hole rest) (.comma :: tr) := by
  constructor
  · intro hf; simp at hf
  · intro q
    rw [arrElems.eq_def]
    simp [hr.2 q]

theorem p_arr {es : Items} {te : List Tok} (h : PIts true es te) :
    PBare (.arr es) 20 (.lb :: te ++ [.rb]) := by
  have hop : ∀ (term : List Tok) (asi : Bool) (rest : List Tok),
      operand term asi (.lb :: te ++ [.rb] ++ rest) = some ((.arr es, false), rest) := by
    intro term asi rest
    rw [operand.eq_def]
    simp only [List.cons_append, List.append_assoc, List.nil_append, unaryOf]
    rw [h.2 rest]
    simp [expect]
  exact ⟨⟨.lb, _, rfl, rfl⟩,
    fun term asi m' rest _ _ _ _ _ _ => exprMin_of_operand (hop term asi rest) (fun _ => .inr ⟨rfl, rfl⟩),
    fun _ term asi rest _ _ => hop term asi rest⟩

/-! ## Calls and members -/

theorem yield_closed {f : Expr} {p : Bool} (hsh : p = true ∨ 18 ≤ precA f) (n : Nat) :
    ¬ ((isYield f && !p && decide (n > prec (.un .yield))) = true) := by
  simp only [Bool.and_eq_true, Bool.not_eq_true', decide_eq_true_eq, not_and]
  rintro ⟨hy, hpf⟩
  have := yield_prec hy
  rcases hsh with h | h
  · simp [h] at hpf
  · omega

theorem p_call (opt : Bool) {f : Expr} {as : Items} {p : Bool} {tf ta : List Tok}
    (hf : PSh 18 f p 20 tf) (hsh : p = true ∨ 18 ≤ precA f) (ha : PIts false as ta) :
    PBare (.call opt f as) 20 (tf ++ callTok opt :: ta ++ [.rp]) := by
  refine ⟨(hf.1.app _).app _, ?_, by simp [isBase]⟩
  intro term asi m' rest ht hm h1 hc hin _
  simp only [precA] at hm
  simp only [List.append_assoc, List.cons_append, List.nil_append]
  rw [hf.2 term asi m' _ ht hm h1 (fun _ => hsh.imp id (fun h => by omega))
    (fun a => fun b => hin a (by simp [b])) (.inl (by omega))]
  cases opt with
  | true =>
    have hop : binaryOf (callTok true) = some .optCall := rfl
    rw [loop_op _ _ _ _ _ _ _ _ (op_not_term ht hop (by simp [callTok]) (by simp [callTok])) hop,
      if_neg (by rw [pv_optCall]; omega), if_neg (yield_closed hsh _)]
    simp only [ha.1 rfl rest, Option.bind_some, expect_self]
  | false =>
    have hop : binaryOf (callTok false) = some .call := rfl
    rw [loop_op _ _ _ _ _ _ _ _ (op_not_term ht hop (by simp [callTok]) (by simp [callTok])) hop,
      if_neg (by rw [pv_call]; omega), if_neg (yield_closed hsh _)]
    simp only [ha.1 rfl rest, Option.bind_some, expect_self]

theorem p_member (opt : Bool) {o : Expr} (n : Nat) {p : Bool} {ts : List Tok}
    (hf : PSh 18 o p 20 ts) (hsh : p = true ∨ 18 ≤ precA o) :
    PBare (.member opt o n) 20 (ts ++ [dotTok opt, .id n]) := by
  refine ⟨hf.1.app _, ?_, by simp [isBase]⟩
  intro term asi m' rest ht hm h1 hc hin _
  simp only [precA] at hm
  simp only [List.append_assoc, List.cons_append, List.nil_append]
  rw [hf.2 term asi m' _ ht hm h1 (fun _ => hsh.imp id (fun h => by omega))
    (fun a => fun b => hin a (by simp [b])) (.inl (by omega))]
  cases opt with
  | true =>
    have hop : binaryOf (dotTok true) = some .optMember := rfl
    rw [loop_op _ _ _ _ _ _ _ _ (op_not_term ht hop (by simp [dotTok]) (by simp [dotTok])) hop,
      if_neg (by rw [pv_optMember]; omega), if_neg (yield_closed hsh _)]
  | false =>
    have hop : binaryOf (dotTok false) = some .member := rfl
    rw [loop_op _ _ _ _ _ _ _ _ (op_not_term ht hop (by simp [dotTok]) (by simp [dotTok])) hop,
      if_neg (by rw [pv_member]; omega), if_neg (yield_closed hsh _)]

/-- Reading an index. -/
theorem read_index {i : Expr} {pi : Bool} {ki : Nat} {ti : List Tok} (hi : PSh 1 i pi ki ti)
    (rest : List Tok) : exprMin [.rb] false 1 (ti ++ .rb :: rest) = some (i, .rb :: rest) :=
  hi.run [.rb] false _ termOK_rb (Nat.le_refl _) (by simp) (by simp)
    (follow_term _ _ _ _ _ (by simp) (by simp)) (.inl (by simp))

theorem p_index (opt : Bool) {o i : Expr} {p pi : Bool} {ki : Nat} {ts ti : List Tok}
    (hf : PSh 18 o p 20 ts) (hsh : p = true ∨ 18 ≤ precA o) (hi : PSh 1 i pi ki ti) :
    PBare (.index opt o i) 20 (ts ++ brackTok opt :: ti ++ [.rb]) := by
  refine ⟨(hf.1.app _).app _, ?_, by simp [isBase]⟩
  intro term asi m' rest ht hm h1 hc hin _
  simp only [precA] at hm
  simp only [List.append_assoc, List.cons_append, List.nil_append]
  rw [hf.2 term asi m' _ ht hm h1 (fun _ => hsh.imp id (fun h => by omega))
    (fun a => fun b => hin a (by simp [b])) (.inl (by omega))]
  cases opt with
  | true =>
    have hop : binaryOf (brackTok true) = some .optComputed := rfl
    rw [loop_op _ _ _ _ _ _ _ _ (op_not_term ht hop (by simp [brackTok]) (by simp [brackTok])) hop,
      if_neg (by rw [pv_optComputed]; omega), if_neg (yield_closed hsh _)]
    simp only [read_index hi rest, Option.bind_some, expect_self]
  | false =>
    have hop : binaryOf (brackTok false) = some .computed := rfl
    rw [loop_op _ _ _ _ _ _ _ _ (op_not_term ht hop (by simp [brackTok]) (by simp [brackTok])) hop,
      if_neg (by rw [pv_computed]; omega), if_neg (yield_closed hsh _)]
    simp only [read_index hi rest, Option.bind_some, expect_self]

theorem p_tagged {f : Expr} (n : Nat) {p : Bool} {ts : List Tok}
    (hf : PSh 18 f p 20 ts) (hsh : p = true ∨ 18 ≤ precA f) :
    PBare (.tagged f n) 20 (ts ++ [.tpl n]) := by
  refine ⟨hf.1.app _, ?_, by simp [isBase]⟩
  intro term asi m' rest ht hm h1 hc hin _
  simp only [precA] at hm
  simp only [List.append_assoc, List.cons_append, List.nil_append]
  rw [hf.2 term asi m' _ ht hm h1 (fun _ => hsh.imp id (fun h => by omega))
    (fun a => fun b => hin a (by simp [b])) (.inl (by omega))]
  have hn : Tok.tpl n ∉ term := starts_not_term ht rfl
  rw [loop.eq_def]
  simp only [List.contains_eq_mem, hn, decide_false, Bool.false_eq_true, if_false]
  rw [if_neg]
  simp only [Bool.and_eq_true, Bool.not_eq_true', not_and]
  intro hy hpf
  have := yield_prec hy
  rcases hsh with h | h
  · simp [h] at hpf
  · omega

/-! ## Arrow functions -/

theorem p_arrow (n : Nat) {e : Expr} {p : Bool} {k : Nat} {ts : List Tok} (h : PSh 2 e p k ts)
    (hsh : p = true ∨ 2 ≤ precA e) (hobj : ∀ n : Nat, ts.head? ≠ some (.obj n)) :
    PBare (.arrow n e) (min 1 k) (.arrow n :: ts) := by
  refine ⟨⟨_, _, rfl, rfl⟩, ?_, by simp [isBase]⟩
  intro term asi m' rest ht hm h1 hc hin hf
  simp only [precA] at hm
  have hst : StopsAt term true 1 rest :=
    ((hf.stops (by omega)).mono (Nat.min_le_left _ _)).asi
  have hrun : exprMin term true 1 (ts ++ rest) = some (e, rest) := by
    rw [h.2 term true 1 rest ht (by omega) (Nat.le_refl _) (fun _ => hsh)
      (fun a => fun b => hin a (by simp [b])) ((hf.mono (Nat.min_le_right _ _)).asi)]
    exact loop_stop _ _ _ _ _ _ _ hst (Nat.le_refl _)
  refine exprMin_of_operand ?_ (fun h3 => by omega)
  rw [operand.eq_def]
  simp only [List.cons_append, unaryOf]
  obtain ⟨t, r, rfl, _⟩ := h.1
  split
  · rename_i heq
    simp only [List.cons_append, List.cons.injEq] at heq
    rename_i n' _
    exact absurd (by simp [heq.1]) (hobj n')
  · rw [hrun]
    simp only [Option.bind_eq_bind, Option.bind_some]
    rw [if_neg]
    rcases hf with hf | ⟨_, hf⟩
    · omega
    · intro hcc
      simp only [List.contains_eq_mem, Bool.and_eq_true, decide_eq_true_eq, bne_iff_ne] at hcc
      exact hcc.2 (hf (Nat.min_le_left _ _) hcc.1)

/-! ## `new` -/

theorem newChain_stop (c : Expr) (ts : List Tok) (h : ∀ t : Tok, (dropNl ts).head? = some t →
    t ≠ .dot ∧ t ≠ .qdot ∧ t ≠ .lb ∧ t ≠ .qdotLb) : newChain c ts = some (c, ts) := by
  rw [newChain.eq_def]
  generalize dropNl ts = us at h
  split
  · exact absurd rfl (h _ rfl).1
  · exact absurd rfl (h _ rfl).1
  · exact absurd rfl (h _ rfl).2.1
  · exact absurd rfl (h _ rfl).2.1
  · exact absurd rfl (h _ rfl).2.2.1
  · exact absurd rfl (h _ rfl).2.2.2
  · rfl

/-- Only a line terminator is passed over. -/
theorem dropNl_cons (t : Tok) (r : List Tok) (h : t ≠ .nl) : dropNl (t :: r) = t :: r := by
  unfold dropNl
  split <;> simp_all

theorem pc_base {e : Expr} {ts : List Tok} (hb : isBase e = true) (h : PBare e 20 ts) :
    PChain e ts :=
  ⟨h.1, fun term asi rest ht => by rw [h.2.2 hb term asi rest ht (.inl (by omega))]; rfl⟩

theorem pc_paren {e : Expr} {k : Nat} {ts : List Tok} (h : PBare e k ts) :
    PChain e (parens ts) :=
  ⟨starts_parens ts, fun term asi rest _ => by rw [operand_parens h]; rfl⟩

theorem pc_member (opt : Bool) {o : Expr} (n : Nat) {ts : List Tok} (h : PChain o ts) :
    PChain (.member opt o n) (ts ++ [dotTok opt, .id n]) := by
  refine ⟨h.1.app _, fun term asi rest ht => ?_⟩
  rw [List.append_assoc, h.2 term asi _ ht, newChain.eq_def]
  cases opt <;> rfl

theorem pc_index (opt : Bool) {o i : Expr} {pi : Bool} {ki : Nat} {ts ti : List Tok}
    (h : PChain o ts) (hi : PSh 1 i pi ki ti) :
    PChain (.index opt o i) (ts ++ brackTok opt :: ti ++ [.rb]) := by
  refine ⟨(h.1.app _).app _, fun term asi rest ht => ?_⟩
  simp only [List.append_assoc, List.cons_append, List.nil_append]
  rw [h.2 term asi _ ht, newChain.eq_def]
  cases opt <;>
    simp only [brackTok, Bool.false_eq_true, if_false, if_true, dropNl, read_index hi rest,
      Option.bind_eq_bind, Option.bind_some, expect_self]

theorem operand_new (term : List Tok) (asi : Bool) (ts : List Tok) :
    operand term asi (.new :: ts) =
      ((operand term asi ts).bind fun x => newChain x.1.1 x.2).bind fun c =>
        match dropNl c.2 with
        | .lp :: r => (callArgs r).bind fun a => (expect .rp a.2).bind fun r =>
            some ((.unary .new (.call false c.1 a.1), false), r)
        | _ => some ((.unary .new c.1, false), c.2) := by
  rw [operand.eq_def]
  simp only [unaryOf, Option.bind_eq_bind, Option.bind_assoc]
  congr 1

theorem p_newArgs {c : Expr} {as : Items} {ts ta : List Tok} (hc : PChain c ts)
    (ha : PIts false as ta) :
    PBare (.unary .new (.call false c as)) 20 (.new :: ts ++ .lp :: ta ++ [.rp]) := by
  have hop : ∀ (term : List Tok) (asi : Bool) (rest : List Tok), TermOK term →
      operand term asi (.new :: ts ++ .lp :: ta ++ [.rp] ++ rest) =
        some ((.unary .new (.call false c as), false), rest) := by
    intro term asi rest ht
    simp only [List.cons_append, List.append_assoc, List.nil_append]
    rw [operand_new, hc.2 term asi _ ht, newChain_stop _ _ (by
      intro t h; simp [dropNl] at h; subst h; simp)]
    simp only [Option.bind_some, dropNl]
    rw [ha.1 rfl rest]
    simp [expect]
  exact ⟨⟨.new, _, rfl, rfl⟩,
    fun term asi m' rest ht _ _ _ _ _ => exprMin_of_operand (hop term asi rest ht) (fun _ => .inr ⟨rfl, rfl⟩),
    fun _ term asi rest ht _ => hop term asi rest ht⟩

/-- What follows a `new` without arguments does not extend it. -/
theorem stops_new {term : List Tok} {asi : Bool} {rest : List Tok} (ht : TermOK term)
    (h : StopsAt term asi 18 rest) (t : Tok) (hh : (dropNl rest).head? = some t) :
    t ≠ .dot ∧ t ≠ .qdot ∧ t ≠ .lb ∧ t ≠ .qdotLb ∧ t ≠ .lp := by
  cases rest with
  | nil => simp [dropNl] at hh
  | cons u r =>
    rcases h with h | ⟨_, h | ⟨h, hr⟩⟩ | ⟨h, _⟩ | ⟨h, _⟩ | ⟨op, h, h1⟩
    · have := ht u h
      simp only [List.mem_cons, List.not_mem_nil, or_false] at this
      rcases this with h1 | h1 | h1 | h1 | h1 | h1 | h1 <;> subst h1 <;>
        (simp [dropNl] at hh; subst hh; simp)
    · subst h; simp [dropNl] at hh; subst hh; simp
    · subst h
      have hd : dropNl (.nl :: r) = .nl :: r := by
        cases r with
        | nil => rfl
        | cons v q =>
          obtain ⟨hb, _⟩ := hr
          cases v <;> first | rfl | simp [binaryOf] at hb
      rw [hd] at hh
      simp at hh; subst hh; simp
    · subst h; simp [dropNl] at hh; subst hh; simp
    · subst h; simp [dropNl] at hh; subst hh; simp
    · rw [dropNl_cons u r (by rintro rfl; simp [binaryOf] at h)] at hh
      simp at hh
      subst hh
      refine ⟨?_, ?_, ?_, ?_, ?_⟩ <;>
      · intro hu
        subst hu
        simp only [binaryOf, Option.some.injEq] at h
        subst h
        revert h1
        decide

theorem p_newTail {c : Expr} {ts : List Tok}
    (hc : ∀ (term : List Tok) (asi : Bool) (rest : List Tok), TermOK term →
      StopsAt term asi 18 rest →
      ((operand term asi (ts ++ rest)).bind fun x => newChain x.1.1 x.2) = some (c, rest)) :
    PBare (.unary .new c) 18 (.new :: ts) := by
  have hop : ∀ (term : List Tok) (asi : Bool) (rest : List Tok), TermOK term →
      Follow term asi 18 rest → operand term asi (.new :: ts ++ rest) =
        some ((.unary .new c, false), rest) := by
    intro term asi rest ht hf
    have hs := hf.stops (Nat.le_refl _)
    have hsn := stops_new ht hs
    simp only [List.cons_append]
    rw [operand_new, hc term asi _ ht hs]
    simp only [Option.bind_some]
    split
    · rename_i heq
      exact absurd rfl (hsn .lp (by rw [heq]; rfl)).2.2.2.2
    · rfl
  exact ⟨⟨.new, _, rfl, rfl⟩,
    fun term asi m' rest ht _ _ _ _ hf =>
      exprMin_of_operand (hop term asi rest ht hf) (fun _ => .inr ⟨rfl, rfl⟩),
    fun _ term asi rest ht hf => hop term asi rest ht hf⟩

theorem p_newBare {c : Expr} {ts : List Tok} (hc : PChain c ts) :
    PBare (.unary .new c) 18 (.new :: ts) :=
  p_newTail fun term asi rest ht hs => by
    rw [hc.2 term asi _ ht, newChain_stop]
    intro t h
    have := stops_new ht hs t h
    exact ⟨this.1, this.2.1, this.2.2.1, this.2.2.2.1⟩

theorem p_newNew {c : Expr} {ts : List Tok} (hc : PBare (.unary .new c) 18 ts) :
    PBare (.unary .new (.unary .new c)) 18 (.new :: ts) :=
  p_newTail fun term asi rest ht hs => by
    rw [hc.2.2 rfl term asi rest ht (.inr ⟨hs, by omega⟩)]
    simp only [Option.bind_some]
    rw [newChain_stop]
    intro t h
    have := stops_new ht hs t h
    exact ⟨this.1, this.2.1, this.2.2.1, this.2.2.2.1⟩

/-! ## All renderings -/

theorem Sh.side {m : Nat} {e : Expr} {p : Bool} {k : Nat} {ts : List Tok} (h : Sh m e p k ts) :
    p = true ∨ m ≤ precA e := by
  cases h
  · exact .inl rfl
  · exact .inr (by assumption)

mutual
theorem sh_parse {m : Nat} {e : Expr} {p : Bool} {k : Nat} {ts : List Tok} :
    Sh m e p k ts → PSh m e p k ts
  | .paren _ _ _ _ h => p_paren _ (bare_parse h)
  | .bare _ _ _ _ hm h => p_bare hm (bare_parse h)
theorem bare_parse {e : Expr} {k : Nat} {ts : List Tok} : Bare e k ts → PBare e k ts
  | .id n => p_id n
  | .num n => p_num n
  | .obj n => p_obj n
  | .prim n => p_prim n
  | .tpl n => p_tpl n
  | .regex n => p_regex n
  | .func n => p_func n
  | .un _ _ _ _ _ ho h => p_un ho (sh_parse h) h.side
  | .newArgs _ _ _ _ hc ha => p_newArgs (chain_parse hc) (its_parse ha)
  | .newBare _ _ hc => p_newBare (chain_parse hc)
  | .newNew _ _ h => p_newNew (bare_parse h)
  | .post _ _ _ _ _ h hk => p_post (sh_parse h) hk h.side
  | .bin _ _ _ _ _ _ _ _ _ ha hpow hl hk hr =>
    p_bin (by simp [ha]) hpow (sh_parse hl) hl.side hk (sh_parse hr) hr.side
  | .assign _ _ _ _ _ _ _ ha ht hl hr =>
    p_bin (fun _ => ht) (fun hb => by rw [hb] at ha; simp [BinOp.isAssignment] at ha) (sh_parse hl)
      hl.side (Nat.lt_of_le_of_lt (prec_le _) (by omega)) (sh_parse hr) hr.side
  | .cond _ _ _ _ _ _ _ _ _ _ _ _ hc hk h1 h2 =>
    p_cond (sh_parse hc) hc.side hk (sh_parse h1) (sh_parse h2) h2.side
  | .call opt _ _ _ _ _ hf ha => p_call opt (sh_parse hf) hf.side (its_parse ha)
  | .member opt _ n _ _ h => p_member opt n (sh_parse h) h.side
  | .index opt _ _ _ _ _ _ _ h hi => p_index opt (sh_parse h) h.side (sh_parse hi)
  | .tagged _ n _ _ h => p_tagged n (sh_parse h) h.side
  | .arr _ _ h => p_arr (its_parse h)
  | .arrow n _ _ _ _ h ho => p_arrow n (sh_parse h) h.side ho
theorem chain_parse {e : Expr} {ts : List Tok} : Chain e ts → PChain e ts
  | .base _ _ hb h => pc_base hb (bare_parse h)
  | .paren _ _ _ h => pc_paren (bare_parse h)
  | .member opt _ n _ h => pc_member opt n (chain_parse h)
  | .index opt _ _ _ _ _ _ h hi => pc_index opt (chain_parse h) (sh_parse hi)
theorem its_parse {h : Bool} {es : Items} {ts : List Tok} : Its h es ts → PIts h es ts
  | .nil _ => p_nil _
  | .last _ sp _ _ _ _ he => p_last _ sp (sh_parse he) he.side
  | .cons _ sp _ _ _ _ _ _ he hr => p_cons _ sp (sh_parse he) he.side (its_parse hr)
  | .hole _ _ hr => p_hole (its_parse hr)
end

end Verif.Emit
