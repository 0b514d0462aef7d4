import Verif.Stmts.Proofs

/-! # The pass over `if` statements -/

namespace Verif.Stmts

variable {σ V : Type}

/-! ## Names -/

theorem mem_pushUnique (out : List String) (x y : String) :
    y ∈ pushUnique out x ↔ y ∈ out ∨ y = x := by
  unfold pushUnique
  split
  · rename_i h
    constructor
    · exact Or.inl
    · rintro (h' | rfl)
      · exact h'
      · exact h
  · simp

mutual
theorem mem_collectPat (x : String) : ∀ (p : Pat) (out : List String),
    x ∈ collectPat p out ↔ x ∈ out ∨ x ∈ bound p
  | .id y, out => by simp [collectPat, bound, mem_pushUnique]
  | .many ps, out => by simp [collectPat, bound, mem_collectPats x ps out]
  | .target _, out => by simp [collectPat, bound]
theorem mem_collectPats (x : String) : ∀ (ps : List Pat) (out : List String),
    x ∈ collectPats ps out ↔ x ∈ out ∨ x ∈ bounds ps
  | [], out => by simp [collectPats, bounds]
  | p :: rest, out => by
      simp [collectPats, bounds, mem_collectPats x rest, mem_collectPat x p, or_assoc]
end

theorem mem_collectDecls (x : String) (ds : List Declarator) (out : List String) :
    x ∈ collectDecls ds out ↔ x ∈ out ∨ x ∈ boundDecls ds := by
  induction ds generalizing out with
  | nil => simp [collectDecls, boundDecls]
  | cons d rest ih => simp [collectDecls, boundDecls, ih, mem_collectPat, or_assoc]

theorem mem_collectInit (x : String) (i : ForInit) (t u : Option Expr) (br : Bool)
    (out : List String) :
    x ∈ collectInit i out ↔ x ∈ out ∨ x ∈ vars (.for i t u br []) := by
  rcases i with _ | _ | ⟨_ | _ | _ | _ | _, _⟩ <;> simp [vars, collectInit, mem_collectDecls]

theorem mem_collectLhs (x : String) (kd : Nat) (lhs : ForLhs) (e : Expr) (br : Bool)
    (out : List String) :
    x ∈ collectLhs lhs out ↔ x ∈ out ∨ x ∈ vars (.each kd lhs e br []) := by
  rcases lhs with ⟨_ | _ | _ | _ | _, _⟩ | _ <;> simp [vars, collectLhs, mem_collectPat]

mutual
theorem mem_collectVars (z : Bool) (x : String) : ∀ (st : Stmt) (out : List String),
    (z = true ∧ ok z st = true) ∨ containsFunc st = false →
      (x ∈ collectVars st out ↔ x ∈ out ∨ x ∈ vars st)
  | .decl _ m ds, out, _ => by cases m <;> simp [collectVars, vars, mem_collectDecls]
  | .for i t u br body, out, h => by
      rw [vars_for, collectVars, mem_collectVarss z x body _ (by simpa [ok, containsFunc] using h),
        mem_collectInit x i t u br, or_assoc]
  | .each kd lhs e br body, out, h => by
      rw [vars_each, collectVars, mem_collectVarss z x body _ (by simpa [ok, containsFunc] using h),
        mem_collectLhs x kd lhs e br, or_assoc]
  | .block body, out, h => by
      simp only [collectVars, vars]
      exact mem_collectVarss z x body out (by simpa [ok, containsFunc] using h)
  | .ifThen _ t, out, h => by
      simp only [collectVars, vars]
      refine mem_collectVars z x t out ?_
      simp [ok, containsFunc] at h
      rcases h with h | h
      · exact Or.inl ⟨h.1, h.2.1⟩
      · exact Or.inr h
  | .ifElse _ t e, out, h => by
      simp only [collectVars, vars]
      simp [ok, containsFunc] at h
      rw [mem_collectVars z x e _ (h.imp (fun h => ⟨h.1, h.2.1.2⟩) (·.2)),
        mem_collectVars z x t _ (h.imp (fun h => ⟨h.1, h.2.1.1.1⟩) (·.1))]
      simp [or_assoc]
  | .while _ body, out, h => by
      simp only [collectVars, vars]
      refine mem_collectVars z x body out ?_
      simp [ok, containsFunc] at h
      exact h.imp (fun h => ⟨h.1, h.2.1⟩) id
  | .doWhile body _, out, h => by
      simp only [collectVars, vars]
      refine mem_collectVars z x body out ?_
      simp [ok, containsFunc] at h
      exact h.imp (fun h => ⟨h.1, h.2.1⟩) id
  | .switch _ _ bodies, out, h => by
      simp only [collectVars, vars]
      exact mem_collectVarsss z x bodies out (by simpa [ok, containsFunc] using h)
  | .tries body hc _ handler hf last, out, h => by
      simp only [collectVars, vars]
      simp [ok, containsFunc] at h
      have h1 := fun out => mem_collectVarss z x body out
        (h.imp (fun h => ⟨h.1, h.2.1.1⟩) (·.1.1))
      have h2 := fun (hc' : hc = true) out => mem_collectVarss z x handler out
        (h.imp (fun h => ⟨h.1, h.2.1.2⟩) (fun h => h.1.2 hc'))
      have h3 := fun (hf' : hf = true) out => mem_collectVarss z x last out
        (h.imp (fun h => ⟨h.1, h.2.2⟩) (fun h => h.2 hf'))
      cases hc <;> cases hf <;> simp_all [or_assoc]
  | .withs _ body, out, h => by
      simp only [collectVars, vars]
      refine mem_collectVars z x body out ?_
      simp [ok, containsFunc] at h
      exact h.imp (fun h => ⟨h.1, h.2.1⟩) id
  | .label _ body, out, h => by
      simp only [collectVars, vars]
      exact mem_collectVars z x body out (by simpa [ok, containsFunc] using h)
  | .func _ _ ab, out, h => by
      simp [ok, containsFunc] at h
      cases ab <;> simp_all [collectVars, vars]
  | .empty, _, _ => by simp [collectVars, vars]
  | .expr _, _, _ => by simp [collectVars, vars]
  | .other _, _, _ => by simp [collectVars, vars]
  | .ret _, _, _ => by simp [collectVars, vars]
  | .throw _, _, _ => by simp [collectVars, vars]
  | .brk _, _, _ => by simp [collectVars, vars]
  | .cont _, _, _ => by simp [collectVars, vars]
  | .cls _ _, _, _ => by simp [collectVars, vars]
  | .item _, _, _ => by simp [collectVars, vars]
theorem mem_collectVarss (z : Bool) (x : String) : ∀ (l : List Stmt) (out : List String),
    (z = true ∧ oks z l = true) ∨ containsFuncs l = false →
      (x ∈ collectVarsList l out ↔ x ∈ out ∨ x ∈ varss l)
  | [], out, _ => by simp [collectVarsList]
  | st :: rest, out, h => by
      simp [containsFuncs] at h
      rw [collectVarsList, mem_collectVarss z x rest _ (h.imp (fun h => ⟨h.1, h.2.2⟩) (·.2)),
        mem_collectVars z x st _ (h.imp (fun h => ⟨h.1, h.2.1⟩) (·.1))]
      simp [or_assoc]
theorem mem_collectVarsss (z : Bool) (x : String) : ∀ (l : List (List Stmt)) (out : List String),
    (z = true ∧ okss z l = true) ∨ containsFuncss l = false →
      (x ∈ collectVarsLists l out ↔ x ∈ out ∨ x ∈ varsss l)
  | [], out, _ => by simp [collectVarsLists, varsss]
  | b :: rest, out, h => by
      simp [containsFuncss, okss] at h
      rw [collectVarsLists, mem_collectVarsss z x rest _ (h.imp (fun h => ⟨h.1, h.2.2⟩) (·.2)),
        mem_collectVarss z x b _ (h.imp (fun h => ⟨h.1, h.2.1⟩) (·.1))]
      simp [varsss, or_assoc]
end

/-! ## Stubs -/

theorem run_stub_decls {m : Machine σ V} (xs : List String) {s s' : σ} {k : Compl V} :
    Run m (.decls .var (xs.map fun x => { pat := .id x, init := none })) s k s' ↔
      k = .normal ∧ s' = s := by
  induction xs with
  | nil =>
    constructor
    · intro h; cases h; exact ⟨rfl, rfl⟩
    · rintro ⟨rfl, rfl⟩; exact .declsNil
  | cons x rest ih =>
    constructor
    · intro h
      cases h with
      | declsSkip _ h1 => exact ih.1 h1
      | declsCons h1 _ _ => exact absurd ⟨rfl, rfl⟩ h1
      | declsThrow h1 _ => exact absurd ⟨rfl, rfl⟩ h1
    · intro h
      exact .declsSkip rfl (ih.2 h)

theorem run_stub {m : Machine σ V} {ls : List String} (xs : List String) {s s' : σ} {k : Compl V} :
    Run m (.stmt ls (hoistedDecl xs)) s k s' ↔ k = .normal ∧ s' = s := by
  constructor
  · intro h
    cases h with
    | decl h1 => exact (run_stub_decls xs).1 h1
  · intro h
    exact .decl ((run_stub_decls xs).2 h)

theorem lex_stub (xs : List String) : lex (hoistedDecl xs) = [] := by simp [hoistedDecl, lex]
theorem links_stub (xs : List String) : links (hoistedDecl xs) = [] := by simp [hoistedDecl, links]
theorem ok_stub (z : Bool) (xs : List String) : ok z (hoistedDecl xs) = true := by
  simp [hoistedDecl, ok]
theorem mem_vars_stub (xs : List String) (x : String) : x ∈ vars (hoistedDecl xs) ↔ x ∈ xs := by
  simp only [hoistedDecl, vars, if_true]
  induction xs with
  | nil => simp [boundDecls]
  | cons y rest ih => simp [boundDecls, bound, ih]

/-- The stub in front of what is left of an `if`. -/
def stubs (xs : List String) : List Stmt := if xs.isEmpty then [] else [hoistedDecl xs]

theorem run_stubs {m : Machine σ V} (xs : List String) (l : List Stmt) {s s' : σ} {k : Compl V} :
    Run m (.list (stubs xs ++ l)) s k s' ↔ Run m (.list l) s k s' := by
  unfold stubs
  split
  · exact Iff.rfl
  · rw [run_append]
    constructor
    · rintro (⟨s1, h1, h2⟩ | ⟨h1, h2⟩)
      · obtain ⟨-, rfl⟩ := (run_stub xs).1 (run_one.1 h1)
        exact h2
      · exact absurd ((run_stub xs).1 (run_one.1 h2)).1 h1
    · intro h
      exact Or.inl ⟨s, run_one.2 ((run_stub xs).2 ⟨rfl, rfl⟩), h⟩

theorem lexs_stubs (xs : List String) : lexs (stubs xs) = [] := by
  unfold stubs; split <;> simp [lex_stub]
theorem linkss_stubs (xs : List String) : linkss (stubs xs) = [] := by
  unfold stubs; split <;> simp [links_stub]
theorem oks_stubs (z : Bool) (xs : List String) : oks z (stubs xs) = true := by
  unfold stubs; split <;> simp [ok_stub]
theorem mem_varss_stubs (xs : List String) (x : String) : x ∈ varss (stubs xs) ↔ x ∈ xs := by
  unfold stubs
  split
  · rename_i h
    simp [List.isEmpty_iff.1 h]
  · simp [mem_vars_stub]

/-! ## Constant conditions -/

theorem const_lit {c : Expr} {b : Bool} (h : constTruthiness c = some b) :
    ∃ p l, c = .lit p l ∧ l.toBoolean = b := by
  unfold constTruthiness at h
  split at h <;> simp only [Option.some.injEq, reduceCtorEq] at h
  · exact ⟨_, _, rfl, by simpa [Lit.toBoolean] using h⟩
  · exact ⟨_, _, rfl, by simpa [Lit.toBoolean] using h⟩
  · rename_i n
    refine ⟨_, _, rfl, ?_⟩
    rw [← h]
    cases n <;> rfl
  · rename_i s
    refine ⟨_, _, rfl, ?_⟩
    rw [← h]
    by_cases hs : s = ""
    · subst hs; rfl
    · have : s.isEmpty = false := by
        rw [← Bool.not_eq_true, String.isEmpty_iff]; exact hs
      simp [Lit.toBoolean, hs, this]
  · rename_i n
    refine ⟨_, _, rfl, ?_⟩
    rw [← h]
    cases n <;> rfl

theorem eval_const {c : Expr} {b : Bool} (h : constTruthiness c = some b) {m : Machine σ V}
    {s s1 : σ} {r : Out V} : Eval m c s s1 r → s1 = s ∧ ∃ v, r = .val v ∧ m.truthy v = b := by
  obtain ⟨p, l, rfl, hb⟩ := const_lit h
  intro he
  cases he
  exact ⟨rfl, _, rfl, by rw [m.truthy_lit, hb]⟩

theorem const_eval {c : Expr} {b : Bool} (h : constTruthiness c = some b) (m : Machine σ V)
    (s : σ) : ∃ v, Eval m c s s (.val v) ∧ m.truthy v = b := by
  obtain ⟨p, l, rfl, hb⟩ := const_lit h
  exact ⟨_, .lit, by rw [m.truthy_lit, hb]⟩

/-- What is left of an `if` on a constant. -/
def liveOf (b : Bool) (t : Stmt) (alt : Option Stmt) : Stmt :=
  if b then t else alt.getD .empty

theorem run_const {c : Expr} {b : Bool} (h : constTruthiness c = some b) {m : Machine σ V}
    {ls : List String} {t : Stmt} {alt : Option Stmt} (ht : lex t = [])
    (ha : ∀ e, alt = some e → lex e = []) {s s' : σ} {k : Compl V} :
    Run m (.stmt ls (mkIf c t alt)) s k s' ↔ Run m (.stmt ls (liveOf b t alt)) s k s' := by
  obtain ⟨v, hv, hb⟩ := const_eval h m s
  cases alt with
  | none =>
    constructor
    · intro hr
      cases hr with
      | ifThrow h1 => obtain ⟨_, _, h2, _⟩ := eval_const h h1; cases h2
      | ifTrue h1 h2 h3 =>
        obtain ⟨rfl, _, hw, h5⟩ := eval_const h h1
        cases hw
        rw [h2] at h5; subst h5
        simpa [liveOf, branch_eq ht] using h3
      | ifFalse h1 h2 =>
        obtain ⟨rfl, _, hw, h5⟩ := eval_const h h1
        cases hw
        rw [h2] at h5; subst h5
        simpa [liveOf] using Run.empty
    · intro hr
      cases b with
      | true =>
        refine .ifTrue hv hb ?_
        rw [branch_eq ht]
        simpa [liveOf] using hr
      | false =>
        simp only [liveOf] at hr
        cases hr
        exact .ifFalse hv hb
  | some e =>
    have he := ha e rfl
    constructor
    · intro hr
      cases hr with
      | elseThrow h1 => obtain ⟨_, _, h2, _⟩ := eval_const h h1; cases h2
      | elseTrue h1 h2 h3 =>
        obtain ⟨rfl, _, hw, h5⟩ := eval_const h h1
        cases hw
        rw [h2] at h5; subst h5
        simpa [liveOf, branch_eq ht] using h3
      | elseFalse h1 h2 h3 =>
        obtain ⟨rfl, _, hw, h5⟩ := eval_const h h1
        cases hw
        rw [h2] at h5; subst h5
        simpa [liveOf, branch_eq he] using h3
    · intro hr
      cases b with
      | true =>
        refine .elseTrue hv hb ?_
        rw [branch_eq ht]
        simpa [liveOf] using hr
      | false =>
        refine .elseFalse hv hb ?_
        rw [branch_eq he]
        simpa [liveOf] using hr

theorem ok_links {z : Bool} {st : Stmt} (h : ok z st = true) : links st = [] := by
  cases st <;> simp_all [ok, links]

theorem ok_mkIf {z : Bool} {c : Expr} {t : Stmt} {alt : Option Stmt} (ht : ok z t = true)
    (hl : lex t = []) (ha : ∀ e, alt = some e → ok z e = true ∧ lex e = []) :
    ok z (mkIf c t alt) = true := by
  cases alt with
  | none => simp [mkIf, ok, ht, hl]
  | some e => simp [mkIf, ok, ht, hl, ha e rfl]

/-- What is said of one statement and what it is rewritten to. -/
structure Rewritten (z inList : Bool) (st : Stmt) (out : List Stmt) : Prop where
  list : SimL [st] out
  oks : oks z out = true
  one : inList = false → Sim st (single out)
  okOne : inList = false → ok z (single out) = true

theorem Rewritten.same {z inList : Bool} {st : Stmt} (h : ok z st = true) :
    Rewritten z inList st [st] :=
  ⟨.refl _, by simp [h], fun _ => .refl _, fun _ => h⟩

theorem Rewritten.of {z inList : Bool} {st st' : Stmt} (h : Sim st st') (h' : ok z st' = true) :
    Rewritten z inList st [st'] :=
  ⟨h.list, by simp [h'], fun _ => h, fun _ => h'⟩

theorem links_mkIf (c : Expr) (t : Stmt) (alt : Option Stmt) : links (mkIf c t alt) = [] := by
  cases alt <;> rfl
theorem lex_mkIf (c : Expr) (t : Stmt) (alt : Option Stmt) : lex (mkIf c t alt) = [] := by
  cases alt <;> rfl

theorem run_one_stub {m : Machine σ V} {ls : List String} (xs : List String) {s s' : σ}
    {k : Compl V} : Run m (.stmt ls .empty) s k s' ↔ Run m (.stmt ls (hoistedDecl xs)) s k s' := by
  rw [run_stub]
  constructor
  · intro h; cases h; exact ⟨rfl, rfl⟩
  · rintro ⟨rfl, rfl⟩; exact .empty

theorem pruneIf_ok {z inList b : Bool} {c : Expr} {t : Stmt} {alt : Option Stmt}
    (hc : constTruthiness c = some b) (ht : ok z t = true) (hl : lex t = [])
    (ha : ∀ e, alt = some e → ok z e = true ∧ lex e = []) :
    Rewritten z inList (mkIf c t alt) (pruneIf z inList b c t alt) := by
  have hkeep : Rewritten z inList (mkIf c t alt) [mkIf c t alt] := .same (ok_mkIf ht hl ha)
  have hrun := fun {σ V : Type} (m : Machine σ V) ls s k s' =>
    run_const (m := m) (ls := ls) (s := s) (k := k) (s' := s') hc hl (fun e he => (ha e he).2)
  unfold pruneIf
  generalize hdead : deadOf b t alt = dead
  unfold deadOf at hdead
  split
  · exact hkeep
  · rename_i hfun
    generalize hho : hoistedOf dead = hoisted
    have hnames : ∀ x, x ∈ hoisted ↔ ∃ d, dead = some d ∧ x ∈ vars d := by
      intro x
      rw [← hho]
      rcases hd : dead with _ | d
      · simp [hoistedOf]
      · have hok : ok z d = true := by
          cases b with
          | true => exact (ha d (by simpa [hd] using hdead)).1
          | false => have : t = d := by simpa [hd] using hdead
                     exact this ▸ ht
        have := mem_collectVars z x d [] (by
          cases z with
          | true => exact Or.inl ⟨rfl, hok⟩
          | false => right; simpa [hd] using hfun)
        simp [hoistedOf, this]
    split
    · exact hkeep
    · rename_i hskip
      change Rewritten z inList _ (stubs hoisted ++ livePart b t alt)
      have hvars : ∀ x, x ∈ vars (mkIf c t alt) ↔
          x ∈ hoisted ∨ x ∈ varss (livePart b t alt) := by
        intro x
        rw [hnames x]
        cases alt <;> cases b <;> simp [livePart, mkIf, vars, ← hdead, or_comm]
      have hlist : SimL [mkIf c t alt] (stubs hoisted ++ livePart b t alt) := by
        refine ⟨?_, ?_, ?_, ?_⟩
        · intro σ V m s k s'
          rw [run_stubs, run_one, hrun]
          cases b with
          | true => simp only [liveOf, livePart, if_true]; exact run_one.symm
          | false =>
            cases alt with
            | some e => simpa [liveOf, livePart] using run_one.symm
            | none =>
              simp only [liveOf, livePart, Option.getD_none, Option.toList_none]
              constructor
              · intro h; cases h; exact .nil
              · intro h; cases h; exact .empty
        · rw [lexs_append, lexs_stubs]
          cases alt <;> cases b <;> simp [livePart, lex_mkIf, hl] 
          exact (ha _ rfl).2
        · intro x
          rw [varss_append, List.mem_append, mem_varss_stubs, ← hvars]
          simp
        · rw [linkss_append, linkss_stubs]
          cases alt <;> cases b <;> simp [livePart, links_mkIf, ok_links ht]
          exact ok_links (ha _ rfl).1
      have hoks : oks z (stubs hoisted ++ livePart b t alt) = true := by
        rw [oks_append, oks_stubs]
        cases alt <;> cases b <;> simp [livePart, ht]
        exact (ha _ rfl).1
      refine ⟨hlist, hoks, ?_, ?_⟩
      · intro hin
        subst hin
        by_cases he : hoisted = []
        · have hs : single (stubs hoisted ++ livePart b t alt) =
              liveOf b t alt := by
            cases alt <;> cases b <;> simp [livePart, he, stubs, single, liveOf]
          rw [hs]
          refine ⟨fun m ls s k s' => hrun m ls s k s', ?_, ?_, ?_⟩
          · rw [lex_mkIf]
            cases alt <;> cases b <;> simp [livePart, liveOf, hl, lex]
            exact (ha _ rfl).2
          · intro x
            rw [hvars, he]
            cases alt <;> cases b <;> simp [livePart, liveOf, vars]
          · rw [links_mkIf]
            cases alt <;> cases b <;> simp [livePart, liveOf, ok_links ht]
            · rfl
            · exact ok_links (ha _ rfl).1
        · have hdead : b = false ∧ alt = none := by
            cases b <;> cases alt <;> simp_all [liveExists]
          obtain ⟨rfl, rfl⟩ := hdead
          have hs : single (stubs hoisted ++ livePart false t none)
              = hoistedDecl hoisted := by
            simp [stubs, he, single, livePart]
          rw [hs]
          refine ⟨fun m ls s k s' => (hrun m ls s k s').trans (run_one_stub _), ?_, ?_, ?_⟩
          · rw [lex_mkIf, lex_stub]
          · intro x
            rw [hvars, mem_vars_stub]
            simp [livePart]
          · rw [links_mkIf, links_stub]
      · intro hin
        subst hin
        rcases hout : stubs hoisted ++ livePart b t alt with _ | ⟨a, _ | ⟨a', r⟩⟩
        · rfl
        · rw [hout] at hoks; simpa [single] using hoks
        · rw [hout] at hoks; simpa [single, ok] using hoks

/-! ## Branches that are expressions -/

theorem sim_block_expr {a : Stmt} {e : Expr} (h : Sim a (.expr e)) :
    Sim (.block [a]) (.expr e) where
  run m ls s k s' := by
    have hlx : lexs [a] = [] := by simp [h.lex, Verif.Stmts.lex]
    constructor
    · intro hr
      cases hr with
      | block h1 h2 h3 =>
        rw [hlx] at h1 h3
        rcases h1 with ⟨_, rfl⟩ | ⟨h, _⟩
        · rcases h3 with ⟨_, rfl, rfl⟩ | ⟨h, _⟩
          · have := (h.run m [] _ _ _).1 (run_one.1 h2)
            cases this with
            | expr h1 => exact .expr h1
            | exprThrow h1 => exact .exprThrow h1
          · exact absurd rfl h
        · exact absurd rfl h
    · intro hr
      have h0 : Run m (.stmt [] a) s k s' := by
        refine (h.run m [] _ _ _).2 ?_
        cases hr with
        | expr h1 => exact .expr h1
        | exprThrow h1 => exact .exprThrow h1
      exact .block (Or.inl ⟨hlx, rfl⟩) (run_one.2 h0) (Or.inl ⟨hlx, rfl, rfl⟩)
  lex := rfl
  vars x := by simpa [Verif.Stmts.vars] using h.vars x
  links := rfl

mutual
theorem toExpr_sim : ∀ (st : Stmt) (e : Expr), toExpr st = some e → Sim st (.expr e)
  | .expr e', e, h => by
      simp [toExpr] at h
      subst h
      exact .refl _
  | .block body, e, h => toExprBlock_sim body e (by simpa [toExpr] using h)
  | .empty, _, h => by simp [toExpr] at h
  | .other _, _, h => by simp [toExpr] at h
  | .ret _, _, h => by simp [toExpr] at h
  | .throw _, _, h => by simp [toExpr] at h
  | .brk _, _, h => by simp [toExpr] at h
  | .cont _, _, h => by simp [toExpr] at h
  | .ifThen _ _, _, h => by simp [toExpr] at h
  | .ifElse _ _ _, _, h => by simp [toExpr] at h
  | .while _ _, _, h => by simp [toExpr] at h
  | .doWhile _ _, _, h => by simp [toExpr] at h
  | .for _ _ _ _ _, _, h => by simp [toExpr] at h
  | .each _ _ _ _ _, _, h => by simp [toExpr] at h
  | .switch _ _ _, _, h => by simp [toExpr] at h
  | .tries _ _ _ _ _ _, _, h => by simp [toExpr] at h
  | .withs _ _, _, h => by simp [toExpr] at h
  | .label _ _, _, h => by simp [toExpr] at h
  | .func _ _ _, _, h => by simp [toExpr] at h
  | .cls _ _, _, h => by simp [toExpr] at h
  | .decl _ _ _, _, h => by simp [toExpr] at h
  | .item _, _, h => by simp [toExpr] at h
theorem toExprBlock_sim : ∀ (l : List Stmt) (e : Expr), toExprBlock l = some e →
    Sim (.block l) (.expr e)
  | [], _, h => by simp [toExprBlock] at h
  | st :: rest, e, h => by
      cases rest with
      | nil => exact sim_block_expr (toExpr_sim st e (by simpa [toExprBlock] using h))
      | cons _ _ => simp [toExprBlock] at h
end

mutual
theorem toExpr_ok (z : Bool) : ∀ (st : Stmt) (e : Expr), toExpr st = some e → ok z st = true →
    ok z (.expr e) = true
  | .expr e', e, h, hk => by
      simp [toExpr] at h
      subst h
      exact hk
  | .block body, e, h, hk => toExprBlock_ok z body e (by simpa [toExpr] using h)
      (by simpa [ok] using hk)
  | .empty, _, h, _ => by simp [toExpr] at h
  | .other _, _, h, _ => by simp [toExpr] at h
  | .ret _, _, h, _ => by simp [toExpr] at h
  | .throw _, _, h, _ => by simp [toExpr] at h
  | .brk _, _, h, _ => by simp [toExpr] at h
  | .cont _, _, h, _ => by simp [toExpr] at h
  | .ifThen _ _, _, h, _ => by simp [toExpr] at h
  | .ifElse _ _ _, _, h, _ => by simp [toExpr] at h
  | .while _ _, _, h, _ => by simp [toExpr] at h
  | .doWhile _ _, _, h, _ => by simp [toExpr] at h
  | .for _ _ _ _ _, _, h, _ => by simp [toExpr] at h
  | .each _ _ _ _ _, _, h, _ => by simp [toExpr] at h
  | .switch _ _ _, _, h, _ => by simp [toExpr] at h
  | .tries _ _ _ _ _ _, _, h, _ => by simp [toExpr] at h
  | .withs _ _, _, h, _ => by simp [toExpr] at h
  | .label _ _, _, h, _ => by simp [toExpr] at h
  | .func _ _ _, _, h, _ => by simp [toExpr] at h
  | .cls _ _, _, h, _ => by simp [toExpr] at h
  | .decl _ _ _, _, h, _ => by simp [toExpr] at h
  | .item _, _, h, _ => by simp [toExpr] at h
theorem toExprBlock_ok (z : Bool) : ∀ (l : List Stmt) (e : Expr), toExprBlock l = some e →
    oks z l = true → ok z (.expr e) = true
  | [], _, h, _ => by simp [toExprBlock] at h
  | st :: rest, e, h, hk => by
      cases rest with
      | nil => exact toExpr_ok z st e (by simpa [toExprBlock] using h) (by simpa using hk)
      | cons _ _ => simp [toExprBlock] at h
end

theorem unwrap_sim (st : Stmt) : Sim st (unwrap st) := by
  unfold unwrap
  split
  · rename_i e h; exact toExpr_sim st e h
  · exact .refl _

theorem unwrap_ok {z : Bool} {st : Stmt} (h : ok z st = true) : ok z (unwrap st) = true := by
  unfold unwrap
  split
  · rename_i e h'; exact toExpr_ok z st e h' h
  · exact h

theorem run_expr_and {m : Machine σ V} {ls : List String} {c a : Expr} {s s' : σ} {k : Compl V} :
    Run m (.stmt ls (.ifThen c (.expr a))) s k s' ↔ Run m (.stmt ls (.expr (.and c a))) s k s' := by
  constructor
  · intro h
    cases h with
    | ifThrow h1 => exact .exprThrow (.andThrow h1)
    | ifTrue h1 h2 h3 =>
      cases h3 with
      | expr h4 => exact .expr (.andTrue h1 h2 h4)
      | exprThrow h4 => exact .exprThrow (.andTrue h1 h2 h4)
    | ifFalse h1 h2 => exact .expr (.andFalse h1 h2)
  · intro h
    cases h with
    | expr h1 =>
      cases h1 with
      | andFalse h2 h3 => exact .ifFalse h2 h3
      | andTrue h2 h3 h4 => exact .ifTrue h2 h3 (.expr h4)
    | exprThrow h1 =>
      cases h1 with
      | andThrow h2 => exact .ifThrow h2
      | andTrue h2 h3 h4 => exact .ifTrue h2 h3 (.exprThrow h4)

theorem run_expr_cond {m : Machine σ V} {ls : List String} {c a b : Expr} {s s' : σ}
    {k : Compl V} :
    Run m (.stmt ls (.ifElse c (.expr a) (.expr b))) s k s' ↔
      Run m (.stmt ls (.expr (.cond c a b))) s k s' := by
  constructor
  · intro h
    cases h with
    | elseThrow h1 => exact .exprThrow (.condThrow h1)
    | elseTrue h1 h2 h3 =>
      cases h3 with
      | expr h4 => exact .expr (.condTrue h1 h2 h4)
      | exprThrow h4 => exact .exprThrow (.condTrue h1 h2 h4)
    | elseFalse h1 h2 h3 =>
      cases h3 with
      | expr h4 => exact .expr (.condFalse h1 h2 h4)
      | exprThrow h4 => exact .exprThrow (.condFalse h1 h2 h4)
  · intro h
    cases h with
    | expr h1 =>
      cases h1 with
      | condTrue h2 h3 h4 => exact .elseTrue h2 h3 (.expr h4)
      | condFalse h2 h3 h4 => exact .elseFalse h2 h3 (.expr h4)
    | exprThrow h1 =>
      cases h1 with
      | condThrow h2 => exact .elseThrow h2
      | condTrue h2 h3 h4 => exact .elseTrue h2 h3 (.exprThrow h4)
      | condFalse h2 h3 h4 => exact .elseFalse h2 h3 (.exprThrow h4)

theorem rewriteIf_ok {z inList : Bool} {c : Expr} {t : Stmt} {alt : Option Stmt}
    (ht : ok z t = true) (hl : lex t = [])
    (ha : ∀ e, alt = some e → ok z e = true ∧ lex e = []) :
    Rewritten z inList (mkIf c t alt) (rewriteIf z inList c t alt) := by
  unfold rewriteIf
  split
  · rename_i b hc
    exact pruneIf_ok hc ht hl ha
  · split
    · rename_i e
      obtain ⟨he, hle⟩ := ha e rfl
      split
      · rename_i a b h1 h2
        have s1 := toExpr_sim _ _ h1
        have s2 := toExpr_sim _ _ h2
        refine .of (Sim.trans (Sim.ifElse s1 s2 hl hle)
          ⟨fun m ls s k s' => run_expr_cond, rfl, fun x => by simp [vars], rfl⟩) (by simp [ok])
      · refine .of (Sim.ifElse (unwrap_sim t) (unwrap_sim e) hl hle) ?_
        simp [ok, unwrap_ok ht, unwrap_ok he, ← (unwrap_sim t).lex, ← (unwrap_sim e).lex, hl, hle]
    · split
      · rename_i a h1
        have s1 := toExpr_sim _ _ h1
        exact .of (Sim.trans (Sim.ifThen s1 hl)
          ⟨fun m ls s k s' => run_expr_and, rfl, fun x => by simp [vars], rfl⟩) (by simp [ok])
      · exact .same (ok_mkIf (alt := none) ht hl ha)

theorem Rewritten.trans {z inList : Bool} {a b : Stmt} {out : List Stmt} (h : Sim a b)
    (h' : Rewritten z inList b out) : Rewritten z inList a out :=
  ⟨h.list.trans h'.list, h'.oks, fun hi => h.trans (h'.one hi), h'.okOne⟩

/-! ## The pass -/

mutual
theorem rewriteStmt_ok (z : Bool) : ∀ (st : Stmt) (inList : Bool), ok z st = true →
    Rewritten z inList st (rewriteStmt z inList st)
  | .block body, _, h => by
      obtain ⟨h1, h2⟩ := rewriteList_ok z body (by simpa [ok] using h)
      rw [rewriteStmt]
      exact .of (.block h1) (by simpa [ok] using h2)
  | .ifThen c t, inList, h => by
      simp [ok] at h
      have h1 := rewriteStmt_ok z t false h.1
      have hl := (h1.one rfl).lex ▸ h.2
      rw [rewriteStmt]
      exact .trans (.ifThen (h1.one rfl) h.2)
        (rewriteIf_ok (alt := none) (h1.okOne rfl) hl (by simp))
  | .ifElse c t e, inList, h => by
      simp [ok] at h
      have h1 := rewriteStmt_ok z t false h.1.1.1
      have hl := (h1.one rfl).lex ▸ h.1.1.2
      have h2 := rewriteStmt_ok z e false h.1.2
      have hl2 := (h2.one rfl).lex ▸ h.2
      rw [rewriteStmt]
      exact .trans (.ifElse (h1.one rfl) (h2.one rfl) h.1.1.2 h.2)
        (rewriteIf_ok (alt := some _) (h1.okOne rfl) hl
          (fun e he => by cases he; exact ⟨h2.okOne rfl, hl2⟩))
  | .while c body, _, h => by
      simp [ok] at h
      have h1 := rewriteStmt_ok z body false h.1
      have hl := (h1.one rfl).lex ▸ h.2
      rw [rewriteStmt]
      exact .of (.while (h1.one rfl)) (by simp [ok, h1.okOne rfl, hl])
  | .doWhile body c, _, h => by
      simp [ok] at h
      have h1 := rewriteStmt_ok z body false h.1
      have hl := (h1.one rfl).lex ▸ h.2
      rw [rewriteStmt]
      exact .of (.doWhile (h1.one rfl)) (by simp [ok, h1.okOne rfl, hl])
  | .for i t u br body, _, h => by
      obtain ⟨h1, h2⟩ := rewriteList_ok z body (by simpa [ok] using h)
      rw [rewriteStmt]
      exact .of (.for h1) (by simpa [ok] using h2)
  | .each kd lhs e br body, _, h => by
      obtain ⟨h1, h2⟩ := rewriteList_ok z body (by simpa [ok] using h)
      rw [rewriteStmt]
      exact .of (.each h1) (by simpa [ok] using h2)
  | .switch e ts bodies, _, h => by
      obtain ⟨h1, h2⟩ := rewriteLists_ok z bodies (by simpa [ok] using h)
      rw [rewriteStmt]
      exact .of (.switch h1) (by simpa [ok] using h2)
  | .tries body hc p handler hf last, _, h => by
      simp [ok] at h
      obtain ⟨h1, h2⟩ := rewriteList_ok z body h.1.1
      obtain ⟨h3, h4⟩ := rewriteList_ok z handler h.1.2
      obtain ⟨h5, h6⟩ := rewriteList_ok z last h.2
      rw [rewriteStmt]
      exact .of (.tries h1 h3 h5) (by simp [ok, h2, h4, h6])
  | .withs e body, _, h => by
      simp [ok] at h
      have h1 := rewriteStmt_ok z body false h.1
      have hl := (h1.one rfl).lex ▸ h.2
      rw [rewriteStmt]
      exact .of (.withs (h1.one rfl)) (by simp [ok, h1.okOne rfl, hl])
  | .label l body, _, h => by
      simp [ok] at h
      have h1 := rewriteStmt_ok z body false h
      rw [rewriteStmt]
      exact .of (.label (h1.one rfl)) (by simp [ok, h1.okOne rfl])
  | .empty, _, h => by simpa [rewriteStmt] using .same h
  | .expr _, _, h => by simpa [rewriteStmt] using .same h
  | .other _, _, h => by simpa [rewriteStmt] using .same h
  | .ret _, _, h => by simpa [rewriteStmt] using .same h
  | .throw _, _, h => by simpa [rewriteStmt] using .same h
  | .brk _, _, h => by simpa [rewriteStmt] using .same h
  | .cont _, _, h => by simpa [rewriteStmt] using .same h
  | .func _ _ _, _, h => by simpa [rewriteStmt] using .same h
  | .cls _ _, _, h => by simpa [rewriteStmt] using .same h
  | .decl _ _ _, _, h => by simpa [rewriteStmt] using .same h
  | .item _, _, h => by simpa [rewriteStmt] using .same h
theorem rewriteList_ok (z : Bool) : ∀ l : List Stmt, oks z l = true →
    SimL l (rewriteList z l) ∧ oks z (rewriteList z l) = true
  | [], _ => ⟨by simpa [rewriteList] using .refl _, by simp [rewriteList]⟩
  | st :: rest, h => by
      simp at h
      have h1 := rewriteStmt_ok z st true h.1
      obtain ⟨h2, h3⟩ := rewriteList_ok z rest h.2
      rw [rewriteList]
      exact ⟨h1.list.append h2, by simp [h1.oks, h3]⟩
theorem rewriteLists_ok (z : Bool) : ∀ l : List (List Stmt), okss z l = true →
    SimLL l (rewriteLists z l) ∧ okss z (rewriteLists z l) = true
  | [], _ => ⟨by simpa [rewriteLists] using .nil, by simp [rewriteLists, okss]⟩
  | b :: rest, h => by
      simp [okss] at h
      obtain ⟨h1, h2⟩ := rewriteList_ok z b h.1
      obtain ⟨h3, h4⟩ := rewriteLists_ok z rest h.2
      rw [rewriteLists]
      exact ⟨.cons h1 h3, by simp [okss, h2, h4]⟩
end

end Verif.Stmts
