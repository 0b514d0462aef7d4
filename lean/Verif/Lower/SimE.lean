import Verif.Lower.SimArg
/-!
# Translated expressions compute the values of expressions
-/

namespace Verif.Lower

open Verif.Il Verif.Lin Verif.Opt

section
variable {V W : Type} {I : Interp V W} {num : V → W → V × W} {code : List Inst} {μ : Nat → Option Nat}

/-- The code from `pc` ends at `pc1` with the value in `a` and `this` in `th`; or, if the chain is cut short, at
its label. -/
def Ends (I : Interp V W) (code : List Inst) (μ : Nat → Option Nat) (T pc pc1 : Nat) (ch : Option Nat) (th a : Arg)
    (env : Nat → V) (σ : St V W) (r : Option (V × V) × St V W) : Prop :=
  ∃ env' pc', To I code ⟨pc, env, σ.world⟩ ⟨pc', env', r.2.world⟩ ∧ Agree μ r.2.vars env' ∧ Keep μ T env env' ∧
    match r.1 with
    | some (tv, v) => pc' = pc1 ∧ valOf I env' a = v ∧ valOf I env' th = tv
    | none =>
      match ch with
      | none => pc' = pc1 ∧ valOf I env' a = undefinedV I
      | some l => Is code l pc'

/-- The code from `pc` ends at `pc1` with the value in `a`. -/
def EndsV (I : Interp V W) (code : List Inst) (μ : Nat → Option Nat) (T pc pc1 : Nat) (a : Arg)
    (env : Nat → V) (σ : St V W) (q : V × St V W) : Prop :=
  ∃ env', To I code ⟨pc, env, σ.world⟩ ⟨pc1, env', q.2.world⟩ ∧ Agree μ q.2.vars env' ∧ Keep μ T env env' ∧
    valOf I env' a = q.1

theorem Ends.value {T pc pc1 : Nat} {th a : Arg} {env : Nat → V} {σ : St V W} {r : Option (V × V) × St V W}
    (h : Ends I code μ T pc pc1 none th a env σ r) : EndsV I code μ T pc pc1 a env σ (value I r) := by
  obtain ⟨env', pc', h1, h2, h3, h4⟩ := h
  obtain ⟨r, s⟩ := r
  cases r with
  | none =>
    obtain ⟨rfl, h5⟩ := h4
    exact ⟨env', h1, h2, h3, h5⟩
  | some q =>
    obtain ⟨rfl, h5, -⟩ := h4
    exact ⟨env', h1, h2, h3, h5⟩

theorem EndsV.plain {T pc pc1 : Nat} {ch : Option Nat} {a : Arg} {env : Nat → V} {σ : St V W} {q : V × St V W}
    (h : EndsV I code μ T pc pc1 a env σ q) : Ends I code μ T pc pc1 ch undef a env σ (plain I q) := by
  obtain ⟨env', h1, h2, h3, h4⟩ := h
  exact ⟨env', pc1, h1, h2, h3, rfl, h4, rfl⟩

theorem ArithOp.il_means (op : ArithOp) : op.il = op.means := by cases op <;> rfl

theorem ArithOp.assignIl_means (op : ArithOp) : op.assignIl = op.means := by cases op <;> rfl

theorem CmpOp.il_means {op : CmpOp} {b : Bool} {o : BinOp} (h : op.il b = some o) : o = op.means := by
  cases op <;> cases b <;> simp [CmpOp.il] at h <;> exact h.symm

theorem UnaryOp.il_means (op : UnaryOp) : op.il = op.means := by cases op <;> rfl

theorem spreadsFrom_eq : ∀ (as : Args) (k : Nat), spreadsFrom k as = as.spreads k
  | .nil, _ => rfl
  | .cons true _ rest, k => by simp [spreadsFrom, Args.spreads, spreadsFrom_eq rest]
  | .cons false _ rest, k => by simp [spreadsFrom, Args.spreads, spreadsFrom_eq rest]

/-- Names. -/
theorem sim_id {x : VarType} {C : S} {pc : Nat} {env : Nat → V} {σ : St V W} (w : Wf C)
    (g : Good μ (compileId C x).1) (hat : At code pc (compileId C x).2.1) (ag : Agree μ σ.vars env) :
    EndsV I code μ C.temp pc (pc + (compileId C x).2.1.length) (compileId C x).2.2 env σ (readVar I x σ) := by
  cases x with
  | «local» s =>
    obtain ⟨-, -, -, h4⟩ := symTemp_ok rfl w (s := s)
    exact ⟨env, .refl, ag, .refl, ag s _ (g.1 s _ h4)⟩
  | builtin n => exact ⟨env, .refl, ag, .refl, rfl⟩
  | foreign s =>
    simp only [compileId, at_cons] at hat
    exact ⟨_, to_fload hat.1, ag.set (g.fresh w), Keep.refl.set (Nat.le_refl _), set_self⟩
  | unknown s =>
    simp only [compileId, at_cons] at hat
    exact ⟨_, to_uload hat.1, ag.set (g.fresh w), Keep.refl.set (Nat.le_refl _), set_self⟩

/-- The variable an assignment goes to is that of the name. -/
def DestIs (μ : Nat → Option Nat) : VarType → Dest → Prop
  | .local s, .temp t => μ s = some t
  | .foreign s, .foreign s' => s = s'
  | .unknown n, .unknown n' => n = n'
  | _, _ => False

theorem dest_is {x : VarType} {C C' : S} {d : Dest} (w : Wf C) (h : dest C x = some (C', d)) (g : Good μ C') :
    DestIs μ x d := by
  cases x with
  | «local» s =>
    simp only [dest, Option.some.injEq, Prod.mk.injEq] at h
    obtain ⟨rfl, rfl⟩ := h
    obtain ⟨-, -, -, h4⟩ := symTemp_ok rfl w (s := s)
    exact g.1 s _ h4
  | foreign s =>
    simp only [dest, Option.some.injEq, Prod.mk.injEq] at h
    obtain ⟨rfl, rfl⟩ := h
    rfl
  | unknown s =>
    simp only [dest, Option.some.injEq, Prod.mk.injEq] at h
    obtain ⟨rfl, rfl⟩ := h
    rfl
  | builtin s => simp [dest] at h

theorem sim_store {x : VarType} {d : Dest} {a : Arg} {pc T : Nat} {env : Nat → V} {σ : St V W} (inj : Inj μ)
    (hd : DestIs μ x d) (hat : code[pc]? = some (d.store a)) (ag : Agree μ σ.vars env) :
    ∃ env', To I code ⟨pc, env, σ.world⟩ ⟨pc + 1, env', (writeVar I x (valOf I env a) σ).world⟩ ∧
      Agree μ (writeVar I x (valOf I env a) σ).vars env' ∧ Keep μ T env env' ∧
      ∀ t, Fresh μ t → env' t = env t := by
  cases x <;> cases d <;> try exact hd.elim
  · refine ⟨_, to_assign hat, ag.write inj hd, Keep.refl.write hd, fun t ht => ?_⟩
    rw [set_ne]
    rintro rfl
    exact ht _ hd
  · cases hd
    exact ⟨_, to_fstore hat, ag, .refl, fun _ _ => rfl⟩
  · cases hd
    exact ⟨_, to_ustore hat, ag, .refl, fun _ _ => rfl⟩

theorem ext_load {C : S} {d : Dest} : Ext C (d.load C).1 := by
  cases d
  · exact .refl _
  · exact .bumpT _
  · exact .bumpT _

theorem sim_load {x : VarType} {d : Dest} {C : S} {pc : Nat} {env : Nat → V} {σ : St V W} (w : Wf C)
    (hd : DestIs μ x d) (g : Good μ (d.load C).1) (hat : At code pc (d.load C).2.1) (ag : Agree μ σ.vars env) :
    EndsV I code μ C.temp pc (pc + (d.load C).2.1.length) (d.load C).2.2 env σ (readVar I x σ) := by
  cases x <;> cases d <;> try exact hd.elim
  · exact ⟨env, .refl, ag, .refl, ag _ _ hd⟩
  · cases hd
    simp only [Dest.load, at_cons] at hat
    exact ⟨_, to_fload hat.1, ag.set (g.fresh w), Keep.refl.set (Nat.le_refl _), set_self⟩
  · cases hd
    simp only [Dest.load, at_cons] at hat
    exact ⟨_, to_uload hat.1, ag.set (g.fresh w), Keep.refl.set (Nat.le_refl _), set_self⟩

theorem ext_logJump {C : S} {op : LogOp} {v l : Nat} : Ext C (logJump C op v l).1 := by
  cases op
  · exact .refl _
  · exact .refl _
  · exact .bumpT _

theorem ext_chainJump {C : S} {opt : Bool} {a : Arg} {l : Nat} : Ext C (chainJump C opt a l).1 := by
  unfold chainJump
  split
  · exact .bumpT _
  · exact .refl _

theorem ext_complete {C : S} {did : Bool} {r l : Nat} : Ext C (completeChain C did r l).1 := by
  unfold completeChain
  split
  · exact .bumpL _
  · exact .refl _

theorem go_fall {pc l p : Nat} (b : Bool) (h : Is code l p) :
    goTo code pc (if b = true then dummyLabel else l) = if b = true then pc + 1 else p := by
  cases b
  · exact goTo_is h
  · exact goTo_dummy

theorem go_jump {pc l p : Nat} (b : Bool) (h : Is code l p) :
    goTo code pc (if b = true then l else dummyLabel) = if b = true then p else pc + 1 := by
  cases b
  · exact goTo_dummy
  · exact goTo_is h

theorem go_not {pc l p : Nat} (b : Bool) (h : Is code l p) :
    goTo code pc (if b = true then l else dummyLabel) = if (!b) = true then pc + 1 else p := by
  cases b
  · exact goTo_dummy
  · exact goTo_is h

theorem sim_logJump {C : S} {op : LogOp} {v l p pc : Nat} {env : Nat → V} {σ : St V W} (w : Wf C)
    (g : Good μ (logJump C op v l).1) (hat : At code pc (logJump C op v l).2) (hl : Is code l p)
    (ag : Agree μ σ.vars env) :
    ∃ env', To I code ⟨pc, env, σ.world⟩
        ⟨if (goesOn I op (env v) σ).1 then pc + (logJump C op v l).2.length else p, env', (goesOn I op (env v) σ).2.world⟩ ∧
      Agree μ (goesOn I op (env v) σ).2.vars env' ∧ Keep μ C.temp env env' := by
  cases op with
  | and =>
    simp only [logJump, at_cons] at hat
    refine ⟨env, to_cond hat.1 ?_, ag, .refl⟩
    exact go_fall _ hl
  | or =>
    simp only [logJump, at_cons] at hat
    refine ⟨env, to_cond hat.1 ?_, ag, .refl⟩
    exact go_not _ hl
  | nullish =>
    simp only [logJump, at_cons] at hat
    refine ⟨_, (to_bin hat.1).trans (to_cond hat.2.1 ?_), ag.set (Good.fresh (C := C) g w), Keep.refl.set (Nat.le_refl _)⟩
    simp only [valOf, set_self]
    exact go_fall _ hl

theorem sim_chainJump {C : S} {opt : Bool} {a : Arg} {l p pc : Nat} {env : Nat → V} {σ : St V W} (w : Wf C)
    (g : Good μ (chainJump C opt a l).1) (hat : At code pc (chainJump C opt a l).2) (hl : Is code l p)
    (ag : Agree μ σ.vars env) :
    ∃ env', To I code ⟨pc, env, σ.world⟩
        ⟨if (if opt then nullish I (valOf I env a) σ else (false, σ)).1 then p else pc + (chainJump C opt a l).2.length,
          env', (if opt then nullish I (valOf I env a) σ else (false, σ)).2.world⟩ ∧
      Agree μ (if opt then nullish I (valOf I env a) σ else (false, σ)).2.vars env' ∧ Keep μ C.temp env env' := by
  cases opt with
  | false =>
    refine ⟨env, ?_, ag, .refl⟩
    exact .refl
  | true =>
    simp only [chainJump, if_true, at_cons] at hat
    refine ⟨_, (to_bin hat.1).trans (to_cond hat.2.1 ?_), ag.set (Good.fresh (C := C) g w), Keep.refl.set (Nat.le_refl _)⟩
    rw [show valOf I (set env C.temp _) (.var C.temp) = _ from set_self]
    exact go_jump _ hl

theorem place {p l : Nat} (hp : Placed code) (h : code[p]? = some (label l)) : Is code l p := hp p l h

theorem Is.unique {l p q : Nat} (h : Is code l p) (k : Is code l q) : p = q := by
  have := h.1.symm.trans k.1
  simpa using this

/-- The end of a chain. -/
theorem Ends.complete {ch : Option Nat} {A C : S} {T pc pc1 res : Nat} {th : Arg} {env : Nat → V} {σ : St V W}
    {r : Option (V × V) × St V W} (hp : Placed code) (hT : T ≤ res) (f : Fresh μ res)
    (hat : At code pc1 (completeChain C (setupChain A ch).2.1 res (setupChain A ch).2.2).2)
    (h : Ends I code μ T pc pc1 (some (setupChain A ch).2.2) th (.var res) env σ r) :
    Ends I code μ T pc (pc1 + (completeChain C (setupChain A ch).2.1 res (setupChain A ch).2.2).2.length) ch th
      (.var res) env σ r := by
  cases ch with
  | some l => exact h
  | none =>
    simp only [completeChain, setupChain, if_true, at_cons] at hat h ⊢
    obtain ⟨a1, a2, a3, a4, a5, -⟩ := hat
    obtain ⟨env', pc', h1, h2, h3, h4⟩ := h
    obtain ⟨r, s⟩ := r
    have hd := place hp a5
    cases r with
    | some q =>
      obtain ⟨rfl, h5, h6⟩ := h4
      exact ⟨env', _, h1.trans ((to_goto a1 hd).trans (to_label a5)), h2, h3, rfl, h5, h6⟩
    | none =>
      have := Is.unique h4 (place hp a2)
      subst this
      exact ⟨_, _, h1.trans ((to_label a2).trans ((to_assign a3).trans ((to_goto a4 hd).trans (to_label a5)))),
        h2.set f, h3.set hT, rfl, set_self⟩

/-- Where the label of a chain is. -/
theorem chain_is {ch : Option Nat} {A C : S} {pc res : Nat} (hp : Placed code)
    (hch : ∀ l, ch = some l → ∃ p, Is code l p)
    (hat : At code pc (completeChain C (setupChain A ch).2.1 res (setupChain A ch).2.2).2) :
    ∃ p, Is code (setupChain A ch).2.2 p := by
  cases ch with
  | some l => exact hch l rfl
  | none =>
    simp only [completeChain, setupChain, if_true, at_cons] at hat
    exact ⟨_, place hp hat.2.1⟩

/-- An expression that does nothing. -/
theorem sim_quiet {e : Expr} (hq : e.quiet = true) {ch : Option Nat} {C C' : S} {is : List Inst} {th a : Arg} (w : Wf C)
    (g : Good μ C') (h : compileR e ch C = some (C', is, th, a)) (σ : St V W) :
    is = [] ∧ (value I (ref I num e σ)).2 = σ ∧
      ∀ (σ' : St V W) (env : Nat → V), Agree μ σ'.vars env → σ'.vars = σ.vars → valOf I env a = (value I (ref I num e σ)).1 := by
  cases e with
  | lit c =>
    simp only [compileR, Option.some.injEq, Prod.mk.injEq] at h
    obtain ⟨rfl, rfl, rfl, rfl⟩ := h
    exact ⟨rfl, rfl, fun _ _ _ _ => rfl⟩
  | builtin c =>
    simp only [compileR, Option.some.injEq, Prod.mk.injEq] at h
    obtain ⟨rfl, rfl, rfl, rfl⟩ := h
    exact ⟨rfl, rfl, fun _ _ _ _ => rfl⟩
  | fn c =>
    simp only [compileR, Option.some.injEq, Prod.mk.injEq] at h
    obtain ⟨rfl, rfl, rfl, rfl⟩ := h
    exact ⟨rfl, rfl, fun _ _ _ _ => rfl⟩
  | ident x =>
    simp only [compileR, Option.some.injEq, Prod.mk.injEq] at h
    obtain ⟨rfl, rfl, rfl, rfl⟩ := h
    cases x with
    | «local» s =>
      obtain ⟨-, -, -, h4⟩ := symTemp_ok rfl w (s := s)
      refine ⟨rfl, rfl, fun σ' env ag e => ?_⟩
      show env (symTemp C s).2 = σ.vars s
      rw [← e]
      exact ag s _ (g.1 s _ h4)
    | builtin n => exact ⟨rfl, rfl, fun _ _ _ _ => rfl⟩
    | foreign s => simp [Expr.quiet] at hq
    | unknown s => simp [Expr.quiet] at hq
  | _ => simp [Expr.quiet] at hq

theorem typeof_some {op : UnaryOp} {e : Expr} {n : List Nat} (h : typeofName op e = some n) :
    op = .typeof ∧ e = .ident (.unknown n) := by
  unfold typeofName at h
  split at h
  · cases h
    exact ⟨rfl, rfl⟩
  · cases h

theorem typeof_none {op : UnaryOp} {e : Expr} (h : typeofName op e = none) (s : St V W) :
    ref I num (.unary op e) s =
      plain I (doOp I (.un op.means) [(value I (ref I num e s)).1] (value I (ref I num e s)).2) := by
  rw [ref]
  unfold typeofName at h
  split at h
  · cases h
  · rename_i hno
    exact hno

end

end Verif.Lower
