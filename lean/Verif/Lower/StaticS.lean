import Verif.Lower.StaticE
/-!
# Labels and variables of translated statements
-/

namespace Verif.Lower

open Verif.Il Verif.Lin Verif.Opt

/-- Labels and jumps. -/
def isCtl (i : Inst) : Bool := i.t == .label || i.t == .goto || i.t == .condGoto

def lastCtl (is : List Inst) : Option Inst := (is.filter isCtl).getLast?

/-- What the last jump of a piece of code may be. -/
def TailOk (O : List Nat) (is : List Inst) : Prop :=
  ∀ i, lastCtl is = some i → (i.t = .goto → ∀ l ∈ i.labels, l ∈ O) ∧ (i.t = .condGoto → dummyLabel ∈ i.labels)

theorem TailOk.app {O : List Nat} {a b : List Inst} (ha : TailOk O a) (hb : TailOk O b) : TailOk O (a ++ b) := by
  intro i h
  simp only [lastCtl, List.filter_append, List.getLast?_append, Option.or_eq_some_iff] at h
  rcases h with h | ⟨-, h⟩
  · exact hb i h
  · exact ha i h

theorem TailOk.lab {O : List Nat} {a : List Inst} {l : Nat} : TailOk O (a ++ [label l]) := by
  intro i h
  simp only [lastCtl, List.filter_append, List.getLast?_append, Option.or_eq_some_iff] at h
  rcases h with h | ⟨h, -⟩
  · simp only [label, isCtl, List.filter_cons, BEq.rfl, Bool.true_or, if_true, List.filter_nil, List.getLast?_singleton, Option.some.injEq] at h
    subst h
    simp
  · simp [label, isCtl] at h

theorem TailOk.weaken {O O' : List Nat} {a : List Inst} (h : TailOk O a) (hO : ∀ l ∈ O, l ∈ O') : TailOk O' a :=
  fun i hi => ⟨fun e l hl => hO l ((h i hi).1 e l hl), (h i hi).2⟩

theorem TailOk.of {O : List Nat} {a : List Inst} (h : lastCtl a = none) : TailOk O a := by
  intro i hi
  rw [h] at hi
  cases hi

theorem lastCtl_plain {a : List Inst} (h : ∀ i ∈ a, isCtl i = false) : lastCtl a = none := by
  simp only [lastCtl, List.getLast?_eq_none_iff, List.filter_eq_nil_iff]
  intro i hi
  simp [h i hi]

theorem TailOk.cond {O : List Nat} {c : Arg} {t f : Nat} (h : t = dummyLabel ∨ f = dummyLabel) :
    TailOk O [Inst.condGoto c t f] := by
  intro i hi
  simp [lastCtl, isCtl, Inst.condGoto] at hi
  subst hi
  simpa [eq_comm] using h

theorem TailOk.nil {O : List Nat} : TailOk O [] := .of rfl

theorem TailOk.store {O : List Nat} {d : Dest} {a : Arg} : TailOk O [d.store a] := by
  cases d <;> exact .of rfl

theorem TailOk.consC {O : List Nat} {i : Inst} {is : List Inst} (h1 : TailOk O [i]) (h2 : TailOk O is) :
    TailOk O (i :: is) := h1.app (b := is) h2

theorem TailOk.endLab {O : List Nat} {i : Inst} {l : Nat} : TailOk O [i, label l] := TailOk.lab (a := [i])

theorem TailOk.endLab3 {O : List Nat} {i j : Inst} {l : Nat} : TailOk O [i, j, label l] := TailOk.lab (a := [i, j])

macro "tl" : tactic => `(tactic| repeat' (first
    | assumption
    | exact TailOk.nil
    | exact TailOk.lab
    | exact TailOk.endLab
    | exact TailOk.endLab3
    | exact TailOk.store
    | exact TailOk.of rfl
    | exact TailOk.cond (.inl rfl)
    | exact TailOk.cond (.inr rfl)
    | apply TailOk.app
    | apply TailOk.consC))

theorem tail_load {O : List Nat} {C : S} {d : Dest} : TailOk O (d.load C).2.1 := by
  cases d <;> exact .of rfl

theorem tail_logJump {O : List Nat} {C : S} {op : LogOp} {v l : Nat} : TailOk O (logJump C op v l).2 := by
  cases op <;> simp only [logJump] <;> tl

theorem tail_chainJump {O : List Nat} {C : S} {o : Bool} {a : Arg} {l : Nat} : TailOk O (chainJump C o a l).2 := by
  unfold chainJump
  split <;> dsimp only <;> tl

theorem tail_complete {O : List Nat} {C : S} {o : Bool} {r l : Nat} : TailOk O (completeChain C o r l).2 := by
  unfold completeChain
  split
  · exact TailOk.lab (a := [_, _, _, _])
  · exact .nil

mutual
theorem tailE (O : List Nat) : ∀ (e : Expr) {ch : Option Nat} {C C' : S} {is : List Inst} {th a : Arg},
    compileR e ch C = some (C', is, th, a) → TailOk O is
  | .lit c, ch, C, C', is, th, a, h => by
    simp only [compileR, Option.some.injEq, Prod.mk.injEq] at h
    obtain ⟨rfl, rfl, rfl, rfl⟩ := h
    tl
  | .builtin c, ch, C, C', is, th, a, h => by
    simp only [compileR, Option.some.injEq, Prod.mk.injEq] at h
    obtain ⟨rfl, rfl, rfl, rfl⟩ := h
    tl
  | .fn c, ch, C, C', is, th, a, h => by
    simp only [compileR, Option.some.injEq, Prod.mk.injEq] at h
    obtain ⟨rfl, rfl, rfl, rfl⟩ := h
    tl
  | .ident x, ch, C, C', is, th, a, h => by
    simp only [compileR, Option.some.injEq, Prod.mk.injEq] at h
    obtain ⟨rfl, rfl, rfl, rfl⟩ := h
    cases x <;> exact .of rfl
  | .unary op e, ch, C, C', is, th, a, h => by
    simp only [compileR] at h
    split at h
    · simp only [Option.some.injEq, Prod.mk.injEq] at h
      obtain ⟨rfl, rfl, rfl, rfl⟩ := h
      tl
    · simp only [Option.bind_eq_bind, Option.bind_eq_some_iff, Option.some.injEq, Prod.mk.injEq] at h
      obtain ⟨⟨C1, is1, th1, a1⟩, h1, rfl, rfl, rfl, rfl⟩ := h
      have := tailE O e h1
      tl
  | .arith op l r, ch, C, C', is, th, a, h => by
    simp only [compileR, Option.bind_eq_bind, Option.bind_eq_some_iff, Option.some.injEq, Prod.mk.injEq] at h
    obtain ⟨⟨C1, is1, th1, a1⟩, h1, ⟨C2, is2, th2, a2⟩, h2, rfl, rfl, rfl, rfl⟩ := h
    have := tailE O l h1
    have := tailE O r h2
    tl
  | .cmp op l r, ch, C, C', is, th, a, h => by
    simp only [compileR, Option.bind_eq_bind, Option.bind_eq_some_iff, Option.some.injEq, Prod.mk.injEq] at h
    obtain ⟨o, ho, ⟨C1, is1, th1, a1⟩, h1, ⟨C2, is2, th2, a2⟩, h2, rfl, rfl, rfl, rfl⟩ := h
    have := tailE O l h1
    have := tailE O r h2
    tl
  | .log op l r, ch, C, C', is, th, a, h => by
    simp only [compileR, Option.bind_eq_bind, Option.bind_eq_some_iff] at h
    obtain ⟨⟨C1, is1, th1, a1⟩, h1, h⟩ := h
    cases op <;> simp only [Option.bind_eq_some_iff, Option.some.injEq, Prod.mk.injEq] at h <;>
      obtain ⟨⟨C2, is2, th2, a2⟩, h2, rfl, rfl, rfl, rfl⟩ := h <;>
      (rw [show ∀ xs : List Inst, ∀ i : Inst, ∀ l : Nat, xs ++ [i, label l] = (xs ++ [i]) ++ [label l] by simp]
       exact .lab)
  | .comma l r, ch, C, C', is, th, a, h => by
    simp only [compileR, Option.bind_eq_bind, Option.bind_eq_some_iff, Option.some.injEq, Prod.mk.injEq] at h
    obtain ⟨⟨C1, is1, th1, a1⟩, h1, ⟨C2, is2, th2, a2⟩, h2, rfl, rfl, rfl, rfl⟩ := h
    have := tailE O l h1
    have := tailE O r h2
    tl
  | .cond c t f, ch, C, C', is, th, a, h => by
    simp only [compileR, Option.bind_eq_bind, Option.bind_eq_some_iff, Option.some.injEq, Prod.mk.injEq] at h
    obtain ⟨⟨C1, is1, th1, a1⟩, h1, ⟨C2, is2, th2, a2⟩, h2, ⟨C3, is3, th3, a3⟩, h3, rfl, rfl, rfl, rfl⟩ := h
    rw [show ∀ xs : List Inst, ∀ i : Inst, ∀ l : Nat, xs ++ [i, label l] = (xs ++ [i]) ++ [label l] by simp]
    exact .lab
  | .update inc pre e, ch, C, C', is, th, a, h => by
    simp only [compileR, Option.bind_eq_bind, Option.bind_eq_some_iff] at h
    obtain ⟨⟨C1, is1, th1, a1⟩, h1, v, hv, h⟩ := h
    have := tailE O e h1
    dsimp only at h
    split at h <;> simp only [Option.some.injEq, Prod.mk.injEq] at h <;> obtain ⟨rfl, rfl, rfl, rfl⟩ := h <;> tl
  | .assign op x e, ch, C, C', is, th, a, h => by
    simp only [compileR, Option.bind_eq_bind, Option.bind_eq_some_iff] at h
    obtain ⟨⟨C0, d⟩, h0, h⟩ := h
    cases op with
    | plain =>
      simp only [Option.bind_eq_some_iff, Option.some.injEq, Prod.mk.injEq] at h
      obtain ⟨⟨C1, is1, th1, a1⟩, h1, rfl, rfl, rfl, rfl⟩ := h
      have := tailE O e h1
      tl
    | arith op =>
      simp only [Option.bind_eq_some_iff, Option.some.injEq, Prod.mk.injEq] at h
      obtain ⟨⟨C1, is1, th1, a1⟩, h1, rfl, rfl, rfl, rfl⟩ := h
      have := tailE O e h1
      exact (this.app tail_load).app (by tl)
    | log op =>
      simp only [Option.bind_eq_some_iff, Option.some.injEq, Prod.mk.injEq] at h
      obtain ⟨⟨C3, is3, th3, a3⟩, h3, rfl, rfl, rfl, rfl⟩ := h
      rw [show ∀ xs : List Inst, ∀ i j : Inst, ∀ l : Nat, xs ++ [i, j, label l] = (xs ++ [i, j]) ++ [label l] by simp]
      exact .lab
  | .assignMember op o k e, ch, C, C', is, th, a, h => by
    simp only [compileR, Option.bind_eq_bind, Option.bind_eq_some_iff] at h
    obtain ⟨⟨C1, is1, th1, a1⟩, h1, ⟨C2, is2, th2, a2⟩, h2, h⟩ := h
    have := tailE O o h1
    have := tailE O k h2
    cases op with
    | plain =>
      simp only [Option.bind_eq_some_iff, Option.some.injEq, Prod.mk.injEq] at h
      obtain ⟨⟨C3, is3, th3, a3⟩, h3, rfl, rfl, rfl, rfl⟩ := h
      have := tailE O e h3
      tl
    | arith op =>
      simp only [Option.bind_eq_some_iff, Option.some.injEq, Prod.mk.injEq] at h
      obtain ⟨⟨C3, is3, th3, a3⟩, h3, rfl, rfl, rfl, rfl⟩ := h
      have := tailE O e h3
      tl
    | log op =>
      simp only [Option.bind_eq_some_iff, Option.some.injEq, Prod.mk.injEq] at h
      obtain ⟨⟨C4, is4, th4, a4⟩, h4, rfl, rfl, rfl, rfl⟩ := h
      rw [show ∀ xs : List Inst, ∀ i j : Inst, ∀ l : Nat, xs ++ [i, j, label l] = (xs ++ [i, j]) ++ [label l] by simp]
      exact .lab
  | .member o k opt, ch, C, C', is, th, a, h => by
    simp only [compileR, Option.bind_eq_bind, Option.bind_eq_some_iff, Option.some.injEq, Prod.mk.injEq] at h
    obtain ⟨⟨C1, is1, th1, a1⟩, h1, ⟨C3, is3, th3, a3⟩, h3, rfl, rfl, rfl, rfl⟩ := h
    have h1' := tailE O o h1
    have h3' := tailE O k h3
    exact (((h1'.app tail_chainJump).app h3').app (.of rfl)).app tail_complete
  | .call c as opt, ch, C, C', is, th, a, h => by
    simp only [compileR] at h
    split at h
    · simp at h
    · simp only [Option.bind_eq_bind, Option.bind_eq_some_iff, Option.some.injEq, Prod.mk.injEq] at h
      obtain ⟨⟨C1, is1, th1, a1⟩, h1, ⟨C3, is3, bs⟩, h3, rfl, rfl, rfl, rfl⟩ := h
      have h1' := tailE O c h1
      have h3' := tailA O as h3
      exact (((h1'.app tail_chainJump).app h3').app (.of rfl)).app tail_complete
  | .new c as, ch, C, C', is, th, a, h => by
    simp only [compileR, Option.bind_eq_bind, Option.bind_eq_some_iff, Option.some.injEq, Prod.mk.injEq] at h
    obtain ⟨⟨C1, is1, th1, a1⟩, h1, ⟨C3, is3, bs⟩, h3, rfl, rfl, rfl, rfl⟩ := h
    have h1' := tailE O c h1
    have h3' := tailA O as h3
    exact ((h1'.app h3').app (.of rfl)).app tail_complete
  | .internal n as, ch, C, C', is, th, a, h => by
    simp only [compileR, Option.bind_eq_bind, Option.bind_eq_some_iff, Option.some.injEq, Prod.mk.injEq] at h
    obtain ⟨⟨C3, is3, bs⟩, h3, rfl, rfl, rfl, rfl⟩ := h
    exact (tailA O as h3).app (.of rfl)

theorem tailA (O : List Nat) : ∀ (as : Args) {C C' : S} {is : List Inst} {bs : List Arg},
    compileArgs as C = some (C', is, bs) → TailOk O is
  | .nil, C, C', is, bs, h => by
    simp only [compileArgs, Option.some.injEq, Prod.mk.injEq] at h
    obtain ⟨rfl, rfl, rfl⟩ := h
    tl
  | .cons sp e rest, C, C', is, bs, h => by
    simp only [compileArgs, Option.bind_eq_bind, Option.bind_eq_some_iff, Option.some.injEq, Prod.mk.injEq] at h
    obtain ⟨⟨C1, is1, th1, a1⟩, h1, ⟨C2, is2, bs2⟩, h2, rfl, rfl, rfl⟩ := h
    exact (tailE O e h1).app (tailA O rest h2)
end

/-- `compileE` is `compileR` without a chain. -/
theorem compileE_iff {e : Expr} {C C' : S} {is : List Inst} {a : Arg} :
    compileE e C = some (C', is, a) ↔ ∃ th, compileR e none C = some (C', is, th, a) := by
  simp only [compileE, Option.bind_eq_bind, Option.bind_eq_some_iff, Option.some.injEq, Prod.mk.injEq]
  constructor
  · rintro ⟨⟨C1, is1, th1, a1⟩, h1, rfl, rfl, rfl⟩
    exact ⟨th1, h1⟩
  · rintro ⟨th, h⟩
    exact ⟨_, h, rfl, rfl, rfl⟩

theorem partC {e : Expr} {C C' : S} {is : List Inst} {a : Arg} (O : List Nat) (w : Wf C)
    (h : compileE e C = some (C', is, a)) : Part [] O C C' is ∧ ArgB C'.temp a ∧ TailOk O is := by
  obtain ⟨th, h⟩ := compileE_iff.1 h
  obtain ⟨p, -, ha⟩ := partE e O w (by simp) h
  exact ⟨p, ha, tailE O e h⟩

theorem partO {e : Option Expr} {C C' : S} {is : List Inst} {a : Option Arg} (O : List Nat) (w : Wf C)
    (h : compileOpt e C = some (C', is, a)) : Part [] O C C' is ∧ (∀ x ∈ a, ArgB C'.temp x) ∧ TailOk O is := by
  cases e with
  | none =>
    simp only [compileOpt, Option.some.injEq, Prod.mk.injEq] at h
    obtain ⟨rfl, rfl, rfl⟩ := h
    exact ⟨.nil, by simp, .nil⟩
  | some e =>
    simp only [compileOpt, Option.bind_eq_bind, Option.bind_eq_some_iff, Option.some.injEq, Prod.mk.injEq] at h
    obtain ⟨⟨C1, is1, a1⟩, h1, rfl, rfl, rfl⟩ := h
    obtain ⟨p, ha, t⟩ := partC O w h1
    exact ⟨p, by simpa using ha, t⟩

/-- Several labels given out at once. -/
theorem Part.bumpN {E E' O O' : List Nat} {A B : S} {is : List Inst} {n : Nat}
    (p : Part E' O' { A with label := A.label + n } B is) (hO : ∀ l ∈ O', l ∈ O ∨ A.label ≤ l ∧ l < A.label + n)
    (hE : ∀ l, E'.count l = E.count l + if A.label ≤ l ∧ l < A.label + n then 1 else 0) : Part E O A B is := by
  have hb : A.label + n ≤ B.label := p.ext.label
  refine ⟨(Ext.labels A _ (Nat.le_add_right _ _)).trans p.ext, fun i hi => ?_, fun l => ?_⟩
  · refine (p.ok i hi).mono (fun l hl => ?_) (Nat.le_refl _)
    rcases hl with h | h
    · rcases hO l h with h | h
      · exact .inl h
      · exact .inr ⟨h.1, by omega⟩
    · dsimp only at h
      exact .inr ⟨by omega, h.2⟩
  · rw [p.count, hE]
    generalize hk : S.label { A with label := A.label + n } = q
    dsimp only at hk
    split <;> split <;> split <;> omega

/-- The labels that jumps of a statement may go to. -/
def Ctx.targets (x : Ctx) : List Nat :=
  x.brk ++ x.cont ++ x.labels.map (·.2.1) ++ x.labels.filterMap (·.2.2) ++ x.ret.toList

theorem enterLoop_targets {x : Ctx} {name : Option Nat} {b c l : Nat} (h : l ∈ (x.enterLoop name b c).targets) :
    l = b ∨ l = c ∨ l ∈ x.targets := by
  cases name <;> simp only [Ctx.enterLoop, Ctx.targets, List.mem_append, List.mem_cons, List.map_cons,
    List.filterMap_cons] at h ⊢ <;> grind

theorem partT {d other : Nat} : ∀ (cs : Cases) {l : Nat} {C C' : S} {is : List Inst} (O : List Nat), Wf C →
    d < C.temp → other ∈ O → (∀ k, l ≤ k → k < l + cs.length → k ∈ O) →
    compileTests d other cs l C = some (C', is) → Part [] O C C' is
  | .nil, l, C, C', is, O, w, hd, ho, hl, h => by
    simp only [compileTests, Option.some.injEq, Prod.mk.injEq] at h
    obtain ⟨rfl, rfl⟩ := h
    exact .nil
  | .cons none b cs, l, C, C', is, O, w, hd, ho, hl, h => by
    simp only [compileTests] at h
    refine partT cs O w hd ho (fun k h1 h2 => hl k (by omega) ?_) h
    simp only [Cases.length]
    omega
  | .cons (some e) b cs, l, C, C', is, O, w, hd, ho, hl, h => by
    simp only [compileTests, Option.bind_eq_bind, Option.bind_eq_some_iff, Option.some.injEq, Prod.mk.injEq] at h
    obtain ⟨⟨C1, is1, a1⟩, h1, ⟨C2, is2⟩, h2, rfl, rfl⟩ := h
    obtain ⟨p1, ha1, -⟩ := partC O w h1
    have t1 := p1.ext.temp
    have e1 : C1.bumpT.temp = C1.temp + 1 := rfl
    have p2 := partT cs O ((Ext.bumpT _).wf (p1.ext.wf w)) (by omega) ho (fun k h1 h2 => hl k (by omega) (by
      simp only [Cases.length]
      omega)) h2
    refine (p1.append (.bumpT (.insts ?_))).append p2
    simp only [List.mem_cons, List.not_mem_nil, or_false, forall_eq_or_imp, forall_eq]
    refine ⟨inner_bin (by omega) (.var (by omega)) (ha1.mono (by omega)), inner_cond (.var (by omega)) (.inr ?_) ?_⟩
    · exact hl l (Nat.le_refl _) (by simp only [Cases.length]; omega)
    · split
      · exact .inl rfl
      · exact .inr ho

theorem defaultAt_lt : ∀ (cs : Cases) {k : Nat}, cs.defaultAt = some k → k < cs.length
  | .nil, _, h => by simp [Cases.defaultAt] at h
  | .cons none _ _, _, h => by
    simp only [Cases.defaultAt, Option.some.injEq] at h
    subst h
    simp [Cases.length]
  | .cons (some _) _ cs, k, h => by
    simp only [Cases.defaultAt, Option.map_eq_some_iff] at h
    obtain ⟨j, hj, rfl⟩ := h
    have := defaultAt_lt cs hj
    simp only [Cases.length]
    omega

theorem lookup_targets {x : Ctx} {n : Nat} {e : Nat × Option Nat} (h : x.labels.lookup n = some e) :
    e.1 ∈ x.targets ∧ ∀ l ∈ e.2, l ∈ x.targets := by
  have hm : (n, e) ∈ x.labels := by
    rw [List.lookup_eq_some_iff] at h
    obtain ⟨l1, l2, h, -⟩ := h
    rw [h]
    simp
  constructor
  · simp only [Ctx.targets, List.mem_append, List.mem_map]
    exact .inl (.inl (.inr ⟨_, hm, rfl⟩))
  · intro l hl
    simp only [Ctx.targets, List.mem_append, List.mem_filterMap]
    exact .inl (.inr ⟨_, hm, hl⟩)

theorem tail_goto {O : List Nat} {l : Nat} (h : l ∈ O) : TailOk O [goto l] := by
  intro i hi
  simp [lastCtl, isCtl, goto] at hi
  subst hi
  simpa using h

mutual
theorem partS : ∀ (s : Stmt) {x : Ctx} {name : Option Nat} {C C' : S} {is : List Inst} (O : List Nat), Wf C →
    (∀ l ∈ x.targets, l ∈ O) → compileS x name s C = some (C', is) → Part [] O C C' is ∧ TailOk O is
  | .expr e, x, name, C, C', is, O, w, hO, h => by
    simp only [compileS, Option.bind_eq_bind, Option.bind_eq_some_iff, Option.some.injEq, Prod.mk.injEq] at h
    obtain ⟨⟨C1, is1, a1⟩, h1, rfl, rfl⟩ := h
    obtain ⟨p, -, t⟩ := partC O w h1
    exact ⟨p, t⟩
  | .empty, x, name, C, C', is, O, w, hO, h => by
    simp only [compileS, Option.some.injEq, Prod.mk.injEq] at h
    obtain ⟨rfl, rfl⟩ := h
    exact ⟨.nil, .nil⟩
  | .decl kind v (some e), x, name, C, C', is, O, w, hO, h => by
    simp only [compileS, Option.bind_eq_bind, Option.bind_eq_some_iff, Option.some.injEq, Prod.mk.injEq] at h
    obtain ⟨⟨C1, is1, a1⟩, h1, ⟨C2, d⟩, h2, rfl, rfl⟩ := h
    obtain ⟨p, ha, t⟩ := partC O ((Ext.bumpT _).wf w) h1
    obtain ⟨e2, l2, hd⟩ := dest_ok h2 (p.ext.wf ((Ext.bumpT _).wf w))
    have t1 : C.temp + 1 ≤ C1.temp := p.ext.temp
    have t2 : C1.temp ≤ C2.temp := e2.temp
    refine ⟨?_, t.app (by tl)⟩
    have := (Part.bumpT p).append ((Part.ofExt e2 l2).append (.insts (is := [Inst.varAssign C.temp a1, d.store (.var C.temp)]) ?_))
    · simpa using this
    · simp only [List.mem_cons, List.not_mem_nil, or_false, forall_eq_or_imp, forall_eq]
      exact ⟨inner_assign (by omega) (ha.mono t2), inner_store hd (.var (by omega))⟩
  | .decl .const v none, x, name, C, C', is, O, w, hO, h => by simp [compileS] at h
  | .decl .let_ v none, x, name, C, C', is, O, w, hO, h => by
    simp only [compileS, Option.bind_eq_bind, Option.bind_eq_some_iff, Option.some.injEq, Prod.mk.injEq] at h
    obtain ⟨⟨C2, d⟩, h2, rfl, rfl⟩ := h
    obtain ⟨e2, l2, hd⟩ := dest_ok h2 w
    exact ⟨(Part.ofExt e2 l2).append (.inst (inner_store hd .undef)), .store⟩
  | .decl .var v none, x, name, C, C', is, O, w, hO, h => by
    simp only [compileS, Option.some.injEq, Prod.mk.injEq] at h
    obtain ⟨rfl, rfl⟩ := h
    exact ⟨.nil, .nil⟩
  | .block ss, x, name, C, C', is, O, w, hO, h => by
    simp only [compileS] at h
    exact partSs ss O w hO h
  | .ifThen c t, x, name, C, C', is, O, w, hO, h => by
    simp only [compileS, Option.bind_eq_bind, Option.bind_eq_some_iff, Option.some.injEq, Prod.mk.injEq] at h
    obtain ⟨⟨C1, is1, a1⟩, h1, ⟨C2, is2⟩, h2, rfl, rfl⟩ := h
    obtain ⟨p1, ha1, -⟩ := partC O w h1
    obtain ⟨p2, -⟩ := partS t (C1.label :: O) ((Ext.bumpL _).wf (p1.ext.wf w)) (fun l hl => by simp [hO l hl]) h2
    refine ⟨?_, .lab⟩
    have q := p1.append (Part.bumpL (E := []) (((Part.inst (A := C1.bumpL) (inner_cond ha1 (.inl rfl)
      (.inr (List.mem_cons_self (a := C1.label) (l := O))))).append p2).append (.lab C1.label)) (by simp))
    simpa [List.append_assoc] using q
  | .ifElse c t f, x, name, C, C', is, O, w, hO, h => by
    simp only [compileS, Option.bind_eq_bind, Option.bind_eq_some_iff, Option.some.injEq, Prod.mk.injEq] at h
    obtain ⟨⟨C1, is1, a1⟩, h1, ⟨C2, is2⟩, h2, ⟨C3, is3⟩, h3, rfl, rfl⟩ := h
    obtain ⟨p1, ha1, -⟩ := partC O w h1
    have w1 : Wf C1.bumpL.bumpL := ((Ext.bumpL _).trans (Ext.bumpL _)).wf (p1.ext.wf w)
    let O' := C1.label :: (C1.label + 1) :: O
    have hO' : ∀ l ∈ x.targets, l ∈ O' := fun l hl => by simp [O', hO l hl]
    obtain ⟨p2, -⟩ := partS f O' w1 hO' h2
    obtain ⟨p3, -⟩ := partS t O' (p2.ext.wf w1) hO' h3
    refine ⟨?_, .lab⟩
    have q : Part [] O C1 C3 ([Inst.condGoto a1 C1.label dummyLabel] ++ is2 ++ ([goto (C1.label + 1)] ++ [label C1.label]) ++ is3 ++
        [label (C1.label + 1)]) := by
      refine Part.bumpN (n := 2) (O' := O') (E' := [C1.label, C1.label + 1]) ?_ ?_ ?_
      · exact ((((Part.inst (A := C1.bumpL.bumpL) (inner_cond ha1 (.inr (by simp [O'])) (.inl rfl))).append p2).append
          ((Part.inst (inner_goto (by simp [O']))).append (.lab _))).append p3).append (.lab _)
      · intro l hl
        simp only [O', List.mem_cons] at hl
        rcases hl with rfl | rfl | hl
        · exact .inr ⟨by omega, by omega⟩
        · exact .inr ⟨by omega, by omega⟩
        · exact .inl hl
      · intro l
        simp only [List.count_cons, List.count_nil, beq_iff_eq]
        split <;> split <;> split <;> omega
    simpa [List.append_assoc] using p1.append q
  | .while_ c b, x, name, C, C', is, O, w, hO, h => by
    simp only [compileS, Option.bind_eq_bind, Option.bind_eq_some_iff, Option.some.injEq, Prod.mk.injEq] at h
    obtain ⟨⟨C1, is1, a1⟩, h1, ⟨C2, is2⟩, h2, rfl, rfl⟩ := h
    have w0 : Wf C.bumpL.bumpL := ((Ext.bumpL _).trans (Ext.bumpL _)).wf w
    let O' := C.label :: (C.label + 1) :: O
    obtain ⟨p1, ha1, -⟩ := partC O' w0 h1
    obtain ⟨p2, -⟩ := partS b O' (p1.ext.wf w0) (fun l hl => by
      rcases enterLoop_targets hl with rfl | rfl | hl
      · simp [O']
      · simp [O']
      · simp [O', hO l hl]) h2
    refine ⟨?_, ?_⟩
    · refine Part.bumpN (n := 2) (O' := O') (E' := [C.label, C.label + 1]) ?_ ?_ ?_
      · exact ((((Part.lab _).append p1).append (Part.inst (inner_cond ha1 (.inl rfl) (.inr (by simp [O']))))).append p2).append
          (js := [goto C.label] ++ [label (C.label + 1)]) ((Part.inst (inner_goto (by simp [O']))).append (.lab _))
      · intro l hl
        simp only [O', List.mem_cons] at hl
        rcases hl with rfl | rfl | hl
        · exact .inr ⟨by omega, by omega⟩
        · exact .inr ⟨by omega, by omega⟩
        · exact .inl hl
      · intro l
        simp only [List.count_cons, List.count_nil, beq_iff_eq]
        split <;> split <;> split <;> omega
    · rw [show ∀ xs : List Inst, ∀ i : Inst, ∀ l : Nat, xs ++ [i, label l] = (xs ++ [i]) ++ [label l] by simp]
      exact .lab
  | .doWhile b c, x, name, C, C', is, O, w, hO, h => by
    simp only [compileS, Option.bind_eq_bind, Option.bind_eq_some_iff, Option.some.injEq, Prod.mk.injEq] at h
    obtain ⟨⟨C1, is1⟩, h1, ⟨C2, is2, a2⟩, h2, rfl, rfl⟩ := h
    have w0 : Wf C.bumpL.bumpL.bumpL := ((Ext.bumpL _).trans ((Ext.bumpL _).trans (Ext.bumpL _))).wf w
    let O' := C.label :: (C.label + 1) :: (C.label + 2) :: O
    obtain ⟨p1, -⟩ := partS b O' w0 (fun l hl => by
      rcases enterLoop_targets hl with rfl | rfl | hl
      · simp [O']
      · simp [O']
      · simp [O', hO l hl]) h1
    obtain ⟨p2, ha2, -⟩ := partC O' (p1.ext.wf w0) h2
    refine ⟨?_, ?_⟩
    · refine Part.bumpN (n := 3) (O' := O') (E' := [C.label, C.label + 1, C.label + 2]) ?_ ?_ ?_
      · exact ((((Part.lab _).append p1).append (Part.lab _)).append p2).append
          (js := [Inst.condGoto a2 C.label (C.label + 2)] ++ [label (C.label + 2)])
          ((Part.inst (inner_cond ha2 (.inr (by simp [O'])) (.inr (by simp [O'])))).append (.lab _))
      · intro l hl
        simp only [O', List.mem_cons] at hl
        rcases hl with rfl | rfl | rfl | hl
        · exact .inr ⟨by omega, by omega⟩
        · exact .inr ⟨by omega, by omega⟩
        · exact .inr ⟨by omega, by omega⟩
        · exact .inl hl
      · intro l
        simp only [List.count_cons, List.count_nil, beq_iff_eq]
        split <;> split <;> split <;> split <;> omega
    · rw [show ∀ xs : List Inst, ∀ i : Inst, ∀ l : Nat, xs ++ [i, label l] = (xs ++ [i]) ++ [label l] by simp]
      exact .lab
  | .for_ init c post b, x, name, C, C', is, O, w, hO, h => by
    simp only [compileS, Option.bind_eq_bind, Option.bind_eq_some_iff, Option.some.injEq, Prod.mk.injEq] at h
    obtain ⟨⟨C0, is0⟩, h0, ⟨C1, is1, a1⟩, h1, ⟨C2, is2⟩, h2, ⟨C3, is3, a3⟩, h3, rfl, rfl⟩ := h
    obtain ⟨p0, -⟩ := partS init O w hO h0
    have w0 : Wf C0.bumpL.bumpL.bumpL := ((Ext.bumpL _).trans ((Ext.bumpL _).trans (Ext.bumpL _))).wf (p0.ext.wf w)
    let O' := C0.label :: (C0.label + 1) :: (C0.label + 2) :: O
    obtain ⟨p1, ha1, -⟩ := partO O' w0 h1
    have w1 := p1.ext.wf w0
    obtain ⟨p2, -⟩ := partS b O' w1 (fun l hl => by
      rcases enterLoop_targets hl with rfl | rfl | hl
      · simp [O']
      · simp [O']
      · simp [O', hO l hl]) h2
    obtain ⟨p3, ha3, -⟩ := partO O' (p2.ext.wf w1) h3
    refine ⟨?_, ?_⟩
    · have q : Part [] O C0 C3 ([label C0.label] ++ is1 ++
          (a1.map (fun a => Inst.condGoto a dummyLabel (C0.label + 2))).toList ++ is2 ++ [label (C0.label + 1)] ++ is3 ++
          ([goto C0.label] ++ [label (C0.label + 2)])) := by
        refine Part.bumpN (n := 3) (O' := O') (E' := [C0.label, C0.label + 1, C0.label + 2]) ?_ ?_ ?_
        · refine (((((((Part.lab _).append p1).append (.insts ?_)).append p2).append (Part.lab _)).append p3)).append
            ((Part.inst (inner_goto (by simp [O']))).append (.lab _))
          intro i hi
          simp only [Option.mem_toList, Option.map_eq_some_iff] at hi
          obtain ⟨a, ha, rfl⟩ := hi
          exact inner_cond (ha1 a ha) (.inl rfl) (.inr (by simp [O']))
        · intro l hl
          simp only [O', List.mem_cons] at hl
          rcases hl with rfl | rfl | rfl | hl
          · exact .inr ⟨by omega, by omega⟩
          · exact .inr ⟨by omega, by omega⟩
          · exact .inr ⟨by omega, by omega⟩
          · exact .inl hl
        · intro l
          simp only [List.count_cons, List.count_nil, beq_iff_eq]
          split <;> split <;> split <;> split <;> omega
      simpa [List.append_assoc] using p0.append q
    · rw [show ∀ xs : List Inst, ∀ i : Inst, ∀ l : Nat, xs ++ [i, label l] = (xs ++ [i]) ++ [label l] by simp]
      exact .lab
  | .switch e cs, x, name, C, C', is, O, w, hO, h => by
    simp only [compileS, Option.bind_eq_bind, Option.bind_eq_some_iff] at h
    obtain ⟨⟨C1, is1, a1⟩, h1, h⟩ := h
    have w0 : Wf C.bumpT := (Ext.bumpT _).wf w
    obtain ⟨p1, ha1, t1⟩ := partC O w0 h1
    have hd : C.temp < C1.temp := p1.ext.temp
    dsimp only at h
    split at h
    · simp only [Option.some.injEq, Prod.mk.injEq] at h
      obtain ⟨rfl, rfl⟩ := h
      exact ⟨(Part.bumpT p1).append (.inst (inner_assign hd ha1)), t1.app (.of rfl)⟩
    · simp only [Option.bind_eq_some_iff, Option.some.injEq, Prod.mk.injEq] at h
      obtain ⟨⟨C2, is2⟩, h2, ⟨C3, is3⟩, h3, rfl, rfl⟩ := h
      refine ⟨?_, .lab⟩
      let O' := List.range' C1.label (cs.length + 1) ++ O
      have w1 := p1.ext.wf w0
      have w2 : Wf { C1 with label := C1.label + 1 + cs.length } := (Ext.labels C1 _ (by omega)).wf w1
      generalize hother : (cs.defaultAt.map (C1.label + 1 + ·)).getD C1.label = other at *
      have ho : other ∈ O' := by
        simp only [O', List.mem_append, List.mem_range'_1]
        cases hk : cs.defaultAt with
        | some k =>
          have := defaultAt_lt cs hk
          simp only [hk, Option.map_some, Option.getD_some] at hother
          exact .inl ⟨by omega, by omega⟩
        | none =>
          simp only [hk, Option.map_none, Option.getD_none] at hother
          exact .inl ⟨by omega, by omega⟩
      have p2 := partT cs O' w2 hd ho (fun k h1 h2 => by
        simp only [O', List.mem_append, List.mem_range'_1]
        exact .inl ⟨by omega, by omega⟩) h2
      have p3 := partCs cs O' (p2.ext.wf w2) (fun l hl => by
        simp only [O', List.mem_append, List.mem_range'_1]
        simp only [Ctx.targets, List.cons_append, List.mem_cons] at hl
        rcases hl with rfl | hl
        · exact .inl ⟨by omega, by omega⟩
        · exact .inr (hO l (by simpa [Ctx.targets] using hl))) h3
      have q : Part [] O C1 C3 ([Inst.varAssign C.temp a1] ++ is2 ++ (if cs.hasTest then [] else [goto other]) ++ is3 ++
          [label C1.label]) := by
        refine Part.bumpN (n := cs.length + 1) (O' := O') (E' := List.range' (C1.label + 1) cs.length ++ [C1.label]) ?_ ?_ ?_
        · rw [show C1.label + (cs.length + 1) = C1.label + 1 + cs.length by omega]
          refine Part.append (E := [] ++ [] ++ [] ++ List.range' (C1.label + 1) cs.length) ((((Part.inst
            (A := { C1 with label := C1.label + 1 + cs.length }) (inner_assign hd ha1)).append p2).append (.insts ?_)).append p3) (.lab C1.label)
          intro i hi
          split at hi
          · simp at hi
          · simp only [List.mem_singleton] at hi
            subst hi
            exact inner_goto ho
        · intro l hl
          simp only [O', List.mem_append, List.mem_range'_1] at hl
          rcases hl with hl | hl
          · exact .inr ⟨by omega, by omega⟩
          · exact .inl hl
        · intro l
          rw [List.count_append, List.count_nil, (List.nodup_range' (s := C1.label + 1) (n := cs.length)).count]
          simp only [List.mem_range'_1, List.count_cons, List.count_nil, beq_iff_eq]
          split <;> split <;> split <;> omega
      simpa [List.append_assoc] using (Part.bumpT p1).append q
  | .brk none, x, name, C, C', is, O, w, hO, h => by
    simp only [compileS, Option.bind_eq_bind, Option.bind_eq_some_iff, Option.some.injEq, Prod.mk.injEq] at h
    obtain ⟨l, hl, rfl, rfl⟩ := h
    have : l ∈ O := hO l (by
      have := List.mem_of_mem_head? hl
      simp [Ctx.targets, this])
    exact ⟨.inst (inner_goto this), tail_goto this⟩
  | .brk (some n), x, name, C, C', is, O, w, hO, h => by
    simp only [compileS, Option.bind_eq_bind, Option.bind_eq_some_iff, Option.some.injEq, Prod.mk.injEq] at h
    obtain ⟨e, he, rfl, rfl⟩ := h
    have : e.1 ∈ O := hO _ (lookup_targets he).1
    exact ⟨.inst (inner_goto this), tail_goto this⟩
  | .cont none, x, name, C, C', is, O, w, hO, h => by
    simp only [compileS, Option.bind_eq_bind, Option.bind_eq_some_iff, Option.some.injEq, Prod.mk.injEq] at h
    obtain ⟨l, hl, rfl, rfl⟩ := h
    have : l ∈ O := hO l (by
      have := List.mem_of_mem_head? hl
      simp [Ctx.targets, this])
    exact ⟨.inst (inner_goto this), tail_goto this⟩
  | .cont (some n), x, name, C, C', is, O, w, hO, h => by
    simp only [compileS, Option.bind_eq_bind, Option.bind_eq_some_iff, Option.some.injEq, Prod.mk.injEq] at h
    obtain ⟨e, he, l, hl, rfl, rfl⟩ := h
    have : l ∈ O := hO _ ((lookup_targets he).2 l hl)
    exact ⟨.inst (inner_goto this), tail_goto this⟩
  | .labeled n b, x, name, C, C', is, O, w, hO, h => by
    simp only [compileS] at h
    split at h
    · exact partS b O w hO h
    · simp only [Option.bind_eq_bind, Option.bind_eq_some_iff, Option.some.injEq, Prod.mk.injEq] at h
      obtain ⟨⟨C1, is1⟩, h1, rfl, rfl⟩ := h
      obtain ⟨p1, -⟩ := partS b (C.label :: O) ((Ext.bumpL _).wf w) (fun l hl => by
        have : l = C.label ∨ l ∈ x.targets := by
          simp only [Ctx.targets, List.mem_append, List.map_cons, List.mem_cons, List.filterMap_cons] at hl ⊢
          grind
        rcases this with rfl | h
        · simp
        · simp [hO l h]) h1
      exact ⟨Part.bumpL (E := []) (p1.append (.lab C.label)) (by simp), .lab⟩
  | .ret e, x, name, C, C', is, O, w, hO, h => by
    simp only [compileS, Option.bind_eq_bind, Option.bind_eq_some_iff, Option.some.injEq, Prod.mk.injEq] at h
    obtain ⟨⟨C1, is1, a1⟩, h1, l, hl, rfl, rfl⟩ := h
    obtain ⟨p1, -, t⟩ := partO O w h1
    have : l ∈ O := hO l (by simp [Ctx.targets, hl])
    exact ⟨p1.append (.inst (inner_goto this)), t.app (tail_goto this)⟩
  | .throw e, x, name, C, C', is, O, w, hO, h => by
    simp only [compileS, Option.bind_eq_bind, Option.bind_eq_some_iff, Option.some.injEq, Prod.mk.injEq] at h
    obtain ⟨⟨C1, is1, a1⟩, h1, l, hl, rfl, rfl⟩ := h
    obtain ⟨p1, -, t⟩ := partC O w h1
    have : l ∈ O := hO l (by simp [Ctx.targets, hl])
    exact ⟨p1.append (.inst (inner_goto this)), t.app (tail_goto this)⟩

theorem partSs : ∀ (ss : Stmts) {x : Ctx} {C C' : S} {is : List Inst} (O : List Nat), Wf C →
    (∀ l ∈ x.targets, l ∈ O) → compileSs x ss C = some (C', is) → Part [] O C C' is ∧ TailOk O is
  | .nil, x, C, C', is, O, w, hO, h => by
    simp only [compileSs, Option.some.injEq, Prod.mk.injEq] at h
    obtain ⟨rfl, rfl⟩ := h
    exact ⟨.nil, .nil⟩
  | .cons s ss, x, C, C', is, O, w, hO, h => by
    simp only [compileSs, Option.bind_eq_bind, Option.bind_eq_some_iff, Option.some.injEq, Prod.mk.injEq] at h
    obtain ⟨⟨C1, is1⟩, h1, ⟨C2, is2⟩, h2, rfl, rfl⟩ := h
    obtain ⟨p1, t1⟩ := partS s O w hO h1
    obtain ⟨p2, t2⟩ := partSs ss O (p1.ext.wf w) hO h2
    exact ⟨p1.append p2, t1.app t2⟩

theorem partCs : ∀ (cs : Cases) {x : Ctx} {l : Nat} {C C' : S} {is : List Inst} (O : List Nat), Wf C →
    (∀ l ∈ x.targets, l ∈ O) → compileCases x cs l C = some (C', is) → Part (List.range' l cs.length) O C C' is
  | .nil, x, l, C, C', is, O, w, hO, h => by
    simp only [compileCases, Option.some.injEq, Prod.mk.injEq] at h
    obtain ⟨rfl, rfl⟩ := h
    exact .nil
  | .cons e b cs, x, l, C, C', is, O, w, hO, h => by
    simp only [compileCases, Option.bind_eq_bind, Option.bind_eq_some_iff, Option.some.injEq, Prod.mk.injEq] at h
    obtain ⟨⟨C1, is1⟩, h1, ⟨C2, is2⟩, h2, rfl, rfl⟩ := h
    obtain ⟨p1, -⟩ := partSs b O w hO h1
    have p2 := partCs cs O (p1.ext.wf w) hO h2
    exact ((Part.lab l).append p1).append p2
end

end Verif.Lower
