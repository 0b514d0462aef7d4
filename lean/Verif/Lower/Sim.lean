import Verif.Lower.StaticS
import Verif.Lin.Run
/-!
# Running translated code
-/

namespace Verif.Lower

open Verif.Il Verif.Lin Verif.Opt

section
variable {V W : Type} {I : Interp V W} {code : List Inst}

/-- The instructions are in the code, from `pc` on. -/
def At (code : List Inst) (pc : Nat) (seg : List Inst) : Prop := ∀ k, k < seg.length → code[pc + k]? = seg[k]?

theorem at_append {pc : Nat} {a b : List Inst} : At code pc (a ++ b) ↔ At code pc a ∧ At code (pc + a.length) b := by
  constructor
  · intro h
    refine ⟨fun k hk => ?_, fun k hk => ?_⟩
    · rw [h k (by simp; omega), List.getElem?_append_left hk]
    · rw [Nat.add_assoc, h (a.length + k) (by simp; omega), List.getElem?_append_right (by omega)]
      congr 1
      omega
  · rintro ⟨h1, h2⟩ k hk
    by_cases hka : k < a.length
    · rw [h1 k hka, List.getElem?_append_left hka]
    · have := h2 (k - a.length) (by simp at hk; omega)
      rw [show pc + a.length + (k - a.length) = pc + k by omega] at this
      rw [this, List.getElem?_append_right (by omega)]

theorem at_cons {pc : Nat} {i : Inst} {b : List Inst} : At code pc (i :: b) ↔ code[pc]? = some i ∧ At code (pc + 1) b := by
  rw [show i :: b = [i] ++ b from rfl, at_append]
  constructor
  · rintro ⟨h1, h2⟩
    exact ⟨by simpa using h1 0 (by simp), h2⟩
  · rintro ⟨h1, h2⟩
    refine ⟨fun k hk => ?_, h2⟩
    simp only [List.length_cons, List.length_nil] at hk
    have : k = 0 := by omega
    subst this
    simpa using h1

theorem at_nil {pc : Nat} : At code pc [] ↔ True := by
  simp [At]

/-- Labels are where they are looked for. -/
def Placed (code : List Inst) : Prop :=
  ∀ (p l : Nat), code[p]? = some (label l) → placeOf code l = some p ∧ l ≠ fallThrough

/-- The label is at `p`. -/
def Is (code : List Inst) (l p : Nat) : Prop := placeOf code l = some p ∧ l ≠ fallThrough

/-- A run. -/
def To (I : Interp V W) (code : List Inst) (x y : State V W) : Prop := ∃ n, steps I code x n = y

theorem To.refl {x : State V W} : To I code x x := ⟨0, rfl⟩

theorem To.trans {x y z : State V W} (h : To I code x y) (k : To I code y z) : To I code x z := by
  obtain ⟨n, rfl⟩ := h
  obtain ⟨m, rfl⟩ := k
  exact ⟨n + m, steps_add _ _ _⟩

theorem To.cast {x : State V W} {p q : Nat} {e e' : Nat → V} {w w' : W} (h : To I code x ⟨p, e, w⟩) (hp : p = q)
    (he : e = e') (hw : w = w') : To I code x ⟨q, e', w'⟩ := by
  subst hp he hw
  exact h

theorem To.one {x y : State V W} (h : step I code x = y) : To I code x y := ⟨1, h⟩

/-- One variable changed. -/
def set (e : Nat → V) (t : Nat) (v : V) : Nat → V := fun x => if x = t then v else e x

theorem setAll_one (e : Nat → V) (t : Nat) (v : V) : setAll e [t] v = set e t v := by
  funext x
  simp [setAll, set]

theorem setAll_nil (e : Nat → V) (v : V) : setAll e [] v = e := by
  funext x
  simp [setAll]

theorem set_self {e : Nat → V} {t : Nat} {v : V} : set e t v t = v := by simp [set]

theorem set_ne {e : Nat → V} {t x : Nat} {v : V} (h : x ≠ t) : set e t v x = e x := by simp [set, h]

/-- Storing the value of an argument does not change its value. -/
theorem set_same {e : Nat → V} {t : Nat} {a : Arg} : valOf I (set e t (valOf I e a)) a = valOf I e a := by
  cases a with
  | var x => simp only [valOf, set]; split <;> simp_all
  | _ => rfl

variable {pc : Nat} {e : Nat → V} {w : W}

theorem to_bin {t : Nat} {a b : Arg} {op : BinOp} (h : code[pc]? = some (Inst.bin t a op b)) :
    To I code ⟨pc, e, w⟩ ⟨pc + 1, set e t (I.op (.bin op) [valOf I e a, valOf I e b] w).1,
      (I.op (.bin op) [valOf I e a, valOf I e b] w).2⟩ := by
  refine .one ?_
  rw [step_plain h (by simp [Inst.bin]) (by simp [Inst.bin])]
  simp [exec, opcode, setAll_one, Inst.bin]

theorem to_un {t : Nat} {a : Arg} {op : UnOp} (h : code[pc]? = some (Inst.un t op a)) :
    To I code ⟨pc, e, w⟩ ⟨pc + 1, set e t (I.op (.un op) [valOf I e a] w).1, (I.op (.un op) [valOf I e a] w).2⟩ := by
  refine .one ?_
  rw [step_plain h (by simp [Inst.un]) (by simp [Inst.un])]
  simp [exec, opcode, setAll_one, Inst.un]

theorem to_assign {t : Nat} {a : Arg} (h : code[pc]? = some (Inst.varAssign t a)) :
    To I code ⟨pc, e, w⟩ ⟨pc + 1, set e t (valOf I e a), w⟩ := by
  refine .one ?_
  rw [step_plain h (by simp [Inst.varAssign]) (by simp [Inst.varAssign])]
  simp [exec, setAll_one, Inst.varAssign]

theorem to_prop {a b c : Arg} (h : code[pc]? = some (Inst.propAssign a b c)) :
    To I code ⟨pc, e, w⟩ ⟨pc + 1, e, (I.op .propAssign [valOf I e a, valOf I e b, valOf I e c] w).2⟩ := by
  refine .one ?_
  rw [step_plain h (by simp [Inst.propAssign]) (by simp [Inst.propAssign])]
  simp [exec, opcode, setAll_nil, Inst.propAssign]

theorem to_call {t : Nat} {f th : Arg} {as : List Arg} {sp : List Nat}
    (h : code[pc]? = some (Inst.call (some t) f th as sp)) :
    To I code ⟨pc, e, w⟩ ⟨pc + 1, set e t (I.op (.call sp) (valOf I e f :: valOf I e th :: as.map (valOf I e)) w).1,
      (I.op (.call sp) (valOf I e f :: valOf I e th :: as.map (valOf I e)) w).2⟩ := by
  refine .one ?_
  rw [step_plain h (by simp [Inst.call]) (by simp [Inst.call])]
  simp [exec, opcode, setAll_one, Inst.call]

theorem to_fload {t s : Nat} (h : code[pc]? = some (foreignLoad t s)) :
    To I code ⟨pc, e, w⟩ ⟨pc + 1, set e t (I.op (.foreignLoad s) [] w).1, (I.op (.foreignLoad s) [] w).2⟩ := by
  refine .one ?_
  rw [step_plain h (by simp [foreignLoad]) (by simp [foreignLoad])]
  simp [exec, opcode, setAll_one, foreignLoad]

theorem to_uload {t : Nat} {n : List Nat} (h : code[pc]? = some (unknownLoad t n)) :
    To I code ⟨pc, e, w⟩ ⟨pc + 1, set e t (I.op (.unknownLoad n) [] w).1, (I.op (.unknownLoad n) [] w).2⟩ := by
  refine .one ?_
  rw [step_plain h (by simp [unknownLoad]) (by simp [unknownLoad])]
  simp [exec, opcode, setAll_one, unknownLoad]

theorem to_fstore {s : Nat} {a : Arg} (h : code[pc]? = some (foreignStore s a)) :
    To I code ⟨pc, e, w⟩ ⟨pc + 1, e, (I.op (.foreignStore s) [valOf I e a] w).2⟩ := by
  refine .one ?_
  rw [step_plain h (by simp [foreignStore]) (by simp [foreignStore])]
  simp [exec, opcode, setAll_nil, foreignStore]

theorem to_ustore {n : List Nat} {a : Arg} (h : code[pc]? = some (unknownStore n a)) :
    To I code ⟨pc, e, w⟩ ⟨pc + 1, e, (I.op (.unknownStore n) [valOf I e a] w).2⟩ := by
  refine .one ?_
  rw [step_plain h (by simp [unknownStore]) (by simp [unknownStore])]
  simp [exec, opcode, setAll_nil, unknownStore]

theorem to_label {l : Nat} (h : code[pc]? = some (label l)) : To I code ⟨pc, e, w⟩ ⟨pc + 1, e, w⟩ :=
  .one (step_label h rfl)

theorem to_goto {l p : Nat} (h : code[pc]? = some (goto l)) (hl : Is code l p) :
    To I code ⟨pc, e, w⟩ ⟨p, e, w⟩ := by
  refine .one ?_
  rw [step_goto h rfl rfl]
  simp [goTo, hl.1, hl.2]

/-- A branch with places for its labels. -/
theorem to_cond {c : Arg} {t f p : Nat} (h : code[pc]? = some (Inst.condGoto c t f))
    (hp : goTo code pc (if I.truthy (valOf I e c) then t else f) = p) : To I code ⟨pc, e, w⟩ ⟨p, e, w⟩ := by
  refine .one ?_
  rw [step_branch h rfl rfl rfl, hp]

theorem goTo_dummy {pc : Nat} : goTo code pc dummyLabel = pc + 1 := by
  simp [goTo, dummyLabel, fallThrough]

theorem goTo_is {pc l p : Nat} (h : Is code l p) : goTo code pc l = p := by
  simp [goTo, h.1, h.2]

/-! ## Variables -/

/-- The map from symbols to variables at the end agrees with the one at this point. -/
def Good (μ : Nat → Option Nat) (C : S) : Prop :=
  (∀ s t, C.syms.lookup s = some t → μ s = some t) ∧
  ∀ s t, μ s = some t → C.syms.lookup s = some t ∨ C.temp ≤ t

theorem Good.back {μ : Nat → Option Nat} {C C' : S} (g : Good μ C') (h : Ext C C') : Good μ C := by
  refine ⟨fun s t e => g.1 s t (h.old s t e), fun s t e => ?_⟩
  rcases g.2 s t e with e | e
  · exact (h.new s t e).imp_right (·.1)
  · have := h.temp
    exact .inr (by omega)

/-- Not the variable of a symbol. -/
def Fresh (μ : Nat → Option Nat) (t : Nat) : Prop := ∀ s, μ s ≠ some t

theorem Good.fresh {μ : Nat → Option Nat} {C : S} (g : Good μ C.bumpT) (w : Wf C) : Fresh μ C.temp := by
  intro s e
  rcases g.2 s _ e with e | e
  · have := w s _ e
    omega
  · have : C.temp + 1 ≤ C.temp := e
    omega

def Inj (μ : Nat → Option Nat) : Prop := ∀ s s' t, μ s = some t → μ s' = some t → s = s'

def Agree (μ : Nat → Option Nat) (vars : Nat → V) (env : Nat → V) : Prop := ∀ s t, μ s = some t → env t = vars s

theorem Agree.set {μ : Nat → Option Nat} {vars env : Nat → V} {t : Nat} {v : V} (h : Agree μ vars env) (f : Fresh μ t) :
    Agree μ vars (set env t v) := by
  intro s u e
  rw [set_ne (show u ≠ t from fun h => f s (h ▸ e))]
  exact h s u e

theorem Agree.write {μ : Nat → Option Nat} {vars env : Nat → V} {x t : Nat} {v : V} (h : Agree μ vars env) (inj : Inj μ)
    (e : μ x = some t) : Agree μ (fun y => if y = x then v else vars y) (Lower.set env t v) := by
  intro s u eu
  by_cases hs : s = x
  · subst hs
    rw [e] at eu
    cases eu
    simp [Lower.set]
  · have : u ≠ t := fun h => hs (inj s x t (h ▸ eu) e)
    rw [set_ne this]
    simpa [hs] using h s u eu

/-- Temporaries below `T` keep their values. -/
def Keep (μ : Nat → Option Nat) (T : Nat) (env env' : Nat → V) : Prop := ∀ t, t < T → Fresh μ t → env' t = env t

theorem Keep.refl {μ : Nat → Option Nat} {T : Nat} {env : Nat → V} : Keep μ T env env := fun _ _ _ => rfl

theorem Keep.trans {μ : Nat → Option Nat} {T T' : Nat} {a b c : Nat → V} (h : Keep μ T a b) (k : Keep μ T' b c)
    (hT : T ≤ T') : Keep μ T a c := fun t ht hf => (k t (by omega) hf).trans (h t ht hf)

theorem Keep.set {μ : Nat → Option Nat} {T t : Nat} {env env' : Nat → V} {v : V} (h : Keep μ T env env') (ht : T ≤ t) :
    Keep μ T env (set env' t v) := fun u hu hf => by
  rw [set_ne (by omega)]
  exact h u hu hf

theorem Keep.write {μ : Nat → Option Nat} {T t x : Nat} {env env' : Nat → V} {v : V} (h : Keep μ T env env')
    (e : μ x = some t) : Keep μ T env (Lower.set env' t v) := fun u hu hf => by
  rw [set_ne (show u ≠ t from fun h => hf x (h ▸ e))]
  exact h u hu hf

/-- An argument that stays the same as long as temporaries below `T` and the variable `late` do. -/
def ArgOk (μ : Nat → Option Nat) (T : Nat) (late : Option Nat) (a : Arg) : Prop :=
  ∀ t, a = .var t → t < T ∧ ∀ x, μ x = some t → late = some x

theorem ArgOk.keep {μ : Nat → Option Nat} {T T' : Nat} {late : Option Nat} {a : Arg} {env env' vars vars' : Nat → V}
    (h : ArgOk μ T late a) (k : Keep μ T' env env') (hT : T ≤ T') (g : Agree μ vars env) (g' : Agree μ vars' env')
    (hl : ∀ x, late = some x → vars' x = vars x) : valOf I env' a = valOf I env a := by
  cases a with
  | var t =>
    obtain ⟨h1, h2⟩ := h t rfl
    simp only [valOf]
    by_cases hx : ∃ x, μ x = some t
    · obtain ⟨x, hx⟩ := hx
      rw [g x t hx, g' x t hx, hl x (h2 x hx)]
    · exact k t (by omega) (fun s hs => hx ⟨s, hs⟩)
  | _ => rfl

theorem ArgOk.mono {μ : Nat → Option Nat} {T T' : Nat} {late : Option Nat} {a : Arg} (h : ArgOk μ T late a) (hT : T ≤ T') :
    ArgOk μ T' late a := fun t e => ⟨Nat.lt_of_lt_of_le (h t e).1 hT, (h t e).2⟩

theorem ArgOk.fresh {μ : Nat → Option Nat} {T t : Nat} {late : Option Nat} (h : t < T) (f : Fresh μ t) :
    ArgOk μ T late (.var t) := fun _ e => by
  cases e
  exact ⟨h, fun x hx => absurd hx (f x)⟩

theorem ArgOk.undef {μ : Nat → Option Nat} {T : Nat} {late : Option Nat} : ArgOk μ T late undef := fun _ e => by
  cases e

end

/-! ## Which variables an expression leaves alone -/

section
variable {V W : Type} {I : Interp V W} {num : V → W → V × W}

theorem vars_doOp {o : Opcode} {vs : List V} {s : St V W} : (doOp I o vs s).2.vars = s.vars := rfl

theorem vars_nullish {v : V} {s : St V W} : (nullish I v s).2.vars = s.vars := rfl

theorem vars_opt {opt : Bool} {v : V} {s : St V W} :
    (if opt = true then nullish I v s else (false, s)).2.vars = s.vars := by
  cases opt <;> rfl

theorem vars_goesOn {op : LogOp} {v : V} {s : St V W} : (goesOn I op v s).2.vars = s.vars := by
  cases op <;> rfl

theorem vars_read {x : VarType} {s : St V W} : (readVar I x s).2.vars = s.vars := by
  cases x <;> rfl

theorem vars_value {r : Option (V × V) × St V W} : (value I r).2 = r.2 := by
  obtain ⟨r, s⟩ := r
  cases r <;> rfl

theorem vars_plain {r : V × St V W} : (plain I r).2 = r.2 := rfl

theorem vars_write {x : VarType} {v : V} {s : St V W} {y : Nat} (h : x ≠ .local y) :
    (writeVar I x v s).vars y = s.vars y := by
  cases x with
  | «local» z =>
    simp only [writeVar]
    rw [if_neg]
    rintro rfl
    exact h rfl
  | _ => rfl

mutual
theorem vars_ref (x : Nat) : ∀ (e : Expr) (s : St V W), e.assigns x = false → (ref I num e s).2.vars x = s.vars x
  | .lit _, s, _ => rfl
  | .builtin _, s, _ => rfl
  | .fn _, s, _ => rfl
  | .ident y, s, _ => by simp only [ref, vars_plain, vars_read]
  | .unary op e, s, h => by
    simp only [Expr.assigns] at h
    simp only [ref, vars_plain, vars_doOp]
    split
    · rfl
    · rw [vars_value]
      exact vars_ref x e s h
  | .arith op l r, s, h => by
    simp only [Expr.assigns, Bool.or_eq_false_iff] at h
    simp only [ref, vars_plain, vars_doOp, vars_value]
    rw [vars_ref x r _ h.2, vars_ref x l _ h.1]
  | .cmp op l r, s, h => by
    simp only [Expr.assigns, Bool.or_eq_false_iff] at h
    simp only [ref, vars_plain, vars_doOp, vars_value]
    rw [vars_ref x r _ h.2, vars_ref x l _ h.1]
  | .log op l r, s, h => by
    simp only [Expr.assigns, Bool.or_eq_false_iff] at h
    simp only [ref]
    split
    · simp only [vars_plain, vars_value]
      rw [vars_ref x r _ h.2, vars_goesOn, vars_ref x l _ h.1]
    · simp only [vars_plain, vars_goesOn, vars_value]
      rw [vars_ref x l _ h.1]
  | .comma l r, s, h => by
    simp only [Expr.assigns, Bool.or_eq_false_iff] at h
    simp only [ref, vars_plain, vars_value]
    rw [vars_ref x r _ h.2, vars_ref x l _ h.1]
  | .cond c t f, s, h => by
    simp only [Expr.assigns, Bool.or_eq_false_iff] at h
    simp only [ref]
    split <;> simp only [vars_plain, vars_value]
    · rw [vars_ref x t _ h.1.2, vars_ref x c _ h.1.1]
    · rw [vars_ref x f _ h.2, vars_ref x c _ h.1.1]
  | .update inc pre (.ident y), s, h => by
    simp only [Expr.assigns, Bool.false_or] at h
    simp only [ref, vars_plain]
    rw [vars_write]
    · simp only [vars_doOp, vars_read]
    · rintro rfl
      simp at h
  | .update inc pre (.member o k _), s, h => by
    simp only [Expr.assigns, Bool.or_eq_false_iff] at h
    simp only [ref, vars_plain, vars_doOp, vars_value]
    rw [vars_ref x k _ h.1.2, vars_ref x o _ h.1.1]
  | .update inc pre (.lit _), s, h => by simp only [ref, vars_plain, vars_value]
  | .update inc pre (.builtin _), s, h => by simp only [ref, vars_plain, vars_value]
  | .update inc pre (.fn _), s, h => by simp only [ref, vars_plain, vars_value]
  | .update inc pre (.unary op e), s, h => by
    simp only [Expr.assigns, Bool.or_eq_false_iff] at h
    rw [show ref I num (.update inc pre (.unary op e)) s = plain I (value I (ref I num (.unary op e) s)) from rfl]
    simp only [vars_plain, vars_value]
    exact vars_ref x (.unary op e) s h.1
  | .update inc pre (.arith a b c), s, h => by
    simp only [Expr.assigns, Bool.or_false] at h
    rw [show ref I num (.update inc pre (.arith a b c)) s = plain I (value I (ref I num (.arith a b c) s)) from rfl]
    simp only [vars_plain, vars_value]
    exact vars_ref x (.arith a b c) s h
  | .update inc pre (.cmp a b c), s, h => by
    simp only [Expr.assigns, Bool.or_false] at h
    rw [show ref I num (.update inc pre (.cmp a b c)) s = plain I (value I (ref I num (.cmp a b c) s)) from rfl]
    simp only [vars_plain, vars_value]
    exact vars_ref x (.cmp a b c) s h
  | .update inc pre (.log a b c), s, h => by
    simp only [Expr.assigns, Bool.or_false] at h
    rw [show ref I num (.update inc pre (.log a b c)) s = plain I (value I (ref I num (.log a b c) s)) from rfl]
    simp only [vars_plain, vars_value]
    exact vars_ref x (.log a b c) s h
  | .update inc pre (.comma b c), s, h => by
    simp only [Expr.assigns, Bool.or_false] at h
    rw [show ref I num (.update inc pre (.comma b c)) s = plain I (value I (ref I num (.comma b c) s)) from rfl]
    simp only [vars_plain, vars_value]
    exact vars_ref x (.comma b c) s h
  | .update inc pre (.cond a b c), s, h => by
    simp only [Expr.assigns, Bool.or_false] at h
    rw [show ref I num (.update inc pre (.cond a b c)) s = plain I (value I (ref I num (.cond a b c) s)) from rfl]
    simp only [vars_plain, vars_value]
    exact vars_ref x (.cond a b c) s h
  | .update inc pre (.update a b c), s, h => by
    have h' : (Expr.update a b c).assigns x = false := by
      rw [Expr.assigns] at h
      · simpa using h
      · simp
    rw [show ref I num (.update inc pre (.update a b c)) s = plain I (value I (ref I num (.update a b c) s)) from rfl]
    simp only [vars_plain, vars_value]
    exact vars_ref x (.update a b c) s h'
  | .update inc pre (.assign a b c), s, h => by
    have h' : (Expr.assign a b c).assigns x = false := by
      rw [Expr.assigns] at h
      · simpa using h
      · simp
    rw [show ref I num (.update inc pre (.assign a b c)) s = plain I (value I (ref I num (.assign a b c) s)) from rfl]
    simp only [vars_plain, vars_value]
    exact vars_ref x (.assign a b c) s h'
  | .update inc pre (.assignMember a b c d), s, h => by
    have h' : (Expr.assignMember a b c d).assigns x = false := by
      rw [Expr.assigns] at h
      · simpa using h
      · simp
    rw [show ref I num (.update inc pre (.assignMember a b c d)) s =
      plain I (value I (ref I num (.assignMember a b c d) s)) from rfl]
    simp only [vars_plain, vars_value]
    exact vars_ref x (.assignMember a b c d) s h'
  | .update inc pre (.call a b c), s, h => by
    have h' : (Expr.call a b c).assigns x = false := by
      rw [Expr.assigns] at h
      · simpa using h
      · simp
    rw [show ref I num (.update inc pre (.call a b c)) s = plain I (value I (ref I num (.call a b c) s)) from rfl]
    simp only [vars_plain, vars_value]
    exact vars_ref x (.call a b c) s h'
  | .update inc pre (.new b c), s, h => by
    have h' : (Expr.new b c).assigns x = false := by
      rw [Expr.assigns] at h
      · simpa using h
      · simp
    rw [show ref I num (.update inc pre (.new b c)) s = plain I (value I (ref I num (.new b c) s)) from rfl]
    simp only [vars_plain, vars_value]
    exact vars_ref x (.new b c) s h'
  | .update inc pre (.internal b c), s, h => by
    have h' : (Expr.internal b c).assigns x = false := by
      rw [Expr.assigns] at h
      · simpa using h
      · simp
    rw [show ref I num (.update inc pre (.internal b c)) s = plain I (value I (ref I num (.internal b c) s)) from rfl]
    simp only [vars_plain, vars_value]
    exact vars_ref x (.internal b c) s h'
  | .assign op y e, s, h => by
    simp only [Expr.assigns, Bool.or_eq_false_iff, beq_eq_false_iff_ne] at h
    cases op with
    | plain =>
      simp only [ref, vars_plain]
      rw [vars_write h.2, vars_value, vars_ref x e _ h.1]
    | arith op =>
      simp only [ref, vars_plain]
      rw [vars_write h.2, vars_doOp, vars_value, vars_ref x e _ h.1, vars_read]
    | log op =>
      simp only [ref]
      split
      · simp only [vars_plain]
        rw [vars_write h.2, vars_value, vars_ref x e _ h.1, vars_goesOn, vars_read]
      · simp only [vars_plain, vars_goesOn, vars_read]
  | .assignMember op o k e, s, h => by
    simp only [Expr.assigns, Bool.or_eq_false_iff] at h
    cases op with
    | plain =>
      simp only [ref, vars_plain, vars_doOp, vars_value]
      rw [vars_ref x e _ h.2, vars_ref x k _ h.1.2, vars_ref x o _ h.1.1]
    | arith op =>
      simp only [ref, vars_plain, vars_doOp, vars_value]
      rw [vars_ref x e _ h.2, vars_doOp, vars_ref x k _ h.1.2, vars_ref x o _ h.1.1]
    | log op =>
      simp only [ref]
      split
      · simp only [vars_plain, vars_doOp, vars_value]
        rw [vars_ref x e _ h.2, vars_goesOn, vars_doOp, vars_ref x k _ h.1.2, vars_ref x o _ h.1.1]
      · simp only [vars_plain, vars_goesOn, vars_doOp, vars_value]
        rw [vars_ref x k _ h.1.2, vars_ref x o _ h.1.1]
  | .member o k opt, s, h => by
    simp only [Expr.assigns, Bool.or_eq_false_iff] at h
    have ho := vars_ref x o s h.1
    simp only [ref]
    generalize ref I num o s = r at *
    obtain ⟨r, s'⟩ := r
    cases r with
    | none => exact ho
    | some q =>
      dsimp only
      have hn := vars_opt (I := I) (opt := opt) (v := q.2) (s := s')
      generalize (if opt = true then nullish I q.2 s' else (false, s')) = n at *
      split
      · exact hn ▸ ho
      · simp only [vars_doOp, vars_value]
        rw [vars_ref x k _ h.2]
        exact hn ▸ ho
  | .call c as opt, s, h => by
    simp only [Expr.assigns, Bool.or_eq_false_iff] at h
    have ho := vars_ref x c s h.1
    simp only [ref]
    generalize ref I num c s = r at *
    obtain ⟨r, s'⟩ := r
    cases r with
    | none => exact ho
    | some q =>
      dsimp only
      have hn := vars_opt (I := I) (opt := opt) (v := q.2) (s := s')
      generalize (if opt = true then nullish I q.2 s' else (false, s')) = n at *
      split
      · exact hn ▸ ho
      · simp only [vars_doOp, vars_plain]
        rw [vars_args x as _ h.2]
        exact hn ▸ ho
  | .new c as, s, h => by
    simp only [Expr.assigns, Bool.or_eq_false_iff] at h
    simp only [ref, vars_plain, vars_doOp]
    rw [vars_args x as _ h.2, vars_value, vars_ref x c _ h.1]
  | .internal n as, s, h => by
    simp only [Expr.assigns] at h
    simp only [ref, vars_plain, vars_doOp]
    rw [vars_args x as _ h]

theorem vars_args (x : Nat) : ∀ (as : Args) (s : St V W), as.assigns x = false → (argVals I num as s).2.vars x = s.vars x
  | .nil, s, _ => rfl
  | .cons _ e rest, s, h => by
    simp only [Args.assigns, Bool.or_eq_false_iff] at h
    simp only [argVals]
    rw [vars_args x rest _ h.2, vars_value, vars_ref x e _ h.1]
end

theorem spared_vars {late : Option Nat} {e : Expr} (h : spared late e = true) (s : St V W) :
    ∀ x, late = some x → (value I (ref I num e s)).2.vars x = s.vars x := by
  rintro x rfl
  simp only [spared, Bool.not_eq_true'] at h
  rw [vars_value]
  exact vars_ref x e s h

theorem spared_args {late : Option Nat} {as : Args} (h : sparedA late as = true) (s : St V W) :
    ∀ x, late = some x → (argVals I num as s).2.vars x = s.vars x := by
  rintro x rfl
  simp only [sparedA, Bool.not_eq_true'] at h
  exact vars_args x as s h

end

end Verif.Lower
