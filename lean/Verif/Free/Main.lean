import Verif.Free.Spec
import Verif.Expr.Sound
/-!
# Expressions without side effects: proofs
-/

namespace Verif.Free
open Verif.Expr (Expr Args Elems Parts Members BinOp UnOp ArithOp Str Num Val Host M raise)
open Verif.Expr (bind_bind pure_bind' bind_pure')
open Verif.Expr.Ecma (eval value valueOf isValue elements template members Ref)

section
variable {F E R I P C W A B : Type} [DecidableEq R] {H : Host F E R I P C W} {Since : W → W → Prop} {New : W → W → Nat → Prop}

/-! ## Runs -/

/-- From a state with only new objects since `w₀`, among them those in `S`, the step gives something and only makes new
objects. -/
def Runs (Since : W → W → Prop) (New : W → W → Nat → Prop) (w₀ : W) (S : Nat → Prop) (m : M F W A) (Q : A → Prop) : Prop :=
  ∀ w, Since w₀ w → (∀ o, S o → New w₀ w o) → ∃ a w', m w = some (.ok a, w') ∧ Next Since New w₀ w w' ∧ Q a

variable {w₀ : W} {S : Nat → Prop}

omit [DecidableEq R] in
theorem Runs.pure {a : A} {Q : A → Prop} (h : Q a) : Runs Since New w₀ S (Pure.pure a : M F W A) Q :=
  fun w hw _ => ⟨a, w, rfl, ⟨hw, fun _ h => h⟩, h⟩

omit [DecidableEq R] in
theorem Runs.bind {m : M F W A} {f : A → M F W B} {Q : A → Prop} {Q' : B → Prop} (hm : Runs Since New w₀ S m Q)
    (hf : ∀ a, Q a → Runs Since New w₀ S (f a) Q') : Runs Since New w₀ S (m >>= f) Q' := by
  intro w hw hS
  obtain ⟨a, w', e, hn, ha⟩ := hm w hw hS
  obtain ⟨b, w'', e', hn', hb⟩ := hf a ha w' hn.1 fun o ho => hn.2 o (hS o ho)
  refine ⟨b, w'', ?_, ⟨hn'.1, fun o ho => hn'.2 o (hn.2 o ho)⟩, hb⟩
  show M.bind m f w = _
  simp only [M.bind, e, e']

omit [DecidableEq R] in
theorem Runs.imp {m : M F W A} {Q Q' : A → Prop} (hm : Runs Since New w₀ S m Q) (h : ∀ a, Q a → Q' a) :
    Runs Since New w₀ S m Q' := by
  intro w hw hS
  obtain ⟨a, w', e, hn, ha⟩ := hm w hw hS
  exact ⟨a, w', e, hn, h a ha⟩

/-! ## Values -/

/-- No object and no symbol. -/
def Prim (v : Val F) : Prop := (∀ o, v ≠ .obj o) ∧ ∀ s, v ≠ .sym s

def Big (v : Val F) : Prop := ∃ i, v = .big i

def IsStr (v : Val F) : Prop := ∃ s, v = .str s

omit [DecidableEq R] in
theorem toPrimitive_prim {v : Val F} (h : Prim v) (p : Expr.Ecma.Prefer) : Expr.Ecma.toPrimitive H v p = (Pure.pure v : M F W _) := by
  cases v <;> first | rfl | exact absurd rfl (h.1 _)

omit [DecidableEq R] in
theorem numericOf_prim {v : Val F} (h : Prim v) :
    (∃ i, v = .big i ∧ Expr.Ecma.numericOf H v = (Pure.pure (.inr i) : M F W _)) ∨
      (¬ Big v ∧ ∃ a, Expr.Ecma.numericOf H v = (Pure.pure (.inl a) : M F W _) ∧ Expr.Ecma.numberOf H v = (Pure.pure a : M F W _)) := by
  cases v with
  | big i => exact .inl ⟨i, rfl, rfl⟩
  | obj o => exact absurd rfl (h.1 o)
  | sym s => exact absurd rfl (h.2 s)
  | bool b => exact .inr ⟨fun ⟨_, e⟩ => (by cases e), by cases b <;> exact ⟨_, rfl, rfl⟩⟩
  | undef => exact .inr ⟨fun ⟨_, e⟩ => (by cases e), _, rfl, rfl⟩
  | null => exact .inr ⟨fun ⟨_, e⟩ => (by cases e), _, rfl, rfl⟩
  | num a => exact .inr ⟨fun ⟨_, e⟩ => (by cases e), _, rfl, rfl⟩
  | str s => exact .inr ⟨fun ⟨_, e⟩ => (by cases e), _, rfl, rfl⟩

omit [DecidableEq R] in
theorem stringOf_prim {v : Val F} (h : Prim v) : ∃ s, Expr.Ecma.stringOf H v = (Pure.pure s : M F W _) := by
  cases v with
  | obj o => exact absurd rfl (h.1 o)
  | sym s => exact absurd rfl (h.2 s)
  | _ => exact ⟨_, rfl⟩

omit [DecidableEq R] in
theorem toString_prim {v : Val F} (h : Prim v) : ∃ s, Expr.Ecma.toString H v = (Pure.pure s : M F W _) := by
  unfold Expr.Ecma.toString
  rw [toPrimitive_prim h, pure_bind']
  exact stringOf_prim h

omit [DecidableEq R] in
theorem toNumeric_prim {v : Val F} (h : Prim v) :
    (∃ i, v = .big i ∧ Expr.Ecma.toNumeric H v = (Pure.pure (.inr i) : M F W _)) ∨
      (¬ Big v ∧ ∃ a, Expr.Ecma.toNumeric H v = (Pure.pure (.inl a) : M F W _)) := by
  unfold Expr.Ecma.toNumeric
  rw [toPrimitive_prim h, pure_bind']
  rcases numericOf_prim (H := H) h with h | ⟨h, a, e, _⟩
  · exact .inl h
  · exact .inr ⟨h, a, e⟩

/-- What is known about a result: it is a primitive value, and a BigInt or none. -/
structure Result (v : Val F) (big notBig : Prop) : Prop where
  prim : Prim v
  big : big → Big v
  notBig : notBig → ¬ Big v

omit [DecidableEq R] in
theorem result_num (a : F) {b c : Prop} (h : ¬ b) : Result (.num a) b c :=
  ⟨⟨fun _ e => (by cases e), fun _ e => (by cases e)⟩, fun hb => absurd hb h, fun _ ⟨_, e⟩ => (by cases e)⟩

omit [DecidableEq R] in
theorem result_big (i : Int) {b c : Prop} (h : ¬ c) : Result (.big i : Val F) b c :=
  ⟨⟨fun _ e => (by cases e), fun _ e => (by cases e)⟩, fun _ => ⟨i, rfl⟩, fun hc => absurd hc h⟩

omit [DecidableEq R] in
theorem result_bool (a : Bool) {b c : Prop} (h : ¬ b) : Result (.bool a : Val F) b c :=
  ⟨⟨fun _ e => (by cases e), fun _ e => (by cases e)⟩, fun hb => absurd hb h, fun _ ⟨_, e⟩ => (by cases e)⟩

omit [DecidableEq R] in
theorem result_str (s : Str) {b c : Prop} (h : ¬ b) : Result (.str s : Val F) b c :=
  ⟨⟨fun _ e => (by cases e), fun _ e => (by cases e)⟩, fun hb => absurd hb h, fun _ ⟨_, e⟩ => (by cases e)⟩

omit [DecidableEq R] in
theorem arith_prim {op : BinOp} {l r : Val F} (hl : Prim l) (hr : Prim r)
    (h : (Big l ∧ Big r ∧ (op = .div ∨ op = .rem ∨ op = .in_ ∨ op = .instanceof ∨ op = .lt ∨ op = .le ∨ op = .gt ∨ op = .ge ∨ op = .eq ∨ op = .ne ∨ op = .strictEq ∨ op = .strictNe → ∀ j, r = .big j → j ≠ 0)) ∨ (¬ Big l ∧ ¬ Big r)) :
    ∃ v, Expr.Ecma.arith H true op l r = (Pure.pure v : M F W _) ∧ Result v (Big l) (¬ Big l) := by
  unfold Expr.Ecma.arith
  simp only [Expr.Ecma.within, Bool.true_or, if_true, pure_bind']
  rcases toNumeric_prim (H := H) hl with ⟨i, rfl, e1⟩ | ⟨h1, a, e1⟩ <;>
    rcases toNumeric_prim (H := H) hr with ⟨j, rfl, e2⟩ | ⟨h2, b, e2⟩ <;> rw [e1, e2] <;> simp only [pure_bind']
  · rcases h with ⟨_, _, h⟩ | ⟨h, _⟩
    · unfold Expr.Ecma.bigArith
      have hc : ¬ ¬ Big (.big i : Val F) := fun h => h ⟨i, rfl⟩
      cases op <;> first
        | exact ⟨_, rfl, result_big _ hc⟩
        | (simp only [if_neg (h (by simp) j rfl)]; exact ⟨_, rfl, result_big _ hc⟩)
    · exact absurd ⟨i, rfl⟩ h
  · rcases h with ⟨_, h, _⟩ | ⟨h, _⟩
    · exact absurd h h2
    · exact absurd ⟨i, rfl⟩ h
  · rcases h with ⟨h, _, _⟩ | ⟨_, h⟩
    · exact absurd h h1
    · exact absurd ⟨j, rfl⟩ h
  · exact ⟨_, rfl, result_num _ h1⟩

omit [DecidableEq R] in
theorem add_prim {l r : Val F} (hl : Prim l) (hr : Prim r)
    (h : (IsStr l ∨ IsStr r) ∨ (Big l ∧ Big r) ∨ (¬ Big l ∧ ¬ Big r)) :
    ∃ v, Expr.Ecma.add H true l r = (Pure.pure v : M F W _) ∧ Prim v ∧ (IsStr l ∨ IsStr r → IsStr v) ∧
      (Big l ∧ Big r → Big v) ∧ (¬ Big l ∧ ¬ Big r → ¬ Big v) := by
  unfold Expr.Ecma.add
  rw [toPrimitive_prim hl, toPrimitive_prim hr]
  simp only [pure_bind']
  by_cases hs : IsStr l ∨ IsStr r
  · obtain ⟨s, es⟩ := toString_prim (H := H) hl
    obtain ⟨t, et⟩ := toString_prim (H := H) hr
    have key : (match l, r with
        | .str _, _ | _, .str _ => do
          let s ← Expr.Ecma.toString H l
          let t ← Expr.Ecma.toString H r
          Pure.pure (.str (s ++ t))
        | _, _ => Expr.Ecma.arith H true .add l r) = (Pure.pure (.str (s ++ t)) : M F W (Val F)) := by
      rcases hs with ⟨u, rfl⟩ | ⟨u, rfl⟩
      · simp only [es, et, pure_bind']
      · cases l <;> simp only [es, et, pure_bind']
    refine ⟨.str (s ++ t), ?_, ⟨fun _ e => (by cases e), fun _ e => (by cases e)⟩, fun _ => ⟨_, rfl⟩, ?_, fun _ ⟨_, e⟩ => (by cases e)⟩
    · rw [← key]
      rcases hs with ⟨u, rfl⟩ | ⟨u, rfl⟩
      · rfl
      · cases l <;> rfl
    · rintro ⟨⟨i, rfl⟩, ⟨j, rfl⟩⟩
      rcases hs with ⟨_, e⟩ | ⟨_, e⟩ <;> cases e
  · have h' := h.resolve_left hs
    obtain ⟨v, e, hv⟩ := arith_prim (H := H) (op := .add) hl hr (h'.imp_left fun h => ⟨h.1, h.2, by simp⟩)
    refine ⟨v, ?_, hv.prim, fun h => absurd h hs, fun h => hv.big h.1, fun h => hv.notBig h.1⟩
    rw [← e]
    cases l <;> cases r <;> first | rfl | exact absurd (.inl ⟨_, rfl⟩) hs | exact absurd (.inr ⟨_, rfl⟩) hs

omit [DecidableEq R] in
theorem lessPrim_prim {l r : Val F} (hl : Prim l) (hr : Prim r) :
    ∃ b, Expr.Ecma.lessPrim H l r = (Pure.pure b : M F W _) := by
  have key : ∃ b, (do
      match ← Expr.Ecma.numericOf H l, ← Expr.Ecma.numericOf H r with
      | .inl a, .inl b => Pure.pure ((H.num.cmp a b).map (· == .lt))
      | .inr i, .inr j => Pure.pure (some (decide (i < j)))
      | .inr i, .inl b => Pure.pure ((H.num.cmpBig i b).map (· == .lt))
      | .inl a, .inr j => Pure.pure ((H.num.cmpBig j a).map (· == .gt)) : M F W (Option Bool)) = Pure.pure b := by
    rcases numericOf_prim (H := H) hl with ⟨i, rfl, e1⟩ | ⟨h1, a, e1, _⟩ <;>
      rcases numericOf_prim (H := H) hr with ⟨j, rfl, e2⟩ | ⟨h2, b, e2, _⟩ <;> rw [e1, e2] <;> simp only [pure_bind'] <;>
      exact ⟨_, rfl⟩
  revert key
  cases l <;> cases r <;> first | (intro _; exact ⟨_, rfl⟩) | exact fun h => h

omit [DecidableEq R] in
theorem compare_prim {op : BinOp} {l r : Val F} (hl : Prim l) (hr : Prim r) :
    ∃ b, Expr.Ecma.compare H true op l r = (Pure.pure (.bool b) : M F W _) := by
  unfold Expr.Ecma.compare Expr.Ecma.comparands
  simp only [Expr.Ecma.within, Bool.true_or, if_true, pure_bind', toPrimitive_prim hl, toPrimitive_prim hr]
  obtain ⟨b, e⟩ := lessPrim_prim (H := H) hl hr
  obtain ⟨b', e'⟩ := lessPrim_prim (H := H) hr hl
  cases op <;> simp only [e, e', pure_bind'] <;> exact ⟨_, rfl⟩

omit [DecidableEq R] in
theorem loose_prim {l r : Val F} (hl : Prim l) (hr : Prim r) :
    ∃ b, Expr.Ecma.looselyEqual H true l r = (Pure.pure b : M F W _) := by
  unfold Expr.Ecma.looselyEqual
  simp only [Expr.Ecma.within, Bool.true_or, if_true, pure_bind']
  have h1 := hl.1
  have h2 := hr.1
  cases l with
  | obj o => exact absurd rfl (h1 o)
  | bool a => cases r with
    | obj o => exact absurd rfl (h2 o)
    | bool b => exact ⟨_, rfl⟩
    | _ => cases a <;> exact ⟨_, rfl⟩
  | _ => cases r with
    | obj o => exact absurd rfl (h2 o)
    | bool b => cases b <;> exact ⟨_, rfl⟩
    | _ => exact ⟨_, rfl⟩

omit [DecidableEq R] in
theorem arithOp_prim (hB : Unbounded H.num) {op : ArithOp} {l r : Val F} (hl : Prim l) (hr : Prim r)
    (h : (Big l ∧ Big r ∧ op ≠ .ushr ∧ (op = .pow ∨ op = .shl ∨ op = .shr → ∀ j, r = .big j → 0 ≤ j)) ∨ (¬ Big l ∧ ¬ Big r)) :
    ∃ v, Expr.Ecma.arithOp H op l r = (Pure.pure v : M F W _) ∧ Result v (Big l) (¬ Big l) := by
  unfold Expr.Ecma.arithOp
  rcases toNumeric_prim (H := H) hl with ⟨i, rfl, e1⟩ | ⟨h1, a, e1⟩ <;>
    rcases toNumeric_prim (H := H) hr with ⟨j, rfl, e2⟩ | ⟨h2, b, e2⟩ <;> rw [e1, e2] <;> simp only [pure_bind']
  · rcases h with ⟨_, _, ho, h⟩ | ⟨h, _⟩
    · obtain ⟨k, e⟩ := hB op i j ho fun h' => h h' j rfl
      rw [if_neg ho, e]
      exact ⟨_, rfl, result_big _ fun h => h ⟨i, rfl⟩⟩
    · exact absurd ⟨i, rfl⟩ h
  · rcases h with ⟨_, h, _⟩ | ⟨h, _⟩
    · exact absurd h h2
    · exact absurd ⟨i, rfl⟩ h
  · rcases h with ⟨h, _, _⟩ | ⟨_, h⟩
    · exact absurd h h1
    · exact absurd ⟨j, rfl⟩ h
  · exact ⟨_, rfl, result_num _ h1⟩

/-! ## Expressions -/

/-- The sign of an integer. -/
def HasSign (i : Int) : Sign → Prop
  | .negative => i < 0
  | .zero => i = 0
  | .positive => 0 < i

/-- What the analysis says about a value. -/
structure Fits (x : Expr F P C) (v : Val F) : Prop where
  sym : ∀ s, v ≠ .sym s
  obj : object x = false → ∀ o, v ≠ .obj o
  str : isString x = true → IsStr v
  big : bigKind x = .big → Big v
  notBig : bigKind x = .notBig → ¬ Big v
  sign : ∀ s, bigSign x = some s → ∃ i, v = .big i ∧ HasSign i s

omit [DecidableEq R] in
theorem Fits.prim {x : Expr F P C} {v : Val F} (h : Fits x v) (ho : object x = false) : Prim v := ⟨h.obj ho, h.sym⟩

omit [DecidableEq R] in
theorem same_big {a b : BigKind} (h : same a b = .big) : a = .big ∧ b = .big := by
  cases a <;> cases b <;> simp_all [same]

omit [DecidableEq R] in
theorem same_notBig {a b : BigKind} (h : same a b = .notBig) : a = .notBig ∧ b = .notBig := by
  cases a <;> cases b <;> simp_all [same]

omit [DecidableEq R] in
theorem sameKind_iff {x y : Expr F P C} (h : sameKind x y = true) :
    (bigKind x = .big ∧ bigKind y = .big) ∨ (bigKind x = .notBig ∧ bigKind y = .notBig) := by
  unfold sameKind at h
  cases hx : bigKind x <;> cases hy : bigKind y <;> simp_all

omit [DecidableEq R] in
theorem kinds_of {x y : Expr F P C} {l r : Val F} (hx : Fits x l) (hy : Fits y r) (h : sameKind x y = true) :
    (Big l ∧ Big r) ∨ (¬ Big l ∧ ¬ Big r) := by
  rcases sameKind_iff h with ⟨a, b⟩ | ⟨a, b⟩
  · exact .inl ⟨hx.big a, hy.big b⟩
  · exact .inr ⟨hx.notBig a, hy.notBig b⟩

omit [DecidableEq R] in
/-- A value that is a boolean. -/
theorem fits_bool {x : Expr F P C} (b : Bool) (h1 : isString x = false) (h2 : bigKind x ≠ .big) (h3 : bigSign x = none) :
    Fits x (.bool b) :=
  ⟨fun _ e => (by cases e), fun _ _ e => (by cases e), fun h => (by rw [h1] at h; cases h), fun h => absurd h h2,
    fun _ ⟨_, e⟩ => (by cases e), fun _ h => (by rw [h3] at h; cases h)⟩

omit [DecidableEq R] in
theorem fits_arith {op : BinOp} {x y : Expr F P C} {l v : Val F} (ho : op = .sub ∨ op = .mul ∨ op = .div ∨ op = .rem)
    (hx : Fits x l) (hv : Result v (Big l) (¬ Big l)) : Fits (.binary op x y) v := by
  have hk : bigKind (.binary op x y) = same (bigKind x) (bigKind y) := by
    rcases ho with rfl | rfl | rfl | rfl <;> rfl
  have hs : isString (.binary op x y) = false := by rcases ho with rfl | rfl | rfl | rfl <;> rfl
  refine ⟨hv.prim.2, fun _ => hv.prim.1, fun h => (by rw [hs] at h; cases h), fun h => ?_, fun h => ?_, fun s h => (by cases h)⟩
  · rw [hk] at h
    exact hv.big (hx.big (same_big h).1)
  · rw [hk] at h
    exact hv.notBig (hx.notBig (same_notBig h).1)

omit [DecidableEq R] in
theorem binary_fits {op : BinOp} {x y : Expr F P C} {l r : Val F} (n : Nat) (hx : Fits x l) (hy : Fits y r)
    (hf : binaryFree op x y = true) (ho : op ≠ .strictEq → op ≠ .strictNe → object x = false ∧ object y = false) :
    ∃ v, Expr.Ecma.binary H true n op l r = (Pure.pure v : M F W _) ∧ Fits (.binary op x y) v := by
  have cmp : ∀ op, (op = .lt ∨ op = .le ∨ op = .gt ∨ op = .ge) → (object x = false ∧ object y = false) →
      ∃ v, Expr.Ecma.compare H true op l r = (Pure.pure v : M F W _) ∧ Fits (.binary op x y) v := by
    intro op ho' ho
    obtain ⟨b, e⟩ := compare_prim (H := H) (op := op) (hx.prim ho.1) (hy.prim ho.2)
    refine ⟨_, e, fits_bool b ?_ ?_ rfl⟩ <;> rcases ho' with rfl | rfl | rfl | rfl <;> first | rfl | (intro h; cases h)
  have div : ∀ op, (op = .div ∨ op = .rem) → (object x = false ∧ object y = false) → binaryFree op x y = true →
      ∃ v, Expr.Ecma.arith H true op l r = (Pure.pure v : M F W _) ∧ Fits (.binary op x y) v := by
    intro op ho' ho hf
    have h : (Big l ∧ Big r ∧ ∀ j, r = .big j → j ≠ 0) ∨ (¬ Big l ∧ ¬ Big r) := by
      have hf' : (match bigKind x, bigKind y with
        | .notBig, .notBig => true
        | .big, .big =>
          match bigSign y with
          | some .zero | none => false
          | some .negative | some .positive => true
        | _, _ => false) = true := by rcases ho' with rfl | rfl <;> exact hf
      split at hf'
      · rename_i h1 h2
        exact .inr ⟨hx.notBig h1, hy.notBig h2⟩
      · rename_i h1 h2
        refine .inl ⟨hx.big h1, hy.big h2, fun j e => ?_⟩
        cases hs : bigSign y with
        | none => rw [hs] at hf'; cases hf'
        | some s =>
          obtain ⟨i, e', hi⟩ := hy.sign s hs
          rw [e] at e'
          cases e'
          cases s
          · intro h0; simp [HasSign, h0] at hi
          · rw [hs] at hf'; cases hf'
          · intro h0; simp [HasSign, h0] at hi
      · cases hf'
    obtain ⟨v, e, hv⟩ := arith_prim (H := H) (op := op) (hx.prim ho.1) (hy.prim ho.2)
      (h.imp_left fun h => ⟨h.1, h.2.1, fun _ => h.2.2⟩)
    exact ⟨v, e, fits_arith (by rcases ho' with rfl | rfl <;> simp) hx hv⟩
  have mul : ∀ op, (op = .sub ∨ op = .mul) → (object x = false ∧ object y = false) → binaryFree op x y = true →
      ∃ v, Expr.Ecma.arith H true op l r = (Pure.pure v : M F W _) ∧ Fits (.binary op x y) v := by
    intro op ho' ho hf
    have h := kinds_of hx hy (by rcases ho' with rfl | rfl <;> exact hf)
    obtain ⟨v, e, hv⟩ := arith_prim (H := H) (op := op) (hx.prim ho.1) (hy.prim ho.2)
      (h.imp_left fun h => ⟨h.1, h.2, fun h' => by rcases ho' with rfl | rfl <;> simp at h'⟩)
    exact ⟨v, e, fits_arith (by rcases ho' with rfl | rfl <;> simp) hx hv⟩
  cases op with
  | strictEq => exact ⟨_, rfl, fits_bool _ rfl (fun h => by cases h) rfl⟩
  | strictNe => exact ⟨_, rfl, fits_bool _ rfl (fun h => by cases h) rfl⟩
  | eq =>
    have ho := ho (by decide) (by decide)
    obtain ⟨b, e⟩ := loose_prim (H := H) (hx.prim ho.1) (hy.prim ho.2)
    refine ⟨.bool b, ?_, fits_bool _ rfl (fun h => by cases h) rfl⟩
    unfold Expr.Ecma.binary
    rw [e, pure_bind']
  | ne =>
    have ho := ho (by decide) (by decide)
    obtain ⟨b, e⟩ := loose_prim (H := H) (hx.prim ho.1) (hy.prim ho.2)
    refine ⟨.bool (!b), ?_, fits_bool _ rfl (fun h => by cases h) rfl⟩
    unfold Expr.Ecma.binary
    rw [e, pure_bind']
    rfl
  | in_ => cases hf
  | instanceof => cases hf
  | lt => exact cmp .lt (by simp) (ho (by decide) (by decide))
  | le => exact cmp .le (by simp) (ho (by decide) (by decide))
  | gt => exact cmp .gt (by simp) (ho (by decide) (by decide))
  | ge => exact cmp .ge (by simp) (ho (by decide) (by decide))
  | sub => exact mul .sub (by simp) (ho (by decide) (by decide)) hf
  | mul => exact mul .mul (by simp) (ho (by decide) (by decide)) hf
  | div => exact div .div (by simp) (ho (by decide) (by decide)) hf
  | rem => exact div .rem (by simp) (ho (by decide) (by decide)) hf
  | add =>
    have ho := ho (by decide) (by decide)
    have hf' : (isString x = true ∨ isString y = true) ∨ sameKind x y = true := by
      simpa [binaryFree] using hf
    obtain ⟨v, e, hp, hs, hb, hn⟩ := add_prim (H := H) (hx.prim ho.1) (hy.prim ho.2)
      (hf'.imp (Or.imp hx.str hy.str) (kinds_of hx hy))
    refine ⟨v, e, hp.2, fun _ => hp.1, fun h => ?_, fun h => ?_, fun h => ?_, fun s h => (by cases h)⟩
    · have h : isString x = true ∨ isString y = true := by simpa [isString] using h
      exact hs (h.imp hx.str hy.str)
    · simp only [bigKind] at h
      split at h
      · cases h
      · exact hb ⟨hx.big (same_big h).1, hy.big (same_big h).2⟩
    · simp only [bigKind] at h
      split at h
      · rename_i h'
        obtain ⟨t, rfl⟩ := hs (((Bool.or_eq_true _ _).mp h').imp hx.str hy.str)
        exact fun ⟨_, e⟩ => (by cases e)
      · exact hn ⟨hx.notBig (same_notBig h).1, hy.notBig (same_notBig h).2⟩

omit [DecidableEq R] in
theorem arith_fits (hB : Unbounded H.num) {op : ArithOp} {x y : Expr F P C} {l r : Val F} (hx : Fits x l) (hy : Fits y r)
    (hf : arithFree op x y = true) (ho : object x = false ∧ object y = false) :
    ∃ v, Expr.Ecma.arithOp H op l r = (Pure.pure v : M F W _) ∧ Fits (.arith op x y) v := by
  have h : (bigKind x = .big ∧ bigKind y = .big ∧ op ≠ .ushr ∧ (op = .pow ∨ op = .shl ∨ op = .shr → ∀ j, r = .big j → 0 ≤ j)) ∨
      (bigKind x = .notBig ∧ bigKind y = .notBig) := by
    have shift : (match bigKind x, bigKind y with
        | .notBig, .notBig => true
        | .big, .big =>
          match bigSign y with
          | some .negative | none => false
          | some .zero | some .positive => true
        | _, _ => false) = true → (bigKind x = .big ∧ bigKind y = .big ∧ ∀ j, r = .big j → 0 ≤ j) ∨
      (bigKind x = .notBig ∧ bigKind y = .notBig) := by
      intro hf'
      split at hf'
      · rename_i h1 h2
        exact .inr ⟨h1, h2⟩
      · rename_i h1 h2
        refine .inl ⟨h1, h2, fun j e => ?_⟩
        cases hs : bigSign y with
        | none => rw [hs] at hf'; cases hf'
        | some s =>
          obtain ⟨i, e', hi⟩ := hy.sign s hs
          rw [e] at e'
          cases e'
          cases s
          · rw [hs] at hf'; cases hf'
          · exact Int.le_of_eq hi.symm
          · exact Int.le_of_lt hi
      · cases hf'
    cases op with
    | ushr => exact .inr (by simpa [arithFree] using hf)
    | bitAnd => exact (sameKind_iff hf).imp_left fun h => ⟨h.1, h.2, by decide, by simp⟩
    | bitOr => exact (sameKind_iff hf).imp_left fun h => ⟨h.1, h.2, by decide, by simp⟩
    | bitXor => exact (sameKind_iff hf).imp_left fun h => ⟨h.1, h.2, by decide, by simp⟩
    | pow => exact (shift hf).imp_left fun h => ⟨h.1, h.2.1, by decide, fun _ => h.2.2⟩
    | shl => exact (shift hf).imp_left fun h => ⟨h.1, h.2.1, by decide, fun _ => h.2.2⟩
    | shr => exact (shift hf).imp_left fun h => ⟨h.1, h.2.1, by decide, fun _ => h.2.2⟩
  obtain ⟨v, e, hv⟩ := arithOp_prim (H := H) hB (op := op) (hx.prim ho.1) (hy.prim ho.2)
    (h.imp (fun h => ⟨hx.big h.1, hy.big h.2.1, h.2.2⟩) fun h => ⟨hx.notBig h.1, hy.notBig h.2⟩)
  refine ⟨v, e, hv.prim.2, fun _ => hv.prim.1, fun h => (by cases h), fun h' => ?_, fun h' => ?_, fun s h => (by cases h)⟩
  · rcases h with h | h
    · exact hv.big (hx.big h.1)
    · exfalso
      cases op <;> simp only [bigKind, h.1, h.2] at h' <;> exact absurd h' (by decide)
  · rcases h with h | h
    · exfalso
      have h3 := h.2.2.1
      cases op <;> simp only [bigKind, h.1, h.2.1] at h' <;> first | exact absurd h' (by decide) | exact h3 rfl
    · exact hv.notBig (hx.notBig h.1)

omit [DecidableEq R] in
theorem unary_fits {op : UnOp} {x : Expr F P C} {v : Val F} (hx : Fits x v) (hf : free (.unary op x) = true)
    (ho : op = .plus ∨ op = .neg → object x = false) :
    ∃ u, Expr.Ecma.unary H op v = (Pure.pure u : M F W _) ∧ Fits (.unary op x) u := by
  cases op with
  | not => exact ⟨_, rfl, fits_bool _ rfl (fun h => by cases h) rfl⟩
  | void =>
    exact ⟨_, rfl, fun _ e => (by cases e), fun _ _ e => (by cases e), fun h => (by cases h), fun h => (by cases h),
      fun _ ⟨_, e⟩ => (by cases e), fun _ h => (by cases h)⟩
  | plus =>
    have hf : free x = true ∧ bigKind x = .notBig := by simpa [free] using hf
    have hp := hx.prim (ho (.inl rfl))
    unfold Expr.Ecma.unary Expr.Ecma.toNumber
    rw [toPrimitive_prim hp, pure_bind']
    rcases numericOf_prim (H := H) hp with ⟨i, e, _⟩ | ⟨_, a, _, e⟩
    · exact absurd ⟨i, e⟩ (hx.notBig hf.2)
    · rw [e, pure_bind']
      refine ⟨_, rfl, fun _ e => (by cases e), fun _ _ e => (by cases e), fun h => (by cases h), fun h => ?_,
        fun _ ⟨_, e⟩ => (by cases e), fun _ h => (by cases h)⟩
      simp [bigKind, hf.2] at h
  | neg =>
    have hp := hx.prim (ho (.inr rfl))
    unfold Expr.Ecma.unary
    rcases toNumeric_prim (H := H) hp with ⟨i, rfl, e⟩ | ⟨hb, a, e⟩
    · rw [e, pure_bind']
      refine ⟨_, rfl, fun _ e => (by cases e), fun _ _ e => (by cases e), fun h => (by cases h), fun h => ⟨_, rfl⟩,
        fun h => absurd ⟨i, rfl⟩ (hx.notBig h), fun s h => ⟨_, rfl, ?_⟩⟩
      cases hs : bigSign x with
      | none => simp [bigSign, hs] at h
      | some t =>
        obtain ⟨j, e', hj⟩ := hx.sign t hs
        cases e'
        simp only [bigSign, hs, Option.map_some, Option.some.injEq] at h
        subst h
        cases t
        · exact Int.neg_pos_of_neg hj
        · exact (by simp only [HasSign] at hj ⊢; omega)
        · exact Int.neg_neg_of_pos hj
    · rw [e, pure_bind']
      refine ⟨_, rfl, fun _ e => (by cases e), fun _ _ e => (by cases e), fun h => (by cases h), fun h => absurd (hx.big h) hb,
        fun _ ⟨_, e⟩ => (by cases e), fun s h => ?_⟩
      cases hs : bigSign x with
      | none => simp [bigSign, hs] at h
      | some t =>
        obtain ⟨j, e', hj⟩ := hx.sign t hs
        exact absurd ⟨j, e'⟩ hb

omit [DecidableEq R] in
theorem bitNot_fits {x : Expr F P C} {v : Val F} (hx : Fits x v) (ho : object x = false) :
    ∃ u, Expr.Ecma.bitNot H v = (Pure.pure u : M F W _) ∧ Fits (.bitNot x) u := by
  unfold Expr.Ecma.bitNot
  rcases toNumeric_prim (H := H) (hx.prim ho) with ⟨i, rfl, e⟩ | ⟨hb, a, e⟩
  · rw [e, pure_bind']
    exact ⟨_, rfl, fun _ e => (by cases e), fun _ _ e => (by cases e), fun h => (by cases h), fun h => ⟨_, rfl⟩,
      fun h => absurd ⟨i, rfl⟩ (hx.notBig h), fun s h => (by cases h)⟩
  · rw [e, pure_bind']
    exact ⟨_, rfl, fun _ e => (by cases e), fun _ _ e => (by cases e), fun h => (by cases h), fun h => absurd (hx.big h) hb,
      fun _ ⟨_, e⟩ => (by cases e), fun s h => (by cases h)⟩

/-- The value of an operator that gives one of two. -/
theorem fits_of {x y z : Expr F P C} {v : Val F} (h : Fits x v) (ho : object z = false → ∀ o, v ≠ .obj o)
    (h1 : isString z = true → isString x = true) (h2 : bigKind z = same (bigKind x) (bigKind y) ∨ bigKind z = same (bigKind y) (bigKind x))
    (h3 : bigSign z = none) : Fits z v := by
  refine ⟨h.sym, ho, fun hs => h.str (h1 hs), fun hk => h.big ?_, fun hk => h.notBig ?_, fun s hs => (by rw [h3] at hs; cases hs)⟩
  · rcases h2 with h2 | h2 <;> rw [hk] at h2
    · exact (same_big h2.symm).1
    · exact (same_big h2.symm).2
  · rcases h2 with h2 | h2 <;> rw [hk] at h2
    · exact (same_notBig h2.symm).1
    · exact (same_notBig h2.symm).2

variable {c : Verif.Expr.Ctx F E} {n : Nat}

theorem value_paren (x : Expr F P C) : value H c true n (.paren x) = value H c true n x := by
  simp only [value, eval, valueOf, bind_bind]
  congr 1
  funext o
  cases o <;> rfl

omit [DecidableEq R] in
theorem Runs.run {f : W → Verif.Exec.Out (Val F) A × W} {Q : A → Prop}
    (h : ∀ w, Since w₀ w → (∀ o, S o → New w₀ w o) → ∃ a w', f w = (.ok a, w') ∧ Next Since New w₀ w w' ∧ Q a) :
    Runs Since New w₀ S (M.run f) Q := by
  intro w hw hS
  obtain ⟨a, w', e, hn, ha⟩ := h w hw hS
  exact ⟨a, w', by simp only [M.run, e], hn, ha⟩

theorem runs_closure (A : Allocates H Since New) (f : C) (name : Option Str) :
    Runs Since New w₀ S (M.run (H.closure c f name) : M F W (Val F)) fun v => ∃ o, v = .obj o :=
  Runs.run fun w hw _ =>
    let ⟨o, w', e, hn⟩ := A.closure w₀ w c f name hw
    ⟨_, w', e, hn, o, rfl⟩

theorem runs_property (A : Allocates H Since New) {k : Str} {x : Expr F P C} {o : Nat} {m : M F W (Val F)} {Q : Val F → Prop}
    (ho : S o) (hm : Runs Since New w₀ S m Q) : Runs Since New w₀ S (Expr.Ecma.property H c true o k x m) fun _ => True := by
  have create : ∀ v, Runs Since New w₀ S (Expr.Ecma.createProperty H o (.str k) v) fun _ => True := by
    intro v
    refine Runs.bind (Q := fun b => b = true) (Runs.run fun w hw hS => ?_) fun b hb => ?_
    · obtain ⟨w', e, hn⟩ := A.define w₀ w o (.str k) v hw (hS o ho)
      exact ⟨_, w', e, hn, rfl⟩
    · subst hb
      exact Runs.pure trivial
  unfold Expr.Ecma.property
  split
  · simp only [Expr.Ecma.within, Bool.true_or, if_true, pure_bind']
    refine hm.bind fun v _ => ?_
    have hp : ∀ v, Runs Since New w₀ S (M.run (H.setProto o v) : M F W Unit) fun _ => True := fun v =>
      Runs.run fun w hw hS =>
        let ⟨w', e, hn⟩ := A.setProto w₀ w o v hw (hS o ho)
        ⟨_, w', e, hn, trivial⟩
    cases v <;> first | exact Runs.pure trivial | exact hp _
  · unfold Expr.Ecma.named
    split
    · simp only [Expr.Ecma.within, Bool.true_or, if_true, pure_bind']
      exact (runs_closure A _ _).bind fun v _ => create v
    · exact hm.bind fun v _ => create v

/-- The value of an expression and what is known about it. -/
def Good (H : Host F E R I P C W) (Since : W → W → Prop) (New : W → W → Nat → Prop) (w₀ : W) (c : Verif.Expr.Ctx F E)
    (n : Nat) (x : Expr F P C) : Prop :=
  ∀ S, Runs Since New w₀ S (valueOf H (eval H c true n x)) (Fits x)

theorem good_isValue {x : Expr F P C} {m : M F W (Val F)} (e : eval H c true n x = isValue m)
    (h : ∀ S, Runs Since New w₀ S m (Fits x)) : Good H Since New w₀ c n x := by
  intro S
  rw [e, Verif.Expr.valueOf_isValue]
  exact h S

mutual
theorem good (A : Allocates H Since New) (hB : Unbounded H.num) : ∀ x : Expr F P C, free x = true → Primitives x →
    Good H Since New w₀ c n x
  | .null, _, _ => good_isValue rfl fun S => Runs.pure ⟨by simp, by simp, by simp [isString], by simp [bigKind], by simp [Big], by simp [bigSign]⟩
  | .bool b, _, _ => good_isValue rfl fun S => Runs.pure ⟨by simp, by simp, by simp [isString], by simp [bigKind], by simp [Big], by simp [bigSign]⟩
  | .num a, _, _ => good_isValue rfl fun S => Runs.pure ⟨by simp, by simp, by simp [isString], by simp [bigKind], by simp [Big], by simp [bigSign]⟩
  | .str s, _, _ => good_isValue rfl fun S => Runs.pure ⟨by simp, by simp, by simp [IsStr], by simp [bigKind], by simp [Big], by simp [bigSign]⟩
  | .big i, _, _ => good_isValue rfl fun S => Runs.pure ⟨by simp, by simp, by simp [isString], fun _ => ⟨_, rfl⟩, by simp [bigKind], by
      intro s h
      refine ⟨_, rfl, ?_⟩
      simp only [bigSign, Option.some.injEq] at h
      subst h
      split <;> simp only [HasSign] <;> omega⟩
  | .func a f, _, _ => good_isValue rfl fun S => (runs_closure A f none).imp fun v ⟨o, e⟩ => by
      subst e
      exact ⟨by simp, by simp [object], by simp [isString], by simp [bigKind], by simp [Big], by simp [bigSign]⟩
  | .unary op x, hf, hp => by
      have hx : free x = true := by cases op <;> simp_all [free]
      have ih := good A hB x hx hp.1
      refine good_isValue (by simp only [eval]; rfl) fun S => (ih S).bind fun v hv => ?_
      obtain ⟨u, e, hu⟩ := unary_fits (H := H) (W := W) hv hf hp.2
      rw [e]
      exact Runs.pure hu
  | .bitNot x, hf, hp => by
      have ih := good A hB x (by simpa [free] using hf) hp.1
      refine good_isValue (by simp only [eval]; rfl) fun S => ?_
      simp only [Expr.Ecma.within, Bool.true_or, if_true, pure_bind']
      refine (ih S).bind fun v hv => ?_
      obtain ⟨u, e, hu⟩ := bitNot_fits (H := H) (W := W) hv hp.2
      rw [e]
      exact Runs.pure hu
  | .binary op x y, hf, hp => by
      have hf : (free x = true ∧ free y = true) ∧ binaryFree op x y = true := by simpa [free] using hf
      have ih := good A hB x hf.1.1 hp.1
      have ih' := good A hB y hf.1.2 hp.2.1
      refine good_isValue (by simp only [eval]; rfl) fun S => (ih S).bind fun l hl => (ih' S).bind fun r hr => ?_
      obtain ⟨u, e, hu⟩ := binary_fits (H := H) (W := W) n hl hr hf.2 hp.2.2
      rw [e]
      exact Runs.pure hu
  | .arith op x y, hf, hp => by
      have hf : (free x = true ∧ free y = true) ∧ arithFree op x y = true := by simpa [free] using hf
      have ih := good A hB x hf.1.1 hp.1
      have ih' := good A hB y hf.1.2 hp.2.1
      refine good_isValue (by simp only [eval]; rfl) fun S => ?_
      simp only [Expr.Ecma.within, Bool.true_or, if_true, pure_bind']
      refine (ih S).bind fun l hl => (ih' S).bind fun r hr => ?_
      obtain ⟨u, e, hu⟩ := arith_fits (H := H) (W := W) hB hl hr hf.2 hp.2.2
      rw [e]
      exact Runs.pure hu
  | .and x y, hf, hp => by
      have hf : free x = true ∧ free y = true := by simpa [free] using hf
      have ih := good A hB x hf.1 hp.1
      have ih' := good A hB y hf.2 hp.2
      refine good_isValue (by simp only [eval]; rfl) fun S => (ih S).bind fun l hl => ?_
      split
      · exact (ih' S).imp fun r hr => fits_of hr (fun h => hr.obj h) (by simp [isString]) (.inr (by simp [bigKind]; rfl)) rfl
      · rename_i ht
        exact Runs.pure (fits_of hl (fun _ o e => ht (by rw [e]; rfl)) (by simp [isString]) (.inl (by simp [bigKind]; rfl)) rfl)
  | .or x y, hf, hp => by
      have hf : free x = true ∧ free y = true := by simpa [free] using hf
      have ih := good A hB x hf.1 hp.1
      have ih' := good A hB y hf.2 hp.2
      refine good_isValue (by simp only [eval]; rfl) fun S => (ih S).bind fun l hl => ?_
      split
      · exact Runs.pure (fits_of hl (fun h => hl.obj (by simp [object] at h; exact h.1)) (by simp [isString]) (.inl (by simp [bigKind]; rfl)) rfl)
      · exact (ih' S).imp fun r hr => fits_of hr (fun h => hr.obj (by simp [object] at h; exact h.2)) (by simp [isString]) (.inr (by simp [bigKind]; rfl)) rfl
  | .nullish x y, hf, hp => by
      have hf : free x = true ∧ free y = true := by simpa [free] using hf
      have ih := good A hB x hf.1 hp.1
      have ih' := good A hB y hf.2 hp.2
      refine good_isValue (by simp only [eval]; rfl) fun S => (ih S).bind fun l hl => ?_
      split
      · exact (ih' S).imp fun r hr => fits_of hr (fun h => hr.obj (by simp [object] at h; exact h.2)) (by simp [isString]) (.inr (by simp [bigKind]; rfl)) rfl
      · exact Runs.pure (fits_of hl (fun h => hl.obj (by simp [object] at h; exact h.1)) (by simp [isString]) (.inl (by simp [bigKind]; rfl)) rfl)
  | .cond x y z, hf, hp => by
      have hf : (free x = true ∧ free y = true) ∧ free z = true := by simpa [free] using hf
      have ih := good A hB x hf.1.1 hp.1
      have ihy := good A hB y hf.1.2 hp.2.1
      have ihz := good A hB z hf.2 hp.2.2
      refine good_isValue (by simp only [eval]; rfl) fun S => (ih S).bind fun l hl => ?_
      split
      · exact (ihy S).imp fun r hr => fits_of hr (fun h => hr.obj (by simp [object] at h; exact h.1)) (fun h => by simp [isString] at h; exact h.1) (.inl (by simp [bigKind]; rfl)) rfl
      · exact (ihz S).imp fun r hr => fits_of hr (fun h => hr.obj (by simp [object] at h; exact h.2)) (fun h => by simp [isString] at h; exact h.2) (.inr (by simp [bigKind]; rfl)) rfl
  | .arr es, hf, hp => by
      have ih := goodE A hB es (by simpa [free] using hf) hp
      refine good_isValue (by simp only [eval]; rfl) fun S => (ih S []).bind fun l _ => Runs.run fun w hw _ => ?_
      obtain ⟨o, w', e, hn⟩ := A.array w₀ w l hw
      exact ⟨_, w', e, hn, ⟨by simp, by simp [object], by simp [isString], by simp [bigKind], by simp [Big], by simp [bigSign]⟩⟩
  | .object ms, hf, hp => by
      have ih := goodM A hB ms (by simpa [free] using hf) hp
      refine good_isValue (by simp only [eval]; rfl) fun S => ?_
      intro w hw hS
      obtain ⟨o, w', e, hn, ho⟩ := A.object w₀ w hw
      obtain ⟨u, w'', e', hn', _⟩ := ih (fun p => p = o) o rfl w' hn.1 (fun p hp => hp ▸ ho)
      refine ⟨.obj o, w'', ?_, ⟨hn'.1, fun p hp => hn'.2 p (hn.2 p hp)⟩, ⟨by simp, by simp [Verif.Free.object], by simp [isString], by simp [bigKind], by simp [Big], by simp [bigSign]⟩⟩
      show M.bind (M.run H.object) _ w = _
      simp only [M.bind, M.run, e]
      show M.bind (members H c true n o ms) _ w' = _
      simp only [M.bind, e']
      rfl
  | .template ps, hf, hp => by
      have ih := goodP A hB ps (by simpa [free] using hf) hp
      exact good_isValue (by simp only [eval]; rfl) fun S => (ih S).bind fun s _ =>
        Runs.pure ⟨by simp, by simp, by simp [IsStr], by simp [bigKind], by simp [Big], by simp [bigSign]⟩
  | .paren x, hf, hp => by
      have ih := good A hB x (by simpa [free] using hf) hp
      intro S
      have e : valueOf H (eval H c true n (.paren x)) = _ := value_paren x
      rw [e]
      exact (ih S).imp fun v h => ⟨h.sym, fun h' => h.obj h', fun h' => h.str h', fun h' => h.big h', fun h' => h.notBig h', fun s h' => h.sign s h'⟩
  | .this_, hf, _ | .newTarget, hf, _ | .id _, hf, _ | .member _ _ _, hf, _ | .index _ _ _, hf, _ | .call _ _ _, hf, _
  | .new_ _, hf, _ | .typeof_ _, hf, _ | .delete_ _, hf, _ | .update _ _ _, hf, _ | .assign _ _, hf, _ | .assignPat _ _, hf, _
  | .addAssign _ _, hf, _ | .comma _ _, hf, _ | .other, hf, _ => by simp [free] at hf

theorem goodE (A : Allocates H Since New) (hB : Unbounded H.num) : ∀ es : Elems F P C, freeElems es = true → PrimitivesE es →
    ∀ S acc, Runs Since New w₀ S (elements H c true n es acc) fun _ => True
  | .nil, _, _, S, acc => Runs.pure trivial
  | .hole es, hf, hp, S, acc => by
      have ih := goodE A hB es (by simpa [freeElems] using hf) hp
      simp only [elements]
      exact ih S _
  | .cons x es, hf, hp, S, acc => by
      have hf : free x = true ∧ freeElems es = true := by simpa [freeElems] using hf
      have ih := good A hB x hf.1 hp.1
      have ih' := goodE A hB es hf.2 hp.2
      simp only [elements]
      exact (ih S).bind fun v _ => ih' S _
  | .spread _ _, hf, _, _, _ => by simp [freeElems] at hf

theorem goodP (A : Allocates H Since New) (hB : Unbounded H.num) : ∀ ps : Parts F P C, freeParts ps = true → PrimitivesP ps →
    ∀ S, Runs Since New w₀ S (template H c true n ps) fun _ => True
  | .nil, _, _, S => Runs.pure trivial
  | .text s ps, hf, hp, S => by
      have ih := goodP A hB ps (by simpa [freeParts] using hf) hp
      simp only [template]
      exact (ih S).bind fun _ _ => Runs.pure trivial
  | .subst x ps, hf, hp, S => by
      have hf : free x = true ∧ freeParts ps = true := by simpa [freeParts] using hf
      have ih := good A hB x hf.1 hp.1
      have ih' := goodP A hB ps hf.2 hp.2.2
      simp only [template]
      refine (ih S).bind fun v hv => ?_
      obtain ⟨s, e⟩ := toString_prim (H := H) (hv.prim hp.2.1)
      rw [e, pure_bind']
      exact (ih' S).bind fun _ _ => Runs.pure trivial

theorem goodM (A : Allocates H Since New) (hB : Unbounded H.num) : ∀ ms : Members F P C, freeMembers ms = true → PrimitivesM ms →
    ∀ S o, S o → Runs Since New w₀ S (members H c true n o ms) fun _ => True
  | .nil, _, _, S, o, _ => Runs.pure trivial
  | .prop k x ms, hf, hp, S, o, ho => by
      have hf : free x = true ∧ freeMembers ms = true := by simpa [freeMembers] using hf
      have ih := good A hB x hf.1 hp.1
      have ih' := goodM A hB ms hf.2 hp.2
      simp only [members]
      exact (runs_property A ho (ih S)).bind fun _ _ => ih' S o ho
  | .method d k f ms, hf, hp, S, o, ho => by
      have ih' := goodM A hB ms (by simpa [freeMembers] using hf) hp
      simp only [members]
      refine Runs.bind (Q := fun _ => True) (Runs.run fun w hw hS => ?_) fun _ _ => ih' S o ho
      obtain ⟨w', e, hn⟩ := A.method w₀ w c d o (.str k) f hw (hS o ho)
      exact ⟨_, w', e, hn, trivial⟩
  | .computed _ _ _, hf, _, _, _, _ | .computedMethod _ _ _ _, hf, _, _, _, _ | .shorthand _ _, hf, _, _, _, _
  | .spread _ _, hf, _, _, _, _ => by simp [freeMembers] at hf
end

end

end Verif.Free
