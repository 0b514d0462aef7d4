import Verif.Expr.Lemmas
/-!
# Conversions and operators
-/

namespace Verif.Expr

section
variable {F E R I P C W : Type} (H : Host F E R I P C W)

theorem isNullish_eq (v : Val F) : isNullish v = Ecma.Nullish v := by cases v <;> rfl

theorem toBoolean_eq (v : Val F) : toBoolean H v = Ecma.toBoolean H v := by
  cases v with
  | num a =>
    have h := H.num.cmp_zero a
    simp only [toBoolean, Ecma.toBoolean, feq, isNaN]
    rcases hz : H.num.cmp a H.num.zero with _ | o
    · have hn := h.1 hz
      simp [hn]
    · have hn : (H.num.cmp a a).isNone = false := by
        cases hn : H.num.cmp a a with
        | none => rw [h.2 hn] at hz; cases hz
        | some _ => rfl
      rw [hn]
      cases o <;> simp
  | big i => simp [toBoolean, Ecma.toBoolean, bne]; rfl
  | str s => cases s <;> simp [toBoolean, Ecma.toBoolean]
  | _ => rfl

theorem isCallable_eq (v : Val F) : isCallable H v = Ecma.isCallable H v := by cases v <;> rfl

theorem callV_eq (f this : Val F) (as : List (Val F)) : callV H f this as = Ecma.call H f this as := by
  cases f <;> rfl

theorem constructV_eq (f : Val F) (as : List (Val F)) : constructV H f as = Ecma.construct H f as := by
  cases f <;> rfl

theorem strictEqual_eq (a b : Val F) : strictEqual H a b = Ecma.strictlyEqual H a b := by
  cases a <;> cases b <;> rfl

/-- Primitive values. -/
def Prim : Val F → Prop
  | .obj _ => False
  | _ => True

/-- The same primitive value. -/
def EqPrim : Val F → Val F → W → Prop := fun a b _ => a = b ∧ Prim a

theorem sim_result {k : M F W (Val F)} {k' : M F W (Val F)} {w : W} (r : Val F) (hk : Sim EqPrim k k' w) :
    Sim EqPrim (match r with | .obj _ => k | r => pure r) (match r with | .obj _ => k' | r => pure r) w := by
  cases r <;> first | exact hk | exact Sim.pure ⟨rfl, trivial⟩

theorem tryMethods_sim (o : Nat) (names : List String) (w : W) :
    Sim EqPrim (tryMethods H o names) (Ecma.firstPrimitive H o (names.map ascii)) w := by
  induction names generalizing w with
  | nil => exact Sim.raise H _ _
  | cons name names ih =>
    simp only [tryMethods, List.map_cons, Ecma.firstPrimitive]
    refine (Sim.refl _ _).bindE fun m w => ?_
    cases hm : isNullish m with
    | true =>
      have : Ecma.isCallable H m = pure false := by cases m <;> first | rfl | cases hm
      simp only [this, pure_bind']
      exact ih w
    | false =>
      simp only [Bool.false_eq_true, if_false]
      rw [isCallable_eq]
      refine (Sim.refl _ _).bindE fun b w => ?_
      cases b with
      | false => exact ih w
      | true =>
        simp only [if_true, callV_eq]
        refine (Sim.refl _ _).bindE fun r w => ?_
        exact sim_result r (ih w)

/-- The two names of a hint. -/
def Hint.prefer : Hint → Ecma.Prefer
  | .default => .none
  | .string => .string
  | .number => .number

theorem toPrim_sim (v : Val F) (h : Hint) (w : W) :
    Sim EqPrim (toPrim H v h) (Ecma.toPrimitive H v h.prefer) w := by
  cases v with
  | obj o =>
    simp only [toPrim, Ecma.toPrimitive, Ecma.getMethod, bind_bind]
    refine (Sim.refl _ _).bindE fun m w => ?_
    rw [isNullish_eq]
    cases Ecma.Nullish m with
    | true =>
      simp only [if_true, pure_bind']
      cases h
      · exact tryMethods_sim H o ["valueOf", "toString"] w
      · exact tryMethods_sim H o ["toString", "valueOf"] w
      · exact tryMethods_sim H o ["valueOf", "toString"] w
    | false =>
      simp only [Bool.false_eq_true, if_false, bind_bind, isCallable_eq]
      refine (Sim.refl _ _).bindE fun b w => ?_
      cases b with
      | false => exact Sim.raise H _ _
      | true =>
        simp only [if_true, pure_bind', callV_eq]
        have he : h.name = (match h.prefer with
          | .none => ascii "default"
          | .string => ascii "string"
          | .number => ascii "number") := by cases h <;> rfl
        rw [he]
        refine (Sim.refl _ _).bindE fun r w => ?_
        exact sim_result r (Sim.raise H _ _)
  | _ => exact Sim.pure ⟨rfl, trivial⟩

theorem toNumber_eq {v : Val F} (h : Prim v) : toNumber H v = Ecma.numberOf H v := by
  cases v with
  | obj o => exact h.elim
  | bool b => cases b <;> rfl
  | _ => rfl

theorem toStringP_eq {v : Val F} (h : Prim v) : toStringP H v = Ecma.stringOf H v := by
  cases v with
  | obj o => exact h.elim
  | bool b => cases b <;> rfl
  | _ => rfl

theorem toNumberOp_sim (v : Val F) (w : W) : Sim Eqv (toNumberOp H v) (Ecma.toNumber H v) w := by
  unfold toNumberOp Ecma.toNumber
  refine (toPrim_sim H v .number w).bind ?_
  rintro a b w' ⟨rfl, hp⟩
  rw [toNumber_eq H hp]
  exact Sim.refl _ _

theorem toStringOp_sim (v : Val F) (w : W) : Sim Eqv (toStringOp H v) (Ecma.toString H v) w := by
  unfold toStringOp Ecma.toString
  refine (toPrim_sim H v .string w).bind ?_
  rintro a b w' ⟨rfl, hp⟩
  rw [toStringP_eq H hp]
  exact Sim.refl _ _

/-- The two kinds of numeric values. -/
def NumRel : Numeric F → F ⊕ Int → W → Prop
  | .num a, .inl b, _ => a = b
  | .big i, .inr j, _ => i = j
  | _, _, _ => False

theorem toNumeric_sim (v : Val F) (w : W) : Sim NumRel (toNumericOp H v) (Ecma.toNumeric H v) w := by
  unfold toNumericOp Ecma.toNumeric
  refine (toPrim_sim H v .number w).bind ?_
  rintro a b w' ⟨rfl, hp⟩
  cases a with
  | big i => exact Sim.pure rfl
  | obj o => exact hp.elim
  | sym s => exact Sim.raise H _ _
  | bool b => cases b <;> exact Sim.pure rfl
  | _ => exact Sim.pure rfl

theorem toPropertyKey_sim (v : Val F) (w : W) : Sim Eqv (toPropertyKey H v) (Ecma.toPropertyKey H v) w := by
  cases v with
  | obj o => exact Sim.fatal _ _
  | bool b => cases b <;> exact Sim.refl _ _
  | _ => exact Sim.refl _ _

/-- A primitive value as a property key: no step is taken. -/
theorem toPropertyKey_pure (v : Val F) : toPropertyKey H v = M.fatal ∨
    ∃ k, toPropertyKey H v = pure k ∧ Ecma.toPropertyKey H v = pure k := by
  cases v with
  | obj o => exact .inl rfl
  | bool b => cases b <;> exact .inr ⟨_, rfl, rfl⟩
  | _ => exact .inr ⟨_, rfl, rfl⟩

theorem bigOr_sim (i : Int) (w : W) : Sim Eqv (bigOr H i) (pure (.big i)) w := by
  unfold bigOr
  split
  · exact Sim.refl _ _
  · exact Sim.fatal _ _

theorem bigOr_bind_sim {A B : Type} {Q : A → B → W → Prop} {f : Val F → M F W A} {s : M F W B} (i : Int) (w : W)
    (h : Sim Q (f (.big i)) s w) : Sim Q (bigOr H i >>= f) s w := by
  unfold bigOr
  split
  · exact h
  · exact Sim.fatal _ _

theorem mulOp_sim (a b : Val F) (w : W) : Sim Eqv (mulOp H a b) (Ecma.arith H false .mul a b) w := by
  simp only [mulOp, Ecma.arith, Ecma.within]
  refine (toNumeric_sim H a w).bind fun x x' w hx => ?_
  simp only [BEq.rfl, Bool.or_true, Bool.true_or, if_true, pure_bind']
  refine (toNumeric_sim H b w).bind fun y y' w hy => ?_
  cases x <;> cases x' <;> cases hx <;> cases y <;> cases y' <;> cases hy
  · exact Sim.refl _ _
  · exact Sim.raise H _ _
  · exact Sim.raise H _ _
  · exact bigOr_sim H _ _

theorem addOp_sim (a b : Val F) (w : W) : Sim Eqv (addOp H a b) (Ecma.add H false a b) w := by
  have hs : ∀ (a b : Val F) (w : W), Sim Eqv (do pure (Val.str (F := F) ((← toStringOp H a) ++ (← toStringOp H b))))
      (do
        let s ← Ecma.toString H a
        let t ← Ecma.toString H b
        pure (Val.str (F := F) (s ++ t))) w := by
    intro a b w
    refine (toStringOp_sim H a w).bindE fun s w => ?_
    exact (toStringOp_sim H b w).bindE fun t w => Sim.refl _ _
  have hn : ∀ (a b : Val F) (w : W), Sim Eqv (do
        match ← toNumericOp H a, ← toNumericOp H b with
        | .num x, .num y => pure (.num (H.num.add x y))
        | .big x, .big y => bigOr H (x + y)
        | _, _ => raise H .type) (Ecma.arith H false .add a b) w := by
    intro a b w
    simp only [Ecma.arith, Ecma.within]
    refine (toNumeric_sim H a w).bind fun x x' w hx => ?_
    simp only [BEq.rfl, Bool.or_true, Bool.true_or, if_true, pure_bind']
    refine (toNumeric_sim H b w).bind fun y y' w hy => ?_
    cases x <;> cases x' <;> cases hx <;> cases y <;> cases y' <;> cases hy
    · exact Sim.refl _ _
    · exact Sim.raise H _ _
    · exact Sim.raise H _ _
    · exact bigOr_sim H _ _
  simp only [addOp, Ecma.add]
  refine (toPrim_sim H a .default w).bind ?_
  rintro a _ w ⟨rfl, ha⟩
  refine (toPrim_sim H b .default w).bind ?_
  rintro b _ w ⟨rfl, hb⟩
  cases a <;> first
    | exact ha.elim
    | exact hs _ _ _
    | (cases b <;> first | exact hb.elim | exact hs _ _ _ | exact hn _ _ _)

theorem numOp_arith_sim (op : BinOp) (hop : op = .sub ∨ op = .div ∨ op = .rem) (a b : Val F) (w : W) :
    Sim Eqv (numOp H (fun x y => .num (Ecma.numArith H op x y)) a b) (Ecma.arith H false op a b) w := by
  have hb : (op == .add || op == .mul) = false := by rcases hop with rfl | rfl | rfl <;> rfl
  simp only [numOp, toNumberOp, Ecma.arith, Ecma.toNumeric, bind_bind]
  refine (toPrim_sim H a .number w).bind ?_
  rintro x _ w ⟨rfl, hx⟩
  have hr : ∀ (x : F), (w : W) → Sim Eqv
      (do
        let a ← toPrim H b .number
        let y ← toNumber H a
        pure (.num (Ecma.numArith H op x y)))
      (do
        let a ← Ecma.toPrimitive H b .number
        let b ← Ecma.numericOf H a
        match (Sum.inl x : F ⊕ Int), b with
        | .inl a, .inl b => pure (.num (Ecma.numArith H op a b))
        | .inr i, .inr j => Ecma.bigArith H op i j
        | _, _ => raise H .type) w := by
    intro x w
    refine (toPrim_sim H b .number w).bind ?_
    rintro y _ w ⟨rfl, hy⟩
    cases y with
    | obj o => exact hy.elim
    | big i => exact Sim.raise H _ _
    | sym i => exact Sim.raise H _ _
    | bool b => cases b <;> exact Sim.refl _ _
    | _ => exact Sim.refl _ _
  cases x with
  | obj o => exact hx.elim
  | big i =>
    simp only [Ecma.numericOf, pure_bind', Ecma.within, hb, Sum.isLeft, Bool.or_false, Bool.false_eq_true, if_false,
      fatal_bind]
    exact Sim.fatal' _ _
  | sym i => exact Sim.raise H _ _
  | bool v =>
    cases v <;> simp only [Ecma.numericOf, Ecma.numberOf, toNumber, pure_bind', Ecma.within, hb, Sum.isLeft, Bool.or_true,
      if_true] <;> exact hr _ _
  | _ =>
    simp only [Ecma.numericOf, Ecma.numberOf, toNumber, pure_bind', Ecma.within, hb, Sum.isLeft, Bool.or_true,
      if_true]
    exact hr _ _

/-- The four comparisons of numbers. -/
def cmpOp (N : Num F) : BinOp → F → F → Bool
  | .lt => flt N
  | .gt => fgt N
  | .le => fle N
  | _ => fge N

theorem numOp_compare_sim (op : BinOp) (hop : op = .lt ∨ op = .gt ∨ op = .le ∨ op = .ge) (a b : Val F) (w : W) :
    Sim Eqv (numOp H (fun x y => .bool (cmpOp H.num op x y)) a b) (Ecma.compare H false op a b) w := by
  have hl : ∀ x y : F, ((H.num.cmp x y).map (· == .lt) == some true) = flt H.num x y := by
    intro x y
    unfold flt
    rcases H.num.cmp x y with _ | o
    · rfl
    · cases o <;> rfl
  have hg : ∀ x y : F, ((H.num.cmp y x).map (· == .lt) == some true) = fgt H.num x y := by
    intro x y
    unfold fgt
    rw [H.num.cmp_swap x y]
    rcases H.num.cmp x y with _ | o
    · rfl
    · cases o <;> rfl
  have hle : ∀ x y : F, ((H.num.cmp y x).map (· == .lt) == some false) = fle H.num x y := by
    intro x y
    unfold fle
    rw [H.num.cmp_swap x y]
    rcases H.num.cmp x y with _ | o
    · rfl
    · cases o <;> rfl
  have hge : ∀ x y : F, ((H.num.cmp x y).map (· == .lt) == some false) = fge H.num x y := by
    intro x y
    unfold fge
    rcases H.num.cmp x y with _ | o
    · rfl
    · cases o <;> rfl
  simp only [numOp, toNumberOp, Ecma.compare, Ecma.comparands, bind_bind]
  refine (toPrim_sim H a .number w).bind ?_
  rintro x _ w ⟨rfl, hx⟩
  cases hxe : Ecma.easyLeft x with
  | false =>
    simp only [Ecma.within, Bool.or_false, Bool.false_eq_true, if_false, fatal_bind]
    exact Sim.fatal' _ _
  | true =>
    simp only [Ecma.within, Bool.or_true, if_true, pure_bind']
    obtain ⟨f, hf⟩ : ∃ f, toNumber H x = pure f := by
      cases x <;> first | exact hx.elim | (cases hxe; done) | exact ⟨_, rfl⟩
    rw [hf, pure_bind']
    refine (toPrim_sim H b .number w).bind ?_
    rintro y _ w ⟨rfl, hy⟩
    cases hye : Ecma.easyRight x y with
    | false =>
      simp only [Bool.or_false, Bool.false_eq_true, if_false, fatal_bind]
      exact Sim.fatal' _ _
    | true =>
      simp only [Bool.or_true, if_true, pure_bind']
      have hfx : Ecma.numericOf H x = pure (.inl f) := by
        rw [toNumber_eq H hx] at hf
        cases x <;> first | exact hx.elim | (cases hxe; done) | (simp only [Ecma.numericOf, hf]; rfl)
      -- the right operand
      have key : (∃ g, toNumber H y = pure g ∧ Ecma.lessPrim H x y = pure ((H.num.cmp f g).map (· == .lt)) ∧
          Ecma.lessPrim H y x = pure ((H.num.cmp g f).map (· == .lt))) ∨
          (toNumber H y = raise H .type ∧ Ecma.lessPrim H x y = raise H .type ∧
            Ecma.lessPrim H y x = raise H .type) := by
        have hxy : Ecma.lessPrim H x y = (do
            match ← Ecma.numericOf H x, ← Ecma.numericOf H y with
            | .inl a, .inl b => pure ((H.num.cmp a b).map (· == .lt))
            | .inr i, .inr j => pure (some (decide (i < j)))
            | .inr i, .inl b => pure ((H.num.cmpBig i b).map (· == .lt))
            | .inl a, .inr j => pure ((H.num.cmpBig j a).map (· == .gt))) := by
          cases x <;> first | exact hx.elim | (cases hxe; done) | (cases y <;> first | exact hy.elim | (cases hye; done) | rfl)
        have hyx : Ecma.lessPrim H y x = (do
            match ← Ecma.numericOf H y, ← Ecma.numericOf H x with
            | .inl a, .inl b => pure ((H.num.cmp a b).map (· == .lt))
            | .inr i, .inr j => pure (some (decide (i < j)))
            | .inr i, .inl b => pure ((H.num.cmpBig i b).map (· == .lt))
            | .inl a, .inr j => pure ((H.num.cmpBig j a).map (· == .gt))) := by
          cases x <;> first | exact hx.elim | (cases hxe; done) | (cases y <;> first | exact hy.elim | (cases hye; done) | rfl)
        rw [hxy, hyx, hfx]
        cases y <;> first
          | exact hy.elim
          | exact .inr ⟨rfl, rfl, rfl⟩
          | exact .inl ⟨_, rfl, rfl, rfl⟩
          | (exfalso; cases x <;> cases hye; done)
          | (rename_i b; cases b <;> exact .inl ⟨_, rfl, rfl, rfl⟩)
      rcases key with ⟨g, h1, h2, h3⟩ | ⟨h1, h2, h3⟩
      · rw [h1]
        rcases hop with rfl | rfl | rfl | rfl <;>
          simp only [h2, h3, pure_bind', cmpOp]
        · rw [hl]; exact Sim.refl _ _
        · rw [hg]; exact Sim.refl _ _
        · rw [hle]; exact Sim.refl _ _
        · rw [hge]; exact Sim.refl _ _
      · rw [h1]
        rcases hop with rfl | rfl | rfl | rfl <;>
          simp only [h2, h3, raise_bind] <;> exact Sim.raise H _ _

theorem looseEqual_sim (a b : Val F) (w : W) : Sim Eqv (looseEqual H 5 a b) (Ecma.looselyEqual H false a b) w := by
  cases a with
  | bool x =>
    cases b with
    | bool y => exact Sim.refl _ _
    | _ => cases x <;> first | exact Sim.refl _ _ | exact Sim.fatal' _ _
  | _ =>
    cases b with
    | bool y => cases y <;> first | exact Sim.refl _ _ | exact Sim.fatal' _ _
    | _ => first | exact Sim.refl _ _ | exact Sim.fatal' _ _

theorem inOp_sim (a b : Val F) (w : W) : Sim Eqv (inOp H a b) (Ecma.hasProperty H a b) w := by
  cases b with
  | obj o =>
    simp only [inOp, Ecma.hasProperty]
    exact (toPropertyKey_sim H a w).bindE fun k w => Sim.refl _ _
  | _ => exact Sim.raise H _ _

theorem walk_sim (p : Nat) (n : Nat) (os : List Nat) (w : W) :
    Sim (F := F) Eqv (walk p n os) (pure (decide (p ∈ os))) w := by
  induction os generalizing n with
  | nil => cases n <;> exact Sim.refl _ _
  | cons o os ih =>
    cases n with
    | zero => exact Sim.fatal _ _
    | succ n =>
      simp only [walk, List.mem_cons]
      by_cases h : o = p
      · subst h
        simp only [if_true, true_or, decide_true]
        exact Sim.refl _ _
      · have : (p = o ∨ p ∈ os) ↔ p ∈ os := ⟨fun hh => hh.resolve_left fun e => h e.symm, .inr⟩
        simp only [h, if_false, this]
        exact ih n

theorem ask_sim {A A' B : Type} {Q : A' → B → W → Prop} (f : W → A) {m : A → M F W A'} {s : A → M F W B} {w : W}
    (h : Sim Q (m (f w)) (s (f w)) w) : Sim Q (M.ask f >>= m) (M.ask f >>= s) w := by
  unfold Sim
  rw [ask_bind, ask_bind]
  exact h

theorem ask_simL {A A' B : Type} {Q : A' → B → W → Prop} (f : W → A) {m : A → M F W A'} {s : M F W B} {w : W}
    (h : Sim Q (m (f w)) s w) : Sim Q (M.ask f >>= m) s w := by
  unfold Sim
  rw [ask_bind]
  exact h

theorem ask_simR {A A' B : Type} {Q : A' → B → W → Prop} (f : W → A) {m : M F W A'} {s : A → M F W B} {w : W}
    (h : Sim Q m (s (f w)) w) : Sim Q m (M.ask f >>= s) w := by
  unfold Sim
  rw [ask_bind]
  exact h

theorem within_sim {A B : Type} {Q : A → B → W → Prop} {m : M F W A} {s : Unit → M F W B} {w : W} (ok : Bool)
    (h : ok = true → Sim Q m (s ()) w) : Sim Q m (Ecma.within false ok >>= s) w := by
  cases ok with
  | false =>
    simp only [Ecma.within, Bool.or_false, Bool.false_eq_true, if_false, fatal_bind]
    exact Sim.fatal' _ _
  | true =>
    simp only [Ecma.within, Bool.or_true, if_true, pure_bind']
    exact h rfl

theorem protoTest_sim (v : Val F) (o : Nat) (w : W) : Sim Eqv (protoTest H v o) (Ecma.hasPrototype H v o) w := by
  cases v with
  | obj i =>
    refine (Sim.refl _ _).bindE fun p w => ?_
    cases p with
    | obj p =>
      refine ask_simL _ ?_
      exact walk_sim p maxChain (H.protos i w) w
    | _ => exact Sim.raise H _ _
  | _ => exact Sim.refl _ _

theorem instanceOf_succ (n : Nat) (v : Val F) (o : Nat) : instanceOf H (n + 1) v (.obj o) = (do
    if ← M.ask (H.callable o) then do
      let m ← M.run (H.get o (.sym H.hasInstance) (.obj o))
      if isNullish m then do
        if ← M.ask (H.constructor o) then do
          match ← M.ask (H.bound o) with
          | some t => instanceOf H n v (.obj t)
          | none => protoTest H v o
        else pure false
      else if ← isCallable H m then do pure (toBoolean H (← callV H m (.obj o) [v]))
      else raise H .type
    else raise H .type) := rfl

theorem ecmaInstanceOf_succ (n : Nat) (v : Val F) (o : Nat) : Ecma.instanceOf H false (n + 1) v (.obj o) = (do
      Ecma.within false (← M.ask (H.callable o))
      match ← Ecma.getMethod H o (.sym H.hasInstance) with
      | some h => do pure (Ecma.toBoolean H (← Ecma.call H h (.obj o) [v]))
      | none => do
        Ecma.within false (← M.ask (H.callable o))
        if ← M.ask (H.callable o) then do
          Ecma.within false (← M.ask (H.constructor o))
          match ← M.ask (H.bound o) with
          | some t => Ecma.instanceOf H false n v (.obj t)
          | none => Ecma.hasPrototype H v o
        else raise H .type) := rfl

theorem instanceOf_sim (n : Nat) (v t : Val F) (w : W) :
    Sim Eqv (instanceOf H n v t) (Ecma.instanceOf H false n v t) w := by
  induction n generalizing v t w with
  | zero => exact .inr (.inr .none)
  | succ n ih =>
    cases t with
    | obj o =>
      rw [instanceOf_succ, ecmaInstanceOf_succ]
      refine ask_sim _ (within_sim _ fun hc => ?_)
      rw [hc, if_pos rfl]
      simp only [Ecma.getMethod, bind_bind]
      refine (Sim.refl _ _).bindE fun m w => ?_
      rw [isNullish_eq]
      cases Ecma.Nullish m with
      | true =>
        simp only [if_true, pure_bind']
        refine ask_simR _ (within_sim _ fun hc => ask_simR _ ?_)
        rw [hc, if_pos rfl]
        refine ask_sim _ (within_sim _ fun hk => ?_)
        rw [hk, if_pos rfl]
        refine ask_sim _ ?_
        cases H.bound o w with
        | some t => exact ih v (.obj t) w
        | none =>
          exact protoTest_sim H v o w
      | false =>
        simp only [Bool.false_eq_true, if_false, bind_bind, isCallable_eq, callV_eq, toBoolean_eq]
        refine (Sim.refl _ _).bindE fun b w => ?_
        cases b
        · exact Sim.raise H _ _
        · exact Sim.refl _ _
    | _ => exact Sim.raise H _ _

theorem binOp_sim (n : Nat) (op : BinOp) (a b : Val F) (w : W) :
    Sim Eqv (binOp H n op a b) (Ecma.binary H false n op a b) w := by
  cases op with
  | strictEq => simp only [binOp, Ecma.binary, strictEqual_eq]; exact Sim.refl _ _
  | strictNe => simp only [binOp, Ecma.binary, strictEqual_eq]; exact Sim.refl _ _
  | eq => exact (looseEqual_sim H a b w).bindE fun _ _ => Sim.refl _ _
  | ne => exact (looseEqual_sim H a b w).bindE fun _ _ => Sim.refl _ _
  | in_ => exact inOp_sim H a b w
  | instanceof => exact (instanceOf_sim H n a b w).bindE fun _ _ => Sim.refl _ _
  | add => exact addOp_sim H a b w
  | mul => exact mulOp_sim H a b w
  | sub => exact numOp_arith_sim H .sub (.inl rfl) a b w
  | div => exact numOp_arith_sim H .div (.inr (.inl rfl)) a b w
  | rem => exact numOp_arith_sim H .rem (.inr (.inr rfl)) a b w
  | lt => exact numOp_compare_sim H .lt (.inl rfl) a b w
  | gt => exact numOp_compare_sim H .gt (.inr (.inl rfl)) a b w
  | le => exact numOp_compare_sim H .le (.inr (.inr (.inl rfl))) a b w
  | ge => exact numOp_compare_sim H .ge (.inr (.inr (.inr rfl))) a b w

theorem unOp_sim (op : UnOp) (a : Val F) (w : W) : Sim Eqv (unOp H op a) (Ecma.unary H op a) w := by
  cases op with
  | not => simp only [unOp, Ecma.unary, toBoolean_eq]; exact Sim.refl _ _
  | plus => exact (toNumberOp_sim H a w).bindE fun _ _ => Sim.refl _ _
  | neg =>
    refine (toNumeric_sim H a w).bind fun x y w h => ?_
    cases x <;> cases y <;> cases h <;> exact Sim.refl _ _
  | void => exact Sim.refl _ _

end

end Verif.Expr
