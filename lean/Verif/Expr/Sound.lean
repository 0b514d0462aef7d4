import Verif.Expr.Prims
/-!
# The evaluator and ECMA-262 side by side
-/

namespace Verif.Expr

section
variable {F E R I P C W : Type} [DecidableEq R] (H : Host F E R I P C W) (c : Ctx F E)

/-- A reference of the evaluator stands for a Reference Record: for a name, the record has some binding. -/
def RefOk : VmRef → Option (Ecma.Ref F R) → Prop
  | .name x, some (.name _ x') => x = x'
  | .prop o k, some (.prop (.obj o') key) => o = o' ∧ Ecma.toPropertyKey H key = (pure k : M F W Key)
  | _, _ => False

/-- …and right after it is made, the binding is the one the name has now. -/
def RefNow (a : VmRef) (b : Option (Ecma.Ref F R)) (w : W) : Prop :=
  RefOk H a b ∧ ∀ r x, b = some (.name r x) → r = H.resolve c.env x w

theorem readName_eq (x : Str) : readName H c x = (do
    let r ← M.ask (H.resolve c.env x)
    Ecma.getValue H (.name r x)) := rfl

theorem getRef_sim {a : VmRef} {r : Ecma.Ref F R} {w : W} (h : RefNow H c a (some r) w) :
    Sim Eqv (getRef H c a) (Ecma.getValue H r) w := by
  cases a with
  | name x =>
    cases r with
    | value v => exact h.1.elim
    | prop b k => exact h.1.elim
    | name r x' =>
      have hx : x = x' := h.1
      subst hx
      cases h.2 r x rfl
      rw [getRef, readName_eq]
      exact ask_simL _ (Sim.refl _ _)
  | prop o k =>
    cases r with
    | value v => exact h.1.elim
    | name r x => exact h.1.elim
    | prop b key =>
      cases b with
      | obj o' =>
        obtain ⟨rfl, hk⟩ : o = o' ∧ _ := h.1
        simp only [getRef, Ecma.getValue, Ecma.toObject, pure_bind', hk]
        exact Sim.refl _ _
      | _ => exact h.1.elim

theorem putRef_sim {a : VmRef} {r : Ecma.Ref F R} (v : Val F) (w : W) (h : RefOk H a (some r)) :
    Sim Eqv (putRef H c a v) (Ecma.putValue H c false r v) w := by
  cases a with
  | name x =>
    cases r with
    | value v => exact h.elim
    | prop b k => exact h.elim
    | name r x' =>
      have hx : x = x' := h
      subst hx
      simp only [putRef, Ecma.putValue]
      refine ask_sim _ (within_sim _ fun hr => ?_)
      rw [of_decide_eq_true hr]
      exact Sim.refl _ _
  | prop o k =>
    cases r with
    | value v => exact h.elim
    | name r x => exact h.elim
    | prop b key =>
      cases b with
      | obj o' =>
        obtain ⟨rfl, hk⟩ : o = o' ∧ _ := h
        simp only [putRef, Ecma.putValue, Ecma.toObject, pure_bind', hk]
        refine (Sim.refl _ _).bindE fun ok w => ?_
        cases ok <;> cases c.strict <;> first | exact Sim.raise H _ _ | exact Sim.refl _ _
      | _ => exact h.elim

/-- The function and the `this` of a call, nothing if an optional chain has ended. -/
def calleeS (e : M F W (Option (Ecma.Ref F R))) : M F W (Option (Val F × Val F)) := do
  match ← e with
  | none => pure none
  | some r => do
    let g ← Ecma.getValue H r
    pure (some (g, Ecma.thisOf r))

/-- What the evaluator finds for a callee, and what ECMA-262 says: where a chain has ended in a call, the evaluator goes
on with `undefined`. -/
def CalleeRel (x : Expr F P C) (a b : Option (Val F × Val F)) (_ : W) : Prop :=
  (a = b ∧ (a = none → Ecma.closedChain.hasOpt x = true)) ∨
    (Ecma.parenCall.isCall x = true ∧ a = some (.undef, .undef) ∧ b = none)

/-- A node of the evaluator does what ECMA-262 says. -/
structure Good (x : Expr F P C) (N : Node F W) (e : M F W (Option (Ecma.Ref F R))) : Prop where
  val : ∀ w, Sim Eqv N.val (Ecma.valueOf H e) w
  ref : ∀ w, Sim (RefNow H c) N.ref e w
  callee : Ecma.closedChain x = false → ∀ w, Sim (CalleeRel x) N.callee (calleeS H e) w
  typeofArg : ∀ w, Sim Eqv N.typeofArg (Ecma.typeofArg H e) w
  del : ∀ w, Sim Eqv N.del (Ecma.delete H c false e) w
  new_ : Ecma.parenCall.isCall x = false → ∀ w, Sim Eqv N.new_ (do
    let g ← Ecma.valueOf H e
    Ecma.construct H g []) w

theorem valueOf_isValue (s : M F W (Val F)) : Ecma.valueOf H (Ecma.isValue (R := R) s) = s := by
  simp only [Ecma.valueOf, Ecma.isValue, bind_bind, pure_bind', Ecma.getValue]
  exact bind_pure' s

/-- A node whose value is that of another step. -/
theorem plain_good (x : Expr F P C) {m s : M F W (Val F)} (h : ∀ w, Sim Eqv m s w) :
    Good H c x (plainNode H m) (Ecma.isValue (R := R) s) where
  val w := by rw [valueOf_isValue]; exact h w
  ref w := Sim.fatal _ _
  callee _ w := by
    simp only [plainNode, calleeS, Ecma.isValue, bind_bind, pure_bind', Ecma.getValue, Ecma.thisOf]
    exact (h w).bindE fun a w => Sim.pure (.inl ⟨rfl, fun h => by cases h⟩)
  typeofArg w := by
    simp only [plainNode, Ecma.typeofArg, Ecma.isValue, bind_bind, pure_bind', Ecma.getValue]
    rw [bind_pure']
    exact h w
  del w := by
    simp only [plainNode, Ecma.delete, Ecma.isValue, bind_bind, pure_bind']
    exact (h w).bindE fun a w => Sim.refl _ _
  new_ _ w := by
    rw [valueOf_isValue]
    simp only [plainNode, constructV_eq]
    exact (h w).bindE fun a w => Sim.refl _ _

theorem id_good (x : Str) : Good H c (.id x : Expr F P C) (idNode H c x)
    (do pure (some (.name (← M.ask (H.resolve c.env x)) x))) where
  val w := by
    simp only [Ecma.valueOf, bind_bind, pure_bind', idNode, readName_eq]
    exact Sim.refl _ _
  ref w := by
    refine ask_simR _ (Sim.pure ⟨rfl, ?_⟩)
    intro r y hr
    cases hr
    rfl
  callee _ w := by
    simp only [calleeS, bind_bind, pure_bind', idNode, readName_eq, Ecma.thisOf]
    refine ask_sim _ ?_
    exact (Sim.refl _ _).bindE fun a w => Sim.pure (.inl ⟨rfl, fun h => by cases h⟩)
  typeofArg w := by
    simp only [Ecma.typeofArg, bind_bind, pure_bind', idNode, Ecma.getValue]
    refine ask_sim _ ?_
    cases hu : H.unresolvable (H.resolve c.env x w)
    · simp only [Bool.false_eq_true, if_false]; exact Sim.refl _ _
    · simp only [if_true]; exact Sim.refl _ _
  del w := by
    simp only [Ecma.delete, bind_bind, pure_bind', idNode]
    refine ask_simR _ (within_sim _ fun hs => ?_)
    have : c.strict = false := by simpa using hs
    simp only [this, Bool.false_eq_true, if_false]
    exact ask_simL _ (Sim.refl _ _)
  new_ _ w := by
    simp only [Ecma.valueOf, bind_bind, pure_bind', idNode, readName_eq, constructV_eq]
    exact Sim.refl _ _

/-- Reading a member. -/
theorem valueOf_bind {A : Type} (m : M F W A) (f : A → M F W (Option (Ecma.Ref F R))) :
    Ecma.valueOf H (m >>= f) = (m >>= fun a => Ecma.valueOf H (f a)) := by
  simp only [Ecma.valueOf, bind_bind]

/-- A member expression, after ECMA-262: `key` evaluates to the value of the key. -/
def memberS (opt : Bool) (e : M F W (Option (Ecma.Ref F R))) (key : M F W (Val F)) : M F W (Option (Ecma.Ref F R)) := do
  match ← e with
  | none => pure none
  | some r => do
    let base ← Ecma.getValue H r
    if opt && Ecma.Nullish base then pure none
    else do
      let k ← key
      pure (some (.prop base k))

/-- The key of a member expression: the evaluator has the property key, ECMA-262 a value that stands for it. -/
def KeyOk (k : Key) (v : Val F) (_ : W) : Prop := Ecma.toPropertyKey H v = (pure k : M F W Key)

/-- A step after the value of an expression, where ECMA-262 sees that an optional chain has ended. -/
theorem Sim.valueOf {A B : Type} {Q : A → B → W → Prop} {x : M F W (Val F)} {e : M F W (Option (Ecma.Ref F R))} {w : W}
    (h : Sim Eqv x (Ecma.valueOf H e) w) {f : Val F → M F W A} {g : Option (Ecma.Ref F R) → M F W B}
    (k : Val F → M F W B) (hg : ∀ r, g (some r) = (Ecma.getValue H r >>= k)) (hn : ∀ w, Sim Q (f .undef) (g none) w)
    (hk : ∀ b w, Sim Q (f b) (k b) w) : Sim Q (x >>= f) (e >>= g) w := by
  rcases h with h | h | h
  · exact .inl h.bind
  · -- ECMA-262 gives up
    simp only [Ecma.valueOf, bind_apply, M.bind] at h
    refine .inr (.inl ?_)
    simp only [bind_apply, M.bind]
    rcases hw : e w with _ | ⟨o, w'⟩
    · simp only [hw] at h; exact h.elim fun _ h => by cases h
    · cases o with
      | throw v => simp only [hw] at h; exact h.elim fun _ h => by cases h
      | fatal => exact ⟨_, rfl⟩
      | ok r =>
        cases r with
        | none => simp only [hw] at h; exact h.elim fun _ h => by cases h
        | some r =>
          simp only [hw] at h
          simp only [hg]
          exact Fatal.bind h
  · simp only [Ecma.valueOf, bind_apply, M.bind] at h
    unfold Sim
    simp only [bind_apply, M.bind]
    rcases hw : e w with _ | ⟨o, w'⟩
    · simp only [hw] at h
      revert h
      generalize x w = xr
      intro h
      cases h
      exact .inr (.inr .none)
    · simp only [hw] at h
      revert h
      generalize x w = xr
      intro h
      cases o with
      | throw v => cases h; exact .inr (.inr .throw)
      | fatal => cases h
      | ok r =>
        cases r with
        | none =>
          cases h with
          | ok q => cases q; exact hn _
        | some r =>
          simp only [hg, bind_apply, M.bind]
          have h : Same Eqv xr (Ecma.getValue H r w') := h
          revert h
          generalize Ecma.getValue H r w' = gr
          intro h
          cases h with
          | none => exact .inr (.inr .none)
          | ok q => cases q; exact hk _ _
          | throw => exact .inr (.inr .throw)

/-- A step after the base of a member expression. -/
theorem member_sim {A B : Type} {Q : A → B → W → Prop} (opt : Bool) {x : M F W (Val F)} {key : M F W Key}
    {e : M F W (Option (Ecma.Ref F R))} {keyS : M F W (Val F)} (hx : ∀ w, Sim Eqv x (Ecma.valueOf H e) w)
    (hk : ∀ w, Sim (KeyOk H) key keyS w) {none_ : M F W A} {some_ : Nat → Key → M F W A}
    {s : Option (Ecma.Ref F R) → M F W B} (hn : opt = true → ∀ w, Sim Q none_ (s none) w)
    (hs : ∀ o k kv w, Ecma.toPropertyKey H kv = (pure k : M F W Key) →
      Sim Q (some_ o k) (s (some (.prop (.obj o) kv))) w) (w : W) :
    Sim Q (do
      let b ← x
      if opt && isNullish b then none_
      else match b with
        | .obj o => do some_ o (← key)
        | _ => M.fatal) (memberS H opt e keyS >>= s) w := by
  -- the base, and what follows it
  have hbase : ∀ (b : Val F) (w : W), Sim Q
      (if opt && isNullish b then none_
      else match b with
        | .obj o => do some_ o (← key)
        | _ => M.fatal)
      ((if opt && Ecma.Nullish b then pure none
        else do
          let k ← keyS
          pure (some (Ecma.Ref.prop b k))) >>= s) w := by
    intro b w
    rw [isNullish_eq]
    cases hb : (opt && Ecma.Nullish b) with
    | true =>
      simp only [if_true, pure_bind']
      exact hn (by cases opt <;> simp_all) w
    | false =>
      simp only [Bool.false_eq_true, if_false]
      cases b with
      | obj o =>
        simp only [bind_bind, pure_bind']
        exact (hk w).bind fun k kv w hkv => hs o k kv w hkv
      | _ => exact Sim.fatal _ _
  simp only [memberS, bind_bind]
  refine (hx w).valueOf H (k := fun b => (if opt && Ecma.Nullish b then pure none
        else do
          let k ← keyS
          pure (some (Ecma.Ref.prop b k))) >>= s) ?_ ?_ hbase
  · intro r
    simp only [bind_bind]
  · intro w
    cases opt with
    | true => exact hn rfl w
    | false => exact Sim.fatal _ _

theorem member_good (x' : Expr F P C) (opt : Bool) (hopt : Ecma.closedChain.hasOpt x' = opt) {x : M F W (Val F)}
    {key : M F W Key} {e : M F W (Option (Ecma.Ref F R))} {keyS : M F W (Val F)}
    (hx : ∀ w, Sim Eqv x (Ecma.valueOf H e) w) (hk : ∀ w, Sim (KeyOk H) key keyS w) :
    Good H c x' (memberNode H c opt x key) (memberS H opt e keyS) := by
  have hget : ∀ o k kv w, Ecma.toPropertyKey H kv = (pure k : M F W Key) →
      Sim Eqv (getRef H c (.prop o k)) (Ecma.getValue H (.prop (.obj o) kv : Ecma.Ref F R)) w := by
    intro o k kv w h
    simp only [getRef, Ecma.getValue, Ecma.toObject, pure_bind', h]
    exact Sim.refl _ _
  have hval : ∀ w, Sim Eqv (memberVal H c opt x key) (Ecma.valueOf H (memberS H opt e keyS)) w :=
    member_sim H opt hx hk (fun _ w => Sim.refl _ w) hget
  constructor
  · exact hval
  · cases opt with
    | true => exact fun w => Sim.fatal _ _
    | false =>
      intro w
      have := member_sim H (Q := RefNow H c) false hx hk (none_ := M.fatal) (some_ := fun o k => pure (.prop o k))
        (s := pure) (fun h => by cases h) (fun o k kv w h => Sim.pure ⟨⟨rfl, h⟩, fun r x hr => by cases hr⟩) w
      rw [bind_pure'] at this
      exact this
  · intro _ w
    refine member_sim H (Q := CalleeRel x') opt hx hk (fun h w => Sim.pure (.inl ⟨rfl, fun _ => hopt.trans h⟩))
      (some_ := fun o k => do pure (some (← getRef H c (.prop o k), .obj o))) ?_ w
    intro o k kv w h
    exact (hget o k kv w h).bindE fun g w => Sim.pure (.inl ⟨rfl, fun h => by cases h⟩)
  · intro w
    refine member_sim H (Q := Eqv) opt hx hk (none_ := pure .undef) (some_ := fun o k => getRef H c (.prop o k))
      (fun _ w => ?_) ?_ w
    · exact Sim.refl _ _
    · exact hget
  · cases opt with
    | true => exact fun w => Sim.fatal _ _
    | false =>
      intro w
      refine member_sim H false hx hk (none_ := M.fatal) (some_ := fun o k => M.run (H.delete o k))
        (fun h => by cases h) ?_ w
      intro o k kv w h
      simp only [Ecma.toObject, pure_bind', h]
      rw [← bind_pure' (M.run (H.delete o k))]
      simp only [bind_bind, pure_bind']
      refine (Sim.refl _ _).bindE fun ok w => within_sim _ fun hok => ?_
      cases ok <;> cases hc : c.strict <;> simp_all <;> exact Sim.refl _ _
  · intro _ w
    simp only [memberNode, constructV_eq]
    exact (hval w).bindE fun _ w => Sim.refl _ w

theorem paren_good {x : Expr F P C} {N : Node F W} {e : M F W (Option (Ecma.Ref F R))} (h : Good H c x N e) :
    Good H c (.paren x) N (do
      match ← e with
      | none => pure (some (.value .undef))
      | some r => pure (some r)) := by
  have hv : Ecma.valueOf H (do
      match ← e with
      | none => pure (some (.value .undef))
      | some r => pure (some r)) = Ecma.valueOf H e := by
    simp only [Ecma.valueOf, bind_bind]
    congr 1
    funext r
    cases r <;> rfl
  constructor
  · rw [hv]; exact h.val
  · intro w
    rw [← bind_pure' N.ref]
    refine (h.ref w).bind fun a b w hab => ?_
    cases b with
    | none => cases a <;> exact hab.1.elim
    | some r => exact Sim.pure hab
  · intro hc w
    have hc : Ecma.closedChain.hasOpt x = false := hc
    have hc' : Ecma.closedChain x = false := by
      cases x <;> first | exact hc | rfl
    have hs : calleeS H (do
        match ← e with
        | none => pure (some (.value .undef))
        | some r => pure (some r)) = (do
        match ← calleeS H e with
        | none => pure (some (.undef, .undef))
        | some p => pure (some p)) := by
      simp only [calleeS, bind_bind]
      congr 1
      funext r
      cases r with
      | none => rfl
      | some r => simp only [bind_bind, pure_bind']
    rw [hs, ← bind_pure' N.callee]
    refine (h.callee hc' w).bind fun a b w hab => ?_
    rcases hab with ⟨rfl, ha⟩ | ⟨hi, rfl, rfl⟩
    · cases a with
      | none => rw [ha rfl] at hc; cases hc
      | some p => exact Sim.pure (.inl ⟨rfl, fun h => by cases h⟩)
    · exact Sim.pure (.inl ⟨rfl, fun h => by cases h⟩)
  · intro w
    have : Ecma.typeofArg H (do
        match ← e with
        | none => pure (some (.value .undef))
        | some r => pure (some r)) = Ecma.typeofArg H e := by
      simp only [Ecma.typeofArg, bind_bind]
      congr 1
      funext r
      cases r <;> rfl
    rw [this]
    exact h.typeofArg w
  · intro w
    have : Ecma.delete H c false (do
        match ← e with
        | none => pure (some (.value .undef))
        | some r => pure (some r)) = Ecma.delete H c false e := by
      simp only [Ecma.delete, bind_bind]
      congr 1
      funext r
      cases r <;> rfl
    rw [this]
    exact h.del w
  · intro hc w
    rw [hv]
    exact h.new_ hc w

theorem chain_good (x : Expr F P C) (hx : Ecma.parenCall.isCall x = true) {m : M F W (Val F)}
    {s : M F W (Option (Val F))} (hs : ∀ w, Sim (fun a b _ => (b = none ∧ a = .undef) ∨ b = some a) m s w)
    (k : M F W (Val F)) :
    Good H c x { plainNode H m with new_ := k } (do
      let v ← s
      pure (v.map (Ecma.Ref.value (R := R)))) := by
  constructor
  · intro w
    simp only [Ecma.valueOf, bind_bind, pure_bind', plainNode]
    rw [← bind_pure' m]
    refine (hs w).bind fun a b w hab => ?_
    rcases hab with ⟨rfl, rfl⟩ | rfl <;> exact Sim.refl _ _
  · exact fun w => Sim.fatal _ _
  · intro _ w
    simp only [calleeS, bind_bind, pure_bind', plainNode]
    refine (hs w).bind fun a b w hab => ?_
    rcases hab with ⟨rfl, rfl⟩ | rfl
    · exact Sim.pure (.inr ⟨hx, rfl, rfl⟩)
    · exact Sim.pure (.inl ⟨rfl, fun h => by cases h⟩)
  · intro w
    simp only [Ecma.typeofArg, bind_bind, pure_bind', plainNode]
    rw [← bind_pure' m]
    refine (hs w).bind fun a b w hab => ?_
    rcases hab with ⟨rfl, rfl⟩ | rfl <;> exact Sim.refl _ _
  · intro w
    simp only [Ecma.delete, bind_bind, pure_bind', plainNode]
    refine (hs w).bind fun a b w hab => ?_
    rcases hab with ⟨rfl, rfl⟩ | rfl <;> exact Sim.refl _ _
  · intro h
    rw [hx] at h
    cases h

theorem call_good (opt : Bool) {f : Expr F P C} (as : Args F P C) {N : Node F W}
    {e : M F W (Option (Ecma.Ref F R))} (h : Good H c f N e) {args argsS : M F W (List (Val F))}
    (ha : ∀ w, Sim Eqv args argsS w) (k : M F W (Val F)) :
    Good H c (.call opt f as)
      { plainNode H (if !opt && isEval f then M.fatal else do
          match ← N.callee with
          | none => pure .undef
          | some (g, this) =>
            if opt && isNullish g then pure .undef
            else do callV H g this (← args)) with
        new_ := k }
      (do
        Ecma.within false (!Ecma.closedChain f)
        match ← e with
        | none => do
          Ecma.within false (!Ecma.parenCall.isCall f)
          pure none
        | some r => do
          let g ← Ecma.getValue H r
          if opt && Ecma.Nullish g then pure none
          else do
            let as ← argsS
            Ecma.isValue (Ecma.call H g (Ecma.thisOf r) as)) := by
  -- the value of the call, if the chain has not ended
  have hs : ∀ w, Sim (fun a b _ => (b = none ∧ a = .undef) ∨ b = some a)
      (if !opt && isEval f then M.fatal else do
          match ← N.callee with
          | none => pure .undef
          | some (g, this) =>
            if opt && isNullish g then pure .undef
            else do callV H g this (← args))
      (do
        Ecma.within false (!Ecma.closedChain f)
        match ← calleeS H e with
        | none => do
          Ecma.within false (!Ecma.parenCall.isCall f)
          pure none
        | some (g, this) =>
          if opt && Ecma.Nullish g then pure none
          else do
            let as ← argsS
            let v ← Ecma.call H g this as
            pure (some v)) w := by
    intro w
    split
    · exact Sim.fatal _ _
    · refine within_sim _ fun hc => ?_
      refine (h.callee (by simpa using hc) w).bind fun a b w hab => ?_
      rcases hab with ⟨rfl, hn⟩ | ⟨hi, rfl, rfl⟩
      · cases a with
        | none => exact within_sim _ fun _ => Sim.pure (.inl ⟨rfl, rfl⟩)
        | some p =>
          obtain ⟨g, this⟩ := p
          simp only [isNullish_eq, callV_eq]
          split
          · exact Sim.pure (.inl ⟨rfl, rfl⟩)
          · refine (ha w).bindE fun as w => ?_
            rw [← bind_pure' (Ecma.call H g this as)]
            simp only [bind_bind, pure_bind']
            exact (Sim.refl _ _).bindE fun v w => Sim.pure (.inr rfl)
      · simp only [hi]
        exact Sim.fatal' _ _
  have he : (do
        Ecma.within false (!Ecma.closedChain f)
        match ← e with
        | none => do
          Ecma.within false (!Ecma.parenCall.isCall f)
          pure none
        | some r => do
          let g ← Ecma.getValue H r
          if opt && Ecma.Nullish g then pure none
          else do
            let as ← argsS
            Ecma.isValue (Ecma.call H g (Ecma.thisOf r) as)) = (do
        let v ← (do
          Ecma.within false (!Ecma.closedChain f)
          match ← calleeS H e with
          | none => do
            Ecma.within false (!Ecma.parenCall.isCall f)
            pure none
          | some (g, this) =>
            if opt && Ecma.Nullish g then pure none
            else do
              let as ← argsS
              let v ← Ecma.call H g this as
              pure (some v))
        pure (v.map (Ecma.Ref.value (R := R)))) := by
    simp only [calleeS, bind_bind]
    congr 1
    funext _
    congr 1
    funext r
    cases r with
    | none => simp only [pure_bind', bind_bind]; rfl
    | some r =>
      simp only [bind_bind, pure_bind']
      congr 1
      funext g
      split
      · rfl
      · simp only [Ecma.isValue, bind_bind, pure_bind', Option.map]
  rw [he]
  exact chain_good H c _ rfl hs k

theorem update_sim (pre inc : Bool) {ref : M F W VmRef} {e : M F W (Option (Ecma.Ref F R))}
    (h : ∀ w, Sim (RefNow H c) ref e w) (w : W) :
    Sim Eqv (updateOp H c pre inc ref) (Ecma.update H c false pre inc e) w := by
  simp only [updateOp, Ecma.update]
  refine (h w).bind fun a b w hab => ?_
  cases b with
  | none => cases a <;> exact hab.1.elim
  | some r =>
    refine (getRef_sim H c hab).bindE fun v w => ?_
    refine (toNumeric_sim H v w).bind fun x y w hxy => ?_
    cases x with
    | num a' =>
      cases y with
      | inr j => exact hxy.elim
      | inl b' =>
        cases hxy
        have : (if inc then H.num.add a' H.num.one else H.num.sub a' H.num.one) =
            H.num.add a' (if inc then H.num.one else H.num.neg H.num.one) := by
          cases inc
          · exact H.num.sub_eq _ _
          · rfl
        simp only [this]
        refine (putRef_sim H c _ w hab.1).bindE fun _ w => ?_
        cases pre <;> exact Sim.refl _ _
    | big i =>
      cases y with
      | inl b' => exact hxy.elim
      | inr j =>
        cases hxy
        have : (if inc then i + 1 else i - 1) = i + if inc then 1 else -1 := by cases inc <;> rfl
        simp only [this]
        refine bigOr_bind_sim H _ _ ?_
        refine (putRef_sim H c _ w hab.1).bindE fun _ w => ?_
        cases pre <;> exact Sim.refl _ _

theorem drain_eq {A : Type} (g : Val F → A) (n : Nat) (i : I) (acc : List A) :
    drain H g n i acc = Ecma.values H g n i acc := by
  induction n generalizing i acc with
  | zero => rfl
  | succ n ih =>
    simp only [drain, Ecma.values]
    congr 1
    funext r
    obtain ⟨v, i⟩ := r
    cases v with
    | none => rfl
    | some v => exact ih i _

theorem define_sim (o : Nat) (k : Key) (v : Val F) (w : W) :
    Sim Eqv (defineIn H o k v) (Ecma.createProperty H o k v) w := by
  refine (Sim.refl _ _).bindE fun b w => ?_
  cases b
  · exact Sim.fatal _ _
  · exact Sim.refl _ _

theorem copyKeys_sim (o src : Nat) (ks : List Key) (w : W) :
    Sim Eqv (copyKeys H o src ks) (Ecma.copyAll H o src ks) w := by
  induction ks generalizing w with
  | nil => exact Sim.refl _ _
  | cons k ks ih =>
    simp only [copyKeys, Ecma.copyAll, Ecma.copyOne, bind_bind]
    refine (Sim.refl _ _).bindE fun b w => ?_
    rcases b with _ | b
    · simp only [reduceCtorEq, if_false, pure_bind']
      exact ih w
    · cases b
      · simp only [Option.some.injEq, Bool.false_eq_true, if_false, pure_bind']
        exact ih w
      · simp only [if_true, bind_bind, Ecma.createProperty]
        refine (Sim.refl _ _).bindE fun v w => ?_
        refine (Sim.refl _ _).bindE fun b w => ?_
        cases b
        · exact Sim.fatal _ _
        · exact ih w

theorem spreadInto_sim (o : Nat) (v : Val F) (w : W) :
    Sim Eqv (spreadInto H o v) (Ecma.copyFrom H o v) w := by
  cases v with
  | undef => exact Sim.refl _ _
  | null => exact Sim.refl _ _
  | obj src =>
    simp only [spreadInto, Ecma.copyFrom, Ecma.Nullish, Bool.false_eq_true, if_false, Ecma.toObject, pure_bind']
    exact (Sim.refl _ _).bindE fun ks w => copyKeys_sim H o src ks w
  | _ => exact Sim.fatal _ _

theorem typeof_sim (v : Val F) (w : W) :
    Sim Eqv (typeofName H v) (do pure (.str (← Ecma.typeName H v))) w := by
  cases v with
  | obj o =>
    simp only [typeofName, Ecma.typeName, bind_bind]
    refine ask_simR _ ?_
    unfold Sim
    simp only [M.ask]
    cases H.callable o w <;> exact .inr (.inr (.ok rfl))
  | _ => exact Sim.refl _ _

theorem named_sim (x : Expr F P C) (name : Str) {m s : M F W (Val F)} (h : ∀ w, Sim Eqv m s w) (w : W) :
    Sim Eqv m (Ecma.named H c false x name s) w := by
  unfold Ecma.named
  split
  · exact within_sim _ fun h => by cases h
  · exact h w

theorem assigned_sim (x y : Expr F P C) {m s : M F W (Val F)} (h : ∀ w, Sim Eqv m s w) (w : W) :
    Sim Eqv m (Ecma.assigned H c false x y s) w := by
  unfold Ecma.assigned
  split
  · exact named_sim H c y _ h w
  · exact h w

theorem index_key_sim {m s : M F W (Val F)} (h : ∀ w, Sim Eqv m s w) (w : W) :
    Sim (KeyOk H) (do toPropertyKey H (← m)) s w := by
  rw [← bind_pure' s]
  refine (h w).bindE fun v w => ?_
  rcases toPropertyKey_pure H v with h | ⟨k, h, h'⟩
  · rw [h]; exact Sim.fatal _ _
  · rw [h]; exact Sim.pure h'

end

end Verif.Expr
