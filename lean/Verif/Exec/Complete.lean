import Verif.Exec.Sound
/-!
# Whatever ECMA-262 says, the interpreter does
-/

namespace Verif.Exec

section
variable {X P D V E I W : Type} {H : Host X P D V E I W}

/-- A result that stands for the completion. -/
def Res (q : Bool) (r : Out V (Completion V)) (c' : Completion V) : Prop :=
  (∃ c, r = .ok c ∧ AQ q c c') ∨ ∃ t, r = .throw t ∧ c' = .throw t

/-- With enough fuel the interpreter comes to the completion. -/
def Gives (q : Bool) (m : Nat → Nat → Ev V E W (Completion V)) (e : E) (w : W) (c' : Completion V) (w' : W) : Prop :=
  ∃ N r, Res q r c' ∧ ∀ a, N ≤ a → ∀ b, N ≤ b → m a b ⟨e, w⟩ = some (r, ⟨e, w'⟩)

/-- The same, without errors. -/
def GivesOk (q : Bool) (m : Nat → Nat → Ev V E W (Completion V)) (e : E) (w : W) (c' : Completion V) (w' : W) : Prop :=
  ∃ N c, AQ q c c' ∧ ∀ a, N ≤ a → ∀ b, N ≤ b → m a b ⟨e, w⟩ = some (.ok c, ⟨e, w'⟩)

theorem GivesOk.gives {q : Bool} {m : Nat → Nat → Ev V E W (Completion V)} {e : E} {w : W} {c' : Completion V} {w' : W}
    (h : GivesOk q m e w c' w') : Gives q m e w c' w' := by
  obtain ⟨N, c, ha, h⟩ := h
  exact ⟨N, .ok c, .inl ⟨c, rfl, ha⟩, h⟩

theorem Gives.caught {q : Bool} {m : Nat → Nat → Ev V E W (Completion V)} {e : E} {w : W} {c' : Completion V} {w' : W}
    (h : Gives q m e w c' w') : GivesOk q (fun a b => Exec.caught (m a b)) e w c' w' := by
  obtain ⟨N, r, ⟨c, rfl, ha⟩ | ⟨t, rfl, rfl⟩, h⟩ := h
  · exact ⟨N, c, ha, fun a ha b hb => by simp [Exec.caught, h a ha b hb]⟩
  · exact ⟨N, .throw t, AQ.refl _ _, fun a ha b hb => by simp [Exec.caught, h a ha b hb]⟩

theorem Gives.map {q : Bool} {m : Nat → Nat → Ev V E W (Completion V)} {e : E} {w : W} {c' : Completion V} {w' : W}
    (h : Gives q m e w c' w') {f g : Completion V → Completion V} (hf : ∀ c c', AQ q c c' → AQ q (f c) (g c'))
    (ht : ∀ t, g (.throw t) = .throw t) : Gives q (fun a b => bindE (m a b) fun c => done (f c)) e w (g c') w' := by
  obtain ⟨N, r, ⟨c, rfl, ha⟩ | ⟨t, rfl, rfl⟩, h⟩ := h
  · exact ⟨N, .ok (f c), .inl ⟨_, rfl, hf _ _ ha⟩, fun a ha b hb => by simp [bindE, done, h a ha b hb]⟩
  · exact ⟨N, .throw t, .inr ⟨t, rfl, ht t⟩, fun a ha b hb => by simp [bindE, h a ha b hb]⟩

theorem Gives.unbreak {q : Bool} {m : Nat → Nat → Ev V E W (Completion V)} {e : E} {w : W} {c' : Completion V} {w' : W}
    (h : Gives q m e w c' w') :
    Gives q (fun a b => bindE (m a b) fun c => done (normaliseBreak H c)) e w (c'.unbreak H.undef) w' :=
  h.map (fun c c' ha => by rw [normaliseBreak_eq]; exact ha.unbreak) fun _ => rfl

theorem Gives.diag {q : Bool} {m : Nat → Nat → Ev V E W (Completion V)} {e : E} {w : W} {c' : Completion V} {w' : W}
    (h : Gives q m e w c' w') : Gives q (fun a _ => m a a) e w c' w' := by
  obtain ⟨N, r, hr, h⟩ := h
  exact ⟨N, r, hr, fun a ha _ _ => h a ha a ha⟩

theorem GivesOk.fixed {q : Bool} {m : Ev V E W (Completion V)} {e : E} {w : W} {c : Completion V} {w' : W}
    (h : m ⟨e, w⟩ = some (.ok c, ⟨e, w'⟩)) : GivesOk q (fun _ _ => m) e w c w' :=
  ⟨0, c, AQ.refl _ _, fun _ _ _ _ => h⟩

theorem Gives.throws {q : Bool} {m : Nat → Nat → Ev V E W (Completion V)} {e : E} {w : W} {t : V} {w' : W}
    (h : ∀ a b, 1 ≤ b → m a b ⟨e, w⟩ = some (.throw t, ⟨e, w'⟩)) : Gives q m e w (.throw t) w' :=
  ⟨1, .throw t, .inr ⟨t, rfl, rfl⟩, fun a _ b hb => h a b hb⟩

/-- The result of a declaration. -/
def EndsAs (r : Out V Unit) (c : Completion V) : Prop :=
  (r = .ok () ∧ c = .normal none) ∨ ∃ t, r = .throw t ∧ c = .throw t

def Rest.Plain (H : Host X P D V E I W) : Rest X P D → Prop
  | .last => True
  | .before b c => b.Plain H ∧ c.Plain H
  | .after b c => b.Plain H ∧ c.Plain H

def Rest.noIf : Rest X P D → Bool
  | .last => true
  | .before b c => b.noIf && c.noIf
  | .after b c => b.noIf && c.noIf

/-- The interpreter does the job. -/
def Runs (H : Host X P D V E I W) (q : Bool) (j : Job X P D V I) (e : E) (w : W) (c' : Completion V) (w' : W) : Prop :=
  match j with
  | .stmt s ls => s.Plain H → (q = true → s.noIf = true) → GivesOk q (fun a _ => evalS H a s ls) e w c' w'
  | .list ss last' => ss.Plain H → (q = true → ss.noIf = true) → ∀ last, (q = true → last = last') →
      GivesOk q (fun a _ => evalL H a ss last) e w c' w'
  | .block d ss => ss.Plain H → (q = true → ss.noIf = true) →
      GivesOk q (fun a _ => inScope H d (evalL H a ss none)) e w c' w'
  | .decl k ds => ∃ r, EndsAs r c' ∧ evalDecl H k ds ⟨e, w⟩ = some (r, ⟨e, w'⟩)
  | .init i => ∃ r, EndsAs r c' ∧ evalInit H i ⟨e, w⟩ = some (r, ⟨e, w'⟩)
  | .post x => ∃ r, EndsAs r c' ∧ evalPost H x ⟨e, w⟩ = some (r, ⟨e, w'⟩)
  | .handler h c0 => h.Plain H → (q = true → h.noIf = true) → ∀ c, AQ q c c0 →
      Gives q (fun a _ => evalH H a h c) e w c' w' ∧
        ((∀ p ss, h = .param p ss → Safe H p) → GivesOk q (fun a _ => evalH H a h c) e w c' w')
  | .final f c0 => f.Plain H → (q = true → f.noIf = true) → ∀ c, AQ q c c0 →
      GivesOk q (fun a _ => evalF H a f c) e w c' w'
  | .while_ x s ls v' => s.Plain H → (q = true → s.noIf = true) → ∀ v, (q = true → v = v') →
      Gives q (fun a b => whileLoop H x (evalS H a s []) ls b v) e w c' w'
  | .doWhile x s ls v' => s.Plain H → (q = true → s.noIf = true) → ∀ v, (q = true → v = v') →
      Gives q (fun a b => doLoop H x (evalS H a s []) ls b v) e w c' w'
  | .for_ cond post d ss ls v' => Bare H d → ss.Plain H → (q = true → ss.noIf = true) → ∀ v, (q = true → v = v') →
      Gives q (fun a b => forLoop H cond post (evalL H a ss none) ls b v) e w c' w'
  | .forIn l d ss ls ks v' => Bare H d → ss.Plain H → (q = true → ss.noIf = true) → ∀ v, (q = true → v = v') →
      Gives q (fun a _ => inLoop H l (evalL H a ss none) ls ks v) e w c' w'
  | .forOf l d ss ls i v' => Bare H d → l.shared = true → ClosesQuietly H → ss.Plain H →
      (q = true → ss.noIf = true) → ∀ v, (q = true → v = v') →
      Gives q (fun a b => ofLoop H l (evalL H a ss none) ls b i v) e w c' w'
  | .cases cs t found v' k => cs.Plain H → k.Plain H → (q = true → cs.noIf = true) → (q = true → k.noIf = true) →
      ∀ v, (q = true → v = v') → Gives q (fun a _ => bindE (evalC H a cs t found v) (contK H a t k)) e w c' w'
  | .default b c v' => b.Plain H → c.Plain H → (q = true → b.noIf = true) → (q = true → c.noIf = true) →
      ∀ v, (q = true → v = v') → Gives q (fun a _ => fromDefault H a b c v) e w c' w'
  | .bodies cs v' => cs.Plain H → (q = true → cs.noIf = true) →
      ∀ v, (q = true → v = v') → Gives q (fun a _ => evalB H a cs v) e w c' w'

/-- Where a block declares nothing its statements can be run as they are. -/
theorem bare_run {q : Bool} {d : D} {ss : Stmts X P D} {a : Nat} {e : E} {w : W} {c : Completion V} {w' : W}
    (hd : Bare H d) (hp : ss.Plain H) (hq : q = true → ss.noIf = true)
    (h : inScope H d (evalL H a ss none) ⟨e, w⟩ = some (.ok c, ⟨e, w'⟩)) :
    evalL H a ss none ⟨e, w⟩ = some (.ok c, ⟨e, w'⟩) := by
  rcases inScope_inv h with ⟨h, _⟩ | ⟨e1, w1, ⟨e2, w2⟩, hs, hm, h⟩
  · cases h
  · rw [hd] at hs
    cases hs
    cases h
    have := ((evalL_meets H q a ss hp hq none none fun _ => rfl).1 _ _ _ _ hm).1
    simp only at this
    rw [hm, this]

theorem bare_gives {q : Bool} {d : D} {ss : Stmts X P D} {e : E} {w : W} {c : Completion V} {w' : W}
    (hd : Bare H d) (hp : ss.Plain H) (hq : q = true → ss.noIf = true)
    (h : GivesOk q (fun a _ => inScope H d (evalL H a ss none)) e w c w') :
    GivesOk q (fun a _ => evalL H a ss none) e w c w' := by
  obtain ⟨N, c0, ha, h⟩ := h
  exact ⟨N, c0, ha, fun a h1 b h2 => bare_run hd hp hq (h a h1 b h2)⟩

theorem test_runs {cond : Option X} {b : Bool} {e : E} {w w1 : W} (h : TestHolds H cond b e w w1) :
    evalCond H cond ⟨e, w⟩ = some (.ok b, ⟨e, w1⟩) := by
  cases cond with
  | none =>
    obtain ⟨rfl, rfl⟩ := h
    rfl
  | some x =>
    obtain ⟨v, hx, rfl⟩ := h
    simp [evalCond, bindE, evalX, onWorld, hx]

/-- The body of a `for`-`in` loop after its binding. -/
theorem inBody_run {l : Lhs P} {k : V} {body : Ev V E W (Completion V)} {e e1 : E} {w w1 w' : W} {c : Completion V}
    (hi : bindIter H l k e w = (.ok e1, w1)) (hb : body ⟨e1, w1⟩ = some (.ok c, ⟨e1, w'⟩)) :
    inBody H l k body ⟨e, w⟩ = some (.ok c, ⟨e, w'⟩) := by
  have old : ∀ kd p, (match H.bind kd p k e w with
      | (.ok _, w) => (.ok e, w)
      | (.throw t, w) => (.throw t, w)
      | (.fatal, w) => (.fatal, w)) = ((.ok e1, w1) : Out V E × W) → e1 = e ∧ H.bind kd p k e w = (.ok (), w1) := by
    intro kd p h
    rcases hx : H.bind kd p k e w with ⟨o, w2⟩
    cases o <;> simp_all
  cases l with
  | let_ p => simp_all [inBody, inNew, inEnv, bindIter]
  | const_ p => simp_all [inBody, inNew, inEnv, bindIter]
  | var_ p =>
    obtain ⟨rfl, hx⟩ := old _ _ hi
    simp [inBody, bindE, onWorld, hx, hb]
  | assign p =>
    obtain ⟨rfl, hx⟩ := old _ _ hi
    simp [inBody, bindE, onWorld, hx, hb]

theorem inBody_throw {l : Lhs P} {k : V} {body : Ev V E W (Completion V)} {e : E} {w w1 : W} {t : V}
    (hi : bindIter H l k e w = (.throw t, w1)) : inBody H l k body ⟨e, w⟩ = some (.throw t, ⟨e, w1⟩) := by
  have old : ∀ kd p, (match H.bind kd p k e w with
      | (.ok _, w) => (.ok e, w)
      | (.throw t, w) => (.throw t, w)
      | (.fatal, w) => (.fatal, w)) = ((.throw t, w1) : Out V E × W) → H.bind kd p k e w = (.throw t, w1) := by
    intro kd p h
    rcases hx : H.bind kd p k e w with ⟨o, w2⟩
    cases o <;> simp_all
  cases l with
  | let_ p => simp_all [inBody, inNew, bindIter]
  | const_ p => simp_all [inBody, inNew, bindIter]
  | var_ p => simp [inBody, bindE, onWorld, old _ _ hi]
  | assign p => simp [inBody, bindE, onWorld, old _ _ hi]

theorem continues_true {q : Bool} {c c' : Completion V} {ls : List Nat} (ha : AQ q c c') (h : c'.Continues ls) :
    loopContinues c ls = true := (ha.continues ls).2 h

theorem continues_false {q : Bool} {c c' : Completion V} {ls : List Nat} (ha : AQ q c c') (h : ¬ c'.Continues ls) :
    loopContinues c ls = false := by
  rw [← ha.continues ls] at h
  simpa using h

theorem list_abrupt {s : Stmt X P D} {ss : Stmts X P D} {last : Option V} {a : Nat} {e : E} {w w' : W}
    {c : Completion V} (h : evalS H a s [] ⟨e, w⟩ = some (.ok c, ⟨e, w'⟩)) (hc : isAbrupt c = true) :
    evalL H a (.cons s ss) last ⟨e, w⟩ = some (.ok (updateEmpty c last), ⟨e, w'⟩) := by
  rw [evalL, bindE_ok h]
  rcases c with (_ | _) | _ | _ | ⟨_, _ | _⟩ | ⟨_, _ | _⟩ <;> simp_all [isAbrupt, updateEmpty, done]

theorem succ_of_le {N b : Nat} (h : N + 1 ≤ b) : ∃ k, b = k + 1 ∧ N ≤ k := by
  cases b with
  | zero => omega
  | succ k => exact ⟨k, rfl, by omega⟩

theorem abrupt_true {q : Bool} {c c' : Completion V} (ha : AQ q c c') (h : c'.Abrupt) : isAbrupt c = true :=
  ha.abrupt.2 h

theorem step_run {i : I} {e : E} {w w1 : W} {r : Option V × I} (h : H.step i w = (.ok r, w1)) :
    closing H i (onWorld fun _ => H.step i) (⟨e, w⟩ : St E W) = some (.ok r, ⟨e, w1⟩) := by
  simp [closing, onWorld, h]

theorem closing_run {A : Type} {i : I} {m : Ev V E W A} {σ σ' : St E W} {r : A} (h : m σ = some (.ok r, σ')) :
    closing H i m σ = some (.ok r, σ') := by
  simp [closing, h]

theorem closing_throw {A : Type} {i : I} {m : Ev V E W A} {σ σ' : St E W} {t : V} (h : m σ = some (.throw t, σ')) :
    closing H i m σ = some (.throw t, closed H i σ') := by
  simp [closing, h]

theorem alike_fill {c c' : Completion V} {v : Option V} (h : c.Alike c') : c.Alike (c'.fill v) := by
  cases c <;> cases c' <;> simp_all [Completion.Alike, Completion.fill]

theorem some_eq {q : Bool} {v v' : V} (h : q = true → v = v') : q = true → some v = some v' := fun hq => by
  rw [h hq]

theorem runs (H : Host X P D V E I W) (q : Bool) {j : Job X P D V I} {e : E} {w : W} {c' : Completion V} {w' : W}
    (h : Ecma H j e w c' w') : Runs H q j e w c' w' := by
  induction h with
  | nil =>
    intro hp hq last hl
    exact ⟨0, .normal last, .normal hl, fun _ _ _ _ => rfl⟩
  | @cons s ss last e w c w1 v c' w' _ hc _ ih ih2 =>
    intro hp hq last0 hl
    simp only [Stmts.noIf, Bool.and_eq_true] at hq
    obtain ⟨N, c0, ha, hN⟩ := ih hp.1 fun h => (hq h).1
    have ha' := ha.fill (v := last0) (v' := last) hl
    rw [hc] at ha'
    obtain ⟨v0, hv0, hv⟩ := ha'.normal_eq
    obtain ⟨N2, c2, ha2, hN2⟩ := ih2 hp.2 (fun h => (hq h).2) v0 hv
    refine ⟨max N N2, c2, ha2, fun a h1 b h2 => ?_⟩
    have : v0.or last0 = v0 := by
      rcases c0 with (_ | _) | _ | _ | ⟨_, _ | _⟩ | ⟨_, _ | _⟩ <;> simp [updateEmpty] at hv0 <;> subst hv0 <;> simp
    show evalL H a (.cons s ss) last0 ⟨e, w⟩ = _
    rw [evalL, bindE_ok (hN a (by omega) b (by omega))]
    simp only [hv0, this]
    exact hN2 a (by omega) b (by omega)
  | @stop s ss last e w c w' _ hc ih =>
    intro hp hq last0 hl
    simp only [Stmts.noIf, Bool.and_eq_true] at hq
    obtain ⟨N, c0, ha, hN⟩ := ih hp.1 fun h => (hq h).1
    exact ⟨N, _, ha.fill hl, fun a h1 b h2 => list_abrupt (hN a h1 b h2) (abrupt_true ha hc)⟩
  | @inner d ss e w e1 w1 c w' hs _ ih =>
    intro hp hq
    obtain ⟨N, c0, ha, hN⟩ := ih hp hq none fun _ => rfl
    exact ⟨N, c0, ha, fun a h1 b h2 => by simp [inScope, inEnv, hs, hN a h1 b h2]⟩
  | block _ ih =>
    intro hp hq
    simp only [evalS]
    exact (ih hp hq).gives.caught
  | declNil => exact ⟨.ok (), .inl ⟨rfl, rfl⟩, rfl⟩
  | declThrow hx => exact ⟨_, .inr ⟨_, rfl, rfl⟩, by simp [evalDecl, bindE, evalX, onWorld, hx]⟩
  | declBindThrow hx hb => exact ⟨_, .inr ⟨_, rfl, rfl⟩, by simp [evalDecl, bindE, evalX, onWorld, hx, hb]⟩
  | declCons hx hb _ ih =>
    obtain ⟨r, hr, h⟩ := ih
    exact ⟨r, hr, by simpa [evalDecl, bindE, evalX, onWorld, hx, hb] using h⟩
  | declLet hb _ ih =>
    obtain ⟨r, hr, h⟩ := ih
    exact ⟨r, hr, by simpa [evalDecl, bindE, onWorld, hb] using h⟩
  | declLetThrow hb => exact ⟨_, .inr ⟨_, rfl, rfl⟩, by simp [evalDecl, bindE, onWorld, hb]⟩
  | @declSkip k p ds e w c w' hk _ ih =>
    obtain ⟨r, hr, h⟩ := ih
    refine ⟨r, hr, ?_⟩
    cases k <;> simp_all [evalDecl]
  | decl _ ih =>
    intro hp hq
    simp only [evalS]
    refine Gives.caught ?_
    obtain ⟨r, ⟨rfl, rfl⟩ | ⟨t, rfl, rfl⟩, h⟩ := ih
    · exact ⟨0, .ok _, .inl ⟨_, rfl, AQ.refl _ _⟩, fun _ _ _ _ => by simp [bindE, h, done]⟩
    · exact ⟨0, .throw t, .inr ⟨_, rfl, rfl⟩, fun _ _ _ _ => by simp [bindE, h]⟩
  | empty =>
    intro hp hq
    simp only [evalS]
    exact .fixed rfl
  | func =>
    intro hp hq
    simp only [evalS]
    exact .fixed rfl
  | expr hx =>
    intro hp hq
    simp only [evalS]
    exact .fixed (by simp [caught, bindE, evalX, onWorld, hx, done])
  | exprThrow hx =>
    intro hp hq
    simp only [evalS]
    exact .fixed (by simp [caught, bindE, evalX, onWorld, hx])
  | ifThrow hx =>
    intro hp hq
    simp only [evalS]
    exact Gives.caught (.throws fun a b _ => by simp [bindE, evalX, onWorld, hx])
  | ifTrue hx ht _ ih =>
    intro hp hq
    have hq : q = false := by
      cases q
      · rfl
      · simp [Stmt.noIf] at hq
    subst hq
    obtain ⟨N, c0, ha, hN⟩ := ih hp (by simp)
    simp only [evalS]
    refine Gives.caught ⟨N, .ok c0, .inl ⟨c0, rfl, alike_fill ha.1, by simp⟩, fun a h1 b h2 => ?_⟩
    simp [bindE, evalX, onWorld, hx, ht, hN a h1 b h2]
  | ifFalse hx ht =>
    intro hp hq
    have hq : q = false := by
      cases q
      · rfl
      · simp [Stmt.noIf] at hq
    subst hq
    simp only [evalS]
    refine Gives.caught ⟨0, .ok (.normal none), .inl ⟨_, rfl, trivial, by simp⟩, fun a h1 b h2 => ?_⟩
    simp [bindE, evalX, onWorld, hx, ht]
  | ifElseThrow hx =>
    intro hp hq
    simp only [evalS]
    exact Gives.caught (.throws fun a b _ => by simp [bindE, evalX, onWorld, hx])
  | ifElseTrue hx ht _ ih =>
    intro hp hq
    have hq : q = false := by
      cases q
      · rfl
      · simp [Stmt.noIf] at hq
    subst hq
    obtain ⟨N, c0, ha, hN⟩ := ih hp.1 (by simp)
    simp only [evalS]
    refine Gives.caught ⟨N, .ok c0, .inl ⟨c0, rfl, alike_fill ha.1, by simp⟩, fun a h1 b h2 => ?_⟩
    simp [bindE, evalX, onWorld, hx, ht, hN a h1 b h2]
  | ifElseFalse hx ht _ ih =>
    intro hp hq
    have hq : q = false := by
      cases q
      · rfl
      · simp [Stmt.noIf] at hq
    subst hq
    obtain ⟨N, c0, ha, hN⟩ := ih hp.2 (by simp)
    simp only [evalS]
    refine Gives.caught ⟨N, .ok c0, .inl ⟨c0, rfl, alike_fill ha.1, by simp⟩, fun a h1 b h2 => ?_⟩
    simp [bindE, evalX, onWorld, hx, ht, hN a h1 b h2]
  | doStmt _ ih =>
    intro hp hq
    simp only [evalS]
    exact (ih hp hq _ fun _ => rfl).diag.unbreak.caught
  | doStop _ hl ih =>
    intro hp hq v0 hv
    obtain ⟨N, c0, ha, hN⟩ := ih hp hq
    refine ⟨N + 1, .ok _, .inl ⟨_, rfl, ha.fill (some_eq hv)⟩, fun a h1 b h2 => ?_⟩
    obtain ⟨b, rfl, h2⟩ := succ_of_le h2
    try dsimp only
    rw [doLoop, bindE_ok (hN a (by omega) b (by omega))]
    simp [continues_false ha hl, done]
  | doThrow _ hl hx ih =>
    intro hp hq v0 hv
    obtain ⟨N, c0, ha, hN⟩ := ih hp hq
    refine ⟨N + 1, .throw _, .inr ⟨_, rfl, rfl⟩, fun a h1 b h2 => ?_⟩
    obtain ⟨b, rfl, h2⟩ := succ_of_le h2
    try dsimp only
    rw [doLoop, bindE_ok (hN a (by omega) b (by omega))]
    simp [continues_true ha hl, bindE, evalX, onWorld, hx]
  | doEnd _ hl hx ht ih =>
    intro hp hq v0 hv
    obtain ⟨N, c0, ha, hN⟩ := ih hp hq
    refine ⟨N + 1, .ok _, .inl ⟨_, rfl, .normal fun hq => by rw [← ha.val hv hq]⟩, fun a h1 b h2 => ?_⟩
    obtain ⟨b, rfl, h2⟩ := succ_of_le h2
    try dsimp only
    rw [doLoop, bindE_ok (hN a (by omega) b (by omega))]
    simp [continues_true ha hl, bindE, evalX, onWorld, hx, ht]
  | doNext _ hl hx ht _ ih ih2 =>
    intro hp hq v0 hv
    obtain ⟨N, c0, ha, hN⟩ := ih hp hq
    obtain ⟨N2, r, hr, hN2⟩ := ih2 hp hq _ (ha.val hv)
    refine ⟨max N N2 + 1, r, hr, fun a h1 b h2 => ?_⟩
    obtain ⟨b, rfl, h2⟩ := succ_of_le h2
    try dsimp only
    rw [doLoop, bindE_ok (hN a (by omega) b (by omega))]
    simpa [continues_true ha hl, bindE, evalX, onWorld, hx, ht] using hN2 a (by omega) b (by omega)
  | whileStmt _ ih =>
    intro hp hq
    simp only [evalS]
    exact (ih hp hq _ fun _ => rfl).diag.unbreak.caught
  | whileThrow hx =>
    intro hp hq v0 hv
    refine .throws fun a b h => ?_
    obtain ⟨b, rfl, _⟩ := succ_of_le h
    simp [whileLoop, bindE, evalX, onWorld, hx]
  | whileEnd hx ht =>
    intro hp hq v0 hv
    refine ⟨1, .ok _, .inl ⟨_, rfl, .normal fun hq => by rw [← hv hq]⟩, fun a h1 b h2 => ?_⟩
    obtain ⟨b, rfl, h2⟩ := succ_of_le h2
    simp [whileLoop, bindE, evalX, onWorld, hx, ht]
  | whileStop hx ht _ hl ih =>
    intro hp hq v0 hv
    obtain ⟨N, c0, ha, hN⟩ := ih hp hq
    refine ⟨N + 1, .ok _, .inl ⟨_, rfl, ha.fill (some_eq hv)⟩, fun a h1 b h2 => ?_⟩
    obtain ⟨b, rfl, h2⟩ := succ_of_le h2
    simp [whileLoop, bindE, evalX, onWorld, hx, ht, hN a (by omega) b (by omega), continues_false ha hl, done]
  | whileNext hx ht _ hl _ ih ih2 =>
    intro hp hq v0 hv
    obtain ⟨N, c0, ha, hN⟩ := ih hp hq
    obtain ⟨N2, r, hr, hN2⟩ := ih2 hp hq _ (ha.val hv)
    refine ⟨max N N2 + 1, r, hr, fun a h1 b h2 => ?_⟩
    obtain ⟨b, rfl, h2⟩ := succ_of_le h2
    simpa [whileLoop, bindE, evalX, onWorld, hx, ht, hN a (by omega) b (by omega), continues_true ha hl]
      using hN2 a (by omega) b (by omega)
  | initNone => exact ⟨.ok (), .inl ⟨rfl, rfl⟩, rfl⟩
  | initExpr hx => exact ⟨.ok (), .inl ⟨rfl, rfl⟩, by simp [evalInit, bindE, evalX, onWorld, hx, done]⟩
  | initThrow hx => exact ⟨_, .inr ⟨_, rfl, rfl⟩, by simp [evalInit, bindE, evalX, onWorld, hx]⟩
  | initVars _ ih => exact ih
  | postNone => exact ⟨.ok (), .inl ⟨rfl, rfl⟩, rfl⟩
  | postExpr hx => exact ⟨.ok (), .inl ⟨rfl, rfl⟩, by simp [evalPost, bindE, evalX, onWorld, hx, done]⟩
  | postThrow hx => exact ⟨_, .inr ⟨_, rfl, rfl⟩, by simp [evalPost, bindE, evalX, onWorld, hx]⟩
  | forInitThrow _ ih =>
    intro hp hq
    obtain ⟨r, ⟨_, h0⟩ | ⟨t, rfl, h0⟩, h⟩ := ih
    · cases h0
    · cases h0
      simp only [evalS]
      exact Gives.caught (.throws fun a b _ => by simp [bindE, h])
  | forStmt _ _ ih ih2 =>
    intro hp hq
    obtain ⟨r, ⟨rfl, _⟩ | ⟨t, rfl, h0⟩, h⟩ := ih
    · simp only [evalS]
      obtain ⟨N, r, hr, hN⟩ := (ih2 hp.1 hp.2 hq _ fun _ => rfl).diag
      refine Gives.caught (Gives.unbreak ⟨N, r, hr, fun a h1 b h2 => ?_⟩)
      try dsimp only
      rw [bindE_ok h]
      exact hN a h1 b h2
    · cases h0
  | forThrow hx =>
    intro hd hp hq v0 hv
    refine .throws fun a b h => ?_
    obtain ⟨b, rfl, _⟩ := succ_of_le h
    simp [forLoop, evalCond, bindE, evalX, onWorld, hx]
  | forEnd ht =>
    intro hd hp hq v0 hv
    refine ⟨1, .ok _, .inl ⟨_, rfl, .normal fun hq => by rw [← hv hq]⟩, fun a h1 b h2 => ?_⟩
    obtain ⟨b, rfl, h2⟩ := succ_of_le h2
    try dsimp only
    rw [forLoop, bindE_ok (test_runs ht)]
    simp [done]
  | forStop ht _ hl ih =>
    intro hd hp hq v0 hv
    obtain ⟨N, c0, ha, hN⟩ := bare_gives hd hp hq (ih hp hq)
    refine ⟨N + 1, .ok _, .inl ⟨_, rfl, ha.fill (some_eq hv)⟩, fun a h1 b h2 => ?_⟩
    obtain ⟨b, rfl, h2⟩ := succ_of_le h2
    try dsimp only
    rw [forLoop, bindE_ok (test_runs ht)]
    simp [bindE, hN a (by omega) b (by omega), continues_false ha hl, done]
  | forPost ht _ hl _ ih ih2 =>
    intro hd hp hq v0 hv
    obtain ⟨N, c0, ha, hN⟩ := bare_gives hd hp hq (ih hp hq)
    obtain ⟨r, ⟨_, h0⟩ | ⟨t, rfl, h0⟩, h⟩ := ih2
    · cases h0
    · cases h0
      refine ⟨N + 1, .throw _, .inr ⟨_, rfl, rfl⟩, fun a h1 b h2 => ?_⟩
      obtain ⟨b, rfl, h2⟩ := succ_of_le h2
      try dsimp only
      rw [forLoop, bindE_ok (test_runs ht)]
      simp [bindE, hN a (by omega) b (by omega), continues_true ha hl, h]
  | forNext ht _ hl _ _ ih ih2 ih3 =>
    intro hd hp hq v0 hv
    obtain ⟨N, c0, ha, hN⟩ := bare_gives hd hp hq (ih hp hq)
    obtain ⟨r, ⟨rfl, _⟩ | ⟨t, rfl, h0⟩, h⟩ := ih2
    · obtain ⟨N2, r, hr, hN2⟩ := ih3 hd hp hq _ (ha.val hv)
      refine ⟨max N N2 + 1, r, hr, fun a h1 b h2 => ?_⟩
      obtain ⟨b, rfl, h2⟩ := succ_of_le h2
      try dsimp only
      rw [forLoop, bindE_ok (test_runs ht)]
      simpa [bindE, hN a (by omega) b (by omega), continues_true ha hl, h] using hN2 a (by omega) b (by omega)
    · cases h0
  | inThrow hx =>
    intro hp hq
    rw [hp.2.1] at hx
    simp only [evalS]
    exact Gives.caught (.throws fun a b _ => by simp [evalForIn, bindE, evalX, onWorld, hx])
  | inNullish hx hn =>
    intro hp hq
    rw [hp.2.1] at hx
    simp only [evalS]
    refine Gives.caught ⟨0, .ok (.normal (some H.undef)), .inl ⟨_, rfl, AQ.refl _ _⟩, fun a _ b _ => ?_⟩
    simp [evalForIn, bindE, evalX, onWorld, hx, hn, done, normaliseBreak]
  | inObjectThrow hx hn ho =>
    intro hp hq
    rw [hp.2.1] at hx
    simp only [evalS]
    exact Gives.caught (.throws fun a b _ => by simp [evalForIn, bindE, evalX, onWorld, hx, hn, ho])
  | inKeysThrow hx hn ho hk =>
    intro hp hq
    rw [hp.2.1] at hx
    simp only [evalS]
    exact Gives.caught (.throws fun a b _ => by simp [evalForIn, bindE, evalX, onWorld, hx, hn, ho, hk])
  | inStmt hx hn ho hk _ ih =>
    intro hp hq
    rw [hp.2.1] at hx
    simp only [evalS]
    obtain ⟨N, r, hr, hN⟩ := ih hp.1 hp.2.2 hq _ fun _ => rfl
    refine Gives.caught (Gives.unbreak ⟨N, r, hr, fun a h1 b h2 => ?_⟩)
    simpa [evalForIn, bindE, evalX, onWorld, hx, hn, ho, hk] using hN a h1 b h2
  | inEnd =>
    intro hd hp hq v0 hv
    exact ⟨0, .ok _, .inl ⟨_, rfl, .normal fun hq => by rw [← hv hq]⟩, fun a h1 b h2 => by simp [inLoop, done]⟩
  | inBind hi =>
    intro hd hp hq v0 hv
    refine .throws fun a b h => ?_
    rw [inLoop, bindE_throw (inBody_throw hi)]
  | inStop hi _ hl ih =>
    intro hd hp hq v0 hv
    obtain ⟨N, c0, ha, hN⟩ := bare_gives hd hp hq (ih hp hq)
    refine ⟨N, .ok _, .inl ⟨_, rfl, ha.fill (some_eq hv)⟩, fun a h1 b h2 => ?_⟩
    try dsimp only
    rw [inLoop, bindE_ok (inBody_run hi (hN a h1 b h2))]
    simp [continues_false ha hl, done]
  | inNext hi _ hl _ ih ih2 =>
    intro hd hp hq v0 hv
    obtain ⟨N, c0, ha, hN⟩ := bare_gives hd hp hq (ih hp hq)
    obtain ⟨N2, r, hr, hN2⟩ := ih2 hd hp hq _ (ha.val hv)
    refine ⟨max N N2, r, hr, fun a h1 b h2 => ?_⟩
    try dsimp only
    rw [inLoop, bindE_ok (inBody_run hi (hN a (by omega) b (by omega)))]
    simpa [continues_true ha hl] using hN2 a (by omega) b (by omega)
  | @ofThrow l x d ss ls e w t w' hx =>
    intro hp hq
    have hx : H.expr x e w = (.throw t, w') := by
      have hs := hp.2.1
      cases l <;> simp_all [Lhs.shared, headExpr]
    simp only [evalS]
    exact Gives.caught (.throws fun a b _ => by simp [evalForOf, bindE, evalX, onWorld, hx])
  | @ofIterThrow l x d ss ls e w v w1 t w' hx hi =>
    intro hp hq
    have hx : H.expr x e w = (.ok v, w1) := by
      have hs := hp.2.1
      cases l <;> simp_all [Lhs.shared, headExpr]
    simp only [evalS]
    exact Gives.caught (.throws fun a b _ => by simp [evalForOf, bindE, evalX, onWorld, hx, hi])
  | @ofStmt l x d ss ls e w v w1 i w2 c w' hx hi _ ih =>
    intro hp hq
    have hx : H.expr x e w = (.ok v, w1) := by
      have hs := hp.2.1
      cases l <;> simp_all [Lhs.shared, headExpr]
    simp only [evalS]
    obtain ⟨N, r, hr, hN⟩ := (ih hp.1 hp.2.1 hp.2.2.1 hp.2.2.2 hq _ fun _ => rfl).diag
    refine Gives.caught (Gives.unbreak ⟨N, r, hr, fun a h1 b h2 => ?_⟩)
    simpa [evalForOf, bindE, evalX, onWorld, hx, hi] using hN a h1 b h2
  | ofStep hx =>
    intro hd hs hc hp hq v0 hv
    refine .throws fun a b h => ?_
    obtain ⟨b, rfl, _⟩ := succ_of_le h
    simp [ofLoop, closing, closed, bindE, onWorld, hx, hc.2 _ _ _ _ hx]
  | ofEnd hx =>
    intro hd hs hc hp hq v0 hv
    refine ⟨1, .ok _, .inl ⟨_, rfl, .normal fun hq => by rw [← hv hq]⟩, fun a h1 b h2 => ?_⟩
    obtain ⟨b, rfl, h2⟩ := succ_of_le h2
    simp [ofLoop, closing, bindE, onWorld, hx, done]
  | ofBind hx hi _ hw =>
    intro hd hs hc hp hq v0 hv
    refine .throws fun a b h => ?_
    obtain ⟨b, rfl, _⟩ := succ_of_le h
    try dsimp only
    rw [ofLoop, bindE_ok (step_run hx)]
    simp only [ofBody_eq hs]
    rw [bindE_throw (closing_throw (inBody_throw hi))]
    simp [closed, hw]
  | ofBodyThrow hx hi _ _ hw ih =>
    intro hd hs hc hp hq v0 hv
    obtain ⟨N, c0, ha, hN⟩ := bare_gives hd hp hq (ih hp hq)
    rw [ha.throw_eq] at hN
    refine ⟨N + 1, .ok (.throw _), .inl ⟨_, rfl, AQ.refl _ _⟩, fun a h1 b h2 => ?_⟩
    obtain ⟨b, rfl, h2⟩ := succ_of_le h2
    try dsimp only
    rw [ofLoop, bindE_ok (step_run hx)]
    simp only [ofBody_eq hs]
    try dsimp only
    rw [bindE_ok (closing_run (inBody_run hi (hN a (by omega) b (by omega))))]
    simp [loopContinues, closed, hw, updateEmpty]
  | ofCloseThrow hx hi _ _ _ hw ih =>
    intro hd hs hc hp hq v0 hv
    have := (congrArg Prod.fst hw).symm.trans (hc.1 _ _)
    cases this
  | ofStop hx hi _ hl _ hw ih =>
    intro hd hs hc hp hq v0 hv
    obtain ⟨N, c0, ha, hN⟩ := bare_gives hd hp hq (ih hp hq)
    refine ⟨N + 1, .ok _, .inl ⟨_, rfl, ha.fill (some_eq hv)⟩, fun a h1 b h2 => ?_⟩
    obtain ⟨b, rfl, h2⟩ := succ_of_le h2
    try dsimp only
    rw [ofLoop, bindE_ok (step_run hx)]
    simp only [ofBody_eq hs]
    try dsimp only
    rw [bindE_ok (closing_run (inBody_run hi (hN a (by omega) b (by omega))))]
    simp [continues_false ha hl, closed, hw]
  | ofNext hx hi _ hl _ ih ih2 =>
    intro hd hs hc hp hq v0 hv
    obtain ⟨N, c0, ha, hN⟩ := bare_gives hd hp hq (ih hp hq)
    obtain ⟨N2, r, hr, hN2⟩ := ih2 hd hs hc hp hq _ (ha.val hv)
    refine ⟨max N N2 + 1, r, hr, fun a h1 b h2 => ?_⟩
    obtain ⟨b, rfl, h2⟩ := succ_of_le h2
    try dsimp only
    rw [ofLoop, bindE_ok (step_run hx)]
    simp only [ofBody_eq hs]
    try dsimp only
    rw [bindE_ok (closing_run (inBody_run hi (hN a (by omega) b (by omega))))]
    simpa [continues_true ha hl] using hN2 a (by omega) b (by omega)
  | continue_ =>
    intro hp hq
    simp only [evalS]
    exact .fixed rfl
  | break_ =>
    intro hp hq
    simp only [evalS]
    exact .fixed rfl
  | ret =>
    intro hp hq
    simp only [evalS]
    exact .fixed rfl
  | retExpr hx =>
    intro hp hq
    simp only [evalS]
    exact .fixed (by simp [caught, bindE, evalX, onWorld, hx, done])
  | retThrow hx =>
    intro hp hq
    simp only [evalS]
    exact .fixed (by simp [caught, bindE, evalX, onWorld, hx])
  | switchThrow hx =>
    intro hp hq
    simp only [evalS]
    exact Gives.caught (.throws fun a b _ => by simp [bindE, evalX, onWorld, hx])
  | switch hx hs _ ih =>
    intro hp hq
    simp only [evalS]
    obtain ⟨N, r, hr, hN⟩ := ih hp trivial hq (fun _ => rfl) _ fun _ => rfl
    refine Gives.caught (Gives.unbreak ⟨N, r, hr, fun a h1 b h2 => ?_⟩)
    try dsimp only
    rw [bindE_ok (by simp only [evalX, onWorld, hx]; rfl)]
    simp only [inScope, hs, inEnv]
    exact congrArg (Option.map _) (hN a h1 b h2)
  | switchDThrow hx =>
    intro hp hq
    simp only [evalS]
    exact Gives.caught (.throws fun a b _ => by simp [bindE, evalX, onWorld, hx])
  | switchD hx hs _ ih =>
    intro hp hq
    simp only [Stmt.noIf, Bool.and_eq_true] at hq
    simp only [evalS]
    obtain ⟨N, r, hr, hN⟩ := ih hp.1 ⟨hp.2.1, hp.2.2⟩ (fun h => (hq h).1.1)
      (fun h => by simp [Rest.noIf, (hq h).1.2, (hq h).2]) _ fun _ => rfl
    refine Gives.caught (Gives.unbreak ⟨N, r, hr, fun a h1 b h2 => ?_⟩)
    try dsimp only
    rw [bindE_ok (by simp only [evalX, onWorld, hx]; rfl)]
    simp only [inScope, hs, inEnv]
    exact congrArg (Option.map _) (hN a h1 b h2)
  | caseThrow hx =>
    intro hp hk hq hqk v0 hv
    exact .throws fun a b h => by simp [evalC, bindE, evalX, onWorld, hx]
  | caseSkip hx he _ ih =>
    intro hp hk hq hqk v0 hv
    simp only [Cases.noIf, Bool.and_eq_true] at hq
    obtain ⟨N, r, hr, hN⟩ := ih hp.2 hk (fun h => (hq h).2) hqk v0 hv
    refine ⟨N, r, hr, fun a h1 b h2 => ?_⟩
    simpa [evalC, bindE, evalX, onWorld, hx, he] using hN a h1 b h2
  | caseHit hx he _ ih =>
    intro hp hk hq hqk v0 hv
    obtain ⟨N, r, hr, hN⟩ := ih hp hk hq hqk v0 hv
    refine ⟨N, r, hr, fun a h1 b h2 => ?_⟩
    simpa [evalC, bindE, evalX, onWorld, hx, he, done] using hN a h1 b h2
  | caseStop _ hc ih =>
    intro hp hk hq hqk v0 hv
    simp only [Cases.noIf, Bool.and_eq_true] at hq
    obtain ⟨N, c0, ha, hN⟩ := ih hp.1 (fun h => (hq h).1) none fun _ => rfl
    refine ⟨N, .ok _, .inl ⟨_, rfl, ha.fill (some_eq hv)⟩, fun a h1 b h2 => ?_⟩
    simp [evalC, bindE, hN a h1 b h2, done, abrupt_true ha hc, contK_inr, fill_val]
  | caseNext _ _ ih ih2 =>
    intro hp hk hq hqk v0 hv
    simp only [Cases.noIf, Bool.and_eq_true] at hq
    obtain ⟨N, c0, ha, hN⟩ := ih hp.1 (fun h => (hq h).1) none fun _ => rfl
    obtain ⟨u, rfl, hu⟩ := ha.normal_eq
    obtain ⟨N2, r, hr, hN2⟩ := ih2 hp.2 hk (fun h => (hq h).2) hqk (u.getD v0) fun hq => by rw [hu hq, hv hq]
    refine ⟨max N N2, r, hr, fun a h1 b h2 => ?_⟩
    have := hN2 a (by omega) b (by omega)
    simpa [evalC, bindE, hN a (by omega) b (by omega), done, isAbrupt, valueOf] using this
  | casesLast =>
    intro hp hk hq hqk v0 hv
    exact ⟨0, .ok _, .inl ⟨_, rfl, .normal fun hq => by rw [← hv hq]⟩, fun a h1 b h2 => by
      simp [evalC, bindE, done, contK]⟩
  | casesFound _ ih =>
    intro hp hk hq hqk v0 hv
    simp only [Rest.noIf, Bool.and_eq_true] at hqk
    obtain ⟨N, r, hr, hN⟩ := ih hk.1 hk.2 (fun h => (hqk h).1) (fun h => (hqk h).2) v0 hv
    refine ⟨N, r, hr, fun a h1 b h2 => ?_⟩
    simpa [evalC, bindE, done, contK, afterDefault] using hN a h1 b h2
  | casesOther _ ih =>
    intro hp hk hq hqk v0 hv
    obtain ⟨N, r, hr, hN⟩ := ih hk.2 hk (fun h => by
      have := hqk h
      simp only [Rest.noIf, Bool.and_eq_true] at this
      exact this.2) hqk v0 hv
    exact ⟨N, r, hr, fun a h1 b h2 => hN a h1 b h2⟩
  | casesFoundAfter =>
    intro hp hk hq hqk v0 hv
    exact ⟨0, .ok _, .inl ⟨_, rfl, .normal fun hq => by rw [← hv hq]⟩, fun a h1 b h2 => by
      simp [evalC, bindE, done, contK, afterDefault]⟩
  | casesDefault _ ih =>
    intro hp hk hq hqk v0 hv
    simp only [Rest.noIf, Bool.and_eq_true] at hqk
    obtain ⟨N, r, hr, hN⟩ := ih hk.1 hk.2 (fun h => (hqk h).1) (fun h => (hqk h).2) v0 hv
    refine ⟨N, r, hr, fun a h1 b h2 => ?_⟩
    simpa [evalC, bindE, done, contK, afterDefault] using hN a h1 b h2
  | defaultStop _ hc ih =>
    intro hp hk hq hqk v0 hv
    obtain ⟨N, c0, ha, hN⟩ := ih hp hq none fun _ => rfl
    refine ⟨N, .ok _, .inl ⟨_, rfl, ha.fill (some_eq hv)⟩, fun a h1 b h2 => ?_⟩
    simp [fromDefault, bindE, hN a h1 b h2, done, abrupt_true ha hc, fill_val]
  | defaultNext _ _ ih ih2 =>
    intro hp hk hq hqk v0 hv
    obtain ⟨N, c0, ha, hN⟩ := ih hp hq none fun _ => rfl
    obtain ⟨u, rfl, hu⟩ := ha.normal_eq
    obtain ⟨N2, r, hr, hN2⟩ := ih2 hk hqk (u.getD v0) fun hq => by rw [hu hq, hv hq]
    refine ⟨max N N2, r, hr, fun a h1 b h2 => ?_⟩
    have := hN2 a (by omega) b (by omega)
    simpa [fromDefault, bindE, hN a (by omega) b (by omega), isAbrupt, valueOf] using this
  | bodiesEnd =>
    intro hp hq v0 hv
    exact ⟨0, .ok _, .inl ⟨_, rfl, .normal fun hq => by rw [← hv hq]⟩, fun a h1 b h2 => by simp [evalB, done]⟩
  | bodiesStop _ hc ih =>
    intro hp hq v0 hv
    simp only [Cases.noIf, Bool.and_eq_true] at hq
    obtain ⟨N, c0, ha, hN⟩ := ih hp.1 (fun h => (hq h).1) none fun _ => rfl
    refine ⟨N, .ok _, .inl ⟨_, rfl, ha.fill (some_eq hv)⟩, fun a h1 b h2 => ?_⟩
    simp [evalB, bindE, hN a h1 b h2, done, abrupt_true ha hc, fill_val]
  | bodiesNext _ _ ih ih2 =>
    intro hp hq v0 hv
    simp only [Cases.noIf, Bool.and_eq_true] at hq
    obtain ⟨N, c0, ha, hN⟩ := ih hp.1 (fun h => (hq h).1) none fun _ => rfl
    obtain ⟨u, rfl, hu⟩ := ha.normal_eq
    obtain ⟨N2, r, hr, hN2⟩ := ih2 hp.2 (fun h => (hq h).2) (u.getD v0) fun hq => by rw [hu hq, hv hq]
    refine ⟨max N N2, r, hr, fun a h1 b h2 => ?_⟩
    have := hN2 a (by omega) b (by omega)
    simpa [evalB, bindE, hN a (by omega) b (by omega), isAbrupt, valueOf] using this
  | @label l s ls e w c w' _ ih =>
    intro hp hq
    obtain ⟨N, c0, ha, hN⟩ := ih hp hq
    simp only [evalS]
    refine Gives.caught ⟨N, .ok (c0.unlabel l), .inl ⟨_, rfl, ha.unlabel⟩, fun a h1 b h2 => ?_⟩
    try dsimp only
    rw [bindE_ok (hN a h1 b h2)]
    rcases c0 with _ | _ | _ | ⟨_ | t, _⟩ | _ <;> simp [Completion.unlabel, done]
    split <;> rfl
  | throw hx =>
    intro hp hq
    simp only [evalS]
    exact .fixed (by simp [caught, bindE, evalX, onWorld, hx, done])
  | throwThrow hx =>
    intro hp hq
    simp only [evalS]
    exact .fixed (by simp [caught, bindE, evalX, onWorld, hx])
  | @try_ d ss h f ls e w b w1 c w2 r w' _ _ h3 ih ih2 ih3 =>
    intro hp hq
    simp only [Stmt.noIf, Bool.and_eq_true] at hq
    obtain ⟨N, b0, ha, hN⟩ := ih hp.1 fun h => (hq h).1.1
    obtain ⟨hh, hh'⟩ := ih2 hp.2.1 (fun h => (hq h).1.2) b0 ha
    simp only [evalS]
    refine Gives.caught ?_
    have normal : GivesOk q (fun a _ => evalH H a h b0) e w1 c w2 →
        Gives q (fun a x => bindE (inScope H d (evalL H a ss none)) fun c =>
          bindE (evalH H a h c) fun c => bindE (evalF H a f c) fun c => done (updateEmpty c (some H.undef))) e w
          (r.fill (some H.undef)) w' := by
      rintro ⟨N2, c0, ha2, hN2⟩
      obtain ⟨N3, r0, ha3, hN3⟩ := ih3 hp.2.2.1 (fun h => (hq h).2) c0 ha2
      refine ⟨max N (max N2 N3), .ok _, .inl ⟨_, rfl, ha3.fill fun _ => rfl⟩, fun a h1 b h2 => ?_⟩
      try dsimp only
      rw [bindE_ok (hN a (by omega) b (by omega)), bindE_ok (hN2 a (by omega) b (by omega)),
        bindE_ok (hN3 a (by omega) b (by omega))]
      rfl
    have hs := hp.2.2.2
    cases f with
    | none =>
      obtain ⟨N2, r2, ⟨c0, rfl, ha2⟩ | ⟨t, rfl, rfl⟩, hN2⟩ := hh
      · exact normal ⟨N2, c0, ha2, hN2⟩
      · cases h3
        refine ⟨max N N2, .throw t, .inr ⟨t, rfl, rfl⟩, fun a h1 b h2 => ?_⟩
        try dsimp only
        rw [bindE_ok (hN a (by omega) b (by omega)), bindE_throw (hN2 a (by omega) b (by omega))]
    | some d' ss' =>
      refine normal (hh' ?_)
      rintro p ss rfl
      exact hs
  | @noHandler c' e w =>
    intro hp hq c hc
    have : GivesOk q (fun a _ => evalH H a (.none : Handler X P D) c) e w c' w :=
      ⟨0, c, hc, fun a _ b _ => by simp [evalH, done]⟩
    exact ⟨this.gives, fun _ => this⟩
  | @unused h c e w hne =>
    intro hp hq c0 hc
    have : GivesOk q (fun a _ => evalH H a h c0) e w c w := by
      refine ⟨0, c0, hc, fun a _ b _ => ?_⟩
      cases h with
      | none => simp [evalH, done]
      | bare d ss =>
        cases c0 <;> simp [evalH, done]
        exact absurd hc.throw_eq' (hne _)
      | param d ss =>
        cases c0 <;> simp [evalH, done]
        exact absurd hc.throw_eq' (hne _)
    exact ⟨this.gives, fun _ => this⟩
  | @catch_ d ss t e w c w' _ ih =>
    intro hp hq c0 hc
    have hh := ih hp hq
    rw [hc.throw_eq]
    simp only [evalH]
    exact ⟨hh.gives, fun _ => hh⟩
  | @catchBind p ss t e w u w' hb =>
    intro hp hq c0 hc
    rw [hc.throw_eq]
    simp only [evalH]
    exact ⟨.throws fun a b _ => by simp [inNew, hb], fun h => absurd hb (h p ss rfl _ _ _ _ _)⟩
  | @catchParam p ss t e w e1 w1 c w' hb _ ih =>
    intro hp hq c0 hc
    rw [hc.throw_eq]
    simp only [evalH]
    have : GivesOk q (fun a _ => inNew H .let_ p t (evalL H a ss none)) e w c w' := by
      obtain ⟨N, c0, ha, hN⟩ := ih hp hq none fun _ => rfl
      exact ⟨N, c0, ha, fun a h1 b h2 => by simp [inNew, inEnv, hb, hN a h1 b h2]⟩
    exact ⟨this.gives, fun _ => this⟩
  | noFinal =>
    intro hp hq c hc
    exact ⟨0, c, hc, fun a _ b _ => by simp [evalF, done]⟩
  | finalNormal _ ih =>
    intro hp hq c0 hc
    obtain ⟨N, r0, ha, hN⟩ := ih hp hq
    obtain ⟨u, rfl, _⟩ := ha.normal_eq
    refine ⟨N, c0, hc, fun a h1 b h2 => ?_⟩
    try dsimp only
    rw [evalF, bindE_ok (hN a h1 b h2)]
    simp [isAbrupt, done]
  | finalAbrupt _ hr ih =>
    intro hp hq c0 hc
    obtain ⟨N, r0, ha, hN⟩ := ih hp hq
    refine ⟨N, r0, ha, fun a h1 b h2 => ?_⟩
    try dsimp only
    rw [evalF, bindE_ok (hN a h1 b h2)]
    simp [abrupt_true ha hr, done]

end

end Verif.Exec
