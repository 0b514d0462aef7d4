import Verif.Exec.Model
import Verif.Exec.Spec
/-!
# Whatever the interpreter does, ECMA-262 allows
-/

namespace Verif.Exec

section
variable {V : Type}

/-- Alike, and with `q` equal. -/
def AQ (q : Bool) (c c' : Completion V) : Prop := c.Alike c' ∧ (q = true → c = c')

theorem AQ.refl (q : Bool) (c : Completion V) : AQ q c c := by
  refine ⟨?_, fun _ => rfl⟩
  cases c <;> simp [Completion.Alike]

theorem updateEmpty_eq (c : Completion V) (v : Option V) : updateEmpty c v = c.fill v := by
  rcases c with (_ | _) | _ | _ | ⟨l, _ | _⟩ | ⟨l, _ | _⟩ <;> simp [updateEmpty, Completion.fill]

theorem valueOf_eq (c : Completion V) : valueOf c = c.val := by
  cases c <;> rfl

theorem fill_alike {c c' : Completion V} {v v' : Option V} (h : c.Alike c') : (c.fill v).Alike (c'.fill v') := by
  cases c <;> cases c' <;> simp_all [Completion.Alike, Completion.fill]

theorem AQ.fill {q : Bool} {c c' : Completion V} {v v' : Option V} (h : AQ q c c') (hv : q = true → v = v') :
    AQ q (updateEmpty c v) (c'.fill v') := by
  rw [updateEmpty_eq]
  exact ⟨fill_alike h.1, fun hq => by rw [h.2 hq, hv hq]⟩

theorem AQ.val {q : Bool} {c c' : Completion V} {v v' : V} (h : AQ q c c') (hv : q = true → v = v') :
    q = true → (valueOf c).getD v = c'.val.getD v' := fun hq => by
  rw [valueOf_eq, h.2 hq, hv hq]

theorem AQ.continues {q : Bool} {c c' : Completion V} (h : AQ q c c') (ls : List Nat) :
    loopContinues c ls = true ↔ c'.Continues ls := by
  have h := h.1
  cases c <;> cases c' <;> simp_all [Completion.Alike, Completion.Continues, loopContinues]
  rename_i l _ _
  cases l <;> simp

theorem AQ.unbreak {q : Bool} {u : V} {c c' : Completion V} (h : AQ q c c') :
    AQ q (c.unbreak u) (c'.unbreak u) := by
  refine ⟨?_, fun hq => by rw [h.2 hq]⟩
  have h := h.1
  rcases c with _ | _ | _ | ⟨_ | _, _⟩ | ⟨_, _⟩ <;> rcases c' with _ | _ | _ | ⟨_ | _, _⟩ | ⟨_, _⟩ <;>
    simp_all [Completion.Alike, Completion.unbreak]

theorem AQ.unlabel {q : Bool} {l : Nat} {c c' : Completion V} (h : AQ q c c') :
    AQ q (c.unlabel l) (c'.unlabel l) := by
  refine ⟨?_, fun hq => by rw [h.2 hq]⟩
  have h := h.1
  rcases c with _ | _ | _ | ⟨_ | _, _⟩ | ⟨_, _⟩ <;> rcases c' with _ | _ | _ | ⟨_ | _, _⟩ | ⟨_, _⟩ <;>
    simp_all [Completion.Alike, Completion.unlabel]
  rename_i t _
  by_cases hl : t = l <;> simp [hl]

theorem AQ.abrupt {q : Bool} {c c' : Completion V} (h : AQ q c c') : isAbrupt c = true ↔ c'.Abrupt := by
  have h := h.1
  cases c <;> cases c' <;> simp_all [Completion.Alike, Completion.Abrupt, isAbrupt]

theorem AQ.throw_eq {q : Bool} {t : V} {c : Completion V} (h : AQ q c (.throw t)) : c = .throw t := by
  have h := h.1
  cases c <;> simp_all [Completion.Alike]

theorem AQ.throw_eq' {q : Bool} {t : V} {c : Completion V} (h : AQ q (.throw t) c) : c = .throw t := by
  have h := h.1
  cases c <;> simp_all [Completion.Alike]

theorem AQ.normal_eq' {q : Bool} {v : Option V} {c : Completion V} (h : AQ q (.normal v) c) :
    ∃ v', c = .normal v' ∧ (q = true → v = v') := by
  obtain ⟨h, h'⟩ := h
  cases c <;> simp_all [Completion.Alike]

theorem AQ.normal_eq {q : Bool} {v : Option V} {c : Completion V} (h : AQ q c (.normal v)) :
    ∃ v', c = .normal v' ∧ (q = true → v' = v) := by
  obtain ⟨h, h'⟩ := h
  cases c <;> simp_all [Completion.Alike]

theorem AQ.normal {q : Bool} {v v' : Option V} (h : q = true → v = v') :
    AQ q (.normal v : Completion V) (.normal v') :=
  ⟨trivial, fun hq => by rw [h hq]⟩

theorem abrupt_of_not_continues {ls : List Nat} {c : Completion V} (h : ¬ c.Continues ls) : c.Abrupt := by
  rintro v rfl
  exact h trivial

end

section
variable {X P D V E I W : Type} {H : Host X P D V E I W}

/-- The completions a result stands for. -/
def Says (q : Bool) (J : Completion V → Prop) : Out V (Completion V) → Prop
  | .ok c => ∃ c', J c' ∧ AQ q c c'
  | .throw t => J (.throw t)
  | .fatal => True

theorem Says.mono {q : Bool} {J K : Completion V → Prop} {r : Out V (Completion V)} (h : Says q J r)
    (hk : ∀ c, J c → K c) : Says q K r := by
  cases r with
  | ok c =>
    obtain ⟨c', hj, ha⟩ := h
    exact ⟨c', hk _ hj, ha⟩
  | throw t => exact hk _ h
  | fatal => trivial

/-- The same for results without a value. -/
def Ends (J : Completion V → Prop) : Out V Unit → Prop
  | .ok _ => J (.normal none)
  | .throw t => J (.throw t)
  | .fatal => True

theorem Ends.mono {J K : Completion V → Prop} {r : Out V Unit} (h : Ends J r) (hk : ∀ c, J c → K c) : Ends K r := by
  cases r with
  | ok c => exact hk _ h
  | throw t => exact hk _ h
  | fatal => trivial

/-- A step of the interpreter that ECMA-262 allows for the job. -/
def Meets (H : Host X P D V E I W) (q : Bool) (m : Ev V E W (Completion V)) (j : Job X P D V I) : Prop :=
  ∀ e w r σ', m ⟨e, w⟩ = some (r, σ') → σ'.env = e ∧
    Says q (fun c => Ecma H j e w c σ'.world) r

/-- It has no errors a program could catch. -/
def Tame {A : Type} (m : Ev V E W A) : Prop := ∀ σ t σ', m σ ≠ some (.throw t, σ')

theorem bindE_inv {A B : Type} {m : Ev V E W A} {f : A → Ev V E W B} {σ : St E W} {r : Out V B} {σ' : St E W}
    (h : bindE m f σ = some (r, σ')) :
    (∃ a σ1, m σ = some (.ok a, σ1) ∧ f a σ1 = some (r, σ')) ∨ (∃ t, m σ = some (.throw t, σ') ∧ r = .throw t) ∨
      (m σ = some (.fatal, σ') ∧ r = .fatal) := by
  unfold bindE at h
  split at h
  · cases h
  · rename_i a σ1 hm
    exact .inl ⟨a, σ1, hm, h⟩
  · rename_i t σ1 hm
    cases h
    exact .inr (.inl ⟨t, hm, rfl⟩)
  · rename_i σ1 hm
    cases h
    exact .inr (.inr ⟨hm, rfl⟩)

theorem bindE_ok {A B : Type} {m : Ev V E W A} {f : A → Ev V E W B} {σ σ' : St E W} {a : A}
    (h : m σ = some (.ok a, σ')) : bindE m f σ = f a σ' := by
  simp [bindE, h]

theorem bindE_throw {A B : Type} {m : Ev V E W A} {f : A → Ev V E W B} {σ σ' : St E W} {t : V}
    (h : m σ = some (.throw t, σ')) : bindE m f σ = some (.throw t, σ') := by
  simp [bindE, h]

theorem bindE_fatal {A B : Type} {m : Ev V E W A} {f : A → Ev V E W B} {σ σ' : St E W}
    (h : m σ = some (.fatal, σ')) : bindE m f σ = some (.fatal, σ') := by
  simp [bindE, h]

theorem onWorld_inv {A : Type} {f : E → W → Out V A × W} {e : E} {w : W} {r : Out V A} {σ' : St E W}
    (h : onWorld f ⟨e, w⟩ = some (r, σ')) : ∃ w', σ' = ⟨e, w'⟩ ∧ f e w = (r, w') := by
  simp only [onWorld, Option.some.injEq, Prod.mk.injEq] at h
  exact ⟨_, h.2.symm, Prod.ext h.1 rfl⟩

theorem done_inv {A : Type} {a : A} {σ σ' : St E W} {r : Out V A} (h : done a σ = some (r, σ')) :
    r = .ok a ∧ σ' = σ := by
  simp only [done, Option.some.injEq, Prod.mk.injEq] at h
  exact ⟨h.1.symm, h.2.symm⟩

theorem tame_caught (m : Ev V E W (Completion V)) : Tame (caught m) := by
  intro σ t σ' h
  unfold caught at h
  split at h
  · cases h
  · rename_i hne
    exact hne _ _ h

theorem meets_caught {q : Bool} {m : Ev V E W (Completion V)} {j : Job X P D V I} (h : Meets H q m j) :
    Meets H q (caught m) j := by
  intro e w r σ' hr
  unfold caught at hr
  split at hr
  · rename_i t σ1 hm
    cases hr
    obtain ⟨he, hj⟩ := h _ _ _ _ hm
    exact ⟨he, _, hj, AQ.refl _ _⟩
  · exact h _ _ _ _ hr

theorem tame_done {A : Type} (a : A) : Tame (done a : Ev V E W A) := by
  intro σ t σ' h
  cases (done_inv h).1

theorem tame_bindE {A B : Type} {m : Ev V E W A} {f : A → Ev V E W B} (hm : Tame m) (hf : ∀ a, Tame (f a)) :
    Tame (bindE m f) := by
  intro σ t σ' h
  replace h := bindE_inv h
  rcases h with ⟨a, σ1, _, h⟩ | ⟨t, h, _⟩ | ⟨_, h⟩
  · exact hf _ _ _ _ h
  · exact hm _ _ _ h
  · cases h

theorem inEnv_inv {A : Type} {e1 e : E} {w : W} {m : Ev V E W A} {r : Out V A} {σ' : St E W}
    (h : inEnv e1 m ⟨e, w⟩ = some (r, σ')) : ∃ σ1, m ⟨e1, w⟩ = some (r, σ1) ∧ σ' = ⟨e, σ1.world⟩ := by
  simp only [inEnv, Option.map_eq_some_iff] at h
  obtain ⟨⟨r1, σ1⟩, h, h'⟩ := h
  cases h'
  exact ⟨σ1, h, rfl⟩

theorem inScope_inv {A : Type} {d : D} {e : E} {w : W} {m : Ev V E W A} {r : Out V A} {σ' : St E W}
    (h : inScope H d m ⟨e, w⟩ = some (r, σ')) : (r = .fatal ∧ σ' = ⟨e, w⟩) ∨
      ∃ e1 w1 σ1, H.scope d e w = some (e1, w1) ∧ m ⟨e1, w1⟩ = some (r, σ1) ∧ σ' = ⟨e, σ1.world⟩ := by
  unfold inScope at h
  simp only at h
  split at h
  · cases h
    exact .inl ⟨rfl, rfl⟩
  · rename_i e1 w1 hs
    obtain ⟨σ1, h, h'⟩ := inEnv_inv h
    exact .inr ⟨e1, w1, σ1, hs, h, h'⟩

theorem tame_inScope {A : Type} {d : D} {m : Ev V E W A} (hm : Tame m) : Tame (inScope H d m) := by
  intro ⟨e, w⟩ t σ' h
  replace h := inScope_inv h
  rcases h with ⟨h, _⟩ | ⟨_, _, _, _, h, _⟩
  · cases h
  · exact hm _ _ _ h

theorem meets_block {q : Bool} {d : D} {ss : Stmts X P D} {m : Ev V E W (Completion V)}
    (h : Meets H q m (.list ss none)) : Meets H q (inScope H d m) (.block d ss) := by
  intro e w r σ' hr
  replace hr := inScope_inv hr
  rcases hr with ⟨rfl, rfl⟩ | ⟨e1, w1, σ1, hs, hm, rfl⟩
  · exact ⟨rfl, trivial⟩
  · obtain ⟨_, hj⟩ := h _ _ _ _ hm
    refine ⟨rfl, ?_⟩
    cases r with
    | ok c =>
      obtain ⟨c', hj, ha⟩ := hj
      exact ⟨c', .inner hs hj, ha⟩
    | throw t => exact .inner hs hj
    | fatal => trivial

/-- Where a block declares nothing its statements can be run as they are. -/
theorem meets_bare {q : Bool} {d : D} {ss : Stmts X P D} {m : Ev V E W (Completion V)} (hd : Bare H d)
    (h : Meets H q m (.list ss none)) : Meets H q m (.block d ss) := by
  intro e w r σ' hr
  obtain ⟨he, hj⟩ := h _ _ _ _ hr
  refine ⟨he, ?_⟩
  cases r with
  | ok c =>
    obtain ⟨c', hj, ha⟩ := hj
    exact ⟨c', .inner (hd e w) hj, ha⟩
  | throw t => exact .inner (hd e w) hj
  | fatal => trivial

/-- A declaration: the result says what it comes to. -/
theorem decl_meets (k : Kind) : ∀ (ds : List (Declarator X P)) (e : E) (w : W) (r : Out V Unit) (σ' : St E W),
    evalDecl H k ds ⟨e, w⟩ = some (r, σ') → σ'.env = e ∧
      Ends (fun c => Ecma H (.decl k ds) e w c σ'.world) r
  | [], e, w, r, σ', h => by
    obtain ⟨rfl, rfl⟩ := done_inv (by simpa [evalDecl] using h)
    exact ⟨rfl, .declNil⟩
  | ⟨p, some x⟩ :: ds, e, w, r, σ', h => by
    rw [evalDecl] at h
    replace h := bindE_inv h
    rcases h with ⟨v, σ1, hx, h⟩ | ⟨t, hx, rfl⟩ | ⟨hx, rfl⟩ <;> (replace hx := onWorld_inv hx; obtain ⟨w1, rfl, hx⟩ := hx)
    · replace h := bindE_inv h
      rcases h with ⟨_, σ1, hb, h⟩ | ⟨t, hb, rfl⟩ | ⟨hb, rfl⟩ <;> (replace hb := onWorld_inv hb; obtain ⟨w2, rfl, hb⟩ := hb)
      · obtain ⟨he, hj⟩ := decl_meets k ds _ _ _ _ h
        refine ⟨he, ?_⟩
        cases r with
        | ok _ => exact .declCons hx hb hj
        | throw t => exact .declCons hx hb hj
        | fatal => trivial
      · exact ⟨rfl, .declBindThrow hx hb⟩
      · exact ⟨rfl, trivial⟩
    · exact ⟨rfl, .declThrow hx⟩
    · exact ⟨rfl, trivial⟩
  | ⟨p, none⟩ :: ds, e, w, r, σ', h => by
    have skip : k ≠ .let_ → evalDecl H k ds ⟨e, w⟩ = some (r, σ') → σ'.env = e ∧
        Ends (fun c => Ecma H (.decl k (⟨p, none⟩ :: ds)) e w c σ'.world) r := fun hk h => by
      obtain ⟨he, hj⟩ := decl_meets k ds _ _ _ _ h
      refine ⟨he, ?_⟩
      cases r with
      | ok _ => exact .declSkip hk hj
      | throw t => exact .declSkip hk hj
      | fatal => trivial
    cases k with
    | let_ =>
      rw [evalDecl] at h
      replace h := bindE_inv h
      rcases h with ⟨_, σ1, hb, h⟩ | ⟨t, hb, rfl⟩ | ⟨hb, rfl⟩ <;> (replace hb := onWorld_inv hb; obtain ⟨w2, rfl, hb⟩ := hb)
      · obtain ⟨he, hj⟩ := decl_meets .let_ ds _ _ _ _ h
        refine ⟨he, ?_⟩
        cases r with
        | ok _ => exact .declLet hb hj
        | throw t => exact .declLet hb hj
        | fatal => trivial
      · exact ⟨rfl, .declLetThrow hb⟩
      · exact ⟨rfl, trivial⟩
    | var_ => exact skip (by simp) (by simpa [evalDecl] using h)
    | const_ => exact skip (by simp) (by simpa [evalDecl] using h)
    | assign => exact skip (by simp) (by simpa [evalDecl] using h)

theorem while_meets {q : Bool} {x : X} {s : Stmt X P D} {ls : List Nat} {body : Ev V E W (Completion V)}
    (hb : Meets H q body (.stmt s [])) : ∀ (n : Nat) (v v' : V), (q = true → v = v') →
      Meets H q (whileLoop H x body ls n v) (.while_ x s ls v')
  | 0, _, _, _ => fun e w r σ' h => by simp [whileLoop] at h
  | n + 1, v, v', hv => fun e w r σ' h => by
    rw [whileLoop] at h
    replace h := bindE_inv h
    rcases h with ⟨t, σ1, hx, h⟩ | ⟨t, hx, rfl⟩ | ⟨hx, rfl⟩ <;> (replace hx := onWorld_inv hx; obtain ⟨w1, rfl, hx⟩ := hx)
    · simp only at h
      cases ht : H.truthy t w1
      · simp only [ht, Bool.not_false, if_true, Option.some.injEq, Prod.mk.injEq] at h
        obtain ⟨rfl, rfl⟩ := h
        exact ⟨rfl, _, .whileEnd hx ht, .normal fun hq => by rw [hv hq]⟩
      · simp only [ht, Bool.not_true, Bool.false_eq_true, if_false] at h
        replace h := bindE_inv h
        rcases h with ⟨c, ⟨e2, w2⟩, hm, h⟩ | ⟨t, hm, rfl⟩ | ⟨hm, rfl⟩ <;>
          obtain ⟨he, hj⟩ := hb _ _ _ _ hm
        · simp only at he hj
          subst he
          obtain ⟨c', hj, ha⟩ := hj
          split at h
          · rename_i hl
            obtain ⟨rfl, rfl⟩ := done_inv h
            exact ⟨rfl, _, .whileStop hx ht hj (by rw [← ha.continues]; simpa using hl),
              ha.fill fun hq => by rw [hv hq]⟩
          · rename_i hl
            have hl : c'.Continues ls := (ha.continues ls).1 (by simpa using hl)
            obtain ⟨he, hj2⟩ := while_meets hb n _ _ (ha.val hv) _ _ _ _ h
            refine ⟨he, ?_⟩
            cases r with
            | ok c2 =>
              obtain ⟨c2', hj2, ha2⟩ := hj2
              exact ⟨c2', .whileNext hx ht hj hl hj2, ha2⟩
            | throw t => exact .whileNext hx ht hj hl hj2
            | fatal => trivial
        · exact ⟨he, .whileStop hx ht hj (by simp [Completion.Continues])⟩
        · exact ⟨he, trivial⟩
    · exact ⟨rfl, .whileThrow hx⟩
    · exact ⟨rfl, trivial⟩

theorem do_meets {q : Bool} {x : X} {s : Stmt X P D} {ls : List Nat} {body : Ev V E W (Completion V)}
    (hb : Meets H q body (.stmt s [])) : ∀ (n : Nat) (v v' : V), (q = true → v = v') →
      Meets H q (doLoop H x body ls n v) (.doWhile x s ls v')
  | 0, _, _, _ => fun e w r σ' h => by simp [doLoop] at h
  | n + 1, v, v', hv => fun e w r σ' h => by
    rw [doLoop] at h
    replace h := bindE_inv h
    rcases h with ⟨c, ⟨e2, w2⟩, hm, h⟩ | ⟨t, hm, rfl⟩ | ⟨hm, rfl⟩ <;>
      obtain ⟨he, hj⟩ := hb _ _ _ _ hm
    · simp only at he hj
      subst he
      obtain ⟨c', hj, ha⟩ := hj
      split at h
      · rename_i hl
        obtain ⟨rfl, rfl⟩ := done_inv h
        exact ⟨rfl, _, .doStop hj (by rw [← ha.continues]; simpa using hl), ha.fill fun hq => by rw [hv hq]⟩
      · rename_i hl
        have hl : c'.Continues ls := (ha.continues ls).1 (by simpa using hl)
        replace h := bindE_inv h
        rcases h with ⟨t, σ1, hx, h⟩ | ⟨t, hx, rfl⟩ | ⟨hx, rfl⟩ <;> (replace hx := onWorld_inv hx; obtain ⟨w1, rfl, hx⟩ := hx)
        · simp only at h
          cases ht : H.truthy t w1
          · simp only [ht, Bool.not_false, if_true, Option.some.injEq, Prod.mk.injEq] at h
            obtain ⟨rfl, rfl⟩ := h
            exact ⟨rfl, _, .doEnd hj hl hx ht, .normal fun hq => by rw [ha.val hv hq]⟩
          · simp only [ht, Bool.not_true, Bool.false_eq_true, if_false] at h
            obtain ⟨he, hj2⟩ := do_meets hb n _ _ (ha.val hv) _ _ _ _ h
            refine ⟨he, ?_⟩
            cases r with
            | ok c2 =>
              obtain ⟨c2', hj2, ha2⟩ := hj2
              exact ⟨c2', .doNext hj hl hx ht hj2, ha2⟩
            | throw t => exact .doNext hj hl hx ht hj2
            | fatal => trivial
        · exact ⟨rfl, .doThrow hj hl hx⟩
        · exact ⟨rfl, trivial⟩
    · exact ⟨he, .doStop (v := v') hj (by simp [Completion.Continues])⟩
    · exact ⟨he, trivial⟩

theorem init_meets (i : Init X P) (e : E) (w : W) (r : Out V Unit) (σ' : St E W)
    (h : evalInit H i ⟨e, w⟩ = some (r, σ')) : σ'.env = e ∧
      Ends (fun c => Ecma H (.init i) e w c σ'.world) r := by
  cases i with
  | none =>
    obtain ⟨rfl, rfl⟩ := done_inv (by simpa [evalInit] using h)
    exact ⟨rfl, .initNone⟩
  | expr x =>
    rw [evalInit] at h
    replace h := bindE_inv h
    rcases h with ⟨t, σ1, hx, h⟩ | ⟨t, hx, rfl⟩ | ⟨hx, rfl⟩ <;> (replace hx := onWorld_inv hx; obtain ⟨w1, rfl, hx⟩ := hx)
    · obtain ⟨rfl, rfl⟩ := done_inv h
      exact ⟨rfl, .initExpr hx⟩
    · exact ⟨rfl, .initThrow hx⟩
    · exact ⟨rfl, trivial⟩
  | vars ds =>
    rw [evalInit] at h
    obtain ⟨he, hj⟩ := decl_meets _ _ _ _ _ _ h
    refine ⟨he, ?_⟩
    cases r with
    | ok _ => exact .initVars hj
    | throw t => exact .initVars hj
    | fatal => trivial

theorem post_meets (x : Option X) (e : E) (w : W) (r : Out V Unit) (σ' : St E W)
    (h : evalPost H x ⟨e, w⟩ = some (r, σ')) : σ'.env = e ∧
      Ends (fun c => Ecma H (.post x) e w c σ'.world) r := by
  cases x with
  | none =>
    obtain ⟨rfl, rfl⟩ := done_inv (by simpa [evalPost] using h)
    exact ⟨rfl, .postNone⟩
  | some x =>
    rw [evalPost] at h
    replace h := bindE_inv h
    rcases h with ⟨t, σ1, hx, h⟩ | ⟨t, hx, rfl⟩ | ⟨hx, rfl⟩ <;> (replace hx := onWorld_inv hx; obtain ⟨w1, rfl, hx⟩ := hx)
    · obtain ⟨rfl, rfl⟩ := done_inv h
      exact ⟨rfl, .postExpr hx⟩
    · exact ⟨rfl, .postThrow hx⟩
    · exact ⟨rfl, trivial⟩

theorem cond_meets (x : Option X) (e : E) (w : W) (r : Out V Bool) (σ' : St E W)
    (h : evalCond H x ⟨e, w⟩ = some (r, σ')) : ∃ w', σ' = ⟨e, w'⟩ ∧
      match r with
      | .ok b => TestHolds H x b e w w'
      | .throw t => ∃ y, x = some y ∧ H.expr y e w = (.throw t, w')
      | .fatal => True := by
  cases x with
  | none =>
    obtain ⟨rfl, rfl⟩ := done_inv (by simpa [evalCond] using h)
    exact ⟨w, rfl, rfl, rfl⟩
  | some x =>
    rw [evalCond] at h
    replace h := bindE_inv h
    rcases h with ⟨t, σ1, hx, h⟩ | ⟨t, hx, rfl⟩ | ⟨hx, rfl⟩ <;> (replace hx := onWorld_inv hx; obtain ⟨w1, rfl, hx⟩ := hx)
    · simp only [Option.some.injEq, Prod.mk.injEq] at h
      obtain ⟨rfl, rfl⟩ := h
      exact ⟨w1, rfl, _, hx, rfl⟩
    · exact ⟨w1, rfl, x, rfl, hx⟩
    · exact ⟨w1, rfl, trivial⟩

theorem for_meets {q : Bool} {cond post : Option X} {d : D} {ss : Stmts X P D} {ls : List Nat}
    {body : Ev V E W (Completion V)} (hb : Meets H q body (.block d ss)) :
    ∀ (n : Nat) (v v' : V), (q = true → v = v') →
      Meets H q (forLoop H cond post body ls n v) (.for_ cond post d ss ls v')
  | 0, _, _, _ => fun e w r σ' h => by simp [forLoop] at h
  | n + 1, v, v', hv => fun e w r σ' h => by
    rw [forLoop] at h
    replace h := bindE_inv h
    rcases h with ⟨b, σ1, hx, h⟩ | ⟨t, hx, rfl⟩ | ⟨hx, rfl⟩ <;> (replace hx := cond_meets _ _ _ _ _ hx; obtain ⟨w1, rfl, hx⟩ := hx)
    · simp only at h hx
      cases b
      · simp only [Bool.not_false, if_true] at h
        obtain ⟨rfl, rfl⟩ := done_inv h
        exact ⟨rfl, _, .forEnd hx, .normal fun hq => by rw [hv hq]⟩
      · simp only [Bool.not_true, Bool.false_eq_true, if_false] at h
        replace h := bindE_inv h
        rcases h with ⟨c, ⟨e2, w2⟩, hm, h⟩ | ⟨t, hm, rfl⟩ | ⟨hm, rfl⟩ <;>
          obtain ⟨he, hj⟩ := hb _ _ _ _ hm
        · simp only at he hj
          subst he
          obtain ⟨c', hj, ha⟩ := hj
          split at h
          · rename_i hl
            obtain ⟨rfl, rfl⟩ := done_inv h
            exact ⟨rfl, _, .forStop hx hj (by rw [← ha.continues]; simpa using hl),
              ha.fill fun hq => by rw [hv hq]⟩
          · rename_i hl
            have hl : c'.Continues ls := (ha.continues ls).1 (by simpa using hl)
            replace h := bindE_inv h
            rcases h with ⟨_, ⟨e3, w3⟩, hp, h⟩ | ⟨t, hp, rfl⟩ | ⟨hp, rfl⟩ <;>
              (replace hp := post_meets _ _ _ _ _ hp; obtain ⟨he, hp⟩ := hp)
            · simp only at he hp
              subst he
              obtain ⟨he, hj2⟩ := for_meets hb n _ _ (ha.val hv) _ _ _ _ h
              refine ⟨he, ?_⟩
              cases r with
              | ok c2 =>
                obtain ⟨c2', hj2, ha2⟩ := hj2
                exact ⟨c2', .forNext hx hj hl hp hj2, ha2⟩
              | throw t => exact .forNext hx hj hl hp hj2
              | fatal => trivial
            · exact ⟨he, .forPost hx hj hl hp⟩
            · exact ⟨he, trivial⟩
        · exact ⟨he, .forStop (v := v') hx hj (by simp [Completion.Continues])⟩
        · exact ⟨he, trivial⟩
    · obtain ⟨y, rfl, hy⟩ := hx
      exact ⟨rfl, .forThrow hy⟩
    · exact ⟨rfl, trivial⟩

/-- One iteration of `for`-`in`. -/
theorem inBody_meets {q : Bool} {l : Lhs P} {k : V} {d : D} {ss : Stmts X P D} {body : Ev V E W (Completion V)}
    (hb : Meets H q body (.block d ss)) (e : E) (w : W) (r : Out V (Completion V)) (σ' : St E W)
    (h : inBody H l k body ⟨e, w⟩ = some (r, σ')) : σ'.env = e ∧
      ((∃ t, r = .throw t ∧ bindIter H l k e w = (.throw t, σ'.world)) ∨ r = .fatal ∨
        ∃ e1 w1, bindIter H l k e w = (.ok e1, w1) ∧
          Says q (fun c => Ecma H (.block d ss) e1 w1 c σ'.world) r) := by
  have new : ∀ kd p, inNew H kd p k body ⟨e, w⟩ = some (r, σ') → σ'.env = e ∧
      ((∃ t, r = .throw t ∧ H.bindNew kd p k e w = (.throw t, σ'.world)) ∨ r = .fatal ∨
        ∃ e1 w1, H.bindNew kd p k e w = (.ok e1, w1) ∧
          Says q (fun c => Ecma H (.block d ss) e1 w1 c σ'.world) r) := by
    intro kd p h
    unfold inNew at h
    simp only at h
    split at h
    · rename_i e1 w1 hn
      obtain ⟨σ1, hm, rfl⟩ := inEnv_inv h
      refine ⟨rfl, .inr (.inr ⟨e1, w1, hn, ?_⟩)⟩
      exact (hb _ _ _ _ hm).2
    · rename_i t w1 hn
      cases h
      exact ⟨rfl, .inl ⟨t, rfl, hn⟩⟩
    · cases h
      exact ⟨rfl, .inr (.inl rfl)⟩
  have old : ∀ kd p, bindE (onWorld (H.bind kd p k)) (fun _ => body) ⟨e, w⟩ = some (r, σ') → σ'.env = e ∧
      ((∃ t, r = .throw t ∧ H.bind kd p k e w = (.throw t, σ'.world)) ∨ r = .fatal ∨
        ∃ w1, H.bind kd p k e w = (.ok (), w1) ∧
          Says q (fun c => Ecma H (.block d ss) e w1 c σ'.world) r) := by
    intro kd p h
    replace h := bindE_inv h
    rcases h with ⟨_, σ1, hx, h⟩ | ⟨t, hx, rfl⟩ | ⟨hx, rfl⟩ <;> (replace hx := onWorld_inv hx; obtain ⟨w1, rfl, hx⟩ := hx)
    · obtain ⟨he, hj⟩ := hb _ _ _ _ h
      exact ⟨he, .inr (.inr ⟨w1, hx, hj⟩)⟩
    · exact ⟨rfl, .inl ⟨t, rfl, hx⟩⟩
    · exact ⟨rfl, .inr (.inl rfl)⟩
  cases l with
  | let_ p => exact new _ _ h
  | const_ p => exact new _ _ h
  | var_ p =>
    obtain ⟨he, h⟩ := old _ _ h
    refine ⟨he, ?_⟩
    rcases h with ⟨t, hr, h⟩ | h | ⟨w1, h, h'⟩
    · exact .inl ⟨t, hr, by simp [bindIter, h]⟩
    · exact .inr (.inl h)
    · exact .inr (.inr ⟨e, w1, by simp [bindIter, h], h'⟩)
  | assign p =>
    obtain ⟨he, h⟩ := old _ _ h
    refine ⟨he, ?_⟩
    rcases h with ⟨t, hr, h⟩ | h | ⟨w1, h, h'⟩
    · exact .inl ⟨t, hr, by simp [bindIter, h]⟩
    · exact .inr (.inl h)
    · exact .inr (.inr ⟨e, w1, by simp [bindIter, h], h'⟩)

theorem in_meets {q : Bool} {l : Lhs P} {d : D} {ss : Stmts X P D} {ls : List Nat}
    {body : Ev V E W (Completion V)} (hb : Meets H q body (.block d ss)) :
    ∀ (ks : List V) (v v' : V), (q = true → v = v') →
      Meets H q (inLoop H l body ls ks v) (.forIn l d ss ls ks v')
  | [], v, v', hv => fun e w r σ' h => by
    obtain ⟨rfl, rfl⟩ := done_inv (by simpa [inLoop] using h)
    exact ⟨rfl, _, .inEnd, .normal fun hq => by rw [hv hq]⟩
  | k :: ks, v, v', hv => fun e w r σ' h => by
    rw [inLoop] at h
    replace h := bindE_inv h
    rcases h with ⟨c, ⟨e2, w2⟩, hm, h⟩ | ⟨t, hm, rfl⟩ | ⟨hm, rfl⟩ <;>
      obtain ⟨he, hj⟩ := inBody_meets hb _ _ _ _ hm
    · simp only at he hj
      subst he
      rcases hj with ⟨_, h0, _⟩ | h0 | ⟨e1, w1, hi, c', hj, ha⟩
      · cases h0
      · cases h0
      · split at h
        · rename_i hl
          obtain ⟨rfl, rfl⟩ := done_inv h
          exact ⟨rfl, _, .inStop hi hj (by rw [← ha.continues]; simpa using hl), ha.fill fun hq => by rw [hv hq]⟩
        · rename_i hl
          have hl : c'.Continues ls := (ha.continues ls).1 (by simpa using hl)
          obtain ⟨he, hj2⟩ := in_meets hb ks _ _ (ha.val hv) _ _ _ _ h
          refine ⟨he, ?_⟩
          cases r with
          | ok c2 =>
            obtain ⟨c2', hj2, ha2⟩ := hj2
            exact ⟨c2', .inNext hi hj hl hj2, ha2⟩
          | throw t => exact .inNext hi hj hl hj2
          | fatal => trivial
    · refine ⟨he, ?_⟩
      rcases hj with ⟨u, h0, hi⟩ | h0 | ⟨e1, w1, hi, hj⟩
      · cases h0
        exact .inBind hi
      · cases h0
      · exact .inStop (v := v') hi hj (by simp [Completion.Continues])
    · exact ⟨he, trivial⟩

theorem forIn_meets {q : Bool} {l : Lhs P} {x : X} {d : D} {ss : Stmts X P D} {ls : List Nat}
    {body : Ev V E W (Completion V)} (hb : Meets H q body (.block d ss)) (hx : HeadApart H l x) :
    Meets H q (bindE (evalForIn H l x body ls) fun c => done (normaliseBreak H c)) (.stmt (.forIn l x d ss) ls) := by
  intro e w r σ' h
  have nb : ∀ c : Completion V, normaliseBreak H c = c.unbreak H.undef := fun c => by
    rcases c with _ | _ | _ | ⟨_ | _, _⟩ | _ <;> rfl
  have key : ∀ r σ', evalForIn H l x body ls ⟨e, w⟩ = some (r, σ') → σ'.env = e ∧
      match r with
      | .ok c => ∃ c', Ecma H (.stmt (.forIn l x d ss) ls) e w (c'.unbreak H.undef) σ'.world ∧ AQ q c c'
      | .throw t => Ecma H (.stmt (.forIn l x d ss) ls) e w (.throw t) σ'.world
      | .fatal => True := by
    intro r σ' h
    rw [evalForIn] at h
    replace h := bindE_inv h
    rcases h with ⟨u, σ1, he, h⟩ | ⟨t, he, rfl⟩ | ⟨he, rfl⟩ <;> (replace he := onWorld_inv he; obtain ⟨w1, rfl, he⟩ := he)
    · rw [← hx e w] at he
      split at h
      · rename_i hn
        obtain ⟨rfl, rfl⟩ := done_inv h
        exact ⟨rfl, .normal (some H.undef), .inNullish he hn, AQ.refl _ _⟩
      · rename_i hn
        have hn : H.nullish u = false := by simpa using hn
        replace h := bindE_inv h
        rcases h with ⟨o, σ1, ho, h⟩ | ⟨t, ho, rfl⟩ | ⟨ho, rfl⟩ <;> (replace ho := onWorld_inv ho; obtain ⟨w2, rfl, ho⟩ := ho)
        · replace h := bindE_inv h
          rcases h with ⟨ks, σ1, hk, h⟩ | ⟨t, hk, rfl⟩ | ⟨hk, rfl⟩ <;> (replace hk := onWorld_inv hk; obtain ⟨w3, rfl, hk⟩ := hk)
          · obtain ⟨hE, hj⟩ := in_meets hb ks _ H.undef (fun _ => rfl) _ _ _ _ h
            refine ⟨hE, ?_⟩
            cases r with
            | ok c =>
              obtain ⟨c', hj, ha⟩ := hj
              exact ⟨c', .inStmt he hn ho hk hj, ha⟩
            | throw t => exact (.inStmt he hn ho hk hj : Ecma H _ e w (Completion.unbreak H.undef (.throw t)) _)
            | fatal => trivial
          · exact ⟨rfl, .inKeysThrow he hn ho hk⟩
          · exact ⟨rfl, trivial⟩
        · exact ⟨rfl, .inObjectThrow he hn ho⟩
        · exact ⟨rfl, trivial⟩
    · rw [← hx e w] at he
      exact ⟨rfl, .inThrow he⟩
    · exact ⟨rfl, trivial⟩
  replace h := bindE_inv h
  rcases h with ⟨c, ⟨e2, w2⟩, hm, h⟩ | ⟨t, hm, rfl⟩ | ⟨hm, rfl⟩
  · obtain ⟨he, c', hj, ha⟩ := key _ _ hm
    obtain ⟨rfl, rfl⟩ := done_inv h
    refine ⟨he, _, hj, ?_⟩
    rw [nb]
    exact ha.unbreak
  · exact key _ _ hm
  · exact key _ _ hm

/-- Binding and running the body of `for`-`of`. -/
theorem ofBody_eq {l : Lhs P} (hs : l.shared = true) (v : V) (body : Ev V E W (Completion V)) :
    (bindE (ofBind H l v) fun _ => body) = inBody H l v body := by
  cases l <;> simp_all [Lhs.shared, ofBind, inBody]

theorem closing_inv {A : Type} {i : I} {m : Ev V E W A} {σ : St E W} {r : Out V A} {σ' : St E W}
    (h : closing H i m σ = some (r, σ')) :
    (∃ a, r = .ok a ∧ m σ = some (.ok a, σ')) ∨ ((∀ a, r ≠ .ok a) ∧ ∃ σ1, m σ = some (r, σ1) ∧ σ' = closed H i σ1) := by
  unfold closing at h
  split at h
  · rename_i v σ1 hm
    cases h
    exact .inr ⟨by simp, σ1, hm, rfl⟩
  · rename_i σ1 hm
    cases h
    exact .inr ⟨by simp, σ1, hm, rfl⟩
  · rename_i h1 h2
    cases r with
    | ok a => exact .inl ⟨a, rfl, h⟩
    | throw t => exact absurd h (h1 _ _)
    | fatal => exact absurd h (h2 _)

theorem of_meets {q : Bool} {l : Lhs P} {d : D} {ss : Stmts X P D} {ls : List Nat}
    {body : Ev V E W (Completion V)} (hb : Meets H q body (.block d ss)) (hs : l.shared = true)
    (hc : ClosesQuietly H) :
    ∀ (n : Nat) (i : I) (v v' : V), (q = true → v = v') →
      Meets H q (ofLoop H l body ls n i v) (.forOf l d ss ls i v')
  | 0, _, _, _, _ => fun e w r σ' h => by simp [ofLoop] at h
  | n + 1, i, v, v', hv => fun e w r σ' h => by
    have ok : ∀ i w, H.close i w = (.ok (), (H.close i w).2) := fun i w => Prod.ext (hc.1 i w) rfl
    have nf : ∀ i w, (H.close i w).1 ≠ .fatal := fun i w => by rw [hc.1 i w]; simp
    rw [ofLoop] at h
    replace h := bindE_inv h
    rcases h with ⟨⟨a, i'⟩, σ1, hx, h⟩ | ⟨t, hx, rfl⟩ | ⟨hx, rfl⟩
    · replace hx := closing_inv hx
      rcases hx with ⟨_, h0, hx⟩ | ⟨h0, _⟩
      · cases h0
        (replace hx := onWorld_inv hx; obtain ⟨w1, rfl, hx⟩ := hx)
        cases a with
        | none =>
          obtain ⟨rfl, rfl⟩ := done_inv h
          exact ⟨rfl, _, .ofEnd hx, .normal fun hq => by rw [hv hq]⟩
        | some a =>
          simp only [ofBody_eq hs] at h
          replace h := bindE_inv h
          rcases h with ⟨c, σ2, hm, h⟩ | ⟨t, hm, rfl⟩ | ⟨hm, rfl⟩
          · replace hm := closing_inv hm
            rcases hm with ⟨_, h0, hm⟩ | ⟨h0, _⟩
            · cases h0
              obtain ⟨he, hj⟩ := inBody_meets hb _ _ _ _ hm
              obtain ⟨e2, w2⟩ := σ2
              simp only at he hj
              subst he
              rcases hj with ⟨_, h0, _⟩ | h0 | ⟨e1, w3, hi, c', hj, ha⟩
              · cases h0
              · cases h0
              · split at h
                · rename_i hl
                  have hl : ¬ c'.Continues ls := by rw [← ha.continues]; simpa using hl
                  simp only [Option.some.injEq, Prod.mk.injEq] at h
                  obtain ⟨rfl, rfl⟩ := h
                  refine ⟨rfl, c'.fill (some v'), ?_, ha.fill fun hq => by rw [hv hq]⟩
                  by_cases ht : ∃ t, c' = .throw t
                  · obtain ⟨t, rfl⟩ := ht
                    exact .ofBodyThrow hx hi hj (nf _ _) rfl
                  · exact .ofStop hx hi hj hl (fun t h => ht ⟨t, h⟩) (ok _ _)
                · rename_i hl
                  have hl : c'.Continues ls := (ha.continues ls).1 (by simpa using hl)
                  obtain ⟨he, hj2⟩ := of_meets hb hs hc n i' _ _ (ha.val hv) _ _ _ _ h
                  refine ⟨he, ?_⟩
                  cases r with
                  | ok c2 =>
                    obtain ⟨c2', hj2, ha2⟩ := hj2
                    exact ⟨c2', .ofNext hx hi hj hl hj2, ha2⟩
                  | throw t => exact .ofNext hx hi hj hl hj2
                  | fatal => trivial
            · exact absurd rfl (h0 _)
          · replace hm := closing_inv hm
            rcases hm with ⟨_, h0, hm⟩ | ⟨_, σ1, hm, rfl⟩
            · cases h0
            · obtain ⟨he, hj⟩ := inBody_meets hb _ _ _ _ hm
              refine ⟨he, ?_⟩
              rcases hj with ⟨u, h0, hi⟩ | h0 | ⟨e1, w1, hi, hj⟩
              · cases h0
                exact .ofBind hx hi (nf _ _) rfl
              · cases h0
              · exact .ofBodyThrow hx hi hj (nf _ _) rfl
          · replace hm := closing_inv hm
            rcases hm with ⟨_, h0, hm⟩ | ⟨_, σ1, hm, rfl⟩
            · cases h0
            · exact ⟨(inBody_meets hb _ _ _ _ hm).1, trivial⟩
      · exact absurd rfl (h0 _)
    · replace hx := closing_inv hx
      rcases hx with ⟨_, h0, hx⟩ | ⟨_, σ1, hx, rfl⟩
      · cases h0
      · (replace hx := onWorld_inv hx; obtain ⟨w1, rfl, hx⟩ := hx)
        refine ⟨rfl, ?_⟩
        simp only [closed, hc.2 _ _ _ _ hx]
        exact .ofStep hx
    · replace hx := closing_inv hx
      rcases hx with ⟨_, h0, hx⟩ | ⟨_, σ1, hx, rfl⟩
      · cases h0
      · (replace hx := onWorld_inv hx; obtain ⟨w1, rfl, hx⟩ := hx)
        exact ⟨rfl, trivial⟩

theorem normaliseBreak_eq (c : Completion V) : normaliseBreak H c = c.unbreak H.undef := by
  rcases c with _ | _ | _ | ⟨_ | _, _⟩ | _ <;> rfl

/-- A statement from the job inside it, whose completion is changed at the end. -/
theorem meets_map {q : Bool} {m : Ev V E W (Completion V)} {j k : Job X P D V I} {f g : Completion V → Completion V}
    (h : Meets H q m j) (hf : ∀ c c', AQ q c c' → AQ q (f c) (g c')) (ht : ∀ t, g (.throw t) = .throw t)
    (hk : ∀ e w c w', Ecma H j e w c w' → Ecma H k e w (g c) w') :
    Meets H q (bindE m fun c => done (f c)) k := by
  intro e w r σ' h'
  replace h' := bindE_inv h'
  rcases h' with ⟨c, σ1, hm, h'⟩ | ⟨t, hm, rfl⟩ | ⟨hm, rfl⟩
  · obtain ⟨he, c', hj, ha⟩ := h _ _ _ _ hm
    obtain ⟨rfl, rfl⟩ := done_inv h'
    exact ⟨he, _, hk _ _ _ _ hj, hf _ _ ha⟩
  · obtain ⟨he, hj⟩ := h _ _ _ _ hm
    refine ⟨he, ?_⟩
    have := hk _ _ _ _ hj
    rwa [ht] at this
  · exact ⟨(h _ _ _ _ hm).1, trivial⟩

theorem meets_unbreak {q : Bool} {m : Ev V E W (Completion V)} {j k : Job X P D V I} (h : Meets H q m j)
    (hk : ∀ e w c w', Ecma H j e w c w' → Ecma H k e w (c.unbreak H.undef) w') :
    Meets H q (bindE m fun c => done (normaliseBreak H c)) k :=
  meets_map h (fun c c' ha => by rw [normaliseBreak_eq]; exact ha.unbreak) (fun _ => rfl) hk

theorem of_stmt_meets {q : Bool} {n : Nat} {l : Lhs P} {x : X} {d : D} {ss : Stmts X P D} {ls : List Nat}
    {body : Ev V E W (Completion V)} (hb : Meets H q body (.block d ss)) (hs : l.shared = true)
    (hc : ClosesQuietly H) :
    Meets H q (bindE (evalForOf H n l x body ls) fun c => done (normaliseBreak H c)) (.stmt (.forOf l x d ss) ls) := by
  have hx : ∀ e w, headExpr H l x e w = H.expr x e w := by
    intro e w
    cases l <;> simp_all [Lhs.shared, headExpr]
  intro e w r σ' h
  have key : ∀ r σ', evalForOf H n l x body ls ⟨e, w⟩ = some (r, σ') → σ'.env = e ∧
      match r with
      | .ok c => ∃ c', Ecma H (.stmt (.forOf l x d ss) ls) e w (c'.unbreak H.undef) σ'.world ∧ AQ q c c'
      | .throw t => Ecma H (.stmt (.forOf l x d ss) ls) e w (.throw t) σ'.world
      | .fatal => True := by
    intro r σ' h
    rw [evalForOf] at h
    replace h := bindE_inv h
    rcases h with ⟨u, σ1, he, h⟩ | ⟨t, he, rfl⟩ | ⟨he, rfl⟩ <;> (replace he := onWorld_inv he; obtain ⟨w1, rfl, he⟩ := he)
    · rw [← hx e w] at he
      replace h := bindE_inv h
      rcases h with ⟨i, σ1, ho, h⟩ | ⟨t, ho, rfl⟩ | ⟨ho, rfl⟩ <;>
        (replace ho := onWorld_inv ho; obtain ⟨w2, rfl, ho⟩ := ho)
      · obtain ⟨hE, hj⟩ := of_meets hb hs hc n i _ H.undef (fun _ => rfl) _ _ _ _ h
        refine ⟨hE, ?_⟩
        cases r with
        | ok c =>
          obtain ⟨c', hj, ha⟩ := hj
          exact ⟨c', .ofStmt he ho hj, ha⟩
        | throw t => exact (.ofStmt he ho hj : Ecma H _ e w (Completion.unbreak H.undef (.throw t)) _)
        | fatal => trivial
      · exact ⟨rfl, .ofIterThrow he ho⟩
      · exact ⟨rfl, trivial⟩
    · rw [← hx e w] at he
      exact ⟨rfl, .ofThrow he⟩
    · exact ⟨rfl, trivial⟩
  replace h := bindE_inv h
  rcases h with ⟨c, ⟨e2, w2⟩, hm, h⟩ | ⟨t, hm, rfl⟩ | ⟨hm, rfl⟩
  · obtain ⟨he, c', hj, ha⟩ := key _ _ hm
    obtain ⟨rfl, rfl⟩ := done_inv h
    refine ⟨he, _, hj, ?_⟩
    rw [normaliseBreak_eq]
    exact ha.unbreak
  · exact key _ _ hm
  · exact key _ _ hm

/-! ## The clauses of `switch` -/

/-- The statements of all clauses. -/
def Cases.Each (Q : Stmts X P D → Prop) : Cases X P D → Prop
  | .nil => True
  | .cons _ ss cs => Q ss ∧ cs.Each Q

/-- From `default` on. -/
def fromDefault (H : Host X P D V E I W) (n : Nat) (b : Stmts X P D) (c : Cases X P D) (v : V) :
    Ev V E W (Completion V) :=
  bindE (evalL H n b none) fun r =>
    if isAbrupt r then done (updateEmpty r (some ((valueOf r).getD v)))
    else evalB H n c ((valueOf r).getD v)

/-- After the clauses after `default`. -/
def afterDefault (H : Host X P D V E I W) (n : Nat) (b : Stmts X P D) (c : Cases X P D) :
    (Bool × V) ⊕ Completion V → Ev V E W (Completion V)
  | .inr c => done c
  | .inl (true, v) => done (.normal (some v))
  | .inl (false, v) => fromDefault H n b c v

/-- After some clauses. -/
def contK (H : Host X P D V E I W) (n : Nat) (t : V) : Rest X P D → (Bool × V) ⊕ Completion V → Ev V E W (Completion V)
  | .last, r =>
    match r with
    | .inr c => done c
    | .inl (_, v) => done (.normal (some v))
  | .before b c, r =>
    match r with
    | .inr c => done c
    | .inl (found, v) => bindE (if found then done (.inl (false, v)) else evalC H n c t false v) (afterDefault H n b c)
  | .after b c, r => afterDefault H n b c r

theorem contK_inr (H : Host X P D V E I W) (n : Nat) (t : V) (k : Rest X P D) (c : Completion V) :
    contK H n t k (.inr c) = done c := by
  cases k <;> rfl

theorem fill_val {c : Completion V} (v : V) : updateEmpty c (some ((valueOf c).getD v)) = updateEmpty c (some v) := by
  rcases c with (_ | _) | _ | _ | ⟨_, _ | _⟩ | ⟨_, _ | _⟩ <;> rfl

theorem bodies_meets {q : Bool} {n : Nat} : ∀ (cs : Cases X P D),
    cs.Each (fun ss => Meets H q (evalL H n ss none) (.list ss none)) → ∀ v v' : V, (q = true → v = v') →
      Meets H q (evalB H n cs v) (.bodies cs v')
  | .nil, _, v, v', hv => fun e w r σ' h => by
    obtain ⟨rfl, rfl⟩ := done_inv (by simpa [evalB] using h)
    exact ⟨rfl, _, .bodiesEnd, .normal fun hq => by rw [hv hq]⟩
  | .cons x ss cs, hc, v, v', hv => fun e w r σ' h => by
    rw [evalB] at h
    replace h := bindE_inv h
    rcases h with ⟨c, ⟨e2, w2⟩, hm, h⟩ | ⟨t, hm, rfl⟩ | ⟨hm, rfl⟩ <;> obtain ⟨he, hj⟩ := hc.1 _ _ _ _ hm
    · simp only at he hj
      subst he
      obtain ⟨c', hj, ha⟩ := hj
      split at h
      · rename_i hl
        obtain ⟨rfl, rfl⟩ := done_inv h
        refine ⟨rfl, _, .bodiesStop hj (ha.abrupt.1 hl), ?_⟩
        rw [fill_val]
        exact ha.fill fun hq => by rw [hv hq]
      · rename_i hl
        cases c <;> simp [isAbrupt] at hl
        obtain ⟨u, rfl, hu⟩ := ha.normal_eq'
        obtain ⟨he, hj2⟩ := bodies_meets cs hc.2 _ (u.getD v') (fun hq => by rw [valueOf, hu hq, hv hq]) _ _ _ _ h
        exact ⟨he, hj2.mono fun c hk => .bodiesNext hj hk⟩
    · exact ⟨he, .bodiesStop (v := v') hj (by simp [Completion.Abrupt])⟩
    · exact ⟨he, trivial⟩

theorem default_meets {q : Bool} {n : Nat} {b : Stmts X P D} {cs : Cases X P D}
    (hb : Meets H q (evalL H n b none) (.list b none))
    (hc : cs.Each (fun ss => Meets H q (evalL H n ss none) (.list ss none))) (v v' : V) (hv : q = true → v = v') :
      Meets H q (fromDefault H n b cs v) (.default b cs v') := by
  intro e w r σ' h
  rw [fromDefault] at h
  replace h := bindE_inv h
  rcases h with ⟨c, ⟨e2, w2⟩, hm, h⟩ | ⟨t, hm, rfl⟩ | ⟨hm, rfl⟩ <;> obtain ⟨he, hj⟩ := hb _ _ _ _ hm
  · simp only at he hj
    subst he
    obtain ⟨c', hj, ha⟩ := hj
    split at h
    · rename_i hl
      obtain ⟨rfl, rfl⟩ := done_inv h
      refine ⟨rfl, _, .defaultStop hj (ha.abrupt.1 hl), ?_⟩
      rw [fill_val]
      exact ha.fill fun hq => by rw [hv hq]
    · rename_i hl
      cases c <;> simp [isAbrupt] at hl
      obtain ⟨u, rfl, hu⟩ := ha.normal_eq'
      obtain ⟨he, hj2⟩ := bodies_meets cs hc _ (u.getD v') (fun hq => by rw [valueOf, hu hq, hv hq]) _ _ _ _ h
      exact ⟨he, hj2.mono fun c hk => .defaultNext hj hk⟩
  · exact ⟨he, .defaultStop (v := v') hj (by simp [Completion.Abrupt])⟩
  · exact ⟨he, trivial⟩

/-- The clauses and what follows, from what follows. -/
theorem cases_meets {q : Bool} {n : Nat} {t : V} {k : Rest X P D}
    (hk : ∀ (found : Bool) (v v' : V), (q = true → v = v') →
      Meets H q (contK H n t k (.inl (found, v))) (.cases .nil t found v' k)) :
    ∀ (cs : Cases X P D), cs.Each (fun ss => Meets H q (evalL H n ss none) (.list ss none)) →
      ∀ (found : Bool) (v v' : V), (q = true → v = v') →
        Meets H q (bindE (evalC H n cs t found v) (contK H n t k)) (.cases cs t found v' k)
  | .nil, _, found, v, v', hv => fun e w r σ' h => by
    simp only [evalC, bindE, done] at h
    exact hk found v v' hv _ _ _ _ h
  | .cons x ss cs, hc, found, v, v', hv => fun e w r σ' h => by
    -- once a clause is selected
    have hit : ∀ w1, bindE (bindE (evalL H n ss none) fun r =>
        if isAbrupt r then done (.inr (updateEmpty r (some ((valueOf r).getD v))))
        else evalC H n cs t true ((valueOf r).getD v)) (contK H n t k) ⟨e, w1⟩ = some (r, σ') →
        σ'.env = e ∧ Says q (fun c => Ecma H (.cases (.cons x ss cs) t true v' k) e w1 c σ'.world) r := by
      intro w1 hz
      replace hz := bindE_inv hz
      rcases hz with ⟨r1, σ1, h1, hz⟩ | ⟨u, h1, rfl⟩ | ⟨h1, rfl⟩ <;> replace h1 := bindE_inv h1
      · rcases h1 with ⟨c, ⟨e2, w2⟩, hm, h1⟩ | ⟨u, hm, h0⟩ | ⟨hm, h0⟩
        · obtain ⟨he, c', hj, ha⟩ := hc.1 _ _ _ _ hm
          simp only at he hj
          subst he
          split at h1
          · rename_i hl
            obtain ⟨h0, rfl⟩ := done_inv h1
            cases h0
            rw [contK_inr] at hz
            obtain ⟨rfl, rfl⟩ := done_inv hz
            refine ⟨rfl, _, .caseStop hj (ha.abrupt.1 hl), ?_⟩
            rw [fill_val]
            exact ha.fill fun hq => by rw [hv hq]
          · rename_i hl
            cases c <;> simp [isAbrupt] at hl
            obtain ⟨u, rfl, hu⟩ := ha.normal_eq'
            have hb := (bindE_ok (f := contK H n t k) h1).trans hz
            obtain ⟨he, hj2⟩ := cases_meets hk cs hc.2 true _ (u.getD v')
              (fun hq => by rw [valueOf, hu hq, hv hq]) _ _ _ _ hb
            exact ⟨he, hj2.mono fun c hk => .caseNext hj hk⟩
        · cases h0
        · cases h0
      · rcases h1 with ⟨c, ⟨e2, w2⟩, hm, h1⟩ | ⟨u, hm, h0⟩ | ⟨hm, h0⟩
        · obtain ⟨he, c', hj, ha⟩ := hc.1 _ _ _ _ hm
          simp only at he hj
          subst he
          split at h1
          · cases (done_inv h1).1
          · rename_i hl
            cases c <;> simp [isAbrupt] at hl
            obtain ⟨u, rfl, hu⟩ := ha.normal_eq'
            have hb := bindE_throw (f := contK H n t k) h1
            obtain ⟨he, hj2⟩ := cases_meets hk cs hc.2 true _ (u.getD v')
              (fun hq => by rw [valueOf, hu hq, hv hq]) _ _ _ _ hb
            exact ⟨he, hj2.mono fun c hk => .caseNext hj hk⟩
        · cases h0
          obtain ⟨he, hj⟩ := hc.1 _ _ _ _ hm
          exact ⟨he, .caseStop (v := v') hj (by simp [Completion.Abrupt])⟩
        · cases h0
      · rcases h1 with ⟨c, ⟨e2, w2⟩, hm, h1⟩ | ⟨u, hm, h0⟩ | ⟨hm, h0⟩
        · obtain ⟨he, c', hj, ha⟩ := hc.1 _ _ _ _ hm
          simp only at he hj
          subst he
          split at h1
          · cases (done_inv h1).1
          · rename_i hl
            cases c <;> simp [isAbrupt] at hl
            obtain ⟨u, rfl, hu⟩ := ha.normal_eq'
            have hb := bindE_fatal (f := contK H n t k) h1
            exact ⟨(cases_meets hk cs hc.2 true _ (u.getD v')
              (fun hq => by rw [valueOf, hu hq, hv hq]) _ _ _ _ hb).1, trivial⟩
        · cases h0
        · obtain ⟨he, hj⟩ := hc.1 _ _ _ _ hm
          exact ⟨he, trivial⟩
    cases found with
    | true =>
      refine hit w ?_
      simpa [evalC, bindE, done] using h
    | false =>
      simp only [evalC] at h
      rcases hx : H.expr x e w with ⟨o, w1⟩
      cases o with
      | ok a =>
        cases hq : H.equal t a w1
        · obtain ⟨he, hj⟩ := cases_meets hk cs hc.2 false v v' hv e w1 r σ'
            (by simpa [bindE, evalX, onWorld, hx, hq] using h)
          exact ⟨he, hj.mono fun c hk => .caseSkip hx hq hk⟩
        · obtain ⟨he, hj⟩ := hit w1 (by simpa [bindE, evalX, onWorld, hx, hq] using h)
          exact ⟨he, hj.mono fun c hk => .caseHit hx hq hk⟩
      | throw u =>
        simp only [bindE, evalX, onWorld, hx, Bool.false_eq_true, if_false, Option.some.injEq, Prod.mk.injEq] at h
        obtain ⟨rfl, rfl⟩ := h
        exact ⟨rfl, .caseThrow hx⟩
      | fatal =>
        simp only [bindE, evalX, onWorld, hx, Bool.false_eq_true, if_false, Option.some.injEq, Prod.mk.injEq] at h
        obtain ⟨rfl, rfl⟩ := h
        exact ⟨rfl, trivial⟩

theorem last_meets {q : Bool} {n : Nat} {t : V} (found : Bool) (v v' : V) (hv : q = true → v = v') :
    Meets H q (contK H n t (.last : Rest X P D) (.inl (found, v))) (.cases .nil t found v' .last) := by
  intro e w r σ' h
  obtain ⟨rfl, rfl⟩ := done_inv h
  exact ⟨rfl, _, .casesLast, .normal fun hq => by rw [hv hq]⟩

theorem after_meets {q : Bool} {n : Nat} {t : V} {b : Stmts X P D} {cs : Cases X P D}
    (hb : Meets H q (evalL H n b none) (.list b none))
    (hc : cs.Each (fun ss => Meets H q (evalL H n ss none) (.list ss none)))
    (found : Bool) (v v' : V) (hv : q = true → v = v') :
    Meets H q (contK H n t (.after b cs) (.inl (found, v))) (.cases .nil t found v' (.after b cs)) := by
  intro e w r σ' h
  cases found with
  | true =>
    obtain ⟨rfl, rfl⟩ := done_inv h
    exact ⟨rfl, _, .casesFoundAfter, .normal fun hq => by rw [hv hq]⟩
  | false =>
    obtain ⟨he, hj⟩ := default_meets hb hc v v' hv _ _ _ _ h
    exact ⟨he, hj.mono fun c hk => .casesDefault hk⟩

theorem before_meets {q : Bool} {n : Nat} {t : V} {b : Stmts X P D} {cs : Cases X P D}
    (hb : Meets H q (evalL H n b none) (.list b none))
    (hc : cs.Each (fun ss => Meets H q (evalL H n ss none) (.list ss none)))
    (found : Bool) (v v' : V) (hv : q = true → v = v') :
    Meets H q (contK H n t (.before b cs) (.inl (found, v))) (.cases .nil t found v' (.before b cs)) := by
  intro e w r σ' h
  cases found with
  | true =>
    have h : fromDefault H n b cs v ⟨e, w⟩ = some (r, σ') := by
      simpa [contK, bindE, done, afterDefault] using h
    obtain ⟨he, hj⟩ := default_meets hb hc v v' hv _ _ _ _ h
    exact ⟨he, hj.mono fun c hk => .casesFound hk⟩
  | false =>
    obtain ⟨he, hj⟩ := cases_meets (k := .after b cs) (after_meets hb hc) cs hc false v v' hv e w r σ' h
    exact ⟨he, hj.mono fun c hk => .casesOther hk⟩

theorem switch_meets {q : Bool} {m : V → Ev V E W (Completion V)} {x : X} {d : D} {s : Stmt X P D} {ls : List Nat}
    {J : V → Job X P D V I} (h : ∀ t, Meets H q (m t) (J t))
    (hthrow : ∀ e w t w', H.expr x e w = (.throw t, w') → Ecma H (.stmt s ls) e w (.throw t) w')
    (hstmt : ∀ e w v w1 e1 w2 c w', H.expr x e w = (.ok v, w1) → H.scope d e w1 = some (e1, w2) →
      Ecma H (J v) e1 w2 c w' → Ecma H (.stmt s ls) e w (c.unbreak H.undef) w') :
    Meets H q (bindE (bindE (evalX H x) fun t => inScope H d (m t)) fun c => done (normaliseBreak H c))
      (.stmt s ls) := by
  intro e w r σ' h'
  have key : ∀ r σ', bindE (evalX H x) (fun t => inScope H d (m t)) ⟨e, w⟩ = some (r, σ') → σ'.env = e ∧
      match r with
      | .ok c => ∃ c', Ecma H (.stmt s ls) e w (c'.unbreak H.undef) σ'.world ∧ AQ q c c'
      | .throw t => Ecma H (.stmt s ls) e w (.throw t) σ'.world
      | .fatal => True := by
    intro r σ' h'
    replace h' := bindE_inv h'
    rcases h' with ⟨u, σ1, he, h'⟩ | ⟨t, he, rfl⟩ | ⟨he, rfl⟩ <;>
      (replace he := onWorld_inv he; obtain ⟨w1, rfl, he⟩ := he)
    · replace h' := inScope_inv h'
      rcases h' with ⟨rfl, rfl⟩ | ⟨e1, w2, σ1, hs, hm, rfl⟩
      · exact ⟨rfl, trivial⟩
      · obtain ⟨_, hj⟩ := h _ _ _ _ _ hm
        refine ⟨rfl, ?_⟩
        cases r with
        | ok c =>
          obtain ⟨c', hj, ha⟩ := hj
          exact ⟨c', hstmt _ _ _ _ _ _ _ _ he hs hj, ha⟩
        | throw t => exact hstmt _ _ _ _ _ _ _ _ he hs hj
        | fatal => trivial
    · exact ⟨rfl, hthrow _ _ _ _ he⟩
    · exact ⟨rfl, trivial⟩
  replace h' := bindE_inv h'
  rcases h' with ⟨c, ⟨e2, w2⟩, hm, h'⟩ | ⟨t, hm, rfl⟩ | ⟨hm, rfl⟩
  · obtain ⟨he, c', hj, ha⟩ := key _ _ hm
    obtain ⟨rfl, rfl⟩ := done_inv h'
    refine ⟨he, _, hj, ?_⟩
    rw [normaliseBreak_eq]
    exact ha.unbreak
  · exact key _ _ hm
  · exact key _ _ hm

/-! ## `try` -/

/-- What is known about a handler. -/
def HandlerMeets (H : Host X P D V E I W) (q : Bool) (n : Nat) (h : Handler X P D) : Prop :=
  ∀ c c' : Completion V, AQ q c c' → Meets H q (evalH H n h c) (.handler h c') ∧
    ((∀ p ss, h = .param p ss → Safe H p) → Tame (evalH H n h c))

def FinalMeets (H : Host X P D V E I W) (q : Bool) (n : Nat) (f : Final X P D) : Prop :=
  ∀ c c' : Completion V, AQ q c c' → Meets H q (evalF H n f c) (.final f c') ∧ Tame (evalF H n f c)

theorem tame_inNew {k : Kind} {p : P} {v : V} {m : Ev V E W (Completion V)} (hm : Tame m)
    (hp : ∀ e w t w', H.bindNew k p v e w ≠ (.throw t, w')) : Tame (inNew H k p v m) := by
  intro ⟨e, w⟩ t σ' h
  unfold inNew at h
  simp only at h
  split at h
  · obtain ⟨σ1, h, _⟩ := inEnv_inv h
    exact hm _ _ _ h
  · rename_i hn
    exact hp _ _ _ _ hn
  · cases h

theorem handler_cases (c : Completion V) : (∃ t, c = .throw t) ∨ ∀ t, c ≠ .throw t := by
  cases c <;> simp

theorem handler_meets {q : Bool} {n : Nat} : ∀ (h : Handler X P D), 
    (∀ d ss, h = .bare d ss → Meets H q (evalL H n ss none) (.list ss none) ∧ Tame (evalL H n ss none)) →
    (∀ p ss, h = .param p ss → Meets H q (evalL H n ss none) (.list ss none) ∧ Tame (evalL H n ss none)) →
    HandlerMeets H q n h := by
  intro h hd hp c c' ha
  cases h with
  | none =>
    rw [evalH]
    refine ⟨fun e w r σ' h => ?_, fun _ => tame_done _⟩
    obtain ⟨rfl, rfl⟩ := done_inv h
    exact ⟨rfl, _, .noHandler, ha⟩
  | bare d ss =>
    obtain ⟨hm, ht⟩ := hd _ _ rfl
    rcases handler_cases c with ⟨t, rfl⟩ | hne
    · rw [ha.throw_eq']
      simp only [evalH]
      refine ⟨fun e w r σ' h => ?_, fun _ => tame_inScope ht⟩
      obtain ⟨he, hj⟩ := meets_block (d := d) hm _ _ _ _ h
      exact ⟨he, hj.mono fun c hk => .catch_ hk⟩
    · have : evalH H n (.bare d ss) c = done c := by
        cases c <;> simp_all [evalH]
      rw [this]
      refine ⟨fun e w r σ' h => ?_, fun _ => tame_done _⟩
      obtain ⟨rfl, rfl⟩ := done_inv h
      exact ⟨rfl, _, .unused (fun t h => hne t (AQ.throw_eq (q := q) (h ▸ ha))), ha⟩
  | param p ss =>
    obtain ⟨hm, ht⟩ := hp _ _ rfl
    rcases handler_cases c with ⟨t, rfl⟩ | hne
    · rw [ha.throw_eq']
      simp only [evalH]
      refine ⟨fun e w r σ' h => ?_, fun hs => tame_inNew ht fun e w u w' => hs p ss rfl _ _ _ _ _⟩
      unfold inNew at h
      simp only at h
      split at h
      · rename_i e1 w1 hn
        replace h := inEnv_inv h
        obtain ⟨σ1, hr, rfl⟩ := h
        obtain ⟨_, hj⟩ := hm _ _ _ _ hr
        exact ⟨rfl, hj.mono fun c hk => .catchParam hn hk⟩
      · rename_i hn
        cases h
        exact ⟨rfl, .catchBind hn⟩
      · cases h
        exact ⟨rfl, trivial⟩
    · have : evalH H n (.param p ss) c = done c := by
        cases c <;> simp_all [evalH]
      rw [this]
      refine ⟨fun e w r σ' h => ?_, fun _ => tame_done _⟩
      obtain ⟨rfl, rfl⟩ := done_inv h
      exact ⟨rfl, _, .unused (fun t h => hne t (AQ.throw_eq (q := q) (h ▸ ha))), ha⟩

theorem final_meets {q : Bool} {n : Nat} (f : Final X P D)
    (hd : ∀ d ss, f = .some d ss → Meets H q (evalL H n ss none) (.list ss none) ∧ Tame (evalL H n ss none)) :
    FinalMeets H q n f := by
  intro c c' ha
  cases f with
  | none =>
    rw [evalF]
    refine ⟨fun e w r σ' h => ?_, tame_done _⟩
    obtain ⟨rfl, rfl⟩ := done_inv h
    exact ⟨rfl, _, .noFinal, ha⟩
  | some d ss =>
    obtain ⟨hm, ht⟩ := hd _ _ rfl
    rw [evalF]
    refine ⟨fun e w r σ' h => ?_, tame_bindE (tame_inScope ht) fun r => by split <;> exact tame_done _⟩
    replace h := bindE_inv h
    rcases h with ⟨r1, ⟨e2, w2⟩, h1, h⟩ | ⟨t, h1, rfl⟩ | ⟨h1, rfl⟩
    · obtain ⟨he, c1, hj, ha1⟩ := meets_block (d := d) hm _ _ _ _ h1
      split at h
      · rename_i hl
        obtain ⟨rfl, rfl⟩ := done_inv h
        exact ⟨he, _, .finalAbrupt hj (ha1.abrupt.1 hl), ha1⟩
      · rename_i hl
        obtain ⟨rfl, rfl⟩ := done_inv h
        cases r1 <;> simp [isAbrupt] at hl
        obtain ⟨u, rfl, hu⟩ := ha1.normal_eq'
        exact ⟨he, _, .finalNormal hj, ha⟩
    · exact absurd h1 (tame_inScope ht _ _ _)
    · exact ⟨(meets_block (d := d) hm _ _ _ _ h1).1, trivial⟩

theorem try_meets {q : Bool} {n : Nat} {d : D} {ss : Stmts X P D} {h : Handler X P D} {f : Final X P D} {ls : List Nat}
    (hb : Meets H q (evalL H n ss none) (.list ss none) ∧ Tame (evalL H n ss none)) (hh : HandlerMeets H q n h)
    (hf : FinalMeets H q n f)
    (hs : CatchSafe H h f) :
    Meets H q (bindE (inScope H d (evalL H n ss none)) fun c =>
      bindE (evalH H n h c) fun c => bindE (evalF H n f c) fun c => done (updateEmpty c (some H.undef)))
      (.stmt (.try_ d ss h f) ls) := by
  intro e w r σ' h0
  replace h0 := bindE_inv h0
  rcases h0 with ⟨b, ⟨e1, w1⟩, h1, h0⟩ | ⟨t, h1, rfl⟩ | ⟨h1, rfl⟩
  · obtain ⟨he, b', hj, ha⟩ := meets_block (d := d) hb.1 _ _ _ _ h1
    simp only at he hj
    subst he
    obtain ⟨hh, hht⟩ := hh b b' ha
    replace h0 := bindE_inv h0
    rcases h0 with ⟨c, ⟨e2, w2⟩, h2, h0⟩ | ⟨t, h2, rfl⟩ | ⟨h2, rfl⟩
    · obtain ⟨he, c', hj2, ha2⟩ := hh _ _ _ _ h2
      simp only at he hj2
      subst he
      obtain ⟨hf, hft⟩ := hf c c' ha2
      replace h0 := bindE_inv h0
      rcases h0 with ⟨g, ⟨e3, w3⟩, h3, h0⟩ | ⟨t, h3, rfl⟩ | ⟨h3, rfl⟩
      · obtain ⟨he, g', hj3, ha3⟩ := hf _ _ _ _ h3
        simp only at he hj3
        subst he
        obtain ⟨rfl, rfl⟩ := done_inv h0
        exact ⟨rfl, _, .try_ hj hj2 hj3, ha3.fill fun _ => rfl⟩
      · exact absurd h3 (hft _ _ _)
      · exact ⟨(hf _ _ _ _ h3).1, trivial⟩
    · obtain ⟨he, hj2⟩ := hh _ _ _ _ h2
      refine ⟨he, ?_⟩
      cases f with
      | none => exact .try_ hj hj2 .noFinal
      | some d' ss' =>
        refine absurd h2 (hht ?_ _ _ _)
        rintro p ss rfl
        exact hs
    · exact ⟨(hh _ _ _ _ h2).1, trivial⟩
  · exact absurd h1 (tame_inScope hb.2 _ _ _)
  · exact ⟨(meets_block (d := d) hb.1 _ _ _ _ h1).1, trivial⟩

theorem simple_meets {q : Bool} {x : X} {j : Job X P D V I} {f : V → Completion V}
    (ht : ∀ e w t w', H.expr x e w = (.throw t, w') → Ecma H j e w (.throw t) w')
    (hk : ∀ e w v w', H.expr x e w = (.ok v, w') → Ecma H j e w (f v) w') :
    Meets H q (bindE (evalX H x) fun v => done (f v)) j := by
  intro e w r σ' h
  replace h := bindE_inv h
  rcases h with ⟨u, σ1, he, h⟩ | ⟨t, he, rfl⟩ | ⟨he, rfl⟩ <;>
    (replace he := onWorld_inv he; obtain ⟨w1, rfl, he⟩ := he)
  · obtain ⟨rfl, rfl⟩ := done_inv h
    exact ⟨rfl, _, hk _ _ _ _ he, AQ.refl _ _⟩
  · exact ⟨rfl, ht _ _ _ _ he⟩
  · exact ⟨rfl, trivial⟩

/-- The two kinds of `if`; they are where values differ. -/
theorem if_meets {q : Bool} {x : X} {j ja jb : Job X P D V I} {a b : Ev V E W (Completion V)}
    (hq : q = false) (ha : Meets H q a ja) (hb : Meets H q b jb)
    (ht : ∀ e w t w', H.expr x e w = (.throw t, w') → Ecma H j e w (.throw t) w')
    (hk : ∀ e w v w1 c w', H.expr x e w = (.ok v, w1) → H.truthy v w1 = true → Ecma H ja e w1 c w' →
      Ecma H j e w (c.fill (some H.undef)) w')
    (hf : ∀ e w v w1 c w', H.expr x e w = (.ok v, w1) → H.truthy v w1 = false → Ecma H jb e w1 c w' →
      Ecma H j e w (c.fill (some H.undef)) w') :
    Meets H q (bindE (evalX H x) fun t => fun σ => if H.truthy t σ.world then a σ else b σ) j := by
  subst hq
  intro e w r σ' h
  replace h := bindE_inv h
  rcases h with ⟨u, σ1, he, h⟩ | ⟨t, he, rfl⟩ | ⟨he, rfl⟩ <;>
    (replace he := onWorld_inv he; obtain ⟨w1, rfl, he⟩ := he)
  · simp only at h
    have conv : ∀ {J : Completion V → Prop}, Says false J r → (∀ c, J c → Ecma H j e w (c.fill (some H.undef)) σ'.world) →
        Says false (fun c => Ecma H j e w c σ'.world) r := by
      intro J hj hc
      cases r with
      | ok c =>
        obtain ⟨c', hj, ha⟩ := hj
        refine ⟨_, hc _ hj, ?_, by simp⟩
        have := ha.1
        cases c <;> cases c' <;> simp_all [Completion.Alike, Completion.fill]
      | throw t => exact hc _ hj
      | fatal => trivial
    cases htr : H.truthy u w1
    · simp only [htr, Bool.false_eq_true, if_false] at h
      obtain ⟨hE, hj⟩ := hb _ _ _ _ h
      exact ⟨hE, conv hj fun c hc => hf _ _ _ _ _ _ he htr hc⟩
    · simp only [htr, if_true] at h
      obtain ⟨hE, hj⟩ := ha _ _ _ _ h
      exact ⟨hE, conv hj fun c hc => hk _ _ _ _ _ _ he htr hc⟩
  · exact ⟨rfl, ht _ _ _ _ he⟩
  · exact ⟨rfl, trivial⟩

theorem empty_meets {q : Bool} : Meets H q (done (.normal none)) (.stmt (.empty : Stmt X P D) []) := by
  intro e w r σ' h
  obtain ⟨rfl, rfl⟩ := done_inv h
  exact ⟨rfl, _, .empty, AQ.refl _ _⟩

theorem label_meets {q : Bool} {l : Nat} {s : Stmt X P D} {ls : List Nat} {m : Ev V E W (Completion V)}
    (h : Meets H q m (.stmt s (ls ++ [l]))) :
    Meets H q (bindE m fun c =>
      match c with
      | .brk (some t) v => if t = l then done (.normal v) else done c
      | c => done c) (.stmt (.label l s) ls) := by
  have : (fun c : Completion V =>
      (match c with
      | .brk (some t) v => if t = l then done (.normal v) else done c
      | c => done c : Ev V E W (Completion V))) = fun c => done (c.unlabel l) := by
    funext c
    rcases c with _ | _ | _ | ⟨_ | _, _⟩ | _ <;> simp [Completion.unlabel]
    split <;> rfl
  rw [this]
  exact meets_map h (fun _ _ => AQ.unlabel) (fun _ => rfl) fun _ _ _ _ => .label

mutual
theorem evalS_meets (H : Host X P D V E I W) (q : Bool) (n : Nat) : ∀ (s : Stmt X P D), s.Plain H →
    (q = true → s.noIf = true) → ∀ ls, Meets H q (evalS H n s ls) (.stmt s ls) ∧ Tame (evalS H n s ls)
  | .empty, _, _, ls => by
    rw [evalS]
    refine ⟨fun e w r σ' h => ?_, tame_done _⟩
    obtain ⟨rfl, rfl⟩ := done_inv h
    exact ⟨rfl, _, .empty, AQ.refl _ _⟩
  | .func, _, _, ls => by
    rw [evalS]
    refine ⟨fun e w r σ' h => ?_, tame_done _⟩
    obtain ⟨rfl, rfl⟩ := done_inv h
    exact ⟨rfl, _, .func, AQ.refl _ _⟩
  | .expr x, _, _, ls => by
    rw [evalS]
    exact ⟨meets_caught (simple_meets (fun _ _ _ _ => .exprThrow) fun _ _ _ _ => .expr), tame_caught _⟩
  | .decl k ds, _, _, ls => by
    rw [evalS]
    refine ⟨meets_caught fun e w r σ' h => ?_, tame_caught _⟩
    replace h := bindE_inv h
    rcases h with ⟨u, σ1, he, h⟩ | ⟨t, he, rfl⟩ | ⟨he, rfl⟩ <;> obtain ⟨hE, hj⟩ := decl_meets _ _ _ _ _ _ he
    · obtain ⟨rfl, rfl⟩ := done_inv h
      exact ⟨hE, _, .decl hj, AQ.refl _ _⟩
    · exact ⟨hE, .decl hj⟩
    · exact ⟨hE, trivial⟩
  | .block d ss, hp, hq, ls => by
    rw [evalS]
    obtain ⟨hm, _⟩ := evalL_meets H q n ss hp hq none none (fun _ => rfl)
    refine ⟨meets_caught fun e w r σ' h => ?_, tame_caught _⟩
    obtain ⟨hE, hj⟩ := meets_block (d := d) hm _ _ _ _ h
    exact ⟨hE, hj.mono fun c => .block⟩
  | .ifThen x s, hp, hq, ls => by
    have hq : q = false := by
      cases q
      · rfl
      · simp [Stmt.noIf] at hq
    rw [evalS]
    refine ⟨meets_caught ?_, tame_caught _⟩
    exact if_meets (b := done (.normal none)) hq (evalS_meets H q n s hp (by simp [hq]) []).1 empty_meets
      (fun _ _ _ _ => .ifThrow) (fun _ _ _ _ _ _ => .ifTrue) (fun e w v w1 c w' hx ht hj => by
        cases hj
        exact .ifFalse hx ht)
  | .ifElse x s t, hp, hq, ls => by
    have hq : q = false := by
      cases q
      · rfl
      · simp [Stmt.noIf] at hq
    rw [evalS]
    refine ⟨meets_caught ?_, tame_caught _⟩
    exact if_meets hq (evalS_meets H q n s hp.1 (by simp [hq]) []).1 (evalS_meets H q n t hp.2 (by simp [hq]) []).1
      (fun _ _ _ _ => .ifElseThrow) (fun _ _ _ _ _ _ => .ifElseTrue) (fun _ _ _ _ _ _ => .ifElseFalse)
  | .throw x, _, _, ls => by
    rw [evalS]
    exact ⟨meets_caught (simple_meets (fun _ _ _ _ => .throwThrow) fun _ _ _ _ => .throw), tame_caught _⟩
  | .try_ d ss h f, hp, hq, ls => by
    rw [evalS]
    simp only [Stmt.noIf, Bool.and_eq_true] at hq
    refine ⟨meets_caught ?_, tame_caught _⟩
    exact try_meets (evalL_meets H q n ss hp.1 (fun h => (hq h).1.1) none none fun _ => rfl)
      (evalH_meets H q n h hp.2.1 fun h => (hq h).1.2) (evalF_meets H q n f hp.2.2.1 fun h => (hq h).2) hp.2.2.2
  | .ret none, _, _, ls => by
    rw [evalS]
    refine ⟨fun e w r σ' h => ?_, tame_done _⟩
    obtain ⟨rfl, rfl⟩ := done_inv h
    exact ⟨rfl, _, .ret, AQ.refl _ _⟩
  | .ret (some x), _, _, ls => by
    rw [evalS]
    exact ⟨meets_caught (simple_meets (fun _ _ _ _ => .retThrow) fun _ _ _ _ => .retExpr), tame_caught _⟩
  | .while_ x s, hp, hq, ls => by
    rw [evalS]
    refine ⟨meets_caught (meets_unbreak ?_ fun _ _ _ _ => .whileStmt), tame_caught _⟩
    exact while_meets (evalS_meets H q n s hp hq []).1 n _ _ fun _ => rfl
  | .doWhile s x, hp, hq, ls => by
    rw [evalS]
    refine ⟨meets_caught (meets_unbreak ?_ fun _ _ _ _ => .doStmt), tame_caught _⟩
    exact do_meets (evalS_meets H q n s hp hq []).1 n _ _ fun _ => rfl
  | .for_ i cond post d ss, hp, hq, ls => by
    rw [evalS]
    have hb := meets_bare hp.1 (evalL_meets H q n ss hp.2 hq none none fun _ => rfl).1
    refine ⟨meets_caught fun e w r σ' h => ?_, tame_caught _⟩
    replace h := bindE_inv h
    rcases h with ⟨c, σ1, h1, h⟩ | ⟨t, h1, rfl⟩ | ⟨h1, rfl⟩ <;> replace h1 := bindE_inv h1
    · rcases h1 with ⟨_, ⟨e2, w2⟩, hi, h1⟩ | ⟨t, hi, h0⟩ | ⟨hi, h0⟩
      · obtain ⟨he, hi⟩ := init_meets _ _ _ _ _ hi
        simp only at he hi
        subst he
        obtain ⟨he, c', hj, ha⟩ := for_meets (ls := ls) (cond := cond) (post := post) hb n _ H.undef (fun _ => rfl) _ _ _ _ h1
        obtain ⟨rfl, rfl⟩ := done_inv h
        refine ⟨he, _, .forStmt hi hj, ?_⟩
        rw [normaliseBreak_eq]
        exact ha.unbreak
      · cases h0
      · cases h0
    · rcases h1 with ⟨_, ⟨e2, w2⟩, hi, h1⟩ | ⟨t, hi, h0⟩ | ⟨hi, h0⟩
      · obtain ⟨he, hi⟩ := init_meets _ _ _ _ _ hi
        simp only at he hi
        subst he
        obtain ⟨he, hj⟩ := for_meets (ls := ls) (cond := cond) (post := post) hb n _ H.undef (fun _ => rfl) _ _ _ _ h1
        exact ⟨he, (.forStmt hi hj : Ecma H _ _ _ (Completion.unbreak H.undef (.throw _)) _)⟩
      · cases h0
        obtain ⟨he, hi⟩ := init_meets _ _ _ _ _ hi
        exact ⟨he, .forInitThrow hi⟩
      · cases h0
    · rcases h1 with ⟨_, ⟨e2, w2⟩, hi, h1⟩ | ⟨t, hi, h0⟩ | ⟨hi, h0⟩
      · obtain ⟨he, hi⟩ := init_meets _ _ _ _ _ hi
        simp only at he hi
        subst he
        exact ⟨(for_meets (ls := ls) (cond := cond) (post := post) hb n _ H.undef (fun _ => rfl) _ _ _ _ h1).1, trivial⟩
      · cases h0
      · exact ⟨(init_meets _ _ _ _ _ hi).1, trivial⟩
  | .forIn l x d ss, hp, hq, ls => by
    rw [evalS]
    have hb := meets_bare hp.1 (evalL_meets H q n ss hp.2.2 hq none none fun _ => rfl).1
    exact ⟨meets_caught (forIn_meets hb hp.2.1), tame_caught _⟩
  | .forOf l x d ss, hp, hq, ls => by
    rw [evalS]
    have hb := meets_bare hp.1 (evalL_meets H q n ss hp.2.2.2 hq none none fun _ => rfl).1
    exact ⟨meets_caught (of_stmt_meets hb hp.2.1 hp.2.2.1), tame_caught _⟩
  | .switch x d cs, hp, hq, ls => by
    rw [evalS]
    have hc := evalC_meets H q n cs hp hq
    refine ⟨meets_caught ?_, tame_caught _⟩
    exact switch_meets (J := fun t => .cases cs t false H.undef .last)
      (fun t => cases_meets (k := .last) last_meets cs hc false _ _ fun _ => rfl)
      (fun _ _ _ _ => .switchThrow) (fun _ _ _ _ _ _ _ _ => .switch)
  | .switchDefault x d a b c, hp, hq, ls => by
    rw [evalS]
    simp only [Stmt.noIf, Bool.and_eq_true] at hq
    have ha := evalC_meets H q n a hp.1 fun h => (hq h).1.1
    have hb := (evalL_meets H q n b hp.2.1 (fun h => (hq h).1.2) none none fun _ => rfl).1
    have hc := evalC_meets H q n c hp.2.2 fun h => (hq h).2
    refine ⟨meets_caught ?_, tame_caught _⟩
    exact switch_meets (J := fun t => .cases a t false H.undef (.before b c))
      (fun t => cases_meets (k := .before b c) (before_meets hb hc) a ha false _ _ fun _ => rfl)
      (fun _ _ _ _ => .switchDThrow) (fun _ _ _ _ _ _ _ _ => .switchD)
  | .label l s, hp, hq, ls => by
    rw [evalS]
    exact ⟨meets_caught (label_meets (evalS_meets H q n s hp hq _).1), tame_caught _⟩
  | .break_ l, _, _, ls => by
    rw [evalS]
    refine ⟨fun e w r σ' h => ?_, tame_done _⟩
    obtain ⟨rfl, rfl⟩ := done_inv h
    exact ⟨rfl, _, .break_, AQ.refl _ _⟩
  | .continue_ l, _, _, ls => by
    rw [evalS]
    refine ⟨fun e w r σ' h => ?_, tame_done _⟩
    obtain ⟨rfl, rfl⟩ := done_inv h
    exact ⟨rfl, _, .continue_, AQ.refl _ _⟩

theorem evalL_meets (H : Host X P D V E I W) (q : Bool) (n : Nat) : ∀ (ss : Stmts X P D), ss.Plain H →
    (q = true → ss.noIf = true) → ∀ last last' : Option V, (q = true → last = last') →
      Meets H q (evalL H n ss last) (.list ss last') ∧ Tame (evalL H n ss last)
  | .nil, _, _, last, last', hl => by
    rw [evalL]
    refine ⟨fun e w r σ' h => ?_, tame_done _⟩
    obtain ⟨rfl, rfl⟩ := done_inv h
    exact ⟨rfl, _, .nil, .normal hl⟩
  | .cons s ss, hp, hq, last, last', hl => by
    simp only [Stmts.noIf, Bool.and_eq_true] at hq
    rw [evalL]
    obtain ⟨hs, hst⟩ := evalS_meets H q n s hp.1 (fun h => (hq h).1) []
    constructor
    · intro e w r σ' h
      replace h := bindE_inv h
      rcases h with ⟨c, ⟨e2, w2⟩, hm, h⟩ | ⟨t, hm, rfl⟩ | ⟨hm, rfl⟩
      · obtain ⟨he, c', hj, ha⟩ := hs _ _ _ _ hm
        simp only at he hj
        subst he
        have ha' := ha.fill (v := last) (v' := last') hl
        by_cases hc : ∃ v, updateEmpty c last = .normal v
        · obtain ⟨v, hv⟩ := hc
          simp only [hv] at h
          rw [hv] at ha'
          obtain ⟨v', hv', hvq⟩ := ha'.normal_eq'
          have : v.or last = v := by
            rcases c with (_ | _) | _ | _ | ⟨_, _ | _⟩ | ⟨_, _ | _⟩ <;> simp [updateEmpty] at hv <;> subst hv <;> simp
          rw [this] at h
          obtain ⟨he, hj2⟩ := (evalL_meets H q n ss hp.2 (fun h => (hq h).2) v v' hvq).1 _ _ _ _ h
          exact ⟨he, hj2.mono fun c hk => .cons hj hv' hk⟩
        · have hd : done (updateEmpty c last) ⟨e2, w2⟩ = some (r, σ') := by
            cases hu : updateEmpty c last <;> simp_all
          obtain ⟨rfl, rfl⟩ := done_inv hd
          refine ⟨rfl, _, .stop hj ?_, ha'⟩
          rintro v rfl
          obtain ⟨u, rfl, _⟩ := ha.normal_eq
          cases u with
          | none => exact hc ⟨_, rfl⟩
          | some u => exact hc ⟨_, rfl⟩
      · exact absurd hm (hst _ _ _)
      · exact ⟨(hs _ _ _ _ hm).1, trivial⟩
    · refine tame_bindE hst fun c => ?_
      split
      · exact (evalL_meets H q n ss hp.2 (fun h => (hq h).2) _ _ fun _ => rfl).2
      · exact tame_done _

theorem evalH_meets (H : Host X P D V E I W) (q : Bool) (n : Nat) : ∀ (h : Handler X P D), h.Plain H →
    (q = true → h.noIf = true) → HandlerMeets H q n h
  | .none, _, _ => handler_meets _ (by simp) (by simp)
  | .bare d ss, hp, hq => handler_meets _
      (fun d ss h => by
        cases h
        exact evalL_meets H q n _ hp hq none none fun _ => rfl) (by simp)
  | .param d ss, hp, hq => handler_meets _ (by simp)
      (fun d ss h => by
        cases h
        exact evalL_meets H q n _ hp hq none none fun _ => rfl)

theorem evalF_meets (H : Host X P D V E I W) (q : Bool) (n : Nat) : ∀ (f : Final X P D), f.Plain H →
    (q = true → f.noIf = true) → FinalMeets H q n f
  | .none, _, _ => final_meets _ (by simp)
  | .some d ss, hp, hq => final_meets _
      (fun d ss h => by
        cases h
        exact evalL_meets H q n _ hp hq none none fun _ => rfl)

theorem evalC_meets (H : Host X P D V E I W) (q : Bool) (n : Nat) : ∀ (cs : Cases X P D), cs.Plain H →
    (q = true → cs.noIf = true) → cs.Each (fun ss => Meets H q (evalL H n ss none) (.list ss none))
  | .nil, _, _ => trivial
  | .cons x ss cs, hp, hq => by
    simp only [Cases.noIf, Bool.and_eq_true] at hq
    exact ⟨(evalL_meets H q n ss hp.1 (fun h => (hq h).1) none none fun _ => rfl).1,
      evalC_meets H q n cs hp.2 fun h => (hq h).2⟩
end

end

end Verif.Exec
