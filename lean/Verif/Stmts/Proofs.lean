import Verif.Stmts.Spec

/-! # Equivalence of statements, and its congruences -/

namespace Verif.Stmts

variable {σ V : Type}

/-! ## Lists -/

theorem run_append {m : Machine σ V} {a b : List Stmt} {s s' : σ} {k : Compl V} :
    Run m (.list (a ++ b)) s k s' ↔
      (∃ s1, Run m (.list a) s .normal s1 ∧ Run m (.list b) s1 k s') ∨
        (k ≠ .normal ∧ Run m (.list a) s k s') := by
  induction a generalizing s with
  | nil =>
    constructor
    · intro h
      exact Or.inl ⟨s, .nil, h⟩
    · rintro (⟨s1, h1, h2⟩ | ⟨h1, h2⟩)
      · cases h1; exact h2
      · cases h2; exact absurd rfl h1
  | cons x rest ih =>
    constructor
    · intro h
      cases h with
      | cons h1 h2 =>
        rcases ih.1 h2 with ⟨s1, h3, h4⟩ | ⟨h3, h4⟩
        · exact Or.inl ⟨s1, .cons h1 h3, h4⟩
        · exact Or.inr ⟨h3, .cons h1 h4⟩
      | stop h1 h2 => exact Or.inr ⟨h2, .stop h1 h2⟩
    · rintro (⟨s1, h1, h2⟩ | ⟨h1, h2⟩)
      · cases h1 with
        | cons h3 h4 => exact .cons h3 (ih.2 (Or.inl ⟨s1, h4, h2⟩))
        | stop h3 h4 => exact absurd rfl h4
      · cases h2 with
        | cons h3 h4 => exact .cons h3 (ih.2 (Or.inr ⟨h1, h4⟩))
        | stop h3 h4 => exact .stop h3 h4

theorem run_one {m : Machine σ V} {a : Stmt} {s s' : σ} {k : Compl V} :
    Run m (.list [a]) s k s' ↔ Run m (.stmt [] a) s k s' := by
  constructor
  · intro h
    cases h with
    | cons h1 h2 => cases h2; exact h1
    | stop h1 h2 => exact h1
  · intro h
    by_cases hk : k = .normal
    · subst hk; exact .cons h .nil
    · exact .stop h hk

@[simp] theorem lexs_nil : lexs [] = [] := rfl
@[simp] theorem lexs_cons (a : Stmt) (l : List Stmt) : lexs (a :: l) = lex a ++ lexs l := by
  simp [lexs]
@[simp] theorem lexs_append (a b : List Stmt) : lexs (a ++ b) = lexs a ++ lexs b := by
  simp [lexs]
@[simp] theorem linkss_nil : linkss [] = [] := rfl
@[simp] theorem linkss_cons (a : Stmt) (l : List Stmt) : linkss (a :: l) = links a ++ linkss l := by
  simp [linkss]
@[simp] theorem linkss_append (a b : List Stmt) : linkss (a ++ b) = linkss a ++ linkss b := by
  simp [linkss]
@[simp] theorem varss_nil : varss [] = [] := by simp [varss]
@[simp] theorem varss_cons (a : Stmt) (l : List Stmt) : varss (a :: l) = vars a ++ varss l := by
  simp [varss]
@[simp] theorem varss_append (a b : List Stmt) : varss (a ++ b) = varss a ++ varss b := by
  induction a with
  | nil => simp
  | cons x rest ih => simp [ih]
@[simp] theorem oks_nil (z : Bool) : oks z [] = true := by simp [oks]
@[simp] theorem oks_cons (z : Bool) (a : Stmt) (l : List Stmt) :
    oks z (a :: l) = (ok z a && oks z l) := by simp [oks]
@[simp] theorem oks_append (z : Bool) (a b : List Stmt) :
    oks z (a ++ b) = (oks z a && oks z b) := by
  induction a with
  | nil => simp
  | cons x rest ih => simp [ih, Bool.and_assoc]

/-! ## Equivalence -/

/-- Two lists run alike and declare alike. -/
structure SimL (a b : List Stmt) : Prop where
  run : ∀ {σ V : Type} (m : Machine σ V) (s : σ) (k : Compl V) (s' : σ),
    Run m (.list a) s k s' ↔ Run m (.list b) s k s'
  lex : lexs a = lexs b
  vars : ∀ x, x ∈ varss a ↔ x ∈ varss b
  links : linkss a = linkss b

/-- Two statements run alike and declare alike. -/
structure Sim (a b : Stmt) : Prop where
  run : ∀ {σ V : Type} (m : Machine σ V) (ls : List String) (s : σ) (k : Compl V) (s' : σ),
    Run m (.stmt ls a) s k s' ↔ Run m (.stmt ls b) s k s'
  lex : lex a = lex b
  vars : ∀ x, x ∈ vars a ↔ x ∈ vars b
  links : links a = links b

theorem Sim.refl (a : Stmt) : Sim a a := ⟨fun _ _ _ _ _ => Iff.rfl, rfl, fun _ => Iff.rfl, rfl⟩
theorem Sim.symm {a b : Stmt} (h : Sim a b) : Sim b a :=
  ⟨fun m ls s k s' => (h.run m ls s k s').symm, h.lex.symm, fun x => (h.vars x).symm, h.links.symm⟩
theorem Sim.trans {a b c : Stmt} (h : Sim a b) (h' : Sim b c) : Sim a c :=
  ⟨fun m ls s k s' => (h.run m ls s k s').trans (h'.run m ls s k s'), h.lex.trans h'.lex,
    fun x => (h.vars x).trans (h'.vars x), h.links.trans h'.links⟩

theorem SimL.refl (a : List Stmt) : SimL a a :=
  ⟨fun _ _ _ _ => Iff.rfl, rfl, fun _ => Iff.rfl, rfl⟩
theorem SimL.symm {a b : List Stmt} (h : SimL a b) : SimL b a :=
  ⟨fun m s k s' => (h.run m s k s').symm, h.lex.symm, fun x => (h.vars x).symm, h.links.symm⟩
theorem SimL.trans {a b c : List Stmt} (h : SimL a b) (h' : SimL b c) : SimL a c :=
  ⟨fun m s k s' => (h.run m s k s').trans (h'.run m s k s'), h.lex.trans h'.lex,
    fun x => (h.vars x).trans (h'.vars x), h.links.trans h'.links⟩

theorem Sim.list {a b : Stmt} (h : Sim a b) : SimL [a] [b] where
  run m s k s' := by rw [run_one, run_one]; exact h.run m [] s k s'
  lex := by simp [h.lex]
  vars x := by simp [h.vars x]
  links := by simp [h.links]

theorem SimL.append {a b c d : List Stmt} (h : SimL a b) (h' : SimL c d) :
    SimL (a ++ c) (b ++ d) where
  run m s k s' := by
    rw [run_append, run_append]
    constructor
    · rintro (⟨s1, h1, h2⟩ | ⟨h1, h2⟩)
      · exact Or.inl ⟨s1, (h.run _ _ _ _).1 h1, (h'.run _ _ _ _).1 h2⟩
      · exact Or.inr ⟨h1, (h.run _ _ _ _).1 h2⟩
    · rintro (⟨s1, h1, h2⟩ | ⟨h1, h2⟩)
      · exact Or.inl ⟨s1, (h.run _ _ _ _).2 h1, (h'.run _ _ _ _).2 h2⟩
      · exact Or.inr ⟨h1, (h.run _ _ _ _).2 h2⟩
  lex := by simp [h.lex, h'.lex]
  vars x := by simp [h.vars x, h'.vars x]
  links := by simp [h.links, h'.links]

theorem SimL.cons {a b : Stmt} {c d : List Stmt} (h : Sim a b) (h' : SimL c d) :
    SimL (a :: c) (b :: d) := h.list.append h'

/-! ## Congruences of running -/

section
variable {m : Machine σ V}

/-- Two statements run alike, with no labels. -/
abbrev Imp (m : Machine σ V) (a b : Task (V := V)) : Prop :=
  ∀ s k s', Run m a s k s' → Run m b s k s'

theorem block_imp {ls : List String} {a b : List Stmt} (hl : lexs a = lexs b)
    (h : Imp m (.list a) (.list b)) : Imp m (.stmt ls (.block a)) (.stmt ls (.block b)) := by
  intro s k s' hr
  cases hr with
  | block h1 h2 h3 =>
    rw [hl] at h1 h3
    exact .block h1 (h _ _ _ h2) h3

theorem while_imp {ls : List String} {c : Expr} {a b : Stmt}
    (h : Imp m (.stmt [] a) (.stmt [] b)) : Imp m (.while ls c a) (.while ls c b) := by
  intro s k s' hr
  generalize ht : Task.while ls c a = t at hr
  induction hr with
  | whileThrow h1 => cases ht; exact .whileThrow h1
  | whileDone h1 h2 => cases ht; exact .whileDone h1 h2
  | whileNext h1 h2 h3 h4 _ _ ih => cases ht; exact .whileNext h1 h2 (h _ _ _ h3) h4 (ih rfl)
  | whileExit h1 h2 h3 h4 _ => cases ht; exact .whileExit h1 h2 (h _ _ _ h3) h4
  | _ => cases ht

theorem whileStmt_imp {ls : List String} {c : Expr} {a b : Stmt}
    (h : Imp m (.stmt [] a) (.stmt [] b)) :
    Imp m (.stmt ls (.while c a)) (.stmt ls (.while c b)) := by
  intro s k s' hr
  cases hr with
  | «while» h1 => exact .while (while_imp h _ _ _ h1)

theorem doWhile_imp {ls : List String} {c : Expr} {a b : Stmt}
    (h : Imp m (.stmt [] a) (.stmt [] b)) :
    Imp m (.stmt ls (.doWhile a c)) (.stmt ls (.doWhile b c)) := by
  intro s k s' hr
  cases hr with
  | doNext h1 h2 h3 => exact .doNext (h _ _ _ h1) h2 (while_imp h _ _ _ h3)
  | doExit h1 h2 => exact .doExit (h _ _ _ h1) h2

theorem for_imp {ls : List String} {i : ForInit} {t u : Option Expr} {a b : List Stmt}
    (h : Imp m (.stmt [] (.block a)) (.stmt [] (.block b))) :
    Imp m (.for ls i t u a) (.for ls i t u b) := by
  intro s k s' hr
  generalize ht : Task.for ls i t u a = t' at hr
  induction hr with
  | forThrow h1 => cases ht; exact .forThrow h1
  | forDone h1 => cases ht; exact .forDone h1
  | forExit h1 h2 h3 _ => cases ht; exact .forExit h1 (h _ _ _ h2) h3
  | forNext h1 h2 h3 h4 h5 _ _ ih => cases ht; exact .forNext h1 (h _ _ _ h2) h3 h4 h5 (ih rfl)
  | forUpdate h1 h2 h3 h4 h5 _ => cases ht; exact .forUpdate h1 (h _ _ _ h2) h3 h4 h5
  | _ => cases ht

theorem forStmt_imp {ls : List String} {i : ForInit} {t u : Option Expr} {br : Bool}
    {a b : List Stmt} (h : Imp m (.stmt [] (.block a)) (.stmt [] (.block b))) :
    Imp m (.stmt ls (.for i t u br a)) (.stmt ls (.for i t u br b)) := by
  intro s k s' hr
  cases hr with
  | «for» h1 h2 h3 h4 h5 => exact .for h1 h2 h3 (for_imp h _ _ _ h4) h5
  | forInit h1 h2 h3 h4 => exact .forInit h1 h2 h3 h4

theorem each_imp {ls : List String} {kd : Nat} {lhs : ForLhs} {it : V} {a b : List Stmt}
    (h : Imp m (.stmt [] (.block a)) (.stmt [] (.block b))) :
    Imp m (.each ls kd lhs it a) (.each ls kd lhs it b) := by
  intro s k s' hr
  generalize ht : Task.each ls kd lhs it a = t' at hr
  induction hr with
  | eachDone h1 => cases ht; exact .eachDone h1
  | eachThrow h1 => cases ht; exact .eachThrow h1
  | eachNext h1 h2 h3 h4 h5 _ _ ih => cases ht; exact .eachNext h1 (h _ _ _ h2) h3 h4 h5 (ih rfl)
  | eachExit h1 h2 h3 h4 _ => cases ht; exact .eachExit h1 (h _ _ _ h2) h3 h4
  | _ => cases ht

theorem eachStmt_imp {ls : List String} {kd : Nat} {lhs : ForLhs} {e : Expr} {br : Bool}
    {a b : List Stmt} (h : Imp m (.stmt [] (.block a)) (.stmt [] (.block b))) :
    Imp m (.stmt ls (.each kd lhs e br a)) (.stmt ls (.each kd lhs e br b)) := by
  intro s k s' hr
  cases hr with
  | each h1 h2 => exact .each h1 (each_imp h _ _ _ h2)
  | eachOpen h1 => exact .eachOpen h1

theorem guarded_imp {a b : List Stmt} {hc : Bool} {p : Option Pat} {h₁ h₂ : List Stmt}
    (h : Imp m (.stmt [] (.block a)) (.stmt [] (.block b)))
    (h' : Imp m (.stmt [] (.block h₁)) (.stmt [] (.block h₂))) :
    Imp m (.guarded a hc p h₁) (.guarded b hc p h₂) := by
  intro s k s' hr
  cases hr with
  | guard h1 h2 => exact .guard (h _ _ _ h1) h2
  | caught h1 h2 h3 h4 => exact .caught (h _ _ _ h1) h2 (h' _ _ _ h3) h4
  | catchThrow h1 h2 => exact .catchThrow (h _ _ _ h1) h2

theorem try_imp {ls : List String} {a b : List Stmt} {hc : Bool} {p : Option Pat}
    {h₁ h₂ : List Stmt} {hf : Bool} {f₁ f₂ : List Stmt}
    (h : Imp m (.stmt [] (.block a)) (.stmt [] (.block b)))
    (h' : Imp m (.stmt [] (.block h₁)) (.stmt [] (.block h₂)))
    (h'' : Imp m (.stmt [] (.block f₁)) (.stmt [] (.block f₂))) :
    Imp m (.stmt ls (.tries a hc p h₁ hf f₁)) (.stmt ls (.tries b hc p h₂ hf f₂)) := by
  intro s k s' hr
  cases hr with
  | tryPlain h1 => exact .tryPlain (guarded_imp h h' _ _ _ h1)
  | tryFinally h1 h2 => exact .tryFinally (guarded_imp h h' _ _ _ h1) (h'' _ _ _ h2)

theorem with_imp {ls : List String} {e : Expr} {a b : Stmt}
    (h : Imp m (.stmt [] a) (.stmt [] b)) :
    Imp m (.stmt ls (.withs e a)) (.stmt ls (.withs e b)) := by
  intro s k s' hr
  cases hr with
  | withThrow h1 => exact .withThrow h1
  | withFail h1 h2 => exact .withFail h1 h2
  | «with» h1 h2 h3 h4 => exact .with h1 h2 (h _ _ _ h3) h4

theorem label_imp {ls : List String} {l : String} {a b : Stmt}
    (h : Imp m (.stmt (l :: ls) a) (.stmt (l :: ls) b)) :
    Imp m (.stmt ls (.label l a)) (.stmt ls (.label l b)) := by
  intro s k s' hr
  cases hr with
  | label h1 => exact .label (h _ _ _ h1)

theorem ifThen_imp {ls : List String} {c : Expr} {a b : Stmt}
    (h : Imp m (.stmt ls (branch a)) (.stmt ls (branch b))) :
    Imp m (.stmt ls (.ifThen c a)) (.stmt ls (.ifThen c b)) := by
  intro s k s' hr
  cases hr with
  | ifThrow h1 => exact .ifThrow h1
  | ifTrue h1 h2 h3 => exact .ifTrue h1 h2 (h _ _ _ h3)
  | ifFalse h1 h2 => exact .ifFalse h1 h2

theorem ifElse_imp {ls : List String} {c : Expr} {a b a' b' : Stmt}
    (h : Imp m (.stmt ls (branch a)) (.stmt ls (branch b)))
    (h' : Imp m (.stmt ls (branch a')) (.stmt ls (branch b'))) :
    Imp m (.stmt ls (.ifElse c a a')) (.stmt ls (.ifElse c b b')) := by
  intro s k s' hr
  cases hr with
  | elseThrow h1 => exact .elseThrow h1
  | elseTrue h1 h2 h3 => exact .elseTrue h1 h2 (h _ _ _ h3)
  | elseFalse h1 h2 h3 => exact .elseFalse h1 h2 (h' _ _ _ h3)

end

/-- The bodies of two `switch`es, one by one. -/
inductive SimLL : List (List Stmt) → List (List Stmt) → Prop
  | nil : SimLL [] []
  | cons {a b : List Stmt} {as bs : List (List Stmt)} : SimL a b → SimLL as bs →
      SimLL (a :: as) (b :: bs)

theorem SimLL.flatten {as bs : List (List Stmt)} (h : SimLL as bs) :
    SimL as.flatten bs.flatten := by
  induction h with
  | nil => exact .refl _
  | cons h1 _ ih => simpa using h1.append ih

theorem SimLL.drop {as bs : List (List Stmt)} (h : SimLL as bs) (i : Nat) :
    SimLL (as.drop i) (bs.drop i) := by
  induction h generalizing i with
  | nil => simpa using .nil
  | cons h1 h2 ih =>
    cases i with
    | zero => exact .cons h1 h2
    | succ i => simpa using ih i

theorem SimLL.symm {as bs : List (List Stmt)} (h : SimLL as bs) : SimLL bs as := by
  induction h with
  | nil => exact .nil
  | cons h1 _ ih => exact .cons h1.symm ih

theorem SimLL.from_ {as bs : List (List Stmt)} (h : SimLL as bs) (i : Option Nat) :
    SimL (from_ as i) (from_ bs i) := by
  cases i with
  | none => exact .refl _
  | some i => exact (h.drop i).flatten

theorem switch_imp {m : Machine σ V} {ls : List String} {e : Expr} {ts : List (Option Expr)}
    {as bs : List (List Stmt)} (h : SimLL as bs) :
    Imp m (.stmt ls (.switch e ts as)) (.stmt ls (.switch e ts bs)) := by
  intro s k s' hr
  have hl := h.flatten.lex
  cases hr with
  | switchThrow h1 => exact .switchThrow h1
  | «switch» h1 h2 h3 h4 h5 =>
    rw [hl] at h2 h5
    exact .switch h1 h2 h3 (((h.from_ _).run _ _ _ _).1 h4) h5
  | switchTest h1 h2 h3 h4 =>
    rw [hl] at h2 h4
    exact .switchTest h1 h2 h3 h4

/-! ## Congruences of equivalence -/

theorem branch_eq {a : Stmt} (h : lex a = []) : branch a = a := by
  cases a <;> simp_all [branch, lex]

theorem Sim.block {a b : List Stmt} (h : SimL a b) : Sim (.block a) (.block b) where
  run m ls s k s' := ⟨block_imp h.lex (fun s k s' => (h.run m s k s').1) s k s',
    block_imp h.lex.symm (fun s k s' => (h.run m s k s').2) s k s'⟩
  lex := rfl
  vars x := by simpa [Verif.Stmts.vars] using h.vars x
  links := rfl

theorem Sim.while {c : Expr} {a b : Stmt} (h : Sim a b) : Sim (.while c a) (.while c b) where
  run m ls s k s' := ⟨whileStmt_imp (fun s k s' => (h.run m [] s k s').1) s k s',
    whileStmt_imp (fun s k s' => (h.run m [] s k s').2) s k s'⟩
  lex := rfl
  vars x := by simpa [Verif.Stmts.vars] using h.vars x
  links := rfl

theorem Sim.doWhile {c : Expr} {a b : Stmt} (h : Sim a b) : Sim (.doWhile a c) (.doWhile b c) where
  run m ls s k s' := ⟨doWhile_imp (fun s k s' => (h.run m [] s k s').1) s k s',
    doWhile_imp (fun s k s' => (h.run m [] s k s').2) s k s'⟩
  lex := rfl
  vars x := by simpa [Verif.Stmts.vars] using h.vars x
  links := rfl

theorem vars_for (i : ForInit) (t u : Option Expr) (br : Bool) (b : List Stmt) (x : String) :
    x ∈ vars (.for i t u br b) ↔ x ∈ vars (.for i t u br []) ∨ x ∈ varss b := by
  rcases i with _ | _ | ⟨_ | _ | _ | _ | _, _⟩ <;> simp [vars]

theorem Sim.for {i : ForInit} {t u : Option Expr} {br : Bool} {a b : List Stmt} (h : SimL a b) :
    Sim (.for i t u br a) (.for i t u br b) where
  run m ls s k s' :=
    ⟨forStmt_imp (fun s k s' => ((Sim.block h).run m [] s k s').1) s k s',
    forStmt_imp (fun s k s' => ((Sim.block h).run m [] s k s').2) s k s'⟩
  lex := rfl
  vars x := by rw [vars_for, vars_for i t u br b, h.vars x]
  links := rfl

theorem vars_each (kd : Nat) (lhs : ForLhs) (e : Expr) (br : Bool) (b : List Stmt) (x : String) :
    x ∈ vars (.each kd lhs e br b) ↔ x ∈ vars (.each kd lhs e br []) ∨ x ∈ varss b := by
  rcases lhs with ⟨_ | _ | _ | _ | _, _⟩ | _ <;> simp [vars]

theorem Sim.each {kd : Nat} {lhs : ForLhs} {e : Expr} {br : Bool} {a b : List Stmt}
    (h : SimL a b) : Sim (.each kd lhs e br a) (.each kd lhs e br b) where
  run m ls s k s' :=
    ⟨eachStmt_imp (fun s k s' => ((Sim.block h).run m [] s k s').1) s k s',
    eachStmt_imp (fun s k s' => ((Sim.block h).run m [] s k s').2) s k s'⟩
  lex := rfl
  vars x := by rw [vars_each, vars_each kd lhs e br b, h.vars x]
  links := rfl

theorem varsss_flatten (bs : List (List Stmt)) : varsss bs = varss bs.flatten := by
  induction bs with
  | nil => simp [varsss]
  | cons b rest ih => simp [varsss, ih]

theorem Sim.switch {e : Expr} {ts : List (Option Expr)} {as bs : List (List Stmt)}
    (h : SimLL as bs) : Sim (.switch e ts as) (.switch e ts bs) where
  run m ls s k s' := ⟨switch_imp h s k s', switch_imp h.symm s k s'⟩
  lex := rfl
  vars x := by simpa [Verif.Stmts.vars, varsss_flatten] using h.flatten.vars x
  links := rfl

theorem Sim.tries {a b : List Stmt} {hc : Bool} {p : Option Pat} {h₁ h₂ : List Stmt} {hf : Bool}
    {f₁ f₂ : List Stmt} (h : SimL a b) (h' : SimL h₁ h₂) (h'' : SimL f₁ f₂) :
    Sim (.tries a hc p h₁ hf f₁) (.tries b hc p h₂ hf f₂) where
  run m ls s k s' :=
    ⟨try_imp (fun s k s' => ((Sim.block h).run m [] s k s').1)
      (fun s k s' => ((Sim.block h').run m [] s k s').1)
      (fun s k s' => ((Sim.block h'').run m [] s k s').1) s k s',
    try_imp (fun s k s' => ((Sim.block h).run m [] s k s').2)
      (fun s k s' => ((Sim.block h').run m [] s k s').2)
      (fun s k s' => ((Sim.block h'').run m [] s k s').2) s k s'⟩
  lex := rfl
  vars x := by
    cases hc <;> cases hf <;> simp [Verif.Stmts.vars, h.vars x, h'.vars x, h''.vars x]
  links := rfl

theorem Sim.withs {e : Expr} {a b : Stmt} (h : Sim a b) : Sim (.withs e a) (.withs e b) where
  run m ls s k s' := ⟨with_imp (fun s k s' => (h.run m [] s k s').1) s k s',
    with_imp (fun s k s' => (h.run m [] s k s').2) s k s'⟩
  lex := rfl
  vars x := by simpa [Verif.Stmts.vars] using h.vars x
  links := rfl

theorem Sim.label {l : String} {a b : Stmt} (h : Sim a b) : Sim (.label l a) (.label l b) where
  run m ls s k s' := ⟨label_imp (fun s k s' => (h.run m _ s k s').1) s k s',
    label_imp (fun s k s' => (h.run m _ s k s').2) s k s'⟩
  lex := by simpa [Verif.Stmts.lex] using h.lex
  vars x := by simpa [Verif.Stmts.vars] using h.vars x
  links := rfl

theorem Sim.ifThen {c : Expr} {a b : Stmt} (h : Sim a b) (ha : Verif.Stmts.lex a = []) :
    Sim (.ifThen c a) (.ifThen c b) where
  run m ls s k s' := by
    have hb := h.lex ▸ ha
    exact ⟨ifThen_imp (by rw [branch_eq ha, branch_eq hb]; exact fun s k s' => (h.run m ls s k s').1)
      s k s', ifThen_imp (by
        rw [branch_eq ha, branch_eq hb]; exact fun s k s' => (h.run m ls s k s').2) s k s'⟩
  lex := rfl
  vars x := by simpa [Verif.Stmts.vars] using h.vars x
  links := rfl

theorem Sim.ifElse {c : Expr} {a b a' b' : Stmt} (h : Sim a b) (h' : Sim a' b')
    (ha : Verif.Stmts.lex a = []) (ha' : Verif.Stmts.lex a' = []) :
    Sim (.ifElse c a a') (.ifElse c b b') where
  run m ls s k s' := by
    have hb := h.lex ▸ ha
    have hb' := h'.lex ▸ ha'
    refine ⟨ifElse_imp ?_ ?_ s k s', ifElse_imp ?_ ?_ s k s'⟩
    · rw [branch_eq ha, branch_eq hb]; exact fun s k s' => (h.run m ls s k s').1
    · rw [branch_eq ha', branch_eq hb']; exact fun s k s' => (h'.run m ls s k s').1
    · rw [branch_eq ha, branch_eq hb]; exact fun s k s' => (h.run m ls s k s').2
    · rw [branch_eq ha', branch_eq hb']; exact fun s k s' => (h'.run m ls s k s').2
  lex := rfl
  vars x := by simp [Verif.Stmts.vars, h.vars x, h'.vars x]
  links := rfl

end Verif.Stmts
