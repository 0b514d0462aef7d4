import Verif.Bind.Spec

namespace Verif.Bind

/-! ## Scope numbers -/

/-- `s` is, or is inside, a scope that `t` makes directly inside `cur`. -/
def Under (t : Tree) (cur s : ScopeId) : Prop := ∃ k ∈ keys t, (k :: cur) <:+ s

theorem not_cons_suffix {k : SK × Nat} {cur : ScopeId} : ¬ (k :: cur) <:+ cur := by
  intro h
  have := h.length_le
  rw [List.length_cons] at this
  omega

theorem not_under_of_suffix {t : Tree} {cur s : ScopeId} (h : s <:+ cur) : ¬ Under t cur s := by
  rintro ⟨k, -, hk⟩
  exact not_cons_suffix (hk.trans h)

theorem key_eq {k k' : SK × Nat} {cur s : ScopeId} (h : (k :: cur) <:+ s)
    (h' : (k' :: cur) <:+ s) : k = k' := by
  have h1 := List.suffix_of_suffix_length_le h h' (by simp)
  have h2 := h1.eq_of_length (by simp)
  simpa using h2

theorem nearest_suffix {m : Mode} : ∀ {cur s : ScopeId}, nearest m cur = some s → s <:+ cur
  | [], s, h => by simp [nearest] at h
  | k :: r, s, h => by
    unfold nearest at h
    split at h
    · cases h; exact List.suffix_rfl
    · exact (nearest_suffix h).trans (List.suffix_cons _ _)

theorem nearest_ne {m : Mode} {k : SK × Nat} {cur s : ScopeId}
    (h : nearest m cur = some s) : s ≠ k :: cur := by
  rintro rfl
  exact not_cons_suffix (nearest_suffix h)

/-- A key that a node can make. -/
def KeyOk (k : SK × Nat) : Prop := k.1 ≠ .global

theorem nearest_var {m : Mode} {k : SK × Nat} {cur : ScopeId} (h : k.1.isVar = true) :
    nearest m (k :: cur) = some (k :: cur) := by
  simp [nearest, h]

theorem nearest_nonvar {m : Mode} {k : SK × Nat} {cur : ScopeId} (h : k.1.isVar = false)
    (hk : KeyOk k) : nearest m (k :: cur) = nearest m cur := by
  have : (k.1 == SK.global) = false := by simpa [KeyOk] using hk
  simp [nearest, h, this]

theorem keyOk_scope (k : ScopeNode) (sp : Nat) : KeyOk (k.kind, sp) := by
  cases k <;> simp [KeyOk, ScopeNode.kind]

theorem keyOk_func (a : Bool) (sp : Nat) : KeyOk (funcKind a, sp) := by
  cases a <;> simp [KeyOk, funcKind]

theorem var_func (a : Bool) (sp : Nat) : SK.isVar ((funcKind a, sp) : SK × Nat).1 = true := by
  cases a <;> rfl

/-! ## The two descriptions of a declaration context -/

/-- The code's context for what a pattern declares. -/
def ctxOf : Tag → Ctx
  | .var => ⟨.nearestClosure, false⟩
  | .lex => ⟨.ifNotGlobal, false⟩
  | .catchP _ => ⟨.ifNotGlobal, true⟩
  | _ => ⟨.ifNotGlobal, false⟩

/-- What a pattern can declare. -/
def GovOk (gov : Option Tag) : Prop :=
  gov = none ∨ gov = some .var ∨ gov = some .lex ∨ ∃ b, gov = some (.catchP b)

theorem govOk_group {gov : Option Tag} (h : GovOk gov) (g : Group) : GovOk (g.gov gov) := by
  cases g with
  | varDecl v => cases v <;> simp [GovOk, Group.gov]
  | import_ => simp [GovOk, Group.gov]
  | _ => simpa [Group.gov] using h

theorem govOk_scope {gov : Option Tag} (h : GovOk gov) (k : ScopeNode) : GovOk (k.gov gov) := by
  cases k with
  | catch_ s => simp [GovOk, ScopeNode.gov]
  | _ => simpa [ScopeNode.gov] using h

theorem ctx_group {ctx : Option Ctx} {gov : Option Tag} (h : ctx = gov.map ctxOf) (g : Group) :
    g.ctx ctx = (g.gov gov).map ctxOf := by
  cases g with
  | varDecl v => cases v <;> rfl
  | import_ => rfl
  | _ => simpa [Group.ctx, Group.gov] using h

theorem ctx_scope {ctx : Option Ctx} {gov : Option Tag} (h : ctx = gov.map ctxOf)
    (k : ScopeNode) : k.ctx ctx = (k.gov gov).map ctxOf := by
  cases k with
  | catch_ s => rfl
  | _ => simpa [ScopeNode.ctx, ScopeNode.gov] using h

/-! ## What every induction below carries along -/

/-- The arguments of the two walks belong together. -/
structure Args (m : Mode) (cur : ScopeId) (c : Bool) (ctx : Option Ctx)
    (blk : Bool) (gov : Option Tag) : Prop where
  ne : cur ≠ []
  blk : blk = (kindOf cur == .block)
  ctx : ctx = gov.map ctxOf
  gov : GovOk gov
  mod_ : m = .module_ → c = true

theorem Args.group {m cur c ctx blk gov} (h : Args m cur c ctx blk gov) (g : Group) :
    Args m cur (g.strict c) (g.ctx ctx) blk (g.gov gov) where
  ne := h.ne
  blk := h.blk
  ctx := ctx_group h.ctx g
  gov := govOk_group h.gov g
  mod_ := fun e => by cases g <;> simp [Group.strict, h.mod_ e]

theorem Args.scope {m cur c ctx blk gov} (h : Args m cur c ctx blk gov) (k : ScopeNode)
    (sp : Nat) :
    Args m ((k.kind, sp) :: cur) (k.strict c) (k.ctx ctx) k.isBlock (k.gov gov) where
  ne := by simp
  blk := by cases k <;> rfl
  ctx := ctx_scope h.ctx k
  gov := govOk_scope h.gov k
  mod_ := fun e => by cases k <;> simp [ScopeNode.strict, h.mod_ e]

theorem Args.func {m cur c ctx blk gov} (h : Args m cur c ctx blk gov) (sp : Nat)
    (arrow strict : Bool) :
    Args m ((funcKind arrow, sp) :: cur) (c || strict) (some paramCtx) false (some .var) where
  ne := by simp
  blk := by cases arrow <;> rfl
  ctx := rfl
  gov := by simp [GovOk]
  mod_ := fun e => by simp [h.mod_ e]

theorem Args.lhs {m cur c ctx blk gov} (h : Args m cur c ctx blk gov) (sp : Nat) :
    Args m ((.block, sp) :: cur) c (some lexCtx) true (some .lex) where
  ne := by simp
  blk := rfl
  ctx := rfl
  gov := by simp [GovOk]
  mod_ := h.mod_

theorem Args.body {m cur c ctx blk gov} (h : Args m cur c ctx blk gov) (sp : Nat) :
    Args m ((.block, sp) :: cur) c ctx true gov where
  ne := by simp
  blk := rfl
  ctx := h.ctx
  gov := h.gov
  mod_ := h.mod_

/-! ## Where the declaring walk puts its entries -/

/-- The scope a recorded entry is about. -/
def Entry.at_ : Entry → ScopeId
  | .sym s _ => s
  | .catchP s _ => s
  | .annex _ b _ => b

theorem mem_place {m : Mode} {cur : ScopeId} {x : Name} {tg : Target} {e : Entry} :
    e ∈ place m cur x tg ↔
      ∃ s, e = .sym s x ∧
        match tg with
        | .ifNotGlobal => s = cur ∧ ¬ (m = .global ∧ kindOf cur = .global)
        | .nearestClosure => nearest m cur = some s := by
  cases tg with
  | ifNotGlobal =>
    unfold place
    by_cases h : m = .global ∧ kindOf cur = .global
    · simp [h]
    · rw [if_neg (by simpa using h)]
      simp [h]
  | nearestClosure =>
    unfold place
    cases hn : nearest m cur with
    | none => simp
    | some s => simp

theorem mem_declareWith {m : Mode} {cur : ScopeId} {d : Ctx} {x : Name} {e : Entry} :
    e ∈ declareWith m cur d x ↔
      (e = .catchP cur x ∧ d.catchParam = true ∧ kindOf cur = .block) ∨
      e ∈ place m cur x d.target := by
  unfold declareWith
  by_cases h : d.catchParam = true ∧ kindOf cur = .block
  · simp [h]
  · rw [if_neg (by simpa using h)]
    simp only [List.nil_append]
    constructor
    · exact Or.inr
    · rintro (h' | h')
      · exact absurd h'.2 h
      · exact h'

/-- An entry is about the current scope, about the nearest function, or about a
scope further in. -/
def Local (m : Mode) (cur : ScopeId) (e : Entry) : Prop :=
  match e with
  | .sym s _ => s = cur ∨ nearest m cur = some s
  | .catchP s _ => s = cur
  | .annex _ b c => b = cur ∧ c = nearest m cur

theorem local_place {m cur x tg e} (h : e ∈ place m cur x tg) : Local m cur e := by
  rw [mem_place] at h
  obtain ⟨s, rfl, h⟩ := h
  cases tg with
  | ifNotGlobal => exact Or.inl h.1
  | nearestClosure => exact Or.inr h

theorem local_declareWith {m cur d x e} (h : e ∈ declareWith m cur d x) : Local m cur e := by
  rw [mem_declareWith] at h
  rcases h with ⟨rfl, -⟩ | h
  · rfl
  · exact local_place h

theorem local_declareFunc {m cur c x e} (h : e ∈ declareFunc m cur c x) : Local m cur e := by
  unfold declareFunc at h
  split at h
  · exact local_declareWith h
  · split at h
    · exact local_declareWith h
    · split at h
      · simp only [List.mem_cons, List.not_mem_nil, or_false] at h
        rcases h with rfl | rfl
        · exact Or.inl rfl
        · exact ⟨rfl, rfl⟩
      · exact local_declareWith h

/-- Lifting a kid's entries to the scope around. -/
theorem local_lift {m : Mode} {k : SK × Nat} {cur : ScopeId} (hk : KeyOk k) {e : Entry}
    (h : Local m (k :: cur) e ∨ (k :: cur) <:+ e.at_) :
    (Local m cur e ∧ (∃ s x, e = .sym s x ∧ nearest m cur = some s)) ∨ (k :: cur) <:+ e.at_ := by
  rcases h with h | h
  · cases e with
    | sym s x =>
      rcases h with rfl | h
      · exact Or.inr List.suffix_rfl
      · cases hv : k.1.isVar with
        | true => rw [nearest_var hv] at h; cases h; exact Or.inr List.suffix_rfl
        | false =>
          rw [nearest_nonvar hv hk] at h
          exact Or.inl ⟨Or.inr h, s, x, rfl, h⟩
    | catchP s x => right; cases h; exact List.suffix_rfl
    | annex x b c => right; rw [Entry.at_, h.1]; exact List.suffix_rfl
  · exact Or.inr h

theorem where_ (m : Mode) (t : Tree) : ∀ (cur : ScopeId) (c : Bool) (ctx : Option Ctx) (p : Bool)
    (e : Entry), e ∈ code m cur c ctx p t → Local m cur e ∨ Under t cur e.at_ := by
  induction t with
  | nil => intro cur c ctx p e h; simp [code] at h
  | use x => intro cur c ctx p e h; simp [code] at h
  | seq a b iha ihb =>
    intro cur c ctx p e h
    simp only [code, List.mem_append] at h
    rcases h with h | h
    · rcases iha _ _ _ _ _ h with h | ⟨k, hk, h⟩
      · exact Or.inl h
      · exact Or.inr ⟨k, by simp [keys, hk], h⟩
    · rcases ihb _ _ _ _ _ h with h | ⟨k, hk, h⟩
      · exact Or.inl h
      · exact Or.inr ⟨k, by simp [keys, hk], h⟩
  | pat x =>
    intro cur c ctx p e h
    unfold code at h
    split at h
    · cases ctx with
      | none => simp at h
      | some d => exact Or.inl (local_declareWith h)
    · simp at h
  | fname x pl => intro cur c ctx p e h; exact Or.inl (local_declareFunc h)
  | cname x => intro cur c ctx p e h; exact Or.inl (local_declareWith h)
  | group g t ih =>
    intro cur c ctx p e h
    exact ih _ _ _ _ _ h
  | scope k sp t ih =>
    intro cur c ctx p e h
    have := ih _ _ _ _ _ h
    rcases local_lift (keyOk_scope k sp) (this.imp_right fun ⟨k', _, h'⟩ =>
      (List.suffix_cons _ _).trans h') with h | h
    · exact Or.inl h.1
    · exact Or.inr ⟨_, by simp [keys], h⟩
  | func sp arrow strict ps b ihp ihb =>
    intro cur c ctx p e h
    simp only [code, List.mem_append] at h
    have : Local m ((funcKind arrow, sp) :: cur) e ∨ ((funcKind arrow, sp) :: cur) <:+ e.at_ := by
      rcases h with h | h
      · exact (ihp _ _ _ _ _ h).imp_right fun ⟨k', _, h'⟩ => (List.suffix_cons _ _).trans h'
      · exact (ihb _ _ _ _ _ h).imp_right fun ⟨k', _, h'⟩ => (List.suffix_cons _ _).trans h'
    rcases local_lift (keyOk_func arrow sp) this with h | h
    · exact Or.inl h.1
    · exact Or.inr ⟨_, by simp [keys], h⟩
  | forOf sp lhs rhs b ihl ihr ihb =>
    intro cur c ctx p e h
    simp only [code, List.mem_append] at h
    have key : ∀ e, Local m ((SK.block, sp) :: cur) e ∨ ((SK.block, sp) :: cur) <:+ e.at_ →
        Local m cur e ∨ Under (.forOf sp lhs rhs b) cur e.at_ := by
      intro e h
      rcases local_lift (k := (SK.block, sp)) (by simp [KeyOk]) h with h | h
      · exact Or.inl h.1
      · exact Or.inr ⟨_, by simp [keys], h⟩
    rcases h with h | h | h
    · exact key e ((ihl _ _ _ _ _ h).imp_right fun ⟨k', _, h'⟩ => (List.suffix_cons _ _).trans h')
    · rcases ihr _ _ _ _ _ h with h | ⟨k, hk, h⟩
      · exact Or.inl h
      · exact Or.inr ⟨k, by simp [keys, hk], h⟩
    · exact key e ((ihb _ _ _ _ _ h).imp_right fun ⟨k', _, h'⟩ => (List.suffix_cons _ _).trans h')

/-- The scope a block function is hoisted to is the nearest function. -/
theorem annex_nearest (m : Mode) (t : Tree) : ∀ (cur : ScopeId) (c : Bool) (ctx : Option Ctx)
    (p : Bool) (x : Name) (b : ScopeId) (cl : Option ScopeId),
    Entry.annex x b cl ∈ code m cur c ctx p t → cl = nearest m b ∧ kindOf b = .block := by
  have hw : ∀ {cur d y x b cl}, Entry.annex x b cl ∈ declareWith m cur d y → False := by
    intro cur d y x b cl h
    rw [mem_declareWith, mem_place] at h
    rcases h with ⟨h, -⟩ | ⟨s, h, -⟩ <;> cases h
  induction t with
  | nil => intro cur c ctx p x b cl h; simp [code] at h
  | use x => intro cur c ctx p x b cl h; simp [code] at h
  | seq t u iha ihb =>
    intro cur c ctx p x b cl h
    simp only [code, List.mem_append] at h
    rcases h with h | h
    · exact iha _ _ _ _ _ _ _ h
    · exact ihb _ _ _ _ _ _ _ h
  | pat y =>
    intro cur c ctx p x b cl h
    unfold code at h
    split at h
    · cases ctx with
      | none => simp at h
      | some d => exact (hw h).elim
    · simp at h
  | fname y pl =>
    intro cur c ctx p x b cl h
    simp only [code, declareFunc] at h
    split at h
    · exact (hw h).elim
    · split at h
      · exact (hw h).elim
      · split at h
        · rename_i hb
          simp only [List.mem_cons, List.not_mem_nil, or_false] at h
          rcases h with h | h
          · cases h
          · cases h; exact ⟨rfl, by simpa using hb⟩
        · exact (hw h).elim
  | cname y => intro cur c ctx p x b cl h; exact (hw h).elim
  | group g t ih => intro cur c ctx p x b cl h; exact ih _ _ _ _ _ _ _ h
  | scope k sp t ih => intro cur c ctx p x b cl h; exact ih _ _ _ _ _ _ _ h
  | func sp arrow strict ps bd ihp ihb =>
    intro cur c ctx p x b cl h
    simp only [code, List.mem_append] at h
    rcases h with h | h
    · exact ihp _ _ _ _ _ _ _ h
    · exact ihb _ _ _ _ _ _ _ h
  | forOf sp lhs rhs bd ihl ihr ihb =>
    intro cur c ctx p x b cl h
    simp only [code, List.mem_append] at h
    rcases h with h | h | h
    · exact ihl _ _ _ _ _ _ _ h
    · exact ihr _ _ _ _ _ _ _ h
    · exact ihb _ _ _ _ _ _ _ h

/-! ## What the declaring walk puts in the scopes around -/

/-- The scope a declaration is bound in. -/
def Lands (m : Mode) (cur : ScopeId) (tg : Tag) (s : ScopeId) : Prop :=
  (tg.isLocal = true ∧ s = cur ∧ ¬ (m = .global ∧ kindOf cur = .global)) ∨
  (tg = .var ∧ nearest m cur = some s)

theorem mem_outward {L : Decls} {tg : Tag} {x : Name} :
    (tg, x) ∈ outward L ↔
      (tg = .var ∧ (Tag.var, x) ∈ L) ∨
      (tg = .hoist ∧ ((Tag.fn true, x) ∈ L ∨ ((Tag.hoist, x) ∈ L ∧ blocked L x = false))) := by
  unfold outward
  rw [List.mem_filterMap]
  constructor
  · rintro ⟨⟨t, y⟩, hm, h⟩
    cases t with
    | var => simp at h; obtain ⟨rfl, rfl⟩ := h; exact Or.inl ⟨rfl, hm⟩
    | lex => simp at h
    | fn b =>
      cases b with
      | false => simp at h
      | true => simp at h; obtain ⟨rfl, rfl⟩ := h; exact Or.inr ⟨rfl, Or.inl hm⟩
    | hoist =>
      simp only at h
      split at h
      · cases h
      · rename_i hb
        simp at h; obtain ⟨rfl, rfl⟩ := h
        exact Or.inr ⟨rfl, Or.inr ⟨hm, by simpa using hb⟩⟩
    | catchP b => simp at h
  · rintro (⟨rfl, h⟩ | ⟨rfl, h | ⟨h, hb⟩⟩)
    · exact ⟨_, h, rfl⟩
    · exact ⟨_, h, rfl⟩
    · exact ⟨_, h, by simp [hb]⟩

theorem sym_declareWith {m cur d x s y} : Entry.sym s y ∈ declareWith m cur d x ↔
    y = x ∧ match d.target with
      | .ifNotGlobal => s = cur ∧ ¬ (m = .global ∧ kindOf cur = .global)
      | .nearestClosure => nearest m cur = some s := by
  rw [mem_declareWith, mem_place]
  constructor
  · rintro (⟨h, -⟩ | ⟨s', h, h'⟩)
    · cases h
    · cases h; exact ⟨rfl, h'⟩
  · rintro ⟨rfl, h⟩
    exact Or.inr ⟨s, rfl, h⟩

theorem sym_declareFunc {m cur c x s y} : Entry.sym s y ∈ declareFunc m cur c x ↔
    y = x ∧ (if kindOf cur = .block then s = cur else nearest m cur = some s) := by
  by_cases hb : kindOf cur = .block
  · have hg : ¬ (m = .global ∧ kindOf cur = .global) := by rw [hb]; simp
    rw [if_pos hb]
    unfold declareFunc
    split
    · rw [sym_declareWith]; simp [hb]
    · split
      · rw [sym_declareWith]; simp [hb]
      · rw [if_pos (by simpa using hb)]
        simp [and_comm]
  · rw [if_neg hb]
    have hb' : (kindOf cur == SK.block) = false := by simpa using hb
    unfold declareFunc
    simp only [hb', Bool.false_and, Bool.false_eq_true, if_false]
    split
    · rw [sym_declareWith]
    · rw [sym_declareWith]

/-- The static decls of a scope node. -/
theorem decls_scope {blk s gov a k sp t} : decls blk s gov a (.scope k sp t) =
    if k = .static then [] else outward (decls k.isBlock (k.isStrict s) (k.gov gov) a t) := by
  cases k <;> simp [decls]

theorem kind_var {k : ScopeNode} {sp : Nat} :
    SK.isVar ((k.kind, sp) : SK × Nat).1 = decide (k = .static) := by
  cases k <;> rfl

/-- Entering a scope that is no function. -/
theorem lands_lift {m : Mode} {k : SK × Nat} {cur s : ScopeId} {tg : Tag} (hk : KeyOk k)
    (hv : k.1.isVar = false) (hs : s <:+ cur) :
    Lands m (k :: cur) tg s ↔ tg = .var ∧ nearest m cur = some s := by
  unfold Lands
  rw [nearest_nonvar hv hk]
  constructor
  · rintro (⟨-, rfl, -⟩ | h)
    · exact (not_cons_suffix hs).elim
    · exact h
  · exact Or.inr

theorem not_lands_lift {m : Mode} {k : SK × Nat} {cur s : ScopeId} {tg : Tag}
    (hv : k.1.isVar = true) (hs : s <:+ cur) : ¬ Lands m (k :: cur) tg s := by
  unfold Lands
  rw [nearest_var hv]
  rintro (⟨-, rfl, -⟩ | ⟨-, h⟩)
  · exact not_cons_suffix hs
  · cases h; exact not_cons_suffix hs

theorem lands_outward {m : Mode} {cur s : ScopeId} {x : Name} {L : Decls} :
    (∃ tg, (tg, x) ∈ outward L ∧ Lands m cur tg s) ↔ (Tag.var, x) ∈ L ∧ nearest m cur = some s := by
  constructor
  · rintro ⟨tg, hm, h⟩
    rw [mem_outward] at hm
    rcases hm with ⟨rfl, hm⟩ | ⟨rfl, -⟩
    · refine ⟨hm, ?_⟩
      rcases h with ⟨h, -⟩ | h
      · cases h
      · exact h.2
    · rcases h with ⟨h, -⟩ | h
      · cases h
      · cases h.1
  · rintro ⟨hm, h⟩
    exact ⟨.var, by rw [mem_outward]; exact Or.inl ⟨rfl, hm⟩, Or.inr ⟨rfl, h⟩⟩

theorem lands_one {m : Mode} {cur s : ScopeId} {x y : Name} {g : Tag} :
    (∃ tg, (tg, x) ∈ [(g, y)] ∧ Lands m cur tg s) ↔ x = y ∧ Lands m cur g s := by
  constructor
  · rintro ⟨tg, h, h'⟩
    simp only [List.mem_singleton, Prod.mk.injEq] at h
    obtain ⟨rfl, rfl⟩ := h
    exact ⟨rfl, h'⟩
  · rintro ⟨rfl, h⟩
    exact ⟨g, by simp, h⟩

theorem sym_iff (m : Mode) (t : Tree) : ∀ (cur : ScopeId) (c : Bool) (ctx : Option Ctx) (p : Bool)
    (blk s : Bool) (gov : Option Tag) (a : Bool), Args m cur c ctx blk gov →
    Fits p a c s blk gov t → ∀ (sc : ScopeId) (x : Name), sc <:+ cur →
    (Entry.sym sc x ∈ code m cur c ctx p t ↔
      ∃ tg, (tg, x) ∈ decls blk s gov a t ∧ Lands m cur tg sc) := by
  induction t with
  | nil => intro cur c ctx p blk s gov a A F sc x hs; simp [code, decls]
  | use y => intro cur c ctx p blk s gov a A F sc x hs; simp [code, decls]
  | seq t u iha ihb =>
    intro cur c ctx p blk s gov a A F sc x hs
    simp only [code, decls, List.mem_append]
    rw [iha _ _ _ _ _ _ _ _ A F.1 _ _ hs, ihb _ _ _ _ _ _ _ _ A F.2 _ _ hs]
    constructor
    · rintro (⟨tg, h, h'⟩ | ⟨tg, h, h'⟩)
      · exact ⟨tg, Or.inl h, h'⟩
      · exact ⟨tg, Or.inr h, h'⟩
    · rintro ⟨tg, h | h, h'⟩
      · exact Or.inl ⟨tg, h, h'⟩
      · exact Or.inr ⟨tg, h, h'⟩
  | pat y =>
    intro cur c ctx p blk s gov a A F sc x hs
    have hpa : p = a := F.1
    subst hpa
    have hc := A.ctx
    subst hc
    unfold code decls
    cases p with
    | false => simp
    | true =>
      simp only [if_true]
      rcases A.gov with rfl | rfl | rfl | ⟨b, rfl⟩
      · simp
      · simp only [Option.map, sym_declareWith, ctxOf, lands_one]
        simp [Lands, Tag.isLocal]
      · simp only [Option.map, sym_declareWith, ctxOf, lands_one]
        simp [Lands, Tag.isLocal]
      · simp only [Option.map, sym_declareWith, ctxOf, lands_one]
        simp [Lands, Tag.isLocal]
  | fname y pl =>
    intro cur c ctx p blk s gov a A F sc x hs
    simp only [code, decls]
    rw [sym_declareFunc]
    cases hb : blk with
    | true =>
      have hk : kindOf cur = .block := by simpa [hb] using A.blk
      simp only [if_true, Bool.false_eq_true, if_false, lands_one]
      simp [hk, Lands, Tag.isLocal]
    | false =>
      have hk : ¬ kindOf cur = .block := by simpa [hb] using A.blk
      simp only [if_true, Bool.false_eq_true, if_false, lands_one]
      simp [hk, Lands, Tag.isLocal]
  | cname y =>
    intro cur c ctx p blk s gov a A F sc x hs
    simp only [code, decls]
    rw [sym_declareWith, lands_one]
    simp [lexCtx, Lands, Tag.isLocal]
  | group g t ih =>
    intro cur c ctx p blk s gov a A F sc x hs
    simp only [code, decls]
    exact ih _ _ _ _ _ _ _ _ (A.group g) F sc x hs
  | scope k sp t ih =>
    intro cur c ctx p blk s gov a A F sc x hs
    rw [code, ih _ _ _ _ _ _ _ _ (A.scope k sp) F.1 sc x (hs.trans (List.suffix_cons _ _)),
      decls_scope]
    by_cases hk : k = .static
    · rw [if_pos hk]
      have hv : SK.isVar ((k.kind, sp) : SK × Nat).1 = true := by rw [kind_var]; simpa using hk
      simp [not_lands_lift hv hs]
    · rw [if_neg hk, lands_outward]
      have hv : SK.isVar ((k.kind, sp) : SK × Nat).1 = false := by rw [kind_var]; simpa using hk
      simp only [lands_lift (keyOk_scope k sp) hv hs]
      constructor
      · rintro ⟨tg, h, rfl, h'⟩; exact ⟨h, h'⟩
      · rintro ⟨h, h'⟩; exact ⟨_, h, rfl, h'⟩
  | func sp arrow strict ps b ihp ihb =>
    intro cur c ctx p blk s gov a A F sc x hs
    simp only [code, List.mem_append, decls]
    rw [ihp _ _ _ _ _ _ _ _ (A.func sp arrow strict) F.1 sc x (hs.trans (List.suffix_cons _ _)),
      ihb _ _ _ _ _ _ _ _ (A.func sp arrow strict) F.2.1 sc x (hs.trans (List.suffix_cons _ _))]
    simp [not_lands_lift (var_func arrow sp) hs]
  | forOf sp lhs rhs b ihl ihr ihb =>
    intro cur c ctx p blk s gov a A F sc x hs
    obtain ⟨F1, F2, F3, F4, F5⟩ := F
    simp only [code, List.mem_append, decls]
    rw [ihl _ _ _ _ _ _ _ _ (A.lhs sp) F1 sc x (hs.trans (List.suffix_cons _ _)),
      ihr _ _ _ _ _ _ _ _ A F2 sc x hs,
      ihb _ _ _ _ _ _ _ _ (A.body sp) F3 sc x (hs.trans (List.suffix_cons _ _))]
    have hk : KeyOk (SK.block, sp) := by simp [KeyOk]
    have hv : SK.isVar ((SK.block, sp) : SK × Nat).1 = false := rfl
    have e1 : ∀ L : Decls, (∃ tg, (tg, x) ∈ L ∧ Lands m ((SK.block, sp) :: cur) tg sc) ↔
        (Tag.var, x) ∈ L ∧ nearest m cur = some sc := by
      intro L
      simp only [lands_lift hk hv hs]
      constructor
      · rintro ⟨tg, h, rfl, h'⟩; exact ⟨h, h'⟩
      · rintro ⟨h, h'⟩; exact ⟨_, h, rfl, h'⟩
    rw [e1, e1]
    have e2 := lands_outward (m := m) (cur := cur) (s := sc) (x := x)
      (L := decls true s (some .lex) a lhs ++ decls true s gov a b)
    constructor
    · rintro (⟨h, h'⟩ | ⟨tg, h, h'⟩ | ⟨h, h'⟩)
      · obtain ⟨tg, h1, h2⟩ := e2.2 ⟨List.mem_append_left _ h, h'⟩
        exact ⟨tg, Or.inl h1, h2⟩
      · exact ⟨tg, Or.inr h, h'⟩
      · obtain ⟨tg, h1, h2⟩ := e2.2 ⟨List.mem_append_right _ h, h'⟩
        exact ⟨tg, Or.inl h1, h2⟩
    · rintro ⟨tg, h | h, h'⟩
      · obtain ⟨h1, h2⟩ := e2.1 ⟨tg, h, h'⟩
        rcases List.mem_append.1 h1 with h1 | h1
        · exact Or.inl ⟨h1, h2⟩
        · exact Or.inr (Or.inr ⟨h1, h2⟩)
      · exact Or.inr (Or.inl ⟨tg, h, h'⟩)

end Verif.Bind
