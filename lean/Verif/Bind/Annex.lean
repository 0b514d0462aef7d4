import Verif.Bind.Lemmas

namespace Verif.Bind

/-! ## Catch parameters and block functions of the current scope -/

theorem catch_iff (m : Mode) (t : Tree) : ∀ (cur : ScopeId) (c : Bool) (ctx : Option Ctx)
    (p : Bool) (blk s : Bool) (gov : Option Tag) (a : Bool), Args m cur c ctx blk gov →
    Fits p a c s blk gov t → ∀ (x : Name),
    (Entry.catchP cur x ∈ code m cur c ctx p t ↔
      ∃ b, (Tag.catchP b, x) ∈ decls blk s gov a t) := by
  have hin : ∀ {k : SK × Nat} {cur c ctx p t x}, Entry.catchP cur x ∉ code m (k :: cur) c ctx p t := by
    intro k cur c ctx p t x h
    rcases where_ m t _ _ _ _ _ h with h | ⟨k', _, h⟩
    · exact absurd (show cur = k :: cur from h) (by simp)
    · exact not_cons_suffix ((List.suffix_cons _ _).trans h)
  have hout : ∀ {L : Decls} {x : Name}, ¬ ∃ b, (Tag.catchP b, x) ∈ outward L := by
    rintro L x ⟨b, h⟩
    rw [mem_outward] at h
    rcases h with ⟨h, -⟩ | ⟨h, -⟩ <;> cases h
  have hw : ∀ {cur d y x}, Entry.catchP cur x ∈ declareWith m cur d y ↔
      x = y ∧ d.catchParam = true ∧ kindOf cur = .block := by
    intro cur d y x
    rw [mem_declareWith, mem_place]
    constructor
    · rintro (⟨h, h'⟩ | ⟨s, h, -⟩)
      · cases h; exact ⟨rfl, h'⟩
      · cases h
    · rintro ⟨rfl, h⟩; exact Or.inl ⟨rfl, h⟩
  induction t with
  | nil => intro cur c ctx p blk s gov a A F x; simp [code, decls]
  | use y => intro cur c ctx p blk s gov a A F x; simp [code, decls]
  | seq t u iha ihb =>
    intro cur c ctx p blk s gov a A F x
    simp only [code, decls, List.mem_append]
    rw [iha _ _ _ _ _ _ _ _ A F.1 _, ihb _ _ _ _ _ _ _ _ A F.2 _, ← exists_or]
  | pat y =>
    intro cur c ctx p blk s gov a A F x
    obtain ⟨rfl, F2⟩ := F
    have hc := A.ctx
    subst hc
    unfold code decls
    cases p with
    | false => simp
    | true =>
      simp only [if_true]
      rcases A.gov with rfl | rfl | rfl | ⟨b, rfl⟩
      · simp
      · simp [hw, ctxOf]
      · simp [hw, ctxOf]
      · have hb := F2 b rfl
        have hk : kindOf cur = .block := by simpa [hb] using A.blk
        simp [hw, ctxOf, hk]
  | fname y pl =>
    intro cur c ctx p blk s gov a A F x
    have h1 : Entry.catchP cur x ∉ declareFunc m cur c y := by
      unfold declareFunc
      split
      · simp [hw]
      · split
        · simp [hw]
        · split
          · simp
          · simp [hw]
    simp only [code, h1, decls, false_iff]
    split <;> simp
  | cname y =>
    intro cur c ctx p blk s gov a A F x
    simp [code, decls, hw, lexCtx]
  | group g t ih =>
    intro cur c ctx p blk s gov a A F x
    simp only [code, decls]
    exact ih _ _ _ _ _ _ _ _ (A.group g) F x
  | scope k sp t ih =>
    intro cur c ctx p blk s gov a A F x
    simp only [code, hin, false_iff]
    rw [decls_scope]
    split
    · simp
    · exact hout
  | func sp arrow strict ps b ihp ihb =>
    intro cur c ctx p blk s gov a A F x
    simp only [code, List.mem_append, hin, or_self, false_iff, decls]
    simp
  | forOf sp lhs rhs b ihl ihr ihb =>
    intro cur c ctx p blk s gov a A F x
    obtain ⟨F1, F2, F3, F4, F5⟩ := F
    simp only [code, List.mem_append, hin, false_or, or_false, decls]
    rw [ihr _ _ _ _ _ _ _ _ A F2 x]
    constructor
    · rintro ⟨b, h⟩; exact ⟨b, Or.inr h⟩
    · rintro ⟨b', h | h⟩
      · exact (hout ⟨b', h⟩).elim
      · exact ⟨b', h⟩

theorem annex_here (m : Mode) (t : Tree) : ∀ (cur : ScopeId) (c : Bool) (ctx : Option Ctx)
    (p : Bool) (blk s : Bool) (gov : Option Tag) (a : Bool), Args m cur c ctx blk gov →
    Fits p a c s blk gov t → ∀ (x : Name),
    (Entry.annex x cur (nearest m cur) ∈ code m cur c ctx p t ↔
      (Tag.fn true, x) ∈ decls blk s gov a t) := by
  have hin : ∀ {k : SK × Nat} {cur c ctx p t x cl},
      Entry.annex x cur cl ∉ code m (k :: cur) c ctx p t := by
    intro k cur c ctx p t x cl h
    rcases where_ m t _ _ _ _ _ h with h | ⟨k', _, h⟩
    · exact absurd (show cur = k :: cur from h.1) (by simp)
    · exact not_cons_suffix ((List.suffix_cons _ _).trans h)
  have hout : ∀ {L : Decls} {x : Name}, (Tag.fn true, x) ∉ outward L := by
    intro L x h
    rw [mem_outward] at h
    rcases h with ⟨h, -⟩ | ⟨h, -⟩ <;> cases h
  have hw : ∀ {cur d y x b cl}, Entry.annex x b cl ∉ declareWith m cur d y := by
    intro cur d y x b cl h
    rw [mem_declareWith, mem_place] at h
    rcases h with ⟨h, -⟩ | ⟨s, h, -⟩ <;> cases h
  induction t with
  | nil => intro cur c ctx p blk s gov a A F x; simp [code, decls]
  | use y => intro cur c ctx p blk s gov a A F x; simp [code, decls]
  | seq t u iha ihb =>
    intro cur c ctx p blk s gov a A F x
    simp only [code, decls, List.mem_append]
    rw [iha _ _ _ _ _ _ _ _ A F.1 _, ihb _ _ _ _ _ _ _ _ A F.2 _]
  | pat y =>
    intro cur c ctx p blk s gov a A F x
    obtain ⟨rfl, F2⟩ := F
    have hc := A.ctx
    subst hc
    unfold code decls
    cases p with
    | false => simp
    | true =>
      simp only [if_true]
      rcases A.gov with rfl | rfl | rfl | ⟨b, rfl⟩
      · simp
      · simp [hw]
      · simp [hw]
      · simp [hw]
  | fname y pl =>
    intro cur c ctx p blk s gov a A F x
    simp only [code, decls]
    cases hb : blk with
    | true =>
      have hk : kindOf cur = .block := by simpa [hb] using A.blk
      have hf : (pl && !s) = !c := F hb
      simp only [if_true, hf]
      unfold declareFunc
      split
      · rename_i hm
        have hc := A.mod_ (by simpa using hm)
        simp [hw, hc]
      · split
        · rename_i h2
          have hc : c = true := by simpa [hk] using h2
          simp [hw, hc]
        · rename_i h2
          have hc : c = false := by simpa [hk] using h2
          rw [if_pos (by simpa using hk)]
          simp [hc]
    | false =>
      have hk : (kindOf cur == SK.block) = false := by rw [← A.blk, hb]
      unfold declareFunc
      simp only [hk, Bool.false_and, Bool.false_eq_true, if_false]
      split <;> simp [hw]
  | cname y =>
    intro cur c ctx p blk s gov a A F x
    simp [code, decls, hw]
  | group g t ih =>
    intro cur c ctx p blk s gov a A F x
    simp only [code, decls]
    exact ih _ _ _ _ _ _ _ _ (A.group g) F x
  | scope k sp t ih =>
    intro cur c ctx p blk s gov a A F x
    simp only [code, hin, false_iff]
    rw [decls_scope]
    split
    · simp
    · exact hout
  | func sp arrow strict ps b ihp ihb =>
    intro cur c ctx p blk s gov a A F x
    simp only [code, List.mem_append, hin, or_self, false_iff, decls]
    simp
  | forOf sp lhs rhs b ihl ihr ihb =>
    intro cur c ctx p blk s gov a A F x
    obtain ⟨F1, F2, F3, F4, F5⟩ := F
    simp only [code, List.mem_append, hin, false_or, or_false, decls, hout]
    exact ihr _ _ _ _ _ _ _ _ A F2 x

/-! ## Local agreement of a set of entries with a part of a program -/

/-- Below `cur`, at the scopes `t` makes, the entries `W` are those of `t`. -/
def Agree (W : List Entry) (cur : ScopeId) (t : Tree) (es : List Entry) : Prop :=
  ∀ e : Entry, Under t cur e.at_ → (e ∈ W ↔ e ∈ es)

/-- At the scope `cur` itself and below, the entries `W` are `es`. -/
def AgreeIn (W : List Entry) (cur : ScopeId) (es : List Entry) : Prop :=
  ∀ e : Entry, cur <:+ e.at_ → (e ∈ W ↔ e ∈ es)

/-- An entry at a scope below a key is made by a part that has the key. -/
theorem in_part {m : Mode} {t : Tree} {cur : ScopeId} {c ctx p} {e : Entry} {k : SK × Nat}
    (hk : (k :: cur) <:+ e.at_) (h : e ∈ code m cur c ctx p t) : k ∈ keys t := by
  rcases where_ m t _ _ _ _ _ h with h | ⟨k', hm, h'⟩
  · exfalso
    cases e with
    | sym s x =>
      rcases h with rfl | h
      · exact not_cons_suffix hk
      · exact not_cons_suffix (hk.trans (nearest_suffix h))
    | catchP s x => cases h; exact not_cons_suffix hk
    | annex x b cl => rw [Entry.at_, h.1] at hk; exact not_cons_suffix hk
  · rw [key_eq hk h']; exact hm

/-- Agreement with a sequence is agreement with both parts. -/
theorem agree_seq {m : Mode} {W : List Entry} {cur : ScopeId} {t u : Tree} {c ctx p c' ctx' p'}
    (hd : ∀ k ∈ keys t, k ∉ keys u)
    (h : ∀ e : Entry, (Under t cur e.at_ ∨ Under u cur e.at_) →
      (e ∈ W ↔ e ∈ code m cur c ctx p t ∨ e ∈ code m cur c' ctx' p' u)) :
    Agree W cur t (code m cur c ctx p t) ∧ Agree W cur u (code m cur c' ctx' p' u) := by
  constructor
  · rintro e ⟨k, hk, hs⟩
    rw [h e (Or.inl ⟨k, hk, hs⟩)]
    constructor
    · rintro (h' | h')
      · exact h'
      · exact absurd (in_part hs h') (hd k hk)
    · exact Or.inl
  · rintro e ⟨k, hk, hs⟩
    rw [h e (Or.inr ⟨k, hk, hs⟩)]
    constructor
    · rintro (h' | h')
      · exact absurd hk (hd k (in_part hs h'))
      · exact h'
    · exact Or.inr

theorem AgreeIn.under {W : List Entry} {cur : ScopeId} {t : Tree} {es : List Entry}
    (h : AgreeIn W cur es) : Agree W cur t es := by
  rintro e ⟨k, -, hs⟩
  exact h e ((List.suffix_cons _ _).trans hs)

theorem AgreeIn.both {m : Mode} {W : List Entry} {cur : ScopeId} {t u : Tree}
    {c ctx p c' ctx' p'} (hd : ∀ k ∈ keys t, k ∉ keys u)
    (h : AgreeIn W cur (code m cur c ctx p t ++ code m cur c' ctx' p' u)) :
    Agree W cur t (code m cur c ctx p t) ∧ Agree W cur u (code m cur c' ctx' p' u) := by
  apply agree_seq hd
  intro e he
  rw [h e (by rcases he with ⟨k, -, hs⟩ | ⟨k, -, hs⟩ <;> exact (List.suffix_cons _ _).trans hs),
    List.mem_append]

/-- Agreement with a `for`-`of` is agreement with the loop and with its head expression. -/
theorem agree_forOf {m : Mode} {W : List Entry} {cur : ScopeId} {sp : Nat} {lhs rhs b : Tree}
    {c ctx p} (hd : (SK.block, sp) ∉ keys rhs)
    (h : Agree W cur (.forOf sp lhs rhs b) (code m cur c ctx p (.forOf sp lhs rhs b))) :
    Agree W cur rhs (code m cur c ctx p rhs) ∧
    AgreeIn W ((SK.block, sp) :: cur)
      (code m ((SK.block, sp) :: cur) c (some lexCtx) p lhs
        ++ code m ((SK.block, sp) :: cur) c ctx p b) := by
  have hin : ∀ {t c ctx p} {k : SK × Nat} {e : Entry}, (k :: cur) <:+ e.at_ →
      e ∈ code m ((SK.block, sp) :: cur) c ctx p t → k = (SK.block, sp) := by
    intro t c ctx p k e hs he
    have hw : Local m ((SK.block, sp) :: cur) e ∨ ((SK.block, sp) :: cur) <:+ e.at_ :=
      (where_ m t _ _ _ _ _ he).imp_right fun ⟨k', _, h'⟩ => (List.suffix_cons _ _).trans h'
    rcases local_lift (k := (SK.block, sp)) (by simp [KeyOk]) hw with ⟨-, s, x, rfl, hn⟩ | h'
    · exact (not_cons_suffix (hs.trans (nearest_suffix hn))).elim
    · exact key_eq hs h'
  constructor
  · rintro e ⟨k, hk, hs⟩
    rw [h e ⟨k, by simp [keys, hk], hs⟩]
    simp only [code, List.mem_append]
    constructor
    · rintro (h' | h' | h')
      · rw [hin hs h'] at hk; exact absurd hk hd
      · exact h'
      · rw [hin hs h'] at hk; exact absurd hk hd
    · exact fun h' => Or.inr (Or.inl h')
  · intro e hs
    rw [h e ⟨_, by simp [keys], hs⟩]
    simp only [code, List.mem_append]
    constructor
    · rintro (h' | h' | h')
      · exact Or.inl h'
      · exact absurd (in_part hs h') hd
      · exact Or.inr h'
    · rintro (h' | h')
      · exact Or.inl h'
      · exact Or.inr (Or.inr h')

/-! ## Functions hoisted out of inner blocks -/

theorem mem_syms {es : List Entry} {s : ScopeId} {x : Name} :
    (s, x) ∈ syms es ↔ Entry.sym s x ∈ es := by
  unfold syms
  rw [List.mem_filterMap]
  constructor
  · rintro ⟨e, he, h⟩
    cases e <;> simp at h
    obtain ⟨rfl, rfl⟩ := h; exact he
  · intro h; exact ⟨_, h, rfl⟩

theorem mem_catches {es : List Entry} {s : ScopeId} {x : Name} :
    (s, x) ∈ catches es ↔ Entry.catchP s x ∈ es := by
  unfold catches
  rw [List.mem_filterMap]
  constructor
  · rintro ⟨e, he, h⟩
    cases e <;> simp at h
    obtain ⟨rfl, rfl⟩ := h; exact he
  · intro h; exact ⟨_, h, rfl⟩

theorem mem_annexes {es : List Entry} {x : Name} {b : ScopeId} {c : Option ScopeId} :
    (x, b, c) ∈ annexes es ↔ Entry.annex x b c ∈ es := by
  unfold annexes
  rw [List.mem_filterMap]
  constructor
  · rintro ⟨e, he, h⟩
    cases e <;> simp at h
    obtain ⟨rfl, rfl, rfl⟩ := h; exact he
  · intro h; exact ⟨_, h, rfl⟩

/-- A scope has the name other than as a catch parameter. -/
def Bars (W : List Entry) (s : ScopeId) (x : Name) : Prop :=
  Entry.sym s x ∈ W ∧ Entry.catchP s x ∉ W

/-- No scope from `s` up to `stop` bars the name. -/
def Free (W : List Entry) (x : Name) (stop s : ScopeId) : Prop :=
  suppressed (syms W) (catches W) x (some stop) s = false

theorem free_stop {W : List Entry} {x : Name} {s : ScopeId} : Free W x s s := by
  unfold Free
  cases s with
  | nil => rfl
  | cons k r => simp [suppressed]

/-- Going one scope further out. -/
theorem free_step {W : List Entry} {x : Name} {k : SK × Nat} {cur : ScopeId} :
    ∀ {s : ScopeId}, (k :: cur) <:+ s →
    (Free W x cur s ↔ Free W x (k :: cur) s ∧ ¬ Bars W (k :: cur) x)
  | [], h => by simp at h
  | j :: r, h => by
    rcases List.suffix_cons_iff.1 h with h' | h'
    · cases h'
      have h1 : Free W x (k :: cur) (k :: cur) := free_stop
      have h2 : Free W x cur cur := free_stop
      simp only [h1, true_and]
      unfold Free at h2 ⊢
      rw [suppressed, if_neg (by simp)]
      simp only [Bars, mem_syms, mem_catches]
      split
      · rename_i hb; simp [hb]
      · rename_i hb; simp [hb, h2]
    · have ih := free_step (W := W) (x := x) h'
      have n1 : ¬ (some cur : Option ScopeId) = some (j :: r) := by
        intro e; cases e
        exact not_cons_suffix ((List.suffix_cons _ _).trans h')
      have n2 : ¬ (some (k :: cur) : Option ScopeId) = some (j :: r) := by
        intro e; cases e
        exact not_cons_suffix h'
      unfold Free at ih ⊢
      rw [suppressed, if_neg n1, suppressed, if_neg n2]
      split
      · simp
      · exact ih

/-- Below a scope that is no function, the entries say what the declarations say
about Annex B. -/
theorem bars_iff {m : Mode} {W : List Entry} {k : SK × Nat} {cur : ScopeId} {x : Name}
    {es : List Entry} {L : Decls} (hk : KeyOk k) (hv : k.1.isVar = false)
    (hW : AgreeIn W (k :: cur) es)
    (hs : Entry.sym (k :: cur) x ∈ es ↔ ∃ tg, (tg, x) ∈ L ∧ Lands m (k :: cur) tg (k :: cur))
    (hc : Entry.catchP (k :: cur) x ∈ es ↔ ∃ b, (Tag.catchP b, x) ∈ L)
    (ho : catchOk L = true) (hh : (Tag.hoist, x) ∈ L) :
    ¬ Bars W (k :: cur) x ↔ blocked L x = false := by
  have hok : (∃ b, (Tag.catchP b, x) ∈ L) → blocked L x = false := by
    rintro ⟨b, hb⟩
    have := List.all_eq_true.1 ho _ hh
    simp only [bne_self_eq_false, Bool.false_or, Bool.or_eq_true, Bool.not_eq_true'] at this
    rcases this with h | h
    · exfalso
      have : (L.any fun e => (e.1 == .catchP true || e.1 == .catchP false) && e.2 == x) = true := by
        rw [List.any_eq_true]
        exact ⟨_, hb, by cases b <;> simp⟩
      rw [this] at h; cases h
    · exact h
  have hland : ∀ tg, Lands m (k :: cur) tg (k :: cur) ↔ tg.isLocal = true := by
    intro tg
    unfold Lands
    constructor
    · rintro (h | ⟨rfl, h⟩)
      · exact h.1
      · rw [nearest_nonvar hv hk] at h
        exact absurd rfl (nearest_ne h)
    · intro h
      exact Or.inl ⟨h, rfl, fun h' => hk h'.2⟩
  unfold Bars
  rw [hW _ List.suffix_rfl, hW _ List.suffix_rfl, hs, hc]
  simp only [hland]
  by_cases hcp : ∃ b, (Tag.catchP b, x) ∈ L
  · simp [hcp, hok hcp]
  · simp only [hcp, not_false_eq_true, and_true]
    constructor
    · intro h
      rw [← Bool.not_eq_true]
      intro hb
      unfold blocked at hb
      rw [List.any_eq_true] at hb
      obtain ⟨⟨tg, y⟩, hm, hb⟩ := hb
      simp only [Bool.and_eq_true, beq_iff_eq] at hb
      obtain ⟨hb, rfl⟩ := hb
      refine h ⟨tg, hm, ?_⟩
      cases tg <;> simp_all [Tag.blocks, Tag.isLocal]
    · rintro h ⟨tg, hm, hl⟩
      have : blocked L x = true := by
        unfold blocked
        rw [List.any_eq_true]
        refine ⟨_, hm, ?_⟩
        cases tg with
        | catchP b => exact absurd ⟨b, hm⟩ hcp
        | _ => simp_all [Tag.blocks, Tag.isLocal]
      rw [this] at h; cases h

/-- The block functions that reach the scope around. -/
def Reaches (m : Mode) (W : List Entry) (cur : ScopeId) (es : List Entry) (x : Name) : Prop :=
  ∃ b, b ≠ cur ∧ Entry.annex x b (nearest m cur) ∈ es ∧ Free W x cur b.tail

/-- One scope that is no function. -/
theorem reaches_scope {m : Mode} {W : List Entry} {k : SK × Nat} {cur : ScopeId} {x : Name}
    {es : List Entry} {L : Decls} (hk : KeyOk k) (hv : k.1.isVar = false)
    (hloc : ∀ {x b cl}, Entry.annex x b cl ∈ es → b = k :: cur ∨ (k :: cur) <:+ b.tail)
    (hfn : Entry.annex x (k :: cur) (nearest m (k :: cur)) ∈ es ↔ (Tag.fn true, x) ∈ L)
    (hho : (Tag.hoist, x) ∈ L ↔ Reaches m W (k :: cur) es x)
    (hbar : (Tag.hoist, x) ∈ L → (¬ Bars W (k :: cur) x ↔ blocked L x = false)) :
    (Tag.hoist, x) ∈ outward L ↔ Reaches m W cur es x := by
  rw [mem_outward]
  rw [nearest_nonvar hv hk] at hfn
  unfold Reaches at hho ⊢
  rw [nearest_nonvar hv hk] at hho
  constructor
  · rintro (⟨h, -⟩ | ⟨-, h | ⟨h, hb⟩⟩)
    · cases h
    · exact ⟨k :: cur, by simp, hfn.2 h, free_stop⟩
    · have hnb := (hbar h).2 hb
      obtain ⟨b, hne, hm, hf⟩ := hho.1 h
      have hsuf : (k :: cur) <:+ b.tail := (hloc hm).resolve_left hne
      refine ⟨b, ?_, hm, (free_step hsuf).2 ⟨hf, hnb⟩⟩
      rintro rfl
      exact not_cons_suffix (hsuf.trans (List.tail_suffix _))
  · rintro ⟨b, hne, hm, hf⟩
    refine Or.inr ⟨rfl, ?_⟩
    rcases hloc hm with rfl | hsuf
    · exact Or.inl (hfn.1 hm)
    · right
      have h2 := (free_step hsuf).1 hf
      have hh : (Tag.hoist, x) ∈ L := by
        refine hho.2 ⟨b, ?_, hm, h2.1⟩
        rintro rfl
        exact not_cons_suffix (k := k) (cur := cur) (by simpa using hsuf)
      exact ⟨hh, (hbar hh).1 h2.2⟩

theorem annex_loc {m : Mode} {t : Tree} {cur : ScopeId} {c ctx p x b cl}
    (h : Entry.annex x b cl ∈ code m cur c ctx p t) : b = cur ∨ cur <:+ b.tail := by
  rcases where_ m t _ _ _ _ _ h with h | ⟨k, -, h⟩
  · exact Or.inl h.1
  · right
    obtain ⟨l, hl⟩ := h
    change l ++ k :: cur = b at hl
    cases l with
    | nil => subst hl; simp
    | cons j l => subst hl; exact ⟨l ++ [k], by simp⟩

/-- Nothing is hoisted out of a function. -/
theorem not_reaches_var {m : Mode} {k : SK × Nat} {cur : ScopeId} {x : Name}
    {t : Tree} {c ctx p} (hv : k.1.isVar = true) (b : ScopeId) :
    Entry.annex x b (nearest m cur) ∉ code m (k :: cur) c ctx p t := by
  intro h
  have h1 := (annex_nearest m t _ _ _ _ _ _ _ h).1
  have hsuf : (k :: cur) <:+ b := by
    rcases annex_loc h with rfl | h'
    · exact List.suffix_rfl
    · exact h'.trans (List.tail_suffix _)
  -- the nearest function of `b` is at least `k :: cur`
  have key : ∀ {b : ScopeId}, (k :: cur) <:+ b → ∃ s, nearest m b = some s ∧ (k :: cur) <:+ s := by
    intro b
    induction b with
    | nil => intro h; simp at h
    | cons j r ih =>
      intro h
      rcases List.suffix_cons_iff.1 h with e | h'
      · rw [← e]; exact ⟨_, nearest_var hv, List.suffix_rfl⟩
      · by_cases hj : (j.1.isVar || (m == .script && j.1 == .global)) = true
        · exact ⟨j :: r, by rw [nearest, if_pos hj], h⟩
        · rw [nearest, if_neg hj]; exact ih h'
  obtain ⟨s, hs, hs'⟩ := key hsuf
  rw [hs] at h1
  exact not_cons_suffix (hs'.trans (nearest_suffix h1))

theorem hoist_iff (m : Mode) (W : List Entry) (t : Tree) : ∀ (cur : ScopeId) (c : Bool)
    (ctx : Option Ctx) (p : Bool) (blk s : Bool) (gov : Option Tag) (a : Bool),
    Args m cur c ctx blk gov → Fits p a c s blk gov t → Distinct t →
    Agree W cur t (code m cur c ctx p t) → ∀ (x : Name),
    ((Tag.hoist, x) ∈ decls blk s gov a t ↔ Reaches m W cur (code m cur c ctx p t) x) := by
  induction t with
  | nil => intro cur c ctx p blk s gov a A F D H x; simp [code, decls, Reaches]
  | use y => intro cur c ctx p blk s gov a A F D H x; simp [code, decls, Reaches]
  | seq t u iha ihb =>
    intro cur c ctx p blk s gov a A F D H x
    obtain ⟨H1, H2⟩ := agree_seq D.2.2 (m := m) (W := W) (cur := cur) (c := c) (ctx := ctx) (p := p)
      (c' := c) (ctx' := ctx) (p' := p) (by
        intro e he
        rw [H e (by
          rcases he with ⟨k, hk, h⟩ | ⟨k, hk, h⟩
          · exact ⟨k, by simp [keys, hk], h⟩
          · exact ⟨k, by simp [keys, hk], h⟩), code, List.mem_append])
    simp only [decls, List.mem_append]
    rw [iha _ _ _ _ _ _ _ _ A F.1 D.1 H1 x, ihb _ _ _ _ _ _ _ _ A F.2 D.2.1 H2 x]
    unfold Reaches
    simp only [code, List.mem_append]
    constructor
    · rintro (⟨b, h1, h2, h3⟩ | ⟨b, h1, h2, h3⟩)
      · exact ⟨b, h1, Or.inl h2, h3⟩
      · exact ⟨b, h1, Or.inr h2, h3⟩
    · rintro ⟨b, h1, h2 | h2, h3⟩
      · exact Or.inl ⟨b, h1, h2, h3⟩
      · exact Or.inr ⟨b, h1, h2, h3⟩
  | pat y =>
    intro cur c ctx p blk s gov a A F D H x
    have h1 : (Tag.hoist, x) ∉ decls blk s gov a (.pat y) := by
      unfold decls
      cases a with
      | false => simp
      | true =>
        rcases A.gov with rfl | rfl | rfl | ⟨b, rfl⟩ <;> simp
    simp only [h1, false_iff]
    rintro ⟨b, hne, hm, -⟩
    rcases where_ m _ _ _ _ _ _ hm with h | ⟨k, hk, -⟩
    · exact hne h.1
    · simp [keys] at hk
  | fname y pl =>
    intro cur c ctx p blk s gov a A F D H x
    have h1 : (Tag.hoist, x) ∉ decls blk s gov a (.fname y pl) := by
      unfold decls; split <;> simp
    simp only [h1, false_iff]
    rintro ⟨b, hne, hm, -⟩
    rcases where_ m _ _ _ _ _ _ hm with h | ⟨k, hk, -⟩
    · exact hne h.1
    · simp [keys] at hk
  | cname y =>
    intro cur c ctx p blk s gov a A F D H x
    have h1 : (Tag.hoist, x) ∉ decls blk s gov a (.cname y) := by
      unfold decls; simp
    simp only [h1, false_iff]
    rintro ⟨b, hne, hm, -⟩
    rcases where_ m _ _ _ _ _ _ hm with h | ⟨k, hk, -⟩
    · exact hne h.1
    · simp [keys] at hk
  | group g t ih =>
    intro cur c ctx p blk s gov a A F D H x
    simp only [code, decls]
    exact ih _ _ _ _ _ _ _ _ (A.group g) F D H x
  | scope k sp t ih =>
    intro cur c ctx p blk s gov a A F D H x
    have HI : AgreeIn W ((k.kind, sp) :: cur)
        (code m ((k.kind, sp) :: cur) (k.strict c) (k.ctx ctx) p t) := by
      intro e he
      exact H e ⟨_, by simp [keys], he⟩
    rw [decls_scope]
    by_cases hk : k = .static
    · rw [if_pos hk]
      have hv : SK.isVar ((k.kind, sp) : SK × Nat).1 = true := by rw [kind_var]; simpa using hk
      simp only [List.not_mem_nil, false_iff]
      rintro ⟨b, -, hm, -⟩
      exact not_reaches_var hv b hm
    · rw [if_neg hk]
      have hv : SK.isVar ((k.kind, sp) : SK × Nat).1 = false := by rw [kind_var]; simpa using hk
      refine reaches_scope (es := code m ((k.kind, sp) :: cur) (k.strict c) (k.ctx ctx) p t)
        (keyOk_scope k sp) hv annex_loc
        (annex_here m t _ _ _ _ _ _ _ _ (A.scope k sp) F.1 x)
        (ih _ _ _ _ _ _ _ _ (A.scope k sp) F.1 D HI.under x) ?_
      intro hh
      exact bars_iff (keyOk_scope k sp) hv HI
        (sym_iff m t _ _ _ _ _ _ _ _ (A.scope k sp) F.1 _ x List.suffix_rfl)
        (catch_iff m t _ _ _ _ _ _ _ _ (A.scope k sp) F.1 x) F.2 hh
  | func sp arrow strict ps b ihp ihb =>
    intro cur c ctx p blk s gov a A F D H x
    simp only [decls, List.not_mem_nil, false_iff]
    rintro ⟨b', -, hm, -⟩
    simp only [code, List.mem_append] at hm
    rcases hm with hm | hm
    · exact not_reaches_var (var_func arrow sp) b' hm
    · exact not_reaches_var (var_func arrow sp) b' hm
  | forOf sp lhs rhs b ihl ihr ihb =>
    intro cur c ctx p blk s gov a A F D H x
    obtain ⟨F1, F2, F3, F4, F5⟩ := F
    obtain ⟨D1, D2, D3, D4, D5⟩ := D
    obtain ⟨HR, HI⟩ := agree_forOf D5 H
    obtain ⟨HL, HB⟩ := HI.both D4
    have hk : KeyOk (SK.block, sp) := by simp [KeyOk]
    have hv : SK.isVar ((SK.block, sp) : SK × Nat).1 = false := rfl
    have hl := ihl _ _ _ _ _ _ _ _ (A.lhs sp) F1 D1 HL x
    have hb := ihb _ _ _ _ _ _ _ _ (A.body sp) F3 D3 HB x
    have hr := ihr _ _ _ _ _ _ _ _ A F2 D2 HR x
    have hloop := reaches_scope (m := m) (W := W) (k := (SK.block, sp)) (cur := cur) (x := x)
      (es := code m ((SK.block, sp) :: cur) c (some lexCtx) p lhs
        ++ code m ((SK.block, sp) :: cur) c ctx p b)
      (L := decls true s (some .lex) a lhs ++ decls true s gov a b) hk hv
      (by
        intro x b cl h
        rcases List.mem_append.1 h with h | h
        · exact annex_loc h
        · exact annex_loc h)
      (by
        rw [List.mem_append, List.mem_append,
          annex_here m lhs _ _ _ _ _ _ _ _ (A.lhs sp) F1 x,
          annex_here m b _ _ _ _ _ _ _ _ (A.body sp) F3 x])
      (by
        rw [List.mem_append, hl, hb]
        unfold Reaches
        simp only [List.mem_append]
        constructor
        · rintro (⟨b, h1, h2, h3⟩ | ⟨b, h1, h2, h3⟩)
          · exact ⟨b, h1, Or.inl h2, h3⟩
          · exact ⟨b, h1, Or.inr h2, h3⟩
        · rintro ⟨b, h1, h2 | h2, h3⟩
          · exact Or.inl ⟨b, h1, h2, h3⟩
          · exact Or.inr ⟨b, h1, h2, h3⟩)
      (by
        intro hh
        refine bars_iff (m := m) hk hv HI ?_ ?_ F4 hh
        · rw [List.mem_append, sym_iff m lhs _ _ _ _ _ _ _ _ (A.lhs sp) F1 _ x List.suffix_rfl,
            sym_iff m b _ _ _ _ _ _ _ _ (A.body sp) F3 _ x List.suffix_rfl]
          constructor
          · rintro (⟨tg, h, h'⟩ | ⟨tg, h, h'⟩)
            · exact ⟨tg, List.mem_append_left _ h, h'⟩
            · exact ⟨tg, List.mem_append_right _ h, h'⟩
          · rintro ⟨tg, h, h'⟩
            rcases List.mem_append.1 h with h | h
            · exact Or.inl ⟨tg, h, h'⟩
            · exact Or.inr ⟨tg, h, h'⟩
        · rw [List.mem_append, catch_iff m lhs _ _ _ _ _ _ _ _ (A.lhs sp) F1 x,
            catch_iff m b _ _ _ _ _ _ _ _ (A.body sp) F3 x, ← exists_or]
          simp only [List.mem_append])
    simp only [decls, List.mem_append]
    rw [hloop, hr]
    unfold Reaches
    simp only [code, List.mem_append]
    constructor
    · rintro (⟨b, h1, h2 | h2, h3⟩ | ⟨b, h1, h2, h3⟩)
      · exact ⟨b, h1, Or.inl h2, h3⟩
      · exact ⟨b, h1, Or.inr (Or.inr h2), h3⟩
      · exact ⟨b, h1, Or.inr (Or.inl h2), h3⟩
    · rintro ⟨b, h1, h2 | h2 | h2, h3⟩
      · exact Or.inl ⟨b, h1, Or.inl h2, h3⟩
      · exact Or.inr ⟨b, h1, h2, h3⟩
      · exact Or.inl ⟨b, h1, Or.inr h2, h3⟩

end Verif.Bind
