import Verif.Bind.Annex

namespace Verif.Bind

/-! ## The finished tables -/

theorem nearest_idem {m : Mode} : ∀ {b c : ScopeId}, nearest m b = some c → nearest m c = some c
  | [], c, h => by simp [nearest] at h
  | k :: r, c, h => by
    by_cases hk : (k.1.isVar || (m == .script && k.1 == .global)) = true
    · rw [nearest, if_pos hk] at h
      cases h
      rw [nearest, if_pos hk]
    · rw [nearest, if_neg hk] at h
      exact nearest_idem h

theorem nearest_step {m : Mode} {k : SK × Nat} {r c : ScopeId} (h : nearest m (k :: r) = some c)
    (hne : c ≠ k :: r) : nearest m r = some c := by
  unfold nearest at h
  split at h
  · cases h; exact absurd rfl hne
  · exact h

theorem suppressed_congr {m : Mode} {S tab cat : Table} {x : Name} {c : ScopeId}
    (h1 : ∀ q ∈ S, q ∈ tab) (h2 : ∀ q ∈ tab, q ∈ S ∨ nearest m q.1 = some q.1) :
    ∀ (s : ScopeId), nearest m s = some c →
      suppressed tab cat x (some c) s = suppressed S cat x (some c) s
  | [], h => rfl
  | k :: r, h => by
    unfold suppressed
    by_cases hc : (some c : Option ScopeId) = some (k :: r)
    · rw [if_pos hc, if_pos hc]
    · rw [if_neg hc, if_neg hc]
      have hne : c ≠ k :: r := fun e => hc (by rw [e])
      have hm : (k :: r, x) ∈ tab ↔ (k :: r, x) ∈ S := by
        constructor
        · intro hq
          rcases h2 _ hq with hq | hq
          · exact hq
          · rw [h] at hq; cases hq; exact absurd rfl hne
        · exact h1 _
      rw [suppressed_congr h1 h2 r (nearest_step h hne)]
      simp only [hm]

theorem annex_fold {m : Mode} {S cat : Table} :
    ∀ (recs : List (Name × ScopeId × Option ScopeId)) (tab : Table),
    (∀ q ∈ S, q ∈ tab) → (∀ q ∈ tab, q ∈ S ∨ nearest m q.1 = some q.1) →
    (∀ x b cl, (x, b, cl) ∈ recs → cl = nearest m b ∧ kindOf b = .block) →
    ∀ (s : ScopeId) (y : Name), (s, y) ∈ recs.foldl (annexStep cat) tab ↔
      (s, y) ∈ tab ∨ ∃ b, (y, b, some s) ∈ recs ∧ suppressed S cat y (some s) b.tail = false
  | [], tab, h1, h2, h3, s, y => by simp
  | (x, b, cl) :: recs, tab, h1, h2, h3, s, y => by
    have hr := h3 x b cl (by simp)
    have h3' : ∀ x b cl, (x, b, cl) ∈ recs → cl = nearest m b ∧ kindOf b = .block :=
      fun x b cl h => h3 x b cl (by simp [h])
    rw [List.foldl_cons]
    cases cl with
    | none =>
      have he : annexStep cat tab (x, b, none) = tab := by unfold annexStep; split <;> rfl
      rw [he, annex_fold recs tab h1 h2 h3' s y]
      simp
    | some c =>
      have hn : nearest m b.tail = some c := by
        cases b with
        | nil => simp [nearest] at hr
        | cons k r =>
          apply nearest_step hr.1.symm
          rintro rfl
          have := nearest_idem hr.1.symm
          have hk : k.1 = .block := hr.2
          have h4 := nearest_nonvar (m := m) (k := k) (cur := r) (by rw [hk]; rfl) (by simp [KeyOk, hk])
          rw [h4] at this
          exact nearest_ne this rfl
      have hs := suppressed_congr (cat := cat) (x := x) h1 h2 b.tail hn
      by_cases hsup : suppressed S cat x (some c) b.tail = true
      · have he : annexStep cat tab (x, b, some c) = tab := by
          unfold annexStep; rw [if_pos (by rw [hs]; exact hsup)]
        rw [he, annex_fold recs tab h1 h2 h3' s y]
        constructor
        · rintro (h | ⟨b', h, h'⟩)
          · exact Or.inl h
          · exact Or.inr ⟨b', by simp [h], h'⟩
        · rintro (h | ⟨b', h, h'⟩)
          · exact Or.inl h
          · rcases List.mem_cons.1 h with h | h
            · cases h; rw [hsup] at h'; cases h'
            · exact Or.inr ⟨b', h, h'⟩
      · have hsup' : suppressed S cat x (some c) b.tail = false := by simpa using hsup
        have he : ∀ q, q ∈ annexStep cat tab (x, b, some c) ↔ q ∈ tab ∨ q = (c, x) := by
          intro q
          unfold annexStep
          rw [if_neg (by rw [hs]; exact hsup)]
          show q ∈ (if (c, x) ∈ tab then tab else tab ++ [(c, x)]) ↔ _
          split
          · rename_i hm
            constructor
            · exact Or.inl
            · rintro (h | rfl)
              · exact h
              · exact hm
          · simp
        rw [annex_fold recs _ (fun q h => (he q).2 (Or.inl (h1 q h))) ?_ h3' s y, he]
        · constructor
          · rintro ((h | h) | ⟨b', h, h'⟩)
            · exact Or.inl h
            · cases h; exact Or.inr ⟨b, by simp, hsup'⟩
            · exact Or.inr ⟨b', by simp [h], h'⟩
          · rintro (h | ⟨b', h, h'⟩)
            · exact Or.inl (Or.inl h)
            · rcases List.mem_cons.1 h with h | h
              · cases h; exact Or.inl (Or.inr rfl)
              · exact Or.inr ⟨b', h, h'⟩
        · intro q hq
          rcases (he q).1 hq with h | rfl
          · exact h2 q h
          · exact Or.inr (nearest_idem hn)

/-- What is in the finished tables. -/
structure Whole (m : Mode) (W : List Entry) (T : Table) : Prop where
  near : ∀ {x b cl}, Entry.annex x b cl ∈ W → cl = nearest m b
  tab : ∀ {s x}, (s, x) ∈ T ↔
    Entry.sym s x ∈ W ∨ ∃ b, Entry.annex x b (some s) ∈ W ∧ Free W x s b.tail

theorem whole_code {m : Mode} {cur c ctx p t} :
    Whole m (code m cur c ctx p t) (tables (code m cur c ctx p t)) where
  near := fun h => (annex_nearest m t _ _ _ _ _ _ _ h).1
  tab := by
    intro s x
    unfold tables
    rw [annex_fold (m := m) (S := syms (code m cur c ctx p t)) _ _ (fun q h => h)
      (fun q h => Or.inl h) (fun x b cl h => annex_nearest m t _ _ _ _ _ _ _ (mem_annexes.1 h)) s x]
    simp only [mem_syms, mem_annexes, Free]

/-- The names of a scope that is no function. -/
theorem tab_block {m : Mode} {W : List Entry} {T : Table} (hW : Whole m W T) {k : SK × Nat}
    {cur : ScopeId} {x : Name} {es : List Entry} {L : Decls} (hk : KeyOk k)
    (hv : k.1.isVar = false) (HI : AgreeIn W (k :: cur) es)
    (hs : Entry.sym (k :: cur) x ∈ es ↔ ∃ tg, (tg, x) ∈ L ∧ Lands m (k :: cur) tg (k :: cur)) :
    (k :: cur, x) ∈ T ↔ x ∈ blockNames L := by
  rw [hW.tab, HI _ List.suffix_rfl, hs]
  have h2 : ¬ ∃ b, Entry.annex x b (some (k :: cur)) ∈ W ∧ Free W x (k :: cur) b.tail := by
    rintro ⟨b, h, -⟩
    have := nearest_idem (hW.near h).symm
    rw [nearest_nonvar hv hk] at this
    exact nearest_ne this rfl
  simp only [h2, or_false]
  unfold blockNames
  rw [List.mem_map]
  constructor
  · rintro ⟨tg, hm, h⟩
    rcases h with h | ⟨-, h⟩
    · exact ⟨(tg, x), by simp [List.mem_filter, hm, h.1], rfl⟩
    · rw [nearest_nonvar hv hk] at h
      exact absurd rfl (nearest_ne h)
  · rintro ⟨⟨tg, y⟩, h, rfl⟩
    rw [List.mem_filter] at h
    exact ⟨tg, h.1, Or.inl ⟨h.2, rfl, fun h' => hk h'.2⟩⟩

/-- The names of a function, or of the top scope. -/
theorem tab_var {m : Mode} {W : List Entry} {T : Table} (hW : Whole m W T)
    {cur : ScopeId} {x : Name} {es : List Entry} {L : Decls}
    (hn : nearest m cur = some cur) (hg : ¬ (m = .global ∧ kindOf cur = .global))
    (HI : AgreeIn W cur es) (hloc : ∀ {b cl}, Entry.annex x b cl ∈ es → cur <:+ b)
    (hs : Entry.sym cur x ∈ es ↔ ∃ tg, (tg, x) ∈ L ∧ Lands m cur tg cur)
    (hfn : Entry.annex x cur (nearest m cur) ∈ es ↔ (Tag.fn true, x) ∈ L)
    (hho : (Tag.hoist, x) ∈ L ↔ Reaches m W cur es x) :
    (cur, x) ∈ T ↔ x ∈ funcNames L := by
  rw [hW.tab, HI _ List.suffix_rfl, hs]
  unfold funcNames
  rw [List.mem_map]
  constructor
  · rintro (⟨tg, hm, -⟩ | ⟨b, hb, hf⟩)
    · exact ⟨_, hm, rfl⟩
    · have hsuf : cur <:+ b := nearest_suffix (hW.near hb).symm
      have hb' := (HI (.annex x b (some cur)) hsuf).1 hb
      rw [← hn] at hb'
      by_cases e : b = cur
      · subst e; exact ⟨_, hfn.1 hb', rfl⟩
      · exact ⟨_, hho.2 ⟨b, e, hb', hf⟩, rfl⟩
  · rintro ⟨⟨tg, y⟩, hm, rfl⟩
    cases tg with
    | var => exact Or.inl ⟨_, hm, Or.inr ⟨rfl, hn⟩⟩
    | lex => exact Or.inl ⟨_, hm, Or.inl ⟨rfl, rfl, hg⟩⟩
    | fn b => exact Or.inl ⟨_, hm, Or.inl ⟨rfl, rfl, hg⟩⟩
    | catchP b => exact Or.inl ⟨_, hm, Or.inl ⟨rfl, rfl, hg⟩⟩
    | hoist =>
      obtain ⟨b, hne, hb, hf⟩ := hho.1 hm
      rw [hn] at hb
      exact Or.inr ⟨b, (HI (.annex y b (some cur)) (hloc hb)).2 hb, hf⟩

/-! ## Looking a name up -/

theorem find_cons {id : ScopeId} {ns : List Name} {E : Env} {x : Name} :
    find ((id, ns) :: E) x = if x ∈ ns then some id else find E x := by
  unfold find
  by_cases h : x ∈ ns
  · simp [h]
  · simp [h]

theorem lookupParam_outer {T : Table} {fs : ScopeId} {ps : Table} {x : Name} :
    ∀ {s : ScopeId}, ¬ fs <:+ s → lookupParam T fs ps s x = lookup T s x
  | [], _ => rfl
  | k :: r, h => by
    have h1 : ¬ k :: r = fs := fun e => h (e ▸ List.suffix_rfl)
    have h2 : ¬ fs <:+ r := fun e => h (e.trans (List.suffix_cons _ _))
    rw [lookupParam, lookup, if_neg h1, lookupParam_outer h2]

theorem lookupUse_cons {T : Table} {pc : Option (ScopeId × Table)} {k : SK × Nat}
    {cur : ScopeId} {x : Name} (h : ∀ fs ps, pc = some (fs, ps) → fs <:+ cur) :
    lookupUse pc T (k :: cur) x =
      if (k :: cur, x) ∈ T then some (k :: cur) else lookupUse pc T cur x := by
  cases pc with
  | none => rfl
  | some q =>
    obtain ⟨fs, ps⟩ := q
    have h1 : ¬ k :: cur = fs := by
      rintro rfl
      exact not_cons_suffix (h _ _ rfl)
    show lookupParam T fs ps (k :: cur) x = _
    rw [lookupParam, if_neg h1]
    rfl

/-- A scope is entered: both lookups take one more scope. -/
theorem enter {T : Table} {pc : Option (ScopeId × Table)} {k : SK × Nat} {cur : ScopeId}
    {E : Env} {ns : List Name} {l : List Name}
    (h : ∀ fs ps, pc = some (fs, ps) → fs <:+ cur)
    (ht : ∀ x ∈ l, ((k :: cur, x) ∈ T ↔ x ∈ ns))
    (hl : ∀ x ∈ l, lookupUse pc T cur x = find E x) :
    ∀ x ∈ l, lookupUse pc T (k :: cur) x = find ((k :: cur, ns) :: E) x := by
  intro x hx
  rw [lookupUse_cons h, find_cons, hl x hx]
  simp only [ht x hx]

theorem mem_paramNames {L : Decls} {x : Name} :
    x ∈ paramNames L ↔ ∃ tg, (tg, x) ∈ L ∧ tg ≠ .hoist := by
  unfold paramNames
  rw [List.mem_map]
  constructor
  · rintro ⟨⟨tg, y⟩, h, rfl⟩
    rw [List.mem_filter] at h
    exact ⟨tg, h.1, by simpa using h.2⟩
  · rintro ⟨tg, h, h'⟩
    exact ⟨(tg, x), by simp [List.mem_filter, h, h'], rfl⟩

theorem not_arg {arrow : Bool} {x : Name} (h : x ≠ "arguments") {l : List Name} :
    x ∈ argNames arrow ++ l ↔ x ∈ l := by
  cases arrow <;> simp [argNames, h]

/-- The resolving walk follows the scope chain. -/
theorem res_eq (m : Mode) (W : List Entry) (T : Table) (hW : Whole m W T) (t : Tree) :
    ∀ (E : Env) (pc : Option (ScopeId × Table)) (cur : ScopeId) (c : Bool)
    (ctx : Option Ctx) (p : Bool) (blk s : Bool) (gov : Option Tag) (a : Bool),
    Args m cur c ctx blk gov → Fits p a c s blk gov t → Distinct t →
    Agree W cur t (code m cur c ctx p t) → "arguments" ∉ mentions t →
    (∀ fs ps, pc = some (fs, ps) → fs <:+ cur) →
    (∀ x ∈ mentions t, lookupUse pc T cur x = find E x) →
    (hasFunc t = true → ∀ x ∈ mentions t, lookup T cur x = find E x) →
    res m T pc cur c p t = walk E cur blk s gov a t := by
  induction t with
  | nil => intros; rfl
  | fname y pl => intros; rfl
  | cname y => intros; rfl
  | use y =>
    intro E pc cur c ctx p blk s gov a A F D H N C h1 h2
    simp only [res, walk, h1 y (by simp [mentions])]
  | pat y =>
    intro E pc cur c ctx p blk s gov a A F D H N C h1 h2
    obtain ⟨rfl, -⟩ := F
    simp only [res, walk, h1 y (by simp [mentions])]
  | seq t u iha ihb =>
    intro E pc cur c ctx p blk s gov a A F D H N C h1 h2
    obtain ⟨H1, H2⟩ := agree_seq D.2.2 (m := m) (W := W) (cur := cur) (c := c) (ctx := ctx) (p := p)
      (c' := c) (ctx' := ctx) (p' := p) (by
        intro e he
        rw [H e (by
          rcases he with ⟨k, hk, h⟩ | ⟨k, hk, h⟩
          · exact ⟨k, by simp [keys, hk], h⟩
          · exact ⟨k, by simp [keys, hk], h⟩), code, List.mem_append])
    simp only [mentions, List.mem_append, not_or] at N h1 h2
    simp only [hasFunc, Bool.or_eq_true] at h2
    rw [res, walk,
      iha _ _ _ _ _ _ _ _ _ _ A F.1 D.1 H1 N.1 C (fun x hx => h1 x (Or.inl hx))
        (fun hf x hx => h2 (Or.inl hf) x (Or.inl hx)),
      ihb _ _ _ _ _ _ _ _ _ _ A F.2 D.2.1 H2 N.2 C (fun x hx => h1 x (Or.inr hx))
        (fun hf x hx => h2 (Or.inr hf) x (Or.inr hx))]
  | group g t ih =>
    intro E pc cur c ctx p blk s gov a A F D H N C h1 h2
    rw [res, walk]
    exact ih _ _ _ _ _ _ _ _ _ _ (A.group g) F D H N C h1 h2
  | scope k sp t ih =>
    intro E pc cur c ctx p blk s gov a A F D H N C h1 h2
    have HI : AgreeIn W ((k.kind, sp) :: cur)
        (code m ((k.kind, sp) :: cur) (k.strict c) (k.ctx ctx) p t) := by
      intro e he
      exact H e ⟨_, by simp [keys], he⟩
    have AS := A.scope k sp
    have hsy := fun x => sym_iff m t _ _ _ _ _ _ _ _ AS F.1 _ x List.suffix_rfl
    have go : ∀ ns : List Name, (∀ x, ((k.kind, sp) :: cur, x) ∈ T ↔ x ∈ ns) →
        res m T pc ((k.kind, sp) :: cur) (k.strict c) p t =
          walk (((k.kind, sp) :: cur, ns) :: E) ((k.kind, sp) :: cur) k.isBlock (k.isStrict s)
            (k.gov gov) a t := by
      intro ns hns
      refine ih _ _ _ _ _ _ _ _ _ _ AS F.1 D HI.under N
        (fun fs ps e => (C fs ps e).trans (List.suffix_cons _ _))
        (enter C (fun x _ => hns x) h1) ?_
      intro hf
      exact enter (pc := none) (by intro _ _ e; cases e) (fun x _ => hns x) (h2 hf)
    by_cases hk : k = .static
    · have hv : SK.isVar ((k.kind, sp) : SK × Nat).1 = true := by rw [kind_var]; simpa using hk
      have := go (funcNames (decls k.isBlock (k.isStrict s) (k.gov gov) a t)) (fun x =>
        tab_var hW (nearest_var hv) (fun h => keyOk_scope k sp h.2) HI
          (by
            intro b cl h
            rcases annex_loc h with rfl | h'
            · exact List.suffix_rfl
            · exact h'.trans (List.tail_suffix _))
          (hsy x) (annex_here m t _ _ _ _ _ _ _ _ AS F.1 x)
          (hoist_iff m W t _ _ _ _ _ _ _ _ AS F.1 D HI.under x))
      subst hk
      exact this
    · have hv : SK.isVar ((k.kind, sp) : SK × Nat).1 = false := by rw [kind_var]; simpa using hk
      have := go (blockNames (decls k.isBlock (k.isStrict s) (k.gov gov) a t)) (fun x =>
        tab_block hW (keyOk_scope k sp) hv HI (hsy x))
      cases k with
      | static => exact absurd rfl hk
      | _ => exact this
  | func sp arrow strict ps b ihp ihb =>
    intro E pc cur c ctx p blk s gov a A F D H N C h1 h2
    obtain ⟨F1, F2, F3⟩ := F
    obtain ⟨D1, D2, D3⟩ := D
    have AF := A.func sp arrow strict
    have hv := var_func arrow sp
    have HI : AgreeIn W ((funcKind arrow, sp) :: cur)
        (code m ((funcKind arrow, sp) :: cur) (c || strict) (some paramCtx) p ps
          ++ code m ((funcKind arrow, sp) :: cur) (c || strict) (some paramCtx) p b) := by
      intro e he
      exact H e ⟨_, by simp [keys], he⟩
    obtain ⟨HP, HB⟩ := HI.both D3
    simp only [mentions, List.mem_append, not_or] at N h1 h2
    have h0 := h2 rfl
    have hsp := fun x => sym_iff m ps _ _ _ _ _ _ _ _ AF F1 _ x List.suffix_rfl
    have hsb := fun x => sym_iff m b _ _ _ _ _ _ _ _ AF F2 _ x List.suffix_rfl
    have hT : ∀ x, ((funcKind arrow, sp) :: cur, x) ∈ T ↔
        x ∈ funcNames (decls false (s || strict) (some .var) false ps
          ++ decls false (s || strict) (some .var) false b) := by
      intro x
      refine tab_var hW (nearest_var hv) (fun h => keyOk_func arrow sp h.2) HI ?_ ?_ ?_ ?_
      · intro b cl h
        rcases List.mem_append.1 h with h | h
        · rcases annex_loc h with rfl | h'
          · exact List.suffix_rfl
          · exact h'.trans (List.tail_suffix _)
        · rcases annex_loc h with rfl | h'
          · exact List.suffix_rfl
          · exact h'.trans (List.tail_suffix _)
      · rw [List.mem_append, hsp x, hsb x]
        constructor
        · rintro (⟨tg, h, h'⟩ | ⟨tg, h, h'⟩)
          · exact ⟨tg, List.mem_append_left _ h, h'⟩
          · exact ⟨tg, List.mem_append_right _ h, h'⟩
        · rintro ⟨tg, h, h'⟩
          rcases List.mem_append.1 h with h | h
          · exact Or.inl ⟨tg, h, h'⟩
          · exact Or.inr ⟨tg, h, h'⟩
      · rw [List.mem_append, List.mem_append, annex_here m ps _ _ _ _ _ _ _ _ AF F1 x,
          annex_here m b _ _ _ _ _ _ _ _ AF F2 x]
      · rw [List.mem_append, hoist_iff m W ps _ _ _ _ _ _ _ _ AF F1 D1 HP x,
          hoist_iff m W b _ _ _ _ _ _ _ _ AF F2 D2 HB x]
        unfold Reaches
        simp only [List.mem_append]
        constructor
        · rintro (⟨b, h1, h2, h3⟩ | ⟨b, h1, h2, h3⟩)
          · exact ⟨b, h1, Or.inl h2, h3⟩
          · exact ⟨b, h1, Or.inr h2, h3⟩
        · rintro ⟨b, h1, h2 | h2, h3⟩
          · exact Or.inl ⟨b, h1, h2, h3⟩
          · exact Or.inr ⟨b, h1, h2, h3⟩
    have hPS : ∀ x, ((funcKind arrow, sp) :: cur, x) ∈
        syms (code m ((funcKind arrow, sp) :: cur) (c || strict) (some paramCtx) p ps) ↔
        x ∈ paramNames (decls false (s || strict) (some .var) false ps) := by
      intro x
      rw [mem_syms, hsp x, mem_paramNames]
      constructor
      · rintro ⟨tg, h, h'⟩
        refine ⟨tg, h, ?_⟩
        rintro rfl
        rcases h' with ⟨h', -⟩ | ⟨h', -⟩ <;> cases h'
      · rintro ⟨tg, h, h'⟩
        refine ⟨tg, h, ?_⟩
        have hg : ¬ (m = .global ∧ kindOf ((funcKind arrow, sp) :: cur) = .global) :=
          fun h => keyOk_func arrow sp h.2
        cases tg with
        | var => exact Or.inr ⟨rfl, nearest_var hv⟩
        | hoist => exact absurd rfl h'
        | lex => exact Or.inl ⟨rfl, rfl, hg⟩
        | fn b => exact Or.inl ⟨rfl, rfl, hg⟩
        | catchP b => exact Or.inl ⟨rfl, rfl, hg⟩
    have hsub : ∀ x, x ∈ paramNames (decls false (s || strict) (some .var) false ps) →
        ((funcKind arrow, sp) :: cur, x) ∈ T := by
      intro x hx
      obtain ⟨tg, h, -⟩ := mem_paramNames.1 hx
      rw [hT]
      exact List.mem_map.2 ⟨_, List.mem_append_left _ h, rfl⟩
    rw [res, walk]
    congr 1
    · refine ihp _ _ _ _ _ _ _ _ _ _ AF F1 D1 HP N.1 ?_ ?_ ?_
      · intro fs qs e; cases e; exact List.suffix_rfl
      · intro x hx
        have hxa : x ≠ "arguments" := fun e => N.1 (e ▸ hx)
        rw [find_cons]
        simp only [not_arg hxa]
        show lookupParam _ _ _ _ _ = _
        rw [lookupParam, lookupParam_outer not_cons_suffix, if_pos rfl, h0 x (Or.inl hx)]
        by_cases hp : x ∈ paramNames (decls false (s || strict) (some .var) false ps)
        · rw [if_pos (hsub x hp), if_pos ((hPS x).2 hp), if_pos hp]
        · rw [if_neg hp]
          split
          · rw [if_neg (fun h => hp ((hPS x).1 h))]
          · rfl
      · intro hf
        refine enter (pc := none) (by intro _ _ e; cases e) ?_ (fun x hx => h0 x (Or.inl hx))
        intro x hx
        have hxa : x ≠ "arguments" := fun e => N.1 (e ▸ hx)
        rw [not_arg hxa, hT]
        exact ⟨F3 hf x, fun h => (hT x).1 (hsub x h)⟩
    · have key : ∀ x ∈ mentions b, lookupUse none T ((funcKind arrow, sp) :: cur) x = find
          (((funcKind arrow, sp) :: cur,
            argNames arrow ++ funcNames (decls false (s || strict) (some .var) false ps
              ++ decls false (s || strict) (some .var) false b)) :: E) x := by
        refine enter (pc := none) (by intro _ _ e; cases e) ?_ (fun x hx => h0 x (Or.inr hx))
        intro x hx
        have hxa : x ≠ "arguments" := fun e => N.2 (e ▸ hx)
        rw [not_arg hxa, hT]
      exact ihb _ _ _ _ _ _ _ _ _ _ AF F2 D2 HB N.2 (by intro _ _ e; cases e) key (fun _ => key)
  | forOf sp lhs rhs b ihl ihr ihb =>
    intro E pc cur c ctx p blk s gov a A F D H N C h1 h2
    obtain ⟨F1, F2, F3, F4, F5⟩ := F
    obtain ⟨D1, D2, D3, D4, D5⟩ := D
    obtain ⟨HR, HI⟩ := agree_forOf D5 H
    obtain ⟨HL, HB⟩ := HI.both D4
    have hk : KeyOk (SK.block, sp) := by simp [KeyOk]
    have hv : SK.isVar ((SK.block, sp) : SK × Nat).1 = false := rfl
    simp only [mentions, List.mem_append, not_or] at N h1 h2
    simp only [hasFunc, Bool.or_eq_true] at h2
    have hT : ∀ x, ((SK.block, sp) :: cur, x) ∈ T ↔
        x ∈ blockNames (decls true s (some .lex) a lhs ++ decls true s gov a b) := by
      intro x
      refine tab_block hW hk hv HI ?_
      rw [List.mem_append, sym_iff m lhs _ _ _ _ _ _ _ _ (A.lhs sp) F1 _ x List.suffix_rfl,
        sym_iff m b _ _ _ _ _ _ _ _ (A.body sp) F3 _ x List.suffix_rfl]
      constructor
      · rintro (⟨tg, h, h'⟩ | ⟨tg, h, h'⟩)
        · exact ⟨tg, List.mem_append_left _ h, h'⟩
        · exact ⟨tg, List.mem_append_right _ h, h'⟩
      · rintro ⟨tg, h, h'⟩
        rcases List.mem_append.1 h with h | h
        · exact Or.inl ⟨tg, h, h'⟩
        · exact Or.inr ⟨tg, h, h'⟩
    have C' : ∀ fs ps, pc = some (fs, ps) → fs <:+ (SK.block, sp) :: cur :=
      fun fs ps e => (C fs ps e).trans (List.suffix_cons _ _)
    have Cn : ∀ fs ps, (none : Option (ScopeId × Table)) = some (fs, ps) → fs <:+ cur := by
      intro _ _ e; cases e
    have htdz : ∀ x ∈ mentions rhs, find (((SK.block, sp) :: cur,
        blockNames (decls true s (some .lex) a lhs)) :: E) x = find E x := by
      intro x hx
      rw [find_cons, if_neg (F5 x hx)]
    rw [res, walk,
      ihl _ _ _ _ _ _ _ _ _ _ (A.lhs sp) F1 D1 HL N.1 C'
        (enter C (fun x _ => hT x) (fun x hx => h1 x (Or.inl hx)))
        (fun hf => enter Cn (fun x _ => hT x) (fun x hx => h2 (Or.inl (Or.inl hf)) x (Or.inl hx))),
      ihr (((SK.block, sp) :: cur, blockNames (decls true s (some .lex) a lhs)) :: E)
        _ _ _ _ _ _ _ _ _ A F2 D2 HR N.2.1 C
        (fun x hx => by rw [htdz x hx]; exact h1 x (Or.inr (Or.inl hx)))
        (fun hf x hx => by
          rw [htdz x hx]; exact h2 (Or.inl (Or.inr hf)) x (Or.inr (Or.inl hx))),
      ihb _ _ _ _ _ _ _ _ _ _ (A.body sp) F3 D3 HB N.2.2 C'
        (enter C (fun x _ => hT x) (fun x hx => h1 x (Or.inr (Or.inr hx))))
        (fun hf => enter Cn (fun x _ => hT x)
          (fun x hx => h2 (Or.inr hf) x (Or.inr (Or.inr hx))))]

end Verif.Bind
