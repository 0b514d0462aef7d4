import Verif.Rename.Scope
/-!
# The invariant of the renaming
-/

namespace Verif.Rename

open Verif.Names

variable {sem : Sem} {h : Nat} {refs : List Ref}

theorem mem_visited (T : Tables sem h) (s : Nat) : s ∈ preorder sem h sem.top ↔ Anc sem sem.top s := by
  obtain ⟨d, h1, h2⟩ := T.depth
  exact mem_preorder_aux T d h1 h2 h sem.top (by omega) s

theorem symbolNames_some (T : Tables sem h) {s : Nat} {x : Sym} (hs : Anc sem sem.top s)
    (hx : Declares sem s x) : (mkCtx sem h refs).ud.symbolNames x = some (sem.symName x) := by
  obtain ⟨n, hn⟩ := hx
  simp only [mkCtx, collectUsages]
  rw [if_pos]
  exact List.mem_flatMap.2 ⟨s, (mem_visited T s).2 hs, List.mem_map_of_mem (f := Prod.snd) hn⟩

theorem symbolNames_declares (T : Tables sem h) {x : Sym} {n : Name}
    (hx : (mkCtx sem h refs).ud.symbolNames x = some n) :
    n = sem.symName x ∧ Declares sem (sem.declScope x) x := by
  simp only [mkCtx, collectUsages] at hx
  split at hx
  · rename_i hm
    obtain ⟨s, _, hm⟩ := List.mem_flatMap.1 hm
    obtain ⟨⟨m, y⟩, he, rfl⟩ := List.mem_map.1 hm
    cases hx
    have hd : Declares sem s y := ⟨m, he⟩
    exact ⟨rfl, by rw [hd.scope T]; exact hd⟩
  · cases hx

theorem mem_order (T : Tables sem h) {s : Nat} (hs : Anc sem sem.top s) (x : Sym) :
    x ∈ (mkCtx sem h refs).ud.order s ↔ Declares sem s x := by
  simp only [mkCtx, collectUsages]
  rw [if_pos ((mem_visited T s).2 hs), List.mem_map]
  constructor
  · rintro ⟨⟨n, y⟩, h1, rfl⟩; exact ⟨n, h1⟩
  · rintro ⟨n, h1⟩; exact ⟨_, h1, rfl⟩

theorem nodup_order (T : Tables sem h) {s : Nat} (hs : Anc sem sem.top s) :
    ((mkCtx sem h refs).ud.order s).Nodup := by
  simp only [mkCtx, collectUsages]
  rw [if_pos ((mem_visited T s).2 hs)]
  have h1 := T.names s
  have h2 := T.symbol s
  generalize (sem.scope s).symbols = l at h1 h2
  induction l with
  | nil => simp
  | cons e l ih =>
    obtain ⟨n, x⟩ := e
    simp only [List.map_cons, List.nodup_cons] at h1 ⊢
    refine ⟨?_, ih h1.2 (fun n x hx => h2 n x (List.mem_cons_of_mem _ hx))⟩
    intro hm
    obtain ⟨⟨m, y⟩, he, rfl⟩ := List.mem_map.1 hm
    have e1 := (h2 n y List.mem_cons_self).2
    have e2 := (h2 m y (List.mem_cons_of_mem _ he)).2
    rw [e1] at e2; subst e2
    exact h1.1 (List.mem_map_of_mem (f := Prod.fst) he)

theorem mem_foreign (T : Tables sem h) (B : Bound sem refs) (s : Nat) (x : Sym) :
    x ∈ ((mkCtx sem h refs).ud.usages s).foreign ↔ Free sem refs s x := by
  simp only [mkCtx, collectUsages]
  rw [(usages_spec T refs _ B).1]
  simp

theorem mem_unknown (T : Tables sem h) (B : Bound sem refs) (s : Nat) (n : Name) :
    n ∈ ((mkCtx sem h refs).ud.usages s).unknown ↔
      ∃ r ∈ refs, r.sym = none ∧ r.name = n ∧ Anc sem s r.scope := by
  simp only [mkCtx, collectUsages]
  rw [(usages_spec T refs _ B).2]
  simp

theorem mem_hazards (T : Tables sem h) (s : Nat) (z : Hazards) :
    (s, z) ∈ (mkCtx sem h refs).ud.hazards ↔ Anc sem sem.top s ∧
      z = ⟨(sem.scope s).hasDirectEval, (sem.scope s).isDynamic && !(sem.scope s).hasDirectEval⟩ ∧
      (z.hasDirectEval || z.hasWith) = true := by
  simp only [mkCtx, collectUsages, List.mem_filterMap, mem_visited T]
  constructor
  · rintro ⟨t, ht, he⟩
    split at he
    · rename_i hc
      simp only [Option.some.injEq, Prod.mk.injEq] at he
      obtain ⟨rfl, rfl⟩ := he
      exact ⟨ht, rfl, hc⟩
    · cases he
  · rintro ⟨h1, rfl, h3⟩
    exact ⟨s, h1, by rw [if_pos h3]⟩

theorem disabled_iff (T : Tables sem h) {s : Nat} (hs : Anc sem sem.top s) :
    (mkCtx sem h refs).disabled.contains s = true ↔ Observable sem s := by
  have hd : (mkCtx sem h refs).disabled = disabledScopes sem h (mkCtx sem h refs).ud := rfl
  rw [hd, List.contains_iff_mem]
  simp only [disabledScopes, List.mem_flatMap, Prod.exists, mem_hazards T]
  constructor
  · rintro ⟨t, z, ⟨h1, rfl, h3⟩, h4⟩
    rcases List.mem_append.1 h4 with h5 | h5
    · split at h5
      · simp only [List.mem_singleton] at h5
        subst h5
        simp only [Bool.or_eq_true, Bool.and_eq_true, Bool.not_eq_true'] at h3
        rcases h3 with h3 | ⟨h3, h3'⟩
        · exact .inr ⟨s, h1, h3, .refl⟩
        · exact .inl ⟨h3, h3'⟩
      · cases h5
    · split at h5
      · rename_i he
        cases hp : (sem.scope t).parent with
        | none => rw [hp] at h5; cases h5
        | some p =>
          rw [hp] at h5
          exact .inr ⟨t, h1, he, .up hp ((mem_chain T _ _).1 h5)⟩
      · cases h5
  · rintro (⟨h1, h2⟩ | ⟨d, h1, h2, h3⟩)
    · refine ⟨s, _, ⟨hs, rfl, by simp [h1, h2]⟩, ?_⟩
      simp [h1, h2]
    · refine ⟨d, _, ⟨h1, rfl, by simp [h2]⟩, ?_⟩
      rcases h3.cases_up with rfl | ⟨p, hp, h4⟩
      · simp [h2]
      · rw [hp]
        simp only [h2, Bool.or_true, if_true, List.mem_append]
        exact .inr ((mem_chain T _ _).2 h4)

theorem fixed_iff (T : Tables sem h) (B : Bound sem refs) (x : Sym) :
    (mkCtx sem h refs).fixed x = true ↔ Pinned sem refs x := by
  simp only [Ctx.fixed, Bool.or_eq_true, List.contains_iff_mem, Pinned]
  have h1 : x ∈ (mkCtx sem h refs).ud.exported ↔ Exported sem refs x := by
    simp only [mkCtx, collectUsages, List.mem_filterMap, exportedBy, Exported]
    constructor
    · rintro ⟨r, hr, he⟩
      split at he
      · rename_i hc
        simp only [Bool.and_eq_true] at hc
        exact ⟨r, hr, he, hc.1, hc.2⟩
      · cases he
    · rintro ⟨r, hr, h1, h2, h3⟩
      exact ⟨r, hr, by rw [if_pos (by simp [h2, h3])]; exact h1⟩
  have h2 : x ∈ (mkCtx sem h refs).pinned ↔ UsedInWith sem refs x := by
    have hd : (mkCtx sem h refs).pinned = pinnedSymbols (mkCtx sem h refs).ud := rfl
    rw [hd]
    simp only [pinnedSymbols, List.mem_flatMap, Prod.exists, mem_hazards T, UsedInWith, HasWith]
    constructor
    · rintro ⟨t, z, ⟨h1, rfl, h3⟩, h4⟩
      split at h4
      · rename_i hw
        simp only [Bool.and_eq_true, Bool.not_eq_true'] at hw
        exact ⟨t, h1, hw, (mem_foreign T B _ _).1 h4⟩
      · cases h4
    · rintro ⟨s, h1, h2, h3⟩
      refine ⟨s, _, ⟨h1, rfl, by simp [h2.1, h2.2]⟩, ?_⟩
      rw [if_pos (by simp [h2.1, h2.2])]
      exact (mem_foreign T B _ _).2 h3
  rw [h1, h2]

theorem mem_fixedNames (T : Tables sem h) (B : Bound sem refs) {s : Nat} (hs : Anc sem sem.top s) {p : Sym}
    (hp : Declares sem s p) (hf : Pinned sem refs p) : sem.symName p ∈ (mkCtx sem h refs).fixedNames s := by
  refine List.mem_filterMap.2 ⟨p, (mem_order T hs p).2 hp, ?_⟩
  rw [if_pos ((fixed_iff T B p).2 hf)]
  exact symbolNames_some T hs hp

theorem Free.declares (T : Tables sem h) (B : Bound sem refs) {s : Nat} {y : Sym} (hf : Free sem refs s y) :
    Declares sem (sem.declScope y) y := by
  obtain ⟨_, _, r, hr, hy, _⟩ := hf
  exact ((B r hr).2.some_spec T hy).2.1

theorem Free.name_ne (T : Tables sem h) (B : Bound sem refs) {s : Nat} {x y : Sym} (hf : Free sem refs s y)
    (hx : Declares sem s x) : sem.symName x ≠ sem.symName y := by
  obtain ⟨h1, h2, r, hr, hy, h3⟩ := hf
  obtain ⟨_, _, e, h4⟩ := (B r hr).2.some_spec T hy
  rw [e]
  exact h4 s x h3 h2 h1 hx

theorem unknown_ne (T : Tables sem h) (B : Bound sem refs) {s : Nat} {x : Sym} {n : Name}
    (hn : n ∈ ((mkCtx sem h refs).ud.usages s).unknown) (hx : Declares sem s x) : sem.symName x ≠ n := by
  obtain ⟨r, hr, h1, rfl, h3⟩ := (mem_unknown T B s n).1 hn
  exact (B r hr).2.none_spec h1 s x h3 hx

/-- What holds when the scopes in `done` have had their turn. -/
structure Inv (sem : Sem) (h : Nat) (refs : List Ref) (done : List Nat) (ren : Renames) : Prop where
  i0 : ∀ x n, ren.lookup x = some n → (Declares sem (sem.declScope x) x ∧ sem.declScope x ∈ done) ∨
    ∃ v, (x, v) ∈ sem.annexB ∧ Declares sem (sem.declScope v) v ∧ sem.declScope v ∈ done
  i1 : ∀ s ∈ done, Observable sem s → ∀ x, Declares sem s x → ren.lookup x = none
  i2 : ∀ x, Pinned sem refs x → ren.lookup x = none
  i3 : ∀ b v, (b, v) ∈ sem.annexB → ren.lookup b = ren.lookup v
  i3b : ∀ b v n, (b, v) ∈ sem.annexB → ren.lookup v = some n →
    n ∉ ((mkCtx sem h refs).ud.usages (sem.declScope b)).unknown ∧
    (∀ p, Declares sem (sem.declScope b) p → Pinned sem refs p → sem.symName p ≠ n) ∧
    ∀ y, Free sem refs (sem.declScope b) y → sem.declScope y ≠ sem.declScope v → newName sem ren y ≠ n
  i4 : PinsAreSafe sem refs → ∀ s ∈ done, ∀ x y, Declares sem s x → Free sem refs s y → newName sem ren x ≠ newName sem ren y
  i5 : ∀ s ∈ done, ∀ x n, Declares sem s x → n ∈ ((mkCtx sem h refs).ud.usages s).unknown →
    newName sem ren x ≠ n
  i6 : ∀ s ∈ done, ∀ x y, Declares sem s x → Declares sem s y → x ≠ y →
    newName sem ren x ≠ newName sem ren y
  i7 : ∀ s ∈ done, ¬ Observable sem s → ∀ x, Declares sem s x → sem.annexB.lookup x = none →
    ¬ Pinned sem refs x → ren.lookup x ≠ none
  i8 : ∀ x n, ren.lookup x = some n → IdentName n ∧ n ∉ reservedNames

/-- The scopes that have had their turn. -/
structure Done (sem : Sem) (done : List Nat) : Prop where
  tree : ∀ s ∈ done, Anc sem sem.top s
  closed : ∀ s ∈ done, ∀ p, (sem.scope s).parent = some p → p ∈ done

theorem Done.anc {done : List Nat} (D : Done sem done) {a s : Nat} (ha : Anc sem a s) (hs : s ∈ done) :
    a ∈ done := by
  induction ha with
  | refl => exact hs
  | up hp _ ih => exact ih (D.closed _ hs _ hp)

theorem newName_none {ren : Renames} {x : Sym} (hx : ren.lookup x = none) : newName sem ren x = sem.symName x := by
  simp [newName, hx]

theorem newName_some {ren : Renames} {x : Sym} {n : Name} (hx : ren.lookup x = some n) :
    newName sem ren x = n := by
  simp [newName, hx]

theorem newName_congr {r1 r2 : Renames} {x : Sym} (hx : r1.lookup x = r2.lookup x) :
    newName sem r1 x = newName sem r2 x := by
  simp [newName, hx]

/-- The free variables of an observable scope keep their names. -/
theorem Inv.stays {done : List Nat} {ren : Renames} (I : Inv sem h refs done ren) (T : Tables sem h)
    (B : Bound sem refs) (hs : Anc sem sem.top s) (ho : Observable sem s)
    {y : Sym} (hf : Free sem refs s y) (hd : sem.declScope y ∈ done) : ren.lookup y = none := by
  rcases ho with hw | ⟨d, hd1, hd2, hd3⟩
  · exact I.i2 y (.inr ⟨s, hs, hw, hf⟩)
  · exact I.i1 _ hd (.inr ⟨d, hd1, hd2, hf.2.1.trans hd3⟩) y (hf.declares T B)

/-- The free variables of a block function's scope are declared around its `var`, or beside it. -/
theorem LinkOk.free (T : Tables sem h) (B : Bound sem refs) {b v : Sym} (L : LinkOk sem refs b v) {y : Sym}
    (hf : Free sem refs (sem.declScope b) y) :
    sem.declScope y = sem.declScope v ∨ Free sem refs (sem.declScope v) y := by
  by_cases he : sem.declScope y = sem.declScope v
  · exact .inl he
  · right
    obtain ⟨p, hp, hv⟩ := L.above
    have hvb : Anc sem (sem.declScope v) (sem.declScope b) := .up hp hv
    have hdy := hf.declares T B
    obtain ⟨h1, h2, r, hr, hy, h3⟩ := hf
    refine ⟨fun e => he e.symm, ?_, r, hr, hy, hvb.trans h3⟩
    rcases h2.total hvb with h4 | h4
    · exact h4
    · exact absurd hdy (L.between _ y h4 h2 he (fun e => h1 e.symm))

section Step

variable {done : List Nat} {ren ren' : Renames} {s : Nat}

/-- A scope's turn where names must not change. -/
theorem step_disabled (T : Tables sem h) (B : Bound sem refs) (L : Links sem refs)
    (D : Done sem done) (I : Inv sem h refs done ren)
    (hs : s ∉ done) (hp : ∀ p, (sem.scope s).parent = some p → p ∈ done) (ht : Anc sem sem.top s)
    (ho : Observable sem s) : Inv sem h refs (s :: done) ren := by
  have hanc : ∀ a, Anc sem a s → a ≠ s → a ∈ done := by
    intro a ha hne
    rcases ha.cases_up with rfl | ⟨p, hp', h'⟩
    · exact absurd rfl hne
    · exact D.anc h' (hp p hp')
  have hnone : ∀ x, Declares sem s x → ren.lookup x = none := by
    intro x hx
    cases hl : ren.lookup x with
    | none => rfl
    | some n =>
      rcases I.i0 x n hl with ⟨_, h2⟩ | ⟨v, h2, h3, h4⟩
      · rw [hx.scope T] at h2; exact absurd h2 hs
      · have LO := L.ok x v h2
        have := LO.observable (by rw [hx.scope T]; exact ho)
        have h5 := I.i1 _ h4 this v h3
        rw [I.i3 x v h2, h5] at hl; cases hl
  refine { i0 := ?_, i1 := ?_, i2 := I.i2, i3 := I.i3, i3b := I.i3b, i4 := ?_, i5 := ?_, i6 := ?_, i7 := ?_, i8 := I.i8 }
  · intro x n hx
    rcases I.i0 x n hx with ⟨h1, h2⟩ | ⟨v, h1, h2, h3⟩
    · exact .inl ⟨h1, List.mem_cons_of_mem _ h2⟩
    · exact .inr ⟨v, h1, h2, List.mem_cons_of_mem _ h3⟩
  · intro t htm hot x hx
    rcases List.mem_cons.1 htm with rfl | htm'
    · exact hnone x hx
    · exact I.i1 t htm' hot x hx
  · intro P t htm x y hx hy
    rcases List.mem_cons.1 htm with rfl | htm'
    · have hyd := hanc _ hy.2.1 (fun e => hy.1 e.symm)
      rw [newName_none (hnone x hx), newName_none (I.stays T B ht ho hy hyd)]
      exact hy.name_ne T B hx
    · exact I.i4 P t htm' x y hx hy
  · intro t htm x n hx hn
    rcases List.mem_cons.1 htm with rfl | htm'
    · rw [newName_none (hnone x hx)]
      exact unknown_ne T B hn hx
    · exact I.i5 t htm' x n hx hn
  · intro t htm x y hx hy hne
    rcases List.mem_cons.1 htm with rfl | htm'
    · rw [newName_none (hnone x hx), newName_none (hnone y hy)]
      exact fun e => hne (Declares.inj T hx hy e)
    · exact I.i6 t htm' x y hx hy hne
  · intro t htm hot x hx h1 h2
    rcases List.mem_cons.1 htm with rfl | htm'
    · exact absurd ho hot
    · exact I.i7 t htm' hot x hx h1 h2

end Step

end Verif.Rename
