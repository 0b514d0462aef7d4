import Verif.Rename.Turn
/-!
# The whole renaming
-/

namespace Verif.Rename

open Verif.Names

variable {sem : Sem} {h : Nat} {refs : List Ref} {done : List Nat} {ren ren' : Renames} {s : Nat}

theorem step_enabled (T : Tables sem h) (B : Bound sem refs) (L : Links sem refs)
    (D : Done sem done) (I : Inv sem h refs done ren)
    (hs : s ∉ done) (ht : Anc sem sem.top s) (hanc : ∀ a, Anc sem a s → a ≠ s → a ∈ done)
    (ho : ¬ Observable sem s) (U : Turn sem h refs s ren ren') : Inv sem h refs (s :: done) ren' := by
  have hlink : ∀ x v, (x, v) ∈ sem.annexB → sem.annexB.lookup x = some v := fun x v => lookup_of_mem L.map
  -- symbols of finished scopes keep their names
  have hold : ∀ z, sem.declScope z ∈ done → ren'.lookup z = ren.lookup z := by
    intro z hz
    refine U.other z (fun hd => hs (by rw [← hd.scope T]; exact hz)) ?_
    intro v hzv hv
    have := ((L.ok z v hzv).block_above T).1
    rw [hv.scope T] at this
    exact hs (D.anc this hz)
  have hvar : ∀ b v, (b, v) ∈ sem.annexB → ¬ Declares sem s v → ren'.lookup v = ren.lookup v := by
    intro b v hbv hv
    exact U.other v hv (fun w hw => absurd hw (L.apart b v hbv w))
  have i3' : ∀ b v, (b, v) ∈ sem.annexB → ren'.lookup b = ren'.lookup v := by
    intro b v hbv
    by_cases hv : Declares sem s v
    · have hvl : sem.annexB.lookup v = none := lookup_none_iff.2 (L.apart b v hbv)
      by_cases hp : Pinned sem refs v
      · rw [U.kept b v hv hp hbv, U.pinned v hv hvl hp]
      · obtain ⟨n, e1, _, _, _, _, _, e2⟩ := U.fresh v hv hvl hp
        rw [e1, (e2 b hbv).1]
    · rw [hvar b v hbv hv]
      by_cases hb : Declares sem s b
      · exact U.block b v hb hbv
      · rw [U.other b hb (fun v' hv' => ?_)]
        · exact I.i3 b v hbv
        · have := hlink b v' hv'
          rw [hlink b v hbv] at this; cases this
          exact hv
  have i2' : ∀ x, Pinned sem refs x → ren'.lookup x = none := by
    intro x hx
    cases hl : sem.annexB.lookup x with
    | some v =>
      have hxv := mem_of_lookup hl
      have hpv := (L.ok x v hxv).pinned hx
      rw [i3' x v hxv]
      by_cases hv : Declares sem s v
      · exact U.pinned v hv (lookup_none_iff.2 (L.apart x v hxv)) hpv
      · rw [hvar x v hxv hv]; exact I.i2 v hpv
    | none =>
      by_cases hd : Declares sem s x
      · exact U.pinned x hd hl hx
      · rw [U.other x hd (fun v hv => absurd hv (lookup_none_iff.1 hl v))]
        exact I.i2 x hx
  have hfree : ∀ y, Free sem refs s y → sem.declScope y ∈ done := fun y hy => hanc _ hy.2.1 (fun e => hy.1 e.symm)
  -- the declared `var` of a block function of `s` is in a finished scope
  have hV : ∀ b v, (b, v) ∈ sem.annexB → Declares sem s b → sem.declScope v ∈ done := by
    intro b v hbv hb
    have := (L.ok b v hbv).block_above T
    rw [hb.scope T] at this
    exact hanc _ this.1 (fun e => this.2 (by rw [e]; exact .refl))
  -- block functions against free variables
  have hb4 : PinsAreSafe sem refs → ∀ b v y, (b, v) ∈ sem.annexB → Declares sem s b → Free sem refs s y →
      newName sem ren' b ≠ newName sem ren' y := by
    intro P b v y hbv hb hy
    have hLO := L.ok b v hbv
    have hyb : Free sem refs (sem.declScope b) y := by rw [hb.scope T]; exact hy
    have hvd := hV b v hbv hb
    have hyd := hfree y hy
    have hne : sem.symName b ≠ sem.symName y := hy.name_ne T B hb
    have hdy := hy.declares T B
    rw [newName_congr (hold y hyd)]
    have hbn : newName sem ren' b = (ren.lookup v).getD (sem.symName b) := by
      rw [newName, U.block b v hb hbv]
    rw [hbn]
    rcases hLO.target with ⟨hv, hvn⟩ | ⟨h1, h2⟩
    · have hvn' : (ren.lookup v).getD (sem.symName b) = newName sem ren v := by rw [newName, hvn]
      rw [hvn']
      rcases hLO.free T B hyb with h1 | h1
      · refine I.i6 _ hvd v y hv (by rw [← h1]; exact hdy) ?_
        rintro rfl
        exact hne hvn.symm
      · cases hl : ren.lookup v with
        | some n =>
          rw [newName_some hl]
          exact fun e => (I.i3b b v n hbv hl).2.2 y hyb (fun e => h1.1 e.symm) e.symm
        | none =>
          rw [newName_none hl]
          have hvt : Anc sem sem.top (sem.declScope v) := D.tree _ hvd
          have hstay : ren.lookup y = none := by
            by_cases hov : Observable sem (sem.declScope v)
            · exact I.stays T B hvt hov h1 hyd
            · have hpv : Pinned sem refs v := by
                apply Classical.byContradiction
                intro hc
                exact I.i7 _ hvd hov v hv (lookup_none_iff.2 (L.apart b v hbv)) hc hl
              rcases P _ v y hvt hv hpv h1 with h3 | h3
              · exact I.i2 y h3
              · exact I.i1 _ hyd h3 y hdy
          rw [newName_none hstay, hvn]
          exact hne
    · exfalso
      have htop : Anc sem sem.top (sem.declScope y) := D.tree _ hyd
      by_cases h3 : sem.declScope y = sem.top
      · rw [h3] at hdy; exact h2 y hdy
      · exact hLO.between _ y (by rw [h1]; exact htop) hyb.2.1 (by rw [h1]; exact h3)
          (fun e => hyb.1 e.symm) hdy
  refine { i0 := ?_, i1 := ?_, i2 := i2', i3 := i3', i3b := ?_, i4 := ?_, i5 := ?_, i6 := ?_, i7 := ?_, i8 := ?_ }
  · intro x n hx
    by_cases hd : Declares sem s x
    · exact .inl ⟨by rw [hd.scope T]; exact hd, by rw [hd.scope T]; exact List.mem_cons_self⟩
    · by_cases hv : ∃ v, (x, v) ∈ sem.annexB ∧ Declares sem s v
      · obtain ⟨v, h1, h2⟩ := hv
        exact .inr ⟨v, h1, by rw [h2.scope T]; exact h2, by rw [h2.scope T]; exact List.mem_cons_self⟩
      · rw [U.other x hd (fun v h1 h2 => hv ⟨v, h1, h2⟩)] at hx
        rcases I.i0 x n hx with ⟨h1, h2⟩ | ⟨v, h1, h2, h3⟩
        · exact .inl ⟨h1, List.mem_cons_of_mem _ h2⟩
        · exact .inr ⟨v, h1, h2, List.mem_cons_of_mem _ h3⟩
  · intro t htm hot x hx
    rcases List.mem_cons.1 htm with rfl | htm'
    · exact absurd hot ho
    · rw [hold x (by rw [hx.scope T]; exact htm')]
      exact I.i1 t htm' hot x hx
  · intro b v n hbv hn
    by_cases hv : Declares sem s v
    · have hvl : sem.annexB.lookup v = none := lookup_none_iff.2 (L.apart b v hbv)
      by_cases hp : Pinned sem refs v
      · rw [U.pinned v hv hvl hp] at hn; cases hn
      · obtain ⟨m, e1, _, _, _, _, _, e2⟩ := U.fresh v hv hvl hp
        rw [e1] at hn; cases hn
        obtain ⟨_, f2, f3, f4⟩ := e2 b hbv
        exact ⟨f2, f3, fun y hy hne => f4 y hy (by rw [← hv.scope T]; exact hne)⟩
    · rw [hvar b v hbv hv] at hn
      obtain ⟨f2, f3, f4⟩ := I.i3b b v n hbv hn
      refine ⟨f2, f3, ?_⟩
      intro y hy hne
      have hvd : sem.declScope v ∈ done := by
        rcases I.i0 v n hn with ⟨_, h2⟩ | ⟨w, h1, _⟩
        · exact h2
        · exact absurd h1 (L.apart b v hbv w)
      have hyd : sem.declScope y ∈ done := by
        rcases (L.ok b v hbv).free T B hy with h1 | h1
        · exact absurd h1 hne
        · exact D.anc h1.2.1 hvd
      rw [newName_congr (hold y hyd)]
      exact f4 y hy hne
  · intro P t htm x y hx hy
    rcases List.mem_cons.1 htm with rfl | htm'
    · have hyd := hfree y hy
      cases hl : sem.annexB.lookup x with
      | some v => exact hb4 P x v y (mem_of_lookup hl) hx hy
      | none =>
        by_cases hp : Pinned sem refs x
        · rw [newName_none (U.pinned x hx hl hp)]
          have hstay : ren'.lookup y = none := by
            rcases P t x y ht hx hp hy with h3 | h3
            · exact i2' y h3
            · rw [hold y hyd]; exact I.i1 _ hyd h3 y (hy.declares T B)
          rw [newName_none hstay]
          exact hy.name_ne T B hx
        · obtain ⟨n, e1, _, _, e3, _⟩ := U.fresh x hx hl hp
          rw [newName_some e1, newName_congr (hold y hyd)]
          exact fun e => e3 y hy e.symm
    · have h1 : sem.declScope x ∈ done := by rw [hx.scope T]; exact htm'
      have h2 : sem.declScope y ∈ done := D.anc hy.2.1 htm'
      rw [newName_congr (hold x h1), newName_congr (hold y h2)]
      exact I.i4 P t htm' x y hx hy
  · intro t htm x n hx hn
    rcases List.mem_cons.1 htm with rfl | htm'
    · cases hl : sem.annexB.lookup x with
      | some v =>
        have hxv := mem_of_lookup hl
        cases hv : ren.lookup v with
        | some m =>
          rw [newName_some ((U.block x v hx hxv).trans hv)]
          rintro rfl
          exact (I.i3b x v m hxv hv).1 (by rw [hx.scope T]; exact hn)
        | none =>
          rw [newName_none ((U.block x v hx hxv).trans hv)]
          exact unknown_ne T B hn hx
      | none =>
        by_cases hp : Pinned sem refs x
        · rw [newName_none (U.pinned x hx hl hp)]
          exact unknown_ne T B hn hx
        · obtain ⟨m, e1, _, e2, _⟩ := U.fresh x hx hl hp
          rw [newName_some e1]
          rintro rfl
          exact e2 hn
    · rw [newName_congr (hold x (by rw [hx.scope T]; exact htm'))]
      exact I.i5 t htm' x n hx hn
  · intro t htm x y hx hy hne
    rcases List.mem_cons.1 htm with rfl | htm'
    · -- a block function and a symbol that is not one
      have hbo : ∀ b v z, (b, v) ∈ sem.annexB → Declares sem t b → Declares sem t z →
          sem.annexB.lookup z = none → newName sem ren' b ≠ newName sem ren' z := by
        intro b v z hbv hb hz hzl
        by_cases hp : Pinned sem refs z
        · rw [newName_none (U.pinned z hz hzl hp)]
          cases hv : ren.lookup v with
          | some m =>
            rw [newName_some ((U.block b v hb hbv).trans hv)]
            exact fun e => (I.i3b b v m hbv hv).2.1 z (by rw [hb.scope T]; exact hz) hp e.symm
          | none =>
            rw [newName_none ((U.block b v hb hbv).trans hv)]
            intro e
            have := Declares.inj T hb hz e
            subst this
            rw [hlink b v hbv] at hzl; cases hzl
        · obtain ⟨m, e1, _, _, _, _, e5, _⟩ := U.fresh z hz hzl hp
          rw [newName_some e1]
          exact e5 b v hb hbv
      cases hlx : sem.annexB.lookup x with
      | some v =>
        have hxv := mem_of_lookup hlx
        cases hly : sem.annexB.lookup y with
        | none => exact hbo x v y hxv hx hy hly
        | some w =>
          have hyw := mem_of_lookup hly
          have hLx := L.ok x v hxv
          have hLy := L.ok y w hyw
          have hax := hLx.block_above T
          have hay := hLy.block_above T
          rw [hx.scope T] at hax
          rw [hy.scope T] at hay
          have hsc : sem.declScope v = sem.declScope w := by
            apply Classical.byContradiction
            intro hvw
            -- one `var` scope would lie strictly between the other and the block
            have aux : ∀ (x y v w : Sym), Declares sem t x → LinkOk sem refs x v → LinkOk sem refs y w →
                Anc sem (sem.declScope v) t → Anc sem (sem.declScope w) t →
                ¬ Anc sem t (sem.declScope w) →
                sem.declScope v ≠ sem.declScope w → Anc sem (sem.declScope v) (sem.declScope w) → False := by
              intro x y v w hx hLx hLy hv hw hw' hvw hvw'
              rcases hLy.target with ⟨h1, _⟩ | ⟨h1, _⟩
              · refine hLx.between _ w hvw' (by rw [hx.scope T]; exact hw) (fun e => hvw e.symm) ?_ h1
                rw [hx.scope T]
                intro e; exact hw' (by rw [e]; exact .refl)
              · rw [h1] at hvw'
                exact hvw (by rw [Anc.top_top T hvw', h1])
            rcases hax.1.total hay.1 with h1 | h1
            · exact aux x y v w hx hLx hLy hax.1 hay.1 hay.2 hvw h1
            · exact aux y x w v hy hLy hLx hay.1 hax.1 hax.2 (fun e => hvw e.symm) h1
          have hnx : newName sem ren' x = (ren.lookup v).getD (sem.symName x) := by
            rw [newName, U.block x v hx hxv]
          have hny : newName sem ren' y = (ren.lookup w).getD (sem.symName y) := by
            rw [newName, U.block y w hy hyw]
          have hsn : sem.symName x ≠ sem.symName y := fun e => hne (Declares.inj T hx hy e)
          rw [hnx, hny]
          rcases hLx.target with ⟨h1, h2⟩ | ⟨h1, h2⟩
          · rcases hLy.target with ⟨h3, h4⟩ | ⟨h3, h4⟩
            · rw [← h2, ← h4]
              refine I.i6 _ (hV x v hxv hx) v w h1 (by rw [hsc]; exact h3) ?_
              rintro rfl
              exact hsn (by rw [← h2, ← h4])
            · exfalso; rw [hsc, h3] at h1; exact h4 v h1
          · have hnone : ∀ z, (sem.declScope z = sem.top) → (∀ u, (z, u) ∉ sem.annexB) → ren.lookup z = none := by
              intro z hz hu
              cases e : ren.lookup z with
              | none => rfl
              | some n =>
                rcases I.i0 z n e with ⟨h5, _⟩ | ⟨u, h5, _⟩
                · rw [hz] at h5; exact absurd h5 (h2 z)
                · exact absurd h5 (hu u)
            rw [hnone v h1 (L.apart x v hxv), hnone w (by rw [← hsc]; exact h1) (L.apart y w hyw)]
            exact hsn
      | none =>
        cases hly : sem.annexB.lookup y with
        | some w => exact fun e => hbo y w x (mem_of_lookup hly) hy hx hlx e.symm
        | none =>
          by_cases hpx : Pinned sem refs x
          · rw [newName_none (U.pinned x hx hlx hpx)]
            by_cases hpy : Pinned sem refs y
            · rw [newName_none (U.pinned y hy hly hpy)]
              exact fun e => hne (Declares.inj T hx hy e)
            · obtain ⟨n, e1, _, _, _, e4, _⟩ := U.fresh y hy hly hpy
              rw [newName_some e1]
              exact e4 x hx hpx
          · obtain ⟨n, e1, _, _, _, e4, _⟩ := U.fresh x hx hlx hpx
            by_cases hpy : Pinned sem refs y
            · rw [newName_some e1, newName_none (U.pinned y hy hly hpy)]
              exact fun e => e4 y hy hpy e.symm
            · obtain ⟨m, f1, _⟩ := U.fresh y hy hly hpy
              rw [newName_some e1, newName_some f1]
              intro e
              exact U.apart x y hx hy hlx hly hpx hpy hne (by rw [e1, f1, e])
    · rw [newName_congr (hold x (by rw [hx.scope T]; exact htm')), newName_congr (hold y (by rw [hy.scope T]; exact htm'))]
      exact I.i6 t htm' x y hx hy hne
  · intro t htm hot x hx hl hp
    rcases List.mem_cons.1 htm with rfl | htm'
    · obtain ⟨n, e1, _⟩ := U.fresh x hx hl hp
      rw [e1]; simp
    · rw [hold x (by rw [hx.scope T]; exact htm')]
      exact I.i7 t htm' hot x hx hl hp
  · have hd8 : ∀ x n, Declares sem s x → sem.annexB.lookup x = none → ren'.lookup x = some n →
        IdentName n ∧ n ∉ reservedNames := by
      intro x n hx hl hn
      by_cases hp : Pinned sem refs x
      · rw [U.pinned x hx hl hp] at hn; cases hn
      · obtain ⟨m, e1, e2, _⟩ := U.fresh x hx hl hp
        rw [e1] at hn; cases hn; exact e2
    intro x n hn
    cases hl : sem.annexB.lookup x with
    | some v =>
      have hxv := mem_of_lookup hl
      rw [i3' x v hxv] at hn
      by_cases hv : Declares sem s v
      · exact hd8 v n hv (lookup_none_iff.2 (L.apart x v hxv)) hn
      · rw [hvar x v hxv hv] at hn
        exact I.i8 v n hn
    | none =>
      by_cases hd : Declares sem s x
      · exact hd8 x n hd hl hn
      · rw [U.other x hd (fun v hv => absurd hv (lookup_none_iff.1 hl v))] at hn
        exact I.i8 x n hn

theorem inv_nil : Inv sem h refs [] [] where
  i0 := by simp
  i1 := by simp
  i2 := by simp
  i3 := by simp
  i3b := by simp
  i4 := by simp
  i5 := by simp
  i6 := by simp
  i7 := by simp
  i8 := by simp

theorem fold_inv (T : Tables sem h) (B : Bound sem refs) (L : Links sem refs) :
    ∀ (l done : List Nat) (ren ren' : Renames), Ordered sem done l → (∀ t ∈ l, Anc sem sem.top t) →
      Done sem done → Inv sem h refs done ren → l.foldlM (mkCtx sem h refs).assignOne ren = some ren' →
      ∃ done', (∀ t, t ∈ done' ↔ t ∈ l ∨ t ∈ done) ∧ Inv sem h refs done' ren' := by
  intro l
  induction l with
  | nil =>
    intro done ren ren' _ _ _ I hf
    simp only [List.foldlM_nil, Option.pure_def, Option.some.injEq] at hf
    subst hf
    exact ⟨done, by simp, I⟩
  | cons s l ih =>
    intro done ren ren' hord htree D I hf
    simp only [List.foldlM_cons, Option.bind_eq_bind, Option.bind_eq_some_iff] at hf
    obtain ⟨ren1, h1, h2⟩ := hf
    have ht := htree s List.mem_cons_self
    have hanc : ∀ a, Anc sem a s → a ≠ s → a ∈ done := by
      intro a ha hne
      rcases ha.cases_up with rfl | ⟨p, hp', h'⟩
      · exact absurd rfl hne
      · exact D.anc h' (hord.2.1 p hp')
    have D1 : Done sem (s :: done) := by
      constructor
      · intro t htm
        rcases List.mem_cons.1 htm with rfl | htm'
        · exact ht
        · exact D.tree t htm'
      · intro t htm p hp
        rcases List.mem_cons.1 htm with rfl | htm'
        · exact List.mem_cons_of_mem _ (hord.2.1 p hp)
        · exact List.mem_cons_of_mem _ (D.closed t htm' p hp)
    have I1 : Inv sem h refs (s :: done) ren1 := by
      by_cases ho : Observable sem s
      · have hd := (disabled_iff (refs := refs) T ht).2 ho
        simp only [Ctx.assignOne, hd, if_true, Option.some.injEq] at h1
        subst h1
        exact step_disabled T B L D I hord.1 hord.2.1 ht ho
      · exact step_enabled T B L D I hord.1 ht hanc ho (turn_of T B L I hord.1 ht hanc ho h1)
    obtain ⟨done', h3, h4⟩ := ih (s :: done) ren1 ren' hord.2.2
      (fun t htm => htree t (List.mem_cons_of_mem _ htm)) D1 I1 h2
    refine ⟨done', ?_, h4⟩
    intro t
    rw [h3, List.mem_cons, List.mem_cons]
    constructor
    · rintro (h | h | h)
      · exact .inl (.inr h)
      · exact .inl (.inl h)
      · exact .inr h
    · rintro ((h | h) | h)
      · exact .inr (.inl h)
      · exact .inl h
      · exact .inr (.inr h)

theorem assign_inv (T : Tables sem h) (B : Bound sem refs) (L : Links sem refs)
    (ha : assignNames sem h refs = some ren) :
    ∃ done, (∀ t, t ∈ done ↔ Anc sem sem.top t) ∧ Inv sem h refs done ren := by
  simp only [assignNames, assignScope_eq] at ha
  have hsem : (mkCtx sem h refs).sem = sem := rfl
  rw [hsem] at ha
  obtain ⟨d, h1, h2⟩ := T.depth
  have hord : Ordered sem [] (preorder sem h sem.top) :=
    ordered_preorder T h sem.top [] (nodup_preorder T d h1 h2 h sem.top (by omega)) (by simp)
      (fun p hp => by rw [T.top] at hp; cases hp)
  obtain ⟨done, h3, h4⟩ := fold_inv T B L _ [] [] ren hord (fun t ht => (mem_visited T t).1 ht)
    ⟨by simp, by simp⟩ inv_nil ha
  exact ⟨done, fun t => by rw [h3, mem_visited T]; simp, h4⟩

theorem assign_total (sem : Sem) (h : Nat) (refs : List Ref) : ∃ ren, assignNames sem h refs = some ren := by
  simp only [assignNames, assignScope_eq]
  generalize preorder (mkCtx sem h refs).sem h sem.top = l
  have : ∀ (l : List Nat) (ren : Renames), ∃ ren', l.foldlM (mkCtx sem h refs).assignOne ren = some ren' := by
    intro l
    induction l with
    | nil => intro ren; exact ⟨ren, rfl⟩
    | cons s l ih =>
      intro ren
      have : ∃ ren1, (mkCtx sem h refs).assignOne ren s = some ren1 := by
        unfold Ctx.assignOne
        split
        · exact ⟨_, rfl⟩
        · dsimp only
          obtain ⟨st, hst⟩ := symLoop_total (mkCtx sem h refs) ((mkCtx sem h refs).disallowed ren s)
            ((mkCtx sem h refs).ud.order s)
            ⟨0, ((List.foldl (mkCtx sem h refs).linkStep ((mkCtx sem h refs).fixedNames s, ren)
              ((mkCtx sem h refs).ud.order s))).1, ((List.foldl (mkCtx sem h refs).linkStep
              ((mkCtx sem h refs).fixedNames s, ren) ((mkCtx sem h refs).ud.order s))).2⟩
          rw [hst]; exact ⟨_, rfl⟩
      obtain ⟨ren1, h1⟩ := this
      obtain ⟨ren2, h2⟩ := ih ren1
      exact ⟨ren2, by simp only [List.foldlM_cons, h1, Option.bind_eq_bind, Option.bind_some, h2]⟩
  exact this l []

end Verif.Rename
