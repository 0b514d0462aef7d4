import Verif.Rename.Invariant
/-!
# The turn of a scope whose names may change
-/

namespace Verif.Rename

open Verif.Names

variable {sem : Sem} {h : Nat} {refs : List Ref} {done : List Nat} {ren ren' : Renames} {s : Nat}

/-- The renames after the turn of `s`. -/
structure Turn (sem : Sem) (h : Nat) (refs : List Ref) (s : Nat) (ren ren' : Renames) : Prop where
  other : ∀ z, ¬ Declares sem s z → (∀ v, (z, v) ∈ sem.annexB → ¬ Declares sem s v) →
    ren'.lookup z = ren.lookup z
  block : ∀ x v, Declares sem s x → (x, v) ∈ sem.annexB → ren'.lookup x = ren.lookup v
  pinned : ∀ x, Declares sem s x → sem.annexB.lookup x = none → Pinned sem refs x → ren'.lookup x = none
  fresh : ∀ x, Declares sem s x → sem.annexB.lookup x = none → ¬ Pinned sem refs x → ∃ n,
    ren'.lookup x = some n ∧ (IdentName n ∧ n ∉ reservedNames) ∧
    n ∉ ((mkCtx sem h refs).ud.usages s).unknown ∧
    (∀ y, Free sem refs s y → newName sem ren y ≠ n) ∧
    (∀ p, Declares sem s p → Pinned sem refs p → sem.symName p ≠ n) ∧
    (∀ b v, Declares sem s b → (b, v) ∈ sem.annexB → newName sem ren' b ≠ n) ∧
    ∀ b, (b, x) ∈ sem.annexB → ren'.lookup b = some n ∧
      n ∉ ((mkCtx sem h refs).ud.usages (sem.declScope b)).unknown ∧
      (∀ p, Declares sem (sem.declScope b) p → Pinned sem refs p → sem.symName p ≠ n) ∧
      ∀ y, Free sem refs (sem.declScope b) y → sem.declScope y ≠ s → newName sem ren' y ≠ n
  kept : ∀ b v, Declares sem s v → Pinned sem refs v → (b, v) ∈ sem.annexB → ren'.lookup b = none
  apart : ∀ x y, Declares sem s x → Declares sem s y → sem.annexB.lookup x = none →
    sem.annexB.lookup y = none → ¬ Pinned sem refs x → ¬ Pinned sem refs y → x ≠ y →
    ren'.lookup x ≠ ren'.lookup y

theorem LinkOk.block_above (T : Tables sem h) {b v : Sym} (LO : LinkOk sem refs b v) :
    Anc sem (sem.declScope v) (sem.declScope b) ∧ ¬ Anc sem (sem.declScope b) (sem.declScope v) := by
  obtain ⟨p, hp, hv⟩ := LO.above
  refine ⟨.up hp hv, fun hc => ?_⟩
  exact Anc.parent_ne T hp (hc.trans hv)

theorem turn_of (T : Tables sem h) (B : Bound sem refs) (L : Links sem refs)
    (I : Inv sem h refs done ren) (hs : s ∉ done) (ht : Anc sem sem.top s)
    (hanc : ∀ a, Anc sem a s → a ≠ s → a ∈ done)
    (ho : ¬ Observable sem s) (ha : (mkCtx sem h refs).assignOne ren s = some ren') :
    Turn sem h refs s ren ren' := by
  generalize hc : mkCtx sem h refs = c at ha
  have hsem : c.sem = sem := by rw [← hc]; rfl
  have hdis : c.disabled.contains s = false := by
    cases e : c.disabled.contains s with
    | false => rfl
    | true => rw [← hc] at e; exact absurd ((disabled_iff T ht).1 e) ho
  simp only [Ctx.assignOne, hdis, Bool.false_eq_true, if_false, Option.map_eq_some_iff] at ha
  obtain ⟨st', hloop, rfl⟩ := ha
  have hmem : ∀ x, x ∈ c.ud.order s ↔ Declares sem s x := fun x => by rw [← hc]; exact mem_order T ht x
  obtain ⟨l1, l2, l3⟩ := linkFold c (by rw [hsem]; exact L.apart) (c.ud.order s) (c.fixedNames s, ren)
  generalize (c.ud.order s).foldl c.linkStep (c.fixedNames s, ren) = st1 at hloop l1 l2 l3
  obtain ⟨s1, s2, s3, s4⟩ := symLoop c (c.disallowed ren s) (by rw [hsem]; exact L.map) (c.ud.order s) _ _
    (by rw [← hc]; exact nodup_order T ht) hloop
  rw [hsem] at l2 l3 s3
  simp only [] at l1 l2 l3 s1 s2 s3
  -- who gets a generated name
  have htodo : ∀ x, Declares sem s x → (Todo c x ↔ sem.annexB.lookup x = none ∧ ¬ Pinned sem refs x) := by
    intro x hx
    have hf : c.fixed x = false ↔ ¬ Pinned sem refs x := by
      rw [← fixed_iff T B x, hc]; simp
    constructor
    · rintro ⟨h1, h2, h3, h4⟩
      exact ⟨by rw [← hsem]; exact h1, hf.1 h3⟩
    · rintro ⟨h1, h2⟩
      refine ⟨by rw [hsem]; exact h1, ?_, hf.2 h2, ?_⟩
      · rw [← hc, symbolNames_some T ht hx]; rfl
      · intro b hb
        have hb' := mem_blocksOf.1 hb
        rw [hsem] at hb'
        have LO := L.ok b x hb'
        have hba : Anc sem sem.top (sem.declScope b) := by
          refine ht.trans ?_
          have := (LO.block_above T).1
          rwa [hx.scope T] at this
        cases e : c.disabled.contains (c.sem.declScope b) with
        | false => rfl
        | true =>
          rw [hsem, ← hc, disabled_iff T hba] at e
          have := LO.observable e
          rw [hx.scope T] at this
          exact absurd this ho
  have hlink : ∀ x v, (x, v) ∈ sem.annexB → sem.annexB.lookup x = some v := fun x v => lookup_of_mem L.map
  -- a block function and its `var` are never in one scope
  have hsep : ∀ x v, (x, v) ∈ sem.annexB → Declares sem s x → ¬ Declares sem s v := by
    intro x v hxv hx hv
    have := (L.ok x v hxv).block_above T
    rw [hx.scope T, hv.scope T] at this
    exact this.2 .refl
  have hblocks : ∀ z, (∀ v, (z, v) ∈ sem.annexB → ¬ Declares sem s v) →
      ∀ v ∈ c.ud.order s, Todo c v → z ∉ c.blocksOf v := by
    intro z hz v hv _ hm
    have := mem_blocksOf.1 hm
    rw [hsem] at this
    exact hz v this ((hmem v).1 hv)
  have hother : ∀ z, ¬ Declares sem s z → (∀ v, (z, v) ∈ sem.annexB → ¬ Declares sem s v) →
      st1.2.lookup z = ren.lookup z ∧ st'.ren.lookup z = ren.lookup z := by
    intro z hz hv
    have h1 := l2 z (fun rep hm => absurd ((hmem z).1 hm) hz)
    refine ⟨h1, ?_⟩
    rw [s2 z (fun hm => hz ((hmem z).1 hm.1)) (hblocks z hv)]
    exact h1
  have hblock : ∀ x v, Declares sem s x → (x, v) ∈ sem.annexB → st'.ren.lookup x = ren.lookup v := by
    intro x v hx hxv
    have hl := hlink x v hxv
    rw [s2 x]
    · cases hv : ren.lookup v with
      | some n => exact (l3 x ((hmem x).2 hx) v hl).1 n hv
      | none =>
        rw [l2 x (fun rep _ hr => by rw [hl] at hr; cases hr; exact hv), I.i3 x v hxv, hv]
    · rintro ⟨_, htx⟩
      have := ((htodo x hx).1 htx).1
      rw [hl] at this; cases this
    · apply hblocks
      intro v' hv'
      have := hlink x v' hv'
      rw [hl] at this; cases this
      exact hsep x v hxv hx
  have hpin : ∀ x, Declares sem s x → sem.annexB.lookup x = none → Pinned sem refs x →
      st'.ren.lookup x = none := by
    intro x hx hl hp
    have hno : ∀ v, (x, v) ∉ sem.annexB := lookup_none_iff.1 hl
    rw [s2 x (fun hm => ((htodo x hx).1 hm.2).2 hp) (hblocks x (fun v hv => absurd hv (hno v)))]
    rw [l2 x (fun rep _ hr => by rw [hl] at hr; cases hr)]
    cases e : ren.lookup x with
    | none => rfl
    | some n =>
      rcases I.i0 x n e with ⟨_, h2⟩ | ⟨v, h2, _⟩
      · rw [hx.scope T] at h2; exact absurd h2 hs
      · exact absurd h2 (hno v)
  -- the block functions' names are in use from the start
  have hbname : ∀ b v, Declares sem s b → (b, v) ∈ sem.annexB → newName sem st'.ren b ∈ st1.1 := by
    intro b v hb hbv
    have hl := hlink b v hbv
    refine (l3 b ((hmem b).2 hb) v hl).2 _ ?_
    have hLO := L.ok b v hbv
    have hsb : c.ud.symbolNames b = some (sem.symName b) := by rw [← hc]; exact symbolNames_some T ht hb
    cases hv : ren.lookup v with
    | some n => rw [newName_some ((hblock b v hb hbv).trans hv)]; rfl
    | none =>
      rw [newName_none ((hblock b v hb hbv).trans hv)]
      simp only [Option.none_or]
      cases e : c.ud.symbolNames v with
      | none => simpa using hsb
      | some m =>
        simp only [Option.some_or, Option.some.injEq]
        rw [← hc] at e
        obtain ⟨h1, h2⟩ := symbolNames_declares T e
        rcases hLO.target with ⟨_, h3⟩ | ⟨h3, h4⟩
        · rw [h1, h3]
        · rw [h3] at h2; exact absurd h2 (h4 v)
  refine { other := fun z h1 h2 => (hother z h1 h2).2, block := hblock, pinned := hpin, fresh := ?_, kept := ?_, apart := ?_ }
  · intro x hx hl hp
    obtain ⟨n, e1, e0, e2, e3, e4, e5⟩ := s3 x ((hmem x).2 hx) ((htodo x hx).2 ⟨hl, hp⟩)
    simp only [Ctx.disallowed, List.mem_append, not_or] at e4
    refine ⟨n, e1, ⟨e0, e4.1.1⟩, by rw [hc]; exact e4.2, ?_, ?_, ?_, ?_⟩
    · intro y hy he
      apply e4.1.2
      refine List.mem_filterMap.2 ⟨y, by rw [← hc]; exact (mem_foreign T B s y).2 hy, ?_⟩
      have hdy := hy.declares T B
      have hty : Anc sem sem.top (sem.declScope y) := by
        rcases ht.total hy.2.1 with h1 | h1
        · exact h1
        · rw [Anc.top_top T h1]; exact .refl
      have : c.ud.symbolNames y = some (sem.symName y) := by rw [← hc]; exact symbolNames_some T hty hdy
      rw [this, ← he, newName]
      cases ren.lookup y <;> rfl
    · intro p hpd hpp he
      apply e3
      apply l1
      rw [← he, ← hc]
      exact mem_fixedNames T B ht hpd hpp
    · intro b v hb hbv he
      exact e3 (he ▸ hbname b v hb hbv)
    · intro b hbx
      have hLO := L.ok b x hbx
      have hab := hLO.block_above T
      have htb : Anc sem sem.top (sem.declScope b) := ht.trans (by rw [← hx.scope T]; exact hab.1)
      obtain ⟨f1, f2, f3, f4⟩ := e5 b (mem_blocksOf.2 (by rw [hsem]; exact hbx))
      refine ⟨f1, by rw [hc]; exact f2, ?_, ?_⟩
      · intro p hpd hpp he
        apply f3
        rw [← he, ← hc]
        exact mem_fixedNames T B htb hpd hpp
      · intro y hy hys he
        have hyd : ¬ Declares sem s y := fun hd => hys (hd.scope T)
        have hyv : ∀ v, (y, v) ∈ sem.annexB → ¬ Declares sem s v := by
          intro v hyv hv
          -- `y` would lie strictly between
          have h1 := (L.ok y v hyv).block_above T
          rcases hLO.free T B hy with h2 | h2
          · rw [hx.scope T] at h2; exact hys h2
          · have h3 := h2.2.1
            rw [hx.scope T] at h3
            rw [hv.scope T] at h1
            exact h1.2 h3
        obtain ⟨g1, g2⟩ := hother y hyd hyv
        refine f4 y (by rw [← hc]; exact (mem_foreign T B _ y).2 hy) (fun hm => hyd ((hmem y).1 hm)) ?_ ?_
        · intro v hv hm
          have := mem_blocksOf.1 hm
          rw [hsem] at this
          exact hyv v this ((hmem v).1 hv)
        · have hdy := hy.declares T B
          have hty : Anc sem sem.top (sem.declScope y) := by
            rcases htb.total hy.2.1 with h1 | h1
            · exact h1
            · rw [Anc.top_top T h1]; exact .refl
          have : c.ud.symbolNames y = some (sem.symName y) := by rw [← hc]; exact symbolNames_some T hty hdy
          rw [this, ← he, newName, g1, g2]
          cases ren.lookup y <;> rfl
  · intro b v hv hp hbv
    have hvl : sem.annexB.lookup v = none := lookup_none_iff.2 (L.apart b v hbv)
    have hbd : ¬ Declares sem s b := fun hb => hsep b v hbv hb hv
    rw [s2 b (fun hm => hbd ((hmem b).1 hm.1))]
    · rw [l2 b (fun rep hm => absurd ((hmem b).1 hm) hbd), I.i3 b v hbv]
      exact I.i2 v hp
    · intro v' hv' htv hm
      have := mem_blocksOf.1 hm
      rw [hsem] at this
      have e1 := hlink b v' this
      rw [hlink b v hbv] at e1; cases e1
      exact ((htodo v hv).1 htv).2 hp
  · intro x y hx hy hlx hly hpx hpy hne
    exact s4 x ((hmem x).2 hx) y ((hmem y).2 hy) ((htodo x hx).2 ⟨hlx, hpx⟩) ((htodo y hy).2 ⟨hly, hpy⟩) hne

end Verif.Rename
