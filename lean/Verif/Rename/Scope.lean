import Verif.Rename.Tree
/-!
# What one scope's turn does
-/

namespace Verif.Rename

open Verif.Names

theorem mem_blocksOf {c : Ctx} {b v : Sym} : b ∈ c.blocksOf v ↔ (b, v) ∈ c.sem.annexB := by
  simp only [Ctx.blocksOf, List.mem_map, List.mem_filter, beq_iff_eq]
  constructor
  · rintro ⟨⟨x, y⟩, ⟨h1, h2⟩, h3⟩
    simp only at h2 h3
    subst h2; subst h3; exact h1
  · intro h; exact ⟨(b, v), ⟨h, rfl⟩, rfl⟩

theorem lookup_none_iff {α β : Type} [BEq α] [LawfulBEq α] {k : α} {l : List (α × β)} :
    l.lookup k = none ↔ ∀ w, (k, w) ∉ l := by
  induction l with
  | nil => simp
  | cons e l ih =>
    obtain ⟨a, b⟩ := e
    simp only [List.lookup_cons]
    by_cases hk : k = a
    · subst hk; simp only [beq_self_eq_true, reduceCtorEq, false_iff]
      exact fun hc => hc b List.mem_cons_self
    · rw [show (k == a) = false by simpa using hk]
      simp only [ih, List.mem_cons, Prod.mk.injEq, hk, false_and, false_or]

theorem mem_of_lookup {α β : Type} [BEq α] [LawfulBEq α] {k : α} {v : β} {l : List (α × β)}
    (h : l.lookup k = some v) : (k, v) ∈ l := by
  induction l with
  | nil => cases h
  | cons e l ih =>
    obtain ⟨a, b⟩ := e
    simp only [List.lookup_cons] at h
    by_cases hk : k = a
    · subst hk; simp only [beq_self_eq_true, Option.some.injEq] at h; subst h; exact List.mem_cons_self
    · rw [show (k == a) = false by simpa using hk] at h
      exact List.mem_cons_of_mem _ (ih h)

theorem lookup_of_mem {α β : Type} [BEq α] [LawfulBEq α] {k : α} {v : β} {l : List (α × β)}
    (hn : (l.map Prod.fst).Nodup) (h : (k, v) ∈ l) : l.lookup k = some v := by
  cases e : l.lookup k with
  | none => exact absurd h (lookup_none_iff.1 e v)
  | some w => rw [nodup_key hn (mem_of_lookup e) h]

theorem lookup_map_append (n : Name) (ren : Renames) (z : Sym) : ∀ bs : List Sym,
    (bs.map (fun b => (b, n)) ++ ren).lookup z = if z ∈ bs then some n else ren.lookup z := by
  intro bs
  induction bs with
  | nil => simp
  | cons b bs ih =>
    simp only [List.map_cons, List.cons_append, List.lookup_cons, List.mem_cons, ih]
    by_cases hz : z = b
    · subst hz; simp
    · rw [show (z == b) = false by simpa using hz]; simp [hz]

/-! ## The block functions of the scope -/

theorem linkFold (c : Ctx) (hap : ∀ b v, (b, v) ∈ c.sem.annexB → ∀ w, (v, w) ∉ c.sem.annexB) :
    ∀ (xs : List Sym) (st : List Name × Renames),
    (∀ n ∈ st.1, n ∈ (xs.foldl c.linkStep st).1) ∧
    (∀ z, (∀ rep, z ∈ xs → c.sem.annexB.lookup z = some rep → st.2.lookup rep = none) →
      (xs.foldl c.linkStep st).2.lookup z = st.2.lookup z) ∧
    (∀ x ∈ xs, ∀ rep, c.sem.annexB.lookup x = some rep →
      (∀ n, st.2.lookup rep = some n → (xs.foldl c.linkStep st).2.lookup x = some n) ∧
      ∀ n, ((st.2.lookup rep).or (c.ud.symbolNames rep)).or (c.ud.symbolNames x) = some n →
        n ∈ (xs.foldl c.linkStep st).1) := by
  intro xs
  induction xs with
  | nil => intro st; exact ⟨fun n hn => hn, fun z _ => rfl, fun x hx => by cases hx⟩
  | cons x xs ih =>
    intro st
    simp only [List.foldl_cons]
    cases hl : c.sem.annexB.lookup x with
    | none =>
      have hst : c.linkStep st x = st := by simp only [Ctx.linkStep, hl]
      rw [hst]
      obtain ⟨i1, i2, i3⟩ := ih st
      refine ⟨i1, ?_, ?_⟩
      · intro z hz
        exact i2 z (fun rep hzx => hz rep (List.mem_cons_of_mem _ hzx))
      · intro y hy rep hrep
        rcases List.mem_cons.1 hy with rfl | hy'
        · rw [hl] at hrep; cases hrep
        · exact i3 y hy' rep hrep
    | some rep0 =>
      have hm0 := mem_of_lookup hl
      obtain ⟨i1, i2, i3⟩ := ih (c.linkStep st x)
      have hused : ∀ n ∈ st.1, n ∈ (c.linkStep st x).1 := by
        intro n hn
        simp only [Ctx.linkStep, hl]
        split <;> (split <;> simp [hn])
      have hgroup : ∀ n, ((st.2.lookup rep0).or (c.ud.symbolNames rep0)).or (c.ud.symbolNames x) = some n →
          n ∈ (c.linkStep st x).1 := by
        intro n hn
        simp only [Ctx.linkStep, hl, hn]
        split <;> simp
      have hren : ∀ z, z ≠ x → (c.linkStep st x).2.lookup z = st.2.lookup z := by
        intro z hz
        simp only [Ctx.linkStep, hl]
        split
        · simp only [List.lookup_cons]; rw [show (z == x) = false by simpa using hz]
        · rfl
      have hrenx : (c.linkStep st x).2.lookup x = (st.2.lookup rep0).or (st.2.lookup x) := by
        simp only [Ctx.linkStep, hl]
        split
        · rename_i n hn; rw [hn]; simp [List.lookup_cons]
        · rename_i hn; rw [hn]; simp
      -- a representative is never a block function
      have hrep : ∀ y rep, c.sem.annexB.lookup y = some rep → (c.linkStep st x).2.lookup rep = st.2.lookup rep := by
        intro y rep hy
        apply hren
        rintro rfl
        exact hap _ _ (mem_of_lookup hy) _ hm0
      refine ⟨fun n hn => i1 n (hused n hn), ?_, ?_⟩
      · intro z hz
        rw [i2 z]
        · by_cases hzx : z = x
          · subst hzx; rw [hrenx, hz rep0 List.mem_cons_self hl]; rfl
          · exact hren z hzx
        · intro rep hzx hlz
          rw [hrep z rep hlz]
          exact hz rep (List.mem_cons_of_mem _ hzx) hlz
      · intro y hy rep hrepy
        by_cases hyx : y ∈ xs
        · have := i3 y hyx rep hrepy
          rw [hrep y rep hrepy] at this
          exact this
        · rcases List.mem_cons.1 hy with rfl | hy'
          · rw [hl] at hrepy; cases hrepy
            constructor
            · intro n hn
              rw [i2 y (fun _ hm => absurd hm hyx), hrenx, hn]; rfl
            · intro n hn; exact i1 n (hgroup n hn)
          · exact absurd hy' hyx

/-! ## The other symbols of the scope -/

/-- The symbol gets a generated name. -/
def Todo (c : Ctx) (x : Sym) : Prop :=
  c.sem.annexB.lookup x = none ∧ (c.ud.symbolNames x).isSome = true ∧ c.fixed x = false ∧
    ∀ b ∈ c.blocksOf x, c.disabled.contains (c.sem.declScope b) = false

theorem fresh_spec {u : List Name} {k : Nat} {p : Name × Nat} (h : freshName u k = some p) : p.1 ∉ u := by
  obtain ⟨n, k'⟩ := p
  obtain ⟨_, _, _, _, h3, _⟩ := nextName_some _ _ _ _ _ h
  simpa using h3

theorem fresh_ident {u : List Name} {k : Nat} {p : Name × Nat} (h : freshName u k = some p) : IdentName p.1 := by
  obtain ⟨n, k'⟩ := p
  obtain ⟨_, _, _, h2, _⟩ := nextName_some _ _ _ _ _ h
  simp only at h2 ⊢
  rw [h2]; exact encode_ident _

theorem fresh_total (u : List Name) (k : Nat) : ∃ p, freshName u k = some p := by
  obtain ⟨n, k', h⟩ := nextName_total u (u.length + 1) k (by omega)
  exact ⟨_, h⟩

theorem symStep_total (c : Ctx) (D : List Name) (st : LoopState) (x : Sym) :
    ∃ st', c.symStep D st x = some st' := by
  unfold Ctx.symStep
  split
  · exact ⟨_, rfl⟩
  · split
    · exact ⟨_, rfl⟩
    · dsimp only
      split
      · split
        · exact ⟨_, rfl⟩
        · obtain ⟨p, hp⟩ := fresh_total (D ++ st.used) st.counter
          rw [hp]; exact ⟨_, rfl⟩
      · split
        · exact ⟨_, rfl⟩
        · obtain ⟨p, hp⟩ := fresh_total (D ++ st.used ++ c.groupDisallowed st.ren (c.blocksOf x)) st.counter
          rw [hp]; exact ⟨_, rfl⟩

theorem symLoop_total (c : Ctx) (D : List Name) : ∀ (xs : List Sym) (st : LoopState),
    ∃ st', xs.foldlM (c.symStep D) st = some st' := by
  intro xs
  induction xs with
  | nil => intro st; exact ⟨_, rfl⟩
  | cons x xs ih =>
    intro st
    obtain ⟨st1, h1⟩ := symStep_total c D st x
    obtain ⟨st2, h2⟩ := ih st1
    exact ⟨st2, by simp only [List.foldlM_cons, h1, Option.bind_eq_bind, Option.bind_some, h2]⟩

/-- One turn. -/
theorem symStep_spec (c : Ctx) (D : List Name) (st st' : LoopState) (x : Sym)
    (h : c.symStep D st x = some st') :
    (∀ n ∈ st.used, n ∈ st'.used) ∧
    (¬ Todo c x → st'.ren = st.ren) ∧
    (Todo c x → ∃ n, IdentName n ∧ n ∈ st'.used ∧ n ∉ st.used ∧ n ∉ D ∧
      st'.ren = (c.blocksOf x).map (fun b => (b, n)) ++ (x, n) :: st.ren ∧
      ∀ b ∈ c.blocksOf x, n ∉ (c.ud.usages (c.sem.declScope b)).unknown ∧
        n ∉ c.fixedNames (c.sem.declScope b) ∧ n ∉ c.foreignNames st.ren (c.sem.declScope b)) := by
  unfold Ctx.symStep at h
  split at h
  · rename_i hl
    cases h
    refine ⟨fun n hn => hn, fun _ => rfl, fun ht => ?_⟩
    rw [ht.1] at hl; cases hl
  · rename_i hl
    split at h
    · rename_i hs
      cases h
      refine ⟨fun n hn => hn, fun _ => rfl, fun ht => ?_⟩
      have := ht.2.1; rw [hs] at this; cases this
    · rename_i name hs
      dsimp only at h
      split at h
      · rename_i hb
        have hb' : c.blocksOf x = [] := by simpa using hb
        split at h
        · rename_i hf
          cases h
          refine ⟨fun n hn => hn, fun _ => rfl, fun ht => ?_⟩
          rw [ht.2.2.1] at hf; cases hf
        · rename_i hf
          rw [Option.map_eq_some_iff] at h
          obtain ⟨p, hp, rfl⟩ := h
          have hfr := fresh_spec hp
          simp only [List.mem_append, not_or] at hfr
          refine ⟨fun n hn => List.mem_cons_of_mem _ hn, fun hn => ?_, fun _ => ?_⟩
          · exfalso; apply hn
            exact ⟨by cases e : c.sem.annexB.lookup x with | none => rfl | some w => exact absurd (by rw [e]; rfl) hl, by rw [hs]; rfl, by simpa using hf, by rw [hb']; simp⟩
          · refine ⟨p.1, fresh_ident hp, List.mem_cons_self, hfr.2, hfr.1, ?_, ?_⟩
            · rw [hb']; rfl
            · rw [hb']; simp
      · rename_i hb
        split at h
        · rename_i hf
          cases h
          refine ⟨fun n hn => List.mem_cons_of_mem _ hn, fun _ => rfl, fun ht => ?_⟩
          rw [ht.2.2.1, Bool.false_or, List.any_eq_true] at hf
          obtain ⟨b, hb1, hb2⟩ := hf
          rw [ht.2.2.2 b hb1] at hb2; cases hb2
        · rename_i hf
          rw [Option.map_eq_some_iff] at h
          obtain ⟨p, hp, rfl⟩ := h
          have hfr := fresh_spec hp
          simp only [List.mem_append, not_or] at hfr
          refine ⟨fun n hn => List.mem_cons_of_mem _ hn, fun hn => ?_, fun _ => ?_⟩
          · exfalso; apply hn
            simp only [Bool.or_eq_true, not_or, Bool.not_eq_true, List.any_eq_false] at hf
            exact ⟨by cases e : c.sem.annexB.lookup x with | none => rfl | some w => exact absurd (by rw [e]; rfl) hl, by rw [hs]; rfl, hf.1, fun b hb => by simpa using hf.2 b hb⟩
          · refine ⟨p.1, fresh_ident hp, List.mem_cons_self, hfr.1.2, hfr.1.1, rfl, ?_⟩
            intro b hb
            have h2 := hfr.2
            simp only [Ctx.groupDisallowed, List.mem_flatMap, not_exists, not_and] at h2
            have := h2 b hb
            simp only [List.mem_append, not_or] at this
            exact ⟨this.1.2, this.2, this.1.1.2⟩

theorem symLoop (c : Ctx) (D : List Name) (hmap : (c.sem.annexB.map Prod.fst).Nodup) :
    ∀ (xs : List Sym) (st st' : LoopState), xs.Nodup → xs.foldlM (c.symStep D) st = some st' →
    (∀ n ∈ st.used, n ∈ st'.used) ∧
    (∀ z, ¬ (z ∈ xs ∧ Todo c z) → (∀ v ∈ xs, Todo c v → z ∉ c.blocksOf v) →
      st'.ren.lookup z = st.ren.lookup z) ∧
    (∀ x ∈ xs, Todo c x → ∃ n, st'.ren.lookup x = some n ∧ IdentName n ∧ n ∈ st'.used ∧ n ∉ st.used ∧ n ∉ D ∧
      ∀ b ∈ c.blocksOf x, st'.ren.lookup b = some n ∧
        n ∉ (c.ud.usages (c.sem.declScope b)).unknown ∧ n ∉ c.fixedNames (c.sem.declScope b) ∧
        ∀ y ∈ (c.ud.usages (c.sem.declScope b)).foreign, y ∉ xs → (∀ v ∈ xs, y ∉ c.blocksOf v) →
          (st.ren.lookup y).or (c.ud.symbolNames y) ≠ some n) ∧
    (∀ x ∈ xs, ∀ y ∈ xs, Todo c x → Todo c y → x ≠ y → st'.ren.lookup x ≠ st'.ren.lookup y) := by
  intro xs
  induction xs with
  | nil =>
    intro st st' _ h
    simp only [List.foldlM_nil, Option.pure_def, Option.some.injEq] at h
    subst h
    exact ⟨fun n hn => hn, fun _ _ _ => rfl, fun x hx => absurd hx List.not_mem_nil, fun x hx => absurd hx List.not_mem_nil⟩
  | cons x xs ih =>
    intro st st' hn h
    simp only [List.nodup_cons] at hn
    simp only [List.foldlM_cons, Option.bind_eq_bind, Option.bind_eq_some_iff] at h
    obtain ⟨st1, h1, h2⟩ := h
    obtain ⟨s1, s2, s3⟩ := symStep_spec c D st st1 x h1
    obtain ⟨i1, i2, i3, i4⟩ := ih st1 st' hn.2 h2
    -- what the first turn leaves alone
    have hframe1 : ∀ z, ¬ (z = x ∧ Todo c z) → (Todo c x → z ∉ c.blocksOf x) →
        st1.ren.lookup z = st.ren.lookup z := by
      intro z hz hb
      by_cases ht : Todo c x
      · obtain ⟨n, _, _, _, _, e, _⟩ := s3 ht
        rw [e, lookup_map_append, if_neg (hb ht), List.lookup_cons]
        have : z ≠ x := fun e => hz ⟨e, e ▸ ht⟩
        rw [show (z == x) = false by simpa using this]
      · rw [s2 ht]
    -- what the first turn sets stays
    have hkeep : Todo c x → ∀ z, z = x ∨ z ∈ c.blocksOf x → st'.ren.lookup z = st1.ren.lookup z := by
      intro ht z hz
      apply i2
      · rintro ⟨hm, htz⟩
        rcases hz with rfl | hz
        · exact hn.1 hm
        · have := lookup_of_mem hmap (mem_blocksOf.1 hz)
          rw [htz.1] at this; cases this
      · intro v hv htv hzv
        rcases hz with rfl | hz
        · have := lookup_of_mem hmap (mem_blocksOf.1 hzv)
          rw [ht.1] at this; cases this
        · have e1 := lookup_of_mem hmap (mem_blocksOf.1 hz)
          have e2 := lookup_of_mem hmap (mem_blocksOf.1 hzv)
          rw [e1] at e2; cases e2; exact hn.1 hv
    have hxlook : ∀ (ht : Todo c x) (n : Name),
        st1.ren = (c.blocksOf x).map (fun b => (b, n)) ++ (x, n) :: st.ren → st'.ren.lookup x = some n := by
      intro ht n e
      rw [hkeep ht x (.inl rfl), e, lookup_map_append, if_neg, List.lookup_cons]
      · simp
      · intro hm
        have := lookup_of_mem hmap (mem_blocksOf.1 hm)
        rw [ht.1] at this; cases this
    refine ⟨fun n hn => i1 n (s1 n hn), ?_, ?_, ?_⟩
    · intro z hz hb
      rw [i2 z (fun hc => hz ⟨List.mem_cons_of_mem _ hc.1, hc.2⟩)
        (fun v hv => hb v (List.mem_cons_of_mem _ hv))]
      exact hframe1 z (fun hc => hz ⟨hc.1 ▸ List.mem_cons_self, hc.2⟩) (hb x List.mem_cons_self)
    · intro y hy hty
      rcases List.mem_cons.1 hy with rfl | hy'
      · obtain ⟨n, e0, e1, e2, e3, e4, e5⟩ := s3 hty
        refine ⟨n, hxlook hty n e4, e0, i1 n e1, e2, e3, ?_⟩
        intro b hb
        refine ⟨?_, (e5 b hb).1, (e5 b hb).2.1, ?_⟩
        · rw [hkeep hty b (.inr hb), e4, lookup_map_append, if_pos hb]
        · intro z hz _ _ hc
          exact (e5 b hb).2.2 (List.mem_filterMap.2 ⟨z, hz, hc⟩)
      · obtain ⟨n, e1, e0, e2, e3, e4, e5⟩ := i3 y hy' hty
        refine ⟨n, e1, e0, e2, fun hc => e3 (s1 n hc), e4, ?_⟩
        intro b hb
        obtain ⟨f1, f2, f3, f4⟩ := e5 b hb
        refine ⟨f1, f2, f3, ?_⟩
        intro z hz hzx hzb
        rw [← hframe1 z (fun hc => hzx (hc.1 ▸ List.mem_cons_self)) (fun _ => hzb x List.mem_cons_self)]
        exact f4 z hz (fun hc => hzx (List.mem_cons_of_mem _ hc)) (fun v hv => hzb v (List.mem_cons_of_mem _ hv))
    · intro y hy z hz hty htz hne
      rcases List.mem_cons.1 hy with rfl | hy'
      · rcases List.mem_cons.1 hz with rfl | hz'
        · exact absurd rfl hne
        · obtain ⟨n, _, e1, e2, e3, e4, e5⟩ := s3 hty
          obtain ⟨m, f1, _, f2, f3, _⟩ := i3 z hz' htz
          rw [hxlook hty n e4, f1]
          intro hc; cases hc; exact f3 e1
      · rcases List.mem_cons.1 hz with rfl | hz'
        · obtain ⟨n, _, e1, e2, e3, e4, e5⟩ := s3 htz
          obtain ⟨m, f1, _, f2, f3, _⟩ := i3 y hy' hty
          rw [hxlook htz n e4, f1]
          intro hc; cases hc; exact f3 e1
        · exact i4 y hy' z hz' hty htz hne

end Verif.Rename
