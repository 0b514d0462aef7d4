import Verif.Widen.Lemmas
/-!
# The values of a widened type, and what widening leaves
-/

namespace Verif.Widen
open Verif.Types
open Verif.Types.Store

variable {H : Hashes}

section
variable {O : Kind → Val → Prop} {arr : Bool → Val → List Val → Prop}

theorem wide_union {S : Store} {t : Nat} {ms : List Nat} (e : S.kind? t = some (.union ms)) {v : Val} :
    Wide S O arr v t ↔ ∃ m ∈ ms, Wide S O arr v m := by
  constructor
  · intro h
    cases h with
    | union e' hm h => rw [e] at e'; cases e'; exact ⟨_, hm, h⟩
    | other e' _ _ _ _ hu => rw [e] at e'; cases e'; exact absurd rfl (hu _)
    | _ e' => rw [e] at e'; cases e'
  · rintro ⟨m, hm, h⟩; exact .union e hm h

theorem wide_inter {S : Store} {t : Nat} {ms : List Nat} (e : S.kind? t = some (.inter ms)) {v : Val} :
    Wide S O arr v t ↔ ∀ m ∈ ms, Wide S O arr v m := by
  constructor
  · intro h
    cases h with
    | inter e' h => rw [e] at e'; cases e'; exact h
    | other e' _ _ _ _ _ hu => rw [e] at e'; cases e'; exact absurd rfl (hu _)
    | _ e' => rw [e] at e'; cases e'
  · intro h; exact .inter e h

theorem wide_array {S : Store} {t a : Nat} {r : Bool} (e : S.kind? t = some (.array a r)) {v : Val} :
    Wide S O arr v t ↔ ∃ xs, arr r v xs ∧ ∀ x ∈ xs, Wide S O arr x a := by
  constructor
  · intro h
    cases h with
    | array e' h h' => rw [e] at e'; cases e'; exact ⟨_, h, h'⟩
    | other e' _ _ _ _ _ _ hu => rw [e] at e'; cases e'; exact absurd rfl (hu _ _)
    | _ e' => rw [e] at e'; cases e'
  · rintro ⟨xs, h, h'⟩; exact .array e h h'

theorem has_array {S : Store} {t a : Nat} {r : Bool} (hr : ReadsArrays S O arr)
    (e : S.kind? t = some (.array a r)) {v : Val} :
    Has S O v t ↔ ∃ xs, arr r v xs ∧ ∀ x ∈ xs, Has S O x a := by
  rw [has_of_kind e, ← hr t a r v e]; rfl

theorem wide_up {st S : Store} (hle : Le st S) {v : Val} {t : Nat} (h : Wide st O arr v t) :
    Wide S O arr v t := by
  induction h with
  | bool e => exact .bool (hle.kind? e)
  | num e => exact .num (hle.kind? e)
  | str e => exact .str (hle.kind? e)
  | big e => exact .big (hle.kind? e)
  | union e hm _ ih => exact .union (hle.kind? e) hm ih
  | inter e _ ih => exact .inter (hle.kind? e) ih
  | array e ha _ ih => exact .array (hle.kind? e) ha ih
  | other e h1 h2 h3 h4 h5 h6 h7 h => exact .other (hle.kind? e) h1 h2 h3 h4 h5 h6 h7 (has_up hle h)

theorem wide_down {st S : Store} (hi : Core H st) (hle : Le st S) {v : Val} {t : Nat}
    (hk : (st.kind? t).isSome) (h : Wide S O arr v t) : Wide st O arr v t := by
  have hq : ∀ {t : Nat} {k : Kind}, (st.kind? t).isSome → S.kind? t = some k → st.kind? t = some k :=
    fun hk h => by rw [hle.kind?_eq hk] at h; exact h
  induction h with
  | bool e => exact .bool (hq hk e)
  | num e => exact .num (hq hk e)
  | str e => exact .str (hq hk e)
  | big e => exact .big (hq hk e)
  | union e hm _ ih => exact .union (hq hk e) hm (ih (members_known hi (hq hk e) _ hm))
  | inter e _ ih => exact .inter (hq hk e) fun m hm => ih m hm (members_known hi (hq hk e) _ hm)
  | array e ha _ ih =>
    exact .array (hq hk e) ha fun x hx => ih x hx (members_known hi (hq hk e) _ (by simp [kindTypes]))
  | other e h1 h2 h3 h4 h5 h6 h7 h =>
    exact .other (hq hk e) h1 h2 h3 h4 h5 h6 h7 ((has_mono hi hle hk).1 h)

theorem widenN_values {S : Store} (hS : Inv H S) (hr : ReadsArrays S O arr) :
    ∀ (n : Nat) (st : Store) (t : Nat) (st' : Store) (t' : Nat), Inv H st →
      (st.kind? t).isSome → widenN H n st t = some (st', t') → Le st' S →
      ∀ v, Has S O v t' ↔ Wide S O arr v t
  | 0, _, _, _, _, _, _, h, _, _ => by simp [widenN] at h
  | n + 1, st, t, st', t', hi, hk, h, hl, v => by
    have g := widenN_good _ _ _ _ _ hi hk h
    have hlS := g.ok.le.trans hl
    cases widenN_step h with
    | union ms ms' s e em eu =>
      obtain ⟨h1, h2, h3, _, h4, h5⟩ := mapAll_ok (widenN_good n) ms st s ms' hi
        (members_known hi.core e) em
      have ok := union_ok h1 h3 eu
      have ls := ok.le.trans hl
      rw [wide_union (hlS.kind? e), has_mono g.ok.inv.core hl g.ok.known, union_has h1 h3 eu]
      constructor
      · rintro ⟨m', hm', hv⟩
        obtain ⟨m, hm, s1, s2, i1, l1, e1, l2⟩ := h4 m' hm'
        exact ⟨m, hm, (widenN_values hS hr n s1 m s2 m' i1
          (l1.known (members_known hi.core e m hm)) e1 (l2.trans ls) v).1 (has_up ls hv)⟩
      · rintro ⟨m, hm, hv⟩
        obtain ⟨m', hm', s1, s2, i1, l1, e1, l2⟩ := h5 m hm
        exact ⟨m', hm', (has_mono h1.core ls (h3 m' hm')).1 ((widenN_values hS hr n s1 m s2 m' i1
          (l1.known (members_known hi.core e m hm)) e1 (l2.trans ls) v).2 hv)⟩
    | inter ms ms' s e em eu =>
      obtain ⟨h1, h2, h3, _, h4, h5⟩ := mapAll_ok (widenN_good n) ms st s ms' hi
        (members_known hi.core e) em
      have ok := inter_ok h1 h3 eu
      have ls := ok.le.trans hl
      have hna : ∀ m' ∈ ms', s.kind? m' ≠ some .any := by
        intro m' hm' ha'
        obtain ⟨m, hm, s1, s2, i1, l1, e1, l2⟩ := h4 m' hm'
        have km := members_known hi.core e m hm
        have g := widenN_good n _ _ _ _ i1 (l1.known km) e1
        have := g.any (by rw [← l2.kind?_eq g.ok.known]; exact ha')
        rw [l1.kind?_eq km] at this
        exact absurd (kind_of_kind? this) ((hi.core.inters t ms e).plain m hm).1
      rw [wide_inter (hlS.kind? e), has_mono g.ok.inv.core hl g.ok.known, inter_has h1 h3 hna eu]
      constructor
      · intro hv m hm
        obtain ⟨m', hm', s1, s2, i1, l1, e1, l2⟩ := h5 m hm
        exact (widenN_values hS hr n s1 m s2 m' i1
          (l1.known (members_known hi.core e m hm)) e1 (l2.trans ls) v).1 (has_up ls (hv m' hm'))
      · intro hv m' hm'
        obtain ⟨m, hm, s1, s2, i1, l1, e1, l2⟩ := h4 m' hm'
        exact (has_mono h1.core ls (h3 m' hm')).1 ((widenN_values hS hr n s1 m s2 m' i1
          (l1.known (members_known hi.core e m hm)) e1 (l2.trans ls) v).2 (hv m hm))
    | array a a' r s e ea ei =>
      have ka := members_known hi.core e a (by simp [kindTypes])
      have ga := widenN_good n _ _ _ _ hi ka ea
      obtain ⟨ok, hk'⟩ := internArray ga.ok.inv ga.ok.known ei
      rw [has_array hr (hl.kind? hk'), wide_array (hlS.kind? e)]
      have := widenN_values hS hr n st a s a' hi ka ea (ok.le.trans hl)
      simp only [this]
    | leaf k e n1 n2 n3 el es =>
      subst es
      rcases widenLiteral_spec hi.prims el with ⟨q, h1, h2⟩ | ⟨q, h1, h2⟩ | ⟨q, h1, h2⟩ | ⟨q, h1, h2⟩ |
        ⟨k', h1, h2, rfl⟩
      · rw [has_of_kind (hl.kind? h2)]
        constructor
        · rintro ⟨x, rfl⟩; exact .num (hl.kind? h1)
        · intro h
          have e' := hl.kind? h1
          cases h with
          | num => exact ⟨_, rfl⟩
          | other e2 _ hu => rw [e'] at e2; cases e2; exact absurd rfl (hu _)
          | _ e2 => rw [e'] at e2; cases e2
      · rw [has_of_kind (hl.kind? h2)]
        constructor
        · rintro ⟨x, rfl⟩; exact .str (hl.kind? h1)
        · intro h
          have e' := hl.kind? h1
          cases h with
          | str => exact ⟨_, rfl⟩
          | other e2 _ _ hu => rw [e'] at e2; cases e2; exact absurd rfl (hu _)
          | _ e2 => rw [e'] at e2; cases e2
      · rw [has_of_kind (hl.kind? h2)]
        constructor
        · rintro ⟨x, rfl⟩; exact .bool (hl.kind? h1)
        · intro h
          have e' := hl.kind? h1
          cases h with
          | bool => exact ⟨_, rfl⟩
          | other e2 hu => rw [e'] at e2; cases e2; exact absurd rfl (hu _)
          | _ e2 => rw [e'] at e2; cases e2
      · rw [has_of_kind (hl.kind? h2)]
        constructor
        · rintro ⟨x, rfl⟩; exact .big (hl.kind? h1)
        · intro h
          have e' := hl.kind? h1
          cases h with
          | big => exact ⟨_, rfl⟩
          | other e2 _ _ _ hu => rw [e'] at e2; cases e2; exact absurd rfl (hu _)
          | _ e2 => rw [e'] at e2; cases e2
      · rw [e] at h1
        cases h1
        have e' := hl.kind? e
        constructor
        · intro h
          exact .other e' (fun _ c => h2 (c ▸ trivial)) (fun _ c => h2 (c ▸ trivial))
            (fun _ c => h2 (c ▸ trivial)) (fun _ c => h2 (c ▸ trivial)) n1 n2 n3 h
        · intro h
          cases h with
          | other _ _ _ _ _ _ _ _ h => exact h
          | union e2 => rw [e'] at e2; cases e2; exact absurd rfl (n1 _)
          | inter e2 => rw [e'] at e2; cases e2; exact absurd rfl (n2 _)
          | array e2 => rw [e'] at e2; cases e2; exact absurd rfl (n3 _ _)
          | _ e2 => rw [e'] at e2; cases e2; exact absurd trivial h2

/-- Every value of a type is a value of it when literals are read as primitives. -/
theorem wide_of_has {S : Store} {r : Nat → Nat} (hS : Core H S) (hc : Closed S r)
    (hr : ReadsArrays S O arr) : ∀ (n t : Nat), r t < n → ∀ v, Has S O v t → Wide S O arr v t
  | 0, _, h, _, _ => absurd h (Nat.not_lt_zero _)
  | n + 1, t, hn, v, h => by
    have sub : ∀ {k : Kind} {m : Nat}, S.kind? t = some k → m ∈ kindTypes k → r m < n := by
      intro k m e hm
      have := hc.rank t k e m hm
      omega
    cases h with
    | boolLit e => exact .bool e
    | numLit e => exact .num e
    | strLit e => exact .str e
    | bigLit e => exact .big e
    | union e hm h => exact .union e hm (wide_of_has hS hc hr n _ (sub e hm) v h)
    | inter e h => exact .inter e fun m hm => wide_of_has hS hc hr n _ (sub e hm) v (h m hm)
    | any e => exact .other e (by simp) (by simp) (by simp) (by simp) (by simp) (by simp) (by simp) (.any e)
    | unknown e => exact .other e (by simp) (by simp) (by simp) (by simp) (by simp) (by simp) (by simp) (.unknown e)
    | boolean e => exact .other e (by simp) (by simp) (by simp) (by simp) (by simp) (by simp) (by simp) (.boolean e)
    | number e => exact .other e (by simp) (by simp) (by simp) (by simp) (by simp) (by simp) (by simp) (.number e)
    | string e => exact .other e (by simp) (by simp) (by simp) (by simp) (by simp) (by simp) (by simp) (.string e)
    | bigint e => exact .other e (by simp) (by simp) (by simp) (by simp) (by simp) (by simp) (by simp) (.bigint e)
    | symbol e => exact .other e (by simp) (by simp) (by simp) (by simp) (by simp) (by simp) (by simp) (.symbol e)
    | template e h => exact .other e (by simp) (by simp) (by simp) (by simp) (by simp) (by simp) (by simp) (.template e h)
    | uniqueSymbol e h => exact .other e (by simp) (by simp) (by simp) (by simp) (by simp) (by simp) (by simp) (.uniqueSymbol e h)
    | @open_ _ _ k e ho h =>
      by_cases ha : ∃ a q, k = .array a q
      · obtain ⟨a, q, rfl⟩ := ha
        obtain ⟨xs, h1, h2⟩ := (hr t a q v e).1 h
        exact .array e h1 fun x hx => wide_of_has hS hc hr n a (sub e (by simp [kindTypes])) x (h2 x hx)
      · refine .other e ?_ ?_ ?_ ?_ ?_ ?_ (fun a q c => ha ⟨a, q, c⟩) (.open_ e ho h) <;>
          (intro _ c; subst c; exact ho)

end

/-! ## Literals that are left -/

theorem exposed_down {st S : Store} (hi : Core H st) (hle : Le st S) {t x : Nat}
    (hk : (st.kind? t).isSome) (h : Exposed S t x) : Exposed st t x ∧ (st.kind? x).isSome := by
  have hq : ∀ {t : Nat} {k : Kind}, (st.kind? t).isSome → S.kind? t = some k → st.kind? t = some k :=
    fun hk h => by rw [hle.kind?_eq hk] at h; exact h
  induction h with
  | self => exact ⟨.self, hk⟩
  | union e hm _ ih =>
    have := ih (members_known hi (hq hk e) _ hm)
    exact ⟨.union (hq hk e) hm this.1, this.2⟩
  | inter e hm _ ih =>
    have := ih (members_known hi (hq hk e) _ hm)
    exact ⟨.inter (hq hk e) hm this.1, this.2⟩
  | array e _ ih =>
    have := ih (members_known hi (hq hk e) _ (by simp [kindTypes]))
    exact ⟨.array (hq hk e) this.1, this.2⟩

theorem noLiteral_up {st S : Store} (hi : Core H st) (hle : Le st S) {t : Nat}
    (hk : (st.kind? t).isSome) (h : NoLiteral st t) : NoLiteral S t := by
  intro x k hx hkx
  obtain ⟨h1, h2⟩ := exposed_down hi hle hk hx
  exact h x k h1 (by rw [hle.kind?_eq h2] at hkx; exact hkx)

theorem noLiteral_atom {st : Store} {t : Nat} {k : Kind} (e : st.kind? t = some k)
    (hk : ¬ IsLiteral k) (h1 : ∀ ms, k ≠ .union ms) (h2 : ∀ ms, k ≠ .inter ms)
    (h3 : ∀ a r, k ≠ .array a r) : NoLiteral st t := by
  intro x k' hx hkx
  cases hx with
  | self => rw [e] at hkx; cases hkx; exact hk
  | union e' => rw [e] at e'; cases e'; exact absurd rfl (h1 _)
  | inter e' => rw [e] at e'; cases e'; exact absurd rfl (h2 _)
  | array e' => rw [e] at e'; cases e'; exact absurd rfl (h3 _ _)

theorem noLiteral_union {st : Store} {t : Nat} {l : List Nat} (e : st.kind? t = some (.union l))
    (h : ∀ m ∈ l, NoLiteral st m) : NoLiteral st t := by
  intro x k' hx hkx
  cases hx with
  | self => rw [e] at hkx; cases hkx; exact id
  | union e' hm h' => rw [e] at e'; cases e'; exact h _ hm x k' h' hkx
  | inter e' => rw [e] at e'; cases e'
  | array e' => rw [e] at e'; cases e'

theorem noLiteral_inter {st : Store} {t : Nat} {l : List Nat} (e : st.kind? t = some (.inter l))
    (h : ∀ m ∈ l, NoLiteral st m) : NoLiteral st t := by
  intro x k' hx hkx
  cases hx with
  | self => rw [e] at hkx; cases hkx; exact id
  | inter e' hm h' => rw [e] at e'; cases e'; exact h _ hm x k' h' hkx
  | union e' => rw [e] at e'; cases e'
  | array e' => rw [e] at e'; cases e'

theorem noLiteral_array {st : Store} {t a : Nat} {r : Bool} (e : st.kind? t = some (.array a r))
    (h : NoLiteral st a) : NoLiteral st t := by
  intro x k' hx hkx
  cases hx with
  | self => rw [e] at hkx; cases hkx; exact id
  | inter e' => rw [e] at e'; cases e'
  | union e' => rw [e] at e'; cases e'
  | array e' h' => rw [e] at e'; cases e'; exact h x k' h' hkx

theorem uParts_noLiteral {st : Store} {ms : List Nat} (hk : TypesKnown st ms)
    (h : ∀ m ∈ ms, NoLiteral st m) : ∀ x ∈ ms.flatMap (uParts st), NoLiteral st x := by
  intro x hx
  obtain ⟨m, hm, hx⟩ := List.mem_flatMap.1 hx
  have hkm := kind?_of_known (hk m hm)
  unfold uParts at hx
  split at hx
  · cases hx
  · cases hx
  · cases hx
  · rename_i inner e
    intro y k hy; exact h m hm y k (.union (e ▸ hkm) hx hy)
  · rw [List.mem_singleton.1 hx]; exact h m hm

theorem iParts_noLiteral {st : Store} {ms : List Nat} (hk : TypesKnown st ms)
    (h : ∀ m ∈ ms, NoLiteral st m) : ∀ x ∈ ms.flatMap (iParts st), NoLiteral st x := by
  intro x hx
  obtain ⟨m, hm, hx⟩ := List.mem_flatMap.1 hx
  have hkm := kind?_of_known (hk m hm)
  unfold iParts at hx
  split at hx
  · cases hx
  · cases hx
  · cases hx
  · rename_i inner e
    intro y k hy; exact h m hm y k (.inter (e ▸ hkm) hx hy)
  · rw [List.mem_singleton.1 hx]; exact h m hm

theorem made_noLiteral {st st' : Store} {ms flat : List Nat} {i : Nat} (hi : Core H st)
    (hle : Le st st') (hk : TypesKnown st flat) (h : ∀ x ∈ flat, NoLiteral st x)
    (hm : Made st st' ms flat i) : NoLiteral st' i := by
  cases hm with
  | any e _ => exact noLiteral_atom e id (by simp) (by simp) (by simp)
  | atom e =>
    rcases e with e | e | e <;> exact noLiteral_atom e id (by simp) (by simp) (by simp)
  | one hx => exact noLiteral_up hi hle (hk i hx) (h i hx)
  | union l e hl =>
    exact noLiteral_union e fun m hm => noLiteral_up hi hle (hk m (hl m hm)) (h m (hl m hm))
  | inter l e hl =>
    exact noLiteral_inter e fun m hm => noLiteral_up hi hle (hk m (hl m hm)) (h m (hl m hm))

theorem widenN_noLiteral : ∀ (n : Nat) (st : Store) (t : Nat) (st' : Store) (t' : Nat), Inv H st →
    (st.kind? t).isSome → widenN H n st t = some (st', t') → NoLiteral st' t'
  | 0, _, _, _, _, _, _, h => by simp [widenN] at h
  | n + 1, st, t, st', t', hi, hk, h => by
    have hmem : ∀ {k : Kind} {ms ms' : List Nat} {s : Store}, st.kind? t = some k →
        (∀ m ∈ ms, m ∈ kindTypes k) →
        (∀ m' ∈ ms', ∃ m ∈ ms, ∃ s1 s2, Inv H s1 ∧ Le st s1 ∧ widenN H n s1 m = some (s2, m') ∧
          Le s2 s) → ∀ m' ∈ ms', NoLiteral s m' := by
      intro k ms ms' s e hs h4 m' hm'
      obtain ⟨m, hm, s1, s2, i1, l1, e1, l2⟩ := h4 m' hm'
      have km := l1.known (members_known hi.core e m (hs m hm))
      have g := widenN_good n _ _ _ _ i1 km e1
      exact noLiteral_up g.ok.inv.core l2 g.ok.known (widenN_noLiteral n _ _ _ _ i1 km e1)
    cases widenN_step h with
    | union ms ms' s e em eu =>
      obtain ⟨h1, h2, h3, _, h4, _⟩ := mapAll_ok (widenN_good n) ms st s ms' hi
        (members_known hi.core e) em
      exact made_noLiteral h1.core (union_ok h1 h3 eu).le (flat_known h1.core h3).1
        (uParts_noLiteral h3 (hmem e (fun _ h => h) h4)) (union_made h1 h3 eu)
    | inter ms ms' s e em eu =>
      obtain ⟨h1, h2, h3, _, h4, _⟩ := mapAll_ok (widenN_good n) ms st s ms' hi
        (members_known hi.core e) em
      exact made_noLiteral h1.core (inter_ok h1 h3 eu).le (flatI_known h1.core h3).1
        (iParts_noLiteral h3 (hmem e (fun _ h => h) h4)) (inter_made h1 h3 eu)
    | array a a' r s e ea ei =>
      have ka := members_known hi.core e a (by simp [kindTypes])
      have ga := widenN_good n _ _ _ _ hi ka ea
      obtain ⟨ok, hk'⟩ := internArray ga.ok.inv ga.ok.known ei
      exact noLiteral_array hk' (noLiteral_up ga.ok.inv.core ok.le ga.ok.known
        (widenN_noLiteral n _ _ _ _ hi ka ea))
    | leaf k e n1 n2 n3 el es =>
      subst es
      rcases widenLiteral_spec hi.prims el with ⟨q, _, h⟩ | ⟨q, _, h⟩ | ⟨q, _, h⟩ | ⟨q, _, h⟩ | ⟨k', hk', hn, rfl⟩
      · exact noLiteral_atom h id (by simp) (by simp) (by simp)
      · exact noLiteral_atom h id (by simp) (by simp) (by simp)
      · exact noLiteral_atom h id (by simp) (by simp) (by simp)
      · exact noLiteral_atom h id (by simp) (by simp) (by simp)
      · rw [e] at hk'; cases hk'
        exact noLiteral_atom e hn n1 n2 n3

/-! ## Nothing to widen -/

theorem mapAll_id {f : Store → Nat → Option (Store × Nat)} {st : Store} :
    ∀ (ts : List Nat), (∀ t ∈ ts, f st t = some (st, t)) → mapAll f st ts = some (st, ts)
  | [], _ => rfl
  | t :: ts, h => by
    unfold mapAll
    rw [h t (by simp)]
    simp only
    rw [mapAll_id ts fun x hx => h x (by simp [hx])]

theorem widenN_id {st : Store} {r : Nat → Nat} (hi : Core H st) (hc : Closed st r) :
    ∀ (n t : Nat), (st.kind? t).isSome → r t < n → NoLiteral st t → widenN H n st t = some (st, t)
  | 0, _, _, h, _ => absurd h (Nat.not_lt_zero _)
  | n + 1, t, ht, hn, hl => by
    obtain ⟨k, hk⟩ := Option.isSome_iff_exists.1 ht
    have rk : ∀ m ∈ kindTypes k, r m < n := fun m hm => by
      have := hc.rank t k hk m hm
      omega
    have kn := members_known hi hk
    unfold widenN
    rw [hk]
    have leaf : ¬ IsLiteral k → widenLiteral st t = some t := by
      intro h
      unfold widenLiteral
      rw [hk]
      cases k <;> first | rfl | exact absurd trivial h
    have hnl : ¬ IsLiteral k := hl t k .self hk
    cases k with
    | union ms =>
      simp only
      rw [mapAll_id ms fun m hm => widenN_id hi hc n m (kn m hm) (rk m hm)
        fun x k hx => hl x k (.union hk hm hx)]
      simp only
      have hu := hi.unions t ms hk
      rw [union_eq hi hu.known, unionOf_canon hu, insertType_present hi hk]
    | inter ms =>
      simp only
      rw [mapAll_id ms fun m hm => widenN_id hi hc n m (kn m hm) (rk m hm)
        fun x k hx => hl x k (.inter hk hm hx)]
      simp only
      have hu := hi.inters t ms hk
      rw [inter_eq hi hu.known, interOf_canon hu, insertType_present hi hk]
    | array a q =>
      simp only
      have ka := kn a (by simp [kindTypes])
      rw [widenN_id hi hc n a ka (rk a (by simp [kindTypes])) fun x k hx => hl x k (.array hk hx)]
      simp only
      rw [internType_eq hi (array_known ka) (fun _ h => by cases h) (fun _ h => by cases h)]
      exact insertType_present hi hk
    | _ => simp only; rw [leaf hnl]

/-! ## The bound on the depth -/

theorem mapAll_congr {f g : Store → Nat → Option (Store × Nat)} {st0 : Store}
    (hf : ∀ st t st' t', Inv H st → (st.kind? t).isSome → f st t = some (st', t') → Good H st t st' t') :
    ∀ (ts : List Nat) (st : Store), Inv H st → Le st0 st → TypesKnown st0 ts →
      (∀ t ∈ ts, ∀ s, Inv H s → Le st0 s → f s t = g s t) → mapAll f st ts = mapAll g st ts
  | [], _, _, _, _, _ => rfl
  | t :: ts, st, hi, hle, hk, h => by
    unfold mapAll
    rw [← h t (by simp) st hi hle]
    cases e : f st t with
    | none => rfl
    | some p =>
      have gd := hf _ _ _ _ hi (hle.known (hk t (by simp))) e
      simp only
      rw [mapAll_congr hf ts p.1 gd.ok.inv (hle.trans gd.ok.le) (fun x hx => hk x (by simp [hx]))
        fun x hx => h x (by simp [hx])]

theorem widenN_bound {st0 : Store} {r : Nat → Nat} (hi0 : Core H st0) (hc : Closed st0 r) :
    ∀ (n m t : Nat) (st : Store), (st0.kind? t).isSome → Inv H st → Le st0 st → r t < n → r t < m →
      widenN H n st t = widenN H m st t
  | 0, _, _, _, _, _, _, h, _ => absurd h (Nat.not_lt_zero _)
  | _, 0, _, _, _, _, _, _, h => absurd h (Nat.not_lt_zero _)
  | n + 1, m + 1, t, st, ht, hi, hle, hn, hm => by
    obtain ⟨k, hk0⟩ := Option.isSome_iff_exists.1 ht
    have hk := hle.kind? hk0
    have kn := members_known hi0 hk0
    have sub : ∀ c ∈ kindTypes k, ∀ s, Inv H s → Le st0 s → widenN H n s c = widenN H m s c := by
      intro c hcm s hs hl
      have := hc.rank t k hk0 c hcm
      exact widenN_bound hi0 hc n m c s (kn c hcm) hs hl (by omega) (by omega)
    unfold widenN
    rw [hk]
    cases k with
    | union ms =>
      simp only
      rw [mapAll_congr (g := widenN H m) (widenN_good n) ms st hi hle kn sub]
    | inter ms =>
      simp only
      rw [mapAll_congr (g := widenN H m) (widenN_good n) ms st hi hle kn sub]
    | array a q =>
      simp only
      rw [sub a (by simp [kindTypes]) st hi hle]
    | _ => rfl

end Verif.Widen
