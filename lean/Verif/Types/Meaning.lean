import Verif.Types.Reach
/-!
# Unions and intersections mean what they should
-/

namespace Verif.Types
open Store
open Verif.Harness

section
variable {O : Kind → Val → Prop}

/-- The values of a kind, given the values of the types it mentions. -/
def KindHas (st : Store) (O : Kind → Val → Prop) (v : Val) : Kind → Prop
  | .any => True
  | .unknown => True
  | .never => False
  | .boolean => ∃ b, v = .bool b
  | .number => ∃ r, v = .num r
  | .string => ∃ n, v = .str n
  | .bigint => ∃ i, v = .big i
  | .symbol => ∃ s, v = .sym s
  | .boolLit b => v = .bool b
  | .numLit r => v = .num r
  | .strLit n => v = .str n
  | .bigLit i => v = .big i
  | .template h s => ∃ n, v = .str n ∧ O (.template h s) v
  | .uniqueSymbol => ∃ s, v = .sym s ∧ O .uniqueSymbol v
  | .union ms => ∃ m ∈ ms, Has st O v m
  | .inter ms => ∀ m ∈ ms, Has st O v m
  | k => O k v

theorem has_iff {st : Store} {v : Val} {t : Nat} (hk : (st.kind? t).isSome) :
    Has st O v t ↔ KindHas st O v (st.kind t) := by
  have hkt := kind?_of_known hk
  constructor
  · intro h
    cases h with
    | any h => rw [kind_of_kind? h]; trivial
    | unknown h => rw [kind_of_kind? h]; trivial
    | boolean h => rw [kind_of_kind? h]; exact ⟨_, rfl⟩
    | number h => rw [kind_of_kind? h]; exact ⟨_, rfl⟩
    | string h => rw [kind_of_kind? h]; exact ⟨_, rfl⟩
    | bigint h => rw [kind_of_kind? h]; exact ⟨_, rfl⟩
    | symbol h => rw [kind_of_kind? h]; exact ⟨_, rfl⟩
    | boolLit h => rw [kind_of_kind? h]; rfl
    | numLit h => rw [kind_of_kind? h]; rfl
    | strLit h => rw [kind_of_kind? h]; rfl
    | bigLit h => rw [kind_of_kind? h]; rfl
    | template h ho => rw [kind_of_kind? h]; exact ⟨_, rfl, ho⟩
    | uniqueSymbol h ho => rw [kind_of_kind? h]; exact ⟨_, rfl, ho⟩
    | union h hm hv => rw [kind_of_kind? h]; exact ⟨_, hm, hv⟩
    | inter h hv => rw [kind_of_kind? h]; exact hv
    | open_ h ho hv =>
      rw [kind_of_kind? h]
      rename_i k
      cases k <;> first | exact hv | exact absurd ho id
  · intro h
    cases hkd : st.kind t <;> rw [hkd] at hkt h <;> simp only [KindHas] at h
    case any => exact .any hkt
    case unknown => exact .unknown hkt
    case boolean => obtain ⟨b, rfl⟩ := h; exact .boolean hkt
    case number => obtain ⟨b, rfl⟩ := h; exact .number hkt
    case string => obtain ⟨b, rfl⟩ := h; exact .string hkt
    case bigint => obtain ⟨b, rfl⟩ := h; exact .bigint hkt
    case symbol => obtain ⟨b, rfl⟩ := h; exact .symbol hkt
    case boolLit => subst h; exact .boolLit hkt
    case numLit => subst h; exact .numLit hkt
    case strLit => subst h; exact .strLit hkt
    case bigLit => subst h; exact .bigLit hkt
    case template => obtain ⟨n, rfl, ho⟩ := h; exact .template hkt ho
    case uniqueSymbol => obtain ⟨n, rfl, ho⟩ := h; exact .uniqueSymbol hkt ho
    case union => obtain ⟨m, hm, hv⟩ := h; exact .union hkt hm hv
    case inter => exact .inter hkt h
    all_goals exact .open_ hkt trivial h

theorem has_up {st st' : Store} (hle : Le st st') {v : Val} {t : Nat} (h : Has st O v t) :
    Has st' O v t := by
  induction h with
  | any h => exact .any (hle.kind? h)
  | unknown h => exact .unknown (hle.kind? h)
  | boolean h => exact .boolean (hle.kind? h)
  | number h => exact .number (hle.kind? h)
  | string h => exact .string (hle.kind? h)
  | bigint h => exact .bigint (hle.kind? h)
  | symbol h => exact .symbol (hle.kind? h)
  | boolLit h => exact .boolLit (hle.kind? h)
  | numLit h => exact .numLit (hle.kind? h)
  | strLit h => exact .strLit (hle.kind? h)
  | bigLit h => exact .bigLit (hle.kind? h)
  | template h ho => exact .template (hle.kind? h) ho
  | uniqueSymbol h ho => exact .uniqueSymbol (hle.kind? h) ho
  | union h hm _ ih => exact .union (hle.kind? h) hm ih
  | inter h _ ih => exact .inter (hle.kind? h) ih
  | open_ h ho hv => exact .open_ (hle.kind? h) ho hv

theorem has_down {st st' : Store} {r : Nat → Nat} (hle : Le st st') (hc : Closed st r) {v : Val} {t : Nat}
    (hk : (st.kind? t).isSome) (h : Has st' O v t) : Has st O v t := by
  have hq : ∀ {t : Nat} {k : Kind}, (st.kind? t).isSome → st'.kind? t = some k → st.kind? t = some k :=
    fun hk h => by rw [hle.kind?_eq hk] at h; exact h
  induction h with
  | any h => exact .any (hq hk h)
  | unknown h => exact .unknown (hq hk h)
  | boolean h => exact .boolean (hq hk h)
  | number h => exact .number (hq hk h)
  | string h => exact .string (hq hk h)
  | bigint h => exact .bigint (hq hk h)
  | symbol h => exact .symbol (hq hk h)
  | boolLit h => exact .boolLit (hq hk h)
  | numLit h => exact .numLit (hq hk h)
  | strLit h => exact .strLit (hq hk h)
  | bigLit h => exact .bigLit (hq hk h)
  | template h ho => exact .template (hq hk h) ho
  | uniqueSymbol h ho => exact .uniqueSymbol (hq hk h) ho
  | union h hm _ ih => exact .union (hq hk h) hm (ih ((hc.types _ _ (hq hk h)).1.types _ hm))
  | inter h _ ih => exact .inter (hq hk h) fun m hm => ih m hm ((hc.types _ _ (hq hk h)).1.types _ hm)
  | open_ h ho hv => exact .open_ (hq hk h) ho hv

/-- Types keep their values. -/
theorem has_mono {H : Hashes} {st st' : Store} (hi : Core H st) (hle : Le st st') {v : Val} {t : Nat}
    (hk : (st.kind? t).isSome) : Has st' O v t ↔ Has st O v t := by
  obtain ⟨r, hc⟩ := hi.closed
  exact ⟨has_down hle hc hk, has_up hle⟩

/-! ## Unions -/

theorem has_of_kind {st : Store} {v : Val} {t : Nat} {k : Kind} (h : st.kind? t = some k) :
    Has st O v t ↔ KindHas st O v k := by
  rw [has_iff (by rw [h]; rfl), kind_of_kind? h]

theorem flat_has {st : Store} {ms : List Nat} {v : Val} (hk : TypesKnown st ms)
    (ha : st.hasKind .any ms = false) (hu : st.hasKind .unknown ms = false) :
    (∃ m ∈ ms.flatMap (uParts st), Has st O v m) ↔ ∃ m ∈ ms, Has st O v m := by
  have hn : ∀ (k : Kind), st.hasKind k ms = false → ∀ m ∈ ms, st.kind m ≠ k := by
    intro k h m hm e
    rw [hasKind_iff.2 ⟨m, hm, e⟩] at h; cases h
  have key : ∀ m ∈ ms, (∃ c ∈ uParts st m, Has st O v c) ↔ Has st O v m := by
    intro m hm
    rw [has_iff (hk m hm)]
    have h1 := hn _ ha m hm
    have h2 := hn _ hu m hm
    unfold uParts
    cases hkd : st.kind m <;> simp only [hkd] at h1 h2 ⊢
    case any => exact absurd rfl h1
    case unknown => exact absurd rfl h2
    case never => simp [KindHas]
    case union inner => rfl
    all_goals
      rw [← hkd, ← has_iff (hk m hm)]
      simp
  constructor
  · rintro ⟨c, hc, hv⟩
    obtain ⟨m, hm, hc⟩ := List.mem_flatMap.1 hc
    exact ⟨m, hm, (key m hm).1 ⟨c, hc, hv⟩⟩
  · rintro ⟨m, hm, hv⟩
    obtain ⟨c, hc, hv⟩ := (key m hm).2 hv
    exact ⟨c, List.mem_flatMap.2 ⟨m, hm, hc⟩, hv⟩

/-- A member that `union` drops is inside one that it keeps. -/
theorem kept_has {st : Store} {flat : List Nat} {v : Val} (hk : TypesKnown st flat) :
    (∃ m ∈ st.sortDedup (flat.filter (st.unionKeeps flat)), Has st O v m) ↔
      ∃ m ∈ flat, Has st O v m := by
  constructor
  · rintro ⟨m, hm, hv⟩; exact ⟨m, (mem_kept.1 hm).1, hv⟩
  · rintro ⟨m, hm, hv⟩
    cases hkeep : st.unionKeeps flat m with
    | true => exact ⟨m, mem_kept.2 ⟨hm, hkeep⟩, hv⟩
    | false =>
      have big : ∀ (k : Kind), st.hasKind k flat = true → (k = .boolean ∨ k = .number ∨ k = .string ∨
          k = .bigint ∨ k = .symbol) → KindHas st O v k →
          ∃ m ∈ st.sortDedup (flat.filter (st.unionKeeps flat)), Has st O v m := by
        intro k hf hp hv
        obtain ⟨p, hp1, hp2⟩ := hasKind_iff.1 hf
        refine ⟨p, mem_kept.2 ⟨hp1, ?_⟩, (has_iff (hk p hp1)).2 (hp2 ▸ hv)⟩
        unfold Store.unionKeeps
        rw [hp2]
        rcases hp with rfl | rfl | rfl | rfl | rfl <;> rfl
      rw [has_iff (hk m hm)] at hv
      unfold Store.unionKeeps at hkeep
      cases hkd : st.kind m <;>
        simp only [hkd, Bool.not_eq_eq_eq_not, Bool.not_false, KindHas, reduceCtorEq] at hkeep hv
      case boolLit => exact big _ hkeep (by simp) ⟨_, hv⟩
      case numLit => exact big _ hkeep (by simp) ⟨_, hv⟩
      case strLit => exact big _ hkeep (by simp) ⟨_, hv⟩
      case template => obtain ⟨n, hv, _⟩ := hv; exact big _ hkeep (by simp) ⟨_, hv⟩
      case bigLit => exact big _ hkeep (by simp) ⟨_, hv⟩
      case uniqueSymbol => obtain ⟨n, hv, _⟩ := hv; exact big _ hkeep (by simp) ⟨_, hv⟩

theorem boolLit_of {st : Store} {m : Nat} (h : st.isBoolLit m = true) : ∃ b, st.kind m = .boolLit b := by
  unfold Store.isBoolLit at h
  split at h
  · exact ⟨_, ‹_›⟩
  · cases h

theorem union_has {H : Hashes} {st st' : Store} {ms : List Nat} {i : Nat} {v : Val} (hi : Inv H st)
    (hk : TypesKnown st ms) (h : st.union H ms = some (st', i)) :
    Has st' O v i ↔ ∃ m ∈ ms, Has st O v m := by
  rw [union_eq hi.core hk] at h
  unfold unionOf at h
  split at h
  · rename_i ha
    simp only [Option.some.injEq, Prod.mk.injEq] at h
    obtain ⟨rfl, rfl⟩ := h
    obtain ⟨m, hm, e⟩ := hasKind_iff.1 ha
    rw [has_of_kind hi.prims.any]
    exact ⟨fun _ => ⟨m, hm, (has_iff (hk m hm)).2 (e ▸ trivial)⟩, fun _ => trivial⟩
  · rename_i ha
    split at h
    · rename_i hu
      simp only [Option.some.injEq, Prod.mk.injEq] at h
      obtain ⟨rfl, rfl⟩ := h
      obtain ⟨m, hm, e⟩ := hasKind_iff.1 hu
      rw [has_of_kind hi.prims.unknown]
      exact ⟨fun _ => ⟨m, hm, (has_iff (hk m hm)).2 (e ▸ trivial)⟩, fun _ => trivial⟩
    · rename_i hu
      obtain ⟨hkf, hpf⟩ := flat_known hi.core hk
      have hres := unionFinish_spec hi.core hkf hpf h
      rw [← flat_has hk (by simpa using ha) (by simpa using hu), ← kept_has hkf]
      have hsort := sortDedup_sorted st
        ((ms.flatMap (uParts st)).filter (st.unionKeeps (ms.flatMap (uParts st))))
      have hkk : TypesKnown st (st.sortDedup ((ms.flatMap (uParts st)).filter
          (st.unionKeeps (ms.flatMap (uParts st))))) := fun m hm => hkf m (mem_kept.1 hm).1
      generalize st.sortDedup ((ms.flatMap (uParts st)).filter
          (st.unionKeeps (ms.flatMap (uParts st)))) = l at hres hsort hkk ⊢
      cases hres with
      | empty hl h1 h2 =>
        subst hl h1 h2
        rw [has_of_kind hi.prims.never]; simp [KindHas]
      | one a hl h1 h2 =>
        subst hl h1 h2
        simp
      | bool a b hl ha' hb' h1 h2 =>
        subst hl h1 h2
        obtain ⟨x, hx⟩ := boolLit_of ha'
        obtain ⟨y, hy⟩ := boolLit_of hb'
        have hxy : x ≠ y := by
          rintro rfl
          have e1 := kind?_of_known (hkk a (by simp))
          have e2 := kind?_of_known (hkk b (by simp))
          rw [hx] at e1; rw [hy] at e2
          have : a = b := hi.core.types.inj e1 e2
          subst this
          simp only [List.pairwise_cons, List.mem_singleton, forall_eq] at hsort
          rw [(typeCmp_eq _ a a).2 rfl] at hsort
          exact absurd hsort.1 (by simp)
        rw [has_of_kind hi.prims.boolean]
        simp only [List.mem_cons, List.not_mem_nil, or_false, exists_eq_or_imp, exists_eq_left]
        rw [has_iff (hkk a (by simp)), has_iff (hkk b (by simp)), hx, hy]
        simp only [KindHas]
        constructor
        · rintro ⟨z, rfl⟩
          simp only [Val.bool.injEq]
          cases x <;> cases y <;> cases z <;> simp at hxy ⊢
        · rintro (e | e) <;> exact ⟨_, e⟩
      | many hu hc hle hl =>
        rw [has_of_kind hl]
        constructor
        · rintro ⟨m, hm, hv⟩; exact ⟨m, hm, (has_mono hi.core hle (hkk m hm)).1 hv⟩
        · rintro ⟨m, hm, hv⟩; exact ⟨m, hm, has_up hle hv⟩

/-! ## Intersections -/

/-- The family of primitive values that a kind is part of; 0 for none. -/
def fam : Kind → Nat
  | .string | .strLit _ | .template _ _ => 1
  | .number | .numLit _ => 2
  | .boolean | .boolLit _ => 4
  | .bigint | .bigLit _ => 8
  | .symbol | .uniqueSymbol => 16
  | _ => 0

/-- The family of a value. -/
def valFam : Val → Nat
  | .str _ => 1
  | .num _ => 2
  | .bool _ => 4
  | .big _ => 8
  | .sym _ => 16
  | .other _ => 0

/-- Kinds with exactly one value. -/
def IsLit : Kind → Prop
  | .strLit _ | .numLit _ | .boolLit _ | .bigLit _ => True
  | _ => False

theorem has_fam {st : Store} {v : Val} {k : Kind} (h : KindHas st O v k) (hf : fam k ≠ 0) :
    valFam v = fam k := by
  cases k <;> simp only [fam, ne_eq, not_true_eq_false] at hf <;> simp only [KindHas] at h
  all_goals obtain ⟨x, rfl, _⟩ := h; rfl

theorem has_lit {st : Store} {v : Val} {k k' : Kind} (h : KindHas st O v k) (h' : KindHas st O v k')
    (hl : IsLit k) (hl' : IsLit k') : k = k' := by
  cases k <;> simp only [IsLit] at hl <;> cases k' <;> simp only [IsLit] at hl' <;>
    simp only [KindHas] at h h' <;> subst h <;> simp_all

/-- Two members of which no value is a member of both. -/
def Apart (st : Store) (a b : Nat) : Prop :=
  (fam (st.kind a) ≠ 0 ∧ fam (st.kind b) ≠ 0 ∧ fam (st.kind a) ≠ fam (st.kind b)) ∨
  (IsLit (st.kind a) ∧ IsLit (st.kind b) ∧ fam (st.kind a) = fam (st.kind b) ∧ a ≠ b)

theorem apart_has {H : Hashes} {st : Store} {v : Val} {a b : Nat} (hi : Core H st)
    (ha : (st.kind? a).isSome) (hb : (st.kind? b).isSome) (h : Apart st a b) (va : Has st O v a)
    (vb : Has st O v b) : False := by
  rw [has_iff ha] at va
  rw [has_iff hb] at vb
  rcases h with ⟨h1, h2, h3⟩ | ⟨h1, h2, _, h3⟩
  · exact h3 ((has_fam va h1).symm.trans (has_fam vb h2))
  · refine h3 (hi.types.inj (v := st.kind a) (kind?_of_known ha) ?_)
    rw [has_lit va vb h1 h2]; exact kind?_of_known hb

/-- What the last loop of `intersection` knows of the families it has seen. -/
def FamOk (st : Store) (seen : List Nat) (f : Nat) : Prop :=
  (f = 0 ∧ ∀ m ∈ seen, fam (st.kind m) = 0) ∨
  (f ∈ [1, 2, 4, 8, 16] ∧ (∃ m ∈ seen, fam (st.kind m) = f) ∧
    ∀ m ∈ seen, fam (st.kind m) = 0 ∨ fam (st.kind m) = f)

/-- What it knows of the literals of one family. -/
def SlotOk (st : Store) (p : Kind → Prop) (seen : List Nat) (o : Option Nat) : Prop :=
  ∀ x, o = some x ↔ x ∈ seen ∧ p (st.kind x)

theorem fam_cases (k : Kind) : fam k ∈ [0, 1, 2, 4, 8, 16] := by
  cases k <;> simp [fam]

theorem bits {f g : Nat} (hf : f ∈ [0, 1, 2, 4, 8, 16]) (hg : g ∈ [0, 1, 2, 4, 8, 16]) :
    ((f ||| g) &&& ((f ||| g) - 1) ≠ 0 ↔ f ≠ 0 ∧ g ≠ 0 ∧ f ≠ g) ∧
    (f = 0 → f ||| g = g) ∧ (g = 0 → f ||| g = f) ∧ (f = g → f ||| g = f) := by
  have : ∀ f ∈ [0, 1, 2, 4, 8, 16], ∀ g ∈ [0, 1, 2, 4, 8, 16],
      ((f ||| g) &&& ((f ||| g) - 1) ≠ 0 ↔ f ≠ 0 ∧ g ≠ 0 ∧ f ≠ g) ∧
      (f = 0 → f ||| g = g) ∧ (g = 0 → f ||| g = f) ∧ (f = g → f ||| g = f) := by decide
  exact this f hf g hg

theorem famStep {st : Store} {seen : List Nat} {f m : Nat} (h : FamOk st seen f) :
    if (f ||| fam (st.kind m)) &&& ((f ||| fam (st.kind m)) - 1) ≠ 0 then
      ∃ a ∈ seen, fam (st.kind a) ≠ 0 ∧ fam (st.kind m) ≠ 0 ∧ fam (st.kind a) ≠ fam (st.kind m)
    else FamOk st (m :: seen) (f ||| fam (st.kind m)) ∧
      ∀ a ∈ seen, fam (st.kind a) = 0 ∨ fam (st.kind m) = 0 ∨ fam (st.kind a) = fam (st.kind m) := by
  have hf : f ∈ [0, 1, 2, 4, 8, 16] := by
    rcases h with ⟨rfl, _⟩ | ⟨h, _⟩
    · simp
    · exact List.mem_cons_of_mem _ h
  obtain ⟨b1, b2, b3, b4⟩ := bits hf (fam_cases (st.kind m))
  by_cases hc : (f ||| fam (st.kind m)) &&& ((f ||| fam (st.kind m)) - 1) ≠ 0
  · rw [if_pos hc]
    obtain ⟨h1, h2, h3⟩ := b1.1 hc
    rcases h with ⟨h0, _⟩ | ⟨_, ⟨a, ha, e⟩, _⟩
    · exact absurd h0 h1
    · exact ⟨a, ha, e ▸ h1, h2, e ▸ h3⟩
  · rw [if_neg hc]
    have hn := fun h => hc (b1.2 h)
    rcases h with ⟨h0, hall⟩ | ⟨hmem, ⟨a, ha, e⟩, hall⟩
    · refine ⟨?_, fun a ha => .inl (hall a ha)⟩
      rw [b2 h0]
      by_cases hg : fam (st.kind m) = 0
      · refine .inl ⟨hg, ?_⟩
        intro x hx
        rcases List.mem_cons.1 hx with rfl | hx
        · exact hg
        · exact hall x hx
      · refine .inr ⟨?_, ⟨m, List.mem_cons_self .., rfl⟩, ?_⟩
        · rcases List.mem_cons.1 (fam_cases (st.kind m)) with h | h
          · exact absurd h hg
          · exact h
        · intro x hx
          rcases List.mem_cons.1 hx with rfl | hx
          · exact .inr rfl
          · exact .inl (hall x hx)
    · have hf0 : f ≠ 0 := by rintro rfl; simp at hmem
      have hgf : fam (st.kind m) = 0 ∨ fam (st.kind m) = f := by
        by_cases hg : fam (st.kind m) = 0
        · exact .inl hg
        · refine .inr ?_
          apply Decidable.byContradiction
          intro hne
          exact hn ⟨hf0, hg, fun e => hne e.symm⟩
      have hor : f ||| fam (st.kind m) = f := by
        rcases hgf with h | h
        · exact b3 h
        · exact b4 h.symm
      rw [hor]
      refine ⟨.inr ⟨hmem, ⟨a, List.mem_cons_of_mem _ ha, e⟩, ?_⟩, ?_⟩
      · intro x hx
        rcases List.mem_cons.1 hx with rfl | hx
        · exact hgf
        · exact hall x hx
      · intro x hx
        rcases hall x hx with h | h
        · exact .inl h
        · rcases hgf with h' | h'
          · exact .inr (.inl h')
          · exact .inr (.inr (h.trans h'.symm))

theorem slotStep {st : Store} {p : Kind → Prop} {seen : List Nat} {o : Option Nat} {m : Nat}
    (h : SlotOk st p seen o) (hm : p (st.kind m)) :
    (seenLit o m = none ∧ ∃ a ∈ seen, p (st.kind a) ∧ a ≠ m) ∨
    (∃ o', seenLit o m = some o' ∧ SlotOk st p (m :: seen) o' ∧
      ∀ a ∈ seen, p (st.kind a) → a = m) := by
  cases o with
  | none =>
    refine .inr ⟨some m, rfl, ?_, fun a ha hp => absurd ((h a).2 ⟨ha, hp⟩) (by simp)⟩
    intro x
    constructor
    · intro e; cases e; exact ⟨List.mem_cons_self .., hm⟩
    · rintro ⟨hx, hp⟩
      rcases List.mem_cons.1 hx with rfl | hx
      · rfl
      · exact absurd ((h x).2 ⟨hx, hp⟩) (by simp)
  | some q =>
    obtain ⟨hq, hpq⟩ := (h q).1 rfl
    by_cases e : q = m
    · subst e
      refine .inr ⟨some q, by simp [seenLit], ?_, fun a ha hp => by
        have := (h a).2 ⟨ha, hp⟩; simpa using this.symm⟩
      intro x
      constructor
      · intro e; cases e; exact ⟨List.mem_cons_self .., hm⟩
      · rintro ⟨hx, hp⟩
        rcases List.mem_cons.1 hx with rfl | hx
        · rfl
        · exact (h x).2 ⟨hx, hp⟩
    · exact .inl ⟨by simp [seenLit, e], q, hq, hpq, e⟩

theorem slotSkip {st : Store} {p : Kind → Prop} {seen : List Nat} {o : Option Nat} {m : Nat}
    (h : SlotOk st p seen o) (hm : ¬ p (st.kind m)) : SlotOk st p (m :: seen) o := by
  intro x
  rw [h x]
  constructor
  · rintro ⟨hx, hp⟩; exact ⟨List.mem_cons_of_mem _ hx, hp⟩
  · rintro ⟨hx, hp⟩
    rcases List.mem_cons.1 hx with rfl | hx
    · exact absurd hp hm
    · exact ⟨hx, hp⟩

def IsStr : Kind → Prop | .strLit _ => True | _ => False
def IsNum : Kind → Prop | .numLit _ => True | _ => False
def IsBool : Kind → Prop | .boolLit _ => True | _ => False
def IsBig : Kind → Prop | .bigLit _ => True | _ => False

structure ScanOk (st : Store) (seen : List Nat) (s : Scan) : Prop where
  fams : FamOk st seen s.families
  str : SlotOk st IsStr seen s.strLit
  num : SlotOk st IsNum seen s.numLit
  bool : SlotOk st IsBool seen s.boolLit
  big : SlotOk st IsBig seen s.bigLit

/-- The part of a step of the loop that deals with literals. -/
def litStep (st : Store) (s : Scan) (m : Nat) : Option Scan :=
  match st.kind m with
  | .strLit _ => (seenLit s.strLit m).map fun l => { s with strLit := l }
  | .numLit _ => (seenLit s.numLit m).map fun l => { s with numLit := l }
  | .boolLit _ => (seenLit s.boolLit m).map fun l => { s with boolLit := l }
  | .bigLit _ => (seenLit s.bigLit m).map fun l => { s with bigLit := l }
  | _ => some s

theorem scanStep_eq (st : Store) (s : Scan) (m : Nat) :
    st.scanStep s m = match litStep st s m with
      | none => none
      | some s' =>
        if (s.families ||| fam (st.kind m)) &&& ((s.families ||| fam (st.kind m)) - 1) ≠ 0 then none
        else some { s' with families := s.families ||| fam (st.kind m) } := by
  unfold Store.scanStep litStep
  cases st.kind m <;> simp only [fam, Nat.or_zero] <;> try rfl
  case boolLit => cases seenLit s.boolLit m <;> rfl
  case numLit => cases seenLit s.numLit m <;> rfl
  case strLit => cases seenLit s.strLit m <;> rfl
  case bigLit => cases seenLit s.bigLit m <;> rfl

/-- One step of the loop returns `never` exactly if the member is apart from one seen before. -/
theorem scanStep_spec {st : Store} {seen : List Nat} {s : Scan} {m : Nat} (h : ScanOk st seen s) :
    (st.scanStep s m = none ∧ ∃ a ∈ seen, Apart st a m) ∨
    (∃ s', st.scanStep s m = some s' ∧ ScanOk st (m :: seen) s' ∧ ∀ a ∈ seen, ¬ Apart st a m) := by
  have hf := famStep (m := m) h.fams
  rw [scanStep_eq]
  -- the part of the proof that is the same for each kind of literal
  have fin : ∀ (s' : Scan), litStep st s m = some s' → SlotOk st IsStr (m :: seen) s'.strLit →
      SlotOk st IsNum (m :: seen) s'.numLit → SlotOk st IsBool (m :: seen) s'.boolLit →
      SlotOk st IsBig (m :: seen) s'.bigLit →
      (∀ a ∈ seen, IsLit (st.kind a) → IsLit (st.kind m) → fam (st.kind a) = fam (st.kind m) → a = m) →
      ((match litStep st s m with
      | none => none
      | some s' =>
        if (s.families ||| fam (st.kind m)) &&& ((s.families ||| fam (st.kind m)) - 1) ≠ 0 then none
        else some { s' with families := s.families ||| fam (st.kind m) }) = none ∧
          ∃ a ∈ seen, Apart st a m) ∨
      (∃ s'', (match litStep st s m with
      | none => none
      | some s' =>
        if (s.families ||| fam (st.kind m)) &&& ((s.families ||| fam (st.kind m)) - 1) ≠ 0 then none
        else some { s' with families := s.families ||| fam (st.kind m) }) = some s'' ∧
          ScanOk st (m :: seen) s'' ∧ ∀ a ∈ seen, ¬ Apart st a m) := by
    intro s' e g1 g2 g3 g4 g5
    rw [e]
    simp only
    by_cases hc : (s.families ||| fam (st.kind m)) &&& ((s.families ||| fam (st.kind m)) - 1) ≠ 0
    · rw [if_pos hc] at hf ⊢
      obtain ⟨a, ha, h1, h2, h3⟩ := hf
      exact .inl ⟨rfl, a, ha, .inl ⟨h1, h2, h3⟩⟩
    · rw [if_neg hc] at hf ⊢
      refine .inr ⟨_, rfl, ⟨hf.1, g1, g2, g3, g4⟩, ?_⟩
      rintro a ha (⟨h1, h2, h3⟩ | ⟨h1, h2, h3, h4⟩)
      · rcases hf.2 a ha with h | h | h
        · exact h1 h
        · exact h2 h
        · exact h3 h
      · exact h4 (g5 a ha h1 h2 h3)
  cases hk : st.kind m
  case strLit n =>
    have hm : IsStr (st.kind m) := by rw [hk]; trivial
    have e : litStep st s m = (seenLit s.strLit m).map fun l => { s with strLit := l } := by
      unfold litStep; rw [hk]
    rw [← hk]
    rcases slotStep h.str hm with ⟨e1, a, ha, hpa, hne⟩ | ⟨o', e1, hs, hu⟩
    · rw [e, e1]
      refine .inl ⟨rfl, a, ha, .inr ?_⟩
      rw [hk]
      cases ea : st.kind a <;> rw [ea] at hpa <;> simp only [IsStr] at hpa
      exact ⟨trivial, trivial, rfl, hne⟩
    · refine fin { s with strLit := o' } (by rw [e, e1]; rfl) hs (slotSkip h.num (by rw [hk]; exact id))
        (slotSkip h.bool (by rw [hk]; exact id)) (slotSkip h.big (by rw [hk]; exact id)) ?_
      intro a ha h1 _ h3
      refine hu a ha ?_
      rw [hk] at h3
      cases ea : st.kind a <;> rw [ea] at h1 h3 <;> simp only [IsLit] at h1 <;> simp [fam] at h3
      trivial
  case numLit n =>
    have hm : IsNum (st.kind m) := by rw [hk]; trivial
    have e : litStep st s m = (seenLit s.numLit m).map fun l => { s with numLit := l } := by
      unfold litStep; rw [hk]
    rw [← hk]
    rcases slotStep h.num hm with ⟨e1, a, ha, hpa, hne⟩ | ⟨o', e1, hs, hu⟩
    · rw [e, e1]
      refine .inl ⟨rfl, a, ha, .inr ?_⟩
      rw [hk]
      cases ea : st.kind a <;> rw [ea] at hpa <;> simp only [IsNum] at hpa
      exact ⟨trivial, trivial, rfl, hne⟩
    · refine fin { s with numLit := o' } (by rw [e, e1]; rfl) (slotSkip h.str (by rw [hk]; exact id)) hs
        (slotSkip h.bool (by rw [hk]; exact id)) (slotSkip h.big (by rw [hk]; exact id)) ?_
      intro a ha h1 _ h3
      refine hu a ha ?_
      rw [hk] at h3
      cases ea : st.kind a <;> rw [ea] at h1 h3 <;> simp only [IsLit] at h1 <;> simp [fam] at h3
      trivial
  case boolLit n =>
    have hm : IsBool (st.kind m) := by rw [hk]; trivial
    have e : litStep st s m = (seenLit s.boolLit m).map fun l => { s with boolLit := l } := by
      unfold litStep; rw [hk]
    rw [← hk]
    rcases slotStep h.bool hm with ⟨e1, a, ha, hpa, hne⟩ | ⟨o', e1, hs, hu⟩
    · rw [e, e1]
      refine .inl ⟨rfl, a, ha, .inr ?_⟩
      rw [hk]
      cases ea : st.kind a <;> rw [ea] at hpa <;> simp only [IsBool] at hpa
      exact ⟨trivial, trivial, rfl, hne⟩
    · refine fin { s with boolLit := o' } (by rw [e, e1]; rfl) (slotSkip h.str (by rw [hk]; exact id))
        (slotSkip h.num (by rw [hk]; exact id)) hs (slotSkip h.big (by rw [hk]; exact id)) ?_
      intro a ha h1 _ h3
      refine hu a ha ?_
      rw [hk] at h3
      cases ea : st.kind a <;> rw [ea] at h1 h3 <;> simp only [IsLit] at h1 <;> simp [fam] at h3
      trivial
  case bigLit n =>
    have hm : IsBig (st.kind m) := by rw [hk]; trivial
    have e : litStep st s m = (seenLit s.bigLit m).map fun l => { s with bigLit := l } := by
      unfold litStep; rw [hk]
    rw [← hk]
    rcases slotStep h.big hm with ⟨e1, a, ha, hpa, hne⟩ | ⟨o', e1, hs, hu⟩
    · rw [e, e1]
      refine .inl ⟨rfl, a, ha, .inr ?_⟩
      rw [hk]
      cases ea : st.kind a <;> rw [ea] at hpa <;> simp only [IsBig] at hpa
      exact ⟨trivial, trivial, rfl, hne⟩
    · refine fin { s with bigLit := o' } (by rw [e, e1]; rfl) (slotSkip h.str (by rw [hk]; exact id))
        (slotSkip h.num (by rw [hk]; exact id)) (slotSkip h.bool (by rw [hk]; exact id)) hs ?_
      intro a ha h1 _ h3
      refine hu a ha ?_
      rw [hk] at h3
      cases ea : st.kind a <;> rw [ea] at h1 h3 <;> simp only [IsLit] at h1 <;> simp [fam] at h3
      trivial
  all_goals
    rw [← hk]
    refine fin s (by unfold litStep; rw [hk]) (slotSkip h.str (by rw [hk]; exact id))
      (slotSkip h.num (by rw [hk]; exact id)) (slotSkip h.bool (by rw [hk]; exact id))
      (slotSkip h.big (by rw [hk]; exact id)) (fun a _ _ h2 => by rw [hk] at h2; exact absurd h2 id)

theorem apart_symm {st : Store} {a b : Nat} (h : Apart st a b) : Apart st b a := by
  rcases h with ⟨h1, h2, h3⟩ | ⟨h1, h2, h3, h4⟩
  · exact .inl ⟨h2, h1, fun e => h3 e.symm⟩
  · exact .inr ⟨h2, h1, h3.symm, fun e => h4 e.symm⟩

theorem apart_irrefl {st : Store} {a : Nat} (h : Apart st a a) : False := by
  rcases h with ⟨_, _, h3⟩ | ⟨_, _, _, h4⟩
  · exact h3 rfl
  · exact h4 rfl

theorem scan_spec {st : Store} : ∀ (l seen : List Nat) (s : Scan), ScanOk st seen s →
    (∀ a ∈ seen, ∀ b ∈ seen, ¬ Apart st a b) →
    (l.foldlM st.scanStep s = none ↔ ∃ a ∈ seen ++ l, ∃ b ∈ seen ++ l, Apart st a b)
  | [], seen, s, _, hn => by
    simp only [List.foldlM_nil, List.append_nil]
    constructor
    · intro h; cases h
    · rintro ⟨a, ha, b, hb, h⟩; exact absurd h (hn a ha b hb)
  | m :: l, seen, s, h, hn => by
    rw [List.foldlM_cons]
    rcases scanStep_spec (m := m) h with ⟨e, a, ha, hap⟩ | ⟨s', e, hs, hna⟩
    · rw [e]
      refine ⟨fun _ => ⟨a, List.mem_append_left _ ha, m, by simp, hap⟩, fun _ => rfl⟩
    · rw [e]
      show l.foldlM st.scanStep s' = none ↔ _
      rw [scan_spec l (m :: seen) s' hs]
      · have : ∀ x, x ∈ m :: seen ++ l ↔ x ∈ seen ++ m :: l := by
          intro x; simp only [List.mem_append, List.mem_cons]; grind
        simp only [this]
      · intro a ha b hb hab
        rcases List.mem_cons.1 ha with rfl | ha <;> rcases List.mem_cons.1 hb with rfl | hb
        · exact apart_irrefl hab
        · exact hna b hb (apart_symm hab)
        · exact hna a (by assumption) hab
        · exact hn a ha b hb hab

/-- The last loop of `intersection` returns `never` exactly if two members are apart. -/
theorem scan_none {st : Store} {l : List Nat} :
    l.foldlM st.scanStep ⟨0, none, none, none, none⟩ = none ↔ ∃ a ∈ l, ∃ b ∈ l, Apart st a b := by
  have := scan_spec (st := st) l [] ⟨0, none, none, none, none⟩
    ⟨.inl ⟨rfl, fun m hm => absurd hm List.not_mem_nil⟩, by intro x; simp, by intro x; simp,
      by intro x; simp, by intro x; simp⟩ (fun a ha => absurd ha List.not_mem_nil)
  simpa using this

/-- Flattening an intersection changes nothing. -/
theorem flatI_has {st : Store} {ms : List Nat} {v : Val} (hk : TypesKnown st ms)
    (hn : st.hasKind .never ms = false) (ha : st.hasKind .any ms = false) :
    (∀ m ∈ ms.flatMap (iParts st), Has st O v m) ↔ ∀ m ∈ ms, Has st O v m := by
  have hn' : ∀ (k : Kind), st.hasKind k ms = false → ∀ m ∈ ms, st.kind m ≠ k := by
    intro k h m hm e
    rw [hasKind_iff.2 ⟨m, hm, e⟩] at h; cases h
  have key : ∀ m ∈ ms, (∀ c ∈ iParts st m, Has st O v c) ↔ Has st O v m := by
    intro m hm
    rw [has_iff (hk m hm)]
    have h1 := hn' _ hn m hm
    have h2 := hn' _ ha m hm
    unfold iParts
    cases hkd : st.kind m <;> simp only [hkd] at h1 h2 ⊢
    case never => exact absurd rfl h1
    case any => exact absurd rfl h2
    case unknown => simp [KindHas]
    case inter inner => rfl
    all_goals
      rw [← hkd, ← has_iff (hk m hm)]
      simp
  constructor
  · intro h m hm
    exact (key m hm).1 fun c hc => h c (List.mem_flatMap.2 ⟨m, hm, hc⟩)
  · intro h c hc
    obtain ⟨m, hm, hc⟩ := List.mem_flatMap.1 hc
    exact (key m hm).2 (h m hm) c hc

/-- A member that `intersection` drops contains one that it keeps. -/
theorem keptI {st : Store} {flat : List Nat} {m : Nat}
    (hkeep : st.interKeeps flat m = false) :
    ∃ c ∈ flat, st.interKeeps flat c = true ∧ fam (st.kind c) = fam (st.kind m) ∧
      ¬ IsLit (st.kind m) ∧
      ∀ (O : Kind → Val → Prop) (v : Val), KindHas st O v (st.kind c) → KindHas st O v (st.kind m) := by
  unfold Store.interKeeps at hkeep
  cases hkd : st.kind m <;>
    simp only [hkd, Bool.not_eq_eq_eq_not, Bool.not_false, Bool.and_eq_false_iff, reduceCtorEq] at hkeep
  case boolean =>
    obtain ⟨c, hc, hl⟩ := hasLit_iff.1 hkeep
    refine ⟨c, hc, ?_⟩
    unfold Store.interKeeps
    cases e : st.kind c <;> simp only [e, reduceCtorEq] at hl
    exact ⟨rfl, rfl, id, fun O v h => ⟨_, h⟩⟩
  case number =>
    obtain ⟨c, hc, hl⟩ := hasLit_iff.1 hkeep
    refine ⟨c, hc, ?_⟩
    unfold Store.interKeeps
    cases e : st.kind c <;> simp only [e, reduceCtorEq] at hl
    exact ⟨rfl, rfl, id, fun O v h => ⟨_, h⟩⟩
  case bigint =>
    obtain ⟨c, hc, hl⟩ := hasLit_iff.1 hkeep
    refine ⟨c, hc, ?_⟩
    unfold Store.interKeeps
    cases e : st.kind c <;> simp only [e, reduceCtorEq] at hl
    exact ⟨rfl, rfl, id, fun O v h => ⟨_, h⟩⟩
  case symbol =>
    obtain ⟨c, hc, hl⟩ := hasLit_iff.1 hkeep
    refine ⟨c, hc, ?_⟩
    unfold Store.interKeeps
    cases e : st.kind c <;> simp only [e, reduceCtorEq] at hl
    exact ⟨rfl, rfl, id, fun O v h => by obtain ⟨s, h, _⟩ := h; exact ⟨s, h⟩⟩
  case string =>
    rcases hkeep with hkeep | hkeep
    · obtain ⟨c, hc, hl⟩ := hasLit_iff.1 hkeep
      refine ⟨c, hc, ?_⟩
      unfold Store.interKeeps
      cases e : st.kind c <;> simp only [e, reduceCtorEq] at hl
      exact ⟨rfl, rfl, id, fun O v h => ⟨_, h⟩⟩
    · obtain ⟨c, hc, hl⟩ := hasLit_iff.1 hkeep
      refine ⟨c, hc, ?_⟩
      unfold Store.interKeeps
      cases e : st.kind c <;> simp only [e, reduceCtorEq] at hl
      exact ⟨rfl, rfl, id, fun O v h => by obtain ⟨s, h, _⟩ := h; exact ⟨s, h⟩⟩

theorem keptI_has {st : Store} {flat : List Nat} {v : Val} (hk : TypesKnown st flat) :
    (∀ m ∈ st.sortDedup (flat.filter (st.interKeeps flat)), Has st O v m) ↔
      ∀ m ∈ flat, Has st O v m := by
  constructor
  · intro h m hm
    cases hkeep : st.interKeeps flat m with
    | true => exact h m (mem_kept.2 ⟨hm, hkeep⟩)
    | false =>
      obtain ⟨c, hc, hck, _, _, hsub⟩ := keptI hkeep
      have := h c (mem_kept.2 ⟨hc, hck⟩)
      rw [has_iff (hk c hc)] at this
      rw [has_iff (hk m hm)]
      exact hsub O v this
  · exact fun h m hm => h m (mem_kept.1 hm).1

theorem inter_has {H : Hashes} {st st' : Store} {ms : List Nat} {i : Nat} {v : Val} (hi : Inv H st)
    (hk : TypesKnown st ms) (hna : ∀ m ∈ ms, st.kind? m ≠ some .any)
    (h : st.intersection H ms = some (st', i)) :
    Has st' O v i ↔ ∀ m ∈ ms, Has st O v m := by
  rw [inter_eq hi.core hk] at h
  have ha : st.hasKind .any ms = false := hasKind_false fun m hm e => by
    have := kind?_of_known (hk m hm)
    rw [e] at this
    exact hna m hm this
  unfold interOf at h
  split at h
  · rename_i hnv
    simp only [Option.some.injEq, Prod.mk.injEq] at h
    obtain ⟨rfl, rfl⟩ := h
    obtain ⟨m, hm, e⟩ := hasKind_iff.1 hnv
    rw [has_of_kind hi.prims.never]
    constructor
    · intro h; exact absurd h id
    · intro h
      have := h m hm
      rw [has_iff (hk m hm), e] at this
      exact this
  · rename_i hnv
    rw [ha] at h
    simp only [Bool.false_eq_true, if_false] at h
    obtain ⟨hkf, hpf⟩ := flatI_known hi.core hk
    have hres := interFinish_spec hi.core hkf hpf h
    rw [← flatI_has hk (by simpa using hnv) ha, ← keptI_has hkf]
    have hkk : TypesKnown st (st.sortDedup ((ms.flatMap (iParts st)).filter
        (st.interKeeps (ms.flatMap (iParts st))))) := fun m hm => hkf m (mem_kept.1 hm).1
    generalize st.sortDedup ((ms.flatMap (iParts st)).filter
        (st.interKeeps (ms.flatMap (iParts st)))) = l at hres hkk ⊢
    cases hres with
    | empty hl h1 h2 =>
      subst hl h1 h2
      rw [has_of_kind hi.prims.unknown]; simp [KindHas]
    | one a hl h1 h2 =>
      subst hl h1 h2
      simp
    | clash _ hs h1 h2 =>
      subst h1 h2
      rw [has_of_kind hi.prims.never]
      obtain ⟨a, ha, b, hb, hab⟩ := scan_none.1 hs
      constructor
      · intro h; exact absurd h id
      · intro h; exact apart_has hi.core (hkk a ha) (hkk b hb) hab (h a ha) (h b hb)
    | many hu hc hle hl =>
      rw [has_of_kind hl]
      constructor
      · intro h m hm; exact (has_mono hi.core hle (hkk m hm)).1 (h m hm)
      · intro h m hm; exact has_up hle (h m hm)

end
end Verif.Types
