import Verif.Types.Canonical
/-!
# C48: unions and intersections are canonical; C66: and mean what they should

`H` stands for the fingerprint functions, which are arbitrary.
-/

namespace Verif.Types
open Store
open Verif.Harness

/-! ## A store to test hypotheses on -/

/-- Fingerprints that always collide: the salt alone decides. -/
def hashes : Hashes := ⟨fun _ s => s, fun _ s => s, fun _ s => s, fun _ s => s, fun _ s => s⟩

/-- The store after an operation. -/
def after (st : Store) (o : Op) : Store :=
  match o.run hashes st with
  | some (st', _) => st'
  | none => st

theorem reach_after {st : Store} {o : Op} (h : Reachable hashes st) (hk : o.Known st) :
    Reachable hashes (after st o) := by
  unfold after
  split
  · exact .op h hk ‹_›
  · exact h

/-- A new store. Its types are: 0 any, 1 unknown, 2 never, 3 void, 4 null, 5 undefined, 6 boolean,
7 number, 8 string, 9 bigint, 10 symbol, 11 unique symbol. -/
def w0 : Store :=
  match Store.new hashes with
  | some st => st
  | none => ⟨[], [], [], [], ⟨[], []⟩, ⟨0, 0, 0, 0, 0, 0, 0⟩⟩

theorem reach_w0 : Reachable hashes w0 := by
  have : Store.new hashes = some w0 := by decide +kernel
  exact .new this

/-- Type 12 is `true`, type 13 is `false`. -/
def w1 : Store := after (after w0 (.type (.boolLit true))) (.type (.boolLit false))

theorem known_atom {st : Store} {k : Kind} (h : Atom k) : (Op.type k).Known st := h.known

theorem reach_w1 : Reachable hashes w1 :=
  reach_after (reach_after reach_w0 (known_atom ⟨rfl, by simp, by simp, by simp, by simp, by simp⟩))
    (known_atom ⟨rfl, by simp, by simp, by simp, by simp, by simp⟩)

/-- Type 14 is the union of `string` and `number`. -/
def w2 : Store := after w1 (.union [8, 7])

theorem reach_w2 : Reachable hashes w2 := by
  refine reach_after reach_w1 ?_
  show ∀ t ∈ [8, 7], (w1.kind? t).isSome
  decide +kernel

example : w2.kind? 14 = some (.union [7, 8]) ∧ w2.kind? 12 = some (.boolLit true) ∧
    w2.kind? 13 = some (.boolLit false) := by decide +kernel

theorem later_le {H : Hashes} {st st' : Store} (hi : Inv H st) (h : Later H st st') :
    Inv H st' ∧ Le st st' := by
  induction h with
  | refl => exact ⟨hi, Le.refl _⟩
  | op _ hk h ih => exact ⟨(op_ok ih.1 hk h).1, ih.2.trans (op_ok ih.1 hk h).2⟩

/-! ## Order and repetition -/

/-- **C48.** The result of `union` and of `intersection` depends on the set of members only. -/
theorem C48_set {H : Hashes} {st : Store} (h : Reachable H st) (ms ms' : List Nat)
    (hk : TypesKnown st ms) (he : ∀ t, t ∈ ms ↔ t ∈ ms') :
    st.union H ms = st.union H ms' ∧ st.intersection H ms = st.intersection H ms' := by
  have hi := (reachable_inv h).core
  have hk' : TypesKnown st ms' := fun t ht => hk t ((he t).2 ht)
  rw [union_eq hi hk, union_eq hi hk', inter_eq hi hk, inter_eq hi hk']
  exact ⟨unionOf_congr he, interOf_congr he⟩

example : TypesKnown w2 [8, 7, 8] ∧ ∀ t, t ∈ [8, 7, 8] ↔ t ∈ [7, 8] := by
  refine ⟨?_, by simp⟩
  show ∀ t ∈ [8, 7, 8], (w2.kind? t).isSome
  decide +kernel

/-- **C48.** The result depends neither on what was interned in between: whatever happens to the store
after the first call, a later one with the same set of members returns the same identifier, and
changes nothing. -/
theorem C48_stable {H : Hashes} {st st1 st' : Store} (h : Reachable H st) (ms ms' : List Nat) (i : Nat)
    (hk : TypesKnown st ms) (he : ∀ t, t ∈ ms ↔ t ∈ ms') (hl : Later H st1 st') :
    (st.union H ms = some (st1, i) → st'.union H ms' = some (st', i)) ∧
    (st.intersection H ms = some (st1, i) → st'.intersection H ms' = some (st', i)) := by
  have hi := reachable_inv h
  constructor
  · intro hu
    obtain ⟨hi', hle⟩ := later_le (union_ok hi hk hu).inv hl
    have hk' := (hk.mono (union_ok hi hk hu).le).mono hle
    rw [← union_later hi hk hu hle hi'.core, union_eq hi'.core hk',
      union_eq hi'.core (fun t ht => hk' t ((he t).2 ht))]
    exact unionOf_congr fun t => (he t).symm
  · intro hu
    obtain ⟨hi', hle⟩ := later_le (inter_ok hi hk hu).inv hl
    have hk' := (hk.mono (inter_ok hi hk hu).le).mono hle
    rw [← inter_later hi hk hu hle hi'.core, inter_eq hi'.core hk',
      inter_eq hi'.core (fun t ht => hk' t ((he t).2 ht))]
    exact interOf_congr fun t => (he t).symm

example : w1.union hashes [8, 7] = some (w2, 14) := by decide +kernel

/-! ## Canonical forms -/

/-- **C48.** Canonicalising a type that the store handed out changes nothing. -/
theorem C48_canon {H : Hashes} {st : Store} (h : Reachable H st) (t : Nat) (ht : (st.kind? t).isSome) :
    st.canon H t = some (st, t) ∧ st.union H [t] = some (st, t) ∧
      st.intersection H [t] = some (st, t) := by
  have hi := reachable_inv h
  have hk : TypesKnown st [t] := fun x hx => by rw [List.mem_singleton.1 hx]; exact ht
  have hkt := kind?_of_known ht
  refine ⟨canon_id hi.core ht, ?_, ?_⟩
  · rw [union_eq hi.core hk]
    unfold unionOf
    by_cases ha : st.hasKind .any [t] = true
    · rw [if_pos ha]
      have := (hasKind_single ht).1 ha
      rw [hi.core.types.inj hi.prims.any this]
    · rw [if_neg ha]
      by_cases hu : st.hasKind .unknown [t] = true
      · rw [if_pos hu]
        have := (hasKind_single ht).1 hu
        rw [hi.core.types.inj hi.prims.unknown this]
      · rw [if_neg hu]
        have ha' : st.kind t ≠ .any := fun e => ha ((hasKind_single ht).2 (e ▸ hkt))
        have hu' : st.kind t ≠ .unknown := fun e => hu ((hasKind_single ht).2 (e ▸ hkt))
        by_cases hn : st.kind t = .never
        · have e : [t].flatMap (uParts st) = [] := by simp [uParts, hn]
          rw [e]
          rw [hn] at hkt
          rw [← hi.core.types.inj hi.prims.never hkt]
          rfl
        · by_cases hm : ∃ ms, st.kind t = .union ms
          · obtain ⟨ms, hm⟩ := hm
            have e : [t].flatMap (uParts st) = ms := by simp [uParts, hm]
            rw [hm] at hkt
            rw [e, unionFinish_canon (hi.core.unions t ms hkt)]
            exact insertType_present hi.core hkt
          · have hp : PlainU (st.kind t) := ⟨ha', hu', hn, fun ms e => hm ⟨ms, e⟩⟩
            have e : [t].flatMap (uParts st) = [t] := by simp [uParts_plain hp]
            rw [e]
            unfold unionFinish
            have hkeep : st.unionKeeps [t] t = true := by
              unfold Store.unionKeeps Store.hasKind
              cases hk2 : st.kind t <;> simp [hk2, beq_eq_decide]
            rw [List.filter_eq_self.2 (by simpa using hkeep), sortDedup_id (by simp)]
  · rw [inter_eq hi.core hk]
    unfold interOf
    by_cases ha : st.hasKind .never [t] = true
    · rw [if_pos ha]
      have := (hasKind_single ht).1 ha
      rw [hi.core.types.inj hi.prims.never this]
    · rw [if_neg ha]
      by_cases hu : st.hasKind .any [t] = true
      · rw [if_pos hu]
        have := (hasKind_single ht).1 hu
        rw [hi.core.types.inj hi.prims.any this]
      · rw [if_neg hu]
        have ha' : st.kind t ≠ .never := fun e => ha ((hasKind_single ht).2 (e ▸ hkt))
        have hu' : st.kind t ≠ .any := fun e => hu ((hasKind_single ht).2 (e ▸ hkt))
        by_cases hn : st.kind t = .unknown
        · have e : [t].flatMap (iParts st) = [] := by simp [iParts, hn]
          rw [e]
          rw [hn] at hkt
          rw [← hi.core.types.inj hi.prims.unknown hkt]
          rfl
        · by_cases hm : ∃ ms, st.kind t = .inter ms
          · obtain ⟨ms, hm⟩ := hm
            have e : [t].flatMap (iParts st) = ms := by simp [iParts, hm]
            rw [hm] at hkt
            rw [e, interFinish_canon (hi.core.inters t ms hkt)]
            exact insertType_present hi.core hkt
          · have hp : PlainI (st.kind t) := ⟨hu', hn, ha', fun ms e => hm ⟨ms, e⟩⟩
            have e : [t].flatMap (iParts st) = [t] := by simp [iParts_plain hp]
            rw [e]
            unfold interFinish
            have hkeep : st.interKeeps [t] t = true := by
              unfold Store.interKeeps Store.hasLit
              cases hk2 : st.kind t <;> simp [hk2]
            rw [List.filter_eq_self.2 (by simpa using hkeep)]
            simp only
            rw [sortDedup_id (by simp)]

example : (w2.kind? 14).isSome := by decide +kernel

theorem partOf_drops {k q : Kind} (h : PartOf k q) :
    ∀ (st : Store) (ms : List Nat) (m p : Nat), p ∈ ms → st.kind m = k → st.kind p = q →
      st.unionKeeps ms m = false := by
  intro st ms m p hp hm hq
  have : st.hasKind q ms = true := hasKind_iff.2 ⟨p, hp, hq⟩
  unfold Store.unionKeeps
  rw [hm]
  cases k <;> cases q <;> simp only [PartOf] at h <;> simp [this]

theorem partOf_dropsI {k q : Kind} (h : PartOf k q) :
    ∀ (st : Store) (ms : List Nat) (m p : Nat), m ∈ ms → st.kind m = k → st.kind p = q →
      st.interKeeps ms p = false := by
  intro st ms m p hp hm hq
  have : ∀ (f : Kind → Bool), f k = true → st.hasLit f ms = true :=
    fun f hf => hasLit_iff.2 ⟨m, hp, by rw [hm]; exact hf⟩
  unfold Store.interKeeps
  rw [hq]
  cases k <;> cases q <;> simp only [PartOf] at h <;> simp [this]

theorem family_fam {a p : Kind} (h : Family a p) : fam a ≠ 0 ∧ fam p = fam a ∧
    (p = .boolean ∨ p = .number ∨ p = .string ∨ p = .bigint ∨ p = .symbol) := by
  cases a <;> cases p <;> simp only [Family] at h <;> simp [fam]

theorem disjoint_apart {st : Store} {a b : Nat} (h : Disjoint (st.kind a) (st.kind b)) : Apart st a b := by
  rcases h with ⟨p, q, hp, hq, hne⟩ | ⟨hne, h⟩
  · obtain ⟨p1, p2, p3⟩ := family_fam hp
    obtain ⟨q1, q2, q3⟩ := family_fam hq
    refine .inl ⟨p1, q1, ?_⟩
    rw [← p2, ← q2]
    intro e
    apply hne
    rcases p3 with rfl | rfl | rfl | rfl | rfl <;> rcases q3 with rfl | rfl | rfl | rfl | rfl <;>
      simp [fam] at e ⊢
  · refine .inr ?_
    have hab : a ≠ b := by rintro rfl; exact hne rfl
    rcases h with ⟨x, y, h1, h2⟩ | ⟨x, y, h1, h2⟩ | ⟨x, y, h1, h2⟩ | ⟨x, y, h1, h2⟩ <;> rw [h1, h2] <;>
      exact ⟨trivial, trivial, rfl, hab⟩

/-- **C48.** The members of a stored union are different, at least two, not unions themselves, none of
them is `any`, `unknown` or `never`, none is a literal of another one, and they are not just `true`
and `false`. Making a union of them gives the same type. -/
theorem C48_normal_union {H : Hashes} {st : Store} (h : Reachable H st) (t : Nat) (ms : List Nat)
    (ht : st.kind? t = some (.union ms)) :
    NormalUnion st ms ∧ st.union H ms = some (st, t) := by
  have hi := (reachable_inv h).core
  have hu := hi.unions t ms ht
  refine ⟨⟨hu.two, sorted_nodup (typeCmp_eq st) hu.sorted, ?_, ?_, ?_⟩, ?_⟩
  · intro m hm k hk
    have := hu.plain m hm
    rw [kind_of_kind? hk] at this
    exact this
  · intro m hm p hp k q hk hq hpart
    have := partOf_drops hpart st ms m p hp (kind_of_kind? hk) (kind_of_kind? hq)
    rw [hu.keeps m hm] at this; cases this
  · intro a b x y e ha hb
    have := hu.notBool a b e
    unfold Store.isBoolLit at this
    rw [kind_of_kind? ha, kind_of_kind? hb] at this
    cases this
  · rw [union_eq hi hu.known, unionOf_canon hu]
    exact insertType_present hi ht

example : w2.kind? 14 = some (.union [7, 8]) := by decide +kernel

/-- **C48.** The members of a stored intersection are different, at least two, not intersections
themselves, none of them is `any`, `unknown` or `never`, no literal stands beside its primitive type,
and no two are of different primitive types or different literals. Making an intersection of them gives
the same type. -/
theorem C48_normal_inter {H : Hashes} {st : Store} (h : Reachable H st) (t : Nat) (ms : List Nat)
    (ht : st.kind? t = some (.inter ms)) :
    NormalInter st ms ∧ st.intersection H ms = some (st, t) := by
  have hi := (reachable_inv h).core
  have hu := hi.inters t ms ht
  refine ⟨⟨hu.two, sorted_nodup (typeCmp_eq st) hu.sorted, ?_, ?_, ?_⟩, ?_⟩
  · intro m hm k hk
    have := hu.plain m hm
    rw [kind_of_kind? hk] at this
    exact this
  · intro m hm p hp k q hk hq hpart
    have := partOf_dropsI hpart st ms m p hm (kind_of_kind? hk) (kind_of_kind? hq)
    rw [hu.keeps p hp] at this; cases this
  · intro m hm p hp k q hk hq hd
    rw [← kind_of_kind? hk, ← kind_of_kind? hq] at hd
    have hs := hu.scan
    rw [scan_none.2 ⟨m, hm, p, hp, disjoint_apart hd⟩] at hs
    cases hs
  · rw [inter_eq hi hu.known, interOf_canon hu]
    exact insertType_present hi ht

/-- Type 15 is the intersection of `null` and the union of `string` and `number`. -/
def w3 : Store := after w2 (.inter [14, 4])

theorem reach_w3 : Reachable hashes w3 := by
  refine reach_after reach_w2 ?_
  show ∀ t ∈ [14, 4], (w2.kind? t).isSome
  decide +kernel

example : w3.kind? 15 = some (.inter [4, 14]) := by decide +kernel

/-! ## Absorption -/

/-- **C48.** `any` absorbs everything in a union, `unknown` everything else, `never` nothing. -/
theorem C48_absorb_union {H : Hashes} {st : Store} (h : Reachable H st) (ms : List Nat)
    (hk : TypesKnown st ms) :
    ((∃ m ∈ ms, st.kind? m = some .any) →
      ∃ i, st.union H ms = some (st, i) ∧ st.kind? i = some .any) ∧
    ((∀ m ∈ ms, st.kind? m ≠ some .any) → (∃ m ∈ ms, st.kind? m = some .unknown) →
      ∃ i, st.union H ms = some (st, i) ∧ st.kind? i = some .unknown) ∧
    (∀ n, st.kind? n = some .never → st.union H (n :: ms) = st.union H ms) ∧
    (∃ i, st.union H [] = some (st, i) ∧ st.kind? i = some .never) := by
  have hi := reachable_inv h
  have hkind : ∀ {k : Kind}, (∃ m ∈ ms, st.kind? m = some k) → st.hasKind k ms = true :=
    fun ⟨m, hm, e⟩ => hasKind_iff.2 ⟨m, hm, kind_of_kind? e⟩
  refine ⟨?_, ?_, ?_, ?_⟩
  · intro ha
    refine ⟨st.prims.any, ?_, hi.prims.any⟩
    rw [union_eq hi.core hk]
    unfold unionOf
    rw [if_pos (hkind ha)]
  · intro ha hu
    refine ⟨st.prims.unknown, ?_, hi.prims.unknown⟩
    rw [union_eq hi.core hk]
    unfold unionOf
    rw [hasKind_false (k := .any) fun m hm e => ha m hm (e ▸ kind?_of_known (hk m hm)),
      if_pos (hkind hu)]
    rfl
  · intro n hn
    have hk' : TypesKnown st (n :: ms) := by
      intro t ht
      rcases List.mem_cons.1 ht with rfl | ht
      · rw [hn]; rfl
      · exact hk t ht
    rw [union_eq hi.core hk, union_eq hi.core hk']
    unfold unionOf
    have e : ∀ k, k ≠ .never → st.hasKind k (n :: ms) = st.hasKind k ms := by
      intro k hkn
      unfold Store.hasKind
      rw [List.any_cons, kind_of_kind? hn, beq_eq_false_iff_ne.2 (Ne.symm hkn), Bool.false_or]
    rw [e _ (by simp), e _ (by simp), List.flatMap_cons]
    have : uParts st n = [] := by unfold uParts; rw [kind_of_kind? hn]
    rw [this, List.nil_append]
  · exact ⟨st.prims.never, rfl, hi.prims.never⟩

/-- **C48.** `never` absorbs everything in an intersection, `any` everything else, `unknown`
nothing. -/
theorem C48_absorb_inter {H : Hashes} {st : Store} (h : Reachable H st) (ms : List Nat)
    (hk : TypesKnown st ms) :
    ((∃ m ∈ ms, st.kind? m = some .never) →
      ∃ i, st.intersection H ms = some (st, i) ∧ st.kind? i = some .never) ∧
    ((∀ m ∈ ms, st.kind? m ≠ some .never) → (∃ m ∈ ms, st.kind? m = some .any) →
      ∃ i, st.intersection H ms = some (st, i) ∧ st.kind? i = some .any) ∧
    (∀ n, st.kind? n = some .unknown → st.intersection H (n :: ms) = st.intersection H ms) ∧
    (∃ i, st.intersection H [] = some (st, i) ∧ st.kind? i = some .unknown) := by
  have hi := reachable_inv h
  have hkind : ∀ {k : Kind}, (∃ m ∈ ms, st.kind? m = some k) → st.hasKind k ms = true :=
    fun ⟨m, hm, e⟩ => hasKind_iff.2 ⟨m, hm, kind_of_kind? e⟩
  refine ⟨?_, ?_, ?_, ?_⟩
  · intro ha
    refine ⟨st.prims.never, ?_, hi.prims.never⟩
    rw [inter_eq hi.core hk]
    unfold interOf
    rw [if_pos (hkind ha)]
  · intro ha hu
    refine ⟨st.prims.any, ?_, hi.prims.any⟩
    rw [inter_eq hi.core hk]
    unfold interOf
    rw [hasKind_false (k := .never) fun m hm e => ha m hm (e ▸ kind?_of_known (hk m hm)),
      if_pos (hkind hu)]
    rfl
  · intro n hn
    have hk' : TypesKnown st (n :: ms) := by
      intro t ht
      rcases List.mem_cons.1 ht with rfl | ht
      · rw [hn]; rfl
      · exact hk t ht
    rw [inter_eq hi.core hk, inter_eq hi.core hk']
    unfold interOf
    have e : ∀ k, k ≠ .unknown → st.hasKind k (n :: ms) = st.hasKind k ms := by
      intro k hkn
      unfold Store.hasKind
      rw [List.any_cons, kind_of_kind? hn, beq_eq_false_iff_ne.2 (Ne.symm hkn), Bool.false_or]
    rw [e _ (by simp), e _ (by simp), List.flatMap_cons]
    have : iParts st n = [] := by unfold iParts; rw [kind_of_kind? hn]
    rw [this, List.nil_append]
  · exact ⟨st.prims.unknown, rfl, hi.prims.unknown⟩

example : TypesKnown w2 [8, 1, 0] ∧ w2.kind? 0 = some .any ∧ w2.kind? 1 = some .unknown ∧
    w2.kind? 2 = some .never := by
  refine ⟨?_, by decide +kernel, by decide +kernel, by decide +kernel⟩
  show ∀ t ∈ [8, 1, 0], (w2.kind? t).isSome
  decide +kernel

/-! ## Nesting -/

/-- **C48.** A stored union or intersection among the members can be replaced by its own members. -/
theorem C48_flatten {H : Hashes} {st : Store} (h : Reachable H st) (a b ms : List Nat) (t : Nat)
    (hk : TypesKnown st (a ++ b)) :
    (st.kind? t = some (.union ms) → st.union H (a ++ [t] ++ b) = st.union H (a ++ ms ++ b)) ∧
    (st.kind? t = some (.inter ms) →
      st.intersection H (a ++ [t] ++ b) = st.intersection H (a ++ ms ++ b)) := by
  have hi := reachable_inv h
  have known : ∀ (l : List Nat), TypesKnown st l → TypesKnown st (a ++ l ++ b) := by
    intro l hl x hx
    simp only [List.mem_append] at hx
    rcases hx with (hx | hx) | hx
    · exact hk x (by simp [hx])
    · exact hl x hx
    · exact hk x (by simp [hx])
  have single : (st.kind? t).isSome → TypesKnown st [t] :=
    fun h x hx => by rw [List.mem_singleton.1 hx]; exact h
  constructor
  · intro ht
    have hu := hi.core.unions t ms ht
    rw [union_eq hi.core (known _ (single (by rw [ht]; rfl))), union_eq hi.core (known _ hu.known)]
    refine unionOf_nested hi hu.known ?_ (by rw [ht]; simp)
    rw [unionOf_canon hu]; exact insertType_present hi.core ht
  · intro ht
    have hu := hi.core.inters t ms ht
    rw [inter_eq hi.core (known _ (single (by rw [ht]; rfl))), inter_eq hi.core (known _ hu.known)]
    refine interOf_nested hi hu.known ?_ (by rw [ht]; simp)
    rw [interOf_canon hu]; exact insertType_present hi.core ht

example : TypesKnown w3 ([12] ++ [13]) ∧ w3.kind? 14 = some (.union [7, 8]) ∧
    w3.kind? 15 = some (.inter [4, 14]) := by
  refine ⟨?_, by decide +kernel, by decide +kernel⟩
  show ∀ t ∈ [12] ++ [13], (w3.kind? t).isSome
  decide +kernel

/-- **C48** (the part about nesting that holds). A union or intersection computed first and then used
as a member gives the same as putting its members there — unless the inner union came out as `boolean`
without `boolean` being among its members, or the inner intersection as `never` while there is an `any`
somewhere. Both exceptions are needed (`C48_boolean_violated`, `C48_any_violated`). -/
theorem C48_nested_partial {H : Hashes} {st st1 : Store} (h : Reachable H st) (a b inner : List Nat)
    (i : Nat) (hk : TypesKnown st (a ++ inner ++ b)) :
    (st.union H inner = some (st1, i) →
      (st1.kind? i = some .boolean → ∃ m ∈ inner, st.kind? m = some .boolean) →
      st1.union H (a ++ [i] ++ b) = st1.union H (a ++ inner ++ b)) ∧
    (st.intersection H inner = some (st1, i) →
      (st1.kind? i = some .never → ∀ m ∈ a ++ inner ++ b, st.kind? m ≠ some .any) →
      st1.intersection H (a ++ [i] ++ b) = st1.intersection H (a ++ inner ++ b)) := by
  have hi := reachable_inv h
  have hki : TypesKnown st inner := fun t ht => hk t (by simp [ht])
  have known : ∀ {st1 : Store} {i : Nat}, Le st st1 → (st1.kind? i).isSome →
      TypesKnown st1 (a ++ [i] ++ b) := by
    intro st1 i hle h x hx
    simp only [List.mem_append, List.mem_singleton] at hx
    rcases hx with (hx | rfl) | hx
    · exact hle.known (hk x (by simp [hx]))
    · exact h
    · exact hle.known (hk x (by simp [hx]))
  constructor
  · intro hu hb
    obtain ⟨hi1, hle, hki1⟩ := union_ok hi hki hu
    have hl := union_later hi hki hu (Le.refl _) hi1.core
    rw [union_eq hi1.core (hki.mono hle)] at hl
    rw [union_eq hi1.core (known hle hki1), union_eq hi1.core (hk.mono hle)]
    refine unionOf_nested hi1 (hki.mono hle) hl fun e => ?_
    obtain ⟨m, hm, hmk⟩ := hb e
    exact ⟨m, hm, hle.kind? hmk⟩
  · intro hu hb
    obtain ⟨hi1, hle, hki1⟩ := inter_ok hi hki hu
    have hl := inter_later hi hki hu (Le.refl _) hi1.core
    rw [inter_eq hi1.core (hki.mono hle)] at hl
    rw [inter_eq hi1.core (known hle hki1), inter_eq hi1.core (hk.mono hle)]
    refine interOf_nested hi1 (hki.mono hle) hl fun e => ?_
    refine hasKind_false fun m hm e' => ?_
    have := kind?_of_known (hk.mono hle m hm)
    rw [e', hle.kind?_eq (hk m hm)] at this
    exact hb e m hm this

example : TypesKnown w1 ([12] ++ [8, 7] ++ [4]) ∧ w1.union hashes [8, 7] = some (w2, 14) ∧
    w2.kind? 14 ≠ some .boolean ∧ (w1.intersection hashes [8, 7]).map Prod.snd = some 2 := by
  refine ⟨?_, by decide +kernel, by decide +kernel, by decide +kernel⟩
  show ∀ t ∈ [12] ++ [8, 7] ++ [4], (w1.kind? t).isSome
  decide +kernel

/-- **C48 fails:** `(true | false) | number` is `boolean | number`, but `true | false | number` is
another type. -/
theorem C48_boolean_violated : ∃ (H : Hashes) (st : Store) (t f n i j : Nat) (st1 st2 st3 : Store),
    Reachable H st ∧ st.kind? t = some (.boolLit true) ∧ st.kind? f = some (.boolLit false) ∧
    st.kind? n = some .number ∧ st.union H [t, f] = some (st1, i) ∧
    (∃ k, st1.union H [i, n] = some (st2, k) ∧ st2.union H [t, f, n] = some (st3, j) ∧ k ≠ j) := by
  have key : w1.kind? 12 = some (.boolLit true) ∧ w1.kind? 13 = some (.boolLit false) ∧
      w1.kind? 7 = some .number ∧ w1.union hashes [12, 13] = some (w1, 6) ∧
      w1.union hashes [6, 7] = some (after w1 (.union [6, 7]), 14) ∧
      (after w1 (.union [6, 7])).union hashes [12, 13, 7] =
        some (after (after w1 (.union [6, 7])) (.union [12, 13, 7]), 15) := by decide +kernel
  exact ⟨hashes, w1, 12, 13, 7, 6, 15, w1, _, _, reach_w1, key.1, key.2.1, key.2.2.1, key.2.2.2.1, 14,
    key.2.2.2.2.1, key.2.2.2.2.2, by decide⟩

/-- **C48 fails:** `any & (string & number)` is `never`, but `any & string & number` is `any`. -/
theorem C48_any_violated : ∃ (H : Hashes) (st : Store) (a s n i j k : Nat),
    Reachable H st ∧ st.kind? a = some .any ∧ st.kind? s = some .string ∧ st.kind? n = some .number ∧
    st.intersection H [s, n] = some (st, i) ∧ st.intersection H [a, i] = some (st, j) ∧
    st.intersection H [a, s, n] = some (st, k) ∧ st.kind? j = some .never ∧ st.kind? k = some .any := by
  have key : w0.kind? 0 = some .any ∧ w0.kind? 8 = some .string ∧ w0.kind? 7 = some .number ∧
      w0.intersection hashes [8, 7] = some (w0, 2) ∧ w0.intersection hashes [0, 2] = some (w0, 2) ∧
      w0.intersection hashes [0, 8, 7] = some (w0, 0) ∧ w0.kind? 2 = some .never ∧
      w0.kind? 0 = some .any := by decide +kernel
  exact ⟨hashes, w0, 0, 8, 7, 2, 2, 0, reach_w0, key⟩

/-! ## Order of types -/

/-- **C48.** The order of types, which decides the order of members, is a strict linear order on
identifiers, and later operations do not change it. -/
theorem C48_order {H : Hashes} {st st' : Store} (h : Reachable H st) (hl : Later H st st') (a b c : Nat) :
    (st.typeCmp a b = .eq ↔ a = b) ∧ st.typeCmp b a = (st.typeCmp a b).swap ∧
    (st.typeCmp a b = .lt → st.typeCmp b c = .lt → st.typeCmp a c = .lt) ∧
    ((st.kind? a).isSome → (st.kind? b).isSome → st'.typeCmp a b = st.typeCmp a b) := by
  have hi := reachable_inv h
  have tp := tp_typeCmp st
  refine ⟨typeCmp_eq st a b, tp.swap a b, ?_, ?_⟩
  · intro h1 h2
    have h3 := tp.trans a b c (by rw [h1]; simp) (by rw [h2]; simp)
    cases e : st.typeCmp a c with
    | lt => rfl
    | gt => exact absurd e h3
    | eq =>
      rw [(typeCmp_eq st a c).1 e] at h1
      have := tp.swap b c
      rw [h1, h2] at this
      cases this
  · intro ha hb
    obtain ⟨r, hc⟩ := hi.core.closed
    exact typeCmp_mono (later_le hi hl).2 hc ha hb

/-- **C48.** `union` and `intersection` return, as long as different salts give different identifiers
and fewer types than salts are there. -/
theorem C48_returns {H : Hashes} {st : Store} (h : Reachable H st) (ms : List Nat) (hk : TypesKnown st ms)
    (hs : ∀ k a b, a < 2 ^ 64 → b < 2 ^ 64 → H.type k a = H.type k b → a = b)
    (hlen : st.types.length < 2 ^ 64) :
    (st.union H ms).isSome ∧ (st.intersection H ms).isSome := by
  have hi := reachable_inv h
  have hins : ∀ k, (st.insertType H k).isSome := by
    intro k
    have ht := insertFrom_total (hs k) hlen (2 ^ 64) 0 (fun j hj => absurd hj (Nat.not_lt_zero j))
      (Nat.zero_add _)
    unfold Store.insertType insertWithCollision
    obtain ⟨⟨m, i⟩, e⟩ := Option.isSome_iff_exists.1 ht
    rw [e]; rfl
  rw [union_eq hi.core hk, inter_eq hi.core hk]
  constructor
  · unfold unionOf unionFinish
    repeat' split
    all_goals first | rfl | exact hins _
  · unfold interOf interFinish
    repeat' split
    all_goals first | rfl | exact hins _

example : (∀ k a b, a < 2 ^ 64 → b < 2 ^ 64 → hashes.type k a = hashes.type k b → a = b) ∧
    w2.types.length < 2 ^ 64 := ⟨fun _ _ _ _ _ h => h, by decide +kernel⟩

/-! ## Meaning -/

/-- **C66.** Whatever the values of the kinds that are left open: a value belongs to a union exactly if
it belonged to one of the members. -/
theorem C66_union {H : Hashes} {st st' : Store} (h : Reachable H st) (O : Kind → Val → Prop) (v : Val)
    (ms : List Nat) (i : Nat) (hk : TypesKnown st ms) (hu : st.union H ms = some (st', i)) :
    Has st' O v i ↔ ∃ m ∈ ms, Has st O v m := union_has (reachable_inv h) hk hu

/-- **C66.** A value belongs to an intersection exactly if it belonged to all the members, as long as
`any` is not one of them. -/
theorem C66_inter {H : Hashes} {st st' : Store} (h : Reachable H st) (O : Kind → Val → Prop) (v : Val)
    (ms : List Nat) (i : Nat) (hk : TypesKnown st ms) (hna : ∀ m ∈ ms, st.kind? m ≠ some .any)
    (hu : st.intersection H ms = some (st', i)) :
    Has st' O v i ↔ ∀ m ∈ ms, Has st O v m := inter_has (reachable_inv h) hk hna hu

/-- **C66.** Later operations do not change the values of a type. -/
theorem C66_stable {H : Hashes} {st st' : Store} (h : Reachable H st) (hl : Later H st st')
    (O : Kind → Val → Prop) (v : Val) (t : Nat) (ht : (st.kind? t).isSome) :
    Has st' O v t ↔ Has st O v t :=
  has_mono (reachable_inv h).core (later_le (reachable_inv h) hl).2 ht

example : w2.intersection hashes [14, 4] = some (w3, 15) ∧
    ∀ m ∈ [14, 4], w2.kind? m ≠ some .any := by decide +kernel

/-- The reading tells types apart. -/
example : ¬ Has w2 (fun _ _ => True) (.bool true) 14 ∧ Has w2 (fun _ _ => True) (.num 3) 14 := by
  constructor
  · rw [has_of_kind (k := .union [7, 8]) (by decide +kernel)]
    rintro ⟨m, hm, h⟩
    rcases List.mem_cons.1 hm with rfl | hm
    · rw [has_of_kind (k := .number) (by decide +kernel)] at h
      simp [KindHas] at h
    · rw [List.mem_singleton.1 hm, has_of_kind (k := .string) (by decide +kernel)] at h
      simp [KindHas] at h
  · exact .union (m := 7) (ms := [7, 8]) (by decide +kernel) (by simp) (.number (by decide +kernel))

end Verif.Types
