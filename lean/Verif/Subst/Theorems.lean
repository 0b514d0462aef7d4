import Verif.Subst.Proof
import Verif.Widen.Theorems
/-!
# C98: a substituted type parameter is gone
-/

namespace Verif.Subst
open Verif.Types
open Verif.Types.Store

/-- **C98, the part that holds.** When a type is substituted in, a type parameter that the mapping
replaces, and that the types it puts in do not use, is used nowhere in the result: not in members,
signatures, index signatures, constraints or arguments at any depth. Missing: type predicates and the
constraints of `infer`, which are left as they are; no such type may use the parameter. -/
theorem C98_type_partial {H : Hashes} {st : Store} (h : Reachable H st) (σ : Nat → Option Nat) (p : Nat)
    (hp : (σ p).isSome) (hσ : ∀ q u, σ q = some u → (st.kind? u).isSome ∧ ¬ Occurs st p u)
    (t : Nat) (ht : (st.kind? t).isSome) (hh : ¬ Hidden st p t) (n : Nat) (s' : Sub) (t' : Nat)
    (hs : substType H σ n (.fresh st) t = some (s', t')) :
    (s'.store.kind? t').isSome ∧ ¬ Occurs s'.store p t' :=
  (substType_ok hσ hp (reachable_inv h).core n _ _ _ _ (fresh_fine (reachable_inv h)) ⟨ht, hh⟩ hs).2.2

/-- **C98, the part that holds.** The same for the instantiation of a signature. -/
theorem C98_signature_partial {H : Hashes} {st : Store} (h : Reachable H st) (σ : Nat → Option Nat)
    (p : Nat) (hp : (σ p).isSome) (hσ : ∀ q u, σ q = some u → (st.kind? u).isSome ∧ ¬ Occurs st p u)
    (sig : Signature) (hk : TypesKnown st (sigTypes sig)) (hh : ∀ u ∈ sigTypes sig, ¬ Hidden st p u)
    (n : Nat) (s' : Sub) (i : Nat) (hs : instantiate H σ n st sig = some (s', i)) :
    ∃ sig', s'.store.sigs.lookup i = some sig' ∧ ¬ OccursSig s'.store p sig' := by
  obtain ⟨_, _, sig', a, b⟩ := substSig_ok (substType_ok hσ hp (reachable_inv h).core n)
    (fresh_fine (reachable_inv h)) (fun u hu => ⟨hk u hu, hh u hu⟩) hs
  exact ⟨sig', a, fun ⟨u, hu, ho⟩ => (b u hu).2 ho⟩

/-! ## An example -/

/-- Types 15, 16 and 17 are the type parameters 0 and 1 and an array of parameter 0. -/
def g1 : Store := after (after (after w2 (.type (.typeParam 0))) (.type (.typeParam 1))) (.type (.array 15 false))

/-- Signature 0 is `<P0, P1 extends P0[]>(x: P0[], y?: P1) => P0`. -/
def sig0 : Signature :=
  ⟨[⟨none, 17, false, false⟩, ⟨none, 16, true, false⟩], 15,
    [⟨0, none, none, none, false⟩, ⟨1, some 17, none, none, false⟩], none⟩

/-- Type 18 is the function type with this signature. -/
def g2 : Store := after (after g1 (.signature sig0)) (.type (.callable [0]))

/-- Type 19 is the union of parameter 0 and `null`, type 20 an object type with a property of that type,
an index signature of type `P0[]` and the call signature 0. -/
def shape1 : Shape :=
  ⟨[⟨.number 0, ⟨19, true, false, none, false, none, none⟩⟩], [0], [], [⟨7, 17, false⟩]⟩

def g3 : Store :=
  after (after (after (after g2 (.union [15, 4])) (.shape shape1)) (.object 0)) (.type (.object 0))

/-- Type 21 is the type predicate that asserts parameter 0. -/
def g4 : Store := after g3 (.type (.predicate none (some 15) false))

theorem reach_g3 : Reachable hashes g3 := by
  refine reach_after (reach_after (reach_after (reach_after (reach_after (reach_after (reach_after
    (reach_after (reach_after reach_w2 ?_) ?_) ?_) ?_) ?_) ?_) ?_) ?_) ?_
  · exact known_atom ⟨rfl, by simp, by simp, by simp, by simp, by simp⟩
  · exact known_atom ⟨rfl, by simp, by simp, by simp, by simp, by simp⟩
  · exact Verif.Widen.array_known (by decide +kernel)
  · show ∀ t ∈ sigTypes sig0, (g1.kind? t).isSome
    decide +kernel
  · refine ⟨by simp [TypesKnown, kindTypes], fun _ e => (by cases e), fun ss e => ?_, fun _ e => by cases e⟩
    cases e
    show ∀ s ∈ [0], ((after g1 (.signature sig0)).sigs.lookup s).isSome
    decide +kernel
  · show ∀ t ∈ [15, 4], (g2.kind? t).isSome
    decide +kernel
  · refine ⟨?_, ?_, ?_⟩
    · show ∀ t ∈ shapeTypes shape1, ((after g2 (.union [15, 4])).kind? t).isSome
      decide +kernel
    · show ∀ t ∈ shapeSigs shape1, ((after g2 (.union [15, 4])).sigs.lookup t).isSome
      decide +kernel
    · intro p hp
      simp only [shape1, List.mem_singleton] at hp
      subst hp
      trivial
  · show ((after (after g2 (.union [15, 4])) (.shape shape1)).shapes.lookup 0).isSome
    decide +kernel
  · refine ⟨by simp [TypesKnown, kindTypes], fun o e => ?_, fun _ e => (by cases e), fun _ e => by cases e⟩
    cases e
    decide +kernel

theorem reach_g4 : Reachable hashes g4 := by
  refine reach_after reach_g3 ⟨?_, fun _ e => (by cases e), fun _ e => (by cases e), fun _ e => by cases e⟩
  show ∀ t ∈ [15], (g3.kind? t).isSome
  decide +kernel

/-- Parameter 0 is mapped to `string`. -/
def toString : Nat → Option Nat := fun q => if q = 0 then some 8 else none

/-- The substituter after type 20 has been substituted in. -/
def g5 : Sub :=
  match substType hashes toString 9 (.fresh g3) 20 with
  | some (s, _) => s
  | none => .fresh g3

theorem not_opaque {st : Store} (h : ∀ x ∈ st.types, ¬ Opaque x.2) {p t : Nat} : ¬ Hidden st p t := by
  rintro ⟨u, k, _, e, ho, _⟩
  exact h (u, k) (Verif.Widen.lookup_mem e) ho

theorem prim_clean {st : Store} {t : Nat} {k : Kind} (e : st.kind? t = some k) (hk : kindTypes k = [])
    (h1 : ∀ ss, k ≠ .callable ss) (h2 : ∀ o, k ≠ .object o) {p : Nat} (h3 : k ≠ .typeParam p) :
    (st.kind? t).isSome ∧ ¬ Occurs st p t :=
  clean_of_kind e (cleanKind_flat h3 h1 h2 (by simp [hk]))

theorem toString_clean {st : Store} (h : st.kind? 8 = some .string) :
    ∀ q u, toString q = some u → (st.kind? u).isSome ∧ ¬ Occurs st 0 u := by
  intro q u hq
  unfold toString at hq
  split at hq
  · cases hq
    exact prim_clean h rfl (by simp) (by simp) (by simp)
  · cases hq

instance (k : Kind) : Decidable (Opaque k) := by
  cases k <;> unfold Opaque <;> infer_instance

example : Reachable hashes g3 ∧ (toString 0).isSome ∧
    (∀ q u, toString q = some u → (g3.kind? u).isSome ∧ ¬ Occurs g3 0 u) ∧ g3.kind? 20 = some (.object 0) ∧
    ¬ Hidden g3 0 20 ∧ Occurs g3 0 20 ∧ substType hashes toString 9 (.fresh g3) 20 = some (g5, 23) ∧
    g5.store.kind? 23 = some (.object 1) ∧
    g5.store.shapeOf 1 = ⟨[⟨.number 0, ⟨21, true, false, none, false, none, none⟩⟩], [1], [], [⟨7, 22, false⟩]⟩ ∧
    g5.store.kind? 21 = some (.union [4, 8]) ∧ g5.store.kind? 22 = some (.array 8 false) :=
  ⟨reach_g3, rfl, toString_clean (by decide +kernel), by decide +kernel,
    not_opaque (by decide +kernel),
    ⟨15, .step (.member (u := 17) (o := 0) (i := 0) (by decide +kernel) (by decide +kernel) (by rfl)
      (by decide +kernel)) (.step (.part (k := .array 15 false) (by decide +kernel) (by decide))
      (.self _)), by decide +kernel⟩,
    by decide +kernel, by decide +kernel, by decide +kernel, by decide +kernel, by decide +kernel⟩

example : TypesKnown g3 (sigTypes sig0) ∧ (∀ u ∈ sigTypes sig0, ¬ Hidden g3 0 u) ∧
    (instantiate hashes toString 9 g3 sig0).map (fun x => (x.1.store.sig x.2, x.1.store.kind? 21)) =
      some (⟨[⟨none, 21, false, false⟩, ⟨none, 16, true, false⟩], 8,
        [⟨1, some 21, none, none, false⟩], none⟩, some (.array 8 false)) :=
  ⟨by show ∀ t ∈ sigTypes sig0, (g3.kind? t).isSome; decide +kernel,
    fun _ _ => not_opaque (by decide +kernel), by decide +kernel⟩

/-- **C98 does not hold as it stands**: the type predicate `x is P0` stays as it is when `P0` is mapped
to `string`. -/
theorem C98_violated : ∃ (H : Hashes) (st : Store) (σ : Nat → Option Nat) (p t n : Nat) (s' : Sub) (t' : Nat),
    Reachable H st ∧ (σ p).isSome ∧ (∀ q u, σ q = some u → (st.kind? u).isSome ∧ ¬ Occurs st p u) ∧
    st.kind? t = some (.predicate none (some 15) false) ∧ st.kind? 15 = some (.typeParam p) ∧
    substType H σ n (.fresh st) t = some (s', t') ∧ Occurs s'.store p t' := by
  refine ⟨hashes, g4, toString, 0, 21, 9, ⟨g4, [(21, 21)], [], []⟩, 21, reach_g4, rfl,
    toString_clean (by decide +kernel), by decide +kernel, by decide +kernel, by decide +kernel, 15, ?_, ?_⟩
  · exact .step (.part (k := .predicate none (some 15) false) (by decide +kernel) (by decide)) (.self _)
  · decide +kernel

end Verif.Subst
