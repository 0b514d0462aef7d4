import Verif.Subst.InstProof
import Verif.Subst.Theorems
/-!
# C99: instantiation replaces type parameters, part by part
-/

namespace Verif.Subst
open Verif.Types
open Verif.Types.Store

/-- The states of a substituter that was made for the mapping `σ` when the store was `st`, after any
calls of `substitute_type` and `substitute_signature_id`. -/
inductive Used (H : Hashes) (σ : Nat → Option Nat) (st : Store) : Sub → Prop where
  | fresh : Used H σ st (.fresh st)
  | type {s s' : Sub} {t u n : Nat} : Used H σ st s → (s.store.kind? t).isSome →
      substType H σ n s t = some (s', u) → Used H σ st s'
  | sig {s s' : Sub} {i j n : Nat} : Used H σ st s → (s.store.sigs.lookup i).isSome →
      substSigId H σ (substType H σ n) s i = some (s', j) → Used H σ st s'

variable {H : Hashes} {σ : Nat → Option Nat} {st : Store}

theorem used_exact (h : Reachable H st) (hσ : ∀ q u, σ q = some u → (st.kind? u).isSome) {s : Sub}
    (hu : Used H σ st s) : Exact H σ st s := by
  induction hu with
  | fresh =>
    exact ⟨h, .refl, fun _ _ h => (by cases h), fun _ _ h => (by cases h), fun _ _ h => by cases h⟩
  | type _ hk hs ih => exact (substType_inst hσ (reachable_inv h) _ _ _ _ _ ih hk hs).1.exact
  | sig _ hk hs ih =>
    exact (substSigId_inst (substType_inst hσ (reachable_inv h) _) _ _ _ _ ih hk hs).1.exact

/-- **C99.** Whatever a substituter was used for before, what it returns for a type is an instance of
that type: type parameters are replaced by what they are mapped to, and every other type is built again
from instances of its parts. -/
theorem C99_type (h : Reachable H st) (hσ : ∀ q u, σ q = some u → (st.kind? u).isSome) (s : Sub)
    (hu : Used H σ st s) (t : Nat) (ht : (s.store.kind? t).isSome) (n : Nat) (s' : Sub) (u : Nat)
    (hs : substType H σ n s t = some (s', u)) :
    Inst H σ s'.store (.type t) u ∧ Later H s.store s'.store := by
  obtain ⟨a, _, b⟩ := substType_inst hσ (reachable_inv h) n _ _ _ _ (used_exact h hσ hu) ht hs
  exact ⟨b, a.later⟩

/-- **C99.** The same for signatures. -/
theorem C99_signature (h : Reachable H st) (hσ : ∀ q u, σ q = some u → (st.kind? u).isSome) (s : Sub)
    (hu : Used H σ st s) (i : Nat) (ht : (s.store.sigs.lookup i).isSome) (n : Nat) (s' : Sub) (j : Nat)
    (hs : substSigId H σ (substType H σ n) s i = some (s', j)) :
    Inst H σ s'.store (.sig i) j ∧ Later H s.store s'.store := by
  obtain ⟨a, _, b⟩ := substSigId_inst (substType_inst hσ (reachable_inv h) n) _ _ _ _
    (used_exact h hσ hu) ht hs
  exact ⟨b, a.later⟩

/-- A substituter that has been used: type 17 (`P0[]`) is in its table. -/
def g6 : Sub :=
  match substType hashes toString 9 (.fresh g3) 17 with
  | some (s, _) => s
  | none => .fresh g3

example : Reachable hashes g3 ∧ (∀ q u, toString q = some u → (g3.kind? u).isSome) ∧
    Used hashes toString g3 g6 ∧ g6.types = [(17, 21), (15, 8)] ∧ (g6.store.kind? 20).isSome ∧
    (substType hashes toString 9 g6 20).map (fun x => (x.2, x.1.store.kind? x.2)) =
      some (23, some (.object 1)) ∧ (g6.store.sigs.lookup 0).isSome ∧
    (substSigId hashes toString (substType hashes toString 9) g6 0).map (fun x => x.1.store.sig x.2) =
      some ⟨[⟨none, 21, false, false⟩, ⟨none, 16, true, false⟩], 8, [⟨1, some 21, none, none, false⟩], none⟩ :=
  ⟨reach_g3, fun q u h => (toString_clean (by decide +kernel) q u h).1,
    .type (t := 17) (u := 21) (n := 9) .fresh (by decide +kernel) (by decide +kernel), by decide +kernel,
    by decide +kernel, by decide +kernel, by decide +kernel, by decide +kernel⟩

end Verif.Subst
