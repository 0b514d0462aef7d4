import Verif.Subst.InstTheorems
import Verif.Types.Again
/-!
# C101: instantiating a type does not depend on what was done before
-/

namespace Verif.Subst
open Verif.Types
open Verif.Types.Store

/-! ## Instances are unique -/

theorem Each.fn {A B : Type} {R Q : A → B → Prop} (h : ∀ a b c, R a b → Q a c → b = c) :
    ∀ {as : List A} {bs cs : List B}, Each R as bs → Each Q as cs → bs = cs
  | [], [], [], _, _ => rfl
  | _ :: _, _ :: _, _ :: _, h1, h2 => by rw [h _ _ _ h1.1 h2.1, Each.fn h h1.2 h2.2]

theorem Both.fn {R Q : Nat → Nat → Prop} (h : ∀ a b c, R a b → Q a c → b = c) :
    ∀ {a b c : Option Nat}, Both R a b → Both Q a c → b = c
  | none, none, none, _, _ => rfl
  | some _, some _, some _, h1, h2 => by rw [h _ _ _ h1 h2]

theorem SameForm.fn {R Q : Nat → Nat → Prop} (h : ∀ a b c, R a b → Q a c → b = c) {k k1 k2 : Kind}
    (h1 : SameForm R k k1) (h2 : SameForm Q k k2) : k1 = k2 := by
  cases k <;> cases k1 <;> (try exact h1.elim) <;> cases k2 <;> (try exact h2.elim)
  case union => rw [Each.fn h h1 h2]
  case inter => rw [Each.fn h h1 h2]
  case array => rw [h _ _ _ h1.1 h2.1, h1.2, h2.2]
  case tuple =>
    rw [Each.fn ?_ h1 h2]
    rintro a ⟨_, _, _, _⟩ ⟨_, _, _, _⟩ ⟨p1, rfl, rfl, rfl⟩ ⟨q1, rfl, rfl, rfl⟩
    simp only at p1 q1
    rw [h _ _ _ p1 q1]
  case ref => rw [h1.1, h2.1, Each.fn h h1.2 h2.2]
  case conditional =>
    obtain ⟨a1, a2, a3, a4, rfl⟩ := h1
    obtain ⟨b1, b2, b3, b4, rfl⟩ := h2
    rw [h _ _ _ a1 b1, h _ _ _ a2 b2, h _ _ _ a3 b3, h _ _ _ a4 b4]
  case mapped m m1 m2 =>
    cases m1
    cases m2
    obtain ⟨a1, a2, a3, a4, rfl, rfl, rfl⟩ := h1
    obtain ⟨b1, b2, b3, b4, rfl, rfl, rfl⟩ := h2
    simp only at a1 a2 a3 a4 b1 b2 b3 b4
    rw [h _ _ _ a1 b1, h _ _ _ a2 b2, Both.fn h a3 b3, Both.fn h a4 b4]
  case template =>
    rw [h1.1, h2.1, Each.fn ?_ h1.2 h2.2]
    rintro a ⟨_, _⟩ ⟨_, _⟩ ⟨p1, rfl⟩ ⟨q1, rfl⟩
    simp only at p1 q1
    rw [h _ _ _ p1 q1]
  case intrinsic => rw [h1.1, h2.1, h _ _ _ h1.2 h2.2]
  case indexed => rw [h _ _ _ h1.1 h2.1, h _ _ _ h1.2 h2.2]
  case keyOf => rw [h _ _ _ h1 h2]

theorem SameSig.fn {σ : Nat → Option Nat} {R Q : Nat → Nat → Prop} (h : ∀ a b c, R a b → Q a c → b = c)
    {s s1 s2 : Signature} (h1 : SameSig σ R s s1) (h2 : SameSig σ Q s s2) : s1 = s2 := by
  obtain ⟨a1, a2, a3, a4⟩ := h1
  obtain ⟨b1, b2, b3, b4⟩ := h2
  cases s1
  cases s2
  simp only at a1 a2 a3 a4 b1 b2 b3 b4
  rw [h _ _ _ a2 b2, Both.fn h a3 b3, Each.fn ?_ a1 b1, Each.fn ?_ a4 b4]
  · rintro a ⟨_, _, _, _, _⟩ ⟨_, _, _, _, _⟩ ⟨rfl, p1, p2, rfl, rfl⟩ ⟨rfl, q1, q2, rfl, rfl⟩
    simp only at p1 p2 q1 q2
    rw [Both.fn h p1 q1, Both.fn h p2 q2]
  · rintro a ⟨_, _, _, _⟩ ⟨_, _, _, _⟩ ⟨p1, rfl, rfl, rfl⟩ ⟨q1, rfl, rfl, rfl⟩
    simp only at p1 q1
    rw [h _ _ _ p1 q1]

theorem SameShape.fn {R Q R' Q' : Nat → Nat → Prop} (h : ∀ a b c, R a b → R' a c → b = c)
    (h' : ∀ a b c, Q a b → Q' a c → b = c) {s s1 s2 : Shape} (h1 : SameShape R Q s s1)
    (h2 : SameShape R' Q' s s2) : s1 = s2 := by
  obtain ⟨a1, a2, a3, a4⟩ := h1
  obtain ⟨b1, b2, b3, b4⟩ := h2
  cases s1
  cases s2
  simp only at a1 a2 a3 a4 b1 b2 b3 b4
  rw [Each.fn h' a3 b3, Each.fn h' a4 b4, Each.fn ?_ a1 b1, Each.fn ?_ a2 b2]
  · rintro a ⟨_, _, _⟩ ⟨_, _, _⟩ ⟨p1, p2, rfl⟩ ⟨q1, q2, rfl⟩
    simp only at p1 p2 q1 q2
    rw [h _ _ _ p1 q1, h _ _ _ p2 q2]
  · rintro a b c ⟨p1, p2⟩ ⟨q1, q2⟩
    rw [p2, q2, h _ _ _ p1 q1]

variable {H : Hashes} {σ : Nat → Option Nat} {S : Store}

theorem Built.fn {o : Op} {i j : Nat} (h1 : Built H S o i) (h2 : Built H S o j) : i = j := by
  obtain ⟨a, a', ha, ka, ea, la⟩ := h1
  obtain ⟨b, b', hb, kb, eb, lb⟩ := h2
  have x := C100_again ha o ka i ea la
  rw [C100_again hb o kb j eb lb] at x
  exact (Prod.mk.inj (Option.some.inj x)).2.symm

theorem Inst.fn {e : Ent} {u : Nat} (h1 : Inst H σ S e u) : ∀ v, Inst H σ S e v → u = v := by
  induction h1 with
  | arg e hq =>
    intro v h2
    cases h2 with
    | arg e' hq' => rw [e] at e'; cases e'; rw [hq] at hq'; exact Option.some.inj hq'
    | free e' hq' => rw [e] at e'; cases e'; rw [hq] at hq'; cases hq'
    | fixed e' hf => rw [e] at e'; cases e'; exact hf.elim
    | parts e' _ hf => rw [e] at e'; cases e'; exact hf.elim
    | callable e' => rw [e] at e'; cases e'
    | object e' => rw [e] at e'; cases e'
  | free e hq =>
    intro v h2
    cases h2 with
    | arg e' hq' => rw [e] at e'; cases e'; rw [hq] at hq'; cases hq'
    | free e' hq' => rfl
    | fixed e' hf => rfl
    | parts e' _ hf => rw [e] at e'; cases e'; exact hf.elim
    | callable e' => rw [e] at e'; cases e'
    | object e' => rw [e] at e'; cases e'
  | @fixed t k e hf =>
    intro v h2
    cases h2 with
    | arg e' hq' => rw [e] at e'; cases e'; exact hf.elim
    | free e' hq' => rfl
    | fixed e' hf => rfl
    | parts e' _ hs => rw [e] at e'; cases e'; cases k <;> first | exact hf.elim | exact hs.elim
    | callable e' => rw [e] at e'; cases e'; exact hf.elim
    | object e' => rw [e] at e'; cases e'; exact hf.elim
  | @parts t u k k' R e _ hs hb ih =>
    intro v h2
    cases h2 with
    | arg e' hq' => rw [e] at e'; cases e'; exact hs.elim
    | free e' hq' => rw [e] at e'; cases e'; exact hs.elim
    | fixed e' hf => rw [e] at e'; cases e'; cases k <;> first | exact hf.elim | exact hs.elim
    | parts e' hR hs' hb' =>
      rw [e] at e'; cases e'
      have hk := SameForm.fn (fun a b c p q => ih a b p c (hR a c q)) hs hs'
      subst hk
      exact hb.fn hb'
    | callable e' => rw [e] at e'; cases e'; exact hs.elim
    | object e' => rw [e] at e'; cases e'; exact hs.elim
  | callable e _ hs hb ih =>
    intro v h2
    cases h2 with
    | arg e' hq' => rw [e] at e'; cases e'
    | free e' hq' => rw [e] at e'; cases e'
    | fixed e' hf => rw [e] at e'; cases e'; exact hf.elim
    | parts e' _ hs' => rw [e] at e'; cases e'; exact hs'.elim
    | callable e' hQ hs' hb' =>
      rw [e] at e'; cases e'
      have hk := Each.fn (fun a b c p q => ih a b p c (hQ a c q)) hs hs'
      subst hk
      exact hb.fn hb'
    | object e' => rw [e] at e'; cases e'
  | object e ho _ hb hb' ih =>
    intro v h2
    cases h2 with
    | arg e' hq' => rw [e] at e'; cases e'
    | free e' hq' => rw [e] at e'; cases e'
    | fixed e' hf => rw [e] at e'; cases e'; exact hf.elim
    | parts e' _ hs' => rw [e] at e'; cases e'; exact hs'.elim
    | callable e' => rw [e] at e'; cases e'
    | object e' ho' hj hc hc' =>
      rw [e] at e'; cases e'
      rw [ho] at ho'; cases ho'
      have hk := ih _ hj
      subst hk
      have hk := hb.fn hc
      subst hk
      exact hb'.fn hc'
  | shape e _ _ hs hb ih ih' =>
    intro v h2
    cases h2 with
    | shape e' hR hQ hs' hb' =>
      rw [e] at e'; cases e'
      have hk := SameShape.fn (fun a b c p q => ih a b p c (hR a c q))
        (fun a b c p q => ih' a b p c (hQ a c q)) hs hs'
      subst hk
      exact hb.fn hb'
  | sig e _ hs hb ih =>
    intro v h2
    cases h2 with
    | sig e' hR hs' hb' =>
      rw [e] at e'; cases e'
      have hk := SameSig.fn (fun a b c p q => ih a b p c (hR a c q)) hs hs'
      subst hk
      exact hb.fn hb'

/-! ## The claim -/

variable {st st' : Store}

/-- **C101.** Two substituters for the same mapping, each with any history of its own, the second one used
in a later store than the first: they return the same type for a type. The two may be the same. -/
theorem C101_type (h : Reachable H st) (h' : Reachable H st')
    (hσ : ∀ q u, σ q = some u → (st.kind? u).isSome) (hσ' : ∀ q u, σ q = some u → (st'.kind? u).isSome)
    (a b : Sub) (ha : Used H σ st a) (hb : Used H σ st' b) (t : Nat) (ht : (a.store.kind? t).isSome)
    (ht' : (b.store.kind? t).isSome) (n m : Nat) (a' b' : Sub) (u v : Nat)
    (hr : substType H σ n a t = some (a', u)) (hl : Later H a'.store b.store)
    (hr' : substType H σ m b t = some (b', v)) : u = v := by
  obtain ⟨x, xl⟩ := C99_type h hσ a ha t ht n a' u hr
  obtain ⟨y, yl⟩ := C99_type h' hσ' b hb t ht' m b' v hr'
  have hi := reachable_inv (used_exact h hσ ha).reach
  have hl' := Verif.Widen.Later.trans hl yl
  exact (x.mono hl' (later_le (later_le hi xl).1 hl').2).fn v y

/-- **C101.** The same for signatures. -/
theorem C101_signature (h : Reachable H st) (h' : Reachable H st')
    (hσ : ∀ q u, σ q = some u → (st.kind? u).isSome) (hσ' : ∀ q u, σ q = some u → (st'.kind? u).isSome)
    (a b : Sub) (ha : Used H σ st a) (hb : Used H σ st' b) (i : Nat) (ht : (a.store.sigs.lookup i).isSome)
    (ht' : (b.store.sigs.lookup i).isSome) (n m : Nat) (a' b' : Sub) (u v : Nat)
    (hr : substSigId H σ (substType H σ n) a i = some (a', u)) (hl : Later H a'.store b.store)
    (hr' : substSigId H σ (substType H σ m) b i = some (b', v)) : u = v := by
  obtain ⟨x, xl⟩ := C99_signature h hσ a ha i ht n a' u hr
  obtain ⟨y, yl⟩ := C99_signature h' hσ' b hb i ht' m b' v hr'
  have hi := reachable_inv (used_exact h hσ ha).reach
  have hl' := Verif.Widen.Later.trans hl yl
  exact (x.mono hl' (later_le (later_le hi xl).1 hl').2).fn v y

/-- The store after `g6` has been used for type 20. -/
def g7 : Store :=
  match substType hashes toString 9 g6 20 with
  | some (s, _) => s.store
  | none => g3

theorem reach_g7 : Reachable hashes g7 ∧ (∀ q u, toString q = some u → (g7.kind? u).isSome) := by
  have hσ : ∀ q u, toString q = some u → (g3.kind? u).isSome :=
    fun q u h => (toString_clean (by decide +kernel) q u h).1
  have hu : Used hashes toString g3 g6 :=
    .type (t := 17) (u := 21) (n := 9) .fresh (by decide +kernel) (by decide +kernel)
  unfold g7
  split
  · rename_i s v e
    have x := used_exact reach_g3 hσ (.type hu (t := 20) (by decide +kernel) e)
    exact ⟨x.reach, fun q u h => (later_le (reachable_inv reach_g3) x.later).2.known (hσ q u h)⟩
  · exact ⟨reach_g3, hσ⟩

/-- A used substituter, and then a fresh one in the store that it leaves. -/
example : Used hashes toString g7 (.fresh g7) ∧ (g6.store.kind? 20).isSome ∧ (g7.kind? 20).isSome ∧
    (substType hashes toString 9 g6 20).map (fun x => x.2) = some 23 ∧
    (substType hashes toString 7 (.fresh g7) 20).map (fun x => x.2) = some 23 :=
  ⟨.fresh, by decide +kernel⟩

end Verif.Subst
