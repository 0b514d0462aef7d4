import Verif.Subst.Untouched
import Verif.Subst.Ends
/-!
# C105: instantiation returns where the mapping changes nothing
-/

namespace Verif.Subst
open Verif.Types
open Verif.Types.Store

variable {H : Hashes} {σ : Nat → Option Nat} {st : Store} {r : Nat → Nat} {N : Nat}
  {f : Sub → Nat → Option (Sub × Nat)}

/-- `f` returns its argument. -/
def Goes (st : Store) (P : Nat → Prop) (f : Sub → Nat → Option (Sub × Nat)) : Prop :=
  ∀ s t, Plain st s → P t → ∃ s', f s t = some (s', t) ∧ Plain st s'

theorem mapS_goes {P : Nat → Prop} (hf : Goes st P f) :
    ∀ (ts : List Nat) (s : Sub), Plain st s → (∀ t ∈ ts, P t) →
      ∃ s', mapS f s ts = some (s', ts) ∧ Plain st s'
  | [], s, hp, _ => ⟨s, rfl, hp⟩
  | t :: ts, s, hp, h => by
    obtain ⟨s1, e1, p1⟩ := hf s t hp (h t (List.mem_cons_self ..))
    obtain ⟨s2, e2, p2⟩ := mapS_goes hf ts s1 p1 fun u hu => h u (List.mem_cons_of_mem _ hu)
    exact ⟨s2, by simp only [mapS, e1, e2], p2⟩

theorem run_goes {s : Sub} {o : Op} {i : Nat} (hp : Plain st s) (ho : o.run H st = some (st, i)) :
    ∃ s', s.run H o = some (s', i) ∧ Plain st s' := by
  refine ⟨{ s with store := st }, ?_, rfl, hp.types, hp.sigs, hp.shapes⟩
  unfold Sub.run
  rw [hp.store, ho]

/-- The types of rank below `N` that the mapping leaves alone. -/
def Low (σ : Nat → Option Nat) (st : Store) (r : Nat → Nat) (N t : Nat) : Prop :=
  Untouched σ st t ∧ Below st r N t

def LowSig (σ : Nat → Option Nat) (st : Store) (r : Nat → Nat) (N i : Nat) : Prop :=
  SigOk σ st i ∧ SigBelow st r N i

theorem substSigId_goes (hr : Reachable H st) (hf : Goes st (Low σ st r N) f) :
    Goes st (LowSig σ st r N) (substSigId H σ f) := by
  intro s i hp ⟨ho, sig, e, hb⟩
  unfold substSigId
  cases eh : s.sigs.lookup i with
  | some hit => exact ⟨s, by rw [hp.sigs _ _ eh], hp⟩
  | none =>
    obtain ⟨u1, u2⟩ := ho sig e
    have ef : sig.typeParams.filter (fun tp => (σ tp.id).isNone) = sig.typeParams :=
      List.filter_eq_self.2 fun tp ht => by rw [u2 tp ht]; rfl
    obtain ⟨s1, e1, p1⟩ := mapS_goes hf (sigArgs sig) s hp fun t ht =>
      ⟨u1 t (sigArgs_sub ht), hb t (sigArgs_sub ht)⟩
    obtain ⟨s2, e2, p2⟩ := run_goes (o := .signature _) p1 (C104_signature hr i sig e)
    refine ⟨{ s2 with sigs := (i, i) :: s2.sigs }, ?_, p2.store, p2.types, add_id p2.sigs _, p2.shapes⟩
    rw [hp.store, e]
    simp only [substSig, ef, e1, setSigArgs_id, (reachable_own hr).sigs i sig e, e2]

theorem substShape_goes (hr : Reachable H st) (hf : Goes st (Low σ st r N) f) {s : Sub} {i : Nat} {sh : Shape}
    (hp : Plain st s) (e : st.shapes.lookup i = some sh) (h1 : ∀ t ∈ shapeTypes sh, Low σ st r N t)
    (h2 : ∀ x ∈ shapeSigs sh, LowSig σ st r N x) :
    ∃ s', substShape H σ f s i = some (s', i) ∧ Plain st s' := by
  unfold substShape
  cases eh : s.shapes.lookup i with
  | some hit => exact ⟨s, by rw [hp.shapes _ _ eh], hp⟩
  | none =>
    obtain ⟨s1, e1, p1⟩ := mapS_goes hf (shapeArgs sh) s hp h1
    obtain ⟨s2, e2, p2⟩ := mapS_goes (substSigId_goes hr hf) sh.callSigs s1 p1
      fun x hx => h2 x (List.mem_append_left _ hx)
    obtain ⟨s3, e3, p3⟩ := mapS_goes (substSigId_goes hr hf) sh.constructSigs s2 p2
      fun x hx => h2 x (List.mem_append_right _ hx)
    obtain ⟨s4, e4, p4⟩ := run_goes (o := .shape _) p3 (C104_shape hr i sh e)
    refine ⟨{ s4 with shapes := (i, i) :: s4.shapes }, ?_, p4.store, p4.types, p4.sigs, add_id p4.shapes _⟩
    rw [hp.store, e]
    simp only [e1, e2, e3, putShape_id, e4]

theorem substKind_goes (hr : Reachable H st) (hc : Closed st r) (hf : Goes st (Low σ st r N) f) :
    Goes st (Low σ st r (N + 1)) (substKind H σ f) := by
  intro s t hp ⟨ht, hk, hN⟩
  obtain ⟨k, e⟩ := Option.isSome_iff_exists.1 hk
  have kn := (hc.types t k e).1
  have sigOk : ∀ i, HasSig st t i → SigOk σ st i := fun i hi sig e => ht.sig hi e
  have gen : ∀ ts, args k = some ts → ∃ s1, mapS f s ts = some (s1, ts) ∧ ∃ s2,
      s1.run H (.type (put k ts)) = some (s2, t) ∧ Plain st s2 := by
    intro ts ha
    obtain ⟨s1, e1, p1⟩ := mapS_goes hf ts s hp fun c hx => ⟨ht.down (.part e (args_sub ha c hx)),
      kn.types c (args_sub ha c hx), by have := hc.rank t k e c (args_sub ha c hx); omega⟩
    obtain ⟨s2, e2, p2⟩ := run_goes (o := .type _) p1 (C104_type hr t _ e)
    exact ⟨s1, e1, s2, by rw [put_id ha, e2], p2⟩
  have can : ∃ s1, s.run H (.canon t) = some (s1, t) ∧ Plain st s1 :=
    run_goes (o := .canon t) hp (canon_id (reachable_inv hr).core hk)
  unfold substKind
  rw [hp.store, e]
  cases k <;> simp only [args] at gen ⊢
  case callable ss =>
    obtain ⟨s1, e1, p1⟩ := mapS_goes (substSigId_goes hr hf) ss s hp fun i hi =>
      ⟨sigOk i (.inl ⟨_, e, hi⟩), sigBelow_of hc (kn.sigs _ rfl i hi) fun c hx => by
        have := hc.rankCall t ss e i hi c hx; omega⟩
    obtain ⟨s2, e2, p2⟩ := run_goes (o := .type _) p1 (C104_type hr t _ e)
    exact ⟨s2, by rw [e1]; exact e2, p2⟩
  case object o =>
    obtain ⟨i, ei⟩ := Option.isSome_iff_exists.1 (kn.object _ rfl)
    obtain ⟨sh, es⟩ := Option.isSome_iff_exists.1 (hc.objects _ _ ei)
    have eo : st.shapeOf o = sh := by unfold Store.shapeOf; rw [ei]; simp [es]
    obtain ⟨k1, k2⟩ := hc.rankObj t o e
    rw [eo] at k1 k2
    have ks := hc.shapes _ _ es
    obtain ⟨s1, e1, p1⟩ := substShape_goes hr hf hp es
      (fun c hx => ⟨ht.down (.member e ei es hx), ks.types c hx, by have := k1 c hx; omega⟩)
      (fun x hx => ⟨sigOk x (.inr ⟨_, _, _, e, ei, es, hx⟩), sigBelow_of hc (ks.sigs x hx) fun c hc' => by
        have := k2 x hx c hc'; omega⟩)
    obtain ⟨s2, e2, p2⟩ := run_goes (o := .object _) p1 (C104_object hr o _ ei)
    obtain ⟨s3, e3, p3⟩ := run_goes (o := .type _) p2 (C104_type hr t _ e)
    refine ⟨s3, ?_, p3⟩
    unfold substObject
    rw [hp.store, ei]
    simp only [e1, e2]
    exact e3
  case typeParam p =>
    refine ⟨s, ?_, hp⟩
    cases eu : σ p with
    | none => rfl
    | some u =>
      have := C104_type hr u _ (ht.1 p u ⟨t, .self t, e⟩ eu)
      rw [C104_type hr t _ e] at this
      cases this; rfl
  all_goals first
    | exact can
    | (obtain ⟨s1, e1, s2, e2, p2⟩ := gen _ rfl
       exact ⟨s2, by rw [e1]; exact e2, p2⟩)

theorem substType_goes (hr : Reachable H st) (hc : Closed st r) :
    ∀ n, Goes st (Low σ st r n) (substType H σ n)
  | 0 => fun s t _ ⟨_, _, h⟩ => absurd h (Nat.not_lt_zero _)
  | n + 1 => fun s t hp ht => by
    unfold substType
    cases eh : s.types.lookup t with
    | some hit => exact ⟨s, by rw [hp.types _ _ eh], hp⟩
    | none =>
      obtain ⟨s1, e1, p1⟩ := substKind_goes hr hc (substType_goes hr hc n) s t hp ht
      exact ⟨{ s1 with types := (t, t) :: s1.types }, by simp only [e1], p1.store, add_id p1.types _,
        p1.sigs, p1.shapes⟩

/-! ## The claim -/

/-- **C105.** With a bound on the recursion as large as the number of types, substitution in such a type
does return. -/
theorem C105_type_returns (h : Reachable H st) (t : Nat) (hk : (st.kind? t).isSome) (ht : Untouched σ st t)
    (n : Nat) (hn : st.types.length ≤ n) :
    ∃ s', substType H σ n (.fresh st) t = some (s', t) ∧ s'.store = st := by
  obtain ⟨r, hc⟩ := (reachable_inv h).core.closed
  obtain ⟨s', a, b⟩ := substType_goes h hc n (.fresh st) t fresh_plain
    ⟨ht, hk, Nat.lt_of_lt_of_le (hc.lt hk) hn⟩
  exact ⟨s', a, b.store⟩

/-- **C105.** The same for signatures. -/
theorem C105_signature_returns (h : Reachable H st) (i : Nat) (sig : Signature)
    (hi : st.sigs.lookup i = some sig) (ht : UntouchedSig σ st sig) (n : Nat) (hn : st.types.length ≤ n) :
    ∃ s', substSigId H σ (substType H σ n) (.fresh st) i = some (s', i) ∧ s'.store = st := by
  obtain ⟨r, hc⟩ := (reachable_inv h).core.closed
  obtain ⟨s', a, b⟩ := substSigId_goes h (substType_goes h hc n) (.fresh st) i fresh_plain
    ⟨fun x e => (by rw [hi] at e; cases e; exact ht), sig, hi, fun c hx =>
      ⟨hc.sigs _ _ hi c hx, Nat.lt_of_lt_of_le (hc.lt (hc.sigs _ _ hi c hx)) hn⟩⟩
  exact ⟨s', a, b.store⟩

/-- The 21 types of `g3`, and its type 20, an object type. -/
example : Reachable hashes g3 ∧ (g3.kind? 20).isSome ∧ g3.types.length = 21 ∧ Untouched ninth g3 20 := by
  refine ⟨reach_g3, by decide +kernel, by decide +kernel, untouched_of ?_ (by decide +kernel) 20⟩
  have : ∀ x ∈ g3.types, x.2 ≠ .typeParam 9 := by decide +kernel
  rintro x hx p e rfl
  exact this x hx e

end Verif.Subst
