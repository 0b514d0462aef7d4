import Verif.Subst.Theorems
import Verif.Types.RoundTrip
/-!
# C105: a type that a mapping does not concern is its own instance
-/

namespace Verif.Subst
open Verif.Types
open Verif.Types.Store

/-! ## Specification -/

/-- The signature `i` is an overload of the type `t` or a call or construct signature of it. -/
def HasSig (st : Store) (t i : Nat) : Prop :=
  (∃ ss, st.kind? t = some (.callable ss) ∧ i ∈ ss) ∨
  ∃ o j sh, st.kind? t = some (.object o) ∧ st.objects.lookup o = some j ∧ st.shapes.lookup j = some sh ∧
    i ∈ shapeSigs sh

/-- The type parameter `p` is declared by a signature somewhere in the type `t`. -/
def Declares (st : Store) (p t : Nat) : Prop :=
  ∃ u i sig tp, Inside st t u ∧ HasSig st u i ∧ st.sigs.lookup i = some sig ∧ tp ∈ sig.typeParams ∧ tp.id = p

/-- The mapping gives a type to no type parameter that is declared in the type `t`, and none or itself to
those that are used in it. -/
def Untouched (σ : Nat → Option Nat) (st : Store) (t : Nat) : Prop :=
  (∀ p u, Occurs st p t → σ p = some u → st.kind? u = some (.typeParam p)) ∧
  ∀ p, Declares st p t → σ p = none

/-- The same for a signature. -/
def UntouchedSig (σ : Nat → Option Nat) (st : Store) (sig : Signature) : Prop :=
  (∀ t ∈ sigTypes sig, Untouched σ st t) ∧ ∀ tp ∈ sig.typeParams, σ tp.id = none

/-! ## Proof -/

variable {H : Hashes} {σ : Nat → Option Nat} {st : Store}

theorem Untouched.down {t u : Nat} (h : Untouched σ st t) (hm : Mentions st t u) : Untouched σ st u := by
  refine ⟨fun p u hp => h.1 p u ?_, fun p hp => h.2 p ?_⟩
  · obtain ⟨v, hv, e⟩ := hp
    exact ⟨v, .step hm hv, e⟩
  · obtain ⟨v, i, sig, tp, hv, e⟩ := hp
    exact ⟨v, i, sig, tp, .step hm hv, e⟩

theorem Untouched.sig {t i : Nat} {sig : Signature} (h : Untouched σ st t) (hi : HasSig st t i)
    (hs : st.sigs.lookup i = some sig) : UntouchedSig σ st sig := by
  refine ⟨fun u hu => h.down ?_, fun tp ht => h.2 _ ⟨t, i, sig, tp, .self t, hi, hs, ht, rfl⟩⟩
  rcases hi with ⟨ss, a, b⟩ | ⟨o, j, sh, a, b, c, d⟩
  · exact .overload a b hs hu
  · exact .signature a b c d hs hu

/-- Nothing was added to the store, and the tables map everything to itself. -/
structure Plain (st : Store) (s : Sub) : Prop where
  store : s.store = st
  types : ∀ t u, s.types.lookup t = some u → u = t
  sigs : ∀ t u, s.sigs.lookup t = some u → u = t
  shapes : ∀ t u, s.shapes.lookup t = some u → u = t

def Still (st : Store) (P : Nat → Prop) (f : Sub → Nat → Option (Sub × Nat)) : Prop :=
  ∀ s s' t u, Plain st s → P t → f s t = some (s', u) → Plain st s' ∧ u = t

theorem mapS_still {P : Nat → Prop} {f : Sub → Nat → Option (Sub × Nat)} (hf : Still st P f) :
    ∀ (ts us : List Nat) (s s' : Sub), Plain st s → (∀ t ∈ ts, P t) → mapS f s ts = some (s', us) →
      Plain st s' ∧ us = ts
  | [], us, s, s', hp, _, h => by
    simp only [mapS, Option.some.injEq, Prod.mk.injEq] at h
    rw [← h.1, ← h.2]; exact ⟨hp, rfl⟩
  | t :: ts, us, s, s', hp, hP, h => by
    unfold mapS at h
    split at h
    · cases h
    · rename_i s1 u e
      obtain ⟨a, rfl⟩ := hf _ _ _ _ hp (hP t (List.mem_cons_self ..)) e
      split at h
      · cases h
      · rename_i s2 vs e2
        obtain ⟨b, rfl⟩ := mapS_still hf ts vs _ _ a (fun x hx => hP x (List.mem_cons_of_mem _ hx)) e2
        cases h
        exact ⟨b, rfl⟩

theorem run_still {s s' : Sub} {o : Op} {i j : Nat} (hp : Plain st s) (ho : o.run H st = some (st, i))
    (h : s.run H o = some (s', j)) : Plain st s' ∧ j = i := by
  unfold Sub.run at h
  rw [hp.store, ho] at h
  cases h
  exact ⟨⟨rfl, hp.types, hp.sigs, hp.shapes⟩, rfl⟩

theorem add_id {l : List (Nat × Nat)} (h : ∀ t u, l.lookup t = some u → u = t) (x : Nat) :
    ∀ t u, ((x, x) :: l).lookup t = some u → u = t := by
  intro t u e
  rw [List.lookup_cons] at e
  split at e
  · rename_i hb
    cases e
    exact (beq_iff_eq.1 hb).symm
  · exact h t u e

theorem zip_id {A : Type} {f : A → Nat → A} {g : A → Nat} (h : ∀ a, f a (g a) = a) :
    ∀ l : List A, List.zipWith f l (l.map g) = l
  | [] => rfl
  | a :: l => by rw [List.map_cons, List.zipWith_cons_cons, h, zip_id h l]

theorem put_id {k : Kind} {ts : List Nat} (h : args k = some ts) : put k ts = k := by
  cases k <;> simp only [args, Option.some.injEq, reduceCtorEq] at h <;> subst h <;> try rfl
  case tuple es => simp only [put, zip_id (f := fun (e : TupleElem) t => { e with ty := t }) fun _ => rfl]
  case template hd sp =>
    simp only [put, zip_id (f := fun (e : TemplateChunk) t => { e with ty := t }) fun _ => rfl]
  case mapped m =>
    cases m with | mk => 
    rename_i a b
    simp only [put, opt]
    congr 1
    cases a <;> cases b <;> rfl

theorem putShape_id (sh : Shape) : putShape sh (shapeArgs sh) sh.callSigs sh.constructSigs = sh := by
  unfold putShape shapeArgs
  rw [List.take_left' (by simp), List.drop_left' (by simp), setIndexers_id,
    zip_id (f := fun (p : Property) t => (⟨p.key, { p.data with ty := t }⟩ : Property)) fun _ => rfl]

def SigOk (σ : Nat → Option Nat) (st : Store) (i : Nat) : Prop :=
  ∀ sig, st.sigs.lookup i = some sig → UntouchedSig σ st sig

theorem substSigId_still (hr : Reachable H st) {f : Sub → Nat → Option (Sub × Nat)}
    (hf : Still st (Untouched σ st) f) : Still st (SigOk σ st) (substSigId H σ f) := by
  intro s s' i j hp hi h
  unfold substSigId at h
  split at h
  · rename_i hit e
    cases h
    exact ⟨hp, hp.sigs _ _ e⟩
  · split at h
    · cases h
    · rename_i sig e
      rw [hp.store] at e
      split at h
      · cases h
      · rename_i s1 j1 e1
        cases h
        obtain ⟨u1, u2⟩ := hi sig e
        have ef : sig.typeParams.filter (fun tp => (σ tp.id).isNone) = sig.typeParams :=
          List.filter_eq_self.2 fun tp ht => by rw [u2 tp ht]; rfl
        unfold substSig at e1
        simp only [ef] at e1
        split at e1
        · cases e1
        · rename_i s2 ts e2
          obtain ⟨a, rfl⟩ := mapS_still hf _ _ _ _ hp (fun t ht => u1 t (sigArgs_sub ht)) e2
          rw [setSigArgs_id, (reachable_own hr).sigs i sig e] at e1
          obtain ⟨b, rfl⟩ := run_still (o := .signature _) a (C104_signature hr i sig e) e1
          exact ⟨⟨b.store, b.types, add_id b.sigs _, b.shapes⟩, rfl⟩

def ShapeOk (σ : Nat → Option Nat) (st : Store) (i : Nat) : Prop :=
  ∀ sh, st.shapes.lookup i = some sh → (∀ t ∈ shapeTypes sh, Untouched σ st t) ∧
    ∀ i ∈ shapeSigs sh, SigOk σ st i

theorem substShape_still (hr : Reachable H st) {f : Sub → Nat → Option (Sub × Nat)}
    (hf : Still st (Untouched σ st) f) : Still st (ShapeOk σ st) (substShape H σ f) := by
  intro s s' i j hp hi h
  unfold substShape at h
  split at h
  · rename_i hit e
    cases h
    exact ⟨hp, hp.shapes _ _ e⟩
  · split at h
    · cases h
    · rename_i sh e
      rw [hp.store] at e
      obtain ⟨u1, u2⟩ := hi sh e
      split at h
      · cases h
      · rename_i s1 ts e1
        obtain ⟨a, rfl⟩ := mapS_still hf _ _ _ _ hp (fun t (ht : t ∈ shapeArgs sh) => u1 t ht) e1
        split at h
        · cases h
        · rename_i s2 cs e2
          obtain ⟨b, rfl⟩ := mapS_still (substSigId_still hr hf) _ _ _ _ a
            (fun t ht => u2 t (List.mem_append_left _ ht)) e2
          split at h
          · cases h
          · rename_i s3 ds e3
            obtain ⟨c, rfl⟩ := mapS_still (substSigId_still hr hf) _ _ _ _ b
              (fun t ht => u2 t (List.mem_append_right _ ht)) e3
            split at h
            · cases h
            · rename_i s4 j4 e4
              cases h
              rw [putShape_id] at e4
              obtain ⟨d, rfl⟩ := run_still (o := .shape _) c (C104_shape hr i sh e) e4
              exact ⟨⟨d.store, d.types, d.sigs, add_id d.shapes _⟩, rfl⟩

theorem substKind_still (hr : Reachable H st) {f : Sub → Nat → Option (Sub × Nat)}
    (hf : Still st (Untouched σ st) f) : Still st (Untouched σ st) (substKind H σ f) := by
  intro s s' t u hp ht h
  have sigOk : ∀ i, HasSig st t i → SigOk σ st i := fun i hi sig e => ht.sig hi e
  unfold substKind at h
  rw [hp.store] at h
  split at h
  · cases h
  · rename_i p e
    cases h
    refine ⟨hp, ?_⟩
    cases eu : σ p with
    | none => rfl
    | some u =>
      have := C104_type hr u _ (ht.1 p u ⟨t, .self t, e⟩ eu)
      rw [C104_type hr t _ e] at this
      cases this; rfl
  · rename_i ss e
    split at h
    · cases h
    · rename_i s1 ss' e1
      obtain ⟨a, rfl⟩ := mapS_still (substSigId_still hr hf) _ _ _ _ hp
        (fun i hi => sigOk i (.inl ⟨_, e, hi⟩)) e1
      exact run_still (o := .type _) a (C104_type hr t _ e) h
  · rename_i o e
    split at h
    · cases h
    · rename_i s1 o' e1
      unfold substObject at e1
      rw [hp.store] at e1
      split at e1
      · cases e1
      · rename_i sh eo
        split at e1
        · cases e1
        · rename_i s2 sh' e2
          obtain ⟨a, rfl⟩ := substShape_still hr hf _ _ _ _ hp (fun x hx =>
            ⟨fun v hv => ht.down (.member e eo hx hv), fun i hi => sigOk i (.inr ⟨_, _, _, e, eo, hx, hi⟩)⟩) e2
          obtain ⟨b, rfl⟩ := run_still (o := .object _) a (C104_object hr o _ eo) e1
          exact run_still (o := .type _) b (C104_type hr t _ e) h
  · rename_i k _ _ _ e
    split at h
    · exact run_still (o := .canon _) hp (canon_id (reachable_inv hr).core (by rw [e]; rfl)) h
    · rename_i ts ea
      split at h
      · cases h
      · rename_i s1 us e1
        obtain ⟨a, rfl⟩ := mapS_still hf _ _ _ _ hp (fun x hx => ht.down (.part e (args_sub ea x hx))) e1
        rw [put_id ea] at h
        exact run_still (o := .type _) a (C104_type hr t _ e) h

theorem substType_still (hr : Reachable H st) : ∀ n, Still st (Untouched σ st) (substType H σ n)
  | 0 => fun s s' t u _ _ h => by cases h
  | n + 1 => fun s s' t u hp ht h => by
    unfold substType at h
    split at h
    · rename_i hit e
      cases h
      exact ⟨hp, hp.types _ _ e⟩
    · split at h
      · cases h
      · rename_i s1 u1 e
        cases h
        obtain ⟨a, rfl⟩ := substKind_still hr (substType_still hr n) _ _ _ _ hp ht e
        exact ⟨⟨a.store, add_id a.types _, a.sigs, a.shapes⟩, rfl⟩

theorem fresh_plain : Plain st (.fresh st) :=
  ⟨rfl, fun _ _ h => (by cases h), fun _ _ h => (by cases h), fun _ _ h => by cases h⟩

/-! ## The claim -/

/-- **C105.** Substituting in a type returns that type and adds nothing to the store, if the mapping gives
a type to no type parameter that is declared in it, and none or itself to those that are used in it. -/
theorem C105_type (h : Reachable H st) (t : Nat) (ht : Untouched σ st t) (n : Nat) (s' : Sub) (u : Nat)
    (hs : substType H σ n (.fresh st) t = some (s', u)) : u = t ∧ s'.store = st := by
  obtain ⟨a, b⟩ := substType_still h n _ _ _ _ fresh_plain ht hs
  exact ⟨b, a.store⟩

/-- **C105.** The same for signatures. -/
theorem C105_signature (h : Reachable H st) (i : Nat) (sig : Signature) (hi : st.sigs.lookup i = some sig)
    (ht : UntouchedSig σ st sig) (n : Nat) (s' : Sub) (j : Nat)
    (hs : substSigId H σ (substType H σ n) (.fresh st) i = some (s', j)) : j = i ∧ s'.store = st := by
  obtain ⟨a, b⟩ := substSigId_still h (substType_still h n) _ _ _ _ fresh_plain
    (fun x e => by rw [hi] at e; cases e; exact ht) hs
  exact ⟨b, a.store⟩

/-- `P9` is mapped to `string`. -/
def ninth : Nat → Option Nat := fun q => if q = 9 then some 8 else none

/-- `P0` is mapped to itself, and `P9` to `string`. -/
def itself : Nat → Option Nat := fun q => if q = 0 then some 15 else ninth q

theorem untouched_of {st : Store} (h1 : ∀ x ∈ st.types, ∀ p, x.2 = .typeParam p → p ≠ 9)
    (h2 : ∀ x ∈ st.sigs, ∀ tp ∈ x.2.typeParams, tp.id ≠ 9) (t : Nat) : Untouched ninth st t := by
  constructor
  · rintro p u ⟨v, _, e⟩ eu
    simp [ninth, h1 _ (Verif.Widen.lookup_mem e) p rfl] at eu
  · rintro p ⟨v, i, sig, tp, _, _, e, ht, rfl⟩
    simp [ninth, h2 _ (Verif.Widen.lookup_mem e) tp ht]

theorem inside_array : ∀ {t u : Nat}, Inside g3 t u → t = 17 ∨ t = 15 → u = 17 ∨ u = 15 := by
  intro t u h
  induction h with
  | self t => exact id
  | @step t u v hm _ ih =>
    intro ht
    apply ih
    have k17 : g3.kind? 17 = some (.array 15 false) := by decide +kernel
    have k15 : g3.kind? 15 = some (.typeParam 0) := by decide +kernel
    rcases ht with rfl | rfl <;> cases hm with
    | part e hu => simp_all [kindTypes]
    | overload e => simp_all
    | member e => simp_all
    | signature e => simp_all

/-- `P0[]` under a mapping of `P0` to itself. -/
example : Untouched itself g3 17 ∧ Occurs g3 0 17 ∧ itself 0 = some 15 ∧
    (substType hashes itself 9 (.fresh g3) 17).map Prod.snd = some 17 := by
  have k17 : g3.kind? 17 = some (.array 15 false) := by decide +kernel
  have k15 : g3.kind? 15 = some (.typeParam 0) := by decide +kernel
  refine ⟨⟨?_, ?_⟩, ⟨15, .step (.part k17 (by simp [kindTypes])) (.self _), k15⟩, rfl, by decide +kernel⟩
  · rintro p u ⟨v, hv, e⟩ eu
    rcases inside_array hv (.inl rfl) with rfl | rfl
    · rw [k17] at e; cases e
    · rw [k15] at e; cases e
      cases eu; exact k15
  · rintro p ⟨v, i, sig, tp, hv, hs, _⟩
    rcases inside_array hv (.inl rfl) with rfl | rfl <;> rcases hs with ⟨_, e, _⟩ | ⟨_, _, _, e, _⟩ <;> simp_all

/-- Type 20 of `g3` is an object whose members use `P0`, and signature 0 declares type parameters: a
mapping of another type parameter leaves both as they are. -/
example : Reachable hashes g3 ∧ Untouched ninth g3 20 ∧ g3.kind? 20 = some (.object 0) ∧
    (substType hashes ninth 9 (.fresh g3) 20).map Prod.snd = some 20 ∧
    (∃ sig, g3.sigs.lookup 0 = some sig ∧ sig.typeParams ≠ [] ∧ UntouchedSig ninth g3 sig) ∧
    (substSigId hashes ninth (substType hashes ninth 9) (.fresh g3) 0).map Prod.snd = some 0 := by
  have h1 : ∀ x ∈ g3.types, ∀ p, x.2 = .typeParam p → p ≠ 9 := by
    have : ∀ x ∈ g3.types, x.2 ≠ .typeParam 9 := by decide +kernel
    rintro x hx p e rfl
    exact this x hx e
  have h2 : ∀ x ∈ g3.sigs, ∀ tp ∈ x.2.typeParams, tp.id ≠ 9 := by decide +kernel
  refine ⟨reach_g3, untouched_of h1 h2 20, by decide +kernel, by decide +kernel,
    ⟨(g3.sigs.lookup 0).get (by decide +kernel), by simp, by decide +kernel,
      fun t _ => untouched_of h1 h2 t, ?_⟩, by decide +kernel⟩
  intro tp ht
  have := h2 (0, (g3.sigs.lookup 0).get (by decide +kernel)) (Verif.Widen.lookup_mem (by simp)) tp ht
  simp [ninth, this]

end Verif.Subst
