import Verif.Subst.Proof
import Verif.Subst.Inst
/-!
# The substituter computes instances
-/

namespace Verif.Subst
open Verif.Types
open Verif.Types.Store

/-! ## Lists related one by one -/

theorem Each.imp {A B : Type} {R Q : A → B → Prop} (h : ∀ a b, R a b → Q a b) :
    ∀ {as : List A} {bs : List B}, Each R as bs → Each Q as bs
  | [], [], _ => trivial
  | _ :: _, _ :: _, hx => ⟨h _ _ hx.1, hx.2.imp h⟩

theorem Each.append {A B : Type} {R : A → B → Prop} : ∀ {as as' : List A} {bs : List B},
    Each R (as ++ as') bs → ∃ cs cs', bs = cs ++ cs' ∧ Each R as cs ∧ Each R as' cs'
  | [], as', bs, h => ⟨[], bs, rfl, trivial, h⟩
  | a :: as, as', [], h => h.elim
  | a :: as, as', b :: bs, h => by
    obtain ⟨cs, cs', e, h1, h2⟩ := Each.append (as := as) h.2
    exact ⟨b :: cs, cs', by rw [e]; rfl, ⟨h.1, h1⟩, h2⟩

theorem Each.length {A B : Type} {R : A → B → Prop} : ∀ {as : List A} {bs : List B},
    Each R as bs → bs.length = as.length
  | [], [], _ => rfl
  | _ :: _, _ :: _, h => by simp [h.2.length]

theorem each_zip {A B : Type} {f : A → Nat → B} {g : A → Nat} {R : Nat → Nat → Prop} {P : A → B → Prop}
    (hp : ∀ a t, R (g a) t → P a (f a t)) : ∀ {as : List A} {ts : List Nat}, Each R (as.map g) ts →
      Each P as (List.zipWith f as ts)
  | [], [], _ => trivial
  | _ :: _, _ :: _, h => ⟨hp _ _ h.1, each_zip hp h.2⟩

theorem both_set {R : Nat → Nat → Prop} {o : Option Nat} {ts us : List Nat} (h : Each R (opt o) ts) :
    Both R o (setOpt o (ts ++ us)).1 ∧ (setOpt o (ts ++ us)).2 = us := by
  cases o with
  | none =>
    cases ts with
    | nil => exact ⟨trivial, rfl⟩
    | cons => exact h.elim
  | some a =>
    match ts, h with
    | [t], h => exact ⟨h.1, rfl⟩

theorem put_same {R : Nat → Nat → Prop} {k : Kind} {ts us : List Nat} (h : args k = some ts)
    (he : Each R ts us) : SameForm R k (put k us) := by
  cases k <;> simp only [args, Option.some.injEq, reduceCtorEq] at h <;> subst h
  case union => exact he
  case inter => exact he
  case ref => exact ⟨rfl, he⟩
  case tuple => exact each_zip (fun a t hx => ⟨hx, rfl, rfl, rfl⟩) he
  case template => exact ⟨rfl, each_zip (fun a t hx => ⟨hx, rfl⟩) he⟩
  case array =>
    match us, he with
    | [a], he => exact ⟨he.1, rfl⟩
  case intrinsic =>
    match us, he with
    | [a], he => exact ⟨rfl, he.1⟩
  case keyOf =>
    match us, he with
    | [a], he => exact he.1
  case indexed =>
    match us, he with
    | [a, b], he => exact ⟨he.1, he.2.1⟩
  case conditional =>
    match us, he with
    | [a, b, c, d], he => exact ⟨he.1, he.2.1, he.2.2.1, he.2.2.2.1, rfl⟩
  case mapped m =>
    match us, he with
    | s :: v :: rest, he =>
      obtain ⟨c1, c2, rfl, h1, h2⟩ := he.2.2.append
      have b1 := both_set (us := c2) h1
      have b2 := both_set (us := []) h2
      rw [List.append_nil] at b2
      refine ⟨he.1, he.2.1, b1.1, ?_, rfl, rfl, rfl⟩
      show Both R m.asType (setOpt m.asType (setOpt m.nameType (c1 ++ c2)).2).1
      rw [b1.2]
      exact b2.1

theorem typeParams_same {R : Nat → Nat → Prop} : ∀ {ps : List TypeParamDecl} {ts : List Nat},
    Each R (ps.flatMap fun q => opt q.constraint ++ opt q.default_) ts →
    Each (fun a b => b.id = a.id ∧ Both R a.constraint b.constraint ∧ Both R a.default_ b.default_ ∧
      b.variance = a.variance ∧ b.const_ = a.const_) ps (setTypeParams ps ts)
  | [], _, _ => trivial
  | q :: ps, ts, h => by
    rw [List.flatMap_cons, List.append_assoc] at h
    obtain ⟨c1, r1, rfl, h1, h⟩ := h.append
    obtain ⟨c2, r2, rfl, h2, h⟩ := h.append
    have b1 := both_set (us := c2 ++ r2) h1
    have b2 := both_set (us := r2) h2
    unfold setTypeParams
    simp only [b1.2, b2.2]
    exact ⟨⟨rfl, b1.1, b2.1, rfl, rfl⟩, typeParams_same h⟩

theorem sig_same {σ : Nat → Option Nat} {R : Nat → Nat → Prop} {s : Signature} {ts : List Nat}
    (h : Each R (sigArgs { s with typeParams := s.typeParams.filter fun tp => (σ tp.id).isNone }) ts) :
    SameSig σ R s
      (setSigArgs { s with typeParams := s.typeParams.filter fun tp => (σ tp.id).isNone } ts) := by
  unfold sigArgs at h
  simp only [List.append_assoc, List.cons_append] at h
  obtain ⟨c1, r1, rfl, h1, h⟩ := h.append
  match r1, h with
  | r :: r2, h =>
    obtain ⟨hr, h⟩ := h
    obtain ⟨c3, r3, rfl, h3, h⟩ := h.append
    have b3 := both_set (us := r3) h3
    have l1 : c1.length = s.params.length := by rw [h1.length, List.length_map]
    unfold setSigArgs
    simp only [List.drop_left' l1, List.take_left' l1, List.headD_cons, List.tail_cons, b3.2]
    exact ⟨each_zip (fun a t hx => ⟨hx, rfl, rfl, rfl⟩) h1, hr, b3.1, typeParams_same h⟩

theorem indexers_same {R : Nat → Nat → Prop} : ∀ {xs : List Indexer} {ts : List Nat},
    Each R (xs.flatMap fun x => [x.keyType, x.valueType]) ts →
    Each (fun a b => R a.keyType b.keyType ∧ R a.valueType b.valueType ∧ b.readonly = a.readonly)
      xs (setIndexers xs ts)
  | [], _, _ => trivial
  | x :: xs, ts, h => by
    rw [List.flatMap_cons] at h
    match ts, h with
    | k :: v :: ts, h => exact ⟨⟨h.1, h.2.1, rfl⟩, indexers_same h.2.2⟩

theorem shape_same {R Q : Nat → Nat → Prop} {s : Shape} {ts call con : List Nat}
    (h : Each R (shapeArgs s) ts) (hc : Each Q s.callSigs call) (hn : Each Q s.constructSigs con) :
    SameShape R Q s (putShape s ts call con) := by
  unfold shapeArgs at h
  obtain ⟨c1, r1, rfl, h1, h⟩ := h.append
  have l1 : c1.length = s.properties.length := by rw [h1.length, List.length_map]
  refine ⟨?_, ?_, hc, hn⟩
  · unfold putShape
    simp only [List.take_left' l1]
    exact each_zip (fun a t hx => ⟨hx, rfl⟩) h1
  · unfold putShape
    simp only [List.drop_left' l1]
    exact indexers_same h

/-! ## Instances as the store grows -/

variable {H : Hashes} {σ : Nat → Option Nat} {st0 : Store}

theorem Built.mono {S S' : Store} {o : Op} {i : Nat} (h : Built H S o i) (hl : Later H S S') :
    Built H S' o i := by
  obtain ⟨st, st', a, b, c, d⟩ := h
  exact ⟨st, st', a, b, c, Verif.Widen.Later.trans d hl⟩

theorem Inst.mono {S S' : Store} (hl : Later H S S') (hle : Le S S') {e : Ent} {u : Nat}
    (h : Inst H σ S e u) : Inst H σ S' e u := by
  induction h with
  | arg e h => exact .arg (hle.kind? e) h
  | free e h => exact .free (hle.kind? e) h
  | fixed e h => exact .fixed (hle.kind? e) h
  | parts e _ hf hb ih => exact .parts (hle.kind? e) ih hf (hb.mono hl)
  | callable e _ hf hb ih => exact .callable (hle.kind? e) ih hf (hb.mono hl)
  | object e ho _ hb hb' ih => exact .object (hle.kind? e) (hle.objects _ _ ho) ih (hb.mono hl) (hb'.mono hl)
  | shape e _ _ hf hb ih ih' => exact .shape (hle.shapes _ _ e) ih ih' hf (hb.mono hl)
  | sig e _ hf hb ih => exact .sig (hle.sigs _ _ e) ih hf (hb.mono hl)

/-! ## The substituter -/

/-- What holds of a substituter throughout. -/
structure Exact (H : Hashes) (σ : Nat → Option Nat) (st0 : Store) (s : Sub) : Prop where
  reach : Reachable H s.store
  later : Later H st0 s.store
  types : ∀ t u, s.types.lookup t = some u → (s.store.kind? u).isSome ∧ Inst H σ s.store (.type t) u
  sigs : ∀ i j, s.sigs.lookup i = some j → (s.store.sigs.lookup j).isSome ∧ Inst H σ s.store (.sig i) j
  shapes : ∀ i j, s.shapes.lookup i = some j →
    (s.store.shapes.lookup j).isSome ∧ Inst H σ s.store (.shape i) j

/-- From one state of the substituter to a later one. -/
structure Next (H : Hashes) (σ : Nat → Option Nat) (st0 : Store) (s s' : Sub) : Prop where
  exact : Exact H σ st0 s'
  later : Later H s.store s'.store
  le : Le s.store s'.store

theorem Next.trans {a b c : Sub} (h1 : Next H σ st0 a b) (h2 : Next H σ st0 b c) : Next H σ st0 a c :=
  ⟨h2.exact, Verif.Widen.Later.trans h1.later h2.later, h1.le.trans h2.le⟩

theorem run_next {s s' : Sub} {o : Op} {i : Nat} (hs : Exact H σ st0 s) (hk : o.Known s.store)
    (h : s.run H o = some (s', i)) :
    Next H σ st0 s s' ∧ o.run H s.store = some (s'.store, i) ∧ Built H s'.store o i := by
  unfold Sub.run at h
  split at h
  · cases h
  · rename_i st j e
    cases h
    obtain ⟨a, b⟩ := op_ok (reachable_inv hs.reach) hk e
    have l : Later H s.store st := .op .refl hk e
    exact ⟨⟨⟨.op hs.reach hk e, .op hs.later hk e,
      fun t u h => ⟨b.known (hs.types t u h).1, (hs.types t u h).2.mono l b⟩,
      fun t u h => ⟨isSome_ext b.sigs (hs.sigs t u h).1, (hs.sigs t u h).2.mono l b⟩,
      fun t u h => ⟨isSome_ext b.shapes (hs.shapes t u h).1, (hs.shapes t u h).2.mono l b⟩⟩, l, b⟩, e,
      _, _, hs.reach, hk, e, .refl⟩

/-- `f` computes instances of the entities that `E` makes of identifiers, if `K` knows them. -/
def Computes (H : Hashes) (σ : Nat → Option Nat) (st0 : Store) (K : Store → Nat → Prop) (E : Nat → Ent)
    (f : Sub → Nat → Option (Sub × Nat)) : Prop :=
  ∀ s t s' u, Exact H σ st0 s → K s.store t → f s t = some (s', u) →
    Next H σ st0 s s' ∧ K s'.store u ∧ Inst H σ s'.store (E t) u

def KnownType (st : Store) (t : Nat) : Prop := (st.kind? t).isSome
def KnownSig (st : Store) (t : Nat) : Prop := (st.sigs.lookup t).isSome

theorem mapS_each {K : Store → Nat → Prop} {E : Nat → Ent} {f : Sub → Nat → Option (Sub × Nat)}
    (hK : ∀ (st S : Store) (t : Nat), Le st S → K st t → K S t) (hf : Computes H σ st0 K E f) :
    ∀ (ts : List Nat) (s s' : Sub) (us : List Nat), Exact H σ st0 s → (∀ t ∈ ts, K s.store t) →
      mapS f s ts = some (s', us) →
      Next H σ st0 s s' ∧ (∀ u ∈ us, K s'.store u) ∧ Each (fun a b => Inst H σ s'.store (E a) b) ts us
  | [], s, s', us, hs, _, h => by
    simp only [mapS, Option.some.injEq, Prod.mk.injEq] at h
    obtain ⟨rfl, rfl⟩ := h
    exact ⟨⟨hs, .refl, Le.refl _⟩, by simp, trivial⟩
  | t :: ts, s, s', us, hs, hp, h => by
    unfold mapS at h
    split at h
    · cases h
    · rename_i s1 u1 e1
      split at h
      · cases h
      · rename_i s2 us2 e2
        simp only [Option.some.injEq, Prod.mk.injEq] at h
        obtain ⟨rfl, rfl⟩ := h
        obtain ⟨a1, a2, a3⟩ := hf _ _ _ _ hs (hp t (by simp)) e1
        obtain ⟨b1, b2, b3⟩ := mapS_each hK hf ts s1 s2 us2 a1.exact
          (fun x hx => hK _ _ _ a1.le (hp x (by simp [hx]))) e2
        refine ⟨a1.trans b1, ?_, a3.mono b1.later b1.le, b3⟩
        intro u hu
        rcases List.mem_cons.1 hu with rfl | hu
        · exact hK _ _ _ b1.le a2
        · exact b2 u hu

theorem known_mono (st S : Store) (t : Nat) (h : Le st S) (hk : KnownType st t) : KnownType S t := h.known hk
theorem knownSig_mono (st S : Store) (t : Nat) (h : Le st S) (hk : KnownSig st t) : KnownSig S t :=
  isSome_ext h.sigs hk

theorem substSigId_inst {f : Sub → Nat → Option (Sub × Nat)}
    (hf : Computes H σ st0 KnownType .type f) :
    Computes H σ st0 KnownSig .sig (substSigId H σ f) := by
  intro s i s' j hs hk h
  unfold substSigId at h
  split at h
  · rename_i hit e
    cases h
    exact ⟨⟨hs, .refl, Le.refl _⟩, hs.sigs _ _ e⟩
  · split at h
    · cases h
    · rename_i sig e
      split at h
      · cases h
      · rename_i s1 j1 e1
        cases h
        unfold substSig at e1
        simp only at e1
        split at e1
        · cases e1
        · rename_i s2 ts e2
          obtain ⟨r, hc⟩ := (reachable_inv hs.reach).core.closed
          obtain ⟨a1, a2, a3⟩ := mapS_each known_mono hf _ _ _ _ hs (by
            intro t ht
            refine hc.sigs _ _ e t ?_
            have := sigArgs_sub ht
            unfold sigTypes at this ⊢
            simp only [List.mem_append, List.mem_flatMap, List.mem_filter] at this ⊢
            grind) e2
          have hk' : TypesKnown s2.store (sigTypes (setSigArgs
              { sig with typeParams := sig.typeParams.filter fun tp => (σ tp.id).isNone } ts)) :=
            fun t ht => a2 t (setSigArgs_mem a3.length ht)
          obtain ⟨b1, b2, b3⟩ := run_next (o := .signature _) a1.exact hk' e1
          have n := a1.trans b1
          have hj : (s1.store.sigs.lookup j).isSome := by
            rw [(internSignature_ok (reachable_inv a1.exact.reach) hk' b2).2.2]; rfl
          have hin : Inst H σ s1.store (.sig i) j :=
            .sig (n.le.sigs _ _ e) (fun a b hx => hx) (sig_same (a3.imp fun a b hx => hx.mono b1.later b1.le)) b3
          refine ⟨⟨⟨n.exact.reach, n.exact.later, n.exact.types, fun x y hxy => ?_, n.exact.shapes⟩,
            n.later, n.le⟩, hj, hin⟩
          rw [List.lookup_cons] at hxy
          split at hxy
          · rename_i hb
            cases hxy
            rw [beq_iff_eq] at hb
            subst hb
            exact ⟨hj, hin⟩
          · exact n.exact.sigs x y hxy

theorem substShape_inst {f : Sub → Nat → Option (Sub × Nat)}
    (hf : Computes H σ st0 KnownType .type f) :
    Computes H σ st0 (fun st i => (st.shapes.lookup i).isSome) .shape (substShape H σ f) := by
  intro s i s' j hs hk h
  unfold substShape at h
  split at h
  · rename_i hit e
    cases h
    exact ⟨⟨hs, .refl, Le.refl _⟩, hs.shapes _ _ e⟩
  · split at h
    · cases h
    · rename_i sh hsh
      split at h
      · cases h
      · rename_i s1 ts e1
        split at h
        · cases h
        · rename_i s2 call e2
          split at h
          · cases h
          · rename_i s3 con e3
            split at h
            · cases h
            · rename_i s4 j4 e4
              cases h
              obtain ⟨r, hc⟩ := (reachable_inv hs.reach).core.closed
              have kn := hc.shapes _ _ hsh
              obtain ⟨a1, a2, a3⟩ := mapS_each known_mono hf _ _ _ _ hs kn.types e1
              obtain ⟨b1, b2, b3⟩ := mapS_each knownSig_mono (substSigId_inst hf) _ _ _ _ a1.exact
                (fun g hx => isSome_ext a1.le.sigs (kn.sigs g (List.mem_append_left _ hx))) e2
              have n2 := a1.trans b1
              obtain ⟨c1, c2, c3⟩ := mapS_each knownSig_mono (substSigId_inst hf) _ _ _ _ b1.exact
                (fun g hx => isSome_ext n2.le.sigs (kn.sigs g (List.mem_append_right _ hx))) e3
              have n3 := n2.trans c1
              have hk' : ShapeKnown s3.store (putShape sh ts call con) := by
                refine ⟨fun u hu => (b1.trans c1).le.known (a2 u (putShape_mem hu)), fun g hx => ?_,
                  putShape_keys (fun q hq => (kn.keys q hq).mono n3.le) ts⟩
                rcases List.mem_append.1 hx with hx | hx
                · exact isSome_ext c1.le.sigs (b2 g hx)
                · exact c2 g hx
              obtain ⟨d1, d2, d3⟩ := run_next (o := .shape _) c1.exact hk' e4
              have n4 := n3.trans d1
              have m1 := (b1.trans c1).trans d1
              have m2 := c1.trans d1
              have hj : (s4.store.shapes.lookup j).isSome :=
                (internShape_ok (reachable_inv c1.exact.reach) hk' d2).2.2
              have hin : Inst H σ s4.store (.shape i) j :=
                .shape (n4.le.shapes _ _ hsh) (fun a b hx => hx) (fun a b hx => hx)
                  (shape_same (a3.imp fun a b hx => hx.mono m1.later m1.le)
                    (b3.imp fun a b hx => hx.mono m2.later m2.le)
                    (c3.imp fun a b hx => hx.mono d1.later d1.le)) d3
              refine ⟨⟨⟨n4.exact.reach, n4.exact.later, n4.exact.types, n4.exact.sigs, fun x y hxy => ?_⟩,
                n4.later, n4.le⟩, hj, hin⟩
              rw [List.lookup_cons] at hxy
              split at hxy
              · rename_i hb
                cases hxy
                rw [beq_iff_eq] at hb
                subst hb
                exact ⟨hj, hin⟩
              · exact n4.exact.shapes x y hxy

theorem put_known {k : Kind} {ts us : List Nat} {st : Store} (h : args k = some ts)
    (hl : us.length = ts.length) (hk : ∀ u ∈ us, KnownType st u) : KindKnown st (put k us) := by
  obtain ⟨p1, _, p3, p4, p5⟩ := put_spec h hl
  exact ⟨fun u hu => hk u (p1 u hu), fun o e => absurd e (p4 o), fun ss e => absurd e (p3 ss),
    fun n e => absurd e (p5 n)⟩

theorem substKind_inst (hσ : ∀ q u, σ q = some u → (st0.kind? u).isSome) (hi0 : Inv H st0)
    {f : Sub → Nat → Option (Sub × Nat)} (hf : Computes H σ st0 KnownType .type f) :
    Computes H σ st0 KnownType .type (substKind H σ f) := by
  intro s t s' u hs hk h
  have hi := reachable_inv hs.reach
  obtain ⟨r, hc⟩ := hi.core.closed
  unfold substKind at h
  split at h
  · cases h
  · rename_i q e
    cases h
    refine ⟨⟨hs, .refl, Le.refl _⟩, ?_, ?_⟩
    · cases hq : σ q with
      | some v => exact (later_le hi0 hs.later).2.known (hσ q v hq)
      | none => exact hk
    · cases hq : σ q with
      | some v => exact .arg e hq
      | none => exact .free e hq
  · rename_i ss e
    split at h
    · cases h
    · rename_i s1 us e1
      obtain ⟨a1, a2, a3⟩ := mapS_each knownSig_mono (substSigId_inst hf) _ _ _ _ hs
        ((hc.types t _ e).1.sigs _ rfl) e1
      have kk : KindKnown s1.store (.callable us) :=
        ⟨by simp [TypesKnown, kindTypes], fun _ e => (by cases e), fun ss e => (by cases e; exact a2),
          fun _ e => by cases e⟩
      obtain ⟨b1, b2, b3⟩ := run_next (o := .type _) a1.exact kk h
      have n := a1.trans b1
      exact ⟨n, (internType_ok (reachable_inv a1.exact.reach) kk b2).known,
        .callable (n.le.kind? e) (fun a b hx => hx) (a3.imp fun a b hx => hx.mono b1.later b1.le) b3⟩
  · rename_i o e
    split at h
    · cases h
    · rename_i s1 o1 e1
      unfold substObject at e1
      split at e1
      · cases e1
      · rename_i i ei
        split at e1
        · cases e1
        · rename_i s2 i2 e2
          obtain ⟨a1, a2, a3⟩ := substShape_inst hf _ _ _ _ hs (hc.objects _ _ ei) e2
          obtain ⟨b1, b2, b3⟩ := run_next (o := .object i2) a1.exact a2 e1
          have b4 : (s1.store.objects.lookup o1).isSome := by
            change s2.store.internObject H i2 = _ at b2
            unfold Store.internObject at b2
            split at b2
            · cases b2
            · rename_i m j em
              simp only [Option.some.injEq, Prod.mk.injEq] at b2
              obtain ⟨hst, rfl⟩ := b2
              rw [← hst]
              show (m.lookup j).isSome
              rw [(insertObject_ok (reachable_inv a1.exact.reach) a2 em).2.2]; rfl
          have kk : KindKnown s1.store (.object o1) :=
            ⟨by simp [TypesKnown, kindTypes], fun o e => (by cases e; exact b4), fun _ e => (by cases e),
              fun _ e => by cases e⟩
          obtain ⟨c1, c2, c3⟩ := run_next (o := .type _) b1.exact kk h
          have m := b1.trans c1
          have n := a1.trans m
          exact ⟨n, (internType_ok (reachable_inv b1.exact.reach) kk c2).known,
            .object (n.le.kind? e) (n.le.objects _ _ ei) (a3.mono m.later m.le) (b3.mono c1.later) c3⟩
  · rename_i k n1 n2 n3 e
    split at h
    · rename_i ha
      obtain ⟨b1, b2, b3⟩ := run_next (o := .canon t) hs hk h
      change s.store.canon H t = _ at b2
      rw [canon_id hi.core hk] at b2
      simp only [Option.some.injEq, Prod.mk.injEq] at b2
      obtain ⟨hst, rfl⟩ := b2
      refine ⟨b1, b1.le.known hk, .fixed (b1.le.kind? e) ?_⟩
      cases k <;> first
        | trivial
        | exact absurd rfl (n1 _)
        | exact absurd rfl (n2 _)
        | exact absurd rfl (n3 _)
        | simp [args] at ha
    · rename_i ts ha
      split at h
      · cases h
      · rename_i s1 us e1
        obtain ⟨a1, a2, a3⟩ := mapS_each known_mono hf _ _ _ _ hs
          (fun u hu => (hc.types t _ e).1.types u (args_sub ha u hu)) e1
        have kk := put_known ha a3.length a2
        obtain ⟨b1, b2, b3⟩ := run_next (o := .type _) a1.exact kk h
        have n := a1.trans b1
        exact ⟨n, (internType_ok (reachable_inv a1.exact.reach) kk b2).known,
          .parts (n.le.kind? e) (fun a b hx => hx)
            (put_same ha (a3.imp fun a b hx => hx.mono b1.later b1.le)) b3⟩

theorem substType_inst (hσ : ∀ q u, σ q = some u → (st0.kind? u).isSome) (hi0 : Inv H st0) :
    ∀ n, Computes H σ st0 KnownType .type (substType H σ n)
  | 0 => fun s t s' u _ _ h => by cases h
  | n + 1 => by
    intro s t s' u hs hk h
    unfold substType at h
    split at h
    · rename_i hit e
      cases h
      exact ⟨⟨hs, .refl, Le.refl _⟩, hs.types _ _ e⟩
    · split at h
      · cases h
      · rename_i s1 u1 e1
        cases h
        obtain ⟨a, b, c⟩ := substKind_inst hσ hi0 (substType_inst hσ hi0 n) _ _ _ _ hs hk e1
        refine ⟨⟨⟨a.exact.reach, a.exact.later, fun x y hxy => ?_, a.exact.sigs, a.exact.shapes⟩,
          a.later, a.le⟩, b, c⟩
        rw [List.lookup_cons] at hxy
        split at hxy
        · rename_i hb
          cases hxy
          rw [beq_iff_eq] at hb
          subst hb
          exact ⟨b, c⟩
        · exact a.exact.types x y hxy

end Verif.Subst
