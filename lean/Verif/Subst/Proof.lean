import Verif.Subst.Lemmas
/-!
# What substitution leaves behind
-/

namespace Verif.Subst
open Verif.Types
open Verif.Types.Store

/-! ## Putting types back -/

theorem setOpt_append {o : Option Nat} {ts : List Nat} (h : (opt o).length ≤ ts.length) :
    opt (setOpt o ts).1 ++ (setOpt o ts).2 = ts := by
  cases o with
  | none => rfl
  | some a =>
    cases ts with
    | nil => simp [opt] at h
    | cons t ts => rfl

theorem setOpt_length {o : Option Nat} {ts : List Nat} (h : (opt o).length ≤ ts.length) :
    (setOpt o ts).2.length + (opt o).length = ts.length := by
  cases o with
  | none => rfl
  | some a =>
    cases ts with
    | nil => simp [opt] at h
    | cons t ts => rfl

theorem mem_zip {A B : Type} {f : A → Nat → B} {g : B → Nat} (hg : ∀ a t, g (f a t) = t) :
    ∀ (as : List A) (ts : List Nat) (x : Nat), x ∈ (List.zipWith f as ts).map g → x ∈ ts
  | [], _, x, h => by simp at h
  | _ :: _, [], x, h => by simp at h
  | a :: as, t :: ts, x, h => by
    rw [List.zipWith_cons_cons, List.map_cons, hg] at h
    rcases List.mem_cons.1 h with rfl | h
    · simp
    · exact List.mem_cons_of_mem _ (mem_zip hg as ts x h)

theorem setTypeParams_mem : ∀ (ps : List TypeParamDecl) (ts : List Nat) (x : Nat),
    (ps.flatMap fun q => opt q.constraint ++ opt q.default_).length ≤ ts.length →
    x ∈ (setTypeParams ps ts).flatMap (fun q => q.constraint.toList ++ q.default_.toList) → x ∈ ts
  | [], _, x, _, h => by simp [setTypeParams] at h
  | q :: ps, ts, x, hl, h => by
    rw [List.flatMap_cons, List.length_append, List.length_append] at hl
    have h1 := setOpt_append (o := q.constraint) (ts := ts) (by omega)
    have l1 := setOpt_length (o := q.constraint) (ts := ts) (by omega)
    have h2 := setOpt_append (o := q.default_) (ts := (setOpt q.constraint ts).2) (by omega)
    have l2 := setOpt_length (o := q.default_) (ts := (setOpt q.constraint ts).2) (by omega)
    unfold setTypeParams at h
    rw [List.flatMap_cons] at h
    have ih := setTypeParams_mem ps (setOpt q.default_ (setOpt q.constraint ts).2).2 x (by omega)
    rw [← h1, ← h2]
    simp only [List.mem_append, opt] at h ⊢
    rcases h with (h | h) | h
    · exact .inl h
    · exact .inr (.inl h)
    · exact .inr (.inr (ih h))

theorem setSigArgs_mem {s : Signature} {ts : List Nat} (hl : ts.length = (sigArgs s).length) {x : Nat}
    (h : x ∈ sigTypes (setSigArgs s ts)) : x ∈ ts := by
  unfold sigArgs at hl
  simp only [List.length_append, List.length_cons, List.length_map] at hl
  have hd : (ts.drop s.params.length).length = ts.length - s.params.length := List.length_drop
  obtain ⟨r, rest, hr⟩ : ∃ r rest, ts.drop s.params.length = r :: rest := by
    cases e : ts.drop s.params.length with
    | nil => rw [e] at hd; simp at hd; omega
    | cons r rest => exact ⟨r, rest, rfl⟩
  rw [hr, List.length_cons] at hd
  have h1 := setOpt_append (o := s.thisParam) (ts := rest) (by omega)
  have l1 := setOpt_length (o := s.thisParam) (ts := rest) (by omega)
  have drop : ∀ y ∈ r :: rest, y ∈ ts := fun y hy => List.mem_of_mem_drop (hr ▸ hy)
  unfold sigTypes setSigArgs at h
  simp only [hr, List.headD_cons, List.tail_cons] at h
  rcases List.mem_append.1 h with h | h
  · rcases List.mem_append.1 h with h | h
    · rcases List.mem_append.1 h with h | h
      · exact List.mem_of_mem_take (mem_zip (g := Param.ty)
          (f := fun (p : Param) t => { p with name := none, ty := t }) (fun _ _ => rfl) _ _ _ h)
      · rw [List.mem_singleton.1 h]; exact drop r (by simp)
    · refine drop x (List.mem_cons_of_mem _ ?_)
      rw [← h1]
      exact List.mem_append_right _ (setTypeParams_mem _ _ _ (by omega) h)
  · refine drop x (List.mem_cons_of_mem _ ?_)
    rw [← h1]
    exact List.mem_append_left _ h

theorem setIndexers_mem : ∀ (xs : List Indexer) (ts : List Nat) (x : Nat),
    x ∈ (setIndexers xs ts).flatMap (fun y => [y.keyType, y.valueType]) → x ∈ ts
  | [], _, x, h => by simp [setIndexers] at h
  | _ :: _, [], x, h => by simp [setIndexers] at h
  | _ :: _, [_], x, h => by simp [setIndexers] at h
  | y :: xs, k :: v :: ts, x, h => by
    unfold setIndexers at h
    rw [List.flatMap_cons] at h
    simp only [List.cons_append, List.nil_append, List.mem_cons] at h
    rcases h with rfl | rfl | h
    · simp
    · simp
    · simp [setIndexers_mem xs ts x h]

theorem putShape_mem {sh : Shape} {ts a b : List Nat} {x : Nat}
    (h : x ∈ shapeTypes (putShape sh ts a b)) : x ∈ ts := by
  unfold shapeTypes putShape at h
  rcases List.mem_append.1 h with h | h
  · exact List.mem_of_mem_take (mem_zip (g := fun (q : Property) => q.data.ty)
      (f := fun (p : Property) t => (⟨p.key, { p.data with ty := t }⟩ : Property)) (fun _ _ => rfl) _ _ _ h)
  · exact List.mem_of_mem_drop (setIndexers_mem _ _ _ h)

theorem putShape_keys {st : Store} {sh : Shape} {a b : List Nat} (h : ∀ p ∈ sh.properties, KeyKnown st p.key)
    (ts : List Nat) : ∀ p ∈ (putShape sh ts a b).properties, KeyKnown st p.key := by
  unfold putShape
  simp only
  generalize ts.take sh.properties.length = us
  revert us
  generalize sh.properties = ps at h
  induction ps with
  | nil => intro us p hp; simp at hp
  | cons q ps ih =>
    intro us p hp
    cases us with
    | nil => simp at hp
    | cons u us =>
      rw [List.zipWith_cons_cons] at hp
      rcases List.mem_cons.1 hp with rfl | hp
      · exact h q (by simp)
      · exact ih (fun x hx => h x (by simp [hx])) us p hp

/-- The kinds that are taken apart and put together again. -/
theorem put_spec {k : Kind} {ts us : List Nat} (h : args k = some ts) (hl : us.length = ts.length) :
    (∀ x ∈ kindTypes (put k us), x ∈ us) ∧ (∀ q, put k us ≠ .typeParam q) ∧
      (∀ ss, put k us ≠ .callable ss) ∧ (∀ o, put k us ≠ .object o) ∧ ∀ n, put k us ≠ .strLit n := by
  have one : ∀ {us : List Nat}, us.length = 1 → ∃ a, us = [a] := fun h => List.length_eq_one_iff.1 h
  cases k <;> simp only [args, Option.some.injEq, reduceCtorEq] at h <;> subst h
  case tuple es =>
    refine ⟨fun x hx => mem_zip (g := TupleElem.ty) (fun _ _ => rfl) _ _ _ hx, ?_, ?_, ?_, ?_⟩ <;>
      simp [put]
  case template hd sp =>
    refine ⟨fun x hx => mem_zip (g := TemplateChunk.ty) (fun _ _ => rfl) _ _ _ hx, ?_, ?_, ?_, ?_⟩ <;>
      simp [put]
  case union => simp [put, kindTypes]
  case inter => simp [put, kindTypes]
  case ref => simp [put, kindTypes]
  case array => obtain ⟨a, rfl⟩ := one hl; simp [put, kindTypes]
  case intrinsic => obtain ⟨a, rfl⟩ := one hl; simp [put, kindTypes]
  case keyOf => obtain ⟨a, rfl⟩ := one hl; simp [put, kindTypes]
  case indexed =>
    match us, hl with
    | [a, b], _ => simp [put, kindTypes]
  case conditional =>
    match us, hl with
    | [a, b, c, d], _ => simp [put, kindTypes]
  case mapped m =>
    match us, hl with
    | s :: v :: rest, hl =>
      simp only [List.length_cons, List.length_append] at hl
      have h1 := setOpt_append (o := m.nameType) (ts := rest) (by omega)
      have l1 := setOpt_length (o := m.nameType) (ts := rest) (by omega)
      have h2 := setOpt_append (o := m.asType) (ts := (setOpt m.nameType rest).2) (by omega)
      refine ⟨fun x hx => ?_, by simp [put], by simp [put], by simp [put], by simp [put]⟩
      simp only [put, kindTypes, List.mem_append, List.mem_cons, List.not_mem_nil, or_false] at hx
      rw [← h1, ← h2]
      simp only [List.mem_cons, List.mem_append, opt]
      rcases hx with ((rfl | rfl) | hx) | hx
      · exact .inl rfl
      · exact .inr (.inl rfl)
      · exact .inr (.inr (.inl hx))
      · exact .inr (.inr (.inr (.inl hx)))

theorem args_sub {k : Kind} {ts : List Nat} (h : args k = some ts) : ∀ x ∈ ts, x ∈ kindTypes k := by
  cases k <;> simp only [args, Option.some.injEq, reduceCtorEq] at h <;> subst h <;>
    simp [kindTypes, opt]

/-! ## The substituter -/

variable {H : Hashes} {σ : Nat → Option Nat} {p : Nat} {st0 : Store}

/-- What holds of a substituter throughout. -/
structure Fine (H : Hashes) (p : Nat) (st0 : Store) (s : Sub) : Prop where
  inv : Inv H s.store
  later : Later H st0 s.store
  le : Le st0 s.store
  types : ∀ t u, s.types.lookup t = some u → CleanType s.store p u
  sigs : ∀ i j, s.sigs.lookup i = some j → CleanSig s.store p j
  shapes : ∀ i j, s.shapes.lookup i = some j → CleanShape s.store p j

theorem run_fine {s s' : Sub} {o : Op} {i : Nat} (hs : Fine H p st0 s) (hk : o.Known s.store)
    (h : s.run H o = some (s', i)) :
    Fine H p st0 s' ∧ Le s.store s'.store ∧ o.run H s.store = some (s'.store, i) := by
  unfold Sub.run at h
  split at h
  · cases h
  · rename_i st j e
    cases h
    obtain ⟨a, b⟩ := op_ok hs.inv hk e
    exact ⟨⟨a, .op hs.later hk e, hs.le.trans b, fun t u h => (hs.types t u h).mono hs.inv.core b,
      fun t u h => (hs.sigs t u h).mono hs.inv.core b,
      fun t u h => (hs.shapes t u h).mono hs.inv.core b⟩, b, e⟩

theorem mapS_ok {f : Sub → Nat → Option (Sub × Nat)} {P Q : Store → Nat → Prop}
    (hP : ∀ (st S : Store) (t : Nat), Core H st → Le st S → P st t → P S t)
    (hQ : ∀ (st S : Store) (t : Nat), Core H st → Le st S → Q st t → Q S t)
    (hf : ∀ s t s' u, Fine H p st0 s → P s.store t → f s t = some (s', u) →
      Fine H p st0 s' ∧ Le s.store s'.store ∧ Q s'.store u) :
    ∀ (ts : List Nat) (s s' : Sub) (us : List Nat), Fine H p st0 s → (∀ t ∈ ts, P s.store t) →
      mapS f s ts = some (s', us) →
      Fine H p st0 s' ∧ Le s.store s'.store ∧ (∀ u ∈ us, Q s'.store u) ∧ us.length = ts.length
  | [], s, s', us, hs, _, h => by
    simp only [mapS, Option.some.injEq, Prod.mk.injEq] at h
    obtain ⟨rfl, rfl⟩ := h
    exact ⟨hs, Le.refl _, by simp, rfl⟩
  | t :: ts, s, s', us, hs, hp, h => by
    unfold mapS at h
    split at h
    · cases h
    · rename_i s1 u1 e1
      split at h
      · cases h
      · rename_i s2 us2 e2
        simp only [Option.some.injEq, Prod.mk.injEq] at h
        obtain ⟨rfl, rfl⟩ := h
        obtain ⟨a1, a2, a3⟩ := hf _ _ _ _ hs (hp t (by simp)) e1
        obtain ⟨b1, b2, b3, b4⟩ := mapS_ok hP hQ hf ts s1 s2 us2 a1
          (fun x hx => hP _ _ _ hs.inv.core a2 (hp x (by simp [hx]))) e2
        refine ⟨b1, a2.trans b2, ?_, by simp [b4]⟩
        intro u hu
        rcases List.mem_cons.1 hu with rfl | hu
        · exact hQ _ _ _ a1.inv.core b2 a3
        · exact b3 u hu

/-- A type of the store in which `p` is nowhere hidden. -/
def OpenType (p : Nat) (st : Store) (t : Nat) : Prop := (st.kind? t).isSome ∧ ¬ Hidden st p t

def OpenSig (p : Nat) (st : Store) (i : Nat) : Prop :=
  ∃ sig, st.sigs.lookup i = some sig ∧ ∀ u ∈ sigTypes sig, OpenType p st u

theorem OpenType.mono {st S : Store} (hi : Core H st) (hle : Le st S) {t : Nat}
    (h : OpenType p st t) : OpenType p S t :=
  ⟨hle.known h.1, fun ho => h.2 (hidden_down hi hle h.1 ho)⟩

theorem OpenSig.mono {st S : Store} (hi : Core H st) (hle : Le st S) {t : Nat}
    (h : OpenSig p st t) : OpenSig p S t := by
  obtain ⟨sig, a, b⟩ := h
  exact ⟨sig, hle.sigs _ _ a, fun u hu => (b u hu).mono hi hle⟩

theorem open_part {st : Store} (hi : Core H st) {t u : Nat} (h : OpenType p st t)
    (hm : Mentions st t u) : OpenType p st u :=
  ⟨(mentions_down hi (Le.refl _) h.1 hm).2, fun ho => h.2 (hidden_mentions hm ho)⟩

/-- What a function that substitutes in a type does. -/
def Does (H : Hashes) (p : Nat) (st0 : Store) (f : Sub → Nat → Option (Sub × Nat)) : Prop :=
  ∀ s t s' u, Fine H p st0 s → OpenType p s.store t → f s t = some (s', u) →
    Fine H p st0 s' ∧ Le s.store s'.store ∧ CleanType s'.store p u

theorem substSig_ok {f : Sub → Nat → Option (Sub × Nat)} (hf : Does H p st0 f) {s s' : Sub}
    {sig : Signature} {j : Nat} (hs : Fine H p st0 s) (ho : ∀ u ∈ sigTypes sig, OpenType p s.store u)
    (h : substSig H σ f s sig = some (s', j)) :
    Fine H p st0 s' ∧ Le s.store s'.store ∧ CleanSig s'.store p j := by
  unfold substSig at h
  simp only at h
  split at h
  · cases h
  · rename_i s1 ts e
    obtain ⟨a1, a2, a3, a4⟩ := mapS_ok (P := OpenType p) (Q := fun st t => CleanType st p t)
      (fun _ _ _ a b c => c.mono a b) (fun _ _ _ a b c => c.mono a b) hf _ _ _ _ hs (by
        intro t ht
        refine ho t ?_
        have := sigArgs_sub ht
        unfold sigTypes at this ⊢
        simp only [List.mem_append, List.mem_flatMap, List.mem_filter] at this ⊢
        grind) e
    have hk : TypesKnown s1.store (sigTypes (setSigArgs
        { sig with typeParams := sig.typeParams.filter fun tp => (σ tp.id).isNone } ts)) :=
      fun t ht => (a3 t (setSigArgs_mem a4 ht)).1
    obtain ⟨b1, b2, b3⟩ := run_fine (o := .signature _) a1 hk h
    refine ⟨b1, a2.trans b2, _, (internSignature_ok a1.inv hk b3).2.2, fun u hu => ?_⟩
    rw [sigTypes_unnamed] at hu
    exact (a3 u (setSigArgs_mem a4 hu)).mono a1.inv.core b2

theorem substSigId_ok {f : Sub → Nat → Option (Sub × Nat)} (hf : Does H p st0 f) (s : Sub) (i : Nat)
    (s' : Sub) (j : Nat) (hs : Fine H p st0 s) (ho : OpenSig p s.store i)
    (h : substSigId H σ f s i = some (s', j)) :
    Fine H p st0 s' ∧ Le s.store s'.store ∧ CleanSig s'.store p j := by
  unfold substSigId at h
  split at h
  · rename_i hit e
    cases h
    exact ⟨hs, Le.refl _, hs.sigs _ _ e⟩
  · split at h
    · cases h
    · rename_i sig e
      split at h
      · cases h
      · rename_i s1 j1 e1
        cases h
        obtain ⟨sig', a, b⟩ := ho
        rw [e] at a; cases a
        obtain ⟨c1, c2, c3⟩ := substSig_ok hf hs b e1
        refine ⟨⟨c1.inv, c1.later, c1.le, c1.types, fun x y hxy => ?_, c1.shapes⟩, c2, c3⟩
        rw [List.lookup_cons] at hxy
        split at hxy
        · cases hxy; exact c3
        · exact c1.sigs x y hxy

theorem substShape_ok {f : Sub → Nat → Option (Sub × Nat)} (hf : Does H p st0 f) {s : Sub} {i : Nat}
    {s' : Sub} {j : Nat} (hs : Fine H p st0 s) {sh : Shape} (hsh : s.store.shapes.lookup i = some sh)
    (ht : ∀ u ∈ shapeTypes sh, OpenType p s.store u) (hg : ∀ g ∈ shapeSigs sh, OpenSig p s.store g)
    (h : substShape H σ f s i = some (s', j)) :
    Fine H p st0 s' ∧ Le s.store s'.store ∧ CleanShape s'.store p j := by
  unfold substShape at h
  rw [hsh] at h
  split at h
  · rename_i hit e
    cases h
    exact ⟨hs, Le.refl _, hs.shapes _ _ e⟩
  · simp only at h
    split at h
    · cases h
    · rename_i s1 ts e1
      split at h
      · cases h
      · rename_i s2 call e2
        split at h
        · cases h
        · rename_i s3 con e3
          split at h
          · cases h
          · rename_i s4 j4 e4
            cases h
            obtain ⟨r, hc⟩ := hs.inv.core.closed
            have kn := hc.shapes _ _ hsh
            obtain ⟨a1, a2, a3, a4⟩ := mapS_ok (P := OpenType p) (Q := fun st t => CleanType st p t)
              (fun _ _ _ a b c => c.mono a b) (fun _ _ _ a b c => c.mono a b) hf _ _ _ _ hs ht e1
            obtain ⟨b1, b2, b3, b4⟩ := mapS_ok (P := OpenSig p) (Q := fun st t => CleanSig st p t)
              (fun _ _ _ a b c => c.mono a b) (fun _ _ _ a b c => c.mono a b) (substSigId_ok hf) _ _ _ _ a1
              (fun g hx => (hg g (List.mem_append_left _ hx)).mono hs.inv.core a2) e2
            obtain ⟨c1, c2, c3, c4⟩ := mapS_ok (P := OpenSig p) (Q := fun st t => CleanSig st p t)
              (fun _ _ _ a b c => c.mono a b) (fun _ _ _ a b c => c.mono a b) (substSigId_ok hf) _ _ _ _ b1
              (fun g hx => ((hg g (List.mem_append_right _ hx)).mono hs.inv.core a2).mono a1.inv.core b2) e3
            have ct : ∀ u ∈ shapeTypes (putShape sh ts call con), CleanType s3.store p u := fun u hu =>
              ((a3 u (putShape_mem hu)).mono a1.inv.core b2).mono b1.inv.core c2
            have cs : ∀ g ∈ shapeSigs (putShape sh ts call con), CleanSig s3.store p g := by
              intro g hx
              rcases List.mem_append.1 hx with hx | hx
              · exact (b3 g hx).mono b1.inv.core c2
              · exact c3 g hx
            have hk : ShapeKnown s3.store (putShape sh ts call con) :=
              ⟨fun u hu => (ct u hu).1, fun g hx => (cs g hx).elim fun sig hy => by rw [hy.1]; rfl,
                putShape_keys (fun q hq => ((kn.keys q hq).mono a2 |>.mono b2 |>.mono c2)) ts⟩
            obtain ⟨d1, d2, d3⟩ := run_fine (o := .shape _) c1 hk e4
            have d4 := internShape_clean c1.inv hk ct cs d3
            refine ⟨⟨d1.inv, d1.later, d1.le, d1.types, d1.sigs, fun x y hxy => ?_⟩,
              ((a2.trans b2).trans c2).trans d2, d4⟩
            rw [List.lookup_cons] at hxy
            split at hxy
            · cases hxy; exact d4
            · exact d1.shapes x y hxy

theorem substKind_ok (hσ : ∀ q u, σ q = some u → CleanType st0 p u) (hp : (σ p).isSome)
    (hi0 : Core H st0) {f : Sub → Nat → Option (Sub × Nat)} (hf : Does H p st0 f) :
    Does H p st0 (substKind H σ f) := by
  intro s t s' u hs ho h
  have hcore := hs.inv.core
  obtain ⟨r, hc⟩ := hcore.closed
  unfold substKind at h
  split at h
  · cases h
  · rename_i q e
    cases h
    refine ⟨hs, Le.refl _, ?_⟩
    cases hq : σ q with
    | some v => exact (hσ q v hq).mono hi0 hs.le
    | none =>
      refine clean_of_kind e (cleanKind_flat (fun hx => ?_) (by simp) (by simp) (by simp [kindTypes]))
      cases hx
      rw [hq] at hp; cases hp
  · rename_i ss e
    split at h
    · cases h
    · rename_i s1 us e1
      obtain ⟨a1, a2, a3, a4⟩ := mapS_ok (P := OpenSig p) (Q := fun st t => CleanSig st p t)
        (fun _ _ _ a b c => c.mono a b) (fun _ _ _ a b c => c.mono a b) (substSigId_ok hf) _ _ _ _ hs (by
          intro g hg
          obtain ⟨sig, hx⟩ := Option.isSome_iff_exists.1 ((hc.types t _ e).1.sigs _ rfl g hg)
          exact ⟨sig, hx, fun u hu => open_part hcore ho (.overload e hg hx hu)⟩) e1
      have ck : CleanKind s1.store p (.callable us) :=
        ⟨by simp, by simp [kindTypes], fun ss e g hg => (by cases e; exact a3 g hg), fun _ e => by cases e⟩
      have kk := ck.known fun _ e => by cases e
      obtain ⟨b1, b2, b3⟩ := run_fine (o := .type _) a1 kk h
      exact ⟨b1, a2.trans b2, internType_clean a1.inv kk ck b3⟩
  · rename_i o e
    split at h
    · cases h
    · rename_i s1 o1 e1
      unfold substObject at e1
      split at e1
      · cases e1
      · rename_i i ei
        obtain ⟨sh, hsh⟩ := Option.isSome_iff_exists.1 (hc.objects _ _ ei)
        split at e1
        · cases e1
        · rename_i s2 i2 e2
          obtain ⟨a1, a2, a3⟩ := substShape_ok hf hs hsh
            (fun u hu => open_part hcore ho (.member e ei hsh hu)) (by
              intro g hg
              obtain ⟨sig, hx⟩ := Option.isSome_iff_exists.1 ((hc.shapes _ _ hsh).sigs g hg)
              exact ⟨sig, hx, fun u hu => open_part hcore ho (.signature e ei hsh hg hx hu)⟩) e2
          have hk : (s2.store.shapes.lookup i2).isSome := a3.elim fun x hx => by rw [hx.1]; rfl
          obtain ⟨b1, b2, b3⟩ := run_fine (o := .object i2) a1 hk e1
          have b4 : s1.store.objects.lookup o1 = some i2 := by
            change s2.store.internObject H i2 = _ at b3
            unfold Store.internObject at b3
            split at b3
            · cases b3
            · rename_i m j em
              simp only [Option.some.injEq, Prod.mk.injEq] at b3
              obtain ⟨hst, rfl⟩ := b3
              rw [← hst]
              exact (insertObject_ok a1.inv hk em).2.2
          have ck : CleanKind s1.store p (.object o1) :=
            ⟨by simp, by simp [kindTypes], fun _ e => (by cases e),
              fun o e => (by cases e; exact ⟨i2, b4, a3.mono a1.inv.core b2⟩)⟩
          have kk := ck.known fun _ e => by cases e
          obtain ⟨c1, c2, c3⟩ := run_fine (o := .type _) b1 kk h
          exact ⟨c1, (a2.trans b2).trans c2, internType_clean b1.inv kk ck c3⟩
  · rename_i k n1 n2 n3 e
    split at h
    · rename_i ha
      obtain ⟨b1, b2, b3⟩ := run_fine (o := .canon t) hs ho.1 h
      change s.store.canon H t = _ at b3
      rw [canon_id hcore ho.1] at b3
      simp only [Option.some.injEq, Prod.mk.injEq] at b3
      obtain ⟨hst, rfl⟩ := b3
      refine ⟨b1, b2, ?_⟩
      rw [← hst]
      by_cases hop : Opaque k
      · exact ⟨ho.1, fun hx => ho.2 ⟨t, k, .self t, e, hop, hx⟩⟩
      · refine clean_of_kind e (cleanKind_flat (fun hx => n1 p hx) (fun ss hx => n2 ss hx)
          (fun o hx => n3 o hx) ?_)
        cases k <;> simp [args, Opaque, kindTypes] at ha hop ⊢
    · rename_i ts ha
      split at h
      · cases h
      · rename_i s1 us e1
        obtain ⟨a1, a2, a3, a4⟩ := mapS_ok (P := OpenType p) (Q := fun st t => CleanType st p t)
          (fun _ _ _ a b c => c.mono a b) (fun _ _ _ a b c => c.mono a b) hf _ _ _ _ hs
          (fun u hu => open_part hcore ho (.part e (args_sub ha u hu))) e1
        obtain ⟨p1, p2, p3, p4, p5⟩ := put_spec ha a4
        have ck : CleanKind s1.store p (put k us) :=
          cleanKind_flat (p2 p) p3 p4 fun u hu => a3 u (p1 u hu)
        have kk := ck.known fun n e => absurd e (p5 n)
        obtain ⟨b1, b2, b3⟩ := run_fine (o := .type _) a1 kk h
        exact ⟨b1, a2.trans b2, internType_clean a1.inv kk ck b3⟩

theorem substType_ok (hσ : ∀ q u, σ q = some u → CleanType st0 p u) (hp : (σ p).isSome)
    (hi0 : Core H st0) : ∀ n, Does H p st0 (substType H σ n)
  | 0 => fun s t s' u _ _ h => by cases h
  | n + 1 => by
    intro s t s' u hs ho h
    unfold substType at h
    split at h
    · rename_i hit e
      cases h
      exact ⟨hs, Le.refl _, hs.types _ _ e⟩
    · split at h
      · cases h
      · rename_i s1 u1 e1
        cases h
        obtain ⟨a, b, c⟩ := substKind_ok hσ hp hi0 (substType_ok hσ hp hi0 n) _ _ _ _ hs ho e1
        refine ⟨⟨a.inv, a.later, a.le, fun x y hxy => ?_, a.sigs, a.shapes⟩, b, c⟩
        rw [List.lookup_cons] at hxy
        split at hxy
        · cases hxy; exact c
        · exact a.types x y hxy

theorem fresh_fine (hi : Inv H st0) : Fine H p st0 (.fresh st0) :=
  ⟨hi, .refl, Le.refl _, fun _ _ h => (by cases h), fun _ _ h => (by cases h), fun _ _ h => by cases h⟩

end Verif.Subst
