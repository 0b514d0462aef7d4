import Verif.Widen.Theorems
import Verif.Types.Stored
/-!
# C97: widening the properties of object literals
-/

namespace Verif.Widen
open Verif.Types
open Verif.Types.Store

variable {H : Hashes}

/-- `b` came out when `a` was widened, some time between `st` and `st'`. -/
def Came (H : Hashes) (st st' : Store) (a b : Nat) : Prop :=
  ∃ s s1, Inv H s ∧ Le st s ∧ widen H s a = some (s1, b) ∧ Le s1 st'

theorem Came.mono {st0 st st' st1 : Store} {a b : Nat} (h : Came H st st' a b) (h0 : Le st0 st)
    (h1 : Le st' st1) : Came H st0 st1 a b := by
  obtain ⟨s, s1, i, l, e, l'⟩ := h
  exact ⟨s, s1, i, h0.trans l, e, l'.trans h1⟩

theorem came_widened {st st' : Store} {a b : Nat} (hi : Inv H st) (hi' : Inv H st') (hle : Le st st')
    (ha : (st.kind? a).isSome) (h : Came H st st' a b) : WidenedTo st st' a b := by
  obtain ⟨s, s1, i, l, e, l'⟩ := h
  have g := widenN_good _ _ _ _ _ i (l.known ha) e
  refine ⟨fun O arr hr v => ?_, ?_, fun hn => ?_⟩
  · rw [widenN_values hi' hr _ _ _ _ _ i (l.known ha) e l' v]
    exact ⟨wide_down hi.core hle ha, wide_up hle⟩
  · exact noLiteral_up g.ok.inv.core l' g.ok.known (widenN_noLiteral _ _ _ _ _ i (l.known ha) e)
  · obtain ⟨r, hc⟩ := i.core.closed
    have := widenN_id i.core hc _ a (l.known ha) (hc.lt (l.known ha)) (noLiteral_up hi.core l ha hn)
    unfold widen at e
    rw [this] at e
    cases e; rfl

/-! ## The loops -/

/-- How a property comes out of the loop. -/
structure PropStep (H : Hashes) (st st' : Store) (p p' : Property) : Prop where
  rest : p' = { p with data := { p.data with ty := p'.data.ty } }
  readonly : p.data.readonly = true → p'.data.ty = p.data.ty
  mutable : p.data.readonly = false → Came H st st' p.data.ty p'.data.ty

structure IndexerStep (H : Hashes) (st st' : Store) (x x' : Indexer) : Prop where
  rest : x' = { x with valueType := x'.valueType }
  readonly : x.readonly = true → x'.valueType = x.valueType
  mutable : x.readonly = false → Came H st st' x.valueType x'.valueType

theorem PropStep.mono {st0 st st' st1 : Store} {p p' : Property} (h : PropStep H st st' p p')
    (h0 : Le st0 st) (h1 : Le st' st1) : PropStep H st0 st1 p p' :=
  ⟨h.rest, h.readonly, fun e => (h.mutable e).mono h0 h1⟩

theorem IndexerStep.mono {st0 st st' st1 : Store} {p p' : Indexer} (h : IndexerStep H st st' p p')
    (h0 : Le st0 st) (h1 : Le st' st1) : IndexerStep H st0 st1 p p' :=
  ⟨h.rest, h.readonly, fun e => (h.mutable e).mono h0 h1⟩

theorem widenProps_ok : ∀ (ps : List Property) (st : Store) (c : Bool) (st' : Store) (c' : Bool)
    (ps' : List Property), Inv H st → (∀ p ∈ ps, PropKnown st p) →
    widenProps H st c ps = some (st', c', ps') →
    Inv H st' ∧ Le st st' ∧ Later H st st' ∧ (∀ p ∈ ps', PropKnown st' p) ∧
      ps'.map Property.key = ps.map Property.key ∧ (c' = false → c = false ∧ ps' = ps) ∧
      ∀ p ∈ ps, ∃ p' ∈ ps', PropStep H st st' p p'
  | [], st, c, st', c', ps', hi, _, h => by
    simp only [widenProps, Option.some.injEq, Prod.mk.injEq] at h
    obtain ⟨rfl, rfl, rfl⟩ := h
    exact ⟨hi, Le.refl _, .refl, by simp, rfl, fun e => ⟨e, rfl⟩, by simp⟩
  | p :: ps, st, c, st', c', ps', hi, hk, h => by
    unfold widenProps at h
    have kp := hk p (by simp)
    split at h
    · rename_i ro
      split at h
      · cases h
      · rename_i s1 c1 ps1 e1
        simp only [Option.some.injEq, Prod.mk.injEq] at h
        obtain ⟨rfl, rfl, rfl⟩ := h
        obtain ⟨a1, a2, a3, a4, a5, a6, a7⟩ := widenProps_ok ps st c s1 c1 ps1 hi
          (fun q hq => hk q (by simp [hq])) e1
        refine ⟨a1, a2, a3, ?_, by simp [a5], fun e => ⟨(a6 e).1, by rw [(a6 e).2]⟩, ?_⟩
        · intro q hq
          rcases List.mem_cons.1 hq with rfl | hq
          · exact kp.mono a2
          · exact a4 q hq
        · intro q hq
          rcases List.mem_cons.1 hq with rfl | hq
          · exact ⟨q, by simp, rfl, fun _ => rfl, fun e => by rw [ro] at e; cases e⟩
          · obtain ⟨q', hq', hs⟩ := a7 q hq
            exact ⟨q', by simp [hq'], hs⟩
    · rename_i ro
      split at h
      · cases h
      · rename_i s1 w ew
        simp only at h
        split at h
        · cases h
        · rename_i s2 c2 ps2 e2
          simp only [Option.some.injEq, Prod.mk.injEq] at h
          obtain ⟨rfl, rfl, rfl⟩ := h
          have g := widenN_good _ _ _ _ _ hi kp.1 ew
          obtain ⟨a1, a2, a3, a4, a5, a6, a7⟩ := widenProps_ok ps s1 _ s2 c2 ps2 g.ok.inv
            (fun q hq => (hk q (by simp [hq])).mono g.ok.le) e2
          have hp' : (if w ≠ p.data.ty then { p with data := { p.data with ty := w } } else p) =
              { p with data := { p.data with ty := w } } := by
            split
            · rfl
            · rename_i hw
              have : w = p.data.ty := Classical.byContradiction hw
              rw [this]
          rw [hp']
          refine ⟨a1, g.ok.le.trans a2, Later.trans g.later a3, ?_, by simp [a5], fun e => ?_, ?_⟩
          · intro q hq
            rcases List.mem_cons.1 hq with rfl | hq
            · exact ⟨a2.known g.ok.known, (kp.2.mono g.ok.le).mono a2⟩
            · exact a4 q hq
          · obtain ⟨hc, hps⟩ := a6 e
            simp only [Bool.or_eq_false_iff, decide_eq_false_iff_not, ne_eq, Decidable.not_not] at hc
            refine ⟨hc.1, ?_⟩
            rw [hps, hc.2]
          · intro q hq
            rcases List.mem_cons.1 hq with rfl | hq
            · exact ⟨_, List.mem_cons_self .., rfl, fun e => absurd e ro,
                fun _ => ⟨st, s1, hi, Le.refl _, ew, a2⟩⟩
            · obtain ⟨q', hq', hs⟩ := a7 q hq
              exact ⟨q', by simp [hq'], hs.mono g.ok.le (Le.refl _)⟩

theorem widenIndexers_ok : ∀ (ps : List Indexer) (st : Store) (c : Bool) (st' : Store) (c' : Bool)
    (ps' : List Indexer), Inv H st → (∀ p ∈ ps, IndexerKnown st p) →
    widenIndexers H st c ps = some (st', c', ps') →
    Inv H st' ∧ Le st st' ∧ Later H st st' ∧ (∀ p ∈ ps', IndexerKnown st' p) ∧
      ps'.map Indexer.keyType = ps.map Indexer.keyType ∧ (c' = false → c = false ∧ ps' = ps) ∧
      ∀ p ∈ ps, ∃ p' ∈ ps', IndexerStep H st st' p p'
  | [], st, c, st', c', ps', hi, _, h => by
    simp only [widenIndexers, Option.some.injEq, Prod.mk.injEq] at h
    obtain ⟨rfl, rfl, rfl⟩ := h
    exact ⟨hi, Le.refl _, .refl, by simp, rfl, fun e => ⟨e, rfl⟩, by simp⟩
  | p :: ps, st, c, st', c', ps', hi, hk, h => by
    unfold widenIndexers at h
    have kp := hk p (by simp)
    split at h
    · rename_i ro
      split at h
      · cases h
      · rename_i s1 c1 ps1 e1
        simp only [Option.some.injEq, Prod.mk.injEq] at h
        obtain ⟨rfl, rfl, rfl⟩ := h
        obtain ⟨a1, a2, a3, a4, a5, a6, a7⟩ := widenIndexers_ok ps st c s1 c1 ps1 hi
          (fun q hq => hk q (by simp [hq])) e1
        refine ⟨a1, a2, a3, ?_, by simp [a5], fun e => ⟨(a6 e).1, by rw [(a6 e).2]⟩, ?_⟩
        · intro q hq
          rcases List.mem_cons.1 hq with rfl | hq
          · exact kp.mono a2
          · exact a4 q hq
        · intro q hq
          rcases List.mem_cons.1 hq with rfl | hq
          · exact ⟨q, by simp, rfl, fun _ => rfl, fun e => by rw [ro] at e; cases e⟩
          · obtain ⟨q', hq', hs⟩ := a7 q hq
            exact ⟨q', by simp [hq'], hs⟩
    · rename_i ro
      split at h
      · cases h
      · rename_i s1 w ew
        simp only at h
        split at h
        · cases h
        · rename_i s2 c2 ps2 e2
          simp only [Option.some.injEq, Prod.mk.injEq] at h
          obtain ⟨rfl, rfl, rfl⟩ := h
          have g := widenN_good _ _ _ _ _ hi kp.2 ew
          obtain ⟨a1, a2, a3, a4, a5, a6, a7⟩ := widenIndexers_ok ps s1 _ s2 c2 ps2 g.ok.inv
            (fun q hq => (hk q (by simp [hq])).mono g.ok.le) e2
          have hp' : (if w ≠ p.valueType then { p with valueType := w } else p) =
              { p with valueType := w } := by
            split
            · rfl
            · rename_i hw
              have : w = p.valueType := Classical.byContradiction hw
              rw [this]
          rw [hp']
          refine ⟨a1, g.ok.le.trans a2, Later.trans g.later a3, ?_, by simp [a5], fun e => ?_, ?_⟩
          · intro q hq
            rcases List.mem_cons.1 hq with rfl | hq
            · exact ⟨a2.known (g.ok.le.known kp.1), a2.known g.ok.known⟩
            · exact a4 q hq
          · obtain ⟨hc, hps⟩ := a6 e
            simp only [Bool.or_eq_false_iff, decide_eq_false_iff_not, ne_eq, Decidable.not_not] at hc
            refine ⟨hc.1, ?_⟩
            rw [hps, hc.2]
          · intro q hq
            rcases List.mem_cons.1 hq with rfl | hq
            · exact ⟨_, List.mem_cons_self .., rfl, fun e => absurd e ro,
                fun _ => ⟨st, s1, hi, Le.refl _, ew, a2⟩⟩
            · obtain ⟨q', hq', hs⟩ := a7 q hq
              exact ⟨q', by simp [hq'], hs.mono g.ok.le (Le.refl _)⟩

theorem widenProps_id {st : Store} (hi : Inv H st) : ∀ (ps : List Property), (∀ p ∈ ps, PropKnown st p) →
    (∀ p ∈ ps, p.data.readonly = false → NoLiteral st p.data.ty) →
    widenProps H st false ps = some (st, false, ps)
  | [], _, _ => rfl
  | p :: ps, hk, hn => by
    have ih := widenProps_id hi ps (fun q hq => hk q (by simp [hq])) (fun q hq => hn q (by simp [hq]))
    unfold widenProps
    cases ro : p.data.readonly with
    | true => simp only [if_true]; rw [ih]
    | false =>
      obtain ⟨r, hc⟩ := hi.core.closed
      have kp := (hk p (by simp)).1
      have : widen H st p.data.ty = some (st, p.data.ty) :=
        widenN_id hi.core hc _ _ kp (hc.lt kp) (hn p (by simp) ro)
      simp [this, ih]

theorem widenIndexers_id {st : Store} (hi : Inv H st) : ∀ (ps : List Indexer),
    (∀ p ∈ ps, IndexerKnown st p) →
    (∀ p ∈ ps, p.readonly = false → NoLiteral st p.valueType) →
    widenIndexers H st false ps = some (st, false, ps)
  | [], _, _ => rfl
  | p :: ps, hk, hn => by
    have ih := widenIndexers_id hi ps (fun q hq => hk q (by simp [hq])) (fun q hq => hn q (by simp [hq]))
    unfold widenIndexers
    cases ro : p.readonly with
    | true => simp only [if_true]; rw [ih]
    | false =>
      obtain ⟨r, hc⟩ := hi.core.closed
      have kp := (hk p (by simp)).2
      have : widen H st p.valueType = some (st, p.valueType) :=
        widenN_id hi.core hc _ _ kp (hc.lt kp) (hn p (by simp) ro)
      simp [this, ih]

theorem shapeOf_eq {st : Store} {o sh : Nat} {s : Shape} (h1 : st.objects.lookup o = some sh)
    (h2 : st.shapes.lookup sh = some s) : st.shapeOf o = s := by
  unfold Store.shapeOf
  rw [h1, Option.getD_some, h2]; rfl

theorem object_known {st : Store} {o : Nat} (h : (st.objects.lookup o).isSome) : KindKnown st (.object o) :=
  ⟨fun _ hx => (by cases hx), fun _ h' => (by cases h'; exact h), fun _ h => (by cases h), fun _ h => (by cases h)⟩

/-! ## Objects -/

/-- **C97.** Widening an object type gives an object type with the same members, one for one: the types
of the mutable properties and index signatures are widened, everything else stays. The store only
grows. -/
theorem C97_object {H : Hashes} {st st' : Store} (h : Reachable H st) (t o t' : Nat)
    (hk : st.kind? t = some (.object o)) (hw : widenObjectProps H st t = some (st', t')) :
    Later H st st' ∧ ∃ o', st'.kind? t' = some (.object o') ∧
      ShapeWidened st st' (st.shapeOf o) (st'.shapeOf o') := by
  have hi := reachable_inv h
  have hkeys := reachable_keys h
  obtain ⟨rk, hc⟩ := hi.core.closed
  unfold widenObjectProps at hw
  rw [hk] at hw
  simp only at hw
  split at hw
  · cases hw
  · rename_i sh hsh
    split at hw
    · cases hw
    · rename_i s hs
      have hks := hc.shapes sh s hs
      obtain ⟨kp, kx⟩ := shape_parts hks
      obtain ⟨np, nx⟩ := hkeys sh s hs
      rw [shapeOf_eq hsh hs]
      split at hw
      · cases hw
      · rename_i s1 c1 ps e1
        obtain ⟨a1, a2, a3, a4, a5, a6, a7⟩ := widenProps_ok _ _ _ _ _ _ hi kp e1
        split at hw
        · cases hw
        · rename_i s2 c2 xs e2
          obtain ⟨b1, b2, b3, b4, b5, b6, b7⟩ := widenIndexers_ok _ _ _ _ _ _ a1
            (fun x hx => (kx x hx).mono a2) e2
          have fin : ∀ {S : Store} {r : Shape}, Inv H S → Le s2 S → r.properties.Perm ps →
              r.indexers.Perm xs → (∀ o, o ∈ r.callSigs ↔ o ∈ s.callSigs) →
              (∀ o, o ∈ r.constructSigs ↔ o ∈ s.constructSigs) → ShapeWidened st S s r := by
            intro S r iS lS pp px hcs hns
            have lS' := (a2.trans b2).trans lS
            refine ⟨?_, ?_, ?_, ?_, hcs, hns⟩
            · rw [← a5]; exact pp.map _
            · intro p hp
              obtain ⟨p', hp', hst⟩ := a7 p hp
              have hst := hst.mono (Le.refl _) (b2.trans lS)
              exact ⟨p', pp.mem_iff.2 hp', hst.rest, hst.readonly,
                fun e => came_widened hi iS lS' (kp p hp).1 (hst.mutable e)⟩
            · rw [← b5]; exact px.map _
            · intro x hx
              obtain ⟨x', hx', hst⟩ := b7 x hx
              have hst := hst.mono a2 lS
              exact ⟨x', px.mem_iff.2 hx', hst.rest, hst.readonly,
                fun e => came_widened hi iS lS' (kx x hx).2 (hst.mutable e)⟩
          split at hw
          · rename_i hcg
            simp only [Bool.not_eq_true'] at hcg
            cases hw
            obtain ⟨hc1, hxs⟩ := b6 hcg
            obtain ⟨_, hps⟩ := a6 hc1
            have le := a2.trans b2
            refine ⟨Later.trans a3 b3, o, le.kind? hk, ?_⟩
            rw [shapeOf_eq (le.objects _ _ hsh) (le.shapes _ _ hs)]
            exact fin b1 (Le.refl _) (by rw [hps]) (by rw [hxs]) (fun _ => Iff.rfl) (fun _ => Iff.rfl)
          · split at hw
            · cases hw
            · rename_i s3 sh3 e3
              have hk3 : ShapeKnown s2 { s with properties := ps, indexers := xs } := by
                refine ⟨?_, ?_, fun p hp => (a4 p hp).2.mono b2⟩
                · intro x hx
                  rcases List.mem_append.1 hx with hx | hx
                  · obtain ⟨p, hp, rfl⟩ := List.mem_map.1 hx
                    exact b2.known (a4 p hp).1
                  · obtain ⟨y, hy, hx⟩ := List.mem_flatMap.1 hx
                    rcases List.mem_cons.1 hx with rfl | hx
                    · exact (b4 y hy).1
                    · rw [List.mem_singleton.1 hx]; exact (b4 y hy).2
                · exact hks.sigs.mono (a2.trans b2)
              obtain ⟨r, hr, pp, px, hcs, hns⟩ := internShape_once b1 hk3
                (by rw [show _ = _ from a5]; exact np) (by rw [show _ = _ from b5]; exact nx) e3
              obtain ⟨i3, l3, k3⟩ := internShape_ok b1 hk3 e3
              split at hw
              · cases hw
              · rename_i s4 o4 e4
                have l4 := op_ok (o := .object sh3) i3 k3 e4
                have ho4 : s4.objects.lookup o4 = some sh3 := by
                  unfold Store.internObject at e4
                  split at e4
                  · cases e4
                  · rename_i m j he
                    cases e4
                    exact (insertObject_ok i3 k3 he).2.2
                have kk : KindKnown s4 (.object o4) := object_known (by rw [ho4]; rfl)
                have ok5 := internType_ok l4.1 kk hw
                refine ⟨.op (o := .type (.object o4)) (.op (o := .object sh3) (.op (o := .shape _)
                  (Later.trans a3 b3) hk3 e3) k3 e4) kk hw, o4, ?_, ?_⟩
                · rw [internType_eq l4.1.core kk (fun _ h => by cases h) (fun _ h => by cases h)] at hw
                  exact (insertType_spec l4.1.core kk (fun _ h => by cases h) (fun _ h => by cases h) hw).2.2
                · rw [shapeOf_eq (ok5.le.objects _ _ ho4) (ok5.le.shapes _ _ (l4.2.shapes _ _ hr))]
                  exact fin ok5.inv (l3.trans (l4.2.trans ok5.le)) pp px hcs hns

/-- **C97.** An object type whose mutable members show no literal types is returned as it is, and nothing
is interned; so is any other type. -/
theorem C97_unchanged {H : Hashes} {st : Store} (h : Reachable H st) (t : Nat) (k : Kind)
    (hk : st.kind? t = some k)
    (hn : ∀ o, k = .object o →
      (∀ p ∈ (st.shapeOf o).properties, p.data.readonly = false → NoLiteral st p.data.ty) ∧
      (∀ x ∈ (st.shapeOf o).indexers, x.readonly = false → NoLiteral st x.valueType)) :
    widenObjectProps H st t = some (st, t) := by
  have hi := reachable_inv h
  obtain ⟨rk, hc⟩ := hi.core.closed
  unfold widenObjectProps
  rw [hk]
  by_cases ho : ∃ o, k = .object o
  · obtain ⟨o, rfl⟩ := ho
    obtain ⟨sh, hsh⟩ := Option.isSome_iff_exists.1 ((hc.types t _ hk).1.object o rfl)
    obtain ⟨s, hs⟩ := Option.isSome_iff_exists.1 (hc.objects o sh hsh)
    obtain ⟨kp, kx⟩ := shape_parts (hc.shapes sh s hs)
    obtain ⟨n1, n2⟩ := hn o rfl
    rw [shapeOf_eq hsh hs] at n1 n2
    simp only [hsh, hs, widenProps_id hi _ kp n1, widenIndexers_id hi _ kx n2]
    rfl
  · cases k <;> first | rfl | exact absurd ⟨_, rfl⟩ ho

theorem later_reachable {st st' : Store} (h : Reachable H st) (hl : Later H st st') : Reachable H st' := by
  induction hl with
  | refl => exact h
  | op _ hk h ih => exact .op ih hk h

theorem indexer_once : ∀ {xs : List Indexer}, (xs.map Indexer.keyType).Nodup → ∀ a ∈ xs, ∀ b ∈ xs,
    a.keyType = b.keyType → a = b
  | [], _, _, h, _, _, _ => absurd h List.not_mem_nil
  | x :: xs, hd, a, ha, b, hb, e => by
    rw [List.map_cons, List.nodup_cons] at hd
    rcases List.mem_cons.1 ha with rfl | ha' <;> rcases List.mem_cons.1 hb with rfl | hb'
    · rfl
    · exact absurd (List.mem_map.2 ⟨b, hb', e.symm⟩) hd.1
    · exact absurd (List.mem_map.2 ⟨a, ha', e⟩) hd.1
    · exact indexer_once hd.2 a ha' b hb' e

/-- **C97.** Doing it again, at once or later, changes nothing. -/
theorem C97_again {H : Hashes} {st st' st'' : Store} (h : Reachable H st) (t t' : Nat)
    (hk : (st.kind? t).isSome) (hw : widenObjectProps H st t = some (st', t'))
    (hl : Later H st' st'') : widenObjectProps H st'' t' = some (st'', t') := by
  obtain ⟨k, hk⟩ := Option.isSome_iff_exists.1 hk
  by_cases ho : ∃ o, k = .object o
  · obtain ⟨o, rfl⟩ := ho
    obtain ⟨l1, o', hk', hs⟩ := C97_object h t o t' hk hw
    have hr' := later_reachable h l1
    have hr'' := later_reachable hr' hl
    have hi' := reachable_inv hr'
    have hle := (later_le hi' hl).2
    obtain ⟨r, hc⟩ := hi'.core.closed
    have hob := (hc.types t' _ hk').1.object o' rfl
    obtain ⟨sh, hsh⟩ := Option.isSome_iff_exists.1 hob
    obtain ⟨s', hs'⟩ := Option.isSome_iff_exists.1 (hc.objects o' sh hsh)
    obtain ⟨np, nx⟩ := reachable_keys hr' sh s' hs'
    obtain ⟨kp, kx⟩ := shape_parts (hc.shapes sh s' hs')
    rw [shapeOf_eq hsh hs'] at hs
    refine C97_unchanged hr'' t' _ (hle.kind? hk') fun o2 e => ?_
    cases e
    rw [hle.shapeOf hc hob, shapeOf_eq hsh hs']
    constructor
    · intro p' hp' hro
      obtain ⟨p, hp, e⟩ := List.mem_map.1 (hs.keys.mem_iff.1 (List.mem_map.2 ⟨p', hp', rfl⟩))
      obtain ⟨q, hq, hw⟩ := hs.props p hp
      have hkq : q.key = p.key := by rw [hw.rest]
      have : q = p' := nodup_key_eq np q hq p' hp' (by rw [hkq, e])
      subst this
      have hpr : p.data.readonly = false := by rw [hw.rest] at hro; exact hro
      exact noLiteral_up hi'.core hle (kp q hq).1 (hw.mutable hpr).noLiteral
    · intro p' hp' hro
      obtain ⟨p, hp, e⟩ := List.mem_map.1 (hs.keyTypes.mem_iff.1 (List.mem_map.2 ⟨p', hp', rfl⟩))
      obtain ⟨q, hq, hw⟩ := hs.indexers p hp
      have hkq : q.keyType = p.keyType := by rw [hw.rest]
      have : q = p' := indexer_once nx q hq p' hp' (by rw [hkq, e])
      subst this
      have hpr : p.readonly = false := by rw [hw.rest] at hro; exact hro
      exact noLiteral_up hi'.core hle (kx q hq).2 (hw.mutable hpr).noLiteral
  · have hn : ∀ o, k ≠ .object o := fun o e => ho ⟨o, e⟩
    rw [C97_unchanged h t k hk fun o e => absurd e (hn o)] at hw
    cases hw
    have hle := (later_le (reachable_inv h) hl).2
    exact C97_unchanged (later_reachable h hl) _ k (hle.kind? hk) fun o e => absurd e (hn o)

/-! ## An example -/

/-- A property under the numeric key `key` of type `ty`. -/
def member (key : Int) (ty : Nat) (readonly : Bool) : Property :=
  ⟨.number key, ⟨ty, false, readonly, none, false, none, none⟩⟩

/-- Properties of the types `true`, `readonly 5[]` and, read-only, `5`, and an index signature. -/
def shape0 : Shape := ⟨[member 1 12 false, member 0 16 false, member 2 15 true], [], [], [⟨7, 17, false⟩]⟩

/-- Shape and object 0, and type 18, are an object type with these members. -/
def x3 : Store := after (after (after v3 (.shape shape0)) (.object 0)) (.type (.object 0))

theorem reach_x3 : Reachable hashes x3 := by
  refine reach_after (reach_after (reach_after reach_v3 ?_) ?_) ?_
  · refine ⟨?_, fun _ h => absurd h List.not_mem_nil, ?_⟩
    · show ∀ t ∈ shapeTypes shape0, (v3.kind? t).isSome
      decide +kernel
    · intro p hp
      simp only [shape0, member, List.mem_cons, List.not_mem_nil, or_false] at hp
      rcases hp with rfl | rfl | rfl <;> trivial
  · show ((after v3 (.shape shape0)).shapes.lookup 0).isSome
    decide +kernel
  · exact object_known (by decide +kernel)

/-- The store after type 18 has been widened. -/
def x4 : Store :=
  match widenObjectProps hashes x3 18 with
  | some (st, _) => st
  | none => x3

example : Reachable hashes x3 ∧ x3.kind? 18 = some (.object 0) ∧
    widenObjectProps hashes x3 18 = some (x4, 21) ∧ x4.kind? 21 = some (.object 1) ∧
    (x4.shapeOf 1).properties = [member 0 19 false, member 1 6 false, member 2 15 true] ∧
    (x4.shapeOf 1).indexers = [⟨7, 20, false⟩] ∧ x4.kind? 19 = some (.array 7 true) ∧
    x4.kind? 20 = some (.union [4, 6, 19]) ∧ Later hashes x4 x4 :=
  ⟨reach_x3, by decide +kernel, by decide +kernel, by decide +kernel, by decide +kernel,
    by decide +kernel, by decide +kernel, by decide +kernel, .refl⟩

end Verif.Widen
