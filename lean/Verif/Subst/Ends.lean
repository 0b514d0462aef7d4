import Verif.Subst.Unique
/-!
# C102: the recursion of instantiation ends
-/

namespace Verif.Subst
open Verif.Types
open Verif.Types.Store

variable {H : Hashes} {σ : Nat → Option Nat} {st0 B : Store}

/-- In every state of the substituter after the store was `B`, `f` and `g` do the same for what `P`
holds of. -/
def Agree (H : Hashes) (σ : Nat → Option Nat) (st0 B : Store) (P : Nat → Prop)
    (f g : Sub → Nat → Option (Sub × Nat)) : Prop :=
  ∀ s t, Exact H σ st0 s → Le B s.store → P t → f s t = g s t

theorem mapS_agree {K : Store → Nat → Prop} {E : Nat → Ent} {P : Nat → Prop}
    {f g : Sub → Nat → Option (Sub × Nat)} (hg : Computes H σ st0 K E g)
    (hK : ∀ (S : Store) (t : Nat), Le B S → P t → K S t) (h : Agree H σ st0 B P f g) :
    ∀ (ts : List Nat) (s : Sub), Exact H σ st0 s → Le B s.store → (∀ t ∈ ts, P t) →
      mapS f s ts = mapS g s ts
  | [], _, _, _, _ => rfl
  | t :: ts, s, hs, hl, hp => by
    have ht := hp t (List.mem_cons_self ..)
    unfold mapS
    rw [h s t hs hl ht]
    cases e : g s t with
    | none => rfl
    | some x =>
      obtain ⟨a, _, _⟩ := hg s t _ _ hs (hK _ _ hl ht) e
      simp only
      rw [mapS_agree hg hK h ts x.1 a.exact (hl.trans a.le) fun u hu => hp u (List.mem_cons_of_mem _ hu)]

/-- The types of `B` of rank below `N`. -/
def Below (B : Store) (r : Nat → Nat) (N t : Nat) : Prop := (B.kind? t).isSome ∧ r t < N

/-- The signatures of `B` whose types have rank below `N`. -/
def SigBelow (B : Store) (r : Nat → Nat) (N i : Nat) : Prop :=
  ∃ s, B.sigs.lookup i = some s ∧ ∀ c ∈ sigTypes s, Below B r N c

variable {r : Nat → Nat} {N : Nat} {f g : Sub → Nat → Option (Sub × Nat)}

theorem below_known' (S : Store) (t : Nat) (hl : Le B S) (h : Below B r N t) : KnownType S t := hl.known h.1

theorem sigBelow_known (S : Store) (t : Nat) (hl : Le B S) (h : SigBelow B r N t) : KnownSig S t := by
  obtain ⟨s, e, _⟩ := h
  show (S.sigs.lookup t).isSome
  rw [hl.sigs _ _ e]; rfl

theorem substSigId_agree (hg : Computes H σ st0 KnownType .type g)
    (h : Agree H σ st0 B (Below B r N) f g) :
    Agree H σ st0 B (SigBelow B r N) (substSigId H σ f) (substSigId H σ g) := by
  intro s i hs hl ⟨sig, e, hb⟩
  unfold substSigId
  rw [hl.sigs _ _ e]
  simp only
  unfold substSig
  simp only
  rw [mapS_agree hg below_known' h _ s hs hl fun t ht => hb t (by
    have := sigArgs_sub ht
    unfold sigTypes at this ⊢
    simp only [List.mem_append, List.mem_flatMap, List.mem_filter] at this ⊢
    grind)]

theorem substShape_agree (hg : Computes H σ st0 KnownType .type g)
    (h : Agree H σ st0 B (Below B r N) f g) :
    Agree H σ st0 B (fun i => ∃ sh, B.shapes.lookup i = some sh ∧ (∀ c ∈ shapeArgs sh, Below B r N c) ∧
      ∀ x ∈ shapeSigs sh, SigBelow B r N x) (substShape H σ f) (substShape H σ g) := by
  intro s i hs hl ⟨sh, e, hb, hb'⟩
  have ha := substSigId_agree hg h
  have hc := substSigId_inst hg
  unfold substShape
  rw [hl.shapes _ _ e]
  simp only
  rw [mapS_agree hg below_known' h _ s hs hl hb]
  cases e1 : mapS g s (shapeArgs sh) with
  | none => rfl
  | some x =>
    have a := (mapS_each known_mono hg _ _ _ _ hs (fun t ht => below_known' _ _ hl (hb t ht)) e1).1
    have hl1 := hl.trans a.le
    simp only
    rw [mapS_agree hc sigBelow_known ha _ x.1 a.exact hl1 fun t ht => hb' t (List.mem_append_left _ ht)]
    cases e2 : mapS (substSigId H σ g) x.1 sh.callSigs with
    | none => rfl
    | some y =>
      have b := (mapS_each knownSig_mono hc _ _ _ _ a.exact
        (fun t ht => sigBelow_known _ _ hl1 (hb' t (List.mem_append_left _ ht))) e2).1
      simp only
      rw [mapS_agree hc sigBelow_known ha _ y.1 b.exact (hl1.trans b.le)
        fun t ht => hb' t (List.mem_append_right _ ht)]

theorem sig_of {S : Store} {i : Nat} {s : Signature} (h : S.sigs.lookup i = some s) : S.sig i = s := by
  unfold Store.sig; rw [h]; rfl

theorem sigBelow_of (hc : Closed B r) {i : Nat} (hk : (B.sigs.lookup i).isSome)
    (h : ∀ c ∈ sigTypes (B.sig i), r c < N) : SigBelow B r N i := by
  obtain ⟨s, e⟩ := Option.isSome_iff_exists.1 hk
  rw [sig_of e] at h
  exact ⟨s, e, fun c hx => ⟨hc.sigs _ _ e c hx, h c hx⟩⟩

theorem substKind_agree (hc : Closed B r) (hg : Computes H σ st0 KnownType .type g)
    (h : Agree H σ st0 B (Below B r N) f g) :
    Agree H σ st0 B (Below B r (N + 1)) (substKind H σ f) (substKind H σ g) := by
  intro s t hs hl ⟨hk, hr⟩
  obtain ⟨k, e⟩ := Option.isSome_iff_exists.1 hk
  have kn := (hc.types t k e).1
  unfold substKind
  rw [hl.kind? e]
  have gen : ∀ ts, args k = some ts → mapS f s ts = mapS g s ts := fun ts ha =>
    mapS_agree hg below_known' h ts s hs hl fun c hx =>
      ⟨kn.types c (args_sub ha c hx), by have := hc.rank t k e c (args_sub ha c hx); omega⟩
  cases k <;> simp only [args] at gen ⊢ <;> try rw [gen _ rfl]
  case callable ss =>
    rw [mapS_agree (substSigId_inst hg) sigBelow_known (substSigId_agree hg h) ss s hs hl fun i hi =>
      sigBelow_of hc (kn.sigs _ rfl i hi) fun c hx => by have := hc.rankCall t ss e i hi c hx; omega]
  case object o =>
    obtain ⟨i, ei⟩ := Option.isSome_iff_exists.1 (kn.object _ rfl)
    obtain ⟨sh, es⟩ := Option.isSome_iff_exists.1 (hc.objects _ _ ei)
    have eo : B.shapeOf o = sh := by unfold Store.shapeOf; rw [ei]; simp [es]
    obtain ⟨k1, k2⟩ := hc.rankObj t o e
    rw [eo] at k1 k2
    have ks := hc.shapes _ _ es
    unfold substObject
    rw [hl.objects _ _ ei]
    simp only
    rw [substShape_agree hg h s i hs hl ⟨sh, es, fun c hx => ⟨ks.types c hx, by have := k1 c hx; omega⟩,
      fun x hx => sigBelow_of hc (ks.sigs x hx) fun c hc' => by have := k2 x hx c hc'; omega⟩]

/-! ## The bound -/

/-- `instantiate.rs` 79–200: `substitute_type`, with a bound on the depth of recursion and with `z` in place of it where the bound
is reached. -/
def substTypeWith (H : Hashes) (σ : Nat → Option Nat) (z : Sub → Nat → Option (Sub × Nat)) :
    Nat → Sub → Nat → Option (Sub × Nat)
  | 0, s, t => z s t
  | n + 1, s, t =>
    match s.types.lookup t with
    | some hit => some (s, hit)
    | none =>
      match substKind H σ (substTypeWith H σ z n) s t with
      | none => none
      | some (s, u) => some ({ s with types := (t, u) :: s.types }, u)

/-- The model is the case in which the call does not return. -/
theorem substTypeWith_none : ∀ n, substTypeWith H σ (fun _ _ => none) n = substType H σ n
  | 0 => rfl
  | n + 1 => by
    funext s t
    unfold substTypeWith substType
    rw [substTypeWith_none n]
    rfl

theorem substType_agree (hσ : ∀ q u, σ q = some u → (st0.kind? u).isSome) (hi0 : Inv H st0)
    (hc : Closed B r) (z : Sub → Nat → Option (Sub × Nat)) : ∀ N n m, N ≤ n → N ≤ m →
      Agree H σ st0 B (Below B r N) (substTypeWith H σ z n) (substType H σ m)
  | 0, _, _, _, _ => fun s t _ _ hb => absurd hb.2 (Nat.not_lt_zero _)
  | N + 1, 0, _, h, _ => absurd h (by omega)
  | N + 1, n + 1, 0, _, h => absurd h (by omega)
  | N + 1, n + 1, m + 1, h1, h2 => by
    intro s t hs hl hb
    unfold substType substTypeWith
    rw [substKind_agree hc (substType_inst hσ hi0 m)
      (substType_agree hσ hi0 hc z N n m (by omega) (by omega)) s t hs hl hb]
    rfl

/-! ## The claim -/

variable {st : Store}

/-- **C102.** A bound as large as the number of types in the store is never reached: whatever would
happen there makes no difference, and neither does a larger bound. -/
theorem C102_type (h : Reachable H st) (hσ : ∀ q u, σ q = some u → (st.kind? u).isSome) (s : Sub)
    (hu : Used H σ st s) (t : Nat) (ht : (s.store.kind? t).isSome) (n m : Nat)
    (hn : s.store.types.length ≤ n) (hm : s.store.types.length ≤ m)
    (z z' : Sub → Nat → Option (Sub × Nat)) :
    substTypeWith H σ z n s t = substTypeWith H σ z' m s t := by
  have hx := used_exact h hσ hu
  have hi0 := reachable_inv h
  obtain ⟨r, hc⟩ := (reachable_inv hx.reach).core.closed
  have hb : Below s.store r s.store.types.length t := ⟨ht, hc.lt ht⟩
  rw [substType_agree hσ hi0 hc z _ n n hn hn s t hx (Le.refl _) hb,
    substType_agree hσ hi0 hc z' _ m n hm hn s t hx (Le.refl _) hb]

/-- **C102.** The same for signatures. -/
theorem C102_signature (h : Reachable H st) (hσ : ∀ q u, σ q = some u → (st.kind? u).isSome) (s : Sub)
    (hu : Used H σ st s) (i : Nat) (ht : (s.store.sigs.lookup i).isSome) (n m : Nat)
    (hn : s.store.types.length ≤ n) (hm : s.store.types.length ≤ m)
    (z z' : Sub → Nat → Option (Sub × Nat)) :
    substSigId H σ (substTypeWith H σ z n) s i = substSigId H σ (substTypeWith H σ z' m) s i := by
  have hx := used_exact h hσ hu
  have hi0 := reachable_inv h
  obtain ⟨r, hc⟩ := (reachable_inv hx.reach).core.closed
  have hb : SigBelow s.store r s.store.types.length i := by
    refine sigBelow_of hc ht fun c hx => hc.lt ?_
    obtain ⟨sig, e⟩ := Option.isSome_iff_exists.1 ht
    rw [sig_of e] at hx
    exact hc.sigs _ _ e c hx
  have hf := fun z k (hk : s.store.types.length ≤ k) => substSigId_agree (substType_inst hσ hi0 n)
    (substType_agree hσ hi0 hc z _ k n hk hn) s i hx (Le.refl _) hb
  rw [hf z n hn, hf z' m hm]

/-- The substituter `g6` has been used already, and its store has 22 types. A bound of 22 is enough for
type 20, an object; with a bound of one it makes a difference what happens there. -/
example : Used hashes toString g3 g6 ∧ (g6.store.kind? 20).isSome ∧ g6.store.types.length = 22 ∧
    (substTypeWith hashes toString (fun _ _ => none) 22 g6 20).map (fun x => x.2) = some 23 ∧
    substTypeWith hashes toString (fun _ _ => none) 1 g6 20 = none ∧
    (substTypeWith hashes toString (fun s _ => some (s, 0)) 1 g6 20).isSome :=
  ⟨.type (t := 17) (u := 21) (n := 9) .fresh (by decide +kernel) (by decide +kernel), by decide +kernel⟩

end Verif.Subst
