import Verif.Ssa.Model
import Verif.Dom.Theorems
import Verif.Opt.DvnRun
/-!
# Where phis are placed
-/

namespace Verif.Ssa

open Verif.Il Verif.Graph Verif.Dom Verif.Opt

/-! ## Maps of sets -/

/-- Keys occur once, and the sets hold no element twice. -/
def Sets (m : List (Nat × List Nat)) : Prop := (m.map (·.1)).Nodup ∧ ∀ e ∈ m, e.2.Nodup

theorem lookup_mem {β : Type} : ∀ {m : List (Nat × β)} {k : Nat} {s : β}, m.lookup k = some s → (k, s) ∈ m
  | [], _, _, h => by simp at h
  | (j, t) :: m, k, s, h => by
    rw [List.lookup_cons] at h
    by_cases hk : k = j
    · subst hk
      simp at h
      simp [h]
    · have hb : (k == j) = false := by simpa using hk
      simp only [hb] at h
      exact List.mem_cons_of_mem _ (lookup_mem h)

theorem lookup_isSome_iff {β : Type} : ∀ {m : List (Nat × β)} {k : Nat},
    (m.lookup k).isSome ↔ k ∈ m.map (·.1)
  | [], k => by simp
  | (j, t) :: m, k => by
    rw [List.lookup_cons]
    by_cases hk : k = j
    · subst hk; simp
    · have hb : (k == j) = false := by simpa using hk
      simp only [hb, List.map_cons, List.mem_cons, hk, false_or]
      exact lookup_isSome_iff

theorem sets_insertInto {m : List (Nat × List Nat)} (h : Sets m) (k x : Nat) : Sets (insertInto m k x) := by
  simp only [insertInto]
  cases e : m.lookup k with
  | none =>
    constructor
    · simp only [List.map_cons, List.nodup_cons]
      refine ⟨?_, h.1⟩
      rw [← lookup_isSome_iff, e]
      simp
    · intro a ha
      rcases List.mem_cons.1 ha with rfl | ha
      · simp
      · exact h.2 a ha
  | some s =>
    constructor
    · simp only [List.map_cons, List.nodup_cons]
      constructor
      · simp
      · exact List.Nodup.sublist (List.Sublist.map _ List.filter_sublist) h.1
    · intro a ha
      rcases List.mem_cons.1 ha with rfl | ha
      · exact nodup_setInsert (h.2 _ (lookup_mem e))
      · exact h.2 a (List.mem_filter.1 ha).1

/-- The variables written in a list of instructions. -/
def dsts (is : List Inst) : List Nat := is.flatMap (·.tgts)

theorem foldl_tgts (l : Nat) : ∀ (is : List Inst) (m : List (Nat × List Nat)),
    is.foldl (fun m i => i.tgts.foldl (fun m v => insertInto m v l) m) m =
      (dsts is).foldl (fun m v => insertInto m v l) m
  | [], m => rfl
  | i :: is, m => by
    simp only [List.foldl_cons, dsts, List.flatMap_cons, List.foldl_append]
    exact foldl_tgts l is _

theorem calculateDefs_eq (c : Cfg) : calculateDefs c =
    (c.bblocks.map (fun e => (e.1, dsts e.2))).foldl
      (fun m e => e.2.foldl (fun m v => insertInto m v e.1) m) [] := by
  simp only [calculateDefs, List.foldl_map, foldl_tgts]

theorem sets_fold1 (l : Nat) : ∀ (vs : List Nat) {m : List (Nat × List Nat)}, Sets m →
    Sets (vs.foldl (fun m v => insertInto m v l) m)
  | [], _, h => h
  | v :: vs, _, h => sets_fold1 l vs (sets_insertInto h v l)

theorem sets_fold2 : ∀ (es : List (Nat × List Nat)) {m : List (Nat × List Nat)}, Sets m →
    Sets (es.foldl (fun m e => e.2.foldl (fun m v => insertInto m v e.1) m) m)
  | [], _, h => h
  | e :: es, _, h => sets_fold2 es (sets_fold1 e.1 e.2 h)

theorem sets_defs (c : Cfg) : Sets (calculateDefs c) := by
  rw [calculateDefs_eq]
  exact sets_fold2 _ ⟨by simp, by simp⟩

theorem block_mem {c : Cfg} (hn : (c.bblocks.map (·.1)).Nodup) {l : Nat} {is : List Inst} :
    (l, is) ∈ c.bblocks ↔ Cfg.block c l = some is := by
  rw [Cfg.block]
  exact mem_lookup hn

theorem defs_iff {c : Cfg} (hn : (c.bblocks.map (·.1)).Nodup) {v l : Nat} :
    dominates (calculateDefs c) v l = true ↔ v ∈ dsts (blockOf c l) := by
  rw [calculateDefs_eq, dominates_fold2]
  constructor
  · rintro (⟨vs, h1, h2⟩ | h)
    · simp only [List.mem_map, Prod.mk.injEq, Prod.exists] at h1
      obtain ⟨l', is, h1, rfl, rfl⟩ := h1
      rw [block_mem hn] at h1
      simpa [blockOf, h1] using h2
    · simp [dominates] at h
  · intro h
    left
    cases e : Cfg.block c l with
    | none => simp [blockOf, e, dsts] at h
    | some is =>
      refine ⟨dsts is, ?_, by simpa [blockOf, e] using h⟩
      simp only [List.mem_map, Prod.mk.injEq, Prod.exists]
      exact ⟨l, is, (block_mem hn).2 e, rfl, rfl⟩

/-! ## One variable -/

/-- `c'` is `c` with a phi for `v` in front of the blocks of `S`. -/
structure Put (c c' : Cfg) (v : Nat) (S : List Nat) : Prop where
  graph : c'.graph = c.graph
  entry : c'.entry = c.entry
  keys : c'.bblocks.map (·.1) = c.bblocks.map (·.1)
  block : ∀ x, Cfg.block c' x = (Cfg.block c x).map (fun is => if x ∈ S then Inst.phi v [] :: is else is)

theorem keys_setBlock (c : Cfg) (l : Nat) (is : List Inst) :
    (setBlock c l is).bblocks.map (·.1) = c.bblocks.map (·.1) := by
  simp only [setBlock, List.map_map]
  refine List.map_congr_left ?_
  intro e _
  simp only [Function.comp]
  split <;> rfl

/-- The invariant of the loop; `P` holds the blocks whose frontier is being worked on. -/
structure PlaceInv (c : Cfg) (DF : Nat → Nat → Prop) (v : Nat) (ds : List Nat) (P : Nat → Prop) (fuel : Nat)
    (s : Place) : Prop where
  put : Put c s.cfg v s.inserted
  nodup : s.seen.Nodup
  sub : ∀ x ∈ s.seen, x ∈ c.bblocks.map (·.1)
  seen : ∀ x, x ∈ s.seen ↔ x ∈ ds ∨ x ∈ s.inserted
  done : ∀ x ∈ s.seen, P x ∨ x ∈ s.queue ∨ ∀ b, DF x b → b ∈ s.inserted
  sound : ∀ b ∈ s.inserted, ∃ a, DF a b
  fuel : s.queue.length + (c.bblocks.map (·.1)).length ≤ fuel + s.seen.length

variable {c : Cfg} {DF : Nat → Nat → Prop} {v : Nat} {ds : List Nat}

theorem placeAt_ok {P : Nat → Prop} {fuel : Nat} {s : Place} (h : PlaceInv c DF v ds P fuel s) {l : Nat}
    (hl : ∃ a, DF a l) (hb : (Cfg.block c l).isSome) :
    ∃ s', placeAt v s l = some s' ∧ PlaceInv c DF v ds P fuel s' ∧ l ∈ s'.inserted ∧
      ∀ x ∈ s.inserted, x ∈ s'.inserted := by
  by_cases hin : l ∈ s.inserted
  · exact ⟨s, by simp [placeAt, hin], h, hin, fun x hx => hx⟩
  obtain ⟨is, hb⟩ := Option.isSome_iff_exists.1 hb
  have hbs : Cfg.block s.cfg l = some is := by rw [h.put.block, hb]; simp [hin]
  have hput : Put c (setBlock s.cfg l (Inst.phi v [] :: is)) v (l :: s.inserted) := by
    refine ⟨h.put.graph, h.put.entry, by rw [keys_setBlock, h.put.keys], ?_⟩
    intro x
    rw [block_setBlock]
    by_cases hx : x = l
    · subst hx
      simp [hbs, hb]
    · simp [hx, h.put.block]
  have hk : l ∈ c.bblocks.map (·.1) := by
    rw [← lookup_isSome_iff]
    have : c.bblocks.lookup l = some is := hb
    simp [this]
  by_cases hs : l ∈ s.seen
  · refine ⟨{ s with inserted := l :: s.inserted, cfg := setBlock s.cfg l (Inst.phi v [] :: is) }, ?_, ?_, ?_, ?_⟩
    · simp [placeAt, hin, hbs, hs]
    · refine ⟨hput, h.nodup, h.sub, ?_, ?_, ?_, h.fuel⟩
      · intro x
        simp only [List.mem_cons]
        rw [h.seen]
        constructor
        · rintro (h1 | h1)
          · exact .inl h1
          · exact .inr (.inr h1)
        · rintro (h1 | h1 | h1)
          · exact .inl h1
          · subst h1; exact (h.seen x).1 hs
          · exact .inr h1
      · intro x hx
        rcases h.done x hx with h1 | h1 | h1
        · exact .inl h1
        · exact .inr (.inl h1)
        · exact .inr (.inr fun b hb => List.mem_cons_of_mem _ (h1 b hb))
      · intro b hb
        rcases List.mem_cons.1 hb with rfl | hb
        · exact hl
        · exact h.sound b hb
    · simp
    · intro x hx; exact List.mem_cons_of_mem _ hx
  · refine ⟨⟨l :: s.inserted, l :: s.seen, s.queue ++ [l], setBlock s.cfg l (Inst.phi v [] :: is)⟩, ?_, ?_, ?_, ?_⟩
    · simp [placeAt, hin, hbs, hs]
    · refine ⟨hput, List.nodup_cons.2 ⟨hs, h.nodup⟩, ?_, ?_, ?_, ?_, ?_⟩
      · intro x hx
        rcases List.mem_cons.1 hx with rfl | hx
        · exact hk
        · exact h.sub x hx
      · intro x
        simp only [List.mem_cons, h.seen]
        constructor
        · rintro (h1 | h1 | h1)
          · exact .inr (.inl h1)
          · exact .inl h1
          · exact .inr (.inr h1)
        · rintro (h1 | h1 | h1)
          · exact .inr (.inl h1)
          · exact .inl h1
          · exact .inr (.inr h1)
      · intro x hx
        rcases List.mem_cons.1 hx with rfl | hx
        · exact .inr (.inl (by simp))
        · rcases h.done x hx with h1 | h1 | h1
          · exact .inl h1
          · exact .inr (.inl (by simp [h1]))
          · exact .inr (.inr fun b hb => List.mem_cons_of_mem _ (h1 b hb))
      · intro b hb
        rcases List.mem_cons.1 hb with rfl | hb
        · exact hl
        · exact h.sound b hb
      · have := h.fuel
        simp only [List.length_append, List.length_cons, List.length_nil]
        omega
    · simp
    · intro x hx; exact List.mem_cons_of_mem _ hx

theorem placeAts_ok {P : Nat → Prop} {fuel : Nat} : ∀ (ls : List Nat) {s : Place},
    PlaceInv c DF v ds P fuel s → (∀ l ∈ ls, (∃ a, DF a l) ∧ (Cfg.block c l).isSome) →
    ∃ s', ls.foldlM (placeAt v) s = some s' ∧ PlaceInv c DF v ds P fuel s' ∧ (∀ l ∈ ls, l ∈ s'.inserted) ∧
      ∀ x ∈ s.inserted, x ∈ s'.inserted
  | [], s, h, _ => ⟨s, rfl, h, by simp, fun x hx => hx⟩
  | l :: ls, s, h, hl => by
    obtain ⟨s1, e1, h1, m1, k1⟩ := placeAt_ok h (hl l (by simp)).1 (hl l (by simp)).2
    obtain ⟨s2, e2, h2, m2, k2⟩ := placeAts_ok ls h1 (fun x hx => hl x (by simp [hx]))
    refine ⟨s2, by simp [List.foldlM_cons, e1, e2], h2, ?_, fun x hx => k2 x (k1 x hx)⟩
    intro x hx
    rcases List.mem_cons.1 hx with rfl | hx
    · exact k2 _ m1
    · exact m2 x hx

theorem nodup_length_le {xs ys : List Nat} (hn : xs.Nodup) (h : ∀ x ∈ xs, x ∈ ys) : xs.length ≤ ys.length :=
  hn.length_le_of_subset h

theorem placeLoop_ok {df : List (Nat × List Nat)} (hdf : ∀ a b, DF a b ↔ dominates df a b = true)
    (hb : ∀ a b, DF a b → (Cfg.block c b).isSome) : ∀ (fuel : Nat) {s : Place},
    PlaceInv c DF v ds (fun _ => False) fuel s →
    ∃ (c' : Cfg) (S : List Nat), placeLoop df v fuel s = some c' ∧ Put c c' v S ∧ (∀ b ∈ S, ∃ a, DF a b) ∧
      ∀ a b, a ∈ ds ∨ a ∈ S → DF a b → b ∈ S := by
  intro fuel
  induction fuel with
  | zero =>
    intro s h
    have hf := h.fuel
    have hl := nodup_length_le h.nodup h.sub
    cases hq : s.queue with
    | nil =>
      refine ⟨s.cfg, s.inserted, by simp [placeLoop, hq], h.put, h.sound, ?_⟩
      intro a b ha hab
      rcases h.done a ((h.seen a).2 ha) with h1 | h1 | h1
      · exact h1.elim
      · simp [hq] at h1
      · exact h1 b hab
    | cons d q =>
      rw [hq] at hf
      simp only [List.length_cons, List.length_map] at hf hl
      omega
  | succ fuel ih =>
    intro s h
    have hf := h.fuel
    cases hq : s.queue with
    | nil =>
      refine ⟨s.cfg, s.inserted, by simp [placeLoop, hq], h.put, h.sound, ?_⟩
      intro a b ha hab
      rcases h.done a ((h.seen a).2 ha) with h1 | h1 | h1
      · exact h1.elim
      · simp [hq] at h1
      · exact h1 b hab
    | cons d q =>
      rw [hq] at hf
      simp only [List.length_cons] at hf
      cases hl : df.lookup d with
      | none =>
        have h' : PlaceInv c DF v ds (fun _ => False) fuel { s with queue := q } := by
          refine ⟨h.put, h.nodup, h.sub, h.seen, ?_, h.sound, by simp only; omega⟩
          intro x hx
          rcases h.done x hx with h1 | h1 | h1
          · exact h1.elim
          · rw [hq] at h1
            rcases List.mem_cons.1 h1 with h1 | h1
            · right; right
              intro b hb
              rw [hdf, h1] at hb
              simp [dominates, hl] at hb
            · exact .inr (.inl h1)
          · exact .inr (.inr h1)
        obtain ⟨c', S, e, r⟩ := ih h'
        exact ⟨c', S, by rw [placeLoop.eq_def]; simp only [hq, hl]; exact e, r⟩
      | some blocks =>
        have h' : PlaceInv c DF v ds (fun x => x = d) fuel { s with queue := q } := by
          refine ⟨h.put, h.nodup, h.sub, h.seen, ?_, h.sound, by simp only; omega⟩
          intro x hx
          rcases h.done x hx with h1 | h1 | h1
          · exact h1.elim
          · rw [hq] at h1
            rcases List.mem_cons.1 h1 with h1 | h1
            · exact .inl h1
            · exact .inr (.inl h1)
          · exact .inr (.inr h1)
        have hd : ∀ b, b ∈ sortLabels blocks ↔ DF d b := by
          intro b
          rw [mem_sortLabels, hdf]
          simp [dominates, hl]
        obtain ⟨s', e1, h1, m1, k1⟩ := placeAts_ok (sortLabels blocks) h'
          (fun l hl => ⟨⟨d, (hd l).1 hl⟩, hb d l ((hd l).1 hl)⟩)
        have h2 : PlaceInv c DF v ds (fun _ => False) fuel s' := by
          refine ⟨h1.put, h1.nodup, h1.sub, h1.seen, ?_, h1.sound, h1.fuel⟩
          intro x hx
          rcases h1.done x hx with h3 | h3 | h3
          · subst h3
            exact .inr (.inr fun b hb => m1 b ((hd b).2 hb))
          · exact .inr (.inl h3)
          · exact .inr (.inr h3)
        obtain ⟨c', S, e, r⟩ := ih h2
        refine ⟨c', S, ?_, r⟩
        rw [placeLoop.eq_def]
        simp only [hq, hl, e1, Option.bind_eq_bind, Option.bind_some]
        exact e

/-! ## All variables -/

/-- `c'` is `c` with phis for the variables `vs x` in front of every block `x`. -/
structure Placed (c c' : Cfg) (vs : Nat → List Nat) : Prop where
  graph : c'.graph = c.graph
  entry : c'.entry = c.entry
  keys : c'.bblocks.map (·.1) = c.bblocks.map (·.1)
  block : ∀ x, Cfg.block c' x = (Cfg.block c x).map (fun is => (vs x).map (fun v => Inst.phi v []) ++ is)

theorem placeVar_ok {df : List (Nat × List Nat)} (hdf : ∀ a b, DF a b ↔ dominates df a b = true)
    {c c1 : Cfg} (hn : (c.bblocks.map (·.1)).Nodup)
    (hb : ∀ a b, DF a b → (Cfg.block c b).isSome) {fuel : Nat} (hf : c.bblocks.length ≤ fuel)
    {vs : Nat → List Nat} (hp : Placed c c1 vs) {v : Nat}
    (hv : v ∈ (calculateDefs c).map (·.1)) :
    ∃ (c2 : Cfg) (S : List Nat), placeVar df (calculateDefs c) fuel c1 v = some c2 ∧
      Placed c c2 (fun x => if x ∈ S then v :: vs x else vs x) ∧
      (∀ b ∈ S, ∃ a, DF a b) ∧ ∀ a b, v ∈ dsts (blockOf c a) ∨ a ∈ S → DF a b → b ∈ S := by
  obtain ⟨ds, hds⟩ := Option.isSome_iff_exists.1 (lookup_isSome_iff.2 hv)
  have hmem : ∀ l, l ∈ ds ↔ v ∈ dsts (blockOf c l) := by
    intro l
    rw [← defs_iff hn]
    simp [dominates, hds]
  have hdn : ds.Nodup := (sets_defs c).2 _ (lookup_mem hds)
  have hbs : ∀ l, (Cfg.block c1 l).isSome ↔ (Cfg.block c l).isSome := by
    intro l; rw [hp.block]; simp
  have hlen : c1.bblocks.length = c.bblocks.length := by
    have := congrArg List.length hp.keys
    simpa using this
  have h0 : PlaceInv c1 DF v ds (fun _ => False) fuel ⟨[], ds, sortLabels ds, c1⟩ := by
    refine ⟨⟨rfl, rfl, rfl, ?_⟩, hdn, ?_, by simp, ?_, by simp, ?_⟩
    · intro x
      cases Cfg.block c1 x <;> simp
    · intro x hx
      rw [hp.keys, ← lookup_isSome_iff]
      have h1 := (hmem x).1 hx
      cases e : Cfg.block c x with
      | none => simp [blockOf, e, dsts] at h1
      | some is =>
        have : c.bblocks.lookup x = some is := e
        simp [this]
    · intro x hx
      exact .inr (.inl (mem_sortLabels.2 hx))
    · have h1 : (sortLabels ds).length = ds.length := sortLabels_perm.length_eq
      simp only [h1, List.length_map, hlen]
      omega
  obtain ⟨c2, S, e, hput, hs, hc⟩ := placeLoop_ok hdf (fun a b h => (hbs b).2 (hb a b h)) fuel h0
  refine ⟨c2, S, by simp [placeVar, hds, e], ?_, hs, ?_⟩
  · refine ⟨hput.graph.trans hp.graph, hput.entry.trans hp.entry, hput.keys.trans hp.keys, ?_⟩
    intro x
    rw [hput.block, hp.block]
    cases Cfg.block c x with
    | none => rfl
    | some is =>
      by_cases hx : x ∈ S <;> simp [hx]
  · intro a b ha
    refine hc a b ?_
    rw [hmem]
    exact ha

theorem placeVars_ok {df : List (Nat × List Nat)} (hdf : ∀ a b, DF a b ↔ dominates df a b = true)
    {c : Cfg} (hn : (c.bblocks.map (·.1)).Nodup)
    (hb : ∀ a b, DF a b → (Cfg.block c b).isSome) {fuel : Nat} (hf : c.bblocks.length ≤ fuel) :
    ∀ (us done : List Nat) {c1 : Cfg} {vs : Nat → List Nat}, Placed c c1 vs → (done ++ us).Nodup →
    (∀ v ∈ us, v ∈ (calculateDefs c).map (·.1)) →
    (∀ x, (vs x).Nodup) → (∀ x, ∀ v ∈ vs x, v ∈ done ∧ ∃ a, DF a x) →
    (∀ v ∈ done, ∀ a b, v ∈ dsts (blockOf c a) ∨ v ∈ vs a → DF a b → v ∈ vs b) →
    ∃ (c2 : Cfg) (vs' : Nat → List Nat), us.foldlM (placeVar df (calculateDefs c) fuel) c1 = some c2 ∧ Placed c c2 vs' ∧
      (∀ x, (vs' x).Nodup) ∧ (∀ x, ∀ v ∈ vs' x, v ∈ done ++ us ∧ ∃ a, DF a x) ∧
      (∀ v ∈ done ++ us, ∀ a b, v ∈ dsts (blockOf c a) ∨ v ∈ vs' a → DF a b → v ∈ vs' b)
  | [], done, c1, vs, hp, _, _, h1, h2, h3 =>
    ⟨c1, vs, rfl, hp, h1, by simpa using h2, by simpa using h3⟩
  | u :: us, done, c1, vs, hp, hnd, hk, h1, h2, h3 => by
    obtain ⟨c2, S, e, hp', hs, hc⟩ := placeVar_ok hdf hn hb hf hp (hk u (by simp))
    have hu : u ∉ done := by
      intro h
      have := (List.nodup_append.1 hnd).2.2 u h u (by simp)
      exact this rfl
    have g1 : ∀ x, (if x ∈ S then u :: vs x else vs x).Nodup := by
      intro x
      by_cases hx : x ∈ S
      · simp only [hx, if_true, List.nodup_cons]
        exact ⟨fun h => hu (h2 x u h).1, h1 x⟩
      · simpa [hx] using h1 x
    have g2 : ∀ x, ∀ v ∈ (if x ∈ S then u :: vs x else vs x), v ∈ done ++ [u] ∧ ∃ a, DF a x := by
      intro x v hv
      by_cases hx : x ∈ S
      · simp only [hx, if_true, List.mem_cons] at hv
        rcases hv with rfl | hv
        · exact ⟨by simp, hs x hx⟩
        · exact ⟨by simp [(h2 x v hv).1], (h2 x v hv).2⟩
      · simp only [hx, if_false] at hv
        exact ⟨by simp [(h2 x v hv).1], (h2 x v hv).2⟩
    have g3 : ∀ v ∈ done ++ [u], ∀ a b,
        v ∈ dsts (blockOf c a) ∨ v ∈ (if a ∈ S then u :: vs a else vs a) → DF a b →
        v ∈ (if b ∈ S then u :: vs b else vs b) := by
      intro v hv a b hab hdf'
      have hin : ∀ x, v ∈ (if x ∈ S then u :: vs x else vs x) ↔ (v = u ∧ x ∈ S) ∨ v ∈ vs x := by
        intro x
        by_cases hx : x ∈ S <;> simp [hx]
      simp only [hin] at hab ⊢
      rcases List.mem_append.1 hv with hv | hv
      · have hne : v ≠ u := fun h => hu (h ▸ hv)
        simp only [hne, false_and, false_or] at hab ⊢
        exact h3 v hv a b hab hdf'
      · have hvu : v = u := by simpa using hv
        subst hvu
        left
        refine ⟨rfl, hc a b ?_ hdf'⟩
        rcases hab with h | ⟨-, h⟩ | h
        · exact .inl h
        · exact .inr h
        · exact absurd (h2 a v h).1 hu
    obtain ⟨c3, vs', e', r⟩ := placeVars_ok hdf hn hb hf us (done ++ [u]) hp' (by simpa using hnd)
      (fun v hv => hk v (by simp [hv])) g1 g2 g3
    refine ⟨c3, vs', by simp [List.foldlM_cons, e, e'], r.1, r.2.1, ?_, ?_⟩
    · simpa using r.2.2.1
    · simpa using r.2.2.2

/-- What placing phis does. -/
theorem insertPhis_ok {d : Dom} {df : List (Nat × List Nat)} {c : Cfg}
    (hd : d.dominanceFrontiers c.graph = some df)
    (hn : (c.bblocks.map (·.1)).Nodup)
    (hb : ∀ a b, dominates df a b = true → (Cfg.block c b).isSome) {fuel : Nat} (hf : c.bblocks.length ≤ fuel) :
    ∃ (c2 : Cfg) (vs : Nat → List Nat), insertPhis d (calculateDefs c) fuel c = some c2 ∧ Placed c c2 vs ∧
      (∀ x, (vs x).Nodup) ∧
      (∀ x, ∀ v ∈ vs x, (∃ a, v ∈ dsts (blockOf c a)) ∧ ∃ a, dominates df a x = true) ∧
      (∀ v a b, v ∈ dsts (blockOf c a) ∨ v ∈ vs a → dominates df a b = true → v ∈ vs b) := by
  have hperm : (sortLabels ((calculateDefs c).map (·.1))).Perm ((calculateDefs c).map (·.1)) := sortLabels_perm
  have hkey : ∀ v, v ∈ sortLabels ((calculateDefs c).map (·.1)) → ∃ a, v ∈ dsts (blockOf c a) := by
    intro v hv
    rw [mem_sortLabels, ← lookup_isSome_iff] at hv
    obtain ⟨s, hs⟩ := Option.isSome_iff_exists.1 hv
    have : s ≠ [] := by
      intro h0
      subst h0
      have hne : ∀ (es : List (Nat × List Nat)) (m : List (Nat × List Nat)), (∀ e ∈ m, e.2 ≠ []) →
          ∀ e ∈ (es.foldl (fun m e => e.2.foldl (fun m v => insertInto m v e.1) m) m), e.2 ≠ [] := by
        have h1 : ∀ (m : List (Nat × List Nat)) k x, (∀ e ∈ m, e.2 ≠ []) → ∀ e ∈ insertInto m k x, e.2 ≠ [] := by
          intro m k x hm e he
          simp only [insertInto] at he
          cases hk : m.lookup k with
          | none =>
            rw [hk] at he
            rcases List.mem_cons.1 he with rfl | he
            · simp
            · exact hm e he
          | some s =>
            rw [hk] at he
            rcases List.mem_cons.1 he with rfl | he
            · intro h
              have : x ∈ setInsert s x := mem_setInsert.2 (.inr rfl)
              simp only at h
              rw [h] at this
              simp at this
            · exact hm e (List.mem_filter.1 he).1
        have h2 : ∀ (l : Nat) (ws : List Nat) (m : List (Nat × List Nat)), (∀ e ∈ m, e.2 ≠ []) →
            ∀ e ∈ ws.foldl (fun m v => insertInto m v l) m, e.2 ≠ [] := by
          intro l ws
          induction ws with
          | nil => intro m hm; exact hm
          | cons w ws ih => intro m hm; exact ih _ (h1 m w l hm)
        intro es
        induction es with
        | nil => intro m hm; exact hm
        | cons e es ih => intro m hm; exact ih _ (h2 e.1 e.2 m hm)
      have h3 := lookup_mem hs
      rw [calculateDefs_eq] at h3
      exact hne _ [] (by simp) _ h3 rfl
    obtain ⟨a, ha⟩ := List.exists_mem_of_ne_nil s this
    exact ⟨a, (defs_iff hn).1 (by simp [dominates, hs, ha])⟩
  obtain ⟨c2, vs, e, hp, h1, h2, h3⟩ := placeVars_ok (DF := fun a b => dominates df a b = true)
    (fun a b => Iff.rfl) hn hb hf (sortLabels ((calculateDefs c).map (·.1))) [] (c1 := c) (vs := fun _ => [])
    ⟨rfl, rfl, rfl, fun x => by cases Cfg.block c x <;> simp⟩
    (by simpa using hperm.nodup_iff.2 (sets_defs c).1) (fun v hv => mem_sortLabels.1 hv)
    (by simp) (by simp) (by simp)
  refine ⟨c2, vs, ?_, hp, h1, ?_, ?_⟩
  · simp only [insertPhis, hd, Option.bind_eq_bind, Option.bind_some]
    exact e
  · intro x v hv
    have := h2 x v hv
    exact ⟨hkey v (by simpa using this.1), this.2⟩
  · intro v a b hab hdf
    have hv : v ∈ [] ++ sortLabels ((calculateDefs c).map (·.1)) := by
      rcases hab with h | h
      · rw [List.nil_append, mem_sortLabels, ← lookup_isSome_iff]
        have := (defs_iff hn).2 h
        simp only [dominates] at this
        cases hl : (calculateDefs c).lookup v with
        | none => simp [hl] at this
        | some s => rfl
      · exact (h2 a v h).1
    exact h3 v hv a b hab hdf

end Verif.Ssa
