import Verif.Flow.Engine
/-!
# Monotone analyses: the states only grow, stay below every solution, and stop growing
-/

namespace Verif.Flow

open Verif.Graph Verif.Il

section
variable {σ : Type} [PartialOrder σ]

theorem le_refl' (s : BlockState σ) : LE' s s := ⟨le_refl _, le_refl _⟩

theorem le_trans' {s t u : BlockState σ} (h : LE' s t) (k : LE' t u) : LE' s u :=
  ⟨le_trans h.1 k.1, le_trans h.2 k.2⟩

theorem outSide_mono {d : Direction} {s t : BlockState σ} (h : LE' s t) : outSide d s ≤ outSide d t := by
  cases d
  · exact h.2
  · exact h.1

theorem mkState_mono {d : Direction} {i i' o o' : σ} (h : i ≤ i') (k : o ≤ o') :
    LE' (mkState d i o) (mkState d i' o') := by
  cases d
  · exact ⟨h, k⟩
  · exact ⟨k, h⟩

theorem applyForward_mono {fn : Nat → Inst → σ → σ} (h : ∀ k i s t, s ≤ t → fn k i s ≤ fn k i t) :
    ∀ (is : List Inst) (k : Nat) (s t : σ), s ≤ t → applyForward fn k is s ≤ applyForward fn k is t
  | [], _, _, _, hs => hs
  | i :: is, k, s, t, hs => applyForward_mono h is (k + 1) _ _ (h k i s t hs)

theorem applyBackward_mono {fn : Nat → Inst → σ → σ} (h : ∀ k i s t, s ≤ t → fn k i s ≤ fn k i t) :
    ∀ (is : List Inst) (k : Nat) (s t : σ), s ≤ t → applyBackward fn k is s ≤ applyBackward fn k is t
  | [], _, _, _, hs => hs
  | i :: is, k, s, t, hs => h k i _ _ (applyBackward_mono h is (k + 1) s t hs)

theorem Mono.applyBlock {a : Analysis σ} (m : Mono a) (l : Nat) (is : List Inst) {s t : σ} (h : s ≤ t) :
    a.applyBlock l is s ≤ a.applyBlock l is t := by
  unfold Analysis.applyBlock
  split
  · exact applyForward_mono (fun k i s t => m.inst l k i s t) is 0 s t h
  · exact applyBackward_mono (fun k i s t => m.inst l k i s t) is 0 s t h

theorem Mono.rhs {a : Analysis σ} (m : Mono a) {f : FlowGraph} {bd : Nat} {x y : Nat → BlockState σ}
    {l : Nat} (is : List Inst) (h : ∀ p ∈ f.predecessors l, LE' (x p) (y p)) :
    LE' (rhs a f bd x l is) (rhs a f bd y l is) := by
  have hi : incoming a f bd x l ≤ incoming a f bd y l := by
    unfold incoming
    split
    · exact le_refl _
    · exact m.meet _ _ _ (fun p hp => outSide_mono (h p hp))
  exact mkState_mono hi (m.applyBlock l is hi)

/-- Every stored state is below the right-hand side of its equation. -/
def Rising (a : Analysis σ) (f : FlowGraph) (bd : Nat) (x : Nat → BlockState σ) : Prop :=
  ∀ l is, l ∈ f.labels → f.block l = some is → LE' (x l) (rhs a f bd x l is)

theorem update_ge {a : Analysis σ} {f : FlowGraph} {bd : Nat} {b : Blocks σ} {l : Nat} {is : List Inst}
    (hlk : l ∈ b.map (·.1)) (hr : LE' (at' a.bottom b l) (rhs a f bd (at' a.bottom b) l is)) (m : Nat) :
    LE' (at' a.bottom b m) (at' a.bottom (setBlock b l (rhs a f bd (at' a.bottom b) l is)) m) := by
  rw [at_setBlock hlk]
  split
  · rename_i e
    subst e
    exact hr
  · exact le_refl' _

theorem rising_update {a : Analysis σ} (mo : Mono a) {f : FlowGraph} {bd : Nat} {b : Blocks σ} {l : Nat}
    {is : List Inst} (hlk : l ∈ b.map (·.1)) (hl : l ∈ f.labels) (hb : f.block l = some is)
    (hr : Rising a f bd (at' a.bottom b)) :
    Rising a f bd (at' a.bottom (setBlock b l (rhs a f bd (at' a.bottom b) l is))) := by
  have up := update_ge (f := f) (bd := bd) hlk (hr l is hl hb)
  intro m is' hm hb'
  have h2 := mo.rhs (f := f) (bd := bd) (l := m) is' (fun p _ => up p)
  by_cases e : m = l
  · subst e
    rw [hb] at hb'
    obtain rfl := Option.some.inj hb'
    refine le_trans' ?_ h2
    rw [at_setBlock hlk, if_pos rfl]
    exact le_refl' _
  · refine le_trans' ?_ h2
    rw [at_setBlock hlk, if_neg e]
    exact hr m is' hm hb'

/-- Room left above the states of the labels. -/
def room (h : σ → Nat) (n : Nat) (x : Nat → BlockState σ) (ls : List Nat) : Nat :=
  (ls.map (fun l => (n - h (x l).entry) + (n - h (x l).exit))).sum

theorem room_le {h : σ → Nat} {n : Nat} {x y : Nat → BlockState σ} : ∀ {ls : List Nat},
    (∀ l ∈ ls, (n - h (y l).entry) + (n - h (y l).exit) ≤ (n - h (x l).entry) + (n - h (x l).exit)) →
    room h n y ls ≤ room h n x ls
  | [], _ => by simp [room]
  | l :: ls, hl => by
    have h1 := hl l (by simp)
    have h2 := room_le (h := h) (n := n) (x := x) (y := y) (ls := ls) (fun m hm => hl m (by simp [hm]))
    simp only [room, List.map_cons, List.sum_cons] at *
    omega

theorem room_lt {h : σ → Nat} {n : Nat} {x y : Nat → BlockState σ} {m : Nat} : ∀ {ls : List Nat}, m ∈ ls →
    (∀ l ∈ ls, (n - h (y l).entry) + (n - h (y l).exit) ≤ (n - h (x l).entry) + (n - h (x l).exit)) →
    (n - h (y m).entry) + (n - h (y m).exit) < (n - h (x m).entry) + (n - h (x m).exit) →
    room h n y ls < room h n x ls
  | [], hm, _, _ => by simp at hm
  | l :: ls, hm, hl, hs => by
    have h1 := hl l (by simp)
    have h2 := room_le (h := h) (n := n) (x := x) (y := y) (ls := ls) (fun k hk => hl k (by simp [hk]))
    by_cases e : m = l
    · subst e
      simp only [room, List.map_cons, List.sum_cons] at *
      omega
    · have hm' : m ∈ ls := by simpa [e] using hm
      have h3 := room_lt hm' (fun k hk => hl k (by simp [hk])) hs
      simp only [room, List.map_cons, List.sum_cons] at *
      omega

theorem room_bound {h : σ → Nat} {n : Nat} {x : Nat → BlockState σ} : ∀ {ls : List Nat},
    room h n x ls ≤ 2 * n * ls.length
  | [] => by simp [room]
  | l :: ls => by
    have := room_bound (h := h) (n := n) (x := x) (ls := ls)
    simp only [room, List.map_cons, List.sum_cons, List.length_cons] at *
    rw [Nat.mul_add]
    omega

theorem rank_mono {h : σ → Nat} (hs : ∀ s t : σ, s < t → h s < h t) {s t : σ} (k : s ≤ t) : h s ≤ h t := by
  by_cases e : s = t
  · exact e ▸ Nat.le_refl _
  · exact Nat.le_of_lt (hs s t (lt_of_le_of_ne k e))

theorem loop_terminates [DecidableEq σ] {a : Analysis σ} (mo : Mono a) {f : FlowGraph} {bd : Nat} (g : Good f bd)
    {h : σ → Nat} {n : Nat} (hs : ∀ s t : σ, s < t → h s < h t) (hn : ∀ s : σ, h s ≤ n) :
    ∀ (fuel : Nat) (b : Blocks σ) (wl : List Nat), b.map (·.1) = f.labels → wl.Nodup →
    (∀ l ∈ wl, l ∈ f.labels) → Rising a f bd (at' a.bottom b) →
    room h n (at' a.bottom b) f.labels * f.labels.length + wl.length ≤ fuel →
    ∃ r, loop a f bd fuel b wl = some r := by
  intro fuel
  induction fuel with
  | zero =>
    intro b wl hk hnd hw hr hf
    cases wl with
    | nil => exact ⟨b, rfl⟩
    | cons l wl => simp at hf
  | succ fuel ih =>
    intro b wl hk hnd hw hr hf
    cases wl with
    | nil => exact ⟨b, rfl⟩
    | cons l wl =>
      have hl : l ∈ f.labels := hw l (by simp)
      obtain ⟨is, hb⟩ := g.block hl
      have hlk : l ∈ b.map (·.1) := hk ▸ hl
      obtain ⟨old, hold⟩ := lookup_some_of_mem hlk
      have hat : at' a.bottom b l = old := by simp [at', hold]
      rw [loop, newState_eq g hk hb]
      simp only [hold]
      split
      · refine ih b wl hk hnd.of_cons (fun m hm => hw m (by simp [hm])) hr ?_
        simp only [List.length_cons] at hf
        omega
      · rename_i hne
        have up := update_ge (f := f) (bd := bd) hlk (hr l is hl hb)
        have hsub : ∀ m ∈ setExtend wl (f.successors l), m ∈ f.labels := by
          intro m hm
          rw [mem_setExtend] at hm
          obtain hm | hm := hm
          · exact hw m (by simp [hm])
          · exact g.succ_label hm
        have hnd' : (setExtend wl (f.successors l)).Nodup := nodup_setExtend hnd.of_cons
        have hlen : (setExtend wl (f.successors l)).length ≤ f.labels.length :=
          hnd'.length_le_of_subset hsub
        refine ih _ _ (by rw [keys_setBlock, hk]) hnd' hsub (rising_update mo hlk hl hb hr) ?_
        have hroom : room h n (at' a.bottom (setBlock b l (rhs a f bd (at' a.bottom b) l is))) f.labels <
            room h n (at' a.bottom b) f.labels := by
          apply room_lt hl
          · intro m _
            have h1 := rank_mono hs (up m).1
            have h2 := rank_mono hs (up m).2
            omega
          · have hle := up l
            rw [at_setBlock hlk, if_pos rfl, hat] at hle ⊢
            have h1 := rank_mono hs hle.1
            have h2 := rank_mono hs hle.2
            have h3 := hn (rhs a f bd (at' a.bottom b) l is).entry
            have h4 := hn (rhs a f bd (at' a.bottom b) l is).exit
            by_cases e1 : old.entry = (rhs a f bd (at' a.bottom b) l is).entry
            · have e2 : old.exit ≠ (rhs a f bd (at' a.bottom b) l is).exit := by
                intro e2
                apply hne
                cases old
                cases hx : rhs a f bd (at' a.bottom b) l is
                rw [hx] at e1 e2
                simp_all
              have := hs _ _ (lt_of_le_of_ne hle.2 e2)
              omega
            · have := hs _ _ (lt_of_le_of_ne hle.1 e1)
              omega
        simp only [List.length_cons] at hf
        have hm := Nat.mul_le_mul_right f.labels.length (Nat.succ_le_of_lt hroom)
        rw [Nat.succ_mul] at hm
        omega

theorem loop_below [DecidableEq σ] {a : Analysis σ} (mo : Mono a) {f : FlowGraph} {bd : Nat} (g : Good f bd)
    {x : Nat → BlockState σ} (hx : ∀ l is, l ∈ f.labels → f.block l = some is → LE' (rhs a f bd x l is) (x l)) :
    ∀ (fuel : Nat) (b : Blocks σ) (wl : List Nat) (r : Blocks σ), b.map (·.1) = f.labels →
    (∀ l ∈ wl, l ∈ f.labels) → (∀ l ∈ f.labels, LE' (at' a.bottom b l) (x l)) →
    loop a f bd fuel b wl = some r → ∀ l ∈ f.labels, LE' (at' a.bottom r l) (x l) := by
  intro fuel
  induction fuel with
  | zero =>
    intro b wl r hk hw hs h
    cases wl with
    | nil =>
      simp only [loop, Option.some.injEq] at h
      exact h ▸ hs
    | cons l wl => simp [loop] at h
  | succ fuel ih =>
    intro b wl r hk hw hs h
    cases wl with
    | nil =>
      simp only [loop, Option.some.injEq] at h
      exact h ▸ hs
    | cons l wl =>
      have hl : l ∈ f.labels := hw l (by simp)
      obtain ⟨is, hb⟩ := g.block hl
      have hlk : l ∈ b.map (·.1) := hk ▸ hl
      obtain ⟨old, hold⟩ := lookup_some_of_mem hlk
      rw [loop, newState_eq g hk hb] at h
      simp only [hold] at h
      split at h
      · exact ih b wl r hk (fun m hm => hw m (by simp [hm])) hs h
      · refine ih _ _ r (by rw [keys_setBlock, hk]) ?_ ?_ h
        · intro m hm
          rw [mem_setExtend] at hm
          obtain hm | hm := hm
          · exact hw m (by simp [hm])
          · exact g.succ_label hm
        · intro m hm
          rw [at_setBlock hlk]
          split
          · rename_i e
            subst e
            exact le_trans' (mo.rhs is (fun p hp => hs p (g.pred_label hp))) (hx m is hm hb)
          · exact hs m hm

end

end Verif.Flow
