import Verif.Prune.Remove
/-!
# The empty leaves become one
-/

namespace Verif.Prune

open Verif.Il Verif.Graph Verif.Opt Verif.Ssa

/-- All of `ls` become `first`. -/
def low (ls : List Nat) (first x : Nat) : Nat := if x ∈ ls then first else x

/-- The branch at the end follows, and is dropped if both targets are the same now. -/
def aim (g : Nat → Nat) (is : List Inst) : List Inst :=
  match is.getLast? with
  | some i =>
    if i.t = .condGoto then
      match i.labels.map g with
      | t :: f :: _ => if t = f then is.dropLast else is.dropLast ++ [{ i with labels := i.labels.map g }]
      | _ => is
    else is
  | none => is

theorem aim_plain {g : Nat → Nat} {is : List Inst} (h : ∀ i ∈ is, i.t ≠ .condGoto) : aim g is = is := by
  simp only [aim]
  cases hl : is.getLast? with
  | none => rfl
  | some i => simp only [if_neg (h i (List.mem_of_getLast? hl))]

theorem aim_branch {g : Nat → Nat} {t f : Nat} {is : List Inst} {i : Inst} (ht : i.t = .condGoto)
    (hl : i.labels = [t, f]) :
    aim g (is ++ [i]) = if g t = g f then is else is ++ [{ i with labels := [g t, g f] }] := by
  simp [aim, ht, hl]

/-- Empty blocks without successors become one of them. -/
structure Fold (c c' : Cfg) (ls : List Nat) (first : Nat) : Prop where
  mem : first ∈ ls
  leaf : ∀ x ∈ ls, x ≠ c.entry ∧ Cfg.block c x = some [] ∧ ∀ y, ¬ c.graph.Edge x y
  hist : Hist c'.graph
  entry : c'.entry = c.entry
  nodes : ∀ x, x ∈ c'.graph.labels ↔ x ∈ c.graph.labels ∧ low ls first x = x
  edge : ∀ a b, c'.graph.Edge a b ↔ ∃ k, c.graph.Edge a k ∧ low ls first k = b
  keys : c'.bblocks.map (·.1) = (c.bblocks.map (·.1)).filter (fun x => low ls first x == x)
  block : ∀ x, Cfg.block c' x = if low ls first x = x then (Cfg.block c x).map (aim (low ls first)) else none

section
variable {c c' : Cfg} {ls : List Nat} {first : Nat}

theorem low_in {x : Nat} (h : x ∈ ls) : low ls first x = first := if_pos h

theorem low_out {x : Nat} (h : x ∉ ls) : low ls first x = x := if_neg h

theorem low_eq (hf : first ∈ ls) {x y : Nat} (hy : y ∉ ls) : low ls first x = y ↔ x = y := by
  by_cases hx : x ∈ ls
  · rw [low_in hx]
    constructor
    · rintro rfl; exact absurd hf hy
    · rintro rfl; exact absurd hx hy
  · rw [low_out hx]

theorem low_idem (hf : first ∈ ls) (x : Nat) : low ls first (low ls first x) = low ls first x := by
  by_cases hx : x ∈ ls
  · rw [low_in hx, low_in hf]
  · rw [low_out hx, low_out hx]

theorem Fold.empty (h : Fold c c' ls first) {x : Nat} (hx : x ∈ ls) : Opt.blockOf c x = [] :=
  blockOf_some (h.leaf x hx).2.1

theorem Fold.from_ne (h : Fold c c' ls first) {a b : Nat} (e : c.graph.Edge a b) : a ∉ ls :=
  fun ha => (h.leaf a ha).2.2 b e

theorem Fold.isSome (h : Fold c c' ls first) {x : Nat} :
    (Cfg.block c' x).isSome ↔ low ls first x = x ∧ (Cfg.block c x).isSome := by
  rw [h.block]
  split
  · rename_i e; simp [e]
  · rename_i e; simp [e]

theorem Fold.block_in (h : Fold c c' ls first) {x : Nat} (hx : x ∈ ls) : Opt.blockOf c' x = [] := by
  simp only [Opt.blockOf, h.block]
  split
  · rw [(h.leaf x hx).2.1]; rfl
  · rfl

theorem Fold.block_out (h : Fold c c' ls first) {x : Nat} (hx : x ∉ ls) :
    Opt.blockOf c' x = aim (low ls first) (Opt.blockOf c x) := by
  simp only [Opt.blockOf, h.block, if_pos (low_out hx)]
  cases Cfg.block c x with
  | none => rfl
  | some is => rfl

theorem Fold.cases (h : Fold c c' ls first) (v : Inv c) {l : Nat} (hl : l ∉ ls) :
    ((∀ i ∈ Opt.blockOf c l, i.t ≠ .condGoto) ∧ Opt.blockOf c' l = Opt.blockOf c l) ∨
    ∃ is i a t f, Opt.blockOf c l = is ++ [i] ∧ i.t = .condGoto ∧ i.tgts = [] ∧ i.args = [a] ∧ i.labels = [t, f] ∧
      (∀ j ∈ is, j.t ≠ .condGoto) ∧ t ≠ f ∧ (∀ y, c.graph.Edge l y ↔ y = t ∨ y = f) ∧
      ((low ls first t = low ls first f ∧ t ∈ ls ∧ f ∈ ls ∧ Opt.blockOf c' l = is) ∨
      (low ls first t ≠ low ls first f ∧ (t ∉ ls ∨ f ∉ ls) ∧ Opt.blockOf c' l =
        is ++ [{ i with labels := [low ls first t, low ls first f] }])) := by
  rw [h.block_out hl]
  by_cases hp : ∀ i ∈ Opt.blockOf c l, i.t ≠ .condGoto
  · exact .inl ⟨hp, aim_plain hp⟩
  · have : ∃ i ∈ Opt.blockOf c l, i.t = .condGoto := by simpa using hp
    obtain ⟨i, hi, ht⟩ := this
    obtain ⟨k, hk⟩ := mem_instAt hi
    obtain ⟨is, a, t, f, h1, h2, h3, h4, h5, h6, h7, h8, h9⟩ := branch_shape v hk ht
    refine .inr ⟨is, i, a, t, f, h1, ht, h2, h3, h4, h9, h5, ?_, ?_⟩
    · intro y
      refine ⟨h8 y, ?_⟩
      rintro (rfl | rfl)
      · exact h6
      · exact h7
    · rw [h1, aim_branch ht h4]
      by_cases hb : t ∈ ls ∧ f ∈ ls
      · have e : low ls first t = low ls first f := by rw [low_in hb.1, low_in hb.2]
        exact .inl ⟨e, hb.1, hb.2, if_pos e⟩
      · have e : low ls first t ≠ low ls first f := by
          by_cases h1 : t ∈ ls
          · have h2 : f ∉ ls := fun h => hb ⟨h1, h⟩
            rw [low_out h2, Ne, low_eq h.mem h2]
            exact h5
          · rw [low_out h1, Ne, eq_comm, low_eq h.mem h1]
            exact fun e => h5 e.symm
        refine .inr ⟨e, ?_, if_neg e⟩
        by_cases h1 : t ∈ ls
        · exact .inr (fun h => hb ⟨h1, h⟩)
        · exact .inl h1

theorem Fold.back (h : Fold c c' ls first) (v : Inv c) {l k : Nat} {i' : Inst} (e : instAt c' l k = some i') :
    l ∉ ls ∧ ∃ i, instAt c l k = some i ∧ i.t = i'.t ∧ i.tgts = i'.tgts ∧ i.args = i'.args ∧
      (i'.t ≠ .condGoto → i' = i) := by
  have hl : l ∉ ls := by
    intro hl
    rw [instAt, h.block_in hl] at e
    cases e
  refine ⟨hl, ?_⟩
  rcases h.cases v hl with ⟨-, h1⟩ | ⟨is, i, a, t, f, h1, h2, h3, h4, h5, h6, h7, h8, ⟨-, -, -, h10⟩ | ⟨-, -, h10⟩⟩
  · rw [instAt, h1] at e
    exact ⟨i', e, rfl, rfl, rfl, fun _ => rfl⟩
  · rw [instAt, h10] at e
    obtain ⟨hk, -⟩ := List.getElem?_eq_some_iff.1 e
    refine ⟨i', ?_, rfl, rfl, rfl, fun _ => rfl⟩
    rw [instAt, h1, List.getElem?_append_left hk, e]
  · rw [instAt, h10] at e
    by_cases hk : k < is.length
    · rw [List.getElem?_append_left hk] at e
      refine ⟨i', ?_, rfl, rfl, rfl, fun _ => rfl⟩
      rw [instAt, h1, List.getElem?_append_left hk, e]
    · rw [List.getElem?_append_right (by omega)] at e
      have hk0 : k - is.length = 0 := by
        obtain ⟨hlt, -⟩ := List.getElem?_eq_some_iff.1 e
        simpa using hlt
      rw [hk0] at e
      simp only [List.getElem?_cons_zero, Option.some.injEq] at e
      subst e
      refine ⟨i, ?_, rfl, rfl, rfl, fun hn => absurd h2 hn⟩
      rw [instAt, h1, List.getElem?_append_right (by omega), hk0]
      rfl

/-- A branch of the new program. -/
theorem Fold.back_branch (h : Fold c c' ls first) (v : Inv c) {l k : Nat} {i' : Inst} (e : instAt c' l k = some i')
    (ht : i'.t = .condGoto) : ∃ is a t f, Opt.blockOf c' l = is ++ [i'] ∧ i'.tgts = [] ∧ i'.args = [a] ∧
      i'.labels = [low ls first t, low ls first f] ∧ low ls first t ≠ low ls first f ∧
      (∀ y, c.graph.Edge l y ↔ y = t ∨ y = f) := by
  obtain ⟨hl, -⟩ := h.back v e
  rcases h.cases v hl with ⟨h0, h1⟩ | ⟨is, i, a, t, f, h1, h2, h3, h4, h5, h6, h7, h8, ⟨-, -, -, h10⟩ | ⟨h9, -, h10⟩⟩
  · rw [instAt, h1] at e
    exact absurd ht (h0 _ (List.mem_of_getElem? e))
  · rw [instAt, h10] at e
    exact absurd ht (h6 _ (List.mem_of_getElem? e))
  · rw [instAt, h10] at e
    rcases List.mem_append.1 (List.mem_of_getElem? e) with hm | hm
    · exact absurd ht (h6 _ hm)
    · simp only [List.mem_singleton] at hm
      subst hm
      exact ⟨is, a, t, f, h10, h3, h4, rfl, h9, h8⟩

theorem Fold.wf (h : Fold c c' ls first) (v : Inv c) : WellFormed c' := by
  have wf := v.prog.wf
  refine ⟨?_, ?_, ?_, ?_, ?_, ?_, ?_, ?_⟩
  · rw [h.keys]; exact wf.labels.filter _
  · rw [h.entry]
    exact h.isSome.2 ⟨low_out (fun e => (h.leaf _ e).1 rfl), wf.entryBlock⟩
  · intro a b e
    obtain ⟨k, h1, rfl⟩ := (h.edge a b).1 e
    refine h.isSome.2 ⟨low_idem h.mem k, ?_⟩
    by_cases hk : k ∈ ls
    · rw [low_in hk, (h.leaf _ h.mem).2.1]; rfl
    · rw [low_out hk]; exact wf.edgeBlock _ _ h1
  · intro l k i' e
    obtain ⟨hl, i, e1, e2, e3, e4, e5⟩ := h.back v e
    by_cases ht : i'.t = .condGoto
    · obtain ⟨is, a, t, f, -, h2, h3, h4, -⟩ := h.back_branch v e ht
      simp only [Shape, ht]
      exact ⟨h2, ⟨a, h3⟩, _, _, h4⟩
    · rw [e5 ht]
      exact wf.shape l k i e1
  · intro l k i' e ht
    obtain ⟨hl, i, e1, e2, -⟩ := h.back v e
    have := wf.branchLast l k i e1 (e2.trans ht)
    rcases h.cases v hl with ⟨-, h1⟩ | ⟨is, j, a, t, f, h1, h2, h3, h4, h5, h6, h7, h8, ⟨-, -, -, h10⟩ | ⟨-, -, h10⟩⟩
    · rw [h1]; exact this
    · rw [instAt, h10] at e
      exact absurd ht (h6 _ (List.mem_of_getElem? e))
    · rw [h10]
      rw [h1] at this
      simpa using this
  · intro l k i' e ht y hy
    obtain ⟨is, a, t, f, -, h2, h3, h4, -, h5⟩ := h.back_branch v e ht
    rw [h4] at hy
    simp only [List.mem_cons, List.not_mem_nil, or_false] at hy
    rcases hy with rfl | rfl
    · exact (h.edge _ _).2 ⟨t, (h5 t).2 (.inl rfl), rfl⟩
    · exact (h.edge _ _).2 ⟨f, (h5 f).2 (.inr rfl), rfl⟩
  · intro l k j i i' e ht hjk e'
    obtain ⟨hl, i0, e1, e2, -⟩ := h.back v e
    obtain ⟨-, i1, e3, e4, -⟩ := h.back v e'
    rw [← e4]
    exact wf.phiFirst l k j i0 i1 e1 (e2.trans ht) hjk e3
  · intro l k i' e ht
    obtain ⟨hl, i, e1, e2, -, -, e5⟩ := h.back v e
    rw [e5 (by rw [ht]; decide)]
    exact wf.phiOnce l k i e1 (e2.trans ht)

/-- A walk to the end of a block of the new program goes on to the end of the block of the old program. -/
theorem Fold.trail_end (h : Fold c c' ls first) (v : Inv c) {l : Nat} (hl : l ∉ ls) {ms : List Site}
    (tr : Trail c ms l (Opt.blockOf c' l).length) :
    ∃ ms2, Trail c ms2 l (Opt.blockOf c l).length ∧ ∀ d ∈ ms2, ∀ x, Defines c d x → d ∈ ms := by
  rcases h.cases v hl with ⟨-, h1⟩ | ⟨is, i, a, t, f, h1, h2, h3, h4, h5, h6, h7, h8, ⟨-, -, -, h10⟩ | ⟨-, -, h10⟩⟩
  · rw [h1] at tr
    exact ⟨ms, tr, fun d hd _ _ => hd⟩
  · rw [h10] at tr
    have hlen : (Opt.blockOf c l).length = is.length + 1 := by simp [h1]
    refine ⟨_, by rw [hlen]; exact .inst tr (by omega), ?_⟩
    intro d hd x hx
    rcases List.mem_cons.1 hd with rfl | hd
    · exfalso
      refine branch_not_defines v.prog.wf ⟨l, is.length, i, rfl, ?_, h2⟩ hx
      rw [instAt, h1]
      simp
    · exact hd
  · rw [h10] at tr
    refine ⟨ms, ?_, fun d hd _ _ => hd⟩
    rw [h1]
    simpa using tr

theorem Fold.trail (h : Fold c c' ls first) (v : Inv c) {ms' : List Site} {l k : Nat} (tr : Trail c' ms' l k) :
    ∃ l0 ms, low ls first l0 = l ∧ Trail c ms l0 k ∧ ∀ d ∈ ms, ∀ x, Defines c d x → d ∈ ms' := by
  induction tr with
  | start =>
    exact ⟨c.entry, [], by rw [h.entry]; exact low_out (fun e => (h.leaf _ e).1 rfl), .start, by simp⟩
  | @inst ms l k tr hk ih =>
    obtain ⟨l0, ms0, h0, h1, h2⟩ := ih
    have hi : instAt c' l k = some ((Opt.blockOf c' l)[k]) := List.getElem?_eq_getElem hk
    obtain ⟨hl, i, e, -⟩ := h.back v hi
    have := (low_eq h.mem hl).1 h0
    subst this
    refine ⟨l0, _, h0, .inst h1 (lt_of_instAt e), ?_⟩
    intro d hd x hx
    rcases List.mem_cons.1 hd with rfl | hd
    · exact List.mem_cons_self
    · exact List.mem_cons_of_mem _ (h2 d hd x hx)
  | @jump ms l y tr he ih =>
    obtain ⟨l0, ms0, h0, h1, h2⟩ := ih
    obtain ⟨y0, h5, h6⟩ := (h.edge _ _).1 he
    have hl := h.from_ne h5
    have := (low_eq h.mem hl).1 h0
    subst this
    obtain ⟨ms1, h3, h4⟩ := h.trail_end v hl h1
    refine ⟨y0, _, h6, .jump h3 h5, ?_⟩
    intro d hd x hx
    rcases List.mem_cons.1 hd with rfl | hd
    · by_cases hy : y0 ∈ ls
      · exact absurd hx (nophi_defines (h.empty hy))
      · rw [low_out hy] at h6
        rw [h6]
        exact List.mem_cons_self
    · exact List.mem_cons_of_mem _ (h2 d (h4 d hd x hx) x hx)

theorem Fold.ssa (h : Fold c c' ls first) (v : Inv c) : StrictSSA c' := by
  refine ssa_map v.prog.ssa (fun l k => (l, k)) id ?_ ?_ ?_ ?_ ?_
  · intro l k i' e
    obtain ⟨-, i, e1, e2, e3, e4, -⟩ := h.back v e
    exact ⟨i, e1, e3, e2, fun _ => e4.symm⟩
  · intro l k i l2 k2 i2 _ _ e
    simpa using e
  · intro d x hd
    refine ⟨d, ?_, rfl⟩
    cases d with
    | inst l k =>
      obtain ⟨i', e, h1, h2⟩ := hd
      obtain ⟨-, i, e1, e2, e3, -⟩ := h.back v e
      exact ⟨i, e1, e2 ▸ h1, e3 ▸ h2⟩
    | phis l =>
      obtain ⟨k, i', e, h1, h2⟩ := hd
      obtain ⟨-, i, e1, e2, e3, -⟩ := h.back v e
      exact ⟨k, i, e1, e2 ▸ h1, e3 ▸ h2⟩
  · intro l k i e _ ms' tr
    obtain ⟨l0, ms, h0, h1, h2⟩ := h.trail v tr
    obtain ⟨hl, -⟩ := h.back v e
    have := (low_eq h.mem hl).1 h0
    subst this
    exact ⟨ms, h1, h2⟩
  · intro l k i' e ht p a hpa
    obtain ⟨-, i, e1, e2, -, -, e5⟩ := h.back v e
    rw [e5 (by rw [ht]; decide)] at hpa
    refine ⟨p, l, k, i, e1, e2.trans ht, hpa, ?_⟩
    intro ms' tr
    obtain ⟨l0, ms, h0, h1, h2⟩ := h.trail v tr
    have hp := h.from_ne (v.exact l k i e1 (e2.trans ht) p (List.of_mem_zip hpa).1)
    have := (low_eq h.mem hp).1 h0
    subst this
    obtain ⟨ms2, h3, h4⟩ := h.trail_end v hp h1
    exact ⟨ms2, h3, fun d hd x hx => h2 d (h4 d hd x hx) x hx⟩

theorem Fold.reaches (h : Fold c c' ls first) {x : Nat} (hx : Reach c.graph.Edge c.entry x) :
    Reach c'.graph.Edge c'.entry (low ls first x) := by
  induction hx with
  | refl => rw [h.entry, low_out (fun e => (h.leaf _ e).1 rfl)]; exact .refl
  | @step a b h1 h2 ih =>
    refine .step ih ((h.edge _ _).2 ⟨b, ?_, rfl⟩)
    rw [low_out (h.from_ne h2)]
    exact h2

/-- What may vanish in the new program may in the old one. -/
theorem Fold.hollow (h : Fold c c' ls first) (v : Inv c) {x : Nat} (hh : Hollow c' x) : Hollow c x := by
  induction hh with
  | @empty p hp =>
    by_cases hl : p ∈ ls
    · exact .empty (h.empty hl)
    · rcases h.cases v hl with ⟨-, h1⟩ | ⟨is, j, a, t, f, h1, h2, h3, h4, h5, h6, h7, h8, ⟨-, h9, -, h10⟩ | ⟨-, -, h10⟩⟩
      · exact .empty (h1 ▸ hp)
      · rw [h10] at hp
        subst hp
        exact .fork h1 h2 ((h8 t).2 (.inl rfl)) (.empty (h.empty h9))
      · rw [h10] at hp; simp at hp
  | @fork p d i hb ht he _ ih =>
    obtain ⟨k, h1, h2⟩ := (h.edge _ _).1 he
    have hk : Hollow c k := by
      by_cases hl : k ∈ ls
      · exact .empty (h.empty hl)
      · rw [low_out hl] at h2
        exact h2 ▸ ih
    have hl := h.from_ne h1
    rcases h.cases v hl with ⟨-, h3⟩ | ⟨is, j, a, t, f, h4, h5, -, -, -, h6, -, -, ⟨-, -, -, h10⟩ | ⟨-, -, h10⟩⟩
    · exact .fork (h3 ▸ hb) ht h1 hk
    · rw [h10] at hb
      subst hb
      exact absurd ht (h6 i (by simp))
    · rw [h10] at hb
      have : is = [] := by
        refine List.length_eq_zero_iff.1 ?_
        have := congrArg List.length hb
        simpa using this
      subst this
      exact .fork h4 h5 h1 hk

theorem Fold.chain (h : Fold c c' ls first) (v : Inv c) {b q : Nat} (hq : q ∉ ls) (hc : Chain c' b q) :
    Chain c b q := by
  induction hc with
  | refl => exact .refl
  | @step b d q e hd hc ih =>
    obtain ⟨k, h1, h2⟩ := (h.edge _ _).1 e
    by_cases hl : k ∈ ls
    · rw [low_in hl] at h2
      subst h2
      cases hc with
      | refl => exact absurd h.mem hq
      | step e2 _ _ =>
        obtain ⟨k2, h3, -⟩ := (h.edge _ _).1 e2
        exact absurd h3 ((h.leaf _ h.mem).2.2 k2)
    · rw [low_out hl] at h2
      subst h2
      exact .step h1 (h.hollow v hd) (ih hq)

theorem Fold.inv (h : Fold c c' ls first) (v : Inv c) : Inv c' := by
  have hphi : ∀ {l k i'}, instAt c' l k = some i' → i'.t = .phi → instAt c l k = some i' ∧ l ∉ ls := by
    intro l k i' e ht
    obtain ⟨hl, i, e1, e2, -, -, e5⟩ := h.back v e
    rw [e5 (by rw [ht]; decide)]
    exact ⟨e1, hl⟩
  have hedge : ∀ {p l}, l ∉ ls → (c'.graph.Edge p l ↔ c.graph.Edge p l) := by
    intro p l hl
    rw [h.edge]
    constructor
    · rintro ⟨k, h1, h2⟩
      exact (low_eq h.mem hl).1 h2 ▸ h1
    · exact fun h1 => ⟨l, h1, low_out hl⟩
  refine ⟨⟨h.hist, h.wf v, h.ssa v, ⟨?_, ?_⟩, ?_, ?_, ?_, ?_⟩, ?_, ?_, ?_, ?_, ?_⟩
  · intro l hl
    obtain ⟨h1, h2⟩ := h.isSome.1 hl
    have := h.reaches (v.prog.reach.1 l h2)
    rwa [h1] at this
  · intro a b e
    obtain ⟨k, h1, -⟩ := (h.edge a b).1 e
    have := h.reaches (v.prog.reach.2 a k h1)
    rwa [low_out (h.from_ne h1)] at this
  · intro k i e ht
    obtain ⟨e1, -⟩ := hphi e ht
    rw [h.entry] at e1
    exact v.prog.entry k i e1 ht
  · intro l k i e ht p hp
    obtain ⟨e1, hl⟩ := hphi e ht
    exact v.prog.cover l k i e1 ht p ((hedge hl).1 hp)
  · intro l hl
    obtain ⟨h1, h2⟩ := (h.nodes l).1 (contains_iff.1 hl)
    exact h.isSome.2 ⟨h2, v.prog.nodes l (contains_iff.2 h1)⟩
  · intro l k i' e ht y hy
    obtain ⟨is, a, t, f, -, h2, h3, h4, -, h5⟩ := h.back_branch v e ht
    obtain ⟨y0, h6, rfl⟩ := (h.edge _ _).1 hy
    rw [h4]
    rcases (h5 y0).1 h6 with rfl | rfl <;> simp
  · intro l k i e ht p hp
    obtain ⟨e1, hl⟩ := hphi e ht
    exact (hedge hl).2 (v.exact l k i e1 ht p hp)
  · intro l k i' e ht
    obtain ⟨is, a, t, f, -, h2, h3, h4, h5, -⟩ := h.back_branch v e ht
    rw [h4]
    simpa using h5
  · intro l hpl a b ha hb
    obtain ⟨a0, h1, rfl⟩ := (h.edge _ _).1 ha
    obtain ⟨b0, h2, rfl⟩ := (h.edge _ _).1 hb
    have hl := h.from_ne h1
    rcases h.cases v hl with ⟨h3, h4⟩ | ⟨is, j, a, t, f, -, h6, h7, h3, h4, -, -, h5, ⟨h8, -⟩ | ⟨-, -, h8⟩⟩
    · rw [v.only l (fun k i e => h3 i (instAt_mem e)) a0 b0 h1 h2]
    · rcases (h5 a0).1 h1 with rfl | rfl <;> rcases (h5 b0).1 h2 with rfl | rfl
      · rfl
      · exact h8
      · exact h8.symm
      · rfl
    · exact absurd h6 (hpl is.length { j with labels := [low ls first t, low ls first f] } (by rw [instAt, h8]; simp))
  · intro l k i e ht b
    obtain ⟨e1, hl⟩ := hphi e ht
    have out : ∀ p ∈ i.labels, p ∉ ls := fun p hp => h.from_ne (v.exact l k i e1 ht p hp)
    obtain ⟨⟨p, hp, hn⟩, hr⟩ := v.race l k i e1 ht b
    refine ⟨⟨p, hp, fun hc => hn (h.chain v (out p hp) hc)⟩, ?_⟩
    intro p x q y hpx hqy hcp hcq
    exact hr p x q y hpx hqy (h.chain v (out p (List.of_mem_zip hpx).1) hcp) (h.chain v (out q (List.of_mem_zip hqy).1) hcq)
  · intro h0 hh l k i e ht p hp hc
    obtain ⟨e1, hl⟩ := hphi e ht
    rw [h.entry] at h0
    have hp := (hedge hl).1 hp
    exact v.apart h0 (h.hollow v hh) l k i e1 ht p hp (h.chain v (h.from_ne hp) hc)

/-! ## Runs -/

theorem Fold.skips (h : Fold c c' ls first) (v : Inv c) : Skips c c' := by
  refine skips_of (fun x' x => x'.env = x.env ∧ x'.world = x.world ∧ x'.at_ = x.at_.map (low ls first)) ?_ ?_ ?_
  · intro V W I e w
    refine ⟨0, rfl, rfl, ?_⟩
    simp only [Opt.run, h.entry, Option.map_some, low_out (fun e => (h.leaf _ e).1 rfl : c.entry ∉ ls)]
  · rintro V W I ⟨at', env', w'⟩ ⟨at_, env, world⟩ ⟨h1, h2, h3⟩
    simp only at h1 h2 h3
    subst h1 h2 h3
    refine ⟨0, ?_⟩
    simp only [steps]
    cases at_ with
    | none => simp [Opt.step]
    | some l =>
      simp only [Option.map_some]
      by_cases hl : l ∈ ls
      · rw [low_in hl]
        have hn : Opt.next I c l (Opt.blockOf c l) env' = none := by
          rw [h.empty hl]
          exact next_none_plain (by simp) (fun y hy => (h.leaf l hl).2.2 y hy) _
        have hn' : Opt.next I c' first (Opt.blockOf c' first) env' = none := by
          rw [h.block_in h.mem]
          refine next_none_plain (by simp) (fun y hy => ?_) _
          obtain ⟨k, hk, -⟩ := (h.edge _ _).1 hy
          exact (h.leaf first h.mem).2.2 k hk
        rw [step_end (s := (env', w')) (by rw [h.empty hl]; rfl) hn,
          step_end (s := (env', w')) (by rw [h.block_in h.mem]; rfl) hn']
        exact ⟨rfl, rfl, rfl⟩
      · rw [low_out hl]
        have hex : execAll I (Opt.blockOf c' l) (env', w') = execAll I (Opt.blockOf c l) (env', w') := by
          rcases h.cases v hl with ⟨-, h1⟩ | ⟨is, j, a, t, f, h1, h2, h3, h4, h5, h6, h7, h8, ⟨-, -, -, h10⟩ | ⟨-, -, h10⟩⟩
          · rw [h1]
          · rw [h10, h1, execAll_append]
            exact (exec_branch h2 _).symm
          · rw [h10, h1, execAll_append, execAll_append]
            exact (exec_branch (i := { j with labels := [low ls first t, low ls first f] }) h2 _).trans
              (exec_branch h2 _).symm
        generalize hs : execAll I (Opt.blockOf c l) (env', w') = s at hex
        have hnx : Opt.next I c' l (Opt.blockOf c' l) s.1 = (Opt.next I c l (Opt.blockOf c l) s.1).map (low ls first) := by
          rcases h.cases v hl with ⟨h0, h1⟩ | ⟨is, j, a, t, f, h1, h2, h3, h4, h5, h6, h7, h8, ⟨h9, -, -, h10⟩ | ⟨-, -, h10⟩⟩
          · rw [h1]
            by_cases he : ∃ y, c.graph.Edge l y
            · obtain ⟨y, hy⟩ := he
              have hy' : ∀ z, c.graph.Edge l z ↔ z = y :=
                fun z => ⟨fun hz => v.only l (fun k i e => h0 i (instAt_mem e)) z y hz hy, fun e => e ▸ hy⟩
              rw [next_edge_plain v.hist.wf h0 hy', next_edge_plain h.hist.wf h0 (s := low ls first y)]
              · rfl
              · intro z
                rw [h.edge]
                constructor
                · rintro ⟨k, h1, rfl⟩
                  rw [(hy' k).1 h1]
                · rintro rfl
                  exact ⟨y, hy, rfl⟩
            · rw [next_none_plain h0 (fun y hy => he ⟨y, hy⟩), next_none_plain h0]
              · rfl
              · intro y hy
                obtain ⟨k, hk, -⟩ := (h.edge _ _).1 hy
                exact he ⟨k, hk⟩
          · rw [h10, h1, next_branch h2 h4 h5, next_edge_plain h.hist.wf h6 (s := low ls first t)]
            · simp only [Option.map_some]
              split
              · rfl
              · rw [h9]
            · intro z
              rw [h.edge]
              constructor
              · rintro ⟨k, hk, rfl⟩
                rcases (h8 k).1 hk with rfl | rfl
                · rfl
                · exact h9.symm
              · rintro rfl
                exact ⟨t, (h8 t).2 (.inl rfl), rfl⟩
          · rw [h10, h1, next_branch h2 h4 h5,
              next_branch (i := { j with labels := [low ls first t, low ls first f] }) h2 h4 rfl]
            simp only [Option.map_some]
            split <;> rfl
        cases hn : Opt.next I c l (Opt.blockOf c l) s.1 with
        | none =>
          rw [hn] at hnx
          rw [step_end hs hn, step_end hex hnx]
          exact ⟨rfl, rfl, rfl⟩
        | some n =>
          rw [hn] at hnx
          rw [step_to hs hn, step_to hex hnx]
          refine ⟨?_, rfl, rfl⟩
          simp only
          by_cases hnl : n ∈ ls
          · rw [low_in hnl, h.block_in h.mem, h.empty hnl]
          · rw [low_out hnl]
            rcases h.cases v hnl with ⟨-, h1⟩ | ⟨is, j, a, t, f, h1, h2, h3, h4, h5, h6, h7, h8, ⟨-, -, -, h10⟩ | ⟨-, -, h10⟩⟩
            · rw [h1]
            · rw [h10, h1, enter_append]
              exact (enter_nophi (by simp [h2])).symm
            · rw [h10, h1, enter_append, enter_append]
              exact (enter_nophi (by simp [h2])).trans (enter_nophi (by simp [h2])).symm
  · rintro V W x' x ⟨-, h2, h3⟩
    refine ⟨?_, h2⟩
    rw [h3]
    cases x.at_ <;> simp

end

end Verif.Prune
