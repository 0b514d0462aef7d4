import Verif.Flow.Colour
/-!
# Lemmas about liveness
-/

namespace Verif.Flow

open Verif.Graph Verif.Il

/-! ## Bits -/

theorem testBit_insert {s i j : Nat} : (BitSet.insert s j).testBit i = (s.testBit i || decide (j = i)) := by
  unfold BitSet.insert
  rw [Nat.testBit_or, Nat.one_shiftLeft, Nat.testBit_two_pow]

theorem testBit_remove {s i j : Nat} : (BitSet.remove s j).testBit i = (s.testBit i && !decide (j = i)) := by
  unfold BitSet.remove
  rw [Nat.testBit_xor, Nat.testBit_and, Nat.one_shiftLeft, Nat.testBit_two_pow]
  cases s.testBit i <;> cases decide (j = i) <;> rfl

theorem bit_eq {lv : Liveness} {v w j : Nat} (hv : v ∈ lv.bitToVar) (h : lv.bit w = some j) :
    j = lv.bitToVar.idxOf v ↔ w = v := by
  unfold Liveness.bit at h
  split at h
  · rename_i hw
    obtain rfl := Option.some.inj h
    exact ⟨fun e => idxOf_inj hw e, fun e => by rw [e]⟩
  · cases h

theorem bit_none {lv : Liveness} {v w : Nat} (hv : v ∈ lv.bitToVar) (h : lv.bit w = none) : w ≠ v := by
  rintro rfl
  simp [Liveness.bit, hv] at h

theorem testBit_insertAll {lv : Liveness} {v : Nat} (hv : v ∈ lv.bitToVar) : ∀ (vs : List Nat) (s : BitSet),
    (lv.insertAll vs s).testBit (lv.bitToVar.idxOf v) = true ↔ s.testBit (lv.bitToVar.idxOf v) = true ∨ v ∈ vs
  | [], s => by simp [Liveness.insertAll]
  | w :: vs, s => by
    have ih := testBit_insertAll hv vs
    unfold Liveness.insertAll at ih ⊢
    rw [List.foldl_cons, ih]
    cases h : lv.bit w with
    | none =>
      have := bit_none hv h
      have : v ≠ w := fun e => this e.symm
      simp [this]
    | some j =>
      simp only [testBit_insert, Bool.or_eq_true, decide_eq_true_eq, bit_eq hv h, List.mem_cons]
      constructor
      · rintro ((h | rfl) | h)
        · exact Or.inl h
        · exact Or.inr (Or.inl rfl)
        · exact Or.inr (Or.inr h)
      · rintro (h | rfl | h)
        · exact Or.inl (Or.inl h)
        · exact Or.inl (Or.inr rfl)
        · exact Or.inr h

theorem testBit_removeAll {lv : Liveness} {v : Nat} (hv : v ∈ lv.bitToVar) : ∀ (vs : List Nat) (s : BitSet),
    (lv.removeAll vs s).testBit (lv.bitToVar.idxOf v) = true ↔ s.testBit (lv.bitToVar.idxOf v) = true ∧ v ∉ vs
  | [], s => by simp [Liveness.removeAll]
  | w :: vs, s => by
    have ih := testBit_removeAll hv vs
    unfold Liveness.removeAll at ih ⊢
    rw [List.foldl_cons, ih]
    cases h : lv.bit w with
    | none =>
      have := bit_none hv h
      have : v ≠ w := fun e => this e.symm
      simp [this]
    | some j =>
      simp only [testBit_remove, Bool.and_eq_true, Bool.not_eq_true', decide_eq_false_iff_not, bit_eq hv h,
        List.mem_cons, not_or]
      constructor
      · rintro ⟨⟨h1, h2⟩, h3⟩
        exact ⟨h1, fun e => h2 e.symm, h3⟩
      · rintro ⟨h1, h2, h3⟩
        exact ⟨⟨h1, fun e => h2 e.symm⟩, h3⟩

/-- What one instruction does to the bit of a tracked variable. -/
theorem testBit_applyInst {lv : Liveness} {v : Nat} (hv : v ∈ lv.bitToVar) (l k : Nat) (i : Inst) (s : BitSet) :
    (lv.applyInst l k i s).testBit (lv.bitToVar.idxOf v) = true ↔
      (lv.inlines.lookup (l, k) = none ∧ (v ∈ i.argVars ∨ ((l, k), v) ∈ lv.additional)) ∨
      (¬ (lv.inlines.lookup (l, k) = none ∧ v ∈ i.tgts) ∧ s.testBit (lv.bitToVar.idxOf v) = true) := by
  unfold Liveness.applyInst
  cases h : lv.inlines.lookup (l, k) with
  | some d => simp
  | none =>
    simp only [Option.isSome_none, Bool.false_eq_true, ↓reduceIte, BitSet.union, Nat.testBit_or,
      Bool.or_eq_true, testBit_insertAll hv, testBit_removeAll hv, Liveness.additionalAt, true_and]
    simp only [Nat.zero_testBit, Bool.false_eq_true, false_or, List.mem_map, List.mem_filter, beq_iff_eq,
      Prod.exists]
    constructor
    · rintro ((⟨h1, h2⟩ | h) | ⟨a, b, w, ⟨h1, e⟩, rfl⟩)
      · exact Or.inr ⟨h2, h1⟩
      · exact Or.inl (Or.inl h)
      · rw [e] at h1
        exact Or.inl (Or.inr h1)
    · rintro ((h | h) | ⟨h1, h2⟩)
      · exact Or.inl (Or.inr h)
      · exact Or.inr ⟨_, _, v, ⟨h, rfl⟩, rfl⟩
      · exact Or.inl (Or.inl ⟨h2, h1⟩)

theorem mem_toVars {lv : Liveness} (hn : lv.bitToVar.Nodup) {s : BitSet} {v : Nat} :
    v ∈ lv.toVars s ↔ v ∈ lv.bitToVar ∧ s.testBit (lv.bitToVar.idxOf v) = true := by
  unfold Liveness.toVars
  simp only [List.mem_filterMap, List.mem_filter, List.mem_range]
  constructor
  · rintro ⟨i, ⟨hi, hb⟩, hg⟩
    obtain ⟨hi', rfl⟩ := List.getElem?_eq_some_iff.1 hg
    refine ⟨List.getElem_mem _, ?_⟩
    rwa [List.Nodup.idxOf_getElem hn]
  · rintro ⟨hv, hb⟩
    have hi := List.idxOf_lt_length_iff.2 hv
    refine ⟨lv.bitToVar.idxOf v, ⟨hi, hb⟩, ?_⟩
    rw [List.getElem?_eq_getElem hi, List.getElem_idxOf]

theorem nodup_toVars {lv : Liveness} (hn : lv.bitToVar.Nodup) {s : BitSet} : (lv.toVars s).Nodup := by
  unfold Liveness.toVars
  refine List.Nodup.filterMap ?_ (List.nodup_range.filter _)
  intro a b v ha hb
  rw [Option.mem_def] at ha hb
  obtain ⟨ha', rfl⟩ := List.getElem?_eq_some_iff.1 ha
  obtain ⟨hb', e⟩ := List.getElem?_eq_some_iff.1 hb
  exact ((List.Nodup.getElem_inj_iff hn).1 e).symm

/-! ## Inside a block -/

/-- Liveness inside a list of instructions numbered from `k`, in terms of the analysis. -/
def LL (lv : Liveness) (l v : Nat) : Nat → List Inst → Prop
  | _, [] => False
  | k, i :: is =>
    (lv.inlines.lookup (l, k) = none ∧ (v ∈ i.argVars ∨ ((l, k), v) ∈ lv.additional)) ∨
    (¬ (lv.inlines.lookup (l, k) = none ∧ v ∈ i.tgts) ∧ LL lv l v (k + 1) is)

theorem liveInBlock_state {lv : Liveness} {v : Nat} (hv : v ∈ lv.bitToVar) (l : Nat) :
    ∀ (is : List Inst) (k : Nat),
    (liveInBlock lv l k is 0).1.testBit (lv.bitToVar.idxOf v) = true ↔ LL lv l v k is
  | [], k => by simp [liveInBlock, LL]
  | i :: is, k => by
    have ih := liveInBlock_state hv l is (k + 1)
    unfold liveInBlock LL
    cases h : lv.inlines.lookup (l, k) with
    | some d => simpa using ih
    | none =>
      simp only [Option.isSome_none, Bool.false_eq_true, ↓reduceIte]
      rw [testBit_applyInst hv, ih, h]
      simp only [true_and]

theorem liveInBlock_out {lv : Liveness} (l : Nat) : ∀ (is : List Inst) (k m : Nat) (l' : Nat) (vs : List Nat),
    ((l', m), vs) ∈ (liveInBlock lv l k is 0).2 ↔
      l' = l ∧ k ≤ m ∧ m - k < is.length ∧ lv.inlines.lookup (l, m) = none ∧
        vs = lv.toVars (liveInBlock lv l m (is.drop (m - k)) 0).1
  | [], k, m, l', vs => by simp [liveInBlock]
  | i :: is, k, m, l', vs => by
    have ih := liveInBlock_out (lv := lv) l is (k + 1) m l' vs
    have key : l' = l ∧ k ≤ m ∧ m - k < (i :: is).length ∧ lv.inlines.lookup (l, m) = none ∧
          vs = lv.toVars (liveInBlock lv l m ((i :: is).drop (m - k)) 0).1 ↔
        (l' = l ∧ m = k ∧ lv.inlines.lookup (l, k) = none ∧
          vs = lv.toVars (liveInBlock lv l k (i :: is) 0).1) ∨
        (l' = l ∧ k + 1 ≤ m ∧ m - (k + 1) < is.length ∧ lv.inlines.lookup (l, m) = none ∧
          vs = lv.toVars (liveInBlock lv l m (is.drop (m - (k + 1))) 0).1) := by
      rcases Nat.lt_trichotomy m k with h | h | h
      · constructor
        · rintro ⟨_, h2, _⟩; omega
        · rintro (⟨_, h2, _⟩ | ⟨_, h2, _⟩) <;> omega
      · subst h
        simp only [Nat.le_refl, Nat.sub_self, List.length_cons, Nat.zero_lt_succ, List.drop_zero, true_and]
        constructor
        · exact fun h => Or.inl h
        · rintro (h | ⟨_, h2, _⟩)
          · exact h
          · omega
      · have e : m - k = (m - (k + 1)) + 1 := by omega
        rw [e, List.drop_succ_cons, List.length_cons]
        constructor
        · rintro ⟨h1, h2, h3, h4⟩
          exact Or.inr ⟨h1, h, by omega, h4⟩
        · rintro (⟨_, h2, _⟩ | ⟨h1, h2, h3, h4⟩)
          · omega
          · exact ⟨h1, by omega, by omega, h4⟩
    rw [key, ← ih]
    conv_lhs => unfold liveInBlock
    cases h : lv.inlines.lookup (l, k) with
    | some d => simp
    | none =>
      simp only [Option.isSome_none, Bool.false_eq_true, ↓reduceIte, List.mem_cons, Prod.mk.injEq]
      have : (liveInBlock lv l k (i :: is) 0).1 = lv.applyInst l k i (liveInBlock lv l (k + 1) is 0).1 := by
        conv_lhs => unfold liveInBlock
        simp [h]
      rw [this]
      constructor
      · rintro (⟨⟨h1, h2⟩, h3⟩ | h)
        · exact Or.inl ⟨h1, h2, trivial, h3⟩
        · exact Or.inr h
      · rintro (⟨h1, h2, _, h3⟩ | h)
        · exact Or.inl ⟨⟨h1, h2⟩, h3⟩
        · exact Or.inr h

theorem LL_iff {lv : Liveness} {l v : Nat} : ∀ (is : List Inst) (k : Nat),
    LL lv l v k is ↔ ∃ (j : Nat) (i : Inst), k ≤ j ∧ is[j - k]? = some i ∧
      (lv.inlines.lookup (l, j) = none ∧ (v ∈ i.argVars ∨ ((l, j), v) ∈ lv.additional)) ∧
      ∀ m, k ≤ m → m < j → ∀ i', is[m - k]? = some i' → ¬ (lv.inlines.lookup (l, m) = none ∧ v ∈ i'.tgts)
  | [], k => by simp [LL]
  | i :: is, k => by
    unfold LL
    rw [LL_iff is (k + 1)]
    constructor
    · rintro (h | ⟨hd, j, i', hj, hi', hu, hn⟩)
      · exact ⟨k, i, Nat.le_refl _, by simp, h, fun m h1 h2 => by omega⟩
      · refine ⟨j, i', by omega, ?_, hu, ?_⟩
        · have : j - k = (j - (k + 1)) + 1 := by omega
          rw [this, List.getElem?_cons_succ, hi']
        · intro m h1 h2 i'' hi''
          by_cases e : m = k
          · subst e
            simp only [Nat.sub_self, List.getElem?_cons_zero, Option.some.injEq] at hi''
            subst hi''
            exact hd
          · have e' : m - k = (m - (k + 1)) + 1 := by omega
            rw [e', List.getElem?_cons_succ] at hi''
            exact hn m (by omega) h2 i'' hi''
    · rintro ⟨j, i', hj, hi', hu, hn⟩
      by_cases e : j = k
      · subst e
        simp only [Nat.sub_self, List.getElem?_cons_zero, Option.some.injEq] at hi'
        subst hi'
        exact Or.inl hu
      · right
        refine ⟨hn k (Nat.le_refl _) (by omega) i (by simp), j, i', by omega, ?_, hu, ?_⟩
        · have e' : j - k = (j - (k + 1)) + 1 := by omega
          rwa [e', List.getElem?_cons_succ] at hi'
        · intro m h1 h2 i'' hi''
          refine hn m (by omega) h2 i'' ?_
          have e' : m - k = (m - (k + 1)) + 1 := by omega
          rw [e', List.getElem?_cons_succ, hi'']

/-! ## Tracked variables and inlining -/

theorem mem_argVars {i : Inst} {v : Nat} : v ∈ i.argVars ↔ Arg.var v ∈ i.args := by
  unfold Inst.argVars
  rw [List.mem_filterMap]
  constructor
  · rintro ⟨a, ha, h⟩
    cases a with
    | var w =>
      simp only [Arg.maybeVar, Option.some.injEq] at h
      exact h ▸ ha
    | builtin p => simp [Arg.maybeVar] at h
    | const c => simp [Arg.maybeVar] at h
    | fn n => simp [Arg.maybeVar] at h
  · intro h
    exact ⟨_, h, rfl⟩

theorem finalDest_chain {inl : Inlines} : ∀ (n : Nat) (d e : Loc), finalDest inl n d = some e →
    ChainEnd inl d e ∧ inl.lookup e = none
  | 0, d, e, h => by simp [finalDest] at h
  | n + 1, d, e, h => by
    unfold finalDest at h
    cases hl : inl.lookup d with
    | none =>
      rw [hl] at h
      obtain rfl := Option.some.inj h
      exact ⟨.stop hl, hl⟩
    | some d' =>
      rw [hl] at h
      obtain ⟨h1, h2⟩ := finalDest_chain n d' e h
      exact ⟨.step hl h1, h2⟩

theorem chain_unique {inl : Inlines} {d e : Loc} (h : ChainEnd inl d e) : ∀ {e' : Loc}, ChainEnd inl d e' → e = e' := by
  induction h with
  | stop hl =>
    intro e' h'
    cases h' with
    | stop _ => rfl
    | step h1 _ => rw [hl] at h1; cases h1
  | step hl _ ih =>
    intro e' h'
    cases h' with
    | stop h1 => rw [hl] at h1; cases h1
    | step h1 h2 =>
      rw [hl] at h1
      obtain rfl := Option.some.inj h1
      exact ih h2

theorem mem_additional {c : Il.Cfg} {inl : Inlines} {inlined : List Nat} : ∀ (edges : Inlines) {add : List (Loc × Nat)},
    additionalUses c inl inlined edges = some add → ∀ (p : Loc) (v : Nat),
    (p, v) ∈ add ↔ v ∉ inlined ∧ ∃ (src next : Loc) (i : Inst), (src, next) ∈ edges ∧ ChainEnd inl next p ∧
      inl.lookup p = none ∧ instAt c src = some i ∧ Arg.var v ∈ i.args
  | [], add, h, p, v => by
    simp only [additionalUses, Option.some.injEq] at h
    subst h
    simp
  | (src, next) :: rest, add, h, p, v => by
    simp only [additionalUses, Option.bind_eq_bind, Option.bind_eq_some_iff, Option.some.injEq] at h
    obtain ⟨dest, hd, block, hb, inst, hi, r, hr, rfl⟩ := h
    obtain ⟨ch, hnone⟩ := finalDest_chain _ _ _ hd
    have hat : instAt c src = some inst := by simp [instAt, hb, hi]
    have ih := mem_additional rest hr p v
    rw [List.mem_append, ih]
    simp only [List.mem_map, List.mem_filter, Bool.not_eq_true', List.contains_eq_mem, decide_eq_false_iff_not,
      Prod.mk.injEq, mem_argVars, List.mem_cons]
    constructor
    · rintro (⟨w, ⟨hw, hin⟩, rfl, rfl⟩ | ⟨hin, s, n, i, hm, h2⟩)
      · exact ⟨hin, src, next, inst, Or.inl ⟨rfl, rfl⟩, ch, hnone, hat, hw⟩
      · exact ⟨hin, s, n, i, Or.inr hm, h2⟩
    · rintro ⟨hin, s, n, i, ⟨rfl, rfl⟩ | hm, h2, h3, h4, h5⟩
      · left
        rw [hat] at h4
        obtain rfl := Option.some.inj h4
        exact ⟨v, ⟨h5, hin⟩, chain_unique ch h2, rfl⟩
      · exact Or.inr ⟨hin, s, n, i, hm, h2, h3, h4, h5⟩

theorem mem_trackedInBlock {inl : Inlines} {inlined : List Nat} {l v : Nat} : ∀ (is : List Inst) (k : Nat),
    v ∈ trackedInBlock inl inlined l k is ↔ ∃ (m : Nat) (i : Inst), is[m]? = some i ∧
      inl.lookup (l, k + m) = none ∧ v ∈ Inst.vars i ∧ v ∉ inlined
  | [], k => by simp [trackedInBlock]
  | i :: is, k => by
    unfold trackedInBlock
    rw [List.mem_append, mem_trackedInBlock is (k + 1)]
    constructor
    · rintro (h | ⟨m, i', h1, h2, h3⟩)
      · split at h
        · simp at h
        · rename_i hn
          rw [List.mem_filter] at h
          refine ⟨0, i, by simp, by simpa only [Nat.add_zero, Bool.not_eq_true, Option.isSome_eq_false_iff, Option.isNone_iff_eq_none] using hn, h.1, by simpa using h.2⟩
      · exact ⟨m + 1, i', by simpa using h1, by rw [← h2]; congr 2; omega, h3⟩
    · rintro ⟨m, i', h1, h2, h3, h4⟩
      cases m with
      | zero =>
        simp only [List.getElem?_cons_zero, Option.some.injEq] at h1
        subst h1
        left
        have : (inl.lookup (l, k)) = none := by simpa using h2
        rw [this]
        simp [h3, h4]
      | succ m =>
        right
        exact ⟨m, i', by simpa using h1, by rw [← h2]; congr 2; omega, h3, h4⟩

theorem new_spec {c : Il.Cfg} {inl : Inlines} {inlined : List Nat} {lv : Liveness}
    (h : Liveness.new c inl inlined = some lv) : lv.inlines = inl ∧ lv.bitToVar.Nodup ∧
    additionalUses c inl inlined inl = some lv.additional ∧
    (∀ v, v ∈ lv.bitToVar → v ∉ inlined) ∧
    (∀ p i v, instAt c p = some i → inl.lookup p = none → v ∈ Inst.vars i → v ∉ inlined → v ∈ lv.bitToVar) ∧
    (∀ p v, (p, v) ∈ lv.additional → v ∈ lv.bitToVar) := by
  simp only [Liveness.new, Option.bind_eq_bind, Option.bind_eq_some_iff, Option.some.injEq] at h
  obtain ⟨add, ha, rfl⟩ := h
  refine ⟨rfl, nodup_sortLabels nodup_dedup, ha, ?_, ?_, ?_⟩
  · intro v hv
    simp only [mem_sortLabels, mem_dedup, List.mem_append, trackedVars, List.mem_flatMap, List.mem_map] at hv
    obtain ⟨e, _, he⟩ | ⟨⟨p, w⟩, hp, rfl⟩ := hv
    · rw [mem_trackedInBlock] at he
      obtain ⟨_, _, _, _, _, h⟩ := he
      exact h
    · exact ((mem_additional inl ha p w).1 hp).1
  · intro p i v hi hn hv hin
    simp only [mem_sortLabels, mem_dedup, List.mem_append, trackedVars, List.mem_flatMap]
    left
    simp only [instAt, Option.bind_eq_bind, Option.bind_eq_some_iff] at hi
    obtain ⟨b, hb, hi⟩ := hi
    refine ⟨(p.1, b), mem_of_lookup hb, ?_⟩
    rw [mem_trackedInBlock]
    exact ⟨p.2, i, hi, by rw [Nat.zero_add]; exact hn, hv, hin⟩
  · intro p v hp
    simp only [mem_sortLabels, mem_dedup, List.mem_append]
    exact Or.inr (List.mem_map.2 ⟨(p, v), hp, rfl⟩)

theorem uses_iff {c : Il.Cfg} {inl : Inlines} {inlined : List Nat} {lv : Liveness}
    (h : Liveness.new c inl inlined = some lv) {p : Loc} {i : Inst} (hi : instAt c p = some i) (v : Nat) :
    UsesAt c inl inlined p v ↔
      v ∈ lv.bitToVar ∧ inl.lookup p = none ∧ (v ∈ i.argVars ∨ (p, v) ∈ lv.additional) := by
  obtain ⟨h1, h2, h3, h4, h5, h6⟩ := new_spec h
  unfold UsesAt
  constructor
  · rintro (⟨hin, i', hi', hn, hv⟩ | ⟨hin, src, next, i', h1, h2, hn, h7, h8⟩)
    · rw [hi] at hi'
      obtain rfl := Option.some.inj hi'
      have hv' := mem_argVars.2 hv
      exact ⟨h5 p i v hi hn (by simp [Inst.vars, hv']) hin, hn, Or.inl hv'⟩
    · have := (mem_additional inl h3 p v).2 ⟨hin, src, next, i', h1, h2, hn, h7, h8⟩
      exact ⟨h6 p v this, hn, Or.inr this⟩
  · rintro ⟨hb, hn, hv | hv⟩
    · exact Or.inl ⟨h4 v hb, i, hi, hn, mem_argVars.1 hv⟩
    · exact Or.inr ((mem_additional inl h3 p v).1 hv)

/-! ## The whole computation -/

theorem foldl_max_ge : ∀ (ls : List Nat) (m : Nat), m ≤ ls.foldl max m ∧ ∀ l ∈ ls, l ≤ ls.foldl max m
  | [], m => ⟨Nat.le_refl _, by simp⟩
  | x :: ls, m => by
    obtain ⟨h1, h2⟩ := foldl_max_ge ls (max m x)
    rw [List.foldl_cons]
    refine ⟨by omega, ?_⟩
    intro l hl
    simp only [List.mem_cons] at hl
    obtain rfl | hl := hl
    · omega
    · exact h2 l hl

theorem nextUnused_fresh {c : Il.Cfg} : nextUnusedLabel c ∉ c.graph.labels := by
  intro h
  have := (foldl_max_ge c.graph.labels 0).2 _ h
  unfold nextUnusedLabel at this
  omega

theorem lookup_init {σ : Type} {a : Analysis σ} {f : FlowGraph} {l : Nat} (h : l ∈ f.labels) :
    (initBlocks a f).lookup l = some ⟨a.bottom, a.bottom⟩ := by
  have hk : l ∈ (initBlocks a f).map (·.1) := by rwa [keys_init]
  obtain ⟨v, hv⟩ := lookup_some_of_mem hk
  have := at_init (a := a) (f := f) (l := l)
  simp only [at', hv, Option.getD_some] at this
  rw [hv, this]

/-- The analysis stops after looking at the virtual exit. -/
theorem liveness_stuck (lv : Liveness) (c : Il.Cfg) (e : VirtualExit) (n : Nat) :
    runDataflow lv.analysis ⟨c, .backward, some e⟩ e.label (n + 1) =
      some (initBlocks lv.analysis ⟨c, .backward, some e⟩) := by
  have hl : e.label ∈ (FlowGraph.labels ⟨c, .backward, some e⟩) := by
    rw [mem_labels]
    exact Or.inr (Or.inr rfl)
  have hn : newState lv.analysis ⟨c, .backward, some e⟩ e.label
      (initBlocks lv.analysis ⟨c, .backward, some e⟩) e.label = some ⟨0, 0⟩ := by
    simp [newState, FlowGraph.block, FlowGraph.virtualExitLabel, Liveness.analysis, Analysis.applyBlock,
      applyBackward, mkState]
  unfold runDataflow loop
  rw [hn, lookup_init hl]
  have hb : lv.analysis.bottom = 0 := rfl
  simp only [hb, ↓reduceIte]
  cases n <;> rfl

theorem stuck_zero {σ : Type} [DecidableEq σ] {a : Analysis σ} {f : FlowGraph} {bd : Nat} :
    runDataflow a f bd 0 = none := rfl

theorem liveInBlocks_spec {lv : Liveness} {c : Il.Cfg} {r : Blocks BitSet} (hr : ∀ l b, r.lookup l = some b → b.exit = 0) :
    ∀ (ls : List Nat) (live : List (Loc × List Nat)), liveInBlocks lv c r ls = some live →
    ∀ (l k : Nat) (vs : List Nat), ((l, k), vs) ∈ live ↔ l ∈ ls ∧ ∃ is, Cfg.block c l = some is ∧ k < is.length ∧
      lv.inlines.lookup (l, k) = none ∧ vs = lv.toVars (liveInBlock lv l k (is.drop k) 0).1
  | [], live, h, l, k, vs => by
    simp only [liveInBlocks, Option.some.injEq] at h
    subst h
    simp
  | m :: ls, live, h, l, k, vs => by
    simp only [liveInBlocks, Option.bind_eq_bind, Option.bind_eq_some_iff, Option.some.injEq] at h
    obtain ⟨block, hb, rest, hrest, rfl⟩ := h
    have h0 : ((l, k), vs) ∈ (liveInBlock lv m 0 block (match r.lookup m with
        | some b => b.exit
        | none => 0)).2 ↔ ((l, k), vs) ∈ (liveInBlock lv m 0 block 0).2 := by
      cases hl : r.lookup m with
      | none => rfl
      | some b => simp only [hr m b hl]
    refine List.mem_append.trans ?_
    refine (or_congr_left h0).trans ?_
    rw [liveInBlock_out, liveInBlocks_spec hr ls rest hrest]
    simp only [Nat.zero_le, Nat.sub_zero, true_and, List.mem_cons]
    constructor
    · rintro (⟨rfl, h⟩ | ⟨h1, h2⟩)
      · exact ⟨Or.inl rfl, block, hb, h⟩
      · exact ⟨Or.inr h1, h2⟩
    · rintro ⟨rfl | h1, h2⟩
      · left
        obtain ⟨is, his, h3⟩ := h2
        rw [hb] at his
        obtain rfl := Option.some.inj his
        exact ⟨rfl, h3⟩
      · exact Or.inr ⟨h1, h2⟩

theorem localLive_iff {c : Il.Cfg} {inl : Inlines} {inlined : List Nat} {lv : Liveness}
    (h : Liveness.new c inl inlined = some lv) {l k : Nat} {is : List Inst} (hb : Cfg.block c l = some is) (v : Nat) :
    (v ∈ lv.bitToVar ∧ LL lv l v k (is.drop k)) ↔ LocalLive c inl inlined v l k := by
  obtain ⟨h1, h2, h3, h4, h5, h6⟩ := new_spec h
  have hat : ∀ j, instAt c (l, j) = is[j]? := by
    intro j
    simp [instAt, hb]
  have hdrop : ∀ j, k ≤ j → (is.drop k)[j - k]? = is[j]? := by
    intro j hj
    rw [List.getElem?_drop]
    congr 1
    omega
  rw [LL_iff]
  unfold LocalLive
  constructor
  · rintro ⟨hv, j, i, hj, hi, hu, hn⟩
    rw [hdrop j hj] at hi
    have hi' : instAt c (l, j) = some i := by rw [hat, hi]
    refine ⟨j, i, hj, hi', (uses_iff h hi' v).2 ⟨hv, by rw [← h1]; exact hu.1, hu.2⟩, ?_⟩
    rintro m hm1 hm2 ⟨i', hi'', hn', hv'⟩
    refine hn m hm1 hm2 i' ?_ ⟨by rw [h1]; exact hn', hv'⟩
    rw [hdrop m hm1, ← hat, hi'']
  · rintro ⟨j, i, hj, hi, hu, hn⟩
    have hu' := (uses_iff h hi v).1 hu
    refine ⟨hu'.1, j, i, hj, ?_, ⟨by rw [h1]; exact hu'.2.1, hu'.2.2⟩, ?_⟩
    · rw [hdrop j hj, ← hat, hi]
    · rintro m hm1 hm2 i' hi' ⟨hn', hv'⟩
      rw [hdrop m hm1, ← hat] at hi'
      exact hn m hm1 hm2 ⟨i', hi', by rw [← h1]; exact hn', hv'⟩

/-- What `calculate_live_ins` returns. -/
theorem liveIns_spec {c : Il.Cfg} {sinks : List Nat} {inl : Inlines} {inlined : List Nat} {fuel : Nat}
    {live : List (Loc × List Nat)} (h : calculateLiveIns c sinks inl inlined fuel = some live) :
    (∀ l k vs, ((l, k), vs) ∈ live → vs.Nodup ∧ ∀ v, v ∈ vs ↔ LocalLive c inl inlined v l k) ∧
    (∀ l k, (∃ vs, ((l, k), vs) ∈ live) ↔
      l ∈ c.graph.labels ∧ inl.lookup (l, k) = none ∧ ∃ i, instAt c (l, k) = some i) := by
  simp only [calculateLiveIns, Option.bind_eq_bind, Option.bind_eq_some_iff] at h
  obtain ⟨lv, hlv, r, hr, hl⟩ := h
  obtain ⟨n1, n2, n3, n4, n5, n6⟩ := new_spec hlv
  have hz : ∀ l b, r.lookup l = some b → b.exit = 0 := by
    cases fuel with
    | zero => simp [stuck_zero] at hr
    | succ n =>
      rw [liveness_stuck] at hr
      obtain rfl := Option.some.inj hr
      intro l b hb
      have := at_init (a := lv.analysis) (f := ⟨c, .backward, some (calculateVirtualExit c sinks)⟩) (l := l)
      simp only [at', hb, Option.getD_some] at this
      rw [this]
      rfl
  have spec := liveInBlocks_spec hz _ _ hl
  constructor
  · intro l k vs hm
    obtain ⟨_, is, his, hk, _, rfl⟩ := (spec l k vs).1 hm
    refine ⟨nodup_toVars n2, ?_⟩
    intro v
    rw [mem_toVars n2, ← localLive_iff hlv his]
    constructor
    · rintro ⟨hv, hb⟩
      exact ⟨hv, (liveInBlock_state hv l _ k).1 hb⟩
    · rintro ⟨hv, hb⟩
      exact ⟨hv, (liveInBlock_state hv l _ k).2 hb⟩
  · intro l k
    constructor
    · rintro ⟨vs, hm⟩
      obtain ⟨h1, is, his, hk, hn, _⟩ := (spec l k vs).1 hm
      refine ⟨mem_sortLabels.1 h1, by rw [← n1]; exact hn, is[k], ?_⟩
      simp [instAt, his, hk]
    · rintro ⟨h1, hn, i, hi⟩
      simp only [instAt, Option.bind_eq_bind, Option.bind_eq_some_iff] at hi
      obtain ⟨is, his, hi⟩ := hi
      obtain ⟨hk, _⟩ := List.getElem?_eq_some_iff.1 hi
      exact ⟨_, (spec l k _).2 ⟨mem_sortLabels.2 h1, is, his, hk, by rw [n1]; exact hn, rfl⟩⟩

theorem localLive_liveIn {c : Il.Cfg} {inl : Inlines} {inlined : List Nat} {v l : Nat} :
    ∀ (d k j : Nat) (i : Inst), j = k + d → instAt c (l, j) = some i → UsesAt c inl inlined (l, j) v →
    (∀ m : Nat, k ≤ m → m < j → ¬ DefinesAt c inl (l, m) v) → LiveIn c inl inlined v (l, k)
  | 0, k, j, i, e, hi, hu, _ => by
    subst e
    exact .use hi hu
  | d + 1, k, j, i, e, hi, hu, hn => by
    have hk : ∃ i', instAt c (l, k) = some i' := by
      simp only [instAt, Option.bind_eq_bind, Option.bind_eq_some_iff] at hi ⊢
      obtain ⟨is, his, hi⟩ := hi
      obtain ⟨hj, _⟩ := List.getElem?_eq_some_iff.1 hi
      have hk : k < is.length := by omega
      exact ⟨is[k], is, his, by simp [hk]⟩
    obtain ⟨i', hi'⟩ := hk
    exact .next hi' (hn k (Nat.le_refl _) (by omega))
      (localLive_liveIn d (k + 1) j i (by omega) hi hu (fun m h1 h2 => hn m (by omega) h2))

theorem liveIn_local {c : Il.Cfg} {inl : Inlines} {inlined : List Nat} {v : Nat}
    (hx : ∀ l s : Nat, s ∈ c.graph.children l → ¬ LiveIn c inl inlined v (s, 0)) {p : Loc}
    (h : LiveIn c inl inlined v p) : LocalLive c inl inlined v p.1 p.2 := by
  induction h with
  | use hi hu => exact ⟨_, _, Nat.le_refl _, hi, hu, fun m h1 h2 => by omega⟩
  | next hi hd _ ih =>
    obtain ⟨j, i, hj, h1, h2, h3⟩ := ih
    refine ⟨j, i, by simp at hj ⊢; omega, h1, h2, ?_⟩
    intro m hm1 hm2
    simp only at hm1 hj
    rcases Nat.eq_or_lt_of_le hm1 with e | e
    · subst e
      exact hd
    · exact h3 m e hm2
  | jump _ hs hl _ => exact absurd hl (hx _ _ hs)

/-! ## Single-use definitions -/

theorem inlineVars_spec {c : Il.Cfg} : ∀ (vs : List Nat) {inl : Inlines} {inlined : List Nat},
    inlineVars c vs = some (inl, inlined) →
    (inl.map (·.1)).Nodup ∧ ∀ s d : Loc, (s, d) ∈ inl → s.1 = d.1 ∧ s.2 < d.2 ∧ ∃ v, (allDefs c).lookup v = some s
  | [], inl, inlined, h => by
    simp only [inlineVars, Option.some.injEq, Prod.mk.injEq] at h
    obtain ⟨rfl, rfl⟩ := h
    simp
  | v :: vs, inl, inlined, h => by
    simp only [inlineVars, Option.bind_eq_bind, Option.bind_eq_some_iff] at h
    obtain ⟨⟨inl', inlined'⟩, hr, h⟩ := h
    have ih := inlineVars_spec vs hr
    split at h
    · rename_i x dest _
      simp only [Option.bind_eq_some_iff] at h
      obtain ⟨src, hsrc, h⟩ := h
      split at h
      · obtain ⟨rfl, rfl⟩ := Prod.mk.inj (Option.some.inj h)
        exact ih
      · rename_i hne
        simp only [Option.bind_eq_some_iff] at h
        obtain ⟨di, hdi, h⟩ := h
        split at h
        · obtain ⟨rfl, rfl⟩ := Prod.mk.inj (Option.some.inj h)
          exact ih
        · split at h
          · rename_i hlt
            split at h
            · cases h
            · rename_i hno
              obtain ⟨rfl, rfl⟩ := Prod.mk.inj (Option.some.inj h)
              refine ⟨?_, ?_⟩
              · rw [List.map_cons, List.nodup_cons]
                refine ⟨?_, ih.1⟩
                intro hm
                apply hno
                obtain ⟨⟨s, d⟩, hm', e⟩ := List.mem_map.1 hm
                simp only at e
                subst e
                have : ∀ {l : Inlines}, (s, d) ∈ l → (l.lookup s).isSome = true := by
                  intro l
                  induction l with
                  | nil => simp
                  | cons e l ih =>
                    intro hm
                    rw [List.lookup_cons]
                    cases he : (s == e.1) with
                    | true => rfl
                    | false =>
                      simp only
                      apply ih
                      simp only [List.mem_cons] at hm
                      obtain hm | hm := hm
                      · rw [← hm] at he
                        simp at he
                      · exact hm
                exact this hm'
              · intro s d hm
                simp only [List.mem_cons, Prod.mk.injEq] at hm
                obtain ⟨rfl, rfl⟩ | hm := hm
                · exact ⟨by simpa using hne, hlt, v, hsrc⟩
                · exact ih.2 s d hm
          · cases h
    · obtain ⟨rfl, rfl⟩ := Prod.mk.inj (Option.some.inj h)
      exact ih

theorem mem_of_lookupL {β : Type} {k : Loc} {v : β} : ∀ {l : List (Loc × β)}, l.lookup k = some v → (k, v) ∈ l
  | [], h => by simp at h
  | (a, w) :: l, h => by
    rw [List.lookup_cons] at h
    cases e : (k == a) with
    | true =>
      rw [e] at h
      simp only [Option.some.injEq] at h
      have : k = a := by simpa using e
      subst this; subst h
      simp
    | false =>
      rw [e] at h
      exact List.mem_cons_of_mem _ (mem_of_lookupL h)

theorem finalDest_some {inl : Inlines} (hinc : ∀ s d : Loc, (s, d) ∈ inl → s.2 < d.2) :
    ∀ (n : Nat) (d : Loc), (inl.filter (fun e => decide (d.2 ≤ e.1.2))).length < n → ∃ e, finalDest inl n d = some e
  | 0, d, h => by simp at h
  | n + 1, d, h => by
    unfold finalDest
    cases hl : inl.lookup d with
    | none => exact ⟨d, rfl⟩
    | some d' =>
      have hm := mem_of_lookupL hl
      have hlt := hinc d d' hm
      refine finalDest_some hinc n d' (Nat.lt_of_lt_of_le (m := (inl.filter (fun e => decide (d.2 ≤ e.1.2))).length) ?_ (by omega))
      have : inl.filter (fun e => decide (d'.2 ≤ e.1.2)) =
          (inl.filter (fun e => decide (d.2 ≤ e.1.2))).filter (fun e => decide (d'.2 ≤ e.1.2)) := by
        rw [List.filter_filter]
        apply List.filter_congr
        intro e _
        by_cases h1 : d'.2 ≤ e.1.2
        · have : d.2 ≤ e.1.2 := by omega
          simp [h1, this]
        · simp [h1]
      rw [this]
      apply List.length_filter_lt_length_iff_exists.2
      exact ⟨(d, d'), List.mem_filter.2 ⟨hm, by simp⟩, by simp; omega⟩

end Verif.Flow
