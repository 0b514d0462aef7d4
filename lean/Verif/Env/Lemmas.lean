import Verif.Env.Spec
import Mathlib.Tactic.Tauto
/-! Helper lemmas for the environment record theorems. -/

namespace Verif.Env

variable {V : Type}

/-- Strictly sorted by symbol. -/
def Sorted (t : Table V) : Prop := t.Pairwise (fun a b => a.symbol < b.symbol)

theorem Sorted.lt {t : Table V} (h : Sorted t) {i j : Nat} {a b : Binding V}
    (hi : t[i]? = some a) (hj : t[j]? = some b) (hij : i < j) : a.symbol < b.symbol := by
  obtain ⟨hi', rfl⟩ := List.getElem?_eq_some_iff.1 hi
  obtain ⟨hj', rfl⟩ := List.getElem?_eq_some_iff.1 hj
  exact List.pairwise_iff_getElem.1 h i j hi' hj' hij

theorem Sorted.inj {t : Table V} (h : Sorted t) {i j : Nat} {a b : Binding V}
    (hi : t[i]? = some a) (hj : t[j]? = some b) (hs : a.symbol = b.symbol) : i = j := by
  rcases Nat.lt_trichotomy i j with hlt | heq | hgt
  · have := h.lt hi hj hlt; omega
  · exact heq
  · have := h.lt hj hi hgt; omega

/-- What a search over `low..high` guarantees. -/
theorem search_spec {t : Table V} (h : Sorted t) (key : Nat) :
    ∀ (fuel low high : Nat), high - low ≤ fuel → low ≤ high → high ≤ t.length →
      (∀ j b, j < low → t[j]? = some b → b.symbol < key) →
      (∀ j b, high ≤ j → t[j]? = some b → key < b.symbol) →
      match search key t fuel low high with
      | .inl i => ∃ b, t[i]? = some b ∧ b.symbol = key
      | .inr i => i ≤ t.length ∧ (∀ j b, j < i → t[j]? = some b → b.symbol < key) ∧
          (∀ j b, i ≤ j → t[j]? = some b → key < b.symbol) := by
  intro fuel
  induction fuel with
  | zero =>
    intro low high hf hlh hht hlo hhi
    have : low = high := by omega
    subst this
    exact ⟨hht, hlo, hhi⟩
  | succ fuel ih =>
    intro low high hf hlh hht hlo hhi
    rw [search]
    by_cases hlt : low < high
    · rw [if_pos hlt]
      have hm : low + (high - low) / 2 < t.length := by omega
      generalize hmid : low + (high - low) / 2 = mid at *
      have hge : t[mid]? = some t[mid] := List.getElem?_eq_getElem hm
      rw [hge]
      dsimp only
      by_cases h1 : t[mid].symbol < key
      · rw [if_pos h1]
        refine ih (mid + 1) high (by omega) (by omega) hht ?_ hhi
        intro j b hj hb
        rcases Nat.lt_or_ge j mid with hlt' | hge'
        · have := h.lt hb hge hlt'; omega
        · have : j = mid := by omega
          subst this
          rw [hge] at hb
          cases hb
          exact h1
      · rw [if_neg h1]
        by_cases h2 : key < t[mid].symbol
        · rw [if_pos h2]
          refine ih low mid (by omega) (by omega) (by omega) hlo ?_
          intro j b hj hb
          rcases Nat.lt_or_ge mid j with hlt' | hge'
          · have := h.lt hge hb hlt'; omega
          · have : j = mid := by omega
            subst this
            rw [hge] at hb
            cases hb
            exact h2
        · rw [if_neg h2]
          exact ⟨_, hge, by omega⟩
    · rw [if_neg hlt]
      have : low = high := by omega
      subst this
      exact ⟨hht, hlo, hhi⟩

theorem search_full {t : Table V} (h : Sorted t) (key : Nat) :
    match search key t t.length 0 t.length with
    | .inl i => ∃ b, t[i]? = some b ∧ b.symbol = key
    | .inr i => i ≤ t.length ∧ (∀ j b, j < i → t[j]? = some b → b.symbol < key) ∧
        (∀ j b, i ≤ j → t[j]? = some b → key < b.symbol) := by
  refine search_spec h key t.length 0 t.length (by omega) (by omega) (by omega) ?_ ?_
  · intro j b hj; omega
  · intro j b hj hb
    have := (List.getElem?_eq_some_iff.1 hb).1
    omega

theorem symbolIndex_some {t : Table V} (h : Sorted t) {s i : Nat} (hi : symbolIndex t s = some i) :
    ∃ b, t[i]? = some b ∧ b.symbol = s := by
  have hs := search_full h s
  unfold symbolIndex at hi
  cases hq : search s t t.length 0 t.length with
  | inl j =>
    rw [hq] at hi hs
    cases hi
    exact hs
  | inr j => rw [hq] at hi; cases hi

theorem symbolIndex_none {t : Table V} (h : Sorted t) {s : Nat} (hi : symbolIndex t s = none) :
    ∀ (i : Nat) (b : Binding V), t[i]? = some b → b.symbol ≠ s := by
  have hs := search_full h s
  unfold symbolIndex at hi
  cases hq : search s t t.length 0 t.length with
  | inl j => rw [hq] at hi; cases hi
  | inr j =>
    rw [hq] at hs
    intro i b hb
    rcases Nat.lt_or_ge i j with hlt | hge
    · have := hs.2.1 i b hlt hb; omega
    · have := hs.2.2 i b hge hb; omega

theorem nameIndexFrom_some (n : Name) : ∀ (t : Table V) (base i : Nat),
    nameIndexFrom n base t = some i →
      base ≤ i ∧ (∃ b, t[i - base]? = some b ∧ b.name = some n) ∧
      ∀ (j : Nat) (b : Binding V), j < i - base → t[j]? = some b → b.name ≠ some n := by
  intro t
  induction t with
  | nil => intro base i h; cases h
  | cons c t ih =>
    intro base i h
    rw [nameIndexFrom] at h
    by_cases hc : c.name = some n
    · rw [if_pos hc] at h
      cases h
      refine ⟨Nat.le_refl _, ⟨c, by simp, hc⟩, ?_⟩
      intro j b hj; omega
    · rw [if_neg hc] at h
      obtain ⟨hle, ⟨b, hb, hbn⟩, hall⟩ := ih _ _ h
      refine ⟨by omega, ⟨b, ?_, hbn⟩, ?_⟩
      · have : i - base = (i - (base + 1)) + 1 := by omega
        rw [this, List.getElem?_cons_succ]
        exact hb
      · intro j b' hj hb'
        cases j with
        | zero => simp at hb'; subst hb'; exact hc
        | succ j =>
          rw [List.getElem?_cons_succ] at hb'
          exact hall j b' (by omega) hb'

theorem nameIndexFrom_none (n : Name) : ∀ (t : Table V) (base : Nat),
    nameIndexFrom n base t = none → ∀ b ∈ t, b.name ≠ some n := by
  intro t
  induction t with
  | nil => intro _ _ b hb; cases hb
  | cons c t ih =>
    intro base h b hb
    rw [nameIndexFrom] at h
    by_cases hc : c.name = some n
    · rw [if_pos hc] at h; cases h
    · rw [if_neg hc] at h
      rcases List.mem_cons.1 hb with rfl | hb'
      · exact hc
      · exact ih _ h b hb'

theorem store_some {t : Table V} {s : Nat} {c : Cell V} (h : t.store s = some c) :
    ∃ (i : Nat) (b : Binding V), t[i]? = some b ∧ b.symbol = s ∧ b.cell = c := by
  unfold Table.store at h
  rw [Option.map_eq_some_iff] at h
  obtain ⟨b, hb, rfl⟩ := h
  have hm := List.mem_of_find?_eq_some hb
  obtain ⟨i, hi, rfl⟩ := List.mem_iff_getElem.1 hm
  exact ⟨i, _, List.getElem?_eq_getElem hi, by simpa using List.find?_some hb, rfl⟩

theorem store_of_get {t : Table V} (h : Sorted t) {i : Nat} {b : Binding V} (hb : t[i]? = some b) :
    t.store b.symbol = some b.cell := by
  cases hq : t.store b.symbol with
  | none =>
    unfold Table.store at hq
    rw [Option.map_eq_none_iff, List.find?_eq_none] at hq
    exact absurd (decide_eq_true rfl) (hq b (List.mem_of_getElem? hb))
  | some c =>
    obtain ⟨j, b', hj, hs, rfl⟩ := store_some hq
    have := h.inj hj hb hs
    subst this
    rw [hb] at hj
    cases hj
    rfl

theorem store_none {t : Table V} {s : Nat}
    (h : ∀ (i : Nat) (b : Binding V), t[i]? = some b → b.symbol ≠ s) : t.store s = none := by
  cases hq : t.store s with
  | none => rfl
  | some c =>
    obtain ⟨i, b, hi, hs, _⟩ := store_some hq
    exact absurd hs (h i b hi)

theorem Designates.exists_cell {S : Store V} {k : Target} {s : Nat} (h : Designates S k s) :
    ∃ c, S s = some c := by
  cases k with
  | symbol s' => exact Option.isSome_iff_exists.1 h.2
  | name n => exact ⟨_, h.1.choose_spec.1⟩

theorem Designates.unique {S : Store V} {k : Target} {s s' : Nat} (h : Designates S k s)
    (h' : Designates S k s') : s = s' := by
  cases k with
  | symbol s'' => exact h.1.trans h'.1.symm
  | name n =>
    obtain ⟨⟨c, hc, hcn⟩, hmin⟩ := h
    obtain ⟨⟨c', hc', hcn'⟩, hmin'⟩ := h'
    rcases Nat.lt_trichotomy s s' with hlt | heq | hgt
    · exact absurd hcn (hmin' s hlt c hc)
    · exact heq
    · exact absurd hcn' (hmin s' hgt c' hc')

/-- A successful look-up designates the binding found. -/
theorem index_some {t : Table V} (h : Sorted t) {k : Target} {i : Nat} (hi : k.index t = some i) :
    ∃ b, t[i]? = some b ∧ Designates t.store k b.symbol := by
  cases k with
  | symbol s =>
    obtain ⟨b, hb, hs⟩ := symbolIndex_some h hi
    exact ⟨b, hb, hs, by rw [store_of_get h hb]; rfl⟩
  | name n =>
    obtain ⟨_, ⟨b, hb, hbn⟩, hall⟩ := nameIndexFrom_some n t 0 i hi
    simp only [Nat.sub_zero] at hb hall
    refine ⟨b, hb, ⟨b.cell, store_of_get h hb, hbn⟩, ?_⟩
    intro s' hlt c hc
    obtain ⟨j, b', hj, rfl, rfl⟩ := store_some hc
    refine hall j b' ?_ hj
    rcases Nat.lt_trichotomy j i with hlt' | heq | hgt
    · exact hlt'
    · subst heq; rw [hb] at hj; cases hj; omega
    · have := h.lt hb hj hgt; omega

/-- A failed look-up means nothing is designated. -/
theorem index_none {t : Table V} (h : Sorted t) {k : Target} (hi : k.index t = none) :
    Unbound t.store k := by
  intro s hd
  obtain ⟨c, hc⟩ := hd.exists_cell
  obtain ⟨j, b, hj, rfl, rfl⟩ := store_some hc
  cases k with
  | symbol s => exact symbolIndex_none h hi j b hj hd.1
  | name n =>
    obtain ⟨⟨c, hc', hn⟩, _⟩ := hd
    rw [hc] at hc'
    cases hc'
    exact nameIndexFrom_none n t 0 hi b (List.mem_of_getElem? hj) hn

theorem sorted_set {t : Table V} (h : Sorted t) {i : Nat} {b b' : Binding V} (hb : t[i]? = some b)
    (hs : b'.symbol = b.symbol) : Sorted (t.set i b') := by
  refine List.pairwise_iff_getElem.2 ?_
  intro x y hx hy hxy
  simp only [List.length_set] at hx hy
  have hi := List.getElem?_eq_some_iff.1 hb
  have hlt := List.pairwise_iff_getElem.1 h x y hx hy hxy
  rw [List.getElem_set, List.getElem_set]
  by_cases h1 : i = x
  · subst h1
    have h2 : ¬ i = y := by omega
    rw [if_pos rfl, if_neg h2, hs, ← hi.2]
    exact hlt
  · rw [if_neg h1]
    by_cases h2 : i = y
    · subst h2
      rw [if_pos rfl, hs, ← hi.2]
      exact hlt
    · rw [if_neg h2]; exact hlt

theorem store_set {t : Table V} (h : Sorted t) {i : Nat} {b b' : Binding V} (hb : t[i]? = some b)
    (hs : b'.symbol = b.symbol) :
    Table.store (t.set i b') = t.store.put b.symbol b'.cell := by
  have hil := (List.getElem?_eq_some_iff.1 hb).1
  have h' := sorted_set h hb hs
  have hb' : (t.set i b')[i]? = some b' := by rw [List.getElem?_set_self hil]
  funext s
  unfold Store.put
  by_cases hsb : s = b.symbol
  · rw [if_pos hsb, hsb, ← hs]
    exact store_of_get h' hb'
  · rw [if_neg hsb]
    cases hq : t.store s with
    | none =>
      refine store_none ?_
      intro j c hj
      by_cases hji : j = i
      · subst hji
        rw [hb'] at hj
        cases hj
        rw [hs]
        exact fun e => hsb e.symm
      · rw [List.getElem?_set_ne (fun e => hji e.symm)] at hj
        intro hcs
        rw [← hcs, store_of_get h hj] at hq
        cases hq
    | some c =>
      obtain ⟨j, b2, hj, rfl, rfl⟩ := store_some hq
      have hji : i ≠ j := by
        rintro rfl
        rw [hb] at hj
        cases hj
        exact hsb rfl
      have : (t.set i b')[j]? = some b2 := by rw [List.getElem?_set_ne hji]; exact hj
      exact store_of_get h' this

theorem insert_get {t : Table V} {i : Nat} (hi : i ≤ t.length) (b : Binding V) (j : Nat) :
    (t.take i ++ b :: t.drop i)[j]? =
      if j < i then t[j]? else if j = i then some b else t[j - 1]? := by
  by_cases h1 : j < i
  · rw [if_pos h1, List.getElem?_append_left (by simp; omega), List.getElem?_take_of_lt h1]
  · rw [if_neg h1, List.getElem?_append_right (by simp; omega)]
    have hl : (t.take i).length = i := by simp; omega
    rw [hl]
    by_cases h2 : j = i
    · subst h2; simp
    · rw [if_neg h2]
      have : j - i = (j - i - 1) + 1 := by omega
      rw [this, List.getElem?_cons_succ, List.getElem?_drop]
      congr 1
      omega

theorem sorted_insert {t : Table V} (h : Sorted t) {i : Nat} (hi : i ≤ t.length) {b : Binding V}
    (hlo : ∀ j c, j < i → t[j]? = some c → c.symbol < b.symbol)
    (hhi : ∀ j c, i ≤ j → t[j]? = some c → b.symbol < c.symbol) :
    Sorted (t.take i ++ b :: t.drop i) := by
  unfold Sorted
  rw [List.pairwise_append, List.pairwise_cons]
  refine ⟨h.sublist (List.take_sublist _ _), ⟨?_, h.sublist (List.drop_sublist _ _)⟩, ?_⟩
  · intro c hc
    obtain ⟨j, hj⟩ := List.mem_iff_getElem?.1 hc
    rw [List.getElem?_drop] at hj
    exact hhi _ c (by omega) hj
  · intro c hc d hd
    obtain ⟨j, hj⟩ := List.mem_iff_getElem?.1 hc
    have hji : j < i := by
      have := (List.getElem?_eq_some_iff.1 hj).1
      simp at this
      omega
    rw [List.getElem?_take_of_lt hji] at hj
    have h1 := hlo j c hji hj
    rcases List.mem_cons.1 hd with rfl | hd
    · exact h1
    · obtain ⟨x, hx⟩ := List.mem_iff_getElem?.1 hd
      rw [List.getElem?_drop] at hx
      have := hhi _ d (by omega) hx
      omega

theorem store_insert {t : Table V} (h : Sorted t) {i : Nat} (hi : i ≤ t.length) {b : Binding V}
    (hlo : ∀ j c, j < i → t[j]? = some c → c.symbol < b.symbol)
    (hhi : ∀ j c, i ≤ j → t[j]? = some c → b.symbol < c.symbol) :
    Table.store (t.take i ++ b :: t.drop i) = t.store.put b.symbol b.cell := by
  have h' := sorted_insert h hi hlo hhi
  funext s
  unfold Store.put
  by_cases hsb : s = b.symbol
  · rw [if_pos hsb, hsb]
    refine store_of_get (i := i) h' ?_
    rw [insert_get hi]; simp
  · rw [if_neg hsb]
    cases hq : t.store s with
    | none =>
      refine store_none ?_
      intro j c hj hcs
      rw [insert_get hi] at hj
      by_cases h1 : j < i
      · rw [if_pos h1] at hj
        rw [← hcs, store_of_get h hj] at hq
        cases hq
      · rw [if_neg h1] at hj
        by_cases h2 : j = i
        · rw [if_pos h2] at hj
          cases hj
          exact hsb hcs.symm
        · rw [if_neg h2] at hj
          rw [← hcs, store_of_get h hj] at hq
          cases hq
    | some c =>
      obtain ⟨j, b2, hj, rfl, rfl⟩ := store_some hq
      by_cases h1 : j < i
      · exact store_of_get (i := j) h' (by rw [insert_get hi, if_pos h1]; exact hj)
      · refine store_of_get (i := j + 1) h' ?_
        rw [insert_get hi, if_neg (by omega), if_neg (by omega)]
        exact hj

/-! ## Creation of records -/

theorem mem_insertSorted (b c : Binding V) : ∀ t : Table V,
    c ∈ insertSorted b t ↔ c = b ∨ c ∈ t := by
  intro t
  induction t with
  | nil => simp [insertSorted]
  | cons d t ih =>
    rw [insertSorted]
    by_cases h : b.symbol < d.symbol
    · simp [if_pos h]
    · rw [if_neg h, List.mem_cons, ih, List.mem_cons]
      tauto

theorem mem_sortFold (c : Binding V) : ∀ (bs : List (Binding V)) (t : Table V),
    c ∈ bs.foldl (fun t b => insertSorted b t) t ↔ c ∈ bs ∨ c ∈ t := by
  intro bs
  induction bs with
  | nil => simp
  | cons b bs ih =>
    intro t
    rw [List.foldl_cons, ih, mem_insertSorted, List.mem_cons]
    tauto

theorem mem_sortTable (c : Binding V) (bs : List (Binding V)) : c ∈ sortTable bs ↔ c ∈ bs := by
  rw [sortTable, mem_sortFold]; simp

theorem perm_insertSorted (b : Binding V) : ∀ t : Table V, (insertSorted b t).Perm (b :: t) := by
  intro t
  induction t with
  | nil => exact .refl _
  | cons d t ih =>
    rw [insertSorted]
    by_cases h : b.symbol < d.symbol
    · rw [if_pos h]
    · rw [if_neg h]
      exact (ih.cons d).trans (.swap _ _ _)

theorem perm_sortFold : ∀ (bs : List (Binding V)) (t : Table V),
    (bs.foldl (fun t b => insertSorted b t) t).Perm (bs ++ t) := by
  intro bs
  induction bs with
  | nil => intro t; exact .refl _
  | cons b bs ih =>
    intro t
    rw [List.foldl_cons]
    refine (ih _).trans ?_
    refine ((perm_insertSorted b t).append_left bs).trans ?_
    exact List.perm_middle

theorem perm_sortTable (bs : List (Binding V)) : (sortTable bs).Perm bs := by
  have := perm_sortFold bs []
  rwa [List.append_nil] at this

theorem le_insertSorted (b : Binding V) : ∀ t : Table V,
    t.Pairwise (fun a b => a.symbol ≤ b.symbol) →
      (insertSorted b t).Pairwise (fun a b => a.symbol ≤ b.symbol) := by
  intro t
  induction t with
  | nil => intro _; simp [insertSorted]
  | cons d t ih =>
    intro h
    rw [insertSorted]
    rw [List.pairwise_cons] at h
    by_cases hbd : b.symbol < d.symbol
    · rw [if_pos hbd, List.pairwise_cons, List.pairwise_cons]
      refine ⟨?_, h⟩
      intro c hc
      rcases List.mem_cons.1 hc with rfl | hc
      · omega
      · have := h.1 c hc; omega
    · rw [if_neg hbd, List.pairwise_cons]
      refine ⟨?_, ih h.2⟩
      intro c hc
      rcases (mem_insertSorted b c t).1 hc with rfl | hc
      · omega
      · exact h.1 c hc

theorem le_sortFold : ∀ (bs : List (Binding V)) (t : Table V),
    t.Pairwise (fun a b => a.symbol ≤ b.symbol) →
      (bs.foldl (fun t b => insertSorted b t) t).Pairwise (fun a b => a.symbol ≤ b.symbol) := by
  intro bs
  induction bs with
  | nil => intro t h; exact h
  | cons b bs ih => intro t h; exact ih _ (le_insertSorted b t h)

theorem strict_of_noAdjacent : ∀ t : Table V, t.Pairwise (fun a b => a.symbol ≤ b.symbol) →
    (hasAdjacentDuplicate t = false ↔ Sorted t) := by
  intro t
  induction t with
  | nil => intro _; simp [hasAdjacentDuplicate, Sorted]
  | cons a t ih =>
    intro h
    cases t with
    | nil => simp [hasAdjacentDuplicate, Sorted]
    | cons b t =>
      rw [hasAdjacentDuplicate]
      rw [List.pairwise_cons] at h
      have hb := ih h.2
      unfold Sorted at hb ⊢
      rw [List.pairwise_cons, Bool.or_eq_false_iff, hb]
      constructor
      · rintro ⟨h1, h2⟩
        refine ⟨?_, h2⟩
        have hab := h.1 b (by simp)
        have hne : a.symbol ≠ b.symbol := by simpa using h1
        intro c hc
        rcases List.mem_cons.1 hc with rfl | hc
        · omega
        · have := (List.pairwise_cons.1 h2).1 c hc; omega
      · rintro ⟨h1, h2⟩
        refine ⟨?_, h2⟩
        have := h1 b (by simp)
        simp; omega

theorem sorted_sortTable {bs : List (Binding V)} (h : hasAdjacentDuplicate (sortTable bs) = false) :
    Sorted (sortTable bs) :=
  (strict_of_noAdjacent _ (le_sortFold bs [] List.Pairwise.nil)).1 h

theorem allocRecord_ok {bs : List (Binding V)} {oom : Bool} {t : Table V}
    (h : allocRecord bs oom = .ok t) :
    oom = false ∧ t = sortTable bs ∧ hasAdjacentDuplicate (sortTable bs) = false := by
  unfold allocRecord at h
  cases oom with
  | true => simp at h
  | false =>
    cases hd : hasAdjacentDuplicate (sortTable bs) with
    | true => simp [hd] at h
    | false => simp [hd] at h; exact ⟨rfl, h.symm, rfl⟩

theorem noAdjacent_iff_nodup (bs : List (Binding V)) :
    hasAdjacentDuplicate (sortTable bs) = false ↔ (bs.map (·.symbol)).Nodup := by
  rw [strict_of_noAdjacent (sortTable bs) (le_sortFold bs [] List.Pairwise.nil)]
  have hp : (bs.map (·.symbol)).Nodup ↔ ((sortTable bs).map (·.symbol)).Nodup :=
    ((perm_sortTable bs).map (·.symbol)).nodup_iff.symm
  rw [hp]
  have hle := le_sortFold bs [] List.Pairwise.nil
  constructor
  · intro h
    rw [List.nodup_iff_pairwise_ne, List.pairwise_map]
    exact h.imp (fun hab => Nat.ne_of_lt hab)
  · intro h
    rw [List.nodup_iff_pairwise_ne, List.pairwise_map] at h
    exact (hle.and h).imp (fun hab => Nat.lt_of_le_of_ne hab.1 hab.2)

/-! ## One operation refines the specification -/

theorem has_iff {t : Table V} (h : Sorted t) (k : Target) :
    (has t k = true ∧ ∃ s, Designates t.store k s) ∨ (has t k = false ∧ Unbound t.store k) := by
  unfold has
  cases hi : k.index t with
  | none => exact .inr ⟨rfl, index_none h hi⟩
  | some i =>
    obtain ⟨b, _, hd⟩ := index_some h hi
    exact .inl ⟨rfl, _, hd⟩

theorem step_refines (undef : V) {t : Table V} (h : Sorted t) (op : Op V) :
    Sorted (step undef t op).2 ∧
      Steps t.store op (step undef t op).1 (Table.store (step undef t op).2) := by
  cases op with
  | has k =>
    refine ⟨h, ?_⟩
    simp only [step]
    rcases has_iff h k with ⟨hk, s, hd⟩ | ⟨hk, hu⟩
    · rw [hk]; exact .has_true hd
    · rw [hk]; exact .has_false hu
  | get k =>
    refine ⟨h, ?_⟩
    simp only [step, get]
    cases hi : k.index t with
    | none => exact .get_unbound (index_none h hi)
    | some i =>
      obtain ⟨b, hb, hd⟩ := index_some h hi
      simp only [hb]
      have hc := store_of_get h hb
      cases hini : b.initialized with
      | true => exact .get hd hc (by simp [Binding.cell, hini])
      | false => exact .get_tdz hd hc (by simp [Binding.cell, hini])
  | init k v =>
    simp only [step, initBinding]
    cases hi : k.index t with
    | none => exact ⟨h, .init_unbound (index_none h hi)⟩
    | some i =>
      obtain ⟨b, hb, hd⟩ := index_some h hi
      simp only [hb]
      have hc := store_of_get h hb
      cases hini : b.initialized with
      | true => exact ⟨h, .init_again (w := b.value) hd hc (by simp [Binding.cell, hini])⟩
      | false =>
        simp only [Bool.false_eq_true, if_false]
        have hs := store_set (b' := { b with value := v, initialized := true }) h hb rfl
        refine ⟨sorted_set h hb rfl, ?_⟩
        rw [hs]
        have := Steps.init (v := v) hd hc (by simp [Binding.cell, hini])
        exact this
  | set k v =>
    simp only [step, setMutable]
    cases hi : k.index t with
    | none => exact ⟨h, .set_unbound (index_none h hi)⟩
    | some i =>
      obtain ⟨b, hb, hd⟩ := index_some h hi
      simp only [hb]
      have hc := store_of_get h hb
      cases hini : b.initialized with
      | false => exact ⟨h, .set_tdz hd hc (by simp [Binding.cell, hini])⟩
      | true =>
        simp only [Bool.not_true, Bool.false_eq_true, if_false]
        cases hm : b.mutable with
        | false =>
          exact ⟨h, .set_const (w := b.value) hd hc (by simp [Binding.cell, hini]) hm⟩
        | true =>
          simp only [Bool.not_true, Bool.false_eq_true, if_false]
          have hs := store_set (b' := { b with value := v }) h hb rfl
          have hs' := sorted_set (b' := { b with value := v }) h hb rfl
          have := Steps.set (v := v) (w := b.value) hd hc (by simp [Binding.cell, hini]) hm
          simp only [hm, hini] at hs hs'
          refine ⟨hs', ?_⟩
          rw [hs]
          simpa [Binding.cell, hini, hm] using this
  | create n m s oom =>
    simp only [step, createBinding]
    rcases has_iff h (.name n) with ⟨hk, s', hd⟩ | ⟨hk, hu⟩
    · rw [hk]; exact ⟨h, .create_name_exists hd⟩
    · rw [hk]
      simp only [Bool.false_eq_true, if_false, addBinding]
      cases oom with
      | true => exact ⟨h, .create_oom hu⟩
      | false =>
        simp only [Bool.false_eq_true, if_false]
        have hs := search_full h s
        cases hq : search s t t.length 0 t.length with
        | inl i =>
          rw [hq] at hs
          obtain ⟨b, hb, rfl⟩ := hs
          exact ⟨h, .create_symbol_exists hu (by rw [store_of_get h hb]; rfl)⟩
        | inr i =>
          rw [hq] at hs
          obtain ⟨hle, hlo, hhi⟩ := hs
          refine ⟨sorted_insert h hle hlo hhi, ?_⟩
          simp only
          rw [store_insert h hle hlo hhi]
          refine .create hu (store_none ?_)
          intro j c hj hcs
          rcases Nat.lt_or_ge j i with hlt | hge
          · have := hlo j c hlt hj; omega
          · have := hhi j c hge hj; omega

theorem Reachable.sorted {undef : V} {t : Table V} (h : Reachable undef t) : Sorted t := by
  induction h with
  | alloc ha =>
    obtain ⟨_, rfl, hd⟩ := allocRecord_ok ha
    exact sorted_sortTable hd
  | step _ ih => exact (step_refines _ ih _).1

theorem run_refines (undef : V) : ∀ (ops : List (Op V)) {t : Table V}, Sorted t →
    Sorted (run undef t ops).2 ∧
      StepsList t.store ops (run undef t ops).1 (Table.store (run undef t ops).2) := by
  intro ops
  induction ops with
  | nil => intro t h; exact ⟨h, .nil⟩
  | cons op ops ih =>
    intro t h
    obtain ⟨h1, hs⟩ := step_refines undef h op
    obtain ⟨h2, hs2⟩ := ih h1
    exact ⟨h2, .cons hs hs2⟩

theorem Reachable.run {undef : V} : ∀ (ops : List (Op V)) {t : Table V}, Reachable undef t →
    Reachable undef (run undef t ops).2 := by
  intro ops
  induction ops with
  | nil => intro t h; exact h
  | cons op ops ih => intro t h; exact ih (.step h)

/-! ## Facts about the specification -/

/-- A binding, once it exists, keeps its name and its mutability, and stays designated by whatever
designates it. -/
theorem Steps.keeps {S S' : Store V} {op : Op V} {r : Res V} (h : Steps S op r S') {s : Nat}
    {c : Cell V} (hc : S s = some c) :
    ∃ c', S' s = some c' ∧ c'.name = c.name ∧ c'.mutable = c.mutable := by
  cases h with
  | init hd hc1 hv0 =>
    rename_i s1 c1 v
    by_cases hs : s = s1
    · subst hs
      rw [hc] at hc1
      cases hc1
      exact ⟨_, if_pos rfl, rfl, rfl⟩
    · exact ⟨c, by rw [Store.put, if_neg hs]; exact hc, rfl, rfl⟩
  | set hd hc1 hv0 hm0 =>
    rename_i s1 c1 v w
    by_cases hs : s = s1
    · subst hs
      rw [hc] at hc1
      cases hc1
      exact ⟨_, if_pos rfl, rfl, rfl⟩
    · exact ⟨c, by rw [Store.put, if_neg hs]; exact hc, rfl, rfl⟩
  | create hu hn =>
    rename_i n m s1
    by_cases hs : s = s1
    · subst hs; rw [hn] at hc; cases hc
    · exact ⟨c, by rw [Store.put, if_neg hs]; exact hc, rfl, rfl⟩
  | _ => exact ⟨c, hc, rfl, rfl⟩

/-- Designation is permanent. -/
theorem Steps.designates {S S' : Store V} {op : Op V} {r : Res V} (h : Steps S op r S')
    {k : Target} {s : Nat} (hd : Designates S k s) : Designates S' k s := by
  cases k with
  | symbol s' =>
    obtain ⟨c, hc⟩ := hd.exists_cell
    obtain ⟨c', hc', _⟩ := h.keeps hc
    exact ⟨hd.1, by rw [hc']; rfl⟩
  | name n =>
    obtain ⟨⟨c, hc, hn⟩, hmin⟩ := id hd
    obtain ⟨c', hc', hn', _⟩ := h.keeps hc
    refine ⟨⟨c', hc', hn'.trans hn⟩, ?_⟩
    intro s' hlt d hd' hdn
    cases h with
    | init hd1 hc1 hv0 =>
      rename_i s1 c1 v
      by_cases hs : s' = s1
      · subst hs
        rw [Store.put, if_pos rfl] at hd'
        cases hd'
        exact hmin s' hlt c1 hc1 hdn
      · rw [Store.put, if_neg hs] at hd'
        exact hmin s' hlt d hd' hdn
    | set hd1 hc1 hv0 hm0 =>
      rename_i s1 c1 v w
      by_cases hs : s' = s1
      · subst hs
        rw [Store.put, if_pos rfl] at hd'
        cases hd'
        exact hmin s' hlt c1 hc1 hdn
      · rw [Store.put, if_neg hs] at hd'
        exact hmin s' hlt d hd' hdn
    | create hu hn1 =>
      rename_i n1 m s1
      by_cases hs : s' = s1
      · subst hs
        rw [Store.put, if_pos rfl] at hd'
        cases hd'
        cases hdn
        exact hu _ hd
      · rw [Store.put, if_neg hs] at hd'
        exact hmin s' hlt d hd' hdn
    | _ => exact hmin s' hlt d hd' hdn

/-- A value changes only by a successful write through a target that designates the binding. -/
theorem Steps.value_eq {S S' : Store V} {op : Op V} {r : Res V} (h : Steps S op r S') {s : Nat}
    {c : Cell V} (hc : S s = some c)
    (hw : ∀ k, op.writes = some k → Designates S k s → r ≠ .done) :
    S' s = some c := by
  cases h with
  | init hd hc1 hv0 =>
    rename_i k s1 c1 v
    by_cases hs : s = s1
    · subst hs; exact absurd rfl (hw k rfl hd)
    · rw [Store.put, if_neg hs]; exact hc
  | set hd hc1 hv0 hm0 =>
    rename_i k s1 c1 v w
    by_cases hs : s = s1
    · subst hs; exact absurd rfl (hw k rfl hd)
    · rw [Store.put, if_neg hs]; exact hc
  | create hu hn =>
    rename_i n m s1
    by_cases hs : s = s1
    · subst hs; rw [hn] at hc; cases hc
    · rw [Store.put, if_neg hs]; exact hc
  | _ => exact hc

theorem Steps.tdz_eq {S S' : Store V} {op : Op V} {r : Res V} (h : Steps S op r S') {s : Nat}
    {c : Cell V} (hc : S s = some c) (hv : c.value = none)
    (hw : ∀ k v, op = .init k v → Designates S k s → r ≠ .done) :
    S' s = some c := by
  cases h with
  | init hd hc1 hv0 =>
    rename_i k s1 c1 v
    by_cases hs : s = s1
    · subst hs; exact absurd rfl (hw k v rfl hd)
    · rw [Store.put, if_neg hs]; exact hc
  | set hd hc1 hv1 hm0 =>
    rename_i k s1 c1 v w
    by_cases hs : s = s1
    · subst hs
      rw [hc] at hc1
      cases hc1
      rw [hv] at hv1
      cases hv1
    · rw [Store.put, if_neg hs]; exact hc
  | create hu hn =>
    rename_i n m s1
    by_cases hs : s = s1
    · subst hs; rw [hn] at hc; cases hc
    · rw [Store.put, if_neg hs]; exact hc
  | _ => exact hc

theorem Steps.const_eq {S S' : Store V} {op : Op V} {r : Res V} (h : Steps S op r S') {s : Nat}
    {c : Cell V} {w : V} (hc : S s = some c) (hv : c.value = some w) (hm : c.mutable = false) :
    S' s = some c := by
  cases h with
  | init hd hc1 hv1 =>
    rename_i k s1 c1 v
    by_cases hs : s = s1
    · subst hs
      rw [hc] at hc1
      cases hc1
      rw [hv] at hv1
      cases hv1
    · rw [Store.put, if_neg hs]; exact hc
  | set hd hc1 hv1 hm1 =>
    rename_i k s1 c1 v w
    by_cases hs : s = s1
    · subst hs
      rw [hc] at hc1
      cases hc1
      rw [hm] at hm1
      cases hm1
    · rw [Store.put, if_neg hs]; exact hc
  | create hu hn =>
    rename_i n m s1
    by_cases hs : s = s1
    · subst hs; rw [hn] at hc; cases hc
    · rw [Store.put, if_neg hs]; exact hc
  | _ => exact hc

/-- What the operations answer on a designated binding. -/
theorem Steps.get_iff {S S' : Store V} {k : Target} {r : Res V} (h : Steps S (.get k) r S') {s : Nat}
    {c : Cell V} (hd : Designates S k s) (hc : S s = some c) :
    r = match c.value with | some v => .value v | none => .tdz := by
  cases h with
  | get hd' hc' hv => cases hd.unique hd'; rw [hc] at hc'; cases hc'; simp only [hv]
  | get_tdz hd' hc' hv => cases hd.unique hd'; rw [hc] at hc'; cases hc'; simp only [hv]
  | get_unbound hu => exact absurd hd (hu s)

theorem Steps.set_iff {S S' : Store V} {k : Target} {v : V} {r : Res V}
    (h : Steps S (.set k v) r S') {s : Nat}
    {c : Cell V} (hd : Designates S k s) (hc : S s = some c) :
    r = match c.value with
      | some _ => if c.mutable then .done else .constAssign
      | none => .tdz := by
  cases h with
  | set hd' hc' hv hm => cases hd.unique hd'; rw [hc] at hc'; cases hc'; simp [hv, hm]
  | set_const hd' hc' hv hm => cases hd.unique hd'; rw [hc] at hc'; cases hc'; simp [hv, hm]
  | set_tdz hd' hc' hv => cases hd.unique hd'; rw [hc] at hc'; cases hc'; simp only [hv]
  | set_unbound hu => exact absurd hd (hu s)

theorem Steps.init_iff {S S' : Store V} {k : Target} {v : V} {r : Res V}
    (h : Steps S (.init k v) r S') {s : Nat}
    {c : Cell V} (hd : Designates S k s) (hc : S s = some c) :
    r = match c.value with | some _ => .alreadyInitialized | none => .done := by
  cases h with
  | init hd' hc' hv => cases hd.unique hd'; rw [hc] at hc'; cases hc'; simp only [hv]
  | init_again hd' hc' hv => cases hd.unique hd'; rw [hc] at hc'; cases hc'; simp only [hv]
  | init_unbound hu => exact absurd hd (hu s)

/-- After a successful write the binding written holds the value. -/
theorem Steps.done_write {S S' : Store V} {k : Target} {v : V} {op : Op V}
    (hop : op = .init k v ∨ op = .set k v) (h : Steps S op .done S') :
    ∃ s c, Designates S k s ∧ S' s = some c ∧ c.value = some v := by
  rcases hop with rfl | rfl
  · cases h with
    | init hd hc hv => exact ⟨_, _, hd, if_pos rfl, rfl⟩
  · cases h with
    | set hd hc hv hm => exact ⟨_, _, hd, if_pos rfl, rfl⟩

/-! ## Lifting to sequences -/

theorem run_designates (undef : V) {k : Target} {s : Nat} : ∀ (ops : List (Op V)) {t : Table V},
    Sorted t → Designates t.store k s →
      Designates (Table.store (run undef t ops).2) k s := by
  intro ops
  induction ops with
  | nil => intro t _ h; exact h
  | cons op ops ih =>
    intro t hs hd
    obtain ⟨h1, h2⟩ := step_refines undef hs op
    exact ih h1 (h2.designates hd)

theorem run_value (undef : V) {s : Nat} {c : Cell V} : ∀ (ops : List (Op V)) {t : Table V},
    Sorted t → t.store s = some c → NoWrite undef s t ops →
      Table.store (run undef t ops).2 s = some c := by
  intro ops
  induction ops with
  | nil => intro t _ h _; exact h
  | cons op ops ih =>
    intro t hs hc hn
    obtain ⟨h1, h2⟩ := step_refines undef hs op
    exact ih h1 (h2.value_eq hc hn.1) hn.2

theorem run_tdz (undef : V) {s : Nat} {c : Cell V} (hv : c.value = none) :
    ∀ (ops : List (Op V)) {t : Table V},
    Sorted t → t.store s = some c → NoInit undef s t ops →
      Table.store (run undef t ops).2 s = some c := by
  intro ops
  induction ops with
  | nil => intro t _ h _; exact h
  | cons op ops ih =>
    intro t hs hc hn
    obtain ⟨h1, h2⟩ := step_refines undef hs op
    exact ih h1 (h2.tdz_eq hc hv hn.1) hn.2

theorem run_const (undef : V) {s : Nat} {c : Cell V} {w : V} (hv : c.value = some w)
    (hm : c.mutable = false) : ∀ (ops : List (Op V)) {t : Table V},
    Sorted t → t.store s = some c → Table.store (run undef t ops).2 s = some c := by
  intro ops
  induction ops with
  | nil => intro t _ h; exact h
  | cons op ops ih =>
    intro t hs hc
    obtain ⟨h1, h2⟩ := step_refines undef hs op
    exact ih h1 (h2.const_eq hc hv hm)

/-- Being initialised is permanent. -/
theorem run_initialised (undef : V) {s : Nat} : ∀ (ops : List (Op V)) {t : Table V} {c : Cell V},
    Sorted t → t.store s = some c → c.value.isSome →
      ∃ c', Table.store (run undef t ops).2 s = some c' ∧ c'.value.isSome := by
  intro ops
  induction ops with
  | nil => intro t c _ h h'; exact ⟨c, h, h'⟩
  | cons op ops ih =>
    intro t c hs hc hv
    obtain ⟨h1, h2⟩ := step_refines undef hs op
    obtain ⟨c', hc', hv'⟩ : ∃ c', Table.store (step undef t op).2 s = some c' ∧ c'.value.isSome := by
      generalize Table.store (step undef t op).2 = S' at h2 ⊢
      generalize (step undef t op).1 = r at h2
      cases h2 with
      | init hd hc1 hv1 =>
        rename_i k s1 c1 v
        by_cases hs : s = s1
        · subst hs; exact ⟨_, if_pos rfl, rfl⟩
        · exact ⟨c, by rw [Store.put, if_neg hs]; exact hc, hv⟩
      | set hd hc1 hv1 hm1 =>
        rename_i k s1 c1 v w
        by_cases hs : s = s1
        · subst hs; exact ⟨_, if_pos rfl, rfl⟩
        · exact ⟨c, by rw [Store.put, if_neg hs]; exact hc, hv⟩
      | create hu hn =>
        rename_i n m s1
        by_cases hs : s = s1
        · subst hs; rw [hn] at hc; cases hc
        · exact ⟨c, by rw [Store.put, if_neg hs]; exact hc, hv⟩
      | _ => exact ⟨c, hc, hv⟩
    exact ih h1 hc' hv'

end Verif.Env
