import Verif.Types.Intern
import Verif.Rename.Scope
import Verif.Names.Lemmas
/-!
# Lemmas: interning
-/

namespace Verif.Types
open Verif.Rename (lookup_none_iff mem_of_lookup lookup_of_mem nodup_key)

section
variable {I V : Type} [BEq I] [LawfulBEq I] [DecidableEq V] {mk : V → Nat → I}

/-- Everything in `m` is still in `m'`. -/
def Ext (m m' : List (I × V)) : Prop := ∀ (i : I) (v : V), m.lookup i = some v → m'.lookup i = some v

/-- The first `k` identifiers tried for `v` are taken by other values. -/
def Probed (mk : V → Nat → I) (m : List (I × V)) (v : V) (k : Nat) : Prop :=
  ∀ j, j < k → ∃ w, w ≠ v ∧ m.lookup (mk v (saltAt j)) = some w

/-- Every value sits at the first identifier that was not taken by another one. -/
structure MapOk (mk : V → Nat → I) (m : List (I × V)) : Prop where
  nodup : (m.map Prod.fst).Nodup
  probed : ∀ (i : I) (v : V), m.lookup i = some v → ∃ k, i = mk v (saltAt k) ∧ Probed mk m v k

omit [DecidableEq V] in
theorem Ext.refl (m : List (I × V)) : Ext m m := fun _ _ h => h

omit [DecidableEq V] in
theorem Ext.trans {a b c : List (I × V)} (h1 : Ext a b) (h2 : Ext b c) : Ext a c :=
  fun i v h => h2 i v (h1 i v h)

omit [DecidableEq V] in
theorem Probed.ext {m m' : List (I × V)} {v : V} {k : Nat} (h : Probed mk m v k) (he : Ext m m') :
    Probed mk m' v k := fun j hj => by
  obtain ⟨w, hw, hl⟩ := h j hj
  exact ⟨w, hw, he _ _ hl⟩

omit [DecidableEq V] in
theorem mapOk_nil : MapOk mk ([] : List (I × V)) := ⟨by simp, fun _ _ h => by cases h⟩

omit [DecidableEq V] in
theorem ext_cons {m : List (I × V)} {i : I} {v : V} (h : m.lookup i = none) : Ext m ((i, v) :: m) := by
  intro j w hj
  rw [List.lookup_cons]
  by_cases e : j = i
  · subst e; rw [h] at hj; cases hj
  · rw [show (j == i) = false by simpa using e]; exact hj

omit [DecidableEq V] in
theorem MapOk.inj {m : List (I × V)} (h : MapOk mk m) {i j : I} {v : V} (hi : m.lookup i = some v)
    (hj : m.lookup j = some v) : i = j := by
  obtain ⟨k, hk, pk⟩ := h.probed i v hi
  obtain ⟨l, hl, pl⟩ := h.probed j v hj
  rcases Nat.lt_trichotomy k l with hkl | hkl | hkl
  · obtain ⟨w, hw, e⟩ := pl k hkl
    rw [← hk, hi] at e; exact absurd (Option.some.inj e).symm hw
  · rw [hk, hl, hkl]
  · obtain ⟨w, hw, e⟩ := pk l hkl
    rw [← hl, hj] at e; exact absurd (Option.some.inj e).symm hw

theorem pass_done {m m' : List (I × V)} {v : V} {t : Nat} {i : I} (hm : MapOk mk m)
    (hp : Probed mk m v t) (h : pass mk m v t = (m', .done i)) :
    Ext m m' ∧ MapOk mk m' ∧ i = mk v (saltAt t) ∧ m'.lookup i = some v ∧
      (m' = m ∨ (m.lookup i = none ∧ m' = (i, v) :: m)) := by
  unfold pass at h
  simp only at h
  cases e : m.lookup (mk v (saltAt t)) with
  | some w =>
    rw [e] at h; simp only at h
    by_cases hw : w = v
    · rw [if_pos hw] at h
      simp only [Prod.mk.injEq, Pass.done.injEq] at h
      obtain ⟨h1, h2⟩ := h
      rw [← h1, ← h2]
      exact ⟨Ext.refl _, hm, rfl, by rw [e, hw], .inl rfl⟩
    · rw [if_neg hw] at h; simp at h
  | none =>
    rw [e] at h
    simp only [Prod.mk.injEq, Pass.done.injEq] at h
    obtain ⟨h1, h2⟩ := h
    rw [← h1, ← h2]
    have hx : Ext m ((mk v (saltAt t), v) :: m) := ext_cons e
    refine ⟨hx, ⟨?_, ?_⟩, rfl, by simp, .inr ⟨e, rfl⟩⟩
    · rw [List.map_cons, List.nodup_cons]
      refine ⟨fun hmem => ?_, hm.nodup⟩
      obtain ⟨⟨a, w⟩, ha, ha'⟩ := List.mem_map.1 hmem
      simp only at ha'; subst ha'
      exact lookup_none_iff.1 e w ha
    · intro j w hj
      rw [List.lookup_cons] at hj
      by_cases ej : j = mk v (saltAt t)
      · subst ej
        simp only [beq_self_eq_true, Option.some.injEq] at hj
        subst hj
        exact ⟨t, rfl, hp.ext hx⟩
      · rw [show (j == mk v (saltAt t)) = false by simpa using ej] at hj
        obtain ⟨k, hk, pk⟩ := hm.probed j w hj
        exact ⟨k, hk, pk.ext hx⟩

theorem pass_retry {m m' : List (I × V)} {v : V} {t : Nat}
    (hp : Probed mk m v t) (h : pass mk m v t = (m', .retry)) :
    m' = m ∧ Probed mk m v (t + 1) := by
  unfold pass at h
  simp only at h
  cases e : m.lookup (mk v (saltAt t)) with
  | none => rw [e] at h; simp at h
  | some w =>
    rw [e] at h; simp only at h
    by_cases hw : w = v
    · rw [if_pos hw] at h; simp at h
    · rw [if_neg hw] at h
      simp only [Prod.mk.injEq, and_true] at h
      refine ⟨h.symm, fun j hj => ?_⟩
      rcases Nat.lt_succ_iff_lt_or_eq.1 hj with hj | rfl
      · exact hp j hj
      · exact ⟨w, hw, e⟩

theorem insertFrom_spec {m : List (I × V)} {v : V} (hm : MapOk mk m) : ∀ (n t : Nat),
    Probed mk m v t → ∀ (m' : List (I × V)) (i : I), insertFrom mk m v n t = some (m', i) →
    Ext m m' ∧ MapOk mk m' ∧ m'.lookup i = some v ∧
      (m' = m ∨ (m.lookup i = none ∧ m' = (i, v) :: m))
  | 0, _, _, _, _, h => by simp [insertFrom] at h
  | n + 1, t, hp, m', i, h => by
    unfold insertFrom at h
    split at h
    · rename_i m1 i1 e
      simp only [Option.some.injEq, Prod.mk.injEq] at h
      obtain ⟨rfl, rfl⟩ := h
      obtain ⟨a, b, _, c, d⟩ := pass_done hm hp e
      exact ⟨a, b, c, d⟩
    · rename_i m1 e
      exact insertFrom_spec hm n (t + 1) (pass_retry hp e).2 m' i h

theorem insert_spec {m m' : List (I × V)} {v : V} {i : I} (hm : MapOk mk m)
    (h : insertWithCollision mk m v = some (m', i)) :
    Ext m m' ∧ MapOk mk m' ∧ m'.lookup i = some v ∧
      (m' = m ∨ (m.lookup i = none ∧ m' = (i, v) :: m)) :=
  insertFrom_spec hm _ _ (fun j hj => absurd hj (Nat.not_lt_zero j)) _ _ h

/-- Interning a value that is there finds it, and changes nothing. -/
theorem insert_found {m m' : List (I × V)} {v : V} {i j : I} (hm : MapOk mk m)
    (hl : m.lookup j = some v) (h : insertWithCollision mk m v = some (m', i)) :
    m' = m ∧ i = j := by
  obtain ⟨hx, hm', hi, hor⟩ := insert_spec hm h
  have e : i = j := hm'.inj hi (hx _ _ hl)
  refine ⟨?_, e⟩
  rcases hor with h1 | ⟨h1, _⟩
  · exact h1
  · rw [e, hl] at h1; cases h1

theorem insertFrom_found {m : List (I × V)} {v : V} {k : Nat} (hp : Probed mk m v k)
    (hl : m.lookup (mk v (saltAt k)) = some v ∨ m.lookup (mk v (saltAt k)) = none) :
    ∀ (n t : Nat), t ≤ k → k < t + n →
      ∃ m', insertFrom mk m v n t = some (m', mk v (saltAt k)) ∧
        (m.lookup (mk v (saltAt k)) = some v → m' = m)
  | 0, t, h1, h2 => by omega
  | n + 1, t, h1, h2 => by
    unfold insertFrom pass
    simp only
    rcases Nat.lt_or_eq_of_le h1 with hlt | rfl
    · obtain ⟨w, hw, e⟩ := hp t hlt
      rw [e]; simp only [if_neg hw]
      exact insertFrom_found hp hl n (t + 1) hlt (by omega)
    · rcases hl with hl | hl
      · rw [hl]; simp
      · rw [hl]; simp

/-- Interning a value that is there answers. -/
theorem insert_present {m : List (I × V)} {v : V} {i : I} (hm : MapOk mk m)
    (hl : m.lookup i = some v) : insertWithCollision mk m v = some (m, i) := by
  obtain ⟨k, hk, pk⟩ := hm.probed i v hl
  have hb : k < 2 ^ 64 := by
    refine Decidable.byContradiction fun hge => ?_
    obtain ⟨w, hw, e⟩ := pk (k % 2 ^ 64) (Nat.lt_of_lt_of_le (Nat.mod_lt _ (by decide)) (by omega))
    rw [show saltAt (k % 2 ^ 64) = saltAt k by simp [saltAt], ← hk, hl] at e
    exact hw (Option.some.inj e).symm
  obtain ⟨m', e, hm'⟩ := insertFrom_found pk (.inl (by rw [← hk]; exact hl)) (2 ^ 64) 0 (Nat.zero_le _)
    (by omega)
  unfold insertWithCollision
  rw [e, hm' (by rw [← hk]; exact hl), ← hk]

omit [DecidableEq V] in
/-- If the identifiers for `v` differ for different salts, fewer of them are taken than there are
entries. -/
theorem Probed.le_length {m : List (I × V)} {v : V} {k : Nat} (hp : Probed mk m v k)
    (hi : ∀ a b, a < 2 ^ 64 → b < 2 ^ 64 → mk v a = mk v b → a = b) (hk : k ≤ 2 ^ 64) :
    k ≤ m.length := by
  have hn : ((List.range k).map (fun j => mk v (saltAt j))).Nodup := by
    rw [List.Nodup, List.pairwise_map]
    refine List.Pairwise.imp_of_mem ?_ List.nodup_range
    intro a b ha hb hab he
    rw [List.mem_range] at ha hb
    have := hi (saltAt a) (saltAt b) (Nat.mod_lt _ (by decide)) (Nat.mod_lt _ (by decide)) he
    unfold saltAt at this
    rw [Nat.mod_eq_of_lt (by omega), Nat.mod_eq_of_lt (by omega)] at this
    exact hab this
  have := hn.length_le_of_subset (l₂ := m.map Prod.fst) (by
    intro x hx
    obtain ⟨j, hj, rfl⟩ := List.mem_map.1 hx
    obtain ⟨w, _, e⟩ := hp j (List.mem_range.1 hj)
    exact List.mem_map.2 ⟨_, mem_of_lookup e, rfl⟩)
  simpa using this

theorem insertFrom_total {m : List (I × V)} {v : V}
    (hi : ∀ a b, a < 2 ^ 64 → b < 2 ^ 64 → mk v a = mk v b → a = b) (hs : m.length < 2 ^ 64) :
    ∀ (n t : Nat), Probed mk m v t → t + n = 2 ^ 64 → (insertFrom mk m v n t).isSome
  | 0, t, hp, h => by
    have := hp.le_length hi (by omega)
    omega
  | n + 1, t, hp, h => by
    unfold insertFrom
    split
    · rfl
    · rename_i m1 e
      exact insertFrom_total hi hs n (t + 1) (pass_retry hp e).2 (by omega)

/-! ## Threads -/

/-- The invariant of all schedules. -/
structure SysOk (mk : V → Nat → I) (s : Sys I V) : Prop where
  map : MapOk mk s.map
  open_ : ∀ c ∈ s.calls, Probed mk s.map c.value c.tries
  answered : ∀ c ∈ s.calls, ∀ i, c.answer = some i →
    s.map.lookup i = some c.value ∧ i = mk c.value (saltAt c.tries)

theorem step_ok {s : Sys I V} (hs : SysOk mk s) (e : Event V) :
    SysOk mk (s.step mk e) ∧ Ext s.map (s.step mk e).map ∧
      (∀ (k : Nat) (c : Call I V) (i : I), s.calls[k]? = some c → c.answer = some i →
        (s.step mk e).calls[k]? = some c) := by
  cases e with
  | call v =>
    refine ⟨⟨hs.map, ?_, ?_⟩, Ext.refl _, ?_⟩
    · intro c hc
      simp only [Sys.step, List.mem_append, List.mem_singleton] at hc
      rcases hc with hc | rfl
      · exact hs.open_ c hc
      · exact fun j hj => absurd hj (Nat.not_lt_zero j)
    · intro c hc i hi
      simp only [Sys.step, List.mem_append, List.mem_singleton] at hc
      rcases hc with hc | rfl
      · exact hs.answered c hc i hi
      · cases hi
    · intro k c i hk _
      simp only [Sys.step]
      rw [List.getElem?_append_left (List.getElem?_eq_some_iff.1 hk).1]; exact hk
  | go n =>
    unfold Sys.step
    simp only
    split
    · exact ⟨hs, Ext.refl _, fun _ _ _ h _ => h⟩
    · rename_i c hc
      split
      · exact ⟨hs, Ext.refl _, fun _ _ _ h _ => h⟩
      · rename_i ha
        have hmem := List.mem_of_getElem? hc
        have hset : ∀ (c' : Call I V) (k : Nat) (d : Call I V) (i : I), s.calls[k]? = some d →
            d.answer = some i → (s.calls.set n c')[k]? = some d := by
          intro c' k d i hk hd
          rw [List.getElem?_set]
          by_cases e : n = k
          · subst e; rw [hc] at hk; cases hk; rw [ha] at hd; cases hd
          · rw [if_neg e]; exact hk
        split
        · rename_i m' i e
          obtain ⟨hx, hm', hi, hl, _⟩ := pass_done hs.map (hs.open_ c hmem) e
          refine ⟨⟨hm', ?_, ?_⟩, hx, hset _⟩
          · intro d hd
            rcases List.mem_or_eq_of_mem_set hd with hd | rfl
            · exact (hs.open_ d hd).ext hx
            · exact (hs.open_ c hmem).ext hx
          · intro d hd j hj
            rcases List.mem_or_eq_of_mem_set hd with hd | rfl
            · exact ⟨hx _ _ (hs.answered d hd j hj).1, (hs.answered d hd j hj).2⟩
            · simp only [Option.some.injEq] at hj; subst hj; exact ⟨hl, hi⟩
        · rename_i m' e
          obtain ⟨rfl, hp⟩ := pass_retry (hs.open_ c hmem) e
          refine ⟨⟨hs.map, ?_, ?_⟩, Ext.refl _, hset _⟩
          · intro d hd
            rcases List.mem_or_eq_of_mem_set hd with hd | rfl
            · exact hs.open_ d hd
            · exact hp
          · intro d hd j hj
            rcases List.mem_or_eq_of_mem_set hd with hd | rfl
            · exact hs.answered d hd j hj
            · simp only at hj; rw [ha] at hj; cases hj

theorem steps_ok : ∀ (es : List (Event V)) (s : Sys I V), SysOk mk s →
    SysOk mk (es.foldl (Sys.step mk) s) ∧ Ext s.map (es.foldl (Sys.step mk) s).map ∧
      (∀ (k : Nat) (c : Call I V) (i : I), s.calls[k]? = some c → c.answer = some i →
        (es.foldl (Sys.step mk) s).calls[k]? = some c)
  | [], s, hs => ⟨hs, Ext.refl _, fun _ _ _ h _ => h⟩
  | e :: es, s, hs => by
    obtain ⟨h1, h2, h3⟩ := step_ok hs e
    obtain ⟨g1, g2, g3⟩ := steps_ok es (s.step mk e) h1
    exact ⟨g1, h2.trans g2, fun k c i hk hc => g3 k c i (h3 k c i hk hc) hc⟩

theorem run_ok (es : List (Event V)) : SysOk mk (Sys.run mk es) :=
  (steps_ok es ⟨[], []⟩ ⟨mapOk_nil, fun _ h => absurd h List.not_mem_nil,
    fun _ h => absurd h List.not_mem_nil⟩).1

theorem run_append (es es' : List (Event V)) :
    Sys.run mk (es ++ es') = es'.foldl (Sys.step mk) (Sys.run mk es) := by
  simp [Sys.run, List.foldl_append]

/-! ## Snapshots -/

omit [DecidableEq V] in
theorem lookup_perm {m m' : List (I × V)} (hp : m.Perm m') (hn : (m.map Prod.fst).Nodup) (i : I) :
    m'.lookup i = m.lookup i := by
  have hn' : (m'.map Prod.fst).Nodup := (hp.map Prod.fst).nodup_iff.1 hn
  cases e : m.lookup i with
  | some v => exact lookup_of_mem hn' (hp.mem_iff.1 (mem_of_lookup e))
  | none => exact lookup_none_iff.2 fun w hw => lookup_none_iff.1 e w (hp.mem_iff.2 hw)

theorem restore_spec : ∀ (es m : List (I × V)), ((es ++ m).map Prod.fst).Nodup →
    es.foldlM insertExpected m = some (es.reverse ++ m)
  | [], m, _ => rfl
  | e :: es, m, h => by
    have hnone : m.lookup e.1 = none := by
      refine lookup_none_iff.2 fun w hw => ?_
      rw [List.cons_append, List.map_cons, List.nodup_cons] at h
      exact h.1 (List.mem_map.2 ⟨(e.1, w), List.mem_append_right _ hw, rfl⟩)
    rw [List.foldlM_cons]
    have e1 : insertExpected m e = some (e :: m) := by
      unfold insertExpected; rw [hnone]
    rw [e1]
    show es.foldlM insertExpected (e :: m) = _
    rw [restore_spec es (e :: m) ?_, List.reverse_cons, List.append_assoc]
    · rfl
    · have : (es ++ e :: m).Perm (e :: es ++ m) := by
        simpa using List.perm_middle
      exact (this.map Prod.fst).nodup_iff.2 h

end

/-! ## Names -/

section
variable {mk : List Nat → Nat → Nat}

/-- The two tables of the name interner mirror each other. -/
structure NamesOk (s : Names) : Prop where
  there : ∀ (n : List Nat) (i : Nat), s.byName.lookup n = some i → s.byId.lookup i = some n
  back : ∀ (n : List Nat) (i : Nat), s.byId.lookup i = some n → s.byName.lookup n = some i
  nodup : (s.byId.map Prod.fst).Nodup

theorem probe_spec {s : Names} (hs : NamesOk s) {name : List Nat} (hn : s.byName.lookup name = none) :
    ∀ (f t : Nat) (s' : Names) (i : Nat), s.probe mk name f t = some (s', i) →
      NamesOk s' ∧ s'.byName.lookup name = some i ∧ Ext s.byName s'.byName
  | 0, _, _, _, h => by simp [Names.probe] at h
  | f + 1, t, s', i, h => by
    unfold Names.probe at h
    simp only at h
    split at h
    · rename_i e
      simp only [Option.some.injEq, Prod.mk.injEq] at h
      obtain ⟨rfl, rfl⟩ := h
      refine ⟨⟨?_, ?_, ?_⟩, by simp, ext_cons hn⟩
      rotate_left 2
      · rw [List.map_cons, List.nodup_cons]
        refine ⟨fun hm => ?_, hs.nodup⟩
        obtain ⟨⟨j, w⟩, hw, ej⟩ := List.mem_map.1 hm
        simp only at ej
        subst ej
        exact lookup_none_iff.1 e w hw
      · intro n j hj
        simp only [List.lookup_cons] at hj ⊢
        by_cases en : n = name
        · subst en; simp only [beq_self_eq_true, Option.some.injEq] at hj; subst hj; simp
        · rw [show (n == name) = false by simpa using en] at hj
          have hb := hs.there n j hj
          have hne : j ≠ mk name (saltAt t) := by
            intro h'; subst h'; rw [e] at hb; cases hb
          rw [show (j == mk name (saltAt t)) = false by simpa using hne]
          exact hb
      · intro n j hj
        simp only [List.lookup_cons] at hj ⊢
        by_cases ej : j = mk name (saltAt t)
        · subst ej; simp only [beq_self_eq_true, Option.some.injEq] at hj; subst hj; simp
        · rw [show (j == mk name (saltAt t)) = false by simpa using ej] at hj
          have hb := hs.back n j hj
          have hne : n ≠ name := by
            intro h'; subst h'; rw [hn] at hb; cases hb
          rw [show (n == name) = false by simpa using hne]
          exact hb
    · rename_i ex e
      split at h
      · rename_i hex
        subst hex
        have := hs.back _ _ e
        rw [hn] at this; cases this
      · exact probe_spec hs hn f (t + 1) s' i h

theorem intern_spec {s s' : Names} {name : List Nat} {i : Nat} (hs : NamesOk s)
    (h : s.intern mk name = some (s', i)) :
    NamesOk s' ∧ s'.byName.lookup name = some i ∧ Ext s.byName s'.byName := by
  unfold Names.intern at h
  split at h
  · rename_i id e
    simp only [Option.some.injEq, Prod.mk.injEq] at h
    obtain ⟨rfl, rfl⟩ := h
    exact ⟨hs, e, Ext.refl _⟩
  · rename_i e
    exact probe_spec hs e _ _ _ _ h

theorem namesOk_nil : NamesOk ⟨[], []⟩ :=
  ⟨fun _ _ h => absurd h (by simp), fun _ _ h => absurd h (by simp), .nil⟩

theorem NamesOk.extId {s s' : Names} (hs : NamesOk s) (hs' : NamesOk s')
    (h : Ext s.byName s'.byName) : Ext s.byId s'.byId :=
  fun i n hi => hs'.there _ _ (h _ _ (hs.back _ _ hi))

end
end Verif.Types
