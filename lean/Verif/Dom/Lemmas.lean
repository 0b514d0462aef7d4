import Verif.Dom.Model
import Verif.Dom.Spec
import Verif.Graph.Search
/-!
# The iterative dominator algorithm computes the dominator tree
-/

namespace Verif.Dom

open Verif.Graph

/-! ## Walks -/

theorem walk_ne_nil {E : Nat → Nat → Prop} {a b : Nat} {l : List Nat} (h : Walk E a l b) :
    l ≠ [] := by
  cases h <;> simp

theorem walk_end_mem {E : Nat → Nat → Prop} {a b : Nat} {l : List Nat} (h : Walk E a l b) :
    b ∈ l := by
  cases h <;> simp

theorem walk_start_mem {E : Nat → Nat → Prop} {a b : Nat} {l : List Nat} (h : Walk E a l b) :
    a ∈ l := by
  induction h with
  | start => simp
  | step _ _ ih => exact List.mem_append_left _ ih

theorem walk_prefix {E : Nat → Nat → Prop} {a b x : Nat} {l : List Nat} (h : Walk E a l b)
    (hx : x ∈ l) : ∃ l₁ l₂, Walk E a l₁ x ∧ l = l₁ ++ l₂ := by
  induction h with
  | start =>
    simp only [List.mem_singleton] at hx
    subst hx
    exact ⟨[x], [], .start, by simp⟩
  | @step l b c h e ih =>
    rcases List.mem_append.1 hx with hx | hx
    · obtain ⟨l1, l2, h1, e1⟩ := ih hx
      exact ⟨l1, l2 ++ [c], h1, by rw [e1, List.append_assoc]⟩
    · simp only [List.mem_singleton] at hx
      subst hx
      exact ⟨l ++ [x], [], .step h e, by simp⟩

theorem walk_mem_reach {E : Nat → Nat → Prop} {a b x : Nat} {l : List Nat} (h : Walk E a l b)
    (hx : x ∈ l) : Reach E a x := by
  obtain ⟨l1, _, h1, _⟩ := walk_prefix h hx
  exact reach_of_walk h1

theorem walk_simple {E : Nat → Nat → Prop} {a b : Nat} {l : List Nat} (h : Walk E a l b) :
    ∃ l', Walk E a l' b ∧ l'.Nodup ∧ ∀ x ∈ l', x ∈ l := by
  induction h with
  | start => exact ⟨_, .start, by simp, by simp⟩
  | @step l b c h e ih =>
    obtain ⟨l', h', hn, hs⟩ := ih
    by_cases hc : c ∈ l'
    · obtain ⟨l1, l2, h1, e1⟩ := walk_prefix h' hc
      refine ⟨l1, h1, ?_, ?_⟩
      · rw [e1] at hn
        exact (List.nodup_append.1 hn).1
      · intro x hx
        exact List.mem_append_left _ (hs x (by rw [e1]; exact List.mem_append_left _ hx))
    · refine ⟨l' ++ [c], .step h' e, nodup_snoc hn hc, ?_⟩
      intro x hx
      rcases List.mem_append.1 hx with hx | hx
      · exact List.mem_append_left _ (hs x hx)
      · exact List.mem_append_right _ hx

/-- Appending a restricted path to a walk. -/
theorem walk_extend {E : Nat → Nat → Prop} {P : Nat → Prop} {a t c : Nat} {l : List Nat}
    (h : Walk E a l t) (h' : Reach (fun x y => E x y ∧ P y) t c) :
    ∃ l', Walk E a (l ++ l') c ∧ ∀ y ∈ l', P y := by
  induction h' with
  | refl => exact ⟨[], by simpa using h, by simp⟩
  | @step b c _ e ih =>
    obtain ⟨l', h', hp⟩ := ih
    refine ⟨l' ++ [c], by rw [← List.append_assoc]; exact .step h' e.1, ?_⟩
    intro y hy
    rcases List.mem_append.1 hy with hy | hy
    · exact hp y hy
    · simp only [List.mem_singleton] at hy
      subst hy; exact e.2

theorem dom_self {E : Nat → Nat → Prop} {e n : Nat} : Dominates E e n n :=
  fun _ h => walk_end_mem h

theorem dom_entry {E : Nat → Nat → Prop} {e n : Nat} : Dominates E e e n :=
  fun _ h => walk_start_mem h

theorem dom_trans {E : Nat → Nat → Prop} {e x y z : Nat} (h : Dominates E e x y)
    (h' : Dominates E e y z) : Dominates E e x z := by
  intro l hl
  obtain ⟨l1, l2, h1, e1⟩ := walk_prefix hl (h' l hl)
  rw [e1]
  exact List.mem_append_left _ (h l1 h1)

theorem dom_pred {E : Nat → Nat → Prop} {e x p c : Nat} (h : Dominates E e x c) (hx : x ≠ c)
    (hp : E p c) : Dominates E e x p := by
  intro l hl
  have := h _ (.step hl hp)
  rcases List.mem_append.1 this with h | h
  · exact h
  · simp only [List.mem_singleton] at h
    exact absurd h hx

/-- A node that dominates every reachable predecessor dominates. -/
theorem dom_of_preds {E : Nat → Nat → Prop} {e x c : Nat} (hc : c ≠ e)
    (h : ∀ p, Reach E e p → E p c → Dominates E e x p) : Dominates E e x c := by
  intro l hl
  cases hl with
  | start => exact absurd rfl hc
  | step h' he => exact List.mem_append_left _ (h _ (reach_of_walk h') he _ h')

/-! ## Postorder numbers -/

theorem idxOf_lt_of_split {po l1 l2 : List Nat} {x y : Nat} (hn : po.Nodup)
    (h : po = l1 ++ x :: l2) (hy : y ∈ l2) : po.idxOf x < po.idxOf y := by
  subst h
  rw [List.nodup_append] at hn
  obtain ⟨-, hn2, hd⟩ := hn
  have hx1 : x ∉ l1 := fun h => hd x h x (by simp) rfl
  have hy1 : y ∉ l1 := fun h => hd y h y (by simp [hy]) rfl
  have hxy : x ≠ y := by
    rintro rfl
    exact (List.nodup_cons.1 hn2).1 hy
  have hb : (x == y) = false := by simpa using hxy
  simp [List.idxOf_append, hx1, hy1, List.idxOf_cons, hb]

theorem getElem?_idxOf' {po : List Nat} {x : Nat} (hx : x ∈ po) : po[po.idxOf x]? = some x := by
  have h := List.idxOf_lt_length_of_mem hx
  rw [List.getElem?_eq_getElem h, List.getElem_idxOf h]

theorem idxOf_inj {po : List Nat} {x y : Nat} (hx : x ∈ po) (hy : y ∈ po)
    (h : po.idxOf x = po.idxOf y) : x = y := by
  have h1 := getElem?_idxOf' hx
  have h2 := getElem?_idxOf' hy
  rw [h] at h1
  rw [h1] at h2
  exact Option.some.inj h2

/-! ## Ancestors in the tree under construction -/

/-- `x` is on the way from `c` to the entry. -/
inductive Anc (T : Nat → Option Nat) (e : Nat) : Nat → Nat → Prop where
  | self {c : Nat} : Anc T e c c
  | up {c t x : Nat} : c ≠ e → T c = some t → Anc T e t x → Anc T e c x

theorem Anc.trans {T : Nat → Option Nat} {e a b c : Nat} (h : Anc T e a b) (h' : Anc T e b c) :
    Anc T e a c := by
  induction h with
  | self => exact h'
  | up h1 h2 _ ih => exact .up h1 h2 (ih h')

theorem Anc.of_entry {T : Nat → Option Nat} {e x : Nat} (h : Anc T e e x) : x = e := by
  cases h with
  | self => rfl
  | up h1 => exact absurd rfl h1

/-- Everything about a rooted graph the algorithm is run on. -/
structure Ctx where
  E : Nat → Nat → Prop
  preds : Nat → List Nat
  e : Nat
  po : List Nat

namespace Ctx

/-- The postorder number. -/
abbrev idx (k : Ctx) (x : Nat) : Nat := k.po.idxOf x

/-- What the postorder and the predecessor lists satisfy. -/
structure OK (k : Ctx) : Prop where
  nodup : k.po.Nodup
  mem : ∀ x, x ∈ k.po ↔ Reach k.E k.e x
  top : ∀ x ∈ k.po, x ≠ k.e → k.idx x < k.idx k.e
  later : ∀ l₁ x l₂, k.po = l₁ ++ x :: l₂ → x = k.e ∨ ∃ p ∈ l₂, k.E p x
  preds : ∀ p b, p ∈ k.preds b ↔ k.E p b

/-- The invariant of the idom map. -/
structure Inv (k : Ctx) (T : Nat → Option Nat) : Prop where
  entry : T k.e = some k.e
  mem : ∀ c t, T c = some t → c ∈ k.po
  asc : ∀ c t, c ≠ k.e → T c = some t → (T t).isSome ∧ k.idx c < k.idx t
  opt : ∀ c x, (T c).isSome → Dominates k.E k.e x c → Anc T k.e c x
  path : ∀ c t, c ≠ k.e → T c = some t →
    Reach (fun a b => k.E a b ∧ k.idx b < k.idx t) t c

variable {k : Ctx} {T : Nat → Option Nat}

theorem OK.e_mem (ok : k.OK) : k.e ∈ k.po := (ok.mem _).2 .refl

theorem Inv.anc_some (inv : k.Inv T) {c x : Nat} (h : Anc T k.e c x) (hc : (T c).isSome) :
    (T x).isSome := by
  induction h with
  | self => exact hc
  | up h1 h2 _ ih => exact ih (inv.asc _ _ h1 h2).1

theorem Inv.anc_le (inv : k.Inv T) {c x : Nat} (h : Anc T k.e c x) : k.idx c ≤ k.idx x := by
  induction h with
  | self => exact Nat.le_refl _
  | up h1 h2 _ ih => exact Nat.le_trans (Nat.le_of_lt (inv.asc _ _ h1 h2).2) ih

theorem Inv.anc_mem (inv : k.Inv T) {c : Nat} (hc : (T c).isSome) : c ∈ k.po := by
  obtain ⟨t, ht⟩ := Option.isSome_iff_exists.1 hc
  exact inv.mem _ _ ht

/-- Two ancestors of a node are comparable. -/
theorem Inv.anc_chain (inv : k.Inv T) {c x y : Nat} (hx : Anc T k.e c x) (hy : Anc T k.e c y)
    (h : k.idx x ≤ k.idx y) (hc : (T c).isSome) : Anc T k.e x y := by
  induction hx with
  | self => exact hy
  | @up c t x h1 h2 h3 ih =>
    cases hy with
    | self =>
      have := inv.anc_le h3
      have := (inv.asc _ _ h1 h2).2
      omega
    | up h1' h2' h3' =>
      rw [h2] at h2'
      obtain rfl := Option.some.inj h2'
      exact ih h3' h (inv.asc _ _ h1 h2).1

theorem Inv.anc_antisymm (inv : k.Inv T) {a b : Nat} (ha : (T a).isSome) (h : Anc T k.e a b)
    (h' : Anc T k.e b a) : a = b :=
  idxOf_inj (inv.anc_mem ha) (inv.anc_mem (inv.anc_some h ha))
    (Nat.le_antisymm (inv.anc_le h) (inv.anc_le h'))

/-- The entry is an ancestor of every processed node. -/
theorem Inv.anc_entry (inv : k.Inv T) {c : Nat} (hc : (T c).isSome) : Anc T k.e c k.e :=
  inv.opt c k.e hc dom_entry

/-- The path of the invariant composed along the tree. -/
theorem Inv.anc_reach (inv : k.Inv T) {c x : Nat} (h : Anc T k.e c x) :
    Reach (fun a b => k.E a b ∧ k.idx b < k.idx x) x c := by
  induction h with
  | self => exact .refl
  | @up c t x h1 h2 h3 ih =>
    refine ih.trans ((inv.path _ _ h1 h2).mono ?_)
    rintro a b ⟨hab, hb⟩
    exact ⟨hab, Nat.lt_of_lt_of_le hb (inv.anc_le h3)⟩

/-- A dominator that is higher than a tree ancestor dominates the ancestor too. -/
theorem Inv.anc_dom (inv : k.Inv T) {c b x : Nat} (h : Anc T k.e c b)
    (hx : Dominates k.E k.e x c) (hlt : k.idx b < k.idx x) : Dominates k.E k.e x b := by
  intro l hl
  obtain ⟨l', h', hp⟩ := walk_extend hl (inv.anc_reach h)
  rcases List.mem_append.1 (hx _ h') with h | h
  · exact h
  · have := hp x h
    omega

/-- The map held by an association list. -/
abbrev tbl (m : List (Nat × Nat)) : Nat → Option Nat := fun c => m.lookup c

/-! ## `intersect` -/

theorem OK.intersect_spec {m : List (Nat × Nat)} (ok : k.OK) (inv : k.Inv (tbl m)) :
    ∀ {fuel a b : Nat}, (m.lookup a).isSome → (m.lookup b).isSome →
      2 * k.po.length + 1 ≤ fuel + k.idx a + k.idx b →
      ∃ n, intersect k.po m fuel (k.idx a) (k.idx b) = some n ∧ Anc (tbl m) k.e a n ∧
        Anc (tbl m) k.e b n ∧
        ∀ x, Anc (tbl m) k.e a x → Anc (tbl m) k.e b x → Anc (tbl m) k.e n x
  | 0, a, b, ha, hb, hf => by
    have := List.idxOf_lt_length_of_mem (inv.anc_mem ha)
    have := List.idxOf_lt_length_of_mem (inv.anc_mem hb)
    simp only [idx] at hf
    omega
  | fuel + 1, a, b, ha, hb, hf => by
    have am := inv.anc_mem ha
    have bm := inv.anc_mem hb
    have step : ∀ {a b : Nat}, (m.lookup a).isSome → (m.lookup b).isSome → k.idx a < k.idx b →
        ∃ t, up k.po m (k.idx a) = some (k.idx t) ∧ a ≠ k.e ∧ m.lookup a = some t ∧
          (m.lookup t).isSome ∧ k.idx a < k.idx t := by
      intro a b ha hb h
      have am := inv.anc_mem ha
      have hae : a ≠ k.e := by
        rintro rfl
        by_cases hbe : b = k.e
        · subst hbe; omega
        · have := ok.top b (inv.anc_mem hb) hbe
          omega
      obtain ⟨t, ht⟩ := Option.isSome_iff_exists.1 ha
      obtain ⟨h1, h2⟩ := inv.asc a t hae ht
      have tm := inv.anc_mem h1
      refine ⟨t, ?_, hae, ht, h1, h2⟩
      simp only [up, idx, getElem?_idxOf' am, Option.bind_eq_bind, Option.bind_some, ht, poNum, tm,
        if_true]
    simp only [intersect]
    by_cases h1 : k.idx a < k.idx b
    · obtain ⟨t, hu, hae, ht, hts, hlt⟩ := step ha hb h1
      simp only [h1, if_true, hu, Option.bind_eq_bind, Option.bind_some]
      obtain ⟨n, e, hn1, hn2, hn3⟩ := intersect_spec ok inv (fuel := fuel) hts hb (by omega)
      refine ⟨n, e, .up hae ht hn1, hn2, ?_⟩
      intro x hx1 hx2
      refine hn3 x ?_ hx2
      cases hx1 with
      | self =>
        have := inv.anc_le hx2
        omega
      | up _ h2 h3 =>
        obtain rfl := Option.some.inj (ht.symm.trans h2)
        exact h3
    · simp only [h1, if_false]
      by_cases h2 : k.idx b < k.idx a
      · obtain ⟨t, hu, hbe, ht, hts, hlt⟩ := step hb ha h2
        simp only [h2, if_true, hu, Option.bind_eq_bind, Option.bind_some]
        obtain ⟨n, e, hn1, hn2, hn3⟩ := intersect_spec ok inv (fuel := fuel) ha hts (by omega)
        refine ⟨n, e, hn1, .up hbe ht hn2, ?_⟩
        intro x hx1 hx2
        refine hn3 x hx1 ?_
        cases hx2 with
        | self =>
          have := inv.anc_le hx1
          omega
        | up _ h2 h3 =>
          obtain rfl := Option.some.inj (ht.symm.trans h2)
          exact h3
      · have hab : a = b := idxOf_inj am bm (by simp only [idx] at h1 h2; omega)
        subst hab
        simp only [h2, if_false]
        exact ⟨a, getElem?_idxOf' am, .self, .self, fun x h _ => h⟩

theorem OK.meet_spec {m : List (Nat × Nat)} (ok : k.OK) (inv : k.Inv (tbl m)) {a b : Nat}
    (ha : (m.lookup a).isSome) (hb : (m.lookup b).isSome) :
    ∃ n, meet k.po m a b = some n ∧ Anc (tbl m) k.e a n ∧ Anc (tbl m) k.e b n ∧
      ∀ x, Anc (tbl m) k.e a x → Anc (tbl m) k.e b x → Anc (tbl m) k.e n x := by
  obtain ⟨n, e, h⟩ := ok.intersect_spec inv (fuel := 2 * k.po.length + 1) ha hb (by omega)
  refine ⟨n, ?_, h⟩
  simp only [meet, poNum, inv.anc_mem ha, inv.anc_mem hb, if_true, Option.bind_eq_bind,
    Option.bind_some]
  exact e

theorem OK.meetAll_spec {m : List (Nat × Nat)} (ok : k.OK) (inv : k.Inv (tbl m)) :
    ∀ {ps : List Nat} {acc : Nat}, (m.lookup acc).isSome →
      ∃ n, meetAll k.po m ps acc = some n ∧ (m.lookup n).isSome ∧ Anc (tbl m) k.e acc n ∧
        (∀ p ∈ ps, (m.lookup p).isSome → Anc (tbl m) k.e p n) ∧
        ∀ x, Anc (tbl m) k.e acc x →
          (∀ p ∈ ps, (m.lookup p).isSome → Anc (tbl m) k.e p x) → Anc (tbl m) k.e n x
  | [], acc, ha => ⟨acc, rfl, ha, .self, by simp, fun x h _ => h⟩
  | p :: ps, acc, ha => by
    simp only [meetAll]
    by_cases hp : (m.lookup p).isSome = true
    · obtain ⟨n1, e1, h1, h2, h3⟩ := ok.meet_spec inv hp ha
      have hn1 := inv.anc_some h2 ha
      obtain ⟨n, e, hn, h4, h5, h6⟩ := meetAll_spec ok inv (ps := ps) hn1
      refine ⟨n, ?_, hn, h2.trans h4, ?_, ?_⟩
      · simp only [hp, if_true, e1, Option.bind_eq_bind, Option.bind_some, e]
      · intro q hq hqs
        rcases List.mem_cons.1 hq with rfl | hq
        · exact h1.trans h4
        · exact h5 q hq hqs
      · intro x hx hps
        exact h6 x (h3 x (hps p (by simp) hp) hx)
          (fun q hq hqs => hps q (List.mem_cons_of_mem _ hq) hqs)
    · obtain ⟨n, e, hn, h4, h5, h6⟩ := meetAll_spec ok inv (ps := ps) ha
      refine ⟨n, ?_, hn, h4, ?_, ?_⟩
      · simp only [hp, e]
        rfl
      · intro q hq hqs
        rcases List.mem_cons.1 hq with rfl | hq
        · exact absurd hqs hp
        · exact h5 q hq hqs
      · intro x hx hps
        exact h6 x hx (fun q hq hqs => hps q (List.mem_cons_of_mem _ hq) hqs)

/-! ## One block -/

theorem lookup_insertKV {m : List (Nat × Nat)} {a v c : Nat} :
    (insertKV m a v).lookup c = if c = a then some v else m.lookup c := by
  simp only [insertKV]
  by_cases h : c = a
  · subst h; simp
  · have hb : (c == a) = false := by simpa using h
    simp only [List.lookup_cons, hb, h, if_false]
    induction m with
    | nil => simp
    | cons x m ih =>
      obtain ⟨y, w⟩ := x
      by_cases hy : y = a
      · subst hy
        simp [List.filter_cons, ih, List.lookup_cons, hb]
      · have hb' : (y != a) = true := by simpa using hy
        simp only [List.filter_cons, hb', if_true, List.lookup_cons]
        cases c == y
        · exact ih
        · rfl

/-- The new value for a block: the nearest common ancestor of its processed predecessors. -/
structure IsMeet (k : Ctx) (T : Nat → Option Nat) (b n : Nat) : Prop where
  some : (T n).isSome
  anc : ∀ p, k.E p b → (T p).isSome → Anc T k.e p n
  glb : ∀ x, (∀ p, k.E p b → (T p).isSome → Anc T k.e p x) → Anc T k.e n x

theorem OK.process_spec {m : List (Nat × Nat)} (ok : k.OK) (inv : k.Inv (tbl m)) {b : Nat}
    {ch : Bool} (hp : ∃ p, k.E p b ∧ (m.lookup p).isSome) :
    ∃ n, IsMeet k (tbl m) b n ∧
      processBlock k.preds k.po (m, ch) b =
        some (if m.lookup b = some n then (m, ch) else (insertKV m b n, true)) := by
  obtain ⟨p0, he0, hp0⟩ := hp
  simp only [processBlock]
  cases hf : (k.preds b).find? (fun n => (m.lookup n).isSome) with
  | none =>
    exfalso
    have := List.find?_eq_none.1 hf p0 ((ok.preds p0 b).2 he0)
    exact this hp0
  | some first =>
    have hfs : (m.lookup first).isSome = true := by
      have := List.find?_some hf
      simpa using this
    have hfe : k.E first b := (ok.preds first b).1 (List.mem_of_find?_eq_some hf)
    obtain ⟨n, e, hn, h1, h2, h3⟩ := ok.meetAll_spec inv
      (ps := (k.preds b).filter (fun p => p != first)) hfs
    refine ⟨n, ⟨hn, ?_, ?_⟩, ?_⟩
    · intro p hpb hps
      by_cases hpf : p = first
      · subst hpf; exact h1
      · refine h2 p (List.mem_filter.2 ⟨(ok.preds p b).2 hpb, by simpa using hpf⟩) hps
    · intro x hx
      refine h3 x (hx first hfe hfs) ?_
      intro p hp hps
      exact hx p ((ok.preds p b).1 (List.mem_filter.1 hp).1) hps
    · dsimp only
      simp only [e, Option.bind_eq_bind, Option.bind_some]
      by_cases h : m.lookup b = some n
      · simp [h]
      · have : (m.lookup b != some n) = true := by simpa using h
        simp [h, this]

/-- The map after setting `b` to `n`. -/
def upd (T : Nat → Option Nat) (b n : Nat) : Nat → Option Nat :=
  fun c => if c = b then some n else T c

theorem anc_upd_of {b n : Nat} (inv : k.Inv T) {c x : Nat} (h : Anc T k.e c x)
    (hx : k.idx x ≤ k.idx b ∨ ¬ Anc T k.e c b) : Anc (upd T b n) k.e c x := by
  induction h with
  | self => exact .self
  | @up c t x h1 h2 h3 ih =>
    have hcb : c ≠ b := by
      rintro rfl
      rcases hx with hx | hx
      · have := inv.anc_le h3
        have := (inv.asc _ _ h1 h2).2
        omega
      · exact hx .self
    refine .up h1 (by simp [upd, hcb, h2]) (ih ?_)
    rcases hx with hx | hx
    · exact .inl hx
    · exact .inr (fun h => hx (.up h1 h2 h))

theorem anc_of_upd {b n : Nat} {c x : Nat} (h : Anc (upd T b n) k.e c x) :
    Anc T k.e c x ∨ (Anc T k.e c b ∧ Anc (upd T b n) k.e b x) := by
  induction h with
  | self => exact .inl .self
  | @up c t x h1 h2 h3 ih =>
    by_cases hcb : c = b
    · subst hcb
      exact .inr ⟨.self, .up h1 h2 h3⟩
    · have h2' : T c = some t := by simpa [upd, hcb] using h2
      rcases ih with h | ⟨h, h'⟩
      · exact .inl (.up h1 h2' h)
      · exact .inr ⟨.up h1 h2' h, h'⟩

theorem IsMeet.above {b n : Nat} (hm : IsMeet k T b n) (inv : k.Inv T)
    (hp : ∃ p, k.E p b ∧ (T p).isSome ∧ k.idx b < k.idx p) : k.idx b < k.idx n := by
  obtain ⟨p, he, hs, hlt⟩ := hp
  exact Nat.lt_of_lt_of_le hlt (inv.anc_le (hm.anc p he hs))

/-- Above the updated node nothing changes. -/
theorem anc_upd_above {b n c x : Nat} (inv : k.Inv T) (hlt : k.idx b < k.idx c) :
    Anc (upd T b n) k.e c x ↔ Anc T k.e c x := by
  have hno : ¬ Anc T k.e c b := fun h => by
    have := inv.anc_le h
    omega
  constructor
  · intro h
    rcases anc_of_upd h with h | ⟨h, -⟩
    · exact h
    · exact absurd h hno
  · intro h
    exact anc_upd_of inv h (.inr hno)

theorem Inv.update {b n : Nat} (ok : k.OK) (inv : k.Inv T) (hb : b ∈ k.po) (hbe : b ≠ k.e)
    (hm : IsMeet k T b n) (hp : ∃ p, k.E p b ∧ (T p).isSome ∧ k.idx b < k.idx p) :
    k.Inv (upd T b n) := by
  have hlt := hm.above inv hp
  have hsome : ∀ c, (T c).isSome → (upd T b n c).isSome := by
    intro c hc
    simp only [upd]
    split
    · rfl
    · exact hc
  have hdb : ∀ x, Dominates k.E k.e x b → Anc (upd T b n) k.e b x := by
    intro x hx
    by_cases hxb : x = b
    · subst hxb; exact .self
    · refine .up hbe (by simp [upd]) ((anc_upd_above inv hlt).2 ?_)
      exact hm.glb x (fun p he hs => inv.opt p x hs (dom_pred hx hxb he))
  refine ⟨?_, ?_, ?_, ?_, ?_⟩
  · simp only [upd, if_neg (Ne.symm hbe), inv.entry]
  · intro c t h
    by_cases hcb : c = b
    · subst hcb; exact hb
    · exact inv.mem c t (by simpa [upd, hcb] using h)
  · intro c t hce h
    by_cases hcb : c = b
    · subst hcb
      have : t = n := by simpa [upd, eq_comm] using h
      subst this
      exact ⟨hsome _ hm.some, hlt⟩
    · have h' : T c = some t := by simpa [upd, hcb] using h
      exact ⟨hsome _ (inv.asc c t hce h').1, (inv.asc c t hce h').2⟩
  · intro c x hc hx
    by_cases hcb : c = b
    · subst hcb
      exact hdb x hx
    · have hc' : (T c).isSome := by simpa [upd, hcb] using hc
      have hax := inv.opt c x hc' hx
      by_cases hab : Anc T k.e c b
      · by_cases hle : k.idx x ≤ k.idx b
        · exact anc_upd_of inv hax (.inl hle)
        · have hxb := inv.anc_dom hab hx (by omega)
          exact (anc_upd_of inv hab (.inl (Nat.le_refl _))).trans (hdb x hxb)
      · exact anc_upd_of inv hax (.inr hab)
  · intro c t hce h
    by_cases hcb : c = b
    · subst hcb
      have : t = n := by simpa [upd, eq_comm] using h
      subst this
      obtain ⟨p, he, hs, -⟩ := hp
      exact .step (inv.anc_reach (hm.anc p he hs)) ⟨he, hlt⟩
    · exact inv.path c t hce (by simpa [upd, hcb] using h)

/-! ## Progress: after each pass longer walks are respected -/

/-- Every walk to `c` of at most `j + 1` nodes visits all tree ancestors of `c`. -/
def Good (k : Ctx) (T : Nat → Option Nat) (j c : Nat) : Prop :=
  ∀ x, Anc T k.e c x → ∀ l, Walk k.E k.e l c → l.length ≤ j + 1 → x ∈ l

theorem Good.update {b n j : Nat} (ok : k.OK) (inv : k.Inv T) (hbe : b ≠ k.e)
    (hm : IsMeet k T b n) (hp : ∃ p, k.E p b ∧ (T p).isSome ∧ k.idx b < k.idx p)
    (all : ∀ c ∈ k.po, (T c).isSome) (hg : ∀ c ∈ k.po, Good k T j c) :
    Good k (upd T b n) (j + 1) b ∧ (∀ c ∈ k.po, Good k (upd T b n) j c) ∧
    (∀ c, k.idx b < k.idx c → Good k T (j + 1) c → Good k (upd T b n) (j + 1) c) := by
  have hlt := hm.above inv hp
  have hb1 : Good k (upd T b n) (j + 1) b := by
    intro x hx l hl hlen
    cases hx with
    | self => exact walk_end_mem hl
    | @up _ t _ h1 h2 h3 =>
      have : n = t := by simpa [upd] using h2
      subst this
      have h3' := (anc_upd_above inv hlt).1 h3
      cases hl with
      | start => exact absurd rfl hbe
      | @step l p _ hl he =>
        have hpm : p ∈ k.po := (ok.mem p).2 (reach_of_walk hl)
        have := hg p hpm x ((hm.anc p he (all p hpm)).trans h3') l hl (by simp at hlen; omega)
        exact List.mem_append_left _ this
  refine ⟨hb1, ?_, ?_⟩
  · intro c hc x hx l hl hlen
    rcases anc_of_upd hx with h | ⟨h, h'⟩
    · exact hg c hc x h l hl hlen
    · have hbl := hg c hc b h l hl hlen
      obtain ⟨l1, l2, h1, e1⟩ := walk_prefix hl hbl
      rw [e1]
      refine List.mem_append_left _ (hb1 x h' l1 h1 ?_)
      rw [e1, List.length_append] at hlen
      omega
  · intro c hlt' hg' x hx l hl hlen
    exact hg' x ((anc_upd_above inv hlt').1 hx) l hl hlen

/-! ## One pass -/

theorem lookup_upd {m : List (Nat × Nat)} {b n : Nat} :
    tbl (insertKV m b n) = upd (tbl m) b n := by
  funext c
  show (insertKV m b n).lookup c = _
  rw [lookup_insertKV]
  rfl

theorem upd_self {b n : Nat} (h : T b = some n) : upd T b n = T := by
  funext c
  simp only [upd]
  split
  · rename_i e; rw [e, h]
  · rfl

/-- Where a block stands in the reverse postorder. -/
theorem OK.ready (ok : k.OK) {done r : List Nat} {x : Nat} (h : k.po.reverse = done ++ x :: r)
    (hx : x ≠ k.e) (hdone : ∀ y ∈ done, (T y).isSome) :
    ∃ p, k.E p x ∧ (T p).isSome ∧ k.idx x < k.idx p := by
  have hpo : k.po = r.reverse ++ x :: done.reverse := by
    have := congrArg List.reverse h
    simpa using this
  rcases ok.later _ _ _ hpo with h' | ⟨p, hp, he⟩
  · exact absurd h' hx
  · exact ⟨p, he, hdone p (by simpa using hp), idxOf_lt_of_split ok.nodup hpo hp⟩

theorem OK.pass_aux (ok : k.OK) : ∀ (r done : List Nat) {m : List (Nat × Nat)} {ch : Bool},
    k.po.reverse = done ++ r → k.Inv (tbl m) → (∀ y ∈ done, (m.lookup y).isSome) →
    ∃ m' ch', (r.filter (fun b => b != k.e)).foldlM (processBlock k.preds k.po) (m, ch)
        = some (m', ch') ∧
      k.Inv (tbl m') ∧ (∀ y ∈ k.po, (m'.lookup y).isSome) ∧ (ch = true → ch' = true) ∧
      (ch' = false → m' = m) ∧
      (∀ j, (∀ c ∈ k.po, (m.lookup c).isSome) → (∀ c ∈ k.po, Good k (tbl m) j c) →
        (∀ c ∈ done, Good k (tbl m) (j + 1) c) →
        ∀ c ∈ k.po, Good k (tbl m') (j + 1) c) ∧
      ((∀ b ∈ k.po, b ≠ k.e → ∀ n, IsMeet k (tbl m) b n → m.lookup b = some n) → ch' = ch)
  | [], done, m, ch, hd, inv, hdone => by
    have hmem : ∀ y ∈ k.po, y ∈ done := by
      intro y hy
      have : y ∈ k.po.reverse := by simpa using hy
      rw [hd] at this
      simpa using this
    refine ⟨m, ch, rfl, inv, fun y hy => hdone y (hmem y hy), id, fun _ => rfl, ?_, fun _ => rfl⟩
    intro j _ _ hg c hc
    exact hg c (hmem c hc)
  | x :: r, done, m, ch, hd, inv, hdone => by
    have hpo : k.po = r.reverse ++ x :: done.reverse := by
      have := congrArg List.reverse hd
      simpa using this
    have hxm : x ∈ k.po := by rw [hpo]; simp
    have hd' : k.po.reverse = (done ++ [x]) ++ r := by rw [hd]; simp
    by_cases hxe : x = k.e
    · have hs : (m.lookup x).isSome := by
        have := inv.entry
        rw [hxe]
        exact Option.isSome_iff_exists.2 ⟨_, this⟩
      obtain ⟨m', ch', h1, h2, h3, h4, h5, h6, h7⟩ := pass_aux ok r (done ++ [x]) (m := m) (ch := ch) hd'
        inv (by
          intro y hy
          rcases List.mem_append.1 hy with hy | hy
          · exact hdone y hy
          · simp only [List.mem_singleton] at hy
            subst hy; exact hs)
      refine ⟨m', ch', ?_, h2, h3, h4, h5, ?_, h7⟩
      · have : (x != k.e) = false := by simpa using hxe
        simp only [List.filter_cons, this, Bool.false_eq_true, if_false]
        exact h1
      · intro j ha hg hgd
        refine h6 j ha hg ?_
        intro c hc
        rcases List.mem_append.1 hc with hc | hc
        · exact hgd c hc
        · simp only [List.mem_singleton] at hc
          rw [hc, hxe]
          intro y hy l hl _
          rw [hy.of_entry]
          exact walk_end_mem hl
    · have hrdy := ok.ready hd hxe hdone
      obtain ⟨n, hm, he⟩ := ok.process_spec inv (b := x) (ch := ch)
        (hrdy.elim fun p h => ⟨p, h.1, h.2.1⟩)
      have hb : (x != k.e) = true := by simpa using hxe
      have hidx : ∀ c ∈ done, k.idx x < k.idx c := fun c hc =>
        idxOf_lt_of_split ok.nodup hpo (by simpa using hc)
      by_cases heq : m.lookup x = some n
      · obtain ⟨m', ch', h1, h2, h3, h4, h5, h6, h7⟩ := pass_aux ok r (done ++ [x]) (m := m) (ch := ch)
          hd' inv (by
            intro y hy
            rcases List.mem_append.1 hy with hy | hy
            · exact hdone y hy
            · simp only [List.mem_singleton] at hy
              subst hy; rw [heq]; rfl)
        refine ⟨m', ch', ?_, h2, h3, h4, h5, ?_, h7⟩
        · simp only [List.filter_cons, hb, if_true, List.foldlM_cons, he, heq,
            Option.bind_eq_bind, Option.bind_some]
          exact h1
        · intro j ha hg hgd
          refine h6 j ha hg ?_
          intro c hc
          rcases List.mem_append.1 hc with hc | hc
          · exact hgd c hc
          · simp only [List.mem_singleton] at hc
            subst hc
            have := (Good.update ok inv hxe hm hrdy ha hg).1
            rwa [upd_self heq] at this
      · have inv' : k.Inv (tbl (insertKV m x n)) := by
          rw [lookup_upd]
          exact inv.update ok hxm hxe hm hrdy
        obtain ⟨m', ch', h1, h2, h3, h4, h5, h6, h7⟩ := pass_aux ok r (done ++ [x])
          (m := insertKV m x n) (ch := true) hd' inv' (by
            intro y hy
            rw [lookup_insertKV]
            split
            · rfl
            · rename_i hyx
              rcases List.mem_append.1 hy with hy | hy
              · exact hdone y hy
              · simp only [List.mem_singleton] at hy
                exact absurd hy hyx)
        have hch := h4 rfl
        refine ⟨m', ch', ?_, h2, h3, fun _ => hch, ?_, ?_, ?_⟩
        · simp only [List.filter_cons, hb, if_true, List.foldlM_cons, he, heq, if_false,
            Option.bind_eq_bind, Option.bind_some]
          exact h1
        · intro h; rw [hch] at h; simp at h
        · intro j ha hg hgd
          obtain ⟨g1, g2, g3⟩ := Good.update ok inv hxe hm hrdy ha hg
          refine h6 j ?_ ?_ ?_
          · intro c hc
            rw [lookup_insertKV]
            split
            · rfl
            · exact ha c hc
          · rw [lookup_upd]; exact g2
          · intro c hc
            rw [lookup_upd]
            rcases List.mem_append.1 hc with hc | hc
            · exact g3 c (hidx c hc) (hgd c hc)
            · simp only [List.mem_singleton] at hc
              subst hc; exact g1
        · intro hfix
          exact absurd (hfix x hxm hxe n hm) heq

theorem OK.pass_spec (ok : k.OK) {m : List (Nat × Nat)} (inv : k.Inv (tbl m)) :
    ∃ m' ch', pass k.preds k.po k.e m = some (m', ch') ∧ k.Inv (tbl m') ∧
      (∀ y ∈ k.po, (m'.lookup y).isSome) ∧ (ch' = false → m' = m) ∧
      (∀ j, (∀ c ∈ k.po, (m.lookup c).isSome) → (∀ c ∈ k.po, Good k (tbl m) j c) →
        ∀ c ∈ k.po, Good k (tbl m') (j + 1) c) ∧
      ((∀ b ∈ k.po, b ≠ k.e → ∀ n, IsMeet k (tbl m) b n → m.lookup b = some n) →
        ch' = false) := by
  obtain ⟨m', ch', h1, h2, h3, -, h5, h6, h7⟩ := ok.pass_aux k.po.reverse [] (m := m) (ch := false)
    (by simp) inv (by simp)
  exact ⟨m', ch', h1, h2, h3, h5, fun j ha hg => h6 j ha hg (by simp), h7⟩

/-! ## The fixpoint -/

/-- The tree is the dominator tree. -/
def Exact (k : Ctx) (T : Nat → Option Nat) : Prop :=
  ∀ c ∈ k.po, ∀ x, Anc T k.e c x ↔ Dominates k.E k.e x c

theorem OK.exact_of_good (ok : k.OK) (inv : k.Inv T) (all : ∀ c ∈ k.po, (T c).isSome) {j : Nat}
    (hj : k.po.length ≤ j + 1) (hg : ∀ c ∈ k.po, Good k T j c) : Exact k T := by
  intro c hc x
  refine ⟨?_, inv.opt c x (all c hc)⟩
  intro h l hl
  obtain ⟨l', h', hn, hs⟩ := walk_simple hl
  refine hs x (hg c hc x h l' h' (Nat.le_trans ?_ hj))
  refine hn.length_le_of_subset ?_
  intro y hy
  exact (ok.mem y).2 (walk_mem_reach h' hy)

theorem Inv.good_zero (inv : k.Inv T) {c : Nat} : Good k T 0 c := by
  intro x hx l hl hlen
  cases hl with
  | start => rw [hx.of_entry]; simp
  | step hl he =>
    have := walk_ne_nil hl
    simp only [List.length_append, List.length_singleton] at hlen
    have : 0 < _ := List.length_pos_iff.2 this
    omega

theorem OK.exact_fixed (ok : k.OK) (inv : k.Inv T) (all : ∀ c ∈ k.po, (T c).isSome)
    (ex : Exact k T) {b n : Nat} (hb : b ∈ k.po) (hbe : b ≠ k.e) (hm : IsMeet k T b n)
    (hp : ∃ p, k.E p b ∧ (T p).isSome ∧ k.idx b < k.idx p) : T b = some n := by
  obtain ⟨t, ht⟩ := Option.isSome_iff_exists.1 (all b hb)
  obtain ⟨hts, hbt⟩ := inv.asc b t hbe ht
  have hlt := hm.above inv hp
  have htn : Anc T k.e n t := by
    refine hm.glb t (fun p he hs => ?_)
    have hpm := inv.anc_mem hs
    refine (ex p hpm t).2 (dom_pred ((ex b hb t).1 (.up hbe ht .self)) ?_ he)
    rintro rfl
    omega
  have hnt : Anc T k.e t n := by
    have hd : Dominates k.E k.e n b := by
      refine dom_of_preds hbe (fun p hr he => ?_)
      have hpm := (ok.mem p).2 hr
      exact (ex p hpm n).1 (hm.anc p he (all p hpm))
    cases (ex b hb n).2 hd with
    | self => omega
    | up _ h2 h3 =>
      rw [ht] at h2
      obtain rfl := Option.some.inj h2
      exact h3
  rw [ht, inv.anc_antisymm hts hnt htn]

theorem OK.ready_all (ok : k.OK) (all : ∀ c ∈ k.po, (T c).isSome) {b : Nat} (hb : b ∈ k.po)
    (hbe : b ≠ k.e) : ∃ p, k.E p b ∧ (T p).isSome ∧ k.idx b < k.idx p := by
  have : b ∈ k.po.reverse := by simpa using hb
  obtain ⟨done, r, h⟩ := List.append_of_mem this
  refine ok.ready h hbe (fun y hy => all y ?_)
  have : y ∈ k.po.reverse := by rw [h]; exact List.mem_append_left _ hy
  simpa using this

theorem OK.exact_of_pass (ok : k.OK) {m : List (Nat × Nat)} (inv : k.Inv (tbl m))
    (all : ∀ y ∈ k.po, (m.lookup y).isSome)
    (h : pass k.preds k.po k.e m = some (m, false)) : Exact k (tbl m) := by
  have good : ∀ j, ∀ c ∈ k.po, Good k (tbl m) j c := by
    intro j
    induction j with
    | zero => exact fun c _ => inv.good_zero
    | succ j ih =>
      obtain ⟨m', ch', h1, -, -, -, h5, -⟩ := ok.pass_spec inv
      rw [h] at h1
      cases h1
      exact h5 j all ih
  exact ok.exact_of_good inv all (j := k.po.length) (by omega) (good _)

theorem OK.passes_spec (ok : k.OK) : ∀ {fuel j : Nat} {m : List (Nat × Nat)}, k.Inv (tbl m) →
    (∀ y ∈ k.po, (m.lookup y).isSome) → (∀ c ∈ k.po, Good k (tbl m) j c) →
    k.po.length + 1 ≤ fuel + j →  1 ≤ fuel →
    ∃ m', passes k.preds k.po k.e fuel m = some m' ∧ k.Inv (tbl m') ∧
      (∀ y ∈ k.po, (m'.lookup y).isSome) ∧ Exact k (tbl m')
  | 0, _, _, _, _, _, _, h => absurd h (by omega)
  | fuel + 1, j, m, inv, all, hg, hf, _ => by
    obtain ⟨m', ch', h1, h2, h3, h4, h5, h6⟩ := ok.pass_spec inv
    cases ch' with
    | false =>
      obtain rfl := h4 rfl
      exact ⟨m', by simp [passes, h1], inv, all, ok.exact_of_pass inv all h1⟩
    | true =>
      have hlt : ¬ k.po.length ≤ j + 1 := by
        intro hle
        have ex := ok.exact_of_good inv all hle hg
        have := h6 (fun b hb hbe n hm => ok.exact_fixed inv all ex hb hbe hm (ok.ready_all all hb hbe))
        simp at this
      obtain ⟨m2, e2, r⟩ := passes_spec ok (fuel := fuel) h2 h3 (h5 j all hg) (by omega) (by omega)
      exact ⟨m2, by simp [passes, h1, e2], r⟩

theorem inv_init (ok : k.OK) : k.Inv (tbl [(k.e, k.e)]) := by
  have hl : ∀ c, tbl [(k.e, k.e)] c = if c = k.e then some k.e else none := by
    intro c
    by_cases h : c = k.e
    · subst h; simp [tbl]
    · have hb : (c == k.e) = false := by simpa using h
      simp [tbl, List.lookup_cons, hb, h]
  refine ⟨by simp [hl], ?_, ?_, ?_, ?_⟩
  · intro c t h
    rw [hl] at h
    split at h
    · rename_i e; rw [e]; exact ok.e_mem
    · simp at h
  · intro c t hc h
    simp [hl, hc] at h
  · intro c x hc hx
    rw [hl] at hc
    split at hc
    · rename_i e
      subst e
      have := hx _ .start
      simp only [List.mem_singleton] at this
      rw [this]; exact .self
    · simp at hc
  · intro c t hc h
    simp [hl, hc] at h

theorem OK.calculate_spec (ok : k.OK) {fuel : Nat} (hf : k.po.length + 2 ≤ fuel) :
    ∃ m, passes k.preds k.po k.e fuel [(k.e, k.e)] = some m ∧ k.Inv (tbl m) ∧
      (∀ y ∈ k.po, (m.lookup y).isSome) ∧ Exact k (tbl m) := by
  obtain ⟨m', ch', h1, h2, h3, h4, -, -⟩ := ok.pass_spec (m := [(k.e, k.e)]) (inv_init ok)
  match fuel, hf with
  | fuel + 1, hf =>
    cases ch' with
    | false =>
      obtain rfl := h4 rfl
      exact ⟨_, by simp [passes, h1], h2, h3, ok.exact_of_pass h2 h3 h1⟩
    | true =>
      obtain ⟨m2, e2, r⟩ := ok.passes_spec (fuel := fuel) (j := 0) h2 h3
        (fun c _ => h2.good_zero) (by omega) (by omega)
      exact ⟨m2, by simp [passes, h1, e2], r⟩

end Ctx

end Verif.Dom
