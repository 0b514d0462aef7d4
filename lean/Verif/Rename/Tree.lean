import Verif.Rename.Spec
import Verif.Names.Lemmas
/-!
# Scope trees and usages
-/

namespace Verif.Rename

open Verif.Names

variable {sem : Sem} {h : Nat} {refs : List Ref}

theorem Anc.trans {a b c : Nat} (h1 : Anc sem a b) (h2 : Anc sem b c) : Anc sem a c := by
  induction h2 with
  | refl => exact h1
  | up hp _ ih => exact .up hp ih

theorem Anc.cases_up {a s : Nat} (h1 : Anc sem a s) :
    a = s ∨ ∃ p, (sem.scope s).parent = some p ∧ Anc sem a p := by
  cases h1 with
  | refl => exact .inl rfl
  | up hp h => exact .inr ⟨_, hp, h⟩

/-- Two scopes around the same scope are comparable. -/
theorem Anc.total {a b c : Nat} (h1 : Anc sem a c) (h2 : Anc sem b c) : Anc sem a b ∨ Anc sem b a := by
  induction h1 with
  | refl => exact .inr h2
  | up hp h ih =>
    rcases h2.cases_up with rfl | ⟨p, hp', h'⟩
    · exact .inl (.up hp h)
    · rw [hp] at hp'; cases hp'; exact ih h'

theorem Anc.depth_le (T : Tables sem h) : ∃ d : Nat → Nat,
    (∀ s p, (sem.scope s).parent = some p → d s = d p + 1) ∧ (∀ s, d s < h) ∧
    ∀ a s, Anc sem a s → d a ≤ d s ∧ (d a = d s → a = s) := by
  obtain ⟨d, h1, h2⟩ := T.depth
  refine ⟨d, h1, h2, ?_⟩
  intro a s has
  induction has with
  | refl => exact ⟨Nat.le_refl _, fun _ => rfl⟩
  | up hp _ ih => have := h1 _ _ hp; exact ⟨by omega, by omega⟩

theorem Anc.antisymm (T : Tables sem h) {a b : Nat} (h1 : Anc sem a b) (h2 : Anc sem b a) : a = b := by
  obtain ⟨d, _, _, h3⟩ := Anc.depth_le T
  have e1 := h3 _ _ h1
  have e2 := h3 _ _ h2
  exact e1.2 (by omega)

theorem Anc.parent_ne (T : Tables sem h) {s p : Nat} (hp : (sem.scope s).parent = some p) :
    ¬ Anc sem s p := by
  obtain ⟨d, h1, _, h3⟩ := Anc.depth_le T
  intro hc
  have := h1 _ _ hp
  have := (h3 _ _ hc).1
  omega

theorem Anc.top_top (T : Tables sem h) {a : Nat} (h1 : Anc sem a sem.top) : a = sem.top := by
  rcases h1.cases_up with rfl | ⟨p, hp, _⟩
  · rfl
  · rw [T.top] at hp; cases hp

theorem mem_chain_aux (d : Nat → Nat) (h1 : ∀ s p, (sem.scope s).parent = some p → d s = d p + 1) :
    ∀ (fuel s : Nat), d s < fuel → ∀ a, a ∈ chain sem fuel s ↔ Anc sem a s := by
  intro fuel
  induction fuel with
  | zero => intro s hs; omega
  | succ fuel ih =>
    intro s hs a
    simp only [chain, List.mem_cons]
    cases hp : (sem.scope s).parent with
    | none =>
      constructor
      · intro h; rcases h with rfl | h
        · exact .refl
        · cases h
      · intro h
        rcases h.cases_up with rfl | ⟨p, hp', _⟩
        · exact .inl rfl
        · rw [hp] at hp'; cases hp'
    | some p =>
      have hd := h1 _ _ hp
      simp only
      rw [ih p (by omega)]
      constructor
      · intro h; rcases h with rfl | h
        · exact .refl
        · exact .up hp h
      · intro h
        rcases h.cases_up with rfl | ⟨q, hp', h'⟩
        · exact .inl rfl
        · rw [hp] at hp'; cases hp'; exact .inr h'

theorem mem_chain (T : Tables sem h) (a s : Nat) : a ∈ chain sem h s ↔ Anc sem a s := by
  obtain ⟨d, h1, h2, _⟩ := Anc.depth_le T
  exact mem_chain_aux d h1 h s (h2 s) a

theorem mem_takeWhile_chain (T : Tables sem h) (x d s : Nat) (hd : Anc sem d s) :
    x ∈ (chain sem h s).takeWhile (fun t => t != d) ↔ Anc sem x s ∧ Anc sem d x ∧ x ≠ d := by
  obtain ⟨dp, h1, h2, _⟩ := Anc.depth_le T
  have key : ∀ (fuel s : Nat), dp s < fuel → Anc sem d s →
      (x ∈ (chain sem fuel s).takeWhile (fun t => t != d) ↔ Anc sem x s ∧ Anc sem d x ∧ x ≠ d) := by
    intro fuel
    induction fuel with
    | zero => intro s hs; omega
    | succ fuel ih =>
      intro s hs hds
      simp only [chain, List.takeWhile_cons]
      by_cases hsd : s = d
      · subst hsd
        simp only [bne_self_eq_false, Bool.false_eq_true, if_false, List.not_mem_nil, false_iff]
        rintro ⟨ha, hb, hc⟩
        exact hc (Anc.antisymm T ha hb)
      · rw [if_pos (by simpa using hsd)]
        rcases hds.cases_up with rfl | ⟨p, hp, hdp⟩
        · exact absurd rfl hsd
        · have hdp' := h1 _ _ hp
          simp only [hp, List.mem_cons]
          rw [ih p (by omega) hdp]
          constructor
          · rintro (rfl | ⟨ha, hb, hc⟩)
            · exact ⟨.refl, hds, hsd⟩
            · exact ⟨.up hp ha, hb, hc⟩
          · rintro ⟨ha, hb, hc⟩
            rcases ha.cases_up with rfl | ⟨q, hp', h'⟩
            · exact .inl rfl
            · rw [hp] at hp'; cases hp'; exact .inr ⟨h', hb, hc⟩
  exact key h s (h2 s) hd

theorem Declares.scope (T : Tables sem h) {s : Nat} {x : Sym} (hx : Declares sem s x) : sem.declScope x = s := by
  obtain ⟨n, hn⟩ := hx; exact (T.symbol _ _ _ hn).1

theorem nodup_key {α β : Type} {l : List (α × β)} (hn : (l.map Prod.fst).Nodup) {k : α} {a b : β}
    (ha : (k, a) ∈ l) (hb : (k, b) ∈ l) : a = b := by
  induction l with
  | nil => cases ha
  | cons e l ih =>
    simp only [List.map_cons, List.nodup_cons] at hn
    rcases List.mem_cons.1 ha with rfl | ha'
    · rcases List.mem_cons.1 hb with h | hb'
      · cases h; rfl
      · exact absurd (List.mem_map_of_mem (f := Prod.fst) hb') hn.1
    · rcases List.mem_cons.1 hb with rfl | hb'
      · exact absurd (List.mem_map_of_mem (f := Prod.fst) ha') hn.1
      · exact ih hn.2 ha' hb'

theorem Declares.inj (T : Tables sem h) {s : Nat} {x y : Sym} (hx : Declares sem s x) (hy : Declares sem s y)
    (he : sem.symName x = sem.symName y) : x = y := by
  obtain ⟨n, hn⟩ := hx
  obtain ⟨m, hm⟩ := hy
  have h1 := (T.symbol _ _ _ hn).2
  have h2 := (T.symbol _ _ _ hm).2
  rw [h1, h2] at he
  subst he
  exact nodup_key (T.names s) hn hm

/-- What an identifier denotes is declared around it under the identifier's name. -/
theorem Denotes.some_spec (T : Tables sem h) {name : Sym → Name} {n : Name} {s : Nat} {r : Option Sym}
    (hd : Denotes sem name n s r) : ∀ {x : Sym}, r = some x → Anc sem (sem.declScope x) s ∧
      Declares sem (sem.declScope x) x ∧ name x = n ∧
      ∀ t y, Anc sem t s → Anc sem (sem.declScope x) t → t ≠ sem.declScope x → Declares sem t y →
        name y ≠ n := by
  induction hd with
  | @here s z hz hn =>
    intro x hx
    cases hx
    rw [hz.scope T]
    refine ⟨.refl, hz, hn, ?_⟩
    intro t y h1 h2 h3
    exact absurd (Anc.antisymm T h1 h2) h3
  | @up s p r hno hp hd ih =>
    intro x hx
    obtain ⟨h1, h2, h3, h4⟩ := ih hx
    refine ⟨.up hp h1, h2, h3, ?_⟩
    intro t y ht h5 h6 hy
    rcases ht.cases_up with rfl | ⟨q, hq, hq'⟩
    · exact hno y hy
    · rw [hp] at hq; cases hq; exact h4 t y hq' h5 h6 hy
  | glob hno hp => intro x hx; cases hx

theorem Denotes.none_spec {name : Sym → Name} {n : Name} {s : Nat} {r : Option Sym}
    (hd : Denotes sem name n s r) (hr : r = none) : ∀ t y, Anc sem t s → Declares sem t y → name y ≠ n := by
  induction hd with
  | here hx hn => cases hr
  | up hno hp hd ih =>
    intro t y ht hy
    rcases ht.cases_up with rfl | ⟨q, hq, hq'⟩
    · exact hno y hy
    · rw [hp] at hq; cases hq; exact ih hr t y hq' hy
  | glob hno hp =>
    intro t y ht hy
    rcases ht.cases_up with rfl | ⟨q, hq, hq'⟩
    · exact hno y hy
    · rw [hp] at hq; cases hq

/-- The converse for a symbol. -/
theorem denotes_some {name : Sym → Name} {s : Nat} {x : Sym} (hx : Declares sem (sem.declScope x) x)
    (ha : Anc sem (sem.declScope x) s)
    (hno : ∀ t y, Anc sem t s → Anc sem (sem.declScope x) t → t ≠ sem.declScope x → Declares sem t y →
      name y ≠ name x) : Denotes sem name (name x) s (some x) := by
  generalize hd : sem.declScope x = d at *
  induction ha with
  | refl => exact .here hx rfl
  | @up s p hp ha ih =>
    by_cases hs : s = d
    · subst hs; exact .here hx rfl
    · exact .up (fun y hy => hno s y .refl (.up hp ha) hs hy) hp
        (ih (fun t y h1 h2 h3 h4 => hno t y (.up hp h1) h2 h3 h4))

/-- The converse for a global. -/
theorem denotes_none (T : Tables sem h) {name : Sym → Name} {n : Name} (s : Nat)
    (hno : ∀ t y, Anc sem t s → Declares sem t y → name y ≠ n) : Denotes sem name n s none := by
  obtain ⟨d, h1, _⟩ := T.depth
  have : ∀ k s, d s = k → (∀ t y, Anc sem t s → Declares sem t y → name y ≠ n) →
      Denotes sem name n s none := by
    intro k
    induction k with
    | zero =>
      intro s hs hno
      cases hp : (sem.scope s).parent with
      | none => exact .glob (fun y hy => hno s y .refl hy) hp
      | some p => have := h1 _ _ hp; omega
    | succ k ih =>
      intro s hs hno
      cases hp : (sem.scope s).parent with
      | none => exact .glob (fun y hy => hno s y .refl hy) hp
      | some p =>
        have := h1 _ _ hp
        exact .up (fun y hy => hno s y .refl hy) hp
          (ih p (by omega) (fun t y h1 h2 => hno t y (.up hp h1) h2))
  exact this _ s rfl hno

/-! ## Usages -/

theorem usages_spec (T : Tables sem h) : ∀ (rs : List Ref) (u : Nat → Usages), Bound sem rs →
    (∀ s x, x ∈ ((rs.foldl (recordRef sem h) u) s).foreign ↔ x ∈ (u s).foreign ∨ Free sem rs s x) ∧
    (∀ s n, n ∈ ((rs.foldl (recordRef sem h) u) s).unknown ↔
      n ∈ (u s).unknown ∨ ∃ r ∈ rs, r.sym = none ∧ r.name = n ∧ Anc sem s r.scope) := by
  intro rs
  induction rs with
  | nil => intro u _; simp [Free]
  | cons r rs ih =>
    intro u hb
    have hr := hb r List.mem_cons_self
    have ih' := ih (recordRef sem h u r) (fun r' hr' => hb r' (List.mem_cons_of_mem _ hr'))
    simp only [List.foldl_cons]
    cases hs : r.sym with
    | none =>
      constructor
      · intro s x
        rw [ih'.1]
        have : ((recordRef sem h u r) s).foreign = (u s).foreign := by
          simp only [recordRef, hs, recordUnknown]; split <;> rfl
        rw [this]
        simp only [Free, List.mem_cons, exists_eq_or_imp, hs, reduceCtorEq, false_and, false_or]
      · intro s n
        rw [ih'.2]
        have : n ∈ ((recordRef sem h u r) s).unknown ↔ n ∈ (u s).unknown ∨ (r.name = n ∧ Anc sem s r.scope) := by
          simp only [recordRef, hs, recordUnknown]
          split
          · rename_i hm
            rw [mem_chain T] at hm
            simp only [List.mem_cons, hm, and_true]
            constructor
            · rintro (rfl | h)
              · exact .inr rfl
              · exact .inl h
            · rintro (h | rfl)
              · exact .inr h
              · exact .inl rfl
          · rename_i hm
            rw [mem_chain T] at hm
            simp [hm]
        rw [this]
        simp only [List.mem_cons, exists_eq_or_imp, hs, true_and, or_assoc]
    | some z =>
      have hz := (hr.2).some_spec T hs
      constructor
      · intro s x
        rw [ih'.1]
        have : x ∈ ((recordRef sem h u r) s).foreign ↔ x ∈ (u s).foreign ∨
            (z = x ∧ s ≠ sem.declScope x ∧ Anc sem (sem.declScope x) s ∧ Anc sem s r.scope) := by
          simp only [recordRef, hs, recordSymbolUsage]
          split
          · rename_i hm
            rw [mem_takeWhile_chain T _ _ _ hz.1] at hm
            simp only [List.mem_cons]
            constructor
            · rintro (rfl | h)
              · exact .inr ⟨rfl, hm.2.2, hm.2.1, hm.1⟩
              · exact .inl h
            · rintro (h | ⟨rfl, _⟩)
              · exact .inr h
              · exact .inl rfl
          · rename_i hm
            rw [mem_takeWhile_chain T _ _ _ hz.1] at hm
            constructor
            · exact .inl
            · rintro (h | ⟨rfl, h1, h2, h3⟩)
              · exact h
              · exact absurd ⟨h3, h2, h1⟩ hm
        rw [this]
        simp only [Free, List.mem_cons, exists_eq_or_imp, hs, Option.some.injEq]
        constructor
        · rintro ((h | ⟨h1, h2, h3, h4⟩) | ⟨h1, h2, h3⟩)
          · exact .inl h
          · exact .inr ⟨h2, h3, .inl ⟨h1, h4⟩⟩
          · exact .inr ⟨h1, h2, .inr h3⟩
        · rintro (h | ⟨h1, h2, ⟨h3, h4⟩ | h3⟩)
          · exact .inl (.inl h)
          · exact .inl (.inr ⟨h3, h1, h2, h4⟩)
          · exact .inr ⟨h1, h2, h3⟩
      · intro s n
        rw [ih'.2]
        have : ((recordRef sem h u r) s).unknown = (u s).unknown := by
          simp only [recordRef, hs, recordSymbolUsage]; split <;> rfl
        rw [this]
        simp only [List.mem_cons, exists_eq_or_imp, hs, reduceCtorEq, false_and, false_or]

/-! ## The order of the recursion -/

theorem anc_of_child (T : Tables sem h) {r c : Nat} (hc : c ∈ (sem.scope r).children) : Anc sem r c :=
  .up ((T.children r c).1 hc) .refl

/-- A proper descendant lies below one of the children. -/
theorem Anc.via_child (T : Tables sem h) {r s : Nat} (ha : Anc sem r s) :
    r = s ∨ ∃ c ∈ (sem.scope r).children, Anc sem c s := by
  induction ha with
  | refl => exact .inl rfl
  | @up s p hp _ ih =>
    rcases ih with rfl | ⟨c, hc, h⟩
    · exact .inr ⟨s, (T.children _ _).2 hp, .refl⟩
    · exact .inr ⟨c, hc, .up hp h⟩

theorem mem_preorder_aux (T : Tables sem h) (d : Nat → Nat)
    (h1 : ∀ s p, (sem.scope s).parent = some p → d s = d p + 1) (h2 : ∀ s, d s < h) :
    ∀ (fuel r : Nat), h ≤ d r + fuel → ∀ s, s ∈ preorder sem fuel r ↔ Anc sem r s := by
  intro fuel
  induction fuel with
  | zero => intro r hr; have := h2 r; omega
  | succ fuel ih =>
    intro r hr s
    simp only [preorder, List.mem_cons, List.mem_flatMap]
    constructor
    · rintro (rfl | ⟨c, hc, hs⟩)
      · exact .refl
      · have := h1 _ _ ((T.children r c).1 hc)
        exact (anc_of_child T hc).trans ((ih c (by omega) s).1 hs)
    · intro ha
      rcases ha.via_child T with rfl | ⟨c, hc, hs⟩
      · exact .inl rfl
      · have := h1 _ _ ((T.children r c).1 hc)
        exact .inr ⟨c, hc, (ih c (by omega) s).2 hs⟩

theorem mem_preorder (T : Tables sem h) (hd : ∃ d : Nat → Nat, (∀ s p, (sem.scope s).parent = some p →
    d s = d p + 1) ∧ (∀ s, d s < h)) (s : Nat) : s ∈ preorder sem h sem.top ↔ Anc sem sem.top s := by
  obtain ⟨d, h1, h2⟩ := hd
  exact mem_preorder_aux T d h1 h2 h sem.top (by omega) s

theorem nodup_preorder (T : Tables sem h) (d : Nat → Nat)
    (h1 : ∀ s p, (sem.scope s).parent = some p → d s = d p + 1) (h2 : ∀ s, d s < h) :
    ∀ (fuel r : Nat), h ≤ d r + fuel → (preorder sem fuel r).Nodup := by
  intro fuel
  induction fuel with
  | zero => intro r hr; simp [preorder]
  | succ fuel ih =>
    intro r hr
    have hdc : ∀ c ∈ (sem.scope r).children, h ≤ d c + fuel := fun c hc => by
      have := h1 _ _ ((T.children r c).1 hc); omega
    simp only [preorder, List.nodup_cons, List.mem_flatMap, not_exists, not_and]
    constructor
    · intro c hc hm
      have := (mem_preorder_aux T d h1 h2 fuel c (hdc c hc) r).1 hm
      exact Anc.parent_ne T ((T.children r c).1 hc) this
    · have hsub : ∀ cs : List Nat, cs.Nodup → (∀ c ∈ cs, c ∈ (sem.scope r).children) →
          (cs.flatMap (preorder sem fuel)).Nodup := by
        intro cs
        induction cs with
        | nil => intro _ _; simp
        | cons c cs ihc =>
          intro hn hin
          simp only [List.nodup_cons] at hn
          simp only [List.flatMap_cons, List.nodup_append]
          refine ⟨ih c (hdc c (hin c List.mem_cons_self)), ihc hn.2 (fun c' hc' => hin c' (List.mem_cons_of_mem _ hc')), ?_⟩
          intro a ha b hb hab
          subst hab
          obtain ⟨c', hc', hb⟩ := List.mem_flatMap.1 hb
          have e1 := (mem_preorder_aux T d h1 h2 fuel c (hdc c (hin c List.mem_cons_self)) a).1 ha
          have e2 := (mem_preorder_aux T d h1 h2 fuel c' (hdc c' (hin c' (List.mem_cons_of_mem _ hc'))) a).1 hb
          have p1 := (T.children r c).1 (hin c List.mem_cons_self)
          have p2 := (T.children r c').1 (hin c' (List.mem_cons_of_mem _ hc'))
          have : c = c' := by
            rcases e1.total e2 with h | h
            · rcases h.cases_up with rfl | ⟨q, hq, h'⟩
              · rfl
              · rw [p2] at hq; cases hq; exact absurd h' (Anc.parent_ne T p1)
            · rcases h.cases_up with rfl | ⟨q, hq, h'⟩
              · rfl
              · rw [p1] at hq; cases hq; exact absurd h' (Anc.parent_ne T p2)
          subst this
          exact hn.1 hc'
      exact hsub _ (T.nodup r) (fun c hc => hc)

/-- In the order of the recursion every scope but the first comes after its parent. -/
def Ordered (sem : Sem) (done : List Nat) : List Nat → Prop
  | [] => True
  | s :: rest => s ∉ done ∧ (∀ p, (sem.scope s).parent = some p → p ∈ done) ∧ Ordered sem (s :: done) rest

theorem Ordered.congr (l : List Nat) : ∀ {d1 d2 : List Nat}, (∀ s, s ∈ d1 ↔ s ∈ d2) →
    Ordered sem d1 l → Ordered sem d2 l := by
  induction l with
  | nil => intro _ _ _ _; trivial
  | cons a l ih =>
    intro d1 d2 he ho
    refine ⟨fun h => ho.1 ((he a).2 h), fun p hp => (he p).1 (ho.2.1 p hp), ih ?_ ho.2.2⟩
    intro s; simp only [List.mem_cons, he]

theorem Ordered.append : ∀ (l1 l2 done : List Nat), Ordered sem done l1 → Ordered sem (l1 ++ done) l2 →
    Ordered sem done (l1 ++ l2) := by
  intro l1
  induction l1 with
  | nil => intro l2 done _ h; exact h
  | cons a l1 ih =>
    intro l2 done h1 h2
    refine ⟨h1.1, h1.2.1, ih l2 (a :: done) h1.2.2 (Ordered.congr l2 ?_ h2)⟩
    intro s
    simp only [List.mem_append, List.mem_cons]
    constructor
    · rintro ((h | h) | h)
      · exact .inr (.inl h)
      · exact .inl h
      · exact .inr (.inr h)
    · rintro (h | h | h)
      · exact .inl (.inr h)
      · exact .inl (.inl h)
      · exact .inr h

theorem ordered_preorder (T : Tables sem h) : ∀ (fuel r : Nat) (done : List Nat),
    (preorder sem fuel r).Nodup → (∀ s ∈ preorder sem fuel r, s ∉ done) →
    (∀ p, (sem.scope r).parent = some p → p ∈ done) → Ordered sem done (preorder sem fuel r) := by
  intro fuel
  induction fuel with
  | zero => intro r done _ _ _; trivial
  | succ fuel ih =>
    intro r done hn hout hp
    simp only [preorder, List.nodup_cons] at hn
    simp only [preorder, List.mem_cons, forall_eq_or_imp] at hout
    simp only [preorder, Ordered]
    refine ⟨hout.1, hp, ?_⟩
    have hsub : ∀ (cs : List Nat) (done : List Nat), (∀ c ∈ cs, c ∈ (sem.scope r).children) → r ∈ done →
        (cs.flatMap (preorder sem fuel)).Nodup → (∀ s ∈ cs.flatMap (preorder sem fuel), s ∉ done) →
        Ordered sem done (cs.flatMap (preorder sem fuel)) := by
      intro cs
      induction cs with
      | nil => intro _ _ _ _ _; trivial
      | cons c cs ihc =>
        intro done hin hr hnd ho
        simp only [List.flatMap_cons, List.nodup_append] at hnd
        simp only [List.flatMap_cons, List.mem_append] at ho
        rw [List.flatMap_cons]
        refine Ordered.append _ _ _ (ih c done hnd.1 (fun s hs => ho s (.inl hs)) ?_) ?_
        · intro p hp
          rw [(T.children r c).1 (hin c List.mem_cons_self)] at hp
          cases hp; exact hr
        · refine ihc _ (fun c' hc' => hin c' (List.mem_cons_of_mem _ hc')) (List.mem_append_right _ hr) hnd.2.1 ?_
          intro s hs hm
          rcases List.mem_append.1 hm with hm | hm
          · exact hnd.2.2 s hm s hs rfl
          · exact ho s (.inr hs) hm
    refine hsub _ _ (fun c hc => hc) List.mem_cons_self hn.2 ?_
    intro s hs hm
    rcases List.mem_cons.1 hm with rfl | hm
    · exact hn.1 hs
    · exact hout.2 s hs hm

/-- The recursion is a fold over the scopes in this order. -/
theorem assignScope_eq (c : Ctx) : ∀ (fuel : Nat) (ren : Renames) (s : Nat),
    c.assignScope fuel ren s = (preorder c.sem fuel s).foldlM c.assignOne ren := by
  intro fuel
  induction fuel with
  | zero => intro ren s; rfl
  | succ fuel ih =>
    intro ren s
    simp only [Ctx.assignScope, preorder, List.foldlM_cons]
    cases c.assignOne ren s with
    | none => rfl
    | some ren' =>
      simp only [Option.bind_eq_bind, Option.bind_some]
      have : ∀ (cs : List Nat) (ren : Renames), cs.foldlM (c.assignScope fuel) ren =
          (cs.flatMap (preorder c.sem fuel)).foldlM c.assignOne ren := by
        intro cs
        induction cs with
        | nil => intro _; rfl
        | cons a cs ihc =>
          intro ren
          simp only [List.foldlM_cons, List.flatMap_cons, List.foldlM_append, ih]
          cases (preorder c.sem fuel a).foldlM c.assignOne ren with
          | none => rfl
          | some r => exact ihc r
      exact this _ _

end Verif.Rename
