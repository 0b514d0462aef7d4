import Verif.Lower.SimStmt
import Verif.Lower.StaticB
/-!
# Translated bodies do what bodies do
-/

namespace Verif.Lower

open Verif.Il Verif.Lin Verif.Opt

/-! ## The declared variables -/

theorem mem_dedup (x : VarType) : ∀ l, x ∈ dedup l ↔ x ∈ l
  | [] => by simp [dedup]
  | [y] => by simp [dedup]
  | y :: z :: r => by
    rw [dedup]
    split
    · rename_i h
      subst h
      rw [mem_dedup x (y :: r)]
      simp
    · rw [List.mem_cons, mem_dedup x (z :: r)]
      simp

theorem dedup_sorted (f : VarType → Nat) : ∀ l : List VarType, l.Pairwise (fun x y => f x ≤ f y) →
    (∀ x ∈ l, ∀ y ∈ l, f x = f y → x = y) → (dedup l).Pairwise (fun x y => f x ≤ f y ∧ x ≠ y)
  | [], _, _ => by simp [dedup]
  | [y], _, _ => by simp [dedup]
  | y :: z :: r, h, hi => by
    have ih := dedup_sorted f (z :: r) (List.pairwise_cons.1 h).2
      (fun a ha b hb => hi a (List.mem_cons_of_mem _ ha) b (List.mem_cons_of_mem _ hb))
    rw [dedup]
    split
    · exact ih
    · rename_i hne
      refine List.pairwise_cons.2 ⟨fun a ha => ?_, ih⟩
      rw [mem_dedup] at ha
      have h1 := (List.pairwise_cons.1 h).1
      refine ⟨h1 a ha, fun e => ?_⟩
      subst e
      -- then the ones in between have the same symbol
      have h2 : f y ≤ f z := h1 z (by simp)
      have h3 : f z ≤ f y := by
        rcases List.mem_cons.1 ha with e | ha
        · exact absurd e hne
        · exact (List.pairwise_cons.1 (List.pairwise_cons.1 h).2).1 y ha
      exact hne (hi y (by simp) z (by simp) (by omega))

theorem hoisted_ok {b : Body} (hc : b.oneClass) : Hoisted b (hoisted b) := by
  have hmem : ∀ x, x ∈ hoisted b ↔ x ∈ b.stmts.varNames ∧ ∃ s, x.symbol = some s ∧ s ∉ b.params := by
    intro x
    rw [hoisted, mem_dedup, List.mem_mergeSort, List.mem_filter]
    cases hs : x.symbol with
    | none => simp
    | some s => simp
  have hsorted : (hoisted b).Pairwise (fun x y => x.symbol.getD 0 ≤ y.symbol.getD 0 ∧ x ≠ y) := by
    refine dedup_sorted (fun x => x.symbol.getD 0) _ ?_ ?_
    · have := List.pairwise_mergeSort (le := fun a b : VarType => decide (a.symbol.getD 0 ≤ b.symbol.getD 0))
        (fun a b c h1 h2 => by simp only [decide_eq_true_eq] at *; omega)
        (fun a b => by simp only [Bool.or_eq_true, decide_eq_true_eq]; omega)
        (b.stmts.varNames.filter (fun x => match x.symbol with
          | some s => !b.params.contains s
          | none => false))
      exact this.imp (fun h => by simpa using h)
    · intro x hx y hy e
      rw [List.mem_mergeSort, List.mem_filter] at hx hy
      refine hc x hx.1 y hy.1 ?_
      cases hs : x.symbol with
      | none => simp [hs] at hx
      | some s =>
        cases ht : y.symbol with
        | none => simp [ht] at hy
        | some t => simpa [hs, ht] using e
  exact ⟨hsorted.imp (fun h => h.1), hsorted.imp (fun h => h.2), hmem⟩

section
variable {V W : Type} {I : Interp V W} {num : V → W → V × W} {code : List Inst} {μ : Nat → Option Nat} {upd : Bool}

theorem simH (inj : Inj μ) : ∀ (vs : List VarType) {C C' : S} {is : List Inst} {pc : Nat} {env : Nat → V} {σ : St V W},
    Wf C → Good μ C' → compileHoisted vs C = some (C', is) → At code pc is → Agree μ σ.vars env →
    ∃ env', To I code ⟨pc, env, σ.world⟩ ⟨pc + is.length, env',
        (vs.foldl (fun s x => writeVar I x (undefinedV I) s) σ).world⟩ ∧
      Agree μ (vs.foldl (fun s x => writeVar I x (undefinedV I) s) σ).vars env'
  | [], C, C', is, pc, env, σ, w, g, h, hat, ag => by
    simp only [compileHoisted, Option.some.injEq, Prod.mk.injEq] at h
    obtain ⟨rfl, rfl⟩ := h
    exact ⟨env, .refl, ag⟩
  | v :: vs, C, C', is, pc, env, σ, w, g, h, hat, ag => by
    simp only [compileHoisted, Option.bind_eq_bind, Option.bind_eq_some_iff, Option.some.injEq, Prod.mk.injEq] at h
    obtain ⟨⟨C1, d⟩, h1, ⟨C2, is2⟩, h2, rfl, rfl⟩ := h
    split_at hat
    obtain ⟨e1, l1, hd⟩ := dest_ok h1 w
    have w1 := e1.wf w
    have x2 : Ext C1 C2 := (partH vs [] w1 h2).1.ext
    obtain ⟨e2, s2, ag2, -, -⟩ := sim_store (T := 0) (I := I) inj (dest_is w h1 (g.back x2)) hat.1 ag
    obtain ⟨e3, s3, ag3⟩ := simH inj vs w1 g h2 hat.2 ag2
    refine ⟨e3, (s2.trans s3).cast (by simp; omega) rfl rfl, ag3⟩

theorem mem_declared {p l : Nat} (h : code[p]? = some (label l)) : l ∈ declared code := by
  simp only [declared, List.mem_flatMap, List.mem_filter]
  exact ⟨label l, ⟨List.mem_of_getElem? h, rfl⟩, by simp [label]⟩

theorem placed {n : Nat} (ok : CodeOk code n) : Placed code := by
  intro p l h
  have hl : l < n := by
    obtain ⟨k, hk, -, hk'⟩ := ok.label _ (List.mem_of_getElem? h) rfl
    simp only [label, List.cons.injEq, and_true] at hk
    omega
  refine ⟨?_, fun e => by have := ok.counter.2; omega⟩
  obtain ⟨hp, he⟩ := List.getElem?_eq_some_iff.1 h
  rw [placeOf, List.findIdx?_eq_some_iff_getElem]
  refine ⟨hp, by simp [he, label], fun q hq hc => ?_⟩
  simp only [Bool.and_eq_true, beq_iff_eq] at hc
  have hsplit : code = code.take p ++ label l :: code.drop (p + 1) := by
    rw [← he, List.getElem_cons_drop, List.take_append_drop]
  have ho := ok.once
  rw [hsplit] at ho
  simp only [declared, List.filter_append, List.flatMap_append] at ho
  have := (List.nodup_append.1 ho).2.2 l ?_ l ?_
  · exact this rfl
  · simp only [List.mem_flatMap, List.mem_filter]
    refine ⟨code[q], ⟨?_, by simp [hc.1]⟩, by simp [hc.2]⟩
    rw [List.mem_take_iff_getElem]
    exact ⟨q, by omega, rfl⟩
  · simp [label]

/-- The whole body. -/
theorem simB {b : Body} {n m : Nat} (h : translate b = some (code, n, m)) (hn : n ≤ fallThrough)
    (ho : b.stmts.ordered upd = true) :
    ∃ μ : Nat → Option Nat, Inj μ ∧ (∀ s t, μ s = some t → t < m) ∧
      ∀ (V W : Type) (I : Interp V W) (num : V → W → V × W), (upd = true → ∀ v w, num v w = (v, w)) → ∀ (σ : St V W) (env : Nat → V), Agree μ σ.vars env → ∀ F,
        match runBody I num F (hoisted b) b σ with
        | .done c s => (c = .normal ∨ c = .ret ∧ b.isFn = true) ∧
          ∃ env', To I code ⟨0, env, σ.world⟩ ⟨code.length, env', s.world⟩ ∧ Agree μ s.vars env'
        | .more s => ∃ env' pc k, F ≤ k ∧ steps I code ⟨0, env, σ.world⟩ k = ⟨pc, env', s.world⟩ ∧ pc < code.length ∧
          Agree μ s.vars env' := by
  have hp := placed (codeOk h hn)
  simp only [translate, Option.bind_eq_bind, Option.bind_eq_some_iff, Option.some.injEq, Prod.mk.injEq] at h
  obtain ⟨⟨C1, hs⟩, h1, ⟨C2, is⟩, h2, hcode, rfl, rfl⟩ := h
  have hat : At code 0 (hs ++ is ++ (Option.map label (if b.isFn = true then some 1 else none)).toList) := by
    rw [← hcode]
    intro k hk
    rw [Nat.zero_add]
  have hlen := congrArg List.length hcode
  simp only [List.length_append] at hlen
  split_at hat
  obtain ⟨⟨hat1, hat2⟩, hat3⟩ := hat
  have hw : Wf (if b.isFn then S.bumpL { temp := 0, label := 1, syms := [] } else { temp := 0, label := 1, syms := [] }) := by
    split
    · exact wf_start
    · exact wf_start
  have hsy : (if b.isFn then S.bumpL { temp := 0, label := 1, syms := [] } else { temp := 0, label := 1, syms := [] } : S).syms = [] := by
    split <;> rfl
  have x1 := (partH _ [] hw h1).1.ext
  have w1 := x1.wf hw
  have x2 := extSs w1 h2
  have x12 := x1.trans x2
  have w2 := x2.wf w1
  have g : Good (fun s => C2.syms.lookup s) C2 := ⟨fun _ _ h => h, fun _ _ h => .inl h⟩
  have inj : Inj (fun s => C2.syms.lookup s) := by
    intro s s' t e e'
    rcases x12.inj s s' t e e' with h | h
    · exact h
    · rw [hsy] at h
      simp at h
  refine ⟨fun s => C2.syms.lookup s, inj, fun s t e => w2 s t e, ?_⟩
  intro V W I num hnum σ env ag F
  obtain ⟨e1, s1, ag1⟩ := simH (I := I) (code := code) inj (hoisted b) hw (g.back x2) h1 hat1 ag
  have hx : ∀ l ∈ (Ctx.targets { ret := if b.isFn = true then some 1 else none }), ∃ p, Is code l p := by
    intro l hl
    cases hf : b.isFn with
    | false => simp [hf, Ctx.targets] at hl
    | true =>
      simp only [hf, Ctx.targets, if_true, Option.map_some, Option.toList_some, List.map_nil, List.filterMap_nil, List.append_nil,
        List.nil_append, List.mem_singleton] at hl hat3
      subst hl
      simp only [at_cons, at_nil, and_true] at hat3
      exact ⟨_, place hp hat3⟩
  rw [Nat.zero_add] at s1
  have L := simSs hp inj hnum b.stmts (I := I) (F := F) ho w1 g h2 hat2 hx ag1
  rw [runBody]
  generalize execSs I num F b.stmts _ = R at *
  cases R with
  | more s =>
    obtain ⟨e', p, k, hk, t, ag', hlt⟩ := L
    obtain ⟨j, hj⟩ := s1
    refine ⟨e', p, j + k, by omega, ?_, hlt, ag'⟩
    rw [steps_add, hj]
    exact t
  | done c s =>
    obtain ⟨e', p, t, ag', hex⟩ := L
    have t' := s1.trans t
    cases c with
    | normal =>
      refine ⟨.inl rfl, e', ?_, ag'⟩
      cases hex
      cases hf : b.isFn with
      | false =>
        simp only [hf, Bool.false_eq_true, if_false, Option.map_none, Option.toList_none, List.length_nil] at hlen
        exact t'.cast (by omega) rfl rfl
      | true =>
        simp only [hf, if_true, Option.map_some, Option.toList_some, List.length_cons, List.length_nil, at_cons, at_nil,
          and_true] at hlen hat3
        exact (t'.trans (to_label hat3)).cast (by omega) rfl rfl
    | ret =>
      obtain ⟨l, hl, hpl⟩ := hex
      cases hf : b.isFn with
      | false => simp [hf] at hl
      | true =>
        simp only [hf, if_true, Option.map_some, Option.toList_some, List.length_cons, List.length_nil, at_cons, at_nil,
          and_true, Option.some.injEq] at hlen hat3 hl
        subst hl
        have := hpl.unique (place hp hat3)
        subst this
        exact ⟨.inr ⟨rfl, rfl⟩, e', (t'.trans (to_label hat3)).cast (by omega) rfl rfl, ag'⟩
    | brk l =>
      cases l with
      | none =>
        obtain ⟨l, hl, -⟩ := hex
        simp at hl
      | some k =>
        simp [Exit] at hex
    | cont l =>
      cases l with
      | none =>
        obtain ⟨l, hl, -⟩ := hex
        simp at hl
      | some k =>
        obtain ⟨_, _, hl, -⟩ := hex
        simp at hl

end

end Verif.Lower
