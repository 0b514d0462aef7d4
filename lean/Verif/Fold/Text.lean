import Verif.Fold.Spec
/-!
# The text of a number
-/

namespace Verif.Fold
open Verif.Expr (ascii Str)
open Verif.Eval (Const F64 Lib)

theorem splitOnce_at {c : Nat} {a b : List Nat} (h : ∀ x ∈ a, x ≠ c) : splitOnce c (a ++ c :: b) = some (a, b) := by
  induction a with
  | nil => simp [splitOnce]
  | cons x a ih =>
    have hx := h x (by simp)
    simp only [List.cons_append, splitOnce, if_neg hx, ih fun y hy => h y (by simp [hy])]
    rfl

theorem splitOnce_none {c : Nat} {a : List Nat} (h : ∀ x ∈ a, x ≠ c) : splitOnce c a = none := by
  induction a with
  | nil => rfl
  | cons x a ih =>
    have hx := h x (by simp)
    simp only [splitOnce, if_neg hx, ih fun y hy => h y (by simp [hy])]
    rfl

theorem parseDigits_eq {ds : List Nat} (h : ∀ c ∈ ds, 48 ≤ c ∧ c ≤ 57) :
    Eval.parseDigits 10 ds = Values.decimalValue ds := by
  unfold Eval.parseDigits Values.decimalValue
  suffices hs : ∀ a, ds.foldl (fun a c => a * 10 + (Eval.toDigit 10 c).getD 0) a = ds.foldl (fun n c => n * 10 + (c - 48)) a
    from hs 0
  intro a
  induction ds generalizing a with
  | nil => rfl
  | cons c ds ih =>
    have hc := h c (by simp)
    have : (Eval.toDigit 10 c).getD 0 = c - 48 := by
      unfold Eval.toDigit
      simp only [if_pos hc]
      rw [if_pos (by omega)]
      rfl
    simp only [List.foldl_cons, this]
    exact ih (fun x hx => h x (by simp [hx])) _

theorem parseI32_intText (k : Int) : parseI32 (Eval.intText k) = some k := by
  obtain ⟨h1, h2⟩ := Values.toDigits_digits k.natAbs
  have hv := Values.toDigits_value k.natAbs
  rw [← parseDigits_eq h2] at hv
  have hall : (Values.toDigits k.natAbs).all Eval.isDigit = true := by
    rw [List.all_eq_true]
    intro c hc
    simp [Eval.isDigit, h2 c hc]
  unfold Eval.intText
  split
  · simp only [parseI32, Eval.stripSign]
    rw [if_pos ⟨h1, hall⟩, hv]
    simp
    omega
  · have : Eval.stripSign (Values.toDigits k.natAbs) = (false, false, Values.toDigits k.natAbs) := by
      revert h1 h2
      generalize Values.toDigits k.natAbs = ds
      intro h1 h2
      cases ds with
      | nil => exact absurd rfl h1
      | cons c ds =>
        have := h2 c (by simp)
        unfold Eval.stripSign
        split
        · rename_i e; cases e; omega
        · rename_i e; cases e; omega
        · rfl
    simp only [parseI32, this]
    rw [if_pos ⟨h1, hall⟩, hv]
    simp
    omega

theorem strip_exp' (t : List Nat) (c k : Nat) (hc : c ≠ 46) :
    Eval.stripPoint0 (t ++ c :: Values.toDigits k) = t ++ c :: Values.toDigits k := by
  obtain ⟨h1, h2⟩ := Values.toDigits_digits k
  generalize Values.toDigits k = ds at *
  obtain ⟨xs, x, rfl⟩ : ∃ xs x, ds = xs ++ [x] := ⟨ds.dropLast, ds.getLast h1, (List.dropLast_concat_getLast h1).symm⟩
  by_cases hx : xs = []
  · subst hx
    exact Eval.strip_other (Or.inr hc)
  · obtain ⟨ys, y, rfl⟩ : ∃ ys y, xs = ys ++ [y] :=
      ⟨xs.dropLast, xs.getLast hx, (List.dropLast_concat_getLast hx).symm⟩
    have := h2 y (by simp)
    have e : t ++ c :: (ys ++ [y] ++ [x]) = (t ++ c :: ys) ++ [y, x] := by simp
    rw [e]
    exact Eval.strip_other (Or.inr (by omega))

theorem strip_intText (t : List Nat) (k : Int) :
    Eval.stripPoint0 (t ++ 101 :: Eval.intText k) = t ++ 101 :: Eval.intText k := by
  unfold Eval.intText
  split
  · have := strip_exp' (t ++ [101]) 45 k.natAbs (by decide)
    simpa using this
  · exact strip_exp' t 101 _ (by decide)

/-- The layout is that of ECMA-262. -/
theorem layout_eq {ds : List Nat} (h : ds ≠ []) (n : Int) : layout ds n = Eval.numberText ds n := by
  have hl : 0 < ds.length := List.length_pos_iff.2 h
  unfold layout Eval.numberText
  by_cases h1 : 0 < n ∧ n ≤ 21
  · rw [if_pos h1]
    by_cases h2 : (ds.length : Int) ≤ n
    · rw [if_pos h2, if_pos ⟨h2, h1.2⟩]
    · rw [if_neg h2, if_neg (by omega), if_pos h1]
  · have h1' : ¬ ((ds.length : Int) ≤ n ∧ n ≤ 21) := by omega
    simp only [if_neg h1, if_neg h1']
    by_cases h2 : n ≤ 0 ∧ -6 < n
    · rw [if_pos h2, if_pos (by omega)]; simp
    · have h2' : ¬ (-6 < n ∧ n ≤ 0) := by omega
      simp only [if_neg h2, if_neg h2']
      cases ds with
      | nil => exact absurd rfl h
      | cons d ds =>
        by_cases h3 : 0 ≤ n - 1
        · have e : (n - 1).toNat = (n - 1).natAbs := by omega
          have h4 : ¬ (n - 1 < 0) := by omega
          cases ds <;> simp only [if_pos h3, if_neg h4, e] <;> simp
        · have e : (-(n - 1)).toNat = (n - 1).natAbs := by omega
          have h4 : n - 1 < 0 := by omega
          cases ds <;> simp only [if_neg h3, if_pos h4, e] <;> simp

theorem dropWhile_head {d : Nat} (h : d ≠ 48) (ds : List Nat) : (d :: ds).dropWhile (· == 48) = d :: ds := by
  simp [h]

theorem dropWhile_zeros (k : Nat) {d : Nat} (h : d ≠ 48) (ds : List Nat) :
    (List.replicate k 48 ++ d :: ds).dropWhile (· == 48) = d :: ds := by
  induction k with
  | zero => exact dropWhile_head h ds
  | succ k ih => rw [List.replicate_succ, List.cons_append, List.dropWhile_cons]; simpa using ih

/-- Reading back what `ryu` writes. -/
theorem number_text {ds : List Nat} (n : Int) (h1 : ∀ d ∈ ds, 48 ≤ d ∧ d ≤ 57) (h2 : ∃ d t, ds = d :: t ∧ d ≠ 48)
    (h3 : ∃ t d, ds = t ++ [d] ∧ d ≠ 48) :
    layout (parseRyu (Eval.stripPoint0 (Eval.ryuText ds n))).1
      ((parseRyu (Eval.stripPoint0 (Eval.ryuText ds n))).2 + (parseRyu (Eval.stripPoint0 (Eval.ryuText ds n))).1.length)
      = Eval.numberText ds n := by
  obtain ⟨d, t, e, hd⟩ := h2
  obtain ⟨s, l, e', hl⟩ := h3
  have hne : ds ≠ [] := by rw [e]; simp
  have hlen : 0 < ds.length := List.length_pos_iff.2 hne
  have key : ∀ {p : List Nat × Int}, p.1 = ds → p.2 + p.1.length = n → layout p.1 (p.2 + p.1.length) = Eval.numberText ds n := by
    intro p e1 e2; rw [e2, e1]; exact layout_eq hne n
  have n101 : ∀ {x : Nat}, (48 ≤ x ∧ x ≤ 57) ∨ x = 46 → x ≠ 101 := by omega
  unfold Eval.ryuText
  by_cases c1 : (ds.length : Int) ≤ n ∧ n ≤ 16
  · rw [if_pos c1, Eval.strip_point0]
    have hz : ∀ x ∈ ds ++ List.replicate (n.toNat - ds.length) 48, 48 ≤ x ∧ x ≤ 57 := by
      intro x hx
      rcases List.mem_append.1 hx with hx | hx
      · exact h1 x hx
      · rw [List.mem_replicate] at hx; omega
    have ep : parseRyu (ds ++ List.replicate (n.toNat - ds.length) 48) = (ds ++ List.replicate (n.toNat - ds.length) 48, 0) := by
      unfold parseRyu
      rw [splitOnce_none fun x hx => n101 (.inl (hz x hx))]
      simp only
      rw [splitOnce_none fun x hx => by have := hz x hx; omega]
      simp only [e, List.cons_append]
      rw [dropWhile_head hd]
    rw [ep]
    have el : ((ds ++ List.replicate (n.toNat - ds.length) 48).length : Int) = n := by simp; omega
    simp only
    rw [Int.zero_add, el]
    unfold layout Eval.numberText
    rw [if_pos (by omega), if_pos (by omega), if_pos (by omega)]
    have : n.toNat - (ds ++ List.replicate (n.toNat - ds.length) 48).length = 0 := by simp; omega
    rw [this]
    simp
  · rw [if_neg c1]
    by_cases c2 : 0 < n ∧ n ≤ 16
    · rw [if_pos c2]
      have hk : n.toNat ≤ s.length := by
        have : ds.length = s.length + 1 := by rw [e']; simp
        omega
      have es : Eval.stripPoint0 (ds.take n.toNat ++ 46 :: ds.drop n.toNat) = ds.take n.toNat ++ 46 :: ds.drop n.toNat := by
        rw [e', List.drop_append_of_le_length hk, ← List.cons_append, ← List.append_assoc, Eval.strip_last hl]
      rw [es]
      have ep : parseRyu (ds.take n.toNat ++ 46 :: ds.drop n.toNat) = (ds, -((ds.drop n.toNat).length : Int)) := by
        unfold parseRyu
        rw [splitOnce_none fun x hx => n101 (by
          rcases List.mem_append.1 hx with hx | hx
          · exact .inl (h1 x (List.mem_of_mem_take hx))
          · rcases List.mem_cons.1 hx with hx | hx
            · exact .inr hx
            · exact .inl (h1 x (List.mem_of_mem_drop hx)))]
        simp only
        rw [splitOnce_at fun x hx => by have := h1 x (List.mem_of_mem_take hx); omega]
        simp only [List.take_append_drop]
        rw [e, dropWhile_head hd]
        simp
      rw [ep]
      refine key rfl ?_
      simp
      omega
    · rw [if_neg c2]
      by_cases c3 : -5 < n ∧ n ≤ 0
      · rw [if_pos c3]
        have es : Eval.stripPoint0 ([48, 46] ++ List.replicate (-n).toNat 48 ++ ds) = [48, 46] ++ List.replicate (-n).toNat 48 ++ ds := by
          rw [e', ← List.append_assoc, Eval.strip_last hl]
        rw [es]
        have ep : parseRyu ([48, 46] ++ List.replicate (-n).toNat 48 ++ ds) =
            (ds, -((List.replicate (-n).toNat 48 ++ ds).length : Int)) := by
          unfold parseRyu
          rw [splitOnce_none fun x hx => n101 (by
            simp only [List.cons_append, List.nil_append, List.mem_cons, List.mem_append, List.mem_replicate] at hx
            rcases hx with hx | hx | hx | hx
            · omega
            · omega
            · omega
            · exact .inl (h1 x hx))]
          simp only
          have : [48, 46] ++ List.replicate (-n).toNat 48 ++ ds = [48] ++ 46 :: (List.replicate (-n).toNat 48 ++ ds) := by simp
          rw [this, splitOnce_at (by simp)]
          simp only
          have : [48] ++ (List.replicate (-n).toNat 48 ++ ds) = List.replicate ((-n).toNat + 1) 48 ++ ds := by
            rw [List.replicate_succ]; simp
          rw [this, e, dropWhile_zeros _ hd]
          simp
        rw [ep]
        refine key rfl ?_
        simp
        omega
      · rw [if_neg c3]
        have n46 : ∀ {x : Nat}, 48 ≤ x ∧ x ≤ 57 → x ≠ 46 := by omega
        cases t with
        | nil =>
          subst e
          simp only
          have es := strip_intText [d] (n - 1)
          simp only [List.cons_append, List.nil_append] at es
          rw [es]
          have ep : parseRyu (d :: 101 :: Eval.intText (n - 1)) = ([d], n - 1) := by
            unfold parseRyu
            have hd1 := h1 d (by simp)
            have := splitOnce_at (c := 101) (a := [d]) (b := Eval.intText (n - 1)) (by simp; omega)
            simp only [List.cons_append, List.nil_append] at this
            rw [this]
            simp only [parseI32_intText, Option.getD_some]
            rw [splitOnce_none (by simp; omega)]
            simp only
            rw [dropWhile_head hd]
          rw [ep]
          refine key rfl ?_
          simp
        | cons a t =>
          subst e
          have es := strip_intText (d :: 46 :: a :: t) (n - 1)
          simp only [List.cons_append] at es ⊢
          rw [es]
          have ep : parseRyu (d :: 46 :: a :: (t ++ 101 :: Eval.intText (n - 1))) = (d :: a :: t, n - 1 - (t.length + 1)) := by
            unfold parseRyu
            have hd1 := h1 d (by simp)
            have := splitOnce_at (c := 101) (a := d :: 46 :: a :: t) (b := Eval.intText (n - 1)) (by
              intro x hx
              rcases List.mem_cons.1 hx with rfl | hx
              · omega
              · rcases List.mem_cons.1 hx with rfl | hx
                · omega
                · have := h1 x (by rw [List.mem_cons]; exact .inr hx)
                  omega)
            simp only [List.cons_append] at this
            rw [this]
            simp only [parseI32_intText, Option.getD_some]
            have := splitOnce_at (c := 46) (a := [d]) (b := a :: t) (by simp; omega)
            simp only [List.cons_append, List.nil_append] at this
            rw [this]
            simp only [List.cons_append, List.nil_append]
            rw [dropWhile_head hd]
            simp
          rw [ep]
          refine key rfl ?_
          simp
          omega

/-- The text of a number is the one of ECMA-262. -/
theorem numberString_spec {L : Lib} (hL : Shortest L) (x : F64) : Eval.NumToString L x (numberString L x) := by
  cases x with
  | nan => exact .nan
  | inf neg => cases neg
               · exact .inf
               · exact .negInf
  | fin neg m =>
    unfold numberString
    by_cases hm : m = 0
    · subst hm; simp only [if_true]; exact .zero
    · simp only [if_neg hm]
      obtain ⟨h1, h2, h3⟩ := hL m hm
      have e : Eval.displayNum L (.fin false m) =
          Eval.stripPoint0 (Eval.ryuText (L.digits (.fin false m)).1 (L.digits (.fin false m)).2) := by
        simp [Eval.displayNum, hm]
      rw [e, number_text _ h1 h2 h3]
      cases neg
      · exact .pos hm
      · exact .neg hm

theorem numToString_unique {L : Lib} {x : F64} {s t : List Nat} (h1 : Eval.NumToString L x s) (h2 : Eval.NumToString L x t) :
    s = t := by
  cases h1 <;> cases h2 <;> first | rfl | contradiction

end Verif.Fold
