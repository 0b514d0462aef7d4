import Verif.Types.Mono
/-!
# Lemmas: sorting and removing repetitions
-/

namespace Verif.Types
open Store
open Verif.Harness

section
variable {cmp : Nat → Nat → Ordering}

theorem mem_dedup {x : Nat} : ∀ {l : List Nat}, x ∈ dedup l ↔ x ∈ l
  | [] => by simp [dedup]
  | [a] => by simp [dedup]
  | a :: b :: l => by
    unfold dedup
    split
    · rename_i h
      subst h
      rw [mem_dedup]; simp
    · rw [List.mem_cons, mem_dedup, List.mem_cons (a := x) (b := a)]

theorem dedup_sorted (h : TotalPreorder cmp) (he : ∀ a b, cmp a b = .eq ↔ a = b) : ∀ {l : List Nat},
    l.Pairwise (fun a b => cmp a b ≠ .gt) → (dedup l).Pairwise (fun a b => cmp a b = .lt)
  | [], _ => by simp [dedup]
  | [a], _ => by simp [dedup]
  | a :: b :: l, hl => by
    unfold dedup
    have hl' := List.pairwise_cons.1 hl
    split
    · exact dedup_sorted h he hl'.2
    · rename_i hab
      refine List.pairwise_cons.2 ⟨fun x hx => ?_, dedup_sorted h he hl'.2⟩
      have hlt : cmp a b = .lt := by
        have h1 := hl'.1 b (List.mem_cons_self ..)
        cases e : cmp a b with
        | lt => rfl
        | eq => exact absurd ((he a b).1 e) hab
        | gt => exact absurd e h1
      rcases List.mem_cons.1 (mem_dedup.1 hx) with rfl | hx'
      · exact hlt
      · exact h.lt_of_lt_le hlt ((List.pairwise_cons.1 hl'.2).1 x hx')

theorem sorted_nodup (he : ∀ a b, cmp a b = .eq ↔ a = b) {l : List Nat}
    (hl : l.Pairwise (fun a b => cmp a b = .lt)) : l.Nodup := by
  refine hl.imp ?_
  rintro a b hab rfl
  rw [(he a a).2 rfl] at hab; cases hab

/-- Two strictly sorted lists with the same elements are the same. -/
theorem sorted_ext (h : TotalPreorder cmp) (he : ∀ a b, cmp a b = .eq ↔ a = b) {l₁ l₂ : List Nat}
    (h1 : l₁.Pairwise (fun a b => cmp a b = .lt)) (h2 : l₂.Pairwise (fun a b => cmp a b = .lt))
    (hm : ∀ x, x ∈ l₁ ↔ x ∈ l₂) : l₁ = l₂ := by
  have hp : l₁.Perm l₂ :=
    (List.perm_ext_iff_of_nodup (sorted_nodup he h1) (sorted_nodup he h2)).2 hm
  have hs := sorted_unique h l₁ l₂ (h1.imp fun e => by simp [e]) (h2.imp fun e => by simp [e])
    fun x => hp.countP_eq _
  exact allPairs_eq (fun a b => (he a b).1) hs

end

theorem mem_sortDedup {st : Store} {x : Nat} {l : List Nat} : x ∈ st.sortDedup l ↔ x ∈ l := by
  unfold Store.sortDedup
  rw [mem_dedup]; exact (sortBy_perm l).mem_iff

theorem sortDedup_sorted (st : Store) (l : List Nat) :
    (st.sortDedup l).Pairwise (fun a b => st.typeCmp a b = .lt) :=
  dedup_sorted (tp_typeCmp st) (typeCmp_eq st) (sortBy_sorted (tp_typeCmp st) l)

theorem sortDedup_congr {st : Store} {l₁ l₂ : List Nat} (h : ∀ x, x ∈ l₁ ↔ x ∈ l₂) :
    st.sortDedup l₁ = st.sortDedup l₂ :=
  sorted_ext (tp_typeCmp st) (typeCmp_eq st) (sortDedup_sorted st _) (sortDedup_sorted st _)
    fun x => by rw [mem_sortDedup, mem_sortDedup, h]

theorem sortDedup_id {st : Store} {l : List Nat} (h : l.Pairwise (fun a b => st.typeCmp a b = .lt)) :
    st.sortDedup l = l :=
  sorted_ext (tp_typeCmp st) (typeCmp_eq st) (sortDedup_sorted st _) h fun _ => mem_sortDedup

end Verif.Types
