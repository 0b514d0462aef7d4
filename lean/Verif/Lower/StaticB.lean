import Verif.Lower.StaticS
/-!
# Translated bodies are well formed
-/

namespace Verif.Lower

open Verif.Il Verif.Lin Verif.Opt

theorem partH : ∀ (vs : List VarType) {C C' : S} {is : List Inst} (O : List Nat), Wf C →
    compileHoisted vs C = some (C', is) → Part [] O C C' is ∧ TailOk O is
  | [], C, C', is, O, w, h => by
    simp only [compileHoisted, Option.some.injEq, Prod.mk.injEq] at h
    obtain ⟨rfl, rfl⟩ := h
    exact ⟨.nil, .nil⟩
  | v :: vs, C, C', is, O, w, h => by
    simp only [compileHoisted, Option.bind_eq_bind, Option.bind_eq_some_iff, Option.some.injEq, Prod.mk.injEq] at h
    obtain ⟨⟨C1, d⟩, h1, ⟨C2, is2⟩, h2, rfl, rfl⟩ := h
    obtain ⟨e1, l1, hd⟩ := dest_ok h1 w
    obtain ⟨p2, t2⟩ := partH vs O (e1.wf w) h2
    exact ⟨(Part.ofExt e1 l1).append ((Part.inst (inner_store hd .undef)).append p2), TailOk.consC .store t2⟩

theorem wf_start {n : Nat} : Wf { temp := 0, label := n, syms := [] } := by
  intro s t h
  simp at h

theorem partB {b : Body} {code : List Inst} {n m : Nat} (h : translate b = some (code, n, m)) :
    ∃ C', Part [] [] { temp := 0, label := 1, syms := [] } C' code ∧ TailOk [] code ∧ C'.label = n ∧ C'.temp = m := by
  simp only [translate, Option.bind_eq_bind, Option.bind_eq_some_iff, Option.some.injEq, Prod.mk.injEq] at h
  obtain ⟨⟨C1, hs⟩, h1, ⟨C2, is⟩, h2, rfl, rfl, rfl⟩ := h
  cases hf : b.isFn with
  | false =>
    simp only [hf, Bool.false_eq_true, if_false] at h1 h2
    obtain ⟨p1, t1⟩ := partH _ [] wf_start h1
    obtain ⟨p2, t2⟩ := partSs _ [] (p1.ext.wf wf_start) (by simp [Ctx.targets]) h2
    exact ⟨C2, by simpa using p1.append p2, by simpa using t1.app t2, rfl, rfl⟩
  | true =>
    simp only [hf, if_true] at h1 h2
    obtain ⟨p1, t1⟩ := partH _ [1] wf_start h1
    obtain ⟨p2, t2⟩ := partSs _ [1] (p1.ext.wf wf_start) (by simp [Ctx.targets]) h2
    refine ⟨C2, ?_, ?_, rfl, rfl⟩
    · exact Part.bumpL (E := []) (O := []) (A := { temp := 0, label := 1, syms := [] }) ((p1.append p2).append (.lab 1)) (by simp)
    · simpa using TailOk.lab (O := []) (a := hs ++ is) (l := 1)

theorem codeOk {b : Body} {code : List Inst} {n m : Nat} (h : translate b = some (code, n, m)) (hn : n ≤ fallThrough) :
    CodeOk code n := by
  obtain ⟨C', p, t, rfl, rfl⟩ := partB h
  have hc := p.count
  have hmem : ∀ l, l ∈ declared code ↔ 1 ≤ l ∧ l < C'.label := by
    intro l
    rw [← List.count_pos_iff, hc l]
    simp only [List.count_nil, Nat.zero_add]
    split <;> simp_all
  have hP : ∀ l, (l ∈ ([] : List Nat) ∨ 1 ≤ l ∧ l < C'.label) → l ∈ declared code := by
    intro l hl
    rw [hmem]
    simpa using hl
  refine ⟨?_, ?_, ?_, ?_, ?_, ?_, ⟨?_, hn⟩, ?_⟩
  · intro i hi e
    obtain ⟨l, hl⟩ := (p.ok i hi).1 e
    refine ⟨l, hl, (hmem l).1 ?_⟩
    simp only [declared, List.mem_flatMap, List.mem_filter]
    exact ⟨i, ⟨hi, by simp [e]⟩, by simp [hl]⟩
  · intro i hi e
    obtain ⟨l, hl, hl'⟩ := (p.ok i hi).2.1 e
    exact ⟨l, hl, hP l hl'⟩
  · intro i hi e l hl
    exact ((p.ok i hi).2.2.1 e l hl).imp id (hP l)
  · intro i hi
    exact (p.ok i hi).2.2.2.1
  · intro i hi
    exact (p.ok i hi).2.2.2.2.1
  · rw [List.nodup_iff_count]
    intro l
    rw [hc l]
    simp only [List.count_nil, Nat.zero_add]
    split <;> omega
  · have := p.ext.label
    dsimp only at this
    omega
  · intro pre i body hcode hb
    by_cases hi : isCtl i
    · have hl : lastCtl code = some i := by
        have : body.filter isCtl = [] := by
          rw [List.filter_eq_nil_iff]
          intro j hj
          obtain ⟨a, b, c⟩ := hb j hj
          simp [isCtl, a, b, c]
        simp [lastCtl, hcode, hi, this]
      obtain ⟨h1, h2⟩ := t i hl
      refine ⟨fun e => ?_, h2⟩
      obtain ⟨l, hl, -⟩ := (p.ok i (by simp [hcode])).2.1 e
      simpa [hl] using h1 e
    · simp only [isCtl, Bool.or_eq_true, beq_iff_eq, not_or] at hi
      exact ⟨hi.1.2, fun e => absurd e hi.2⟩

theorem varsBelow {b : Body} {code : List Inst} {n m : Nat} (h : translate b = some (code, n, m)) :
    ∀ i ∈ code, (∀ v ∈ i.tgts, v < m) ∧ ∀ v, Arg.var v ∈ i.args → v < m := by
  obtain ⟨C', p, t, rfl, rfl⟩ := partB h
  intro i hi
  exact (p.ok i hi).2.2.2.2.2

end Verif.Lower
