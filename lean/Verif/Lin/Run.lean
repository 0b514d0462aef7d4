import Verif.Lin.Proof
import Verif.Ssa.Sim
/-!
# Runs of code and runs of its graph
-/

namespace Verif.Lin

open Verif.Il Verif.Graph Verif.Opt Verif.Ssa

section
variable {V W : Type} {I : Interp V W} {code : List Inst} {n : Nat}

def steps (I : Interp V W) (code : List Inst) (x : State V W) : Nat → State V W
  | 0 => x
  | m + 1 => step I code (steps I code x m)

theorem steps_add (x : State V W) (a : Nat) : ∀ b, steps I code x (a + b) = steps I code (steps I code x a) b
  | 0 => rfl
  | b + 1 => by
    rw [← Nat.add_assoc]
    simp only [steps, steps_add x a b]

theorem run_steps (e : Nat → V) (w : W) : ∀ m, run I code e w m = steps I code ⟨0, e, w⟩ m
  | 0 => rfl
  | m + 1 => by simp only [run, steps, run_steps e w m]

theorem step_plain {pc : Nat} {e : Nat → V} {w : W} {i : Inst} (h : code[pc]? = some i) (h1 : i.t ≠ .goto)
    (h2 : i.t ≠ .condGoto) : step I code ⟨pc, e, w⟩ = ⟨pc + 1, (exec I i (e, w)).1, (exec I i (e, w)).2⟩ := by
  simp only [step, h]
  split
  · exact absurd ‹_› h1
  · exact absurd ‹_› h2
  · rfl

theorem step_label {pc : Nat} {e : Nat → V} {w : W} {i : Inst} (h : code[pc]? = some i) (h1 : i.t = .label) :
    step I code ⟨pc, e, w⟩ = ⟨pc + 1, e, w⟩ := by
  rw [step_plain h (by simp [h1]) (by simp [h1])]
  simp [exec, h1]

theorem step_goto {pc : Nat} {e : Nat → V} {w : W} {i : Inst} {l : Nat} (h : code[pc]? = some i) (h1 : i.t = .goto)
    (h2 : i.labels = [l]) : step I code ⟨pc, e, w⟩ = ⟨goTo code pc l, e, w⟩ := by
  simp only [step, h, h1, h2]

theorem step_branch {pc : Nat} {e : Nat → V} {w : W} {i : Inst} {t f : Nat} {a : Arg} (h : code[pc]? = some i)
    (h1 : i.t = .condGoto) (h2 : i.labels = [t, f]) (h3 : i.args = [a]) : step I code ⟨pc, e, w⟩ =
      ⟨goTo code pc (if I.truthy (valOf I e a) then t else f), e, w⟩ := by
  simp only [step, h, h1, h2, h3]

theorem execAll_snoc (is : List Inst) (i : Inst) (s : (Nat → V) × W) :
    execAll I (is ++ [i]) s = exec I i (execAll I is s) := by
  simp [execAll, List.foldl_append]

theorem body_steps {s : Seg} (lies : Lies code s) (e : Nat → V) (w : W) : ∀ k, k ≤ s.body.length →
    steps I code ⟨s.start, e, w⟩ k =
      ⟨s.start + k, (execAll I (s.body.take k) (e, w)).1, (execAll I (s.body.take k) (e, w)).2⟩
  | 0, _ => by simp [steps, execAll]
  | k + 1, h => by
    rw [steps, body_steps lies e w k (by omega)]
    have hk : k < s.body.length := by omega
    have hb : s.body[k]? = some s.body[k] := List.getElem?_eq_getElem hk
    have hp := lies.plain _ (List.mem_of_getElem? hb)
    rw [step_plain ((lies.body k hk).trans hb) hp.2.1 hp.2.2, List.take_succ_eq_append_getElem hk, execAll_snoc]
    rfl

/-- The graph is about to execute a block, and the code is at its start. -/
def Rel (code : List Inst) (n : Nat) (x : Conf V W) (y : State V W) : Prop :=
  x.env = y.env ∧ x.world = y.world ∧
  match x.at_ with
  | none => y.pc = code.length
  | some l => ∃ s ∈ theSegs code n, s.lab = l ∧ y.pc = s.start

theorem no_phis0 (ok : CodeOk code n) : NoPhis (cfg0 code n) := by
  intro l k i h
  obtain ⟨s, hs, -, h⟩ := instAt0 ok h
  rcases inst0 hs h with ⟨-, hi, -⟩ | ⟨-, -, i0, hi, nx, -, hb, rfl⟩
  · exact ok.noPhi i hi
  · simp [hb]

theorem children0 (ok : CodeOk code n) {s : Seg} (hs : s ∈ theSegs code n) :
    ∀ b, b ∈ (cfg0 code n).graph.children s.lab ↔ b ∈ s.succs := by
  intro b
  constructor
  · intro h
    obtain ⟨s', hs', e, hb⟩ := edge0.1 h
    rwa [seg_unique ok hs' hs e] at hb
  · intro h
    exact edge0.2 ⟨s, hs, rfl, h⟩

theorem nodup_single {xs : List Nat} {l : Nat} (hn : xs.Nodup) (h : ∀ b, b ∈ xs ↔ b = l) : xs = [l] := by
  match xs, hn, h with
  | [], _, h => have := (h l).2 rfl; simp at this
  | [a], _, h => rw [(h a).1 (by simp)]
  | a :: b :: r, hn, h =>
    have h1 := (h a).1 (by simp)
    have h2 := (h b).1 (by simp)
    subst h1
    subst h2
    simp at hn

theorem single0 (ok : CodeOk code n) {s : Seg} (hs : s ∈ theSegs code n) {l : Nat} (h : s.succs = [l]) :
    (cfg0 code n).graph.children s.lab = [l] := by
  obtain ⟨ops, hg⟩ := (sound0 ok).graph
  have w := ((C26_history ops).2 _ hg).wf
  refine nodup_single (w.ncs s.lab) ?_
  intro b
  rw [children0 ok hs, h]
  simp

theorem step_at {x : Conf V W} {l m : Nat} {s : (Nat → V) × W} (h : x.at_ = some l)
    (hs : execAll I (blockOf (cfg0 code n) l) (x.env, x.world) = s) (ok : CodeOk code n)
    (hn : next I (cfg0 code n) l (blockOf (cfg0 code n) l) s.1 = some m) :
    Opt.step I (cfg0 code n) x = ⟨some m, s.1, s.2⟩ := by
  simp only [Opt.step, h, hs, hn]
  rw [enter_noPhi]
  intro i hi
  obtain ⟨k, hk⟩ := List.getElem?_of_mem hi
  exact no_phis0 ok m k i hk

theorem seg_step (ok : CodeOk code n) (x : Conf V W) (y : State V W) (r : Rel code n x y) :
    ∃ m, 0 < m ∧ Rel code n (Opt.step I (cfg0 code n) x) (steps I code y m) := by
  obtain ⟨pc, e, w⟩ := y
  obtain ⟨h1, h2, h3⟩ := r
  simp only at h1 h2
  cases hat : x.at_ with
  | none =>
    rw [hat] at h3
    simp only at h3
    subst h3
    refine ⟨1, by omega, ?_⟩
    have : step I code ⟨code.length, e, w⟩ = ⟨code.length, e, w⟩ := by simp [step]
    simp only [steps, this, Opt.step, hat]
    exact ⟨h1, h2, by rw [hat]⟩
  | some l =>
    rw [hat] at h3
    obtain ⟨s, hs, rfl, h3⟩ := h3
    simp only at h3
    subst h3
    have lies := lies_all hs
    have hbody := body_steps (I := I) lies e w s.body.length (Nat.le_refl _)
    rw [List.take_length] at hbody
    have hlast : ∀ i, s.body.getLast? = some i → i.t ≠ .condGoto := fun i hi =>
      (lies.plain i (List.mem_of_getLast? hi)).2.2
    -- a declared label: jump to it and step over it
    have jumpTo : ∀ {e' : Nat → V} {w' : W} {p l : Nat}, l ∈ declared code →
        ∃ s' ∈ theSegs code n, s'.lab = l ∧ step I code ⟨goTo code p l, e', w'⟩ = ⟨s'.start, e', w'⟩ := by
      intro e' w' p l hl
      obtain ⟨s', g1, g2, q, i, g3, g4, g5, g6⟩ := declared_seg ok hl
      refine ⟨s', g1, g2, ?_⟩
      have hne : l ≠ fallThrough := by
        have := (declared_bound ok hl).2
        have := ok.counter.2
        omega
      simp only [goTo, hne, if_false, g3, Option.getD_some]
      rw [step_label g4 g5, g6]
    have hnoterm : s.insts = s.body → ∀ r : Option Nat, (∀ e', next I (cfg0 code n) s.lab [] e' = r) →
        ∀ e', next I (cfg0 code n) s.lab (blockOf (cfg0 code n) s.lab) e' = r := by
      intro hi r hr e'
      rw [← hr e', blockOf0 ok hs, hi]
      simp only [next]
      cases hb : s.body.getLast? with
      | none => rfl
      | some i => simp only [hlast i hb, if_false]; rfl
    cases ht : s.term with
    | halt =>
      have hi : s.insts = s.body := by simp [Seg.insts, ht]
      refine ⟨s.body.length + 1, by omega, ?_⟩
      rw [steps, hbody]
      have hlen := lies.halt ht
      rw [← hlen]
      have hst : ∀ e' w', step I code ⟨code.length, e', w'⟩ = (⟨code.length, e', w'⟩ : State V W) := by
        intro e' w'; simp [step]
      rw [hst]
      have hch : (cfg0 code n).graph.children s.lab = [] := by
        rw [List.eq_nil_iff_forall_not_mem]
        intro b hb
        rw [children0 ok hs] at hb
        simp [Seg.succs, ht] at hb
      have hnx := hnoterm hi none (by simp [next, hch])
      simp only [Opt.step, hat, hnx]
      rw [blockOf0 ok hs, hi, h1, h2]
      exact ⟨rfl, rfl, rfl⟩
    | fall l =>
      have hi : s.insts = s.body := by simp [Seg.insts, ht]
      refine ⟨s.body.length + 1, by omega, ?_⟩
      obtain ⟨i, g1, g2, -⟩ := lies.fall l ht
      rw [steps, hbody, step_label g1 g2]
      have hch := single0 ok hs (l := l) (by simp [Seg.succs, ht])
      have hnx := hnoterm hi (some l) (by simp [next, hch])
      rw [step_at hat rfl ok (hnx _), blockOf0 ok hs, hi, h1, h2]
      obtain ⟨s', g3, g4, g5⟩ := linked_next (m := l) segs_linked hs (by simp [Seg.next, ht])
      exact ⟨rfl, rfl, s', g3, g4, g5.symm⟩
    | jump i nx =>
      obtain ⟨g1, g2⟩ := lies.jump i nx ht
      have hmem := List.mem_of_getElem? g1
      rcases g2 with g2 | g2
      · have hi : s.insts = s.body := by simp [Seg.insts, ht, g2]
        obtain ⟨l, g3, g4⟩ := ok.goto i hmem g2
        refine ⟨s.body.length + 1 + 1, by omega, ?_⟩
        rw [steps, steps, hbody, step_goto g1 g2 g3]
        obtain ⟨s', g5, g6, g7⟩ := jumpTo (e' := (execAll I s.body (e, w)).1) (w' := (execAll I s.body (e, w)).2)
          (p := s.start + s.body.length) g4
        rw [g7]
        have hch := single0 ok hs (l := l) (by simp [Seg.succs, ht, g2, g3])
        have hnx := hnoterm hi (some l) (by simp [next, hch])
        rw [step_at hat rfl ok (hnx _), blockOf0 ok hs, hi, h1, h2]
        exact ⟨rfl, rfl, s', g5, g6, rfl⟩
      · have hsh := ok.shape i hmem (by simp [g2]) (by simp [g2])
        simp only [Shape, g2] at hsh
        obtain ⟨-, ⟨a, ha⟩, t, f, hl⟩ := hsh
        have hi : s.insts = s.body ++ [{ i with labels := [resolve nx t, resolve nx f] }] := by
          simp [Seg.insts, ht, g2, hl]
        have hex : execAll I s.insts (x.env, x.world) = execAll I s.body (e, w) := by
          rw [hi, execAll_snoc, h1, h2]
          simp [exec, g2]
        have hnx : next I (cfg0 code n) s.lab (blockOf (cfg0 code n) s.lab) (execAll I s.body (e, w)).1 =
            some (resolve nx (if I.truthy (valOf I (execAll I s.body (e, w)).1 a) then t else f)) := by
          rw [blockOf0 ok hs, hi]
          simp only [next, List.getLast?_concat, g2, if_true, ha]
          split <;> rfl
        rw [step_at hat (by rw [blockOf0 ok hs, hex]) ok hnx]
        generalize hlab : (if I.truthy (valOf I (execAll I s.body (e, w)).1 a) then t else f) = l
        have hstep : step I code ⟨s.start + s.body.length, (execAll I s.body (e, w)).1, (execAll I s.body (e, w)).2⟩ =
            ⟨goTo code (s.start + s.body.length) l, (execAll I s.body (e, w)).1, (execAll I s.body (e, w)).2⟩ := by
          rw [step_branch g1 g2 hl ha, hlab]
        have hlm : l ∈ i.labels := by
          rw [← hlab, hl]
          split <;> simp
        by_cases hd : l = dummyLabel
        · refine ⟨s.body.length + 1, by omega, ?_⟩
          rw [steps, hbody, hstep]
          obtain ⟨s', g3, g4, g5⟩ := linked_next (m := nx) segs_linked hs (by simp [Seg.next, ht])
          refine ⟨rfl, rfl, s', g3, ?_, ?_⟩
          · simp [resolve, hd, g4]
          · have : l = fallThrough := hd
            simp [goTo, this, g5]
        · refine ⟨s.body.length + 1 + 1, by omega, ?_⟩
          have hdec : l ∈ declared code := (ok.branch i hmem g2 l hlm).resolve_left hd
          obtain ⟨s', g5, g6, g7⟩ := jumpTo (e' := (execAll I s.body (e, w)).1) (w' := (execAll I s.body (e, w)).2)
            (p := s.start + s.body.length) hdec
          rw [steps, steps, hbody, hstep, g7]
          exact ⟨rfl, rfl, s', g5, by simp [resolve, hd, g6], rfl⟩

theorem rel_start : Rel code n (⟨some 0, e, w⟩ : Conf V W) ⟨0, e, w⟩ := by
  obtain ⟨s, r, h1, h2, h3⟩ := segs_ne (code := code) (pos := 0) (cur := 0) (n := n) (body := [])
  exact ⟨rfl, rfl, s, by rw [theSegs, h1]; simp, h2, h3.symm⟩

theorem run_rel (ok : CodeOk code n) (e : Nat → V) (w : W) : ∃ f : Nat → Nat, f 0 = 0 ∧ (∀ k, f k < f (k + 1)) ∧
    ∀ k, Rel code n (Opt.run I (cfg0 code n) e w k) (run I code e w (f k)) := by
  let F : (k : Nat) → { m : Nat // Rel code n (Opt.run I (cfg0 code n) e w k) (run I code e w m) } := fun k =>
    Nat.rec ⟨0, rel_start⟩ (fun k ih =>
      ⟨ih.1 + Classical.choose (seg_step (I := I) ok _ _ ih.2), by
        have := (Classical.choose_spec (seg_step (I := I) ok _ _ ih.2)).2
        rw [run_steps, steps_add, ← run_steps]
        exact this⟩) k
  refine ⟨fun k => (F k).1, rfl, ?_, fun k => (F k).2⟩
  intro k
  have := (Classical.choose_spec (seg_step (I := I) ok _ _ (F k).2)).1
  exact Nat.lt_add_of_pos_right this

/-- When the code has come to its end, so has the graph after the block it is in. -/
theorem rel_end (ok : CodeOk code n) {x : Conf V W} {y : State V W} (r : Rel code n x y) (h : code.length ≤ y.pc) :
    (Opt.step I (cfg0 code n) x).at_ = none := by
  obtain ⟨h1, h2, h3⟩ := r
  cases hat : x.at_ with
  | none => simp [Opt.step, hat]
  | some l =>
    rw [hat] at h3
    obtain ⟨s, hs, rfl, h3⟩ := h3
    have lies := lies_all hs
    have hle : s.start + s.body.length < code.length ∨ s.term = .halt := by
      cases ht : s.term with
      | halt => exact .inr rfl
      | fall l =>
        obtain ⟨i, g, -⟩ := lies.fall l ht
        exact .inl (List.getElem?_eq_some_iff.1 g).1
      | jump i l =>
        obtain ⟨g, -⟩ := lies.jump i l ht
        exact .inl (List.getElem?_eq_some_iff.1 g).1
    have ht : s.term = .halt := hle.resolve_left (by omega)
    have hb : s.body = [] := by
      have := lies.halt ht
      rw [← List.length_eq_zero_iff]
      omega
    have hi : s.insts = [] := by simp [Seg.insts, ht, hb]
    have hch : (cfg0 code n).graph.children s.lab = [] := by
      rw [List.eq_nil_iff_forall_not_mem]
      intro b hb
      rw [children0 ok hs] at hb
      simp [Seg.succs, ht] at hb
    simp [Opt.step, hat, blockOf0 ok hs, hi, next, hch]

end

end Verif.Lin
