import Verif.Rename.Run
/-!
# Checking the hypotheses on concrete programs
-/

namespace Verif.Rename

open Verif.Names

/-- Scopes given as a list, numbered by position; the first is the top. -/
def ofList (l : List Scope) (syms : List (Name × Nat)) (annexB : List (Sym × Sym)) : Sem where
  top := 0
  scope := fun i => l.getD i {}
  symName := fun x => (syms.getD x ([], 0)).1
  declScope := fun x => (syms.getD x ([], 0)).2
  annexB := annexB

/-- `semantic-js/src/js/mod.rs` 317–329: `resolve_name_id_in_scope` on a list of scopes to search. -/
def resolveIn (sem : Sem) (name : Sym → Name) (n : Name) : List Nat → Option Sym
  | [] => none
  | s :: rest =>
    match (sem.scope s).symbols.find? (fun e => name e.2 == n) with
    | some e => some e.2
    | none => resolveIn sem name n rest

theorem denotes_of {sem : Sem} {h : Nat} (T : Tables sem h) (name : Sym → Name) (n : Name) (s : Nat) :
    Denotes sem name n s (resolveIn sem name n (chain sem h s)) := by
  obtain ⟨d, h1, h2⟩ := T.depth
  have : ∀ (fuel s : Nat), d s < fuel → Denotes sem name n s (resolveIn sem name n (chain sem fuel s)) := by
    intro fuel
    induction fuel with
    | zero => intro s hs; omega
    | succ fuel ih =>
      intro s hs
      simp only [chain, resolveIn]
      cases hf : (sem.scope s).symbols.find? (fun e => name e.2 == n) with
      | some e =>
        have hm := List.mem_of_find?_eq_some hf
        have hn := List.find?_some hf
        exact .here ⟨e.1, hm⟩ (by simpa using hn)
      | none =>
        rw [List.find?_eq_none] at hf
        have hno : ∀ x, Declares sem s x → name x ≠ n := by
          rintro x ⟨m, hm⟩ he
          exact hf _ hm (by simpa using he)
        cases hp : (sem.scope s).parent with
        | none => exact .glob hno hp
        | some p => have := h1 _ _ hp; exact .up hno hp (ih p (by omega))
  exact this h s (h2 s)

/-- The tables of a list of scopes, with the depths. -/
def tablesB (l : List Scope) (syms : List (Name × Nat)) (ds : List Nat) (h : Nat) : Bool :=
  (l.getD 0 {}).parent == none &&
  (List.range l.length).all (fun s =>
    (l.getD s {}).children.all (fun c => decide (c < l.length) && (l.getD c {}).parent == some s) &&
    (match (l.getD s {}).parent with
      | none => true
      | some p => decide (p < l.length) && (l.getD p {}).children.contains s && ds.getD s 0 == ds.getD p 0 + 1) &&
    decide ((l.getD s {}).children.Nodup) &&
    (l.getD s {}).symbols.all (fun e => syms.getD e.2 ([], 0) == (e.1, s)) &&
    decide (((l.getD s {}).symbols.map Prod.fst).Nodup)) &&
  decide (0 < h) && ds.all (fun d => decide (d < h))

theorem getD_ge {α : Type} (l : List α) (i : Nat) (d : α) (hi : l.length ≤ i) : l.getD i d = d := by
  simp [List.getD_eq_getElem?_getD, hi]

theorem tables_of {l : List Scope} {syms : List (Name × Nat)} {ab : List (Sym × Sym)} {ds : List Nat} {h : Nat}
    (hb : tablesB l syms ds h = true) : Tables (ofList l syms ab) h := by
  simp only [tablesB, Bool.and_eq_true, List.all_eq_true, decide_eq_true_eq, beq_iff_eq, List.mem_range] at hb
  obtain ⟨⟨⟨h1, h2⟩, h3⟩, h4⟩ := hb
  refine { top := h1, children := ?_, nodup := ?_, depth := ⟨fun s => ds.getD s 0, ?_, ?_⟩, symbol := ?_, names := ?_ }
  · intro s c
    simp only [ofList]
    constructor
    · intro hc
      by_cases hs : s < l.length
      · exact ((h2 s hs).1.1.1.1 c hc).2
      · rw [getD_ge _ _ _ (by omega)] at hc; cases hc
    · intro hp
      by_cases hc : c < l.length
      · have := (h2 c hc).1.1.1.2
        rw [hp] at this
        simp only [Bool.and_eq_true, List.contains_iff_mem] at this
        exact this.1.2
      · rw [getD_ge _ _ _ (by omega)] at hp; cases hp
  · intro s
    simp only [ofList]
    by_cases hs : s < l.length
    · exact (h2 s hs).1.1.2
    · rw [getD_ge _ _ _ (by omega)]; exact List.nodup_nil
  · intro s p hp
    simp only [ofList] at hp
    by_cases hs : s < l.length
    · have := (h2 s hs).1.1.1.2
      rw [hp] at this
      simp only [Bool.and_eq_true, beq_iff_eq] at this
      exact this.2
    · rw [getD_ge _ _ _ (by omega)] at hp; cases hp
  · intro s
    by_cases hs : s < ds.length
    · have : ds.getD s 0 = ds[s] := by simp [List.getD_eq_getElem?_getD, hs]
      show ds.getD s 0 < h
      rw [this]
      exact h4 _ (List.getElem_mem hs)
    · show ds.getD s 0 < h
      rw [getD_ge _ _ _ (by omega)]; exact h3
  · intro s n x hx
    simp only [ofList] at hx ⊢
    by_cases hs : s < l.length
    · have := (h2 s hs).1.2 _ hx
      simp only at this
      rw [this]; exact ⟨rfl, rfl⟩
    · rw [getD_ge _ _ _ (by omega)] at hx; cases hx
  · intro s
    simp only [ofList]
    by_cases hs : s < l.length
    · exact (h2 s hs).2
    · rw [getD_ge _ _ _ (by omega)]; exact List.nodup_nil

def boundB (sem : Sem) (h : Nat) (refs : List Ref) : Bool :=
  refs.all (fun r => (chain sem h r.scope).contains sem.top &&
    resolveIn sem sem.symName r.name (chain sem h r.scope) == r.sym)

theorem bound_of {sem : Sem} {h : Nat} {refs : List Ref} (T : Tables sem h) (hb : boundB sem h refs = true) :
    Bound sem refs := by
  simp only [boundB, List.all_eq_true, Bool.and_eq_true, beq_iff_eq, List.contains_iff_mem] at hb
  intro r hr
  obtain ⟨h1, h2⟩ := hb r hr
  exact ⟨(mem_chain T _ _).1 h1, h2 ▸ denotes_of T _ _ _⟩

/-- Every pinned symbol, in every scope: its scope's free variables keep their names. -/
def pinsB (sem : Sem) (h : Nat) (refs : List Ref) : Bool :=
  let c := mkCtx sem h refs
  (preorder sem h sem.top).all (fun s =>
    (c.ud.order s).all (fun x => !c.fixed x || (c.ud.usages s).foreign.all (fun y =>
      c.fixed y || c.disabled.contains (sem.declScope y))))

theorem pins_of {sem : Sem} {h : Nat} {refs : List Ref} (T : Tables sem h) (B : Bound sem refs)
    (hb : pinsB sem h refs = true) : PinsAreSafe sem refs := by
  simp only [pinsB, List.all_eq_true, Bool.or_eq_true, Bool.not_eq_true'] at hb
  intro s x y hs hx hp hf
  rcases hb s ((mem_visited T s).2 hs) x ((mem_order T hs x).2 hx) with h1 | h1
  · rw [(fixed_iff T B x).2 hp] at h1; cases h1
  · rcases h1 y ((mem_foreign T B s y).2 hf) with h2 | h2
    · exact .inl ((fixed_iff T B y).1 h2)
    · have hty : Anc sem sem.top (sem.declScope y) := by
        rcases hs.total hf.2.1 with h3 | h3
        · exact h3
        · rw [Anc.top_top T h3]; exact .refl
      exact .inr ((disabled_iff T hty).1 h2)

def linksB (sem : Sem) (h : Nat) (refs : List Ref) : Bool :=
  let c := mkCtx sem h refs
  decide ((sem.annexB.map Prod.fst).Nodup) &&
  sem.annexB.all (fun e =>
    let bs := sem.declScope e.1
    let vs := sem.declScope e.2
    sem.annexB.all (fun e' => e'.1 != e.2) &&
    (sem.scope bs).symbols.any (fun p => p.2 == e.1) &&
    (match (sem.scope bs).parent with | none => false | some p => (chain sem h p).contains vs) &&
    (chain sem h bs).all (fun s => !(chain sem h s).contains vs || s == vs || s == bs ||
      (sem.scope s).symbols.isEmpty) &&
    (((sem.scope vs).symbols.any (fun p => p.2 == e.2) && sem.symName e.2 == sem.symName e.1) ||
      (vs == sem.top && (sem.scope sem.top).symbols.isEmpty)) &&
    (chain sem h bs).contains sem.top && (chain sem h vs).contains sem.top &&
    (!c.disabled.contains bs || c.disabled.contains vs) &&
    (!c.fixed e.1 || c.fixed e.2))

theorem links_of {sem : Sem} {h : Nat} {refs : List Ref} (T : Tables sem h) (B : Bound sem refs)
    (hb : linksB sem h refs = true) : Links sem refs := by
  simp only [linksB, Bool.and_eq_true, List.all_eq_true, decide_eq_true_eq] at hb
  obtain ⟨h1, h2⟩ := hb
  refine { map := h1, apart := ?_, ok := ?_ }
  · intro b v hbv w hvw
    have := (h2 _ hbv).1.1.1.1.1.1.1.1 _ hvw
    simp at this
  · intro b v hbv
    obtain ⟨⟨⟨⟨⟨⟨⟨⟨_, e1⟩, e2⟩, e3⟩, e4⟩, e5⟩, e6⟩, e7⟩, e8⟩ := h2 _ hbv
    simp only [List.contains_iff_mem, mem_chain T] at e5 e6
    refine { block := ?_, above := ?_, between := ?_, target := ?_, observable := ?_, pinned := ?_ }
    · simp only [List.any_eq_true, beq_iff_eq] at e1
      obtain ⟨⟨n, x⟩, hm, rfl⟩ := e1
      exact ⟨n, hm⟩
    · simp only at e2
      cases hp : (sem.scope (sem.declScope b)).parent with
      | none => rw [hp] at e2; cases e2
      | some p =>
        rw [hp] at e2
        simp only [List.contains_iff_mem, mem_chain T] at e2
        exact ⟨p, rfl, e2⟩
    · intro s x h3 h4 h5 h6 ⟨n, h7⟩
      have := e3 s ((mem_chain T _ _).2 h4)
      simp only [Bool.or_eq_true, Bool.not_eq_true', beq_iff_eq, h5, h6, or_false, List.isEmpty_iff] at this
      rcases this with h8 | h8
      · have h9 : (chain sem h s).contains (sem.declScope v) = true :=
          List.contains_iff_mem.2 ((mem_chain T _ _).2 h3)
        rw [h8] at h9; cases h9
      · rw [h8] at h7; cases h7
    · simp only [Bool.or_eq_true, Bool.and_eq_true, beq_iff_eq, List.any_eq_true, List.isEmpty_iff] at e4
      rcases e4 with ⟨⟨⟨n, x⟩, hm, rfl⟩, h3⟩ | ⟨h3, h4⟩
      · exact .inl ⟨⟨n, hm⟩, h3⟩
      · refine .inr ⟨h3, ?_⟩
        rintro x ⟨n, hn⟩
        rw [h4] at hn; cases hn
    · intro ho
      simp only [Bool.or_eq_true, Bool.not_eq_true'] at e7
      rcases e7 with h3 | h3
      · rw [(disabled_iff T e5).2 ho] at h3; cases h3
      · exact (disabled_iff T e6).1 h3
    · intro hp
      simp only [Bool.or_eq_true, Bool.not_eq_true'] at e8
      rcases e8 with h3 | h3
      · rw [(fixed_iff T B b).2 hp] at h3; cases h3
      · exact (fixed_iff T B v).1 h3

end Verif.Rename
