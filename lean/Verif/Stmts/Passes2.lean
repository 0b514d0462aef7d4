import Verif.Stmts.Passes

/-! # The other passes over statements -/

namespace Verif.Stmts

variable {σ V : Type}

/-- A statement of a body after its directives. -/
def Top (z : Bool) (st : Stmt) : Prop := ok z st = true ∨ Linked st

theorem oks_iff (z : Bool) (l : List Stmt) : oks z l = true ↔ ∀ st ∈ l, ok z st = true := by
  induction l with
  | nil => simp
  | cons a l ih => simp [ih]

/-! ## Clean-up -/

theorem vacuous_sim {st : Stmt} (h : vacuous st = true) : SimL [st] [] := by
  have key : ∀ {σ V : Type} (m : Machine σ V) s k s',
      Run m (.stmt [] st) s k s' ↔ k = .normal ∧ s' = s := by
    intro σ V m s k s'
    cases st <;> simp [vacuous] at h
    · constructor
      · intro hr; cases hr; exact ⟨rfl, rfl⟩
      · rintro ⟨rfl, rfl⟩; exact .empty
    · subst h
      constructor
      · intro hr
        cases hr with
        | block h1 h2 h3 =>
          rcases h1 with ⟨_, rfl⟩ | ⟨h, _⟩
          · rcases h3 with ⟨_, rfl, rfl⟩ | ⟨h, _⟩
            · cases h2; exact ⟨rfl, rfl⟩
            · exact absurd rfl h
          · exact absurd rfl h
      · rintro ⟨rfl, rfl⟩
        exact .block (Or.inl ⟨rfl, rfl⟩) .nil (Or.inl ⟨rfl, rfl, rfl⟩)
    · subst h
      constructor
      · intro hr
        cases hr with
        | decl h1 => cases h1; exact ⟨rfl, rfl⟩
      · rintro ⟨rfl, rfl⟩; exact .decl .declsNil
  refine ⟨?_, ?_, ?_, ?_⟩
  · intro σ V m s k s'
    rw [run_one, key]
    constructor
    · rintro ⟨rfl, rfl⟩; exact .nil
    · intro hr; cases hr; exact ⟨rfl, rfl⟩
  · cases st <;> simp [vacuous] at h <;> simp_all [lex, boundDecls]
  · intro x
    cases st <;> simp [vacuous] at h <;> simp_all [vars, boundDecls]
  · cases st <;> simp [vacuous] at h <;> simp_all [links]
    rename_i x _ _
    cases x <;> simp_all [links, boundDecls]

theorem cleanTail_cases (st : Stmt) :
    cleanTail st = st ∨ (cleanTail st = .empty ∧ vacuous st = true) := by
  cases st <;> simp [cleanTail, vacuous]
  · rename_i b; cases b <;> simp
  · rename_i b; cases b <;> simp

theorem run_labels_vacuous {st : Stmt} (h : vacuous st = true) {m : Machine σ V}
    {ls : List String} {s s' : σ} {k : Compl V} :
    Run m (.stmt ls st) s k s' ↔ Run m (.stmt [] st) s k s' := by
  cases st <;> simp [vacuous] at h
  · constructor <;> (intro hr; cases hr; exact .empty)
  · constructor <;>
    · intro hr
      cases hr with
      | block h1 h2 h3 => exact .block h1 h2 h3
  · constructor <;>
    · intro hr
      cases hr with
      | decl h1 => exact .decl h1

theorem cleanTail_sim (st : Stmt) : Sim st (cleanTail st) := by
  rcases cleanTail_cases st with h | ⟨h, hv⟩
  · rw [h]; exact .refl _
  · rw [h]
    have h1 := (vacuous_sim hv).trans (vacuous_sim (st := .empty) rfl).symm
    refine ⟨?_, ?_, ?_, ?_⟩
    · intro σ V m ls s k s'
      rw [run_labels_vacuous hv, run_labels_vacuous (st := .empty) rfl, ← run_one, ← run_one]
      exact h1.run m s k s'
    · simpa using h1.lex
    · intro x; simpa using h1.vars x
    · simpa using h1.links

theorem cleanTail_ok {z : Bool} {st : Stmt} (h : ok z st = true) : ok z (cleanTail st) = true := by
  rcases cleanTail_cases st with h' | ⟨h', _⟩
  · rw [h']; exact h
  · rw [h']; rfl

/-- What is said of a statement that becomes one statement. -/
def Cleaned (z : Bool) (st st' : Stmt) : Prop := Sim st st' ∧ ok z st' = true

theorem Cleaned.same {z : Bool} {st : Stmt} (h : ok z st = true) : Cleaned z st st := ⟨.refl _, h⟩

mutual
theorem cleanStmt_ok (z : Bool) : ∀ st : Stmt, ok z st = true → Cleaned z st (cleanStmt st)
  | .block body, h => by
      obtain ⟨h1, h2⟩ := cleanList_ok z body (by simpa [ok] using h)
      exact ⟨by simpa [cleanStmt] using .block h1, by simpa [cleanStmt, ok] using h2⟩
  | .ifThen c t, h => by
      simp [ok] at h
      obtain ⟨h1, h2⟩ := cleanStmt_ok z t h.1
      have h3 := h1.trans (cleanTail_sim _)
      have hl := h3.lex ▸ h.2
      exact ⟨by simpa [cleanStmt] using .ifThen h3 h.2, by
        simp [cleanStmt, ok, cleanTail_ok h2, hl]⟩
  | .ifElse c t e, h => by
      simp [ok] at h
      obtain ⟨h1, h2⟩ := cleanStmt_ok z t h.1.1.1
      have h3 := h1.trans (cleanTail_sim _)
      have hl := h3.lex ▸ h.1.1.2
      obtain ⟨h1', h2'⟩ := cleanStmt_ok z e h.1.2
      have h3' := h1'.trans (cleanTail_sim _)
      have hl' := h3'.lex ▸ h.2
      exact ⟨by simpa [cleanStmt] using .ifElse h3 h3' h.1.1.2 h.2, by
        simp [cleanStmt, ok, cleanTail_ok h2, hl, cleanTail_ok h2', hl']⟩
  | .while c body, h => by
      simp [ok] at h
      obtain ⟨h1, h2⟩ := cleanStmt_ok z body h.1
      have h3 := h1.trans (cleanTail_sim _)
      have hl := h3.lex ▸ h.2
      exact ⟨by simpa [cleanStmt] using .while h3, by
        simp [cleanStmt, ok, cleanTail_ok h2, hl]⟩
  | .doWhile body c, h => by
      simp [ok] at h
      obtain ⟨h1, h2⟩ := cleanStmt_ok z body h.1
      have h3 := h1.trans (cleanTail_sim _)
      have hl := h3.lex ▸ h.2
      exact ⟨by simpa [cleanStmt] using .doWhile h3, by
        simp [cleanStmt, ok, cleanTail_ok h2, hl]⟩
  | .for i t u br body, h => by
      obtain ⟨h1, h2⟩ := cleanList_ok z body (by simpa [ok] using h)
      exact ⟨by simpa [cleanStmt] using .for h1, by simpa [cleanStmt, ok] using h2⟩
  | .each kd lhs e br body, h => by
      obtain ⟨h1, h2⟩ := cleanList_ok z body (by simpa [ok] using h)
      exact ⟨by simpa [cleanStmt] using .each h1, by simpa [cleanStmt, ok] using h2⟩
  | .switch e ts bodies, h => by
      obtain ⟨h1, h2⟩ := cleanLists_ok z bodies (by simpa [ok] using h)
      exact ⟨by simpa [cleanStmt] using .switch h1, by simpa [cleanStmt, ok] using h2⟩
  | .tries body hc p handler hf last, h => by
      simp [ok] at h
      obtain ⟨h1, h2⟩ := cleanList_ok z body h.1.1
      obtain ⟨h3, h4⟩ := cleanList_ok z handler h.1.2
      obtain ⟨h5, h6⟩ := cleanList_ok z last h.2
      exact ⟨by simpa [cleanStmt] using .tries h1 h3 h5, by simp [cleanStmt, ok, h2, h4, h6]⟩
  | .withs e body, h => by
      simp [ok] at h
      obtain ⟨h1, h2⟩ := cleanStmt_ok z body h.1
      have h3 := h1.trans (cleanTail_sim _)
      have hl := h3.lex ▸ h.2
      exact ⟨by simpa [cleanStmt] using .withs h3, by
        simp [cleanStmt, ok, cleanTail_ok h2, hl]⟩
  | .label l body, h => by
      simp [ok] at h
      obtain ⟨h1, h2⟩ := cleanStmt_ok z body h
      have h3 := h1.trans (cleanTail_sim _)
      exact ⟨by simpa [cleanStmt] using .label h3, by simp [cleanStmt, ok, cleanTail_ok h2]⟩
  | .empty, h => by simpa [cleanStmt] using .same h
  | .expr _, h => by simpa [cleanStmt] using .same h
  | .other _, h => by simpa [cleanStmt] using .same h
  | .ret _, h => by simpa [cleanStmt] using .same h
  | .throw _, h => by simpa [cleanStmt] using .same h
  | .brk _, h => by simpa [cleanStmt] using .same h
  | .cont _, h => by simpa [cleanStmt] using .same h
  | .func _ _ _, h => by simpa [cleanStmt] using .same h
  | .cls _ _, h => by simpa [cleanStmt] using .same h
  | .decl _ _ _, h => by simpa [cleanStmt] using .same h
  | .item _, h => by simpa [cleanStmt] using .same h
theorem cleanList_ok (z : Bool) : ∀ l : List Stmt, oks z l = true →
    SimL l (cleanList l) ∧ oks z (cleanList l) = true
  | [], _ => ⟨by simpa [cleanList] using .refl _, by simp [cleanList]⟩
  | st :: rest, h => by
      simp at h
      obtain ⟨h1, h2⟩ := cleanStmt_ok z st h.1
      obtain ⟨h3, h4⟩ := cleanList_ok z rest h.2
      rw [cleanList]
      split
      · rename_i hv
        exact ⟨(h1.list.trans (vacuous_sim hv)).append h3, h4⟩
      · exact ⟨.cons h1 h3, by simp [h2, h4]⟩
theorem cleanLists_ok (z : Bool) : ∀ l : List (List Stmt), okss z l = true →
    SimLL l (cleanLists l) ∧ okss z (cleanLists l) = true
  | [], _ => ⟨by simpa [cleanLists] using .nil, by simp [cleanLists, okss]⟩
  | b :: rest, h => by
      simp [okss] at h
      obtain ⟨h1, h2⟩ := cleanList_ok z b h.1
      obtain ⟨h3, h4⟩ := cleanLists_ok z rest h.2
      rw [cleanLists]
      exact ⟨.cons h1 h3, by simp [okss, h2, h4]⟩
end

theorem cleanStmt_top {z : Bool} {st : Stmt} (h : Top z st) :
    Sim st (cleanStmt st) ∧ Top z (cleanStmt st) := by
  rcases h with h | ⟨id, rfl⟩ | ⟨m, ds, rfl⟩
  · exact ⟨(cleanStmt_ok z st h).1, Or.inl (cleanStmt_ok z st h).2⟩
  · rw [cleanStmt]
    · exact ⟨.refl _, Or.inr (Or.inl ⟨id, rfl⟩)⟩
    all_goals simp
  · rw [cleanStmt]
    · exact ⟨.refl _, Or.inr (Or.inr ⟨m, ds, rfl⟩)⟩
    all_goals simp

theorem cleanList_top {z : Bool} : ∀ {l : List Stmt}, (∀ st ∈ l, Top z st) →
    SimL l (cleanList l) ∧ ∀ st ∈ cleanList l, Top z st
  | [], _ => ⟨by simpa [cleanList] using .refl _, by simp [cleanList]⟩
  | st :: rest, h => by
      obtain ⟨h1, h2⟩ := cleanStmt_top (h st (by simp))
      obtain ⟨h3, h4⟩ := cleanList_top (l := rest) (fun x hx => h x (by simp [hx]))
      rw [cleanList]
      split
      · rename_i hv
        exact ⟨(h1.list.trans (vacuous_sim hv)).append h3, h4⟩
      · refine ⟨.cons h1 h3, fun x hx => ?_⟩
        rcases List.mem_cons.1 hx with rfl | hx
        · exact h2
        · exact h4 x hx

/-! ## Declarations in a row -/

theorem run_decls_append {m : Machine σ V} {md : Mode} {a b : List Declarator} {s s' : σ}
    {k : Compl V} :
    Run m (.decls md (a ++ b)) s k s' ↔
      (∃ s1, Run m (.decls md a) s .normal s1 ∧ Run m (.decls md b) s1 k s') ∨
        (k ≠ .normal ∧ Run m (.decls md a) s k s') := by
  induction a generalizing s with
  | nil =>
    constructor
    · intro h
      exact Or.inl ⟨s, .declsNil, h⟩
    · rintro (⟨s1, h1, h2⟩ | ⟨h1, h2⟩)
      · cases h1; exact h2
      · cases h2; exact absurd rfl h1
  | cons x rest ih =>
    constructor
    · intro h
      cases h with
      | declsSkip h1 h2 =>
        rcases ih.1 h2 with ⟨s1, h3, h4⟩ | ⟨h3, h4⟩
        · exact Or.inl ⟨s1, .declsSkip h1 h3, h4⟩
        · exact Or.inr ⟨h3, .declsSkip h1 h4⟩
      | declsCons h0 h1 h2 =>
        rcases ih.1 h2 with ⟨s1, h3, h4⟩ | ⟨h3, h4⟩
        · exact Or.inl ⟨s1, .declsCons h0 h1 h3, h4⟩
        · exact Or.inr ⟨h3, .declsCons h0 h1 h4⟩
      | declsThrow h0 h1 => exact Or.inr ⟨by simp, .declsThrow h0 h1⟩
    · rintro (⟨s1, h1, h2⟩ | ⟨h1, h2⟩)
      · cases h1 with
        | declsSkip h3 h4 => exact .declsSkip h3 (ih.2 (Or.inl ⟨s1, h4, h2⟩))
        | declsCons h0 h3 h4 => exact .declsCons h0 h3 (ih.2 (Or.inl ⟨s1, h4, h2⟩))
      · cases h2 with
        | declsSkip h3 h4 => exact .declsSkip h3 (ih.2 (Or.inr ⟨h1, h4⟩))
        | declsCons h0 h3 h4 => exact .declsCons h0 h3 (ih.2 (Or.inr ⟨h1, h4⟩))
        | declsThrow h0 h3 => exact .declsThrow h0 h3

theorem run_decl {m : Machine σ V} {ls : List String} {x : Bool} {md : Mode}
    {ds : List Declarator} {s s' : σ} {k : Compl V} :
    Run m (.stmt ls (.decl x md ds)) s k s' ↔ Run m (.decls md ds) s k s' := by
  constructor
  · intro h; cases h with
    | decl h => exact h
  · exact .decl

theorem boundDecls_append (a b : List Declarator) :
    boundDecls (a ++ b) = boundDecls a ++ boundDecls b := by
  induction a with
  | nil => simp [boundDecls]
  | cons d rest ih => simp [boundDecls, ih]

theorem mergeDecls_some {a b c : Stmt} (h : mergeDecls a b = some c) :
    ∃ x md ds ds', a = .decl x md ds ∧ b = .decl x md ds' ∧ c = .decl x md (ds ++ ds') := by
  unfold mergeDecls at h
  split at h
  · rename_i x m ds x' m' ds'
    repeat' split at h <;> try contradiction
    rename_i h1 h2 _ _
    cases h
    simp at h1 h2
    subst h1 h2
    exact ⟨_, _, _, _, rfl, rfl, rfl⟩
  · contradiction

theorem mergeDecls_sim {a b c : Stmt} (h : mergeDecls a b = some c) : SimL [a, b] [c] := by
  obtain ⟨x, md, ds, ds', rfl, rfl, rfl⟩ := mergeDecls_some h
  refine ⟨?_, ?_, ?_, ?_⟩
  · intro σ V m s k s'
    rw [run_one, run_decl, run_decls_append,
      show [Stmt.decl x md ds, Stmt.decl x md ds'] =
        [Stmt.decl x md ds] ++ [Stmt.decl x md ds'] from rfl, run_append]
    simp only [run_one, run_decl]
  · by_cases hm : md = .var <;> simp [lex, hm, boundDecls_append]
  · intro y
    by_cases hm : md = .var <;> simp [vars, hm, boundDecls_append]
  · cases x <;> simp [links, boundDecls_append]

theorem mergeDecls_ok {z : Bool} {a b c : Stmt} (h : mergeDecls a b = some c)
    (ha : ok z a = true) : ok z c = true := by
  obtain ⟨x, md, ds, ds', rfl, rfl, rfl⟩ := mergeDecls_some h
  simpa [ok] using ha

theorem mergeDecls_top {z : Bool} {a b c : Stmt} (h : mergeDecls a b = some c)
    (ha : Top z a) : Top z c := by
  obtain ⟨x, md, ds, ds', rfl, rfl, rfl⟩ := mergeDecls_some h
  cases x with
  | true => exact Or.inr (Or.inr ⟨_, _, rfl⟩)
  | false => exact Or.inl (by simp [ok])

theorem pushMerged_cases (out : List Stmt) (st : Stmt) :
    pushMerged out st = out ++ [st] ∨
      ∃ init prev merged, out = init ++ [prev] ∧ mergeDecls prev st = some merged ∧
        pushMerged out st = init ++ [merged] := by
  unfold pushMerged
  rcases hl : out.getLast? with _ | prev
  · exact Or.inl rfl
  · have ho : out = out.dropLast ++ [prev] := by
      rw [List.getLast?_eq_some_iff] at hl
      obtain ⟨ys, rfl⟩ := hl
      simp
    rcases hm : mergeDecls prev st with _ | merged
    · exact Or.inl (by simp [hm])
    · exact Or.inr ⟨out.dropLast, prev, merged, ho, hm, by simp [hm]⟩

theorem pushMerged_sim (out : List Stmt) (st : Stmt) : SimL (out ++ [st]) (pushMerged out st) := by
  rcases pushMerged_cases out st with h | ⟨init, prev, merged, h1, h2, h3⟩
  · rw [h]; exact .refl _
  · rw [h3, h1, List.append_assoc]
    exact (SimL.refl init).append (mergeDecls_sim h2)

theorem pushMerged_ok {z : Bool} {out : List Stmt} {st : Stmt} (ho : oks z out = true)
    (hs : ok z st = true) : oks z (pushMerged out st) = true := by
  rcases pushMerged_cases out st with h | ⟨init, prev, merged, h1, h2, h3⟩
  · rw [h]; simp [ho, hs]
  · rw [h3]
    rw [h1] at ho
    simp at ho ⊢
    exact ⟨ho.1, mergeDecls_ok h2 ho.2⟩

theorem pushMerged_top {z : Bool} {out : List Stmt} {st : Stmt} (ho : ∀ x ∈ out, Top z x)
    (hs : Top z st) : ∀ x ∈ pushMerged out st, Top z x := by
  rcases pushMerged_cases out st with h | ⟨init, prev, merged, h1, h2, h3⟩
  · rw [h]
    intro x hx
    rcases List.mem_append.1 hx with hx | hx
    · exact ho x hx
    · rw [List.mem_singleton.1 hx]; exact hs
  · rw [h3]
    rw [h1] at ho
    intro x hx
    rcases List.mem_append.1 hx with hx | hx
    · exact ho x (by simp [hx])
    · rw [List.mem_singleton.1 hx]
      exact mergeDecls_top h2 (ho prev (by simp))

mutual
theorem combineStmt_ok (z : Bool) : ∀ st : Stmt, ok z st = true → Cleaned z st (combineStmt st)
  | .block body, h => by
      obtain ⟨h1, h2⟩ := combineList_ok z body [] rfl (by simpa [ok] using h)
      exact ⟨by simpa [combineStmt] using .block h1, by simpa [combineStmt, ok] using h2⟩
  | .ifThen c t, h => by
      simp [ok] at h
      obtain ⟨h1, h2⟩ := combineStmt_ok z t h.1
      have hl := h1.lex ▸ h.2
      exact ⟨by simpa [combineStmt] using .ifThen h1 h.2, by simp [combineStmt, ok, h2, hl]⟩
  | .ifElse c t e, h => by
      simp [ok] at h
      obtain ⟨h1, h2⟩ := combineStmt_ok z t h.1.1.1
      have hl := h1.lex ▸ h.1.1.2
      obtain ⟨h1', h2'⟩ := combineStmt_ok z e h.1.2
      have hl' := h1'.lex ▸ h.2
      exact ⟨by simpa [combineStmt] using .ifElse h1 h1' h.1.1.2 h.2, by
        simp [combineStmt, ok, h2, hl, h2', hl']⟩
  | .while c body, h => by
      simp [ok] at h
      obtain ⟨h1, h2⟩ := combineStmt_ok z body h.1
      have hl := h1.lex ▸ h.2
      exact ⟨by simpa [combineStmt] using .while h1, by simp [combineStmt, ok, h2, hl]⟩
  | .doWhile body c, h => by
      simp [ok] at h
      obtain ⟨h1, h2⟩ := combineStmt_ok z body h.1
      have hl := h1.lex ▸ h.2
      exact ⟨by simpa [combineStmt] using .doWhile h1, by simp [combineStmt, ok, h2, hl]⟩
  | .for i t u br body, h => by
      obtain ⟨h1, h2⟩ := combineList_ok z body [] rfl (by simpa [ok] using h)
      exact ⟨by simpa [combineStmt] using .for h1, by simpa [combineStmt, ok] using h2⟩
  | .each kd lhs e br body, h => by
      obtain ⟨h1, h2⟩ := combineList_ok z body [] rfl (by simpa [ok] using h)
      exact ⟨by simpa [combineStmt] using .each h1, by simpa [combineStmt, ok] using h2⟩
  | .switch e ts bodies, h => by
      obtain ⟨h1, h2⟩ := combineLists_ok z bodies (by simpa [ok] using h)
      exact ⟨by simpa [combineStmt] using .switch h1, by simpa [combineStmt, ok] using h2⟩
  | .tries body hc p handler hf last, h => by
      simp [ok] at h
      obtain ⟨h1, h2⟩ := combineList_ok z body [] rfl h.1.1
      obtain ⟨h3, h4⟩ := combineList_ok z handler [] rfl h.1.2
      obtain ⟨h5, h6⟩ := combineList_ok z last [] rfl h.2
      exact ⟨by simpa [combineStmt] using .tries h1 h3 h5, by simp [combineStmt, ok, h2, h4, h6]⟩
  | .withs e body, h => by
      simp [ok] at h
      obtain ⟨h1, h2⟩ := combineStmt_ok z body h.1
      have hl := h1.lex ▸ h.2
      exact ⟨by simpa [combineStmt] using .withs h1, by simp [combineStmt, ok, h2, hl]⟩
  | .label l body, h => by
      simp [ok] at h
      obtain ⟨h1, h2⟩ := combineStmt_ok z body h
      exact ⟨by simpa [combineStmt] using .label h1, by simp [combineStmt, ok, h2]⟩
  | .empty, h => by simpa [combineStmt] using .same h
  | .expr _, h => by simpa [combineStmt] using .same h
  | .other _, h => by simpa [combineStmt] using .same h
  | .ret _, h => by simpa [combineStmt] using .same h
  | .throw _, h => by simpa [combineStmt] using .same h
  | .brk _, h => by simpa [combineStmt] using .same h
  | .cont _, h => by simpa [combineStmt] using .same h
  | .func _ _ _, h => by simpa [combineStmt] using .same h
  | .cls _ _, h => by simpa [combineStmt] using .same h
  | .decl _ _ _, h => by simpa [combineStmt] using .same h
  | .item _, h => by simpa [combineStmt] using .same h
theorem combineList_ok (z : Bool) : ∀ (l out : List Stmt), oks z out = true → oks z l = true →
    SimL (out ++ l) (combineList out l) ∧ oks z (combineList out l) = true
  | [], out, ho, _ => by
      rw [combineList]
      exact ⟨by simpa using .refl _, ho⟩
  | st :: rest, out, ho, h => by
      simp at h
      obtain ⟨h1, h2⟩ := combineStmt_ok z st h.1
      obtain ⟨h3, h4⟩ := combineList_ok z rest (pushMerged out (combineStmt st))
        (pushMerged_ok ho h2) h.2
      rw [combineList]
      refine ⟨SimL.trans ?_ h3, h4⟩
      have := (((SimL.refl out).append h1.list).trans (pushMerged_sim out _)).append (SimL.refl rest)
      simpa using this
theorem combineLists_ok (z : Bool) : ∀ l : List (List Stmt), okss z l = true →
    SimLL l (combineLists l) ∧ okss z (combineLists l) = true
  | [], _ => ⟨by simpa [combineLists] using .nil, by simp [combineLists, okss]⟩
  | b :: rest, h => by
      simp [okss] at h
      obtain ⟨h1, h2⟩ := combineList_ok z b [] rfl h.1
      obtain ⟨h3, h4⟩ := combineLists_ok z rest h.2
      rw [combineLists]
      exact ⟨.cons (by simpa using h1) h3, by simp [okss, h2, h4]⟩
end

theorem combineStmt_top {z : Bool} {st : Stmt} (h : Top z st) :
    Sim st (combineStmt st) ∧ Top z (combineStmt st) := by
  rcases h with h | ⟨id, rfl⟩ | ⟨m, ds, rfl⟩
  · exact ⟨(combineStmt_ok z st h).1, Or.inl (combineStmt_ok z st h).2⟩
  · rw [combineStmt]
    · exact ⟨.refl _, Or.inr (Or.inl ⟨id, rfl⟩)⟩
    all_goals simp
  · rw [combineStmt]
    · exact ⟨.refl _, Or.inr (Or.inr ⟨m, ds, rfl⟩)⟩
    all_goals simp

theorem combineList_top {z : Bool} : ∀ {l out : List Stmt}, (∀ st ∈ out, Top z st) →
    (∀ st ∈ l, Top z st) →
    SimL (out ++ l) (combineList out l) ∧ ∀ st ∈ combineList out l, Top z st
  | [], out, ho, _ => by
      rw [combineList]
      exact ⟨by simpa using .refl _, ho⟩
  | st :: rest, out, ho, h => by
      obtain ⟨h1, h2⟩ := combineStmt_top (h st (by simp))
      obtain ⟨h3, h4⟩ := combineList_top (l := rest) (out := pushMerged out (combineStmt st))
        (pushMerged_top ho h2) (fun x hx => h x (by simp [hx]))
      rw [combineList]
      refine ⟨SimL.trans ?_ h3, h4⟩
      have := (((SimL.refl out).append h1.list).trans (pushMerged_sim out _)).append (SimL.refl rest)
      simpa using this

/-! ## Control flow -/

mutual
theorem terminator_abrupt : ∀ (st : Stmt), isTerminator st = true → ∀ {σ V : Type}
    {m : Machine σ V} {ls : List String} {s s' : σ} {k : Compl V}, Run m (.stmt ls st) s k s' →
    k ≠ .normal
  | .ret _, _, _, _, _, _, _, _, _, hr => by cases hr <;> simp
  | .throw _, _, _, _, _, _, _, _, _, hr => by cases hr <;> simp
  | .brk _, _, _, _, _, _, _, _, _, hr => by cases hr <;> simp
  | .cont _, _, _, _, _, _, _, _, _, hr => by cases hr <;> simp
  | .block body, h, _, _, m, _, _, _, _, hr => by
      cases hr with
      | block h1 h2 h3 =>
        have h4 := last_abrupt body (by simpa [isTerminator] using h) h2
        rcases h3 with ⟨_, _, rfl⟩ | ⟨_, h3⟩
        · exact h4
        · exact m.leave_abrupt _ _ _ _ _ _ h3 h4
  | .empty, h, _, _, _, _, _, _, _, _ => by simp [isTerminator] at h
  | .expr _, h, _, _, _, _, _, _, _, _ => by simp [isTerminator] at h
  | .other _, h, _, _, _, _, _, _, _, _ => by simp [isTerminator] at h
  | .ifThen _ _, h, _, _, _, _, _, _, _, _ => by simp [isTerminator] at h
  | .ifElse _ _ _, h, _, _, _, _, _, _, _, _ => by simp [isTerminator] at h
  | .while _ _, h, _, _, _, _, _, _, _, _ => by simp [isTerminator] at h
  | .doWhile _ _, h, _, _, _, _, _, _, _, _ => by simp [isTerminator] at h
  | .for _ _ _ _ _, h, _, _, _, _, _, _, _, _ => by simp [isTerminator] at h
  | .each _ _ _ _ _, h, _, _, _, _, _, _, _, _ => by simp [isTerminator] at h
  | .switch _ _ _, h, _, _, _, _, _, _, _, _ => by simp [isTerminator] at h
  | .tries _ _ _ _ _ _, h, _, _, _, _, _, _, _, _ => by simp [isTerminator] at h
  | .withs _ _, h, _, _, _, _, _, _, _, _ => by simp [isTerminator] at h
  | .label _ _, h, _, _, _, _, _, _, _, _ => by simp [isTerminator] at h
  | .func _ _ _, h, _, _, _, _, _, _, _, _ => by simp [isTerminator] at h
  | .cls _ _, h, _, _, _, _, _, _, _, _ => by simp [isTerminator] at h
  | .decl _ _ _, h, _, _, _, _, _, _, _, _ => by simp [isTerminator] at h
  | .item _, h, _, _, _, _, _, _, _, _ => by simp [isTerminator] at h
theorem last_abrupt : ∀ (l : List Stmt), lastTerminates l = true → ∀ {σ V : Type}
    {m : Machine σ V} {s s' : σ} {k : Compl V}, Run m (.list l) s k s' → k ≠ .normal
  | [], h, _, _, _, _, _, _, _ => by simp [lastTerminates] at h
  | st :: rest, h, _, _, _, _, _, _, hr => by
      rw [lastTerminates] at h
      cases hr with
      | stop _ h2 => exact h2
      | cons h1 h2 =>
        split at h
        · exact absurd rfl (terminator_abrupt st h h1)
        · exact last_abrupt rest h h2
end

theorem dropElse_one {z : Bool} {c : Expr} {t e : Stmt} (ht : isTerminator t = true)
    (h : ok z (.ifElse c t e) = true) : SimL [.ifElse c t e] [.ifThen c t, e] := by
  simp [ok] at h
  have hbt := branch_eq h.1.1.2
  have hbe := branch_eq h.2
  refine ⟨?_, ?_, ?_, ?_⟩
  · intro σ V m s k s'
    rw [run_one]
    constructor
    · intro hr
      cases hr with
      | elseThrow h1 => exact .stop (.ifThrow h1) (by simp)
      | elseTrue h1 h2 h3 =>
        refine .stop (.ifTrue h1 h2 h3) ?_
        rw [hbt] at h3
        exact terminator_abrupt t ht h3
      | elseFalse h1 h2 h3 =>
        rw [hbe] at h3
        exact .cons (.ifFalse h1 h2) (run_one.2 h3)
    · intro hr
      cases hr with
      | cons h1 h2 =>
        cases h1 with
        | ifTrue h3 h4 h5 =>
          rw [hbt] at h5
          exact absurd rfl (terminator_abrupt t ht h5)
        | ifFalse h3 h4 =>
          refine .elseFalse h3 h4 ?_
          rw [hbe]
          exact run_one.1 h2
      | stop h1 h2 =>
        cases h1 with
        | ifThrow h3 => exact .elseThrow h3
        | ifTrue h3 h4 h5 => exact .elseTrue h3 h4 h5
        | ifFalse h3 h4 => exact absurd rfl h2
  · simp [lex, h.2]
  · intro x; simp [vars]
  · simpa [links] using (ok_links h.1.2).symm

theorem dropElse_ok {z : Bool} : ∀ (l : List Stmt), oks z l = true →
    SimL l (dropElse l) ∧ oks z (dropElse l) = true
  | [], _ => ⟨by simpa [dropElse] using .refl _, by simp [dropElse]⟩
  | st :: rest, h => by
      simp at h
      obtain ⟨h1, h2⟩ := dropElse_ok rest h.2
      by_cases hs : ∃ c t e, st = .ifElse c t e
      · obtain ⟨c, t, e, rfl⟩ := hs
        rw [dropElse]
        split
        · exact ⟨.cons (.refl _) h1, by simp [h.1, h2]⟩
        · rename_i hc
          simp at hc
          refine ⟨(dropElse_one hc.1 h.1).append h1, ?_⟩
          have := h.1
          simp [ok] at this
          simp [ok, h2, this]
      · rw [dropElse]
        · exact ⟨.cons (.refl _) h1, by simp [h.1, h2]⟩
        · intro c t e he; exact hs ⟨c, t, e, he⟩

mutual
theorem patNames_eq : ∀ p : Pat, patNames p = bound p
  | .id _ => by simp [patNames, bound]
  | .many ps => by simp [patNames, bound, patsNames_eq ps]
  | .target _ => by simp [patNames, bound]
theorem patsNames_eq : ∀ ps : List Pat, patsNames ps = bounds ps
  | [] => by simp [patsNames, bounds]
  | p :: rest => by simp [patsNames, bounds, patNames_eq p, patsNames_eq rest]
end

theorem declNames_eq (ds : List Declarator) : declNames ds = boundDecls ds := by
  unfold declNames
  induction ds with
  | nil => simp [boundDecls]
  | cons d rest ih => rw [List.flatMap_cons, ih, patNames_eq, boundDecls]

mutual
theorem hoistedNames_eq : ∀ st : Stmt, hoistedNames st = vars st
  | .decl _ m ds => by cases m <;> simp [hoistedNames, vars, declNames_eq]
  | .func x _ ab => by simp [hoistedNames, vars]
  | .for i _ _ _ body => by
      rcases i with _ | _ | ⟨_ | _ | _ | _ | _, _⟩ <;>
        simp [hoistedNames, vars, initNames, declNames_eq, hoistedNamesList_eq body]
  | .each _ lhs _ _ body => by
      rcases lhs with ⟨_ | _ | _ | _ | _, _⟩ | _ <;>
        simp [hoistedNames, vars, lhsNames, patNames_eq, hoistedNamesList_eq body]
  | .block body => by simp [hoistedNames, vars, hoistedNamesList_eq body]
  | .ifThen _ t => by simp [hoistedNames, vars, hoistedNames_eq t]
  | .ifElse _ t e => by simp [hoistedNames, vars, hoistedNames_eq t, hoistedNames_eq e]
  | .while _ body => by simp [hoistedNames, vars, hoistedNames_eq body]
  | .doWhile body _ => by simp [hoistedNames, vars, hoistedNames_eq body]
  | .switch _ _ bodies => by simp [hoistedNames, vars, hoistedNamesLists_eq bodies]
  | .tries body _ _ handler _ last => by
      simp [hoistedNames, vars, hoistedNamesList_eq body, hoistedNamesList_eq handler,
        hoistedNamesList_eq last]
  | .withs _ body => by simp [hoistedNames, vars, hoistedNames_eq body]
  | .label _ body => by simp [hoistedNames, vars, hoistedNames_eq body]
  | .empty => by simp [hoistedNames, vars]
  | .expr _ => by simp [hoistedNames, vars]
  | .other _ => by simp [hoistedNames, vars]
  | .ret _ => by simp [hoistedNames, vars]
  | .throw _ => by simp [hoistedNames, vars]
  | .brk _ => by simp [hoistedNames, vars]
  | .cont _ => by simp [hoistedNames, vars]
  | .cls _ _ => by simp [hoistedNames, vars]
  | .item _ => by simp [hoistedNames, vars]
theorem hoistedNamesList_eq : ∀ l : List Stmt, hoistedNamesList l = varss l
  | [] => by simp [hoistedNamesList]
  | st :: rest => by simp [hoistedNamesList, hoistedNames_eq st, hoistedNamesList_eq rest]
theorem hoistedNamesLists_eq : ∀ l : List (List Stmt), hoistedNamesLists l = varsss l
  | [] => by simp [hoistedNamesLists, varsss]
  | b :: rest => by simp [hoistedNamesLists, varsss, hoistedNamesList_eq b, hoistedNamesLists_eq rest]
end

theorem lex_of_scoped : ∀ st : Stmt, scopedNames st = [] → lex st = []
  | .decl _ m ds, h => by
      cases m <;> simp_all [scopedNames, lex, declNames_eq]
  | .func _ _ _, h => by simp [scopedNames] at h
  | .cls _ _, h => by simp [scopedNames] at h
  | .label _ st, h => by
      simp only [lex]
      exact lex_of_scoped st (by simpa [scopedNames] using h)
  | .empty, _ => rfl
  | .expr _, _ => rfl
  | .other _, _ => rfl
  | .ret _, _ => rfl
  | .throw _, _ => rfl
  | .brk _, _ => rfl
  | .cont _, _ => rfl
  | .block _, _ => rfl
  | .ifThen _ _, _ => rfl
  | .ifElse _ _ _, _ => rfl
  | .while _ _, _ => rfl
  | .doWhile _ _, _ => rfl
  | .for _ _ _ _ _, _ => rfl
  | .each _ _ _ _ _, _ => rfl
  | .switch _ _ _, _ => rfl
  | .tries _ _ _ _ _ _, _ => rfl
  | .withs _ _, _ => rfl
  | .item _, _ => rfl

theorem mem_foldl_push (x : String) (l out : List String) :
    x ∈ l.foldl pushUnique out ↔ x ∈ out ∨ x ∈ l := by
  induction l generalizing out with
  | nil => simp
  | cons y rest ih => simp [ih, mem_pushUnique, or_assoc]

/-- Two lists declare alike. -/
structure Declares (z : Bool) (a b : List Stmt) : Prop where
  lex : lexs a = lexs b
  vars : ∀ x, x ∈ varss a ↔ x ∈ varss b
  links : linkss a = linkss b
  ok : oks z b = true

theorem unreachable_ok {z : Bool} {st : Stmt} (h : ok z st = true) :
    Declares z [st] (unreachable st) := by
  unfold unreachable
  split
  · rename_i h1
    simp [List.isEmpty_iff] at h1
    refine ⟨by simp [lex_of_scoped st h1.1], fun x => ?_, by simp [ok_links h], rfl⟩
    simp [← hoistedNames_eq, h1.2]
  · split
    · exact ⟨rfl, fun _ => Iff.rfl, rfl, by simp [h]⟩
    · rename_i h1 h2
      simp [List.isEmpty_iff] at h2
      refine ⟨by simp [lex_of_scoped st h2, lex_stub], fun x => ?_, by
        simp [ok_links h, links_stub], by simp [ok_stub]⟩
      simp [mem_vars_stub, mem_foldl_push, hoistedNames_eq]

theorem trim_true_ok {z : Bool} : ∀ (l : List Stmt), oks z l = true → Declares z l (trim true l)
  | [], _ => ⟨rfl, fun _ => Iff.rfl, rfl, by simp [trim]⟩
  | st :: rest, h => by
      simp at h
      have h1 := unreachable_ok h.1
      have h2 := trim_true_ok rest h.2
      rw [trim]
      refine ⟨?_, fun x => ?_, ?_, ?_⟩
      · rw [lexs_append, ← h1.lex, ← h2.lex]; simp
      · rw [varss_append, List.mem_append, ← h1.vars, ← h2.vars]; simp
      · rw [linkss_append, ← h1.links, ← h2.links]; simp
      · rw [oks_append, h1.ok, h2.ok]; rfl

theorem trim_ok {z : Bool} : ∀ (l : List Stmt), oks z l = true →
    SimL l (trim false l) ∧ oks z (trim false l) = true
  | [], _ => ⟨by simpa [trim] using .refl _, by simp [trim]⟩
  | st :: rest, h => by
      simp at h
      rw [trim]
      cases ht : isTerminator st with
      | false =>
        obtain ⟨h1, h2⟩ := trim_ok rest h.2
        exact ⟨.cons (.refl _) h1, by simp [h.1, h2]⟩
      | true =>
        have h1 := trim_true_ok rest h.2
        refine ⟨⟨?_, by simp [h1.lex], fun x => by simp [h1.vars x], by simp [h1.links]⟩, by
          simp [h.1, h1.ok]⟩
        intro σ V m s k s'
        constructor <;>
        · intro hr
          cases hr with
          | cons h2 _ => exact absurd rfl (terminator_abrupt st ht h2)
          | stop h2 h3 => exact .stop h2 h3

theorem flowHere_ok {z : Bool} (site : Site) (inList : Bool) {l : List Stmt}
    (h : oks z l = true) :
    SimL l (flowHere site inList l) ∧ oks z (flowHere site inList l) = true := by
  have h1 : SimL l (if ((site == .script || site == .bound) && inList) = true then dropElse l else l)
      ∧ oks z (if ((site == .script || site == .bound) && inList) = true then dropElse l else l)
        = true := by
    split
    · exact dropElse_ok l h
    · exact ⟨.refl _, h⟩
  have h2 := trim_ok _ h1.2
  unfold flowHere
  dsimp only
  by_cases hb : (site == .bound) = true
  · rw [if_pos hb]
    exact ⟨h1.1.trans h2.1, h2.2⟩
  · rw [if_neg hb]
    exact h1

theorem map_ok {z : Bool} {f : Stmt → Stmt} (hf : ∀ st, ok z st = true → Cleaned z st (f st)) :
    ∀ (l : List Stmt), oks z l = true → SimL l (l.map f) ∧ oks z (l.map f) = true
  | [], _ => ⟨.refl _, rfl⟩
  | st :: rest, h => by
      simp at h
      obtain ⟨h1, h2⟩ := map_ok hf rest h.2
      exact ⟨.cons (hf st h.1).1 h1, by simp [(hf st h.1).2, h2]⟩

theorem mapl_ok {z : Bool} {f : List Stmt → List Stmt}
    (hf : ∀ l, oks z l = true → SimL l (f l) ∧ oks z (f l) = true) :
    ∀ (l : List (List Stmt)), okss z l = true → SimLL l (l.map f) ∧ okss z (l.map f) = true
  | [], _ => ⟨.nil, by simp [okss]⟩
  | b :: rest, h => by
      simp [okss] at h
      obtain ⟨h1, h2⟩ := mapl_ok hf rest h.2
      exact ⟨.cons (hf b h.1).1 h1, by simp [okss, (hf b h.1).2, h2]⟩

theorem flow_ok (on : List Stmt → Site) (z : Bool) : ∀ n : Nat,
    (∀ st, ok z st = true → Cleaned z st (flowStmt on n st)) ∧
      (∀ inList l, oks z l = true →
        SimL l (flowList on n inList l) ∧ oks z (flowList on n inList l) = true)
  | 0 => by
      refine ⟨fun st h => ?_, fun inList l h => ?_⟩
      · rw [flowStmt]; exact .same h
      · rw [flowList]; exact ⟨.refl _, h⟩
  | n + 1 => by
      obtain ⟨ihs, ihl⟩ := flow_ok on z n
      constructor
      · intro st h
        cases st with
        | block body =>
          obtain ⟨h1, h2⟩ := ihl true body (by simpa [ok] using h)
          exact ⟨by simpa [flowStmt] using .block h1, by simpa [flowStmt, ok] using h2⟩
        | ifThen c t =>
          simp [ok] at h
          obtain ⟨h1, h2⟩ := ihs t h.1
          have hl := h1.lex ▸ h.2
          exact ⟨by simpa [flowStmt] using .ifThen h1 h.2, by simp [flowStmt, ok, h2, hl]⟩
        | ifElse c t e =>
          simp [ok] at h
          obtain ⟨h1, h2⟩ := ihs t h.1.1.1
          have hl := h1.lex ▸ h.1.1.2
          obtain ⟨h1', h2'⟩ := ihs e h.1.2
          have hl' := h1'.lex ▸ h.2
          exact ⟨by simpa [flowStmt] using .ifElse h1 h1' h.1.1.2 h.2, by
            simp [flowStmt, ok, h2, hl, h2', hl']⟩
        | «while» c body =>
          simp [ok] at h
          obtain ⟨h1, h2⟩ := ihs body h.1
          have hl := h1.lex ▸ h.2
          exact ⟨by simpa [flowStmt] using .while h1, by simp [flowStmt, ok, h2, hl]⟩
        | doWhile body c =>
          simp [ok] at h
          obtain ⟨h1, h2⟩ := ihs body h.1
          have hl := h1.lex ▸ h.2
          exact ⟨by simpa [flowStmt] using .doWhile h1, by simp [flowStmt, ok, h2, hl]⟩
        | «for» i t u br body =>
          obtain ⟨h1, h2⟩ := ihl (br || body.isEmpty) body (by simpa [ok] using h)
          exact ⟨by simpa [flowStmt] using .for h1, by simpa [flowStmt, ok] using h2⟩
        | each kd lhs e br body =>
          obtain ⟨h1, h2⟩ := ihl (br || body.isEmpty) body (by simpa [ok] using h)
          exact ⟨by simpa [flowStmt] using .each h1, by simpa [flowStmt, ok] using h2⟩
        | «switch» e ts bodies =>
          obtain ⟨h1, h2⟩ := mapl_ok (ihl true) bodies (by simpa [ok] using h)
          exact ⟨by simpa [flowStmt] using .switch h1, by simpa [flowStmt, ok] using h2⟩
        | tries body hc p handler hf last =>
          simp [ok] at h
          obtain ⟨h1, h2⟩ := ihl true body h.1.1
          obtain ⟨h3, h4⟩ := ihl true handler h.1.2
          obtain ⟨h5, h6⟩ := ihl true last h.2
          exact ⟨by simpa [flowStmt] using .tries h1 h3 h5, by simp [flowStmt, ok, h2, h4, h6]⟩
        | withs e body =>
          simp [ok] at h
          obtain ⟨h1, h2⟩ := ihs body h.1
          have hl := h1.lex ▸ h.2
          exact ⟨by simpa [flowStmt] using .withs h1, by simp [flowStmt, ok, h2, hl]⟩
        | label l body =>
          simp [ok] at h
          obtain ⟨h1, h2⟩ := ihs body h
          exact ⟨by simpa [flowStmt] using .label h1, by simp [flowStmt, ok, h2]⟩
        | _ => simpa [flowStmt] using .same h
      · intro inList l h
        rw [flowList]
        split
        · exact ⟨.refl _, h⟩
        · obtain ⟨h1, h2⟩ := flowHere_ok (on l) inList h
          obtain ⟨h3, h4⟩ := map_ok ihs _ h2
          exact ⟨h1.trans h3, h4⟩

end Verif.Stmts
