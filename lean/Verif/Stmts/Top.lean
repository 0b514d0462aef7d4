import Verif.Stmts.Passes2

/-! # Whole bodies -/

namespace Verif.Stmts

/-- All of them are directives. -/
def Prologue (pro : List Stmt) : Prop := ∀ st ∈ pro, ∃ s, st = Directive s

theorem top_not_strict {z : Bool} {st : Stmt} (h : Top z st) : st ≠ Directive "use strict" := by
  rintro rfl
  rcases h with h | ⟨id, h⟩ | ⟨m, ds, h⟩
  · simp [ok, Directive] at h
  · simp [Directive] at h
  · simp [Directive] at h

theorem usesStrict_iff {z : Bool} {pro rest : List Stmt} (hp : Prologue pro)
    (hr : ∀ st ∈ rest, Top z st) :
    UsesStrict (pro ++ rest) ↔ Directive "use strict" ∈ pro := by
  constructor
  · rintro ⟨p, r, he, hd⟩
    rcases List.append_eq_append_iff.1 he with ⟨a, h1, h2⟩ | ⟨a, h1, h2⟩
    · exact absurd rfl (top_not_strict (hr (Directive "use strict") (by simp [h2])))
    · cases a with
      | nil =>
        simp at h2
        exact absurd rfl (top_not_strict (hr (Directive "use strict") (by simp [← h2])))
      | cons x a =>
        simp at h2
        rw [h1, h2.1]
        simp
  · intro h
    obtain ⟨p, r, he⟩ := List.append_of_mem h
    exact ⟨p, r ++ rest, by simp [he], fun st hs => hp st (by simp [he, hs])⟩

theorem hasUseStrict_iff : ∀ body : List Stmt, hasUseStrict body = true ↔ UsesStrict body
  | [] => by
      simp [hasUseStrict, UsesStrict]
  | st :: rest => by
      by_cases hs : ∃ s, st = Directive s
      · obtain ⟨s, rfl⟩ := hs
        rw [Directive, hasUseStrict]
        by_cases he : s = "use strict"
        · subst he
          simp only [if_true, true_iff]
          exact ⟨[], rest, rfl, by simp⟩
        · rw [if_neg he, hasUseStrict_iff rest]
          constructor
          · rintro ⟨p, r, h1, h2⟩
            refine ⟨Directive s :: p, r, by rw [h1]; rfl, ?_⟩
            intro st hst
            rcases List.mem_cons.1 hst with rfl | hst
            · exact ⟨s, rfl⟩
            · exact h2 st hst
          · rintro ⟨p, r, h1, h2⟩
            cases p with
            | nil => simp [Directive] at h1; exact absurd h1.1 he
            | cons q p =>
              simp at h1
              exact ⟨p, r, h1.2, fun st hst => h2 st (by simp [hst])⟩
      · constructor
        · intro h
          exfalso
          unfold hasUseStrict at h
          split at h
          · rename_i s r he
            cases he
            exact hs ⟨s, rfl⟩
          · contradiction
        · rintro ⟨p, r, h1, h2⟩
          exfalso
          cases p with
          | nil => simp at h1; exact hs ⟨_, h1.1⟩
          | cons q p =>
            simp at h1
            exact hs (h1.1 ▸ h2 q (by simp))

/-- A body with its directives apart. -/
structure Body (inherited z : Bool) (pro rest : List Stmt) : Prop where
  strict : z = true ↔ (inherited = true ∨ Directive "use strict" ∈ pro)
  pro : Prologue pro
  rest : ∀ st ∈ rest, Top z st

theorem fair_iff {inherited : Bool} {body : List Stmt} :
    Fair inherited body ↔ ∃ z pro rest, body = pro ++ rest ∧ Body inherited z pro rest := by
  constructor
  · rintro ⟨z, pro, rest, h1, rfl, h3, h4⟩
    exact ⟨z, pro, rest, rfl, by rw [h1, usesStrict_iff h3 h4], h3, h4⟩
  · rintro ⟨z, pro, rest, rfl, h⟩
    exact ⟨z, pro, rest, by rw [h.strict, usesStrict_iff h.pro h.rest], rfl, h.pro, h.rest⟩

theorem same_of_sim {inherited z : Bool} {pro rest rest' : List Stmt}
    (h : Body inherited z pro rest) (h' : ∀ st ∈ rest', Top z st) (hs : SimL rest rest') :
    SameBody inherited (pro ++ rest) (pro ++ rest') := by
  have hl := (SimL.refl pro).append hs
  have hh : header inherited (pro ++ rest) = header inherited (pro ++ rest') := by
    unfold header
    congr 1
    · rw [usesStrict_iff h.pro h.rest, usesStrict_iff h.pro h']
    · funext x; exact propext (hl.vars x)
    · exact hl.lex
    · exact hl.links
  intro σ V m s k s'
  unfold RunBody
  rw [hh]
  refine or_congr Iff.rfl (exists_congr fun s0 => and_congr Iff.rfl (hl.run m s0 k s'))

/-! ## Directives stay in front -/

theorem rewriteStmt_linked (z : Bool) {st : Stmt} (h : Linked st) : rewriteStmt z true st = [st] := by
  rcases h with ⟨id, rfl⟩ | ⟨m, ds, rfl⟩ <;> rw [rewriteStmt] <;> simp

theorem rewriteList_top {z : Bool} : ∀ {l : List Stmt}, (∀ st ∈ l, Top z st) →
    SimL l (rewriteList z l) ∧ ∀ st ∈ rewriteList z l, Top z st
  | [], _ => ⟨by simpa [rewriteList] using .refl _, by simp [rewriteList]⟩
  | st :: rest, h => by
      obtain ⟨h2, h3⟩ := rewriteList_top (l := rest) (fun x hx => h x (by simp [hx]))
      have h1 : SimL [st] (rewriteStmt z true st) ∧ ∀ x ∈ rewriteStmt z true st, Top z x := by
        rcases h st (by simp) with h | h
        · have := rewriteStmt_ok z st true h
          exact ⟨this.list, fun x hx => Or.inl ((oks_iff z _).1 this.oks x hx)⟩
        · rw [rewriteStmt_linked z h]
          exact ⟨.refl _, fun x hx => by rw [List.mem_singleton.1 hx]; exact Or.inr h⟩
      rw [rewriteList]
      refine ⟨h1.1.append h2, fun x hx => ?_⟩
      rcases List.mem_append.1 hx with hx | hx
      · exact h1.2 x hx
      · exact h3 x hx

theorem rewriteList_pro (z : Bool) (rest : List Stmt) : ∀ {pro : List Stmt}, Prologue pro →
    rewriteList z (pro ++ rest) = pro ++ rewriteList z rest
  | [], _ => rfl
  | st :: pro, h => by
      obtain ⟨s, rfl⟩ := h st (by simp)
      rw [List.cons_append, rewriteList, rewriteList_pro z rest (fun x hx => h x (by simp [hx]))]
      simp [Directive, rewriteStmt]

theorem cleanList_pro (rest : List Stmt) : ∀ {pro : List Stmt}, Prologue pro →
    cleanList (pro ++ rest) = pro ++ cleanList rest
  | [], _ => rfl
  | st :: pro, h => by
      obtain ⟨s, rfl⟩ := h st (by simp)
      rw [List.cons_append, cleanList, cleanList_pro rest (fun x hx => h x (by simp [hx]))]
      simp [Directive, cleanStmt, vacuous]

theorem mergeDecls_directive (s : String) (st : Stmt) : mergeDecls (Directive s) st = none := by
  simp [mergeDecls, Directive]

theorem mergeDecls_into (s : String) (st : Stmt) : mergeDecls st (Directive s) = none := by
  cases st <;> simp [mergeDecls, Directive]

theorem pushMerged_pro {pro : List Stmt} (h : Prologue pro) (out : List Stmt) (st : Stmt) :
    pushMerged (pro ++ out) st = pro ++ pushMerged out st := by
  by_cases ho : out = []
  · subst ho
    unfold pushMerged
    rcases hl : pro.getLast? with _ | x
    · simp_all
    · obtain ⟨s, rfl⟩ := h x (List.mem_of_getLast? hl)
      simp [hl, mergeDecls_directive]
  · unfold pushMerged
    have hg : (pro ++ out).getLast? = out.getLast? := by
      rw [List.getLast?_append]
      cases hl : out.getLast? with
      | none => exact absurd (List.getLast?_eq_none_iff.1 hl) ho
      | some x => rfl
    rw [hg, List.dropLast_append_of_ne_nil ho]
    rcases out.getLast? with _ | x
    · simp
    · simp only
      cases mergeDecls x st <;> simp

theorem combineList_pro {pro : List Stmt} (h : Prologue pro) : ∀ (l out : List Stmt),
    combineList (pro ++ out) l = pro ++ combineList out l
  | [], out => by simp [combineList]
  | st :: rest, out => by
      rw [combineList, combineList, pushMerged_pro h, combineList_pro h rest]

theorem combineList_start {rest : List Stmt} : ∀ {pro out : List Stmt}, Prologue pro →
    combineList out (pro ++ rest) = combineList (out ++ pro) rest
  | [], out, _ => by simp
  | st :: pro, out, h => by
      obtain ⟨s, rfl⟩ := h st (by simp)
      have hc : combineStmt (Directive s) = Directive s := by simp [Directive, combineStmt]
      have hp : pushMerged out (Directive s) = out ++ [Directive s] := by
        rcases pushMerged_cases out (Directive s) with h | ⟨init, prev, merged, _, h2, _⟩
        · exact h
        · rw [mergeDecls_into] at h2; contradiction
      rw [List.cons_append, combineList, hc, hp,
        combineList_start (fun x hx => h x (by simp [hx]))]
      simp

theorem dropElse_pro (rest : List Stmt) : ∀ {pro : List Stmt}, Prologue pro →
    dropElse (pro ++ rest) = pro ++ dropElse rest
  | [], _ => rfl
  | st :: pro, h => by
      obtain ⟨s, rfl⟩ := h st (by simp)
      rw [List.cons_append, dropElse, dropElse_pro rest (fun x hx => h x (by simp [hx]))]
      · rfl
      · simp [Directive]

theorem trim_pro (rest : List Stmt) : ∀ {pro : List Stmt}, Prologue pro →
    trim false (pro ++ rest) = pro ++ trim false rest
  | [], _ => rfl
  | st :: pro, h => by
      obtain ⟨s, rfl⟩ := h st (by simp)
      rw [List.cons_append, trim, show isTerminator (Directive s) = false from rfl,
        trim_pro rest (fun x hx => h x (by simp [hx]))]
      rfl

theorem flowHere_pro (site : Site) (inList : Bool) (rest : List Stmt) {pro : List Stmt}
    (h : Prologue pro) : flowHere site inList (pro ++ rest) = pro ++ flowHere site inList rest := by
  unfold flowHere
  cases site <;> cases inList <;> simp [dropElse_pro rest h, trim_pro _ h]

theorem flowStmt_pro (on : List Stmt → Site) (n : Nat) {pro : List Stmt} (h : Prologue pro) :
    pro.map (flowStmt on n) = pro := by
  refine (List.map_congr_left (g := id) fun st hst => ?_).trans (List.map_id pro)
  obtain ⟨s, rfl⟩ := h st hst
  cases n <;> simp [flowStmt, Directive]

/-! ## One pass -/

theorem unlinked_oks {z : Bool} {l : List Stmt} (h : ∀ st ∈ l, Top z st) (hu : Unlinked l) :
    oks z l = true :=
  (oks_iff z l).2 fun st hst => (h st hst).resolve_right (hu st hst)

theorem oks_unlinked {z : Bool} {l : List Stmt} (h : oks z l = true) : Unlinked l := by
  intro st hst
  have := (oks_iff z l).1 h st hst
  rintro (⟨id, rfl⟩ | ⟨m, ds, rfl⟩) <;> simp [ok] at this

theorem pass_body {inherited z : Bool} {pro rest : List Stmt} (h : Body inherited z pro rest)
    (p : Pass) (hu : (∃ on, p = .flow on) → Unlinked rest) :
    ∃ rest', p.run inherited (pro ++ rest) = pro ++ rest' ∧ SimL rest rest' ∧
      (∀ st ∈ rest', Top z st) ∧ (Unlinked rest → Unlinked rest') := by
  cases p with
  | stmts =>
    have hz : (inherited || hasUseStrict (pro ++ rest)) = z := by
      rw [Bool.eq_iff_iff, Bool.or_eq_true, hasUseStrict_iff, usesStrict_iff h.pro h.rest, h.strict]
    obtain ⟨h1, h2⟩ := rewriteList_top h.rest
    exact ⟨_, by rw [Pass.run, hz, rewriteList_pro z rest h.pro], h1, h2, fun hl =>
      oks_unlinked (rewriteList_ok z rest (unlinked_oks h.rest hl)).2⟩
  | cleanup =>
    obtain ⟨h1, h2⟩ := cleanList_top h.rest
    exact ⟨_, by rw [Pass.run, cleanList_pro rest h.pro], h1, h2, fun hl =>
      oks_unlinked (cleanList_ok z rest (unlinked_oks h.rest hl)).2⟩
  | combine =>
    obtain ⟨h1, h2⟩ := combineList_top (out := []) (by simp) h.rest
    refine ⟨combineList [] rest, ?_, by simpa using h1, h2, fun hl =>
      oks_unlinked (combineList_ok z rest [] rfl (unlinked_oks h.rest hl)).2⟩
    have := combineList_pro h.pro rest []
    simp at this
    rw [Pass.run, combineList_start h.pro, List.nil_append, this]
  | flow on =>
    have ho := unlinked_oks h.rest (hu ⟨on, rfl⟩)
    rw [Pass.run]
    cases hn : sizes (pro ++ rest) with
    | zero =>
      rw [flowList]
      exact ⟨rest, rfl, .refl _, h.rest, id⟩
    | succ n =>
      rw [flowList]
      split
      · exact ⟨rest, rfl, .refl _, h.rest, id⟩
      · rw [flowHere_pro _ _ rest h.pro, List.map_append, flowStmt_pro on n h.pro]
        obtain ⟨h1, h2⟩ := flowHere_ok (on (pro ++ rest)) true ho
        obtain ⟨h3, h4⟩ := map_ok (flow_ok on z n).1 _ h2
        exact ⟨_, rfl, h1.trans h3, fun st hst => Or.inl ((oks_iff z _).1 h4 st hst), fun _ =>
          oks_unlinked h4⟩

theorem pass_fair {inherited : Bool} {body : List Stmt} (h : Fair inherited body) (p : Pass)
    (hu : (∃ on, p = .flow on) → Unlinked body) :
    SameBody inherited body (p.run inherited body) ∧ Fair inherited (p.run inherited body) ∧
      (Unlinked body → Unlinked (p.run inherited body)) := by
  obtain ⟨z, pro, rest, rfl, hb⟩ := fair_iff.1 h
  obtain ⟨rest', h1, h2, h3, h4⟩ := pass_body hb p
    (fun hp st hst => hu hp st (List.mem_append_right _ hst))
  rw [h1]
  refine ⟨same_of_sim hb h3 h2, fair_iff.2 ⟨z, pro, rest', rfl, hb.strict, hb.pro, h3⟩, ?_⟩
  intro hl st hst
  rcases List.mem_append.1 hst with hst | hst
  · exact hl st (List.mem_append_left _ hst)
  · exact h4 (fun x hx => hl x (List.mem_append_right _ hx)) st hst

/-! ## Enough fuel for the control flow pass -/

theorem size_pos : ∀ st : Stmt, 0 < size st := by
  intro st
  cases st <;> simp [size]

theorem size_mem : ∀ {l : List Stmt} {st : Stmt}, st ∈ l → size st < sizes l
  | [], _, h => by cases h
  | x :: rest, st, h => by
      rw [sizes]
      rcases List.mem_cons.1 h with rfl | h
      · omega
      · have := size_mem h; omega

theorem sizes_mem : ∀ {l : List (List Stmt)} {b : List Stmt}, b ∈ l → sizes b < sizess l
  | [], _, h => by cases h
  | x :: rest, st, h => by
      rw [sizess]
      rcases List.mem_cons.1 h with rfl | h
      · omega
      · have := sizes_mem h; omega

theorem size_dropElse : ∀ (l : List Stmt) (x : Stmt), x ∈ dropElse l → ∃ y ∈ l, size x ≤ size y
  | [], x, h => by simp [dropElse] at h
  | st :: rest, x, h => by
      have ih := size_dropElse rest x
      by_cases hs : ∃ c t e, st = .ifElse c t e
      · obtain ⟨c, t, e, rfl⟩ := hs
        rw [dropElse] at h
        split at h
        · rcases List.mem_cons.1 h with rfl | h
          · exact ⟨_, by simp, Nat.le_refl _⟩
          · obtain ⟨y, h1, h2⟩ := ih h; exact ⟨y, by simp [h1], h2⟩
        · rcases List.mem_cons.1 h with rfl | h
          · exact ⟨.ifElse c t e, by simp, by simp only [size]; omega⟩
          · rcases List.mem_cons.1 h with rfl | h
            · exact ⟨.ifElse c t x, by simp, by simp only [size]; omega⟩
            · obtain ⟨y, h1, h2⟩ := ih h; exact ⟨y, by simp [h1], h2⟩
      · rw [dropElse] at h
        · rcases List.mem_cons.1 h with rfl | h
          · exact ⟨_, by simp, Nat.le_refl _⟩
          · obtain ⟨y, h1, h2⟩ := ih h; exact ⟨y, by simp [h1], h2⟩
        · intro c t e he; exact hs ⟨c, t, e, he⟩

theorem size_unreachable {st x : Stmt} (h : x ∈ unreachable st) : size x ≤ size st := by
  unfold unreachable at h
  split at h
  · cases h
  · split at h
    · rw [List.mem_singleton.1 h]; exact Nat.le_refl _
    · rw [List.mem_singleton.1 h]; exact size_pos st

theorem size_trim : ∀ (b : Bool) (l : List Stmt) (x : Stmt), x ∈ trim b l →
    ∃ y ∈ l, size x ≤ size y
  | b, [], x, h => by simp [trim] at h
  | true, st :: rest, x, h => by
      rw [trim] at h
      rcases List.mem_append.1 h with h | h
      · exact ⟨st, by simp, size_unreachable h⟩
      · obtain ⟨y, h1, h2⟩ := size_trim true rest x h; exact ⟨y, by simp [h1], h2⟩
  | false, st :: rest, x, h => by
      rw [trim] at h
      rcases List.mem_cons.1 h with rfl | h
      · exact ⟨_, by simp, Nat.le_refl _⟩
      · obtain ⟨y, h1, h2⟩ := size_trim _ rest x h; exact ⟨y, by simp [h1], h2⟩

theorem size_flowHere {site : Site} {inList : Bool} {l : List Stmt} {x : Stmt}
    (h : x ∈ flowHere site inList l) : size x < sizes l := by
  have key : ∃ y ∈ l, size x ≤ size y := by
    unfold flowHere at h
    dsimp only at h
    have h1 : ∀ x, x ∈ (if ((site == .script || site == .bound) && inList) = true
        then dropElse l else l) → ∃ y ∈ l, size x ≤ size y := by
      intro x h
      split at h
      · exact size_dropElse l x h
      · exact ⟨x, h, Nat.le_refl _⟩
    by_cases hb : (site == .bound) = true
    · rw [if_pos hb] at h
      obtain ⟨y, h2, h3⟩ := size_trim _ _ _ h
      obtain ⟨w, h4, h5⟩ := h1 y h2
      exact ⟨w, h4, Nat.le_trans h3 h5⟩
    · rw [if_neg hb] at h
      exact h1 x h
  obtain ⟨y, h1, h2⟩ := key
  exact Nat.lt_of_le_of_lt h2 (size_mem h1)

theorem flow_step (on : List Stmt → Site) : ∀ n : Nat,
    (∀ st, size st ≤ n → flowStmt on (n + 1) st = flowStmt on n st) ∧
      (∀ inList l, sizes l ≤ n → flowList on (n + 1) inList l = flowList on n inList l)
  | 0 => by
      refine ⟨fun st h => absurd (size_pos st) (by omega), fun _ l h => ?_⟩
      cases l <;> simp [sizes] at h
  | n + 1 => by
      obtain ⟨ihs, ihl⟩ := flow_step on n
      refine ⟨fun st h => ?_, fun inList l h => ?_⟩
      · cases st with
        | «switch» e ts bodies =>
          simp only [size] at h
          simp only [flowStmt]
          congr 1
          refine List.map_congr_left fun b hb => ihl true b ?_
          have := sizes_mem hb
          omega
        | _ =>
          first
          | (simp only [size] at h
             simp only [flowStmt]
             first
             | (rw [ihl _ _ (by omega), ihl _ _ (by omega), ihl _ _ (by omega)]; done)
             | (rw [ihs _ (by omega), ihs _ (by omega)]; done)
             | (rw [ihl _ _ (by omega)]; done)
             | (rw [ihs _ (by omega)]; done)
             | skip)
          | skip
      · rw [flowList, flowList]
        split
        · rfl
        · refine List.map_congr_left fun x hx => ihs x ?_
          have := size_flowHere hx
          omega

/-- More fuel changes nothing: the control flow pass goes through the whole body. -/
theorem flow_fuel (on : List Stmt → Site) (inList : Bool) (body : List Stmt) :
    ∀ n, sizes body ≤ n → flowList on n inList body = flowList on (sizes body) inList body := by
  intro n hn
  induction n with
  | zero =>
    have : sizes body = 0 := by omega
    rw [this]
  | succ n ih =>
    by_cases h : sizes body ≤ n
    · rw [(flow_step on n).2 inList body h, ih h]
    · have : sizes body = n + 1 := by omega
      rw [this]

end Verif.Stmts
