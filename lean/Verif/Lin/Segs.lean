import Verif.Lin.Model
import Verif.Lin.Spec
import Verif.Ssa.BranchProof
/-!
# Code cut into segments
-/

namespace Verif.Lin

open Verif.Il Verif.Graph Verif.Opt Verif.Ssa

/-- How a segment ends: with the code, in front of a label, or with a jump; with the label of the next one. -/
inductive Term where
  | halt
  | fall (next : Nat)
  | jump (i : Inst) (next : Nat)

structure Seg where
  lab : Nat
  start : Nat
  body : List Inst
  term : Term

def Seg.next (s : Seg) : Option Nat :=
  match s.term with
  | .halt => none
  | .fall l => some l
  | .jump _ l => some l

/-- The segments of `code`, which follows the instructions `body` of the segment `cur` that starts at `pos`. -/
def segs (pos cur n : Nat) (body : List Inst) : List Inst → List Seg
  | [] => [⟨cur, pos, body, .halt⟩]
  | i :: is =>
    match i.t with
    | .label => ⟨cur, pos, body, .fall (i.labels.headD 0)⟩ :: segs (pos + body.length + 1) (i.labels.headD 0) n [] is
    | .goto | .condGoto => ⟨cur, pos, body, .jump i n⟩ :: segs (pos + body.length + 1) n (n + 1) [] is
    | _ => segs pos cur n (body ++ [i]) is

/-- The number of jumps. -/
def jumps (code : List Inst) : Nat := (code.filter (fun i => i.t == .goto || i.t == .condGoto)).length

/-- Neither label nor jump. -/
def Plain (i : Inst) : Prop := i.t ≠ .label ∧ i.t ≠ .goto ∧ i.t ≠ .condGoto

theorem segs_ne : ∀ {code : List Inst} {pos cur n : Nat} {body : List Inst}, ∃ s r, segs pos cur n body code = s :: r ∧
    s.lab = cur ∧ s.start = pos
  | [], _, _, _, _ => ⟨_, _, rfl, rfl, rfl⟩
  | i :: is, pos, cur, n, body => by
    simp only [segs]
    split
    · exact ⟨_, _, rfl, rfl, rfl⟩
    · exact ⟨_, _, rfl, rfl, rfl⟩
    · exact ⟨_, _, rfl, rfl, rfl⟩
    · exact segs_ne

/-- Every segment ends where the next one starts. -/
def Linked : List Seg → Prop
  | [] => True
  | s :: r => (match r with
    | [] => s.term = .halt
    | s' :: _ => s.next = some s'.lab ∧ s'.start = s.start + s.body.length + 1) ∧ Linked r

theorem segs_linked : ∀ {code : List Inst} {pos cur n : Nat} {body : List Inst}, Linked (segs pos cur n body code)
  | [], _, _, _, _ => ⟨rfl, trivial⟩
  | i :: is, pos, cur, n, body => by
    simp only [segs]
    split
    · obtain ⟨s, r, h1, h2, h3⟩ := segs_ne (code := is) (pos := pos + body.length + 1) (cur := i.labels.headD 0) (n := n) (body := [])
      have h4 := segs_linked (code := is) (pos := pos + body.length + 1) (cur := i.labels.headD 0) (n := n) (body := [])
      refine ⟨?_, h4⟩
      rw [h1]
      exact ⟨by rw [h2]; rfl, h3⟩
    · obtain ⟨s, r, h1, h2, h3⟩ := segs_ne (code := is) (pos := pos + body.length + 1) (cur := n) (n := n + 1) (body := [])
      have h4 := segs_linked (code := is) (pos := pos + body.length + 1) (cur := n) (n := n + 1) (body := [])
      refine ⟨?_, h4⟩
      rw [h1]
      exact ⟨by rw [h2]; rfl, h3⟩
    · obtain ⟨s, r, h1, h2, h3⟩ := segs_ne (code := is) (pos := pos + body.length + 1) (cur := n) (n := n + 1) (body := [])
      have h4 := segs_linked (code := is) (pos := pos + body.length + 1) (cur := n) (n := n + 1) (body := [])
      refine ⟨?_, h4⟩
      rw [h1]
      exact ⟨by rw [h2]; rfl, h3⟩
    · exact segs_linked

/-- What is at the places of a segment. -/
structure Lies (whole : List Inst) (s : Seg) : Prop where
  plain : ∀ i ∈ s.body, Plain i
  body : ∀ k, k < s.body.length → whole[s.start + k]? = s.body[k]?
  halt : s.term = .halt → whole.length = s.start + s.body.length
  fall : ∀ l, s.term = .fall l → ∃ i, whole[s.start + s.body.length]? = some i ∧ i.t = .label ∧ i.labels.headD 0 = l
  jump : ∀ i l, s.term = .jump i l → whole[s.start + s.body.length]? = some i ∧ (i.t = .goto ∨ i.t = .condGoto)

theorem segs_lies {whole : List Inst} : ∀ {code : List Inst} {pos cur n : Nat} {body pre : List Inst},
    whole = pre ++ body ++ code → pre.length = pos → (∀ i ∈ body, Plain i) →
    ∀ s ∈ segs pos cur n body code, Lies whole s
  | [], pos, cur, n, body, pre, hw, hp, hb, s, hs => by
    simp only [segs, List.mem_singleton] at hs
    subst hs
    subst hw
    refine ⟨hb, ?_, ?_, ?_, ?_⟩
    · intro k hk
      simp only at hk ⊢
      rw [List.append_nil, List.getElem?_append_right (by omega)]
      congr 1
      omega
    · intro _
      simp [hp]
    · intro l h; cases h
    · intro i l h; cases h
  | i :: is, pos, cur, n, body, pre, hw, hp, hb, s, hs => by
    have hbody : ∀ k, k < body.length → whole[pos + k]? = body[k]? := by
      intro k hk
      rw [hw, List.append_assoc, List.getElem?_append_right (by omega), List.getElem?_append_left (by omega)]
      congr 1
      omega
    have hat : whole[pos + body.length]? = some i := by
      rw [hw, List.getElem?_append_right (by simp; omega)]
      simp [hp]
    have hw' : whole = (pre ++ body ++ [i]) ++ [] ++ is := by simp [hw]
    have hp' : (pre ++ body ++ [i]).length = pos + body.length + 1 := by simp; omega
    simp only [segs] at hs
    split at hs
    next ht =>
      rcases List.mem_cons.1 hs with rfl | hs
      · exact ⟨hb, hbody, (by intro h; cases h), (by rintro l ⟨⟩; exact ⟨i, hat, ht, rfl⟩), (by rintro j l ⟨⟩)⟩
      · exact segs_lies hw' hp' (by simp) s hs
    next ht =>
      rcases List.mem_cons.1 hs with rfl | hs
      · exact ⟨hb, hbody, (by intro h; cases h), (by rintro l ⟨⟩), (by rintro j l ⟨⟩; exact ⟨hat, .inl ht⟩)⟩
      · exact segs_lies hw' hp' (by simp) s hs
    next ht =>
      rcases List.mem_cons.1 hs with rfl | hs
      · exact ⟨hb, hbody, (by intro h; cases h), (by rintro l ⟨⟩), (by rintro j l ⟨⟩; exact ⟨hat, .inr ht⟩)⟩
      · exact segs_lies hw' hp' (by simp) s hs
    next h1 h2 h3 =>
      refine segs_lies (pre := pre) (by simp [hw]) hp ?_ s hs
      intro j hj
      rcases List.mem_append.1 hj with hj | hj
      · exact hb j hj
      · simp only [List.mem_singleton] at hj
        subst hj
        exact ⟨h1, h2, h3⟩

/-- The labels of the segments behind the first one: those declared and new ones. -/
theorem segs_labs : ∀ {code : List Inst} {pos cur n : Nat} {body : List Inst},
    (∀ i ∈ code, i.t = .label → ∃ l, i.labels = [l]) →
    ((segs pos cur n body code).map (·.lab)).Perm (cur :: declared code ++ List.range' n (jumps code))
  | [], _, _, _, _, _ => by simp [segs, declared, jumps]
  | i :: is, pos, cur, n, body, h => by
    have h' : ∀ j ∈ is, j.t = .label → ∃ l, j.labels = [l] := fun j hj => h j (List.mem_cons_of_mem _ hj)
    simp only [segs]
    split
    next ht =>
      obtain ⟨l, hl⟩ := h i (by simp) ht
      have ih := segs_labs (pos := pos + body.length + 1) (cur := l) (n := n) (body := []) h'
      simp only [hl, List.headD_cons, List.map_cons, declared, jumps, ht, List.filter_cons, beq_self_eq_true, if_true,
        List.flatMap_cons, reduceCtorEq, Bool.false_or, beq_iff_eq, if_false, List.cons_append, List.nil_append] at ih ⊢
      simpa [ht] using ih.cons cur
    next ht =>
      have ih := segs_labs (pos := pos + body.length + 1) (cur := n) (n := n + 1) (body := []) h'
      have h1 : declared (i :: is) = declared is := by simp [declared, List.filter_cons, ht]
      have h2 : jumps (i :: is) = jumps is + 1 := by simp [jumps, List.filter_cons, ht]
      rw [h1, h2, List.range'_succ, List.map_cons, List.cons_append]
      refine List.Perm.cons _ (ih.trans ?_)
      rw [List.cons_append]
      exact List.perm_middle.symm
    next ht =>
      have ih := segs_labs (pos := pos + body.length + 1) (cur := n) (n := n + 1) (body := []) h'
      have h1 : declared (i :: is) = declared is := by simp [declared, List.filter_cons, ht]
      have h2 : jumps (i :: is) = jumps is + 1 := by simp [jumps, List.filter_cons, ht]
      rw [h1, h2, List.range'_succ, List.map_cons, List.cons_append]
      refine List.Perm.cons _ (ih.trans ?_)
      rw [List.cons_append]
      exact List.perm_middle.symm
    next h1 h2 h3 =>
      have h4 : declared (i :: is) = declared is := by
        simp [declared, List.filter_cons, beq_eq_false_iff_ne.2 h1]
      have h5 : jumps (i :: is) = jumps is := by
        simp [jumps, List.filter_cons, beq_eq_false_iff_ne.2 h2, beq_eq_false_iff_ne.2 h3]
      rw [h4, h5]
      exact segs_labs h'

theorem segs_nodup {code : List Inst} {n : Nat} (ok : CodeOk code n) :
    ((segs 0 0 n [] code).map (·.lab)).Nodup := by
  refine (segs_labs (fun i hi ht => (ok.label i hi ht).imp fun l h => h.1)).nodup_iff.2 ?_
  have hd : ∀ l ∈ declared code, 0 < l ∧ l < n := by
    intro l hl
    simp only [declared, List.mem_flatMap, List.mem_filter, beq_iff_eq] at hl
    obtain ⟨i, ⟨hi, ht⟩, hl⟩ := hl
    obtain ⟨l', e, h1, h2⟩ := ok.label i hi ht
    rw [e] at hl
    simp only [List.mem_singleton] at hl
    exact ⟨by omega, by omega⟩
  rw [List.cons_append, List.nodup_cons]
  refine ⟨?_, ?_⟩
  · simp only [List.mem_append, List.mem_range'_1, not_or]
    exact ⟨fun h => absurd (hd 0 h).1 (by omega), by have := ok.counter.1; omega⟩
  · rw [List.nodup_append]
    refine ⟨ok.once, List.nodup_range', ?_⟩
    intro a ha b hb
    have := (hd a ha).2
    rw [List.mem_range'_1] at hb
    omega

/-! ## The blocks -/

/-- The block of a segment before jumps are removed. -/
def raw (s : Seg) : Nat × List Inst :=
  (s.lab, s.body ++ match s.term with
    | .jump i _ => [i]
    | _ => [])

theorem lookup_none {bs : List (Nat × List Inst)} {l : Nat} (h : l ∉ bs.map (·.1)) : bs.lookup l = none := by
  rw [← Option.not_isSome_iff_eq_none]
  exact fun h' => h (lookup_isSome_iff.1 h')

theorem pushTo_last {bs : List (Nat × List Inst)} {l : Nat} {is : List Inst} {i : Inst} (h : l ∉ bs.map (·.1)) :
    pushTo (bs ++ [(l, is)]) l i = bs ++ [(l, is ++ [i])] := by
  simp only [pushTo, List.map_append, List.map_cons, List.map_nil, beq_self_eq_true, if_true]
  congr 1
  have : bs.map (fun e => if e.1 == l then (e.1, e.2 ++ [i]) else e) = bs.map id := by
    refine List.map_congr_left ?_
    intro e he
    have : (e.1 == l) = false := by
      simp only [beq_eq_false_iff_ne, ne_eq]
      rintro rfl
      exact h (List.mem_map.2 ⟨e, he, rfl⟩)
    simp [this]
  rw [this, List.map_id]

theorem convert_fold : ∀ {code : List Inst} {pos cur n : Nat} {body : List Inst} {done : List (Nat × List Inst)},
    (∀ i ∈ code, i.t = .label → ∃ l, i.labels = [l]) →
    (done.map (·.1) ++ (segs pos cur n body code).map (·.lab)).Nodup →
    ∃ cur', code.foldlM convertInst ⟨done ++ [(cur, body)], done.map (·.1) ++ [cur], cur, n⟩ =
      some ⟨done ++ (segs pos cur n body code).map raw, done.map (·.1) ++ (segs pos cur n body code).map (·.lab), cur',
        n + jumps code⟩
  | [], pos, cur, n, body, done, _, _ => ⟨cur, by simp [segs, raw, jumps]⟩
  | i :: is, pos, cur, n, body, done, h, hn => by
    have h' : ∀ j ∈ is, j.t = .label → ∃ l, j.labels = [l] := fun j hj => h j (List.mem_cons_of_mem _ hj)
    rw [List.foldlM_cons]
    simp only [segs] at hn ⊢
    have hcur : cur ∉ done.map (·.1) := by
      intro hc
      have : cur ∈ (segs pos cur n body (i :: is)).map (·.lab) := by
        obtain ⟨s, r, h1, h2, -⟩ := segs_ne (code := i :: is) (pos := pos) (cur := cur) (n := n) (body := body)
        rw [h1, List.map_cons, h2]
        simp
      simp only [segs] at this
      exact (List.nodup_append.1 hn).2.2 cur hc cur this rfl
    have fresh : ∀ {l m p : Nat} {b : List Inst} {t : Term},
        (done.map (·.1) ++ (⟨cur, pos, body, t⟩ :: segs p l m [] is).map (·.lab)).Nodup →
        l ∉ (done ++ [(cur, b)]).map (·.1) ∧
        ((done ++ [raw ⟨cur, pos, body, t⟩]).map (·.1) ++ (segs p l m [] is).map (·.lab)).Nodup := by
      intro l m p b t hn
      obtain ⟨s, r, h1, h2, -⟩ := segs_ne (code := is) (pos := p) (cur := l) (n := m) (body := [])
      refine ⟨?_, by simpa [raw] using hn⟩
      intro hl
      have hl2 : l ∈ done.map (·.1) ∨ l = cur := by simpa using hl
      rw [List.map_cons, List.nodup_append] at hn
      have hls : l ∈ (segs p l m [] is).map (·.lab) := by rw [h1, List.map_cons, h2]; simp
      rcases hl2 with hl2 | rfl
      · exact hn.2.2 l hl2 l (List.mem_cons_of_mem _ hls) rfl
      · exact (List.nodup_cons.1 hn.2.1).1 hls
    split at hn
    next ht =>
      obtain ⟨l, hl⟩ := h i (by simp) ht
      simp only [ht, hl, List.headD_cons] at hn ⊢
      obtain ⟨h1, h2⟩ := fresh (b := body) hn
      obtain ⟨cur', ih⟩ := convert_fold (pos := pos + body.length + 1) (cur := l) (n := n) (body := [])
        (done := done ++ [raw ⟨cur, pos, body, .fall l⟩]) h' h2
      refine ⟨cur', ?_⟩
      have hj : jumps (i :: is) = jumps is := by simp [jumps, List.filter_cons, ht]
      have hstep : convertInst ⟨done ++ [(cur, body)], done.map (·.1) ++ [cur], cur, n⟩ i =
          some ⟨done ++ [raw ⟨cur, pos, body, .fall l⟩] ++ [(l, [])],
            (done ++ [raw ⟨cur, pos, body, .fall l⟩]).map (·.1) ++ [l], l, n⟩ := by
        simp [convertInst, ht, hl, entryOf, lookup_none h1, raw]
      simp only [hstep, Option.bind_eq_bind, Option.bind_some, ih, hj]
      simp [raw]
    next ht =>
      obtain ⟨h1, h2⟩ := fresh (b := body ++ [i]) hn
      obtain ⟨cur', ih⟩ := convert_fold (pos := pos + body.length + 1) (cur := n) (n := n + 1) (body := [])
        (done := done ++ [raw ⟨cur, pos, body, .jump i n⟩]) h' h2
      refine ⟨cur', ?_⟩
      have hj : n + jumps (i :: is) = n + 1 + jumps is := by simp [jumps, List.filter_cons, ht]; omega
      have hstep : convertInst ⟨done ++ [(cur, body)], done.map (·.1) ++ [cur], cur, n⟩ i =
          some ⟨done ++ [raw ⟨cur, pos, body, .jump i n⟩] ++ [(n, [])],
            (done ++ [raw ⟨cur, pos, body, .jump i n⟩]).map (·.1) ++ [n], n, n + 1⟩ := by
        simp [convertInst, ht, entryOf, pushTo_last hcur, lookup_none h1, raw]
      simp only [hstep, Option.bind_eq_bind, Option.bind_some, ih, hj]
      simp [raw]
    next ht =>
      obtain ⟨h1, h2⟩ := fresh (b := body ++ [i]) hn
      obtain ⟨cur', ih⟩ := convert_fold (pos := pos + body.length + 1) (cur := n) (n := n + 1) (body := [])
        (done := done ++ [raw ⟨cur, pos, body, .jump i n⟩]) h' h2
      refine ⟨cur', ?_⟩
      have hj : n + jumps (i :: is) = n + 1 + jumps is := by simp [jumps, List.filter_cons, ht]; omega
      have hstep : convertInst ⟨done ++ [(cur, body)], done.map (·.1) ++ [cur], cur, n⟩ i =
          some ⟨done ++ [raw ⟨cur, pos, body, .jump i n⟩] ++ [(n, [])],
            (done ++ [raw ⟨cur, pos, body, .jump i n⟩]).map (·.1) ++ [n], n, n + 1⟩ := by
        simp [convertInst, ht, entryOf, pushTo_last hcur, lookup_none h1, raw]
      simp only [hstep, Option.bind_eq_bind, Option.bind_some, ih, hj]
      simp [raw]
    next h1 h2 h3 =>
      obtain ⟨cur', ih⟩ := convert_fold (pos := pos) (cur := cur) (n := n) (body := body ++ [i]) (done := done) h' hn
      refine ⟨cur', ?_⟩
      have hj : jumps (i :: is) = jumps is := by
        simp [jumps, List.filter_cons, beq_eq_false_iff_ne.2 h2, beq_eq_false_iff_ne.2 h3]
      have hstep : convertInst ⟨done ++ [(cur, body)], done.map (·.1) ++ [cur], cur, n⟩ i =
          some ⟨done ++ [(cur, body ++ [i])], done.map (·.1) ++ [cur], cur, n⟩ := by
        unfold convertInst
        split
        · exact absurd ‹_› h1
        · exact absurd ‹_› h2
        · exact absurd ‹_› h3
        · simp [pushTo_last hcur]
      simp only [hstep, Option.bind_eq_bind, Option.bind_some, ih, hj]

theorem convert_ok {code : List Inst} {n : Nat} (ok : CodeOk code n) :
    ∃ cur, convert code n = some ⟨(segs 0 0 n [] code).map raw, (segs 0 0 n [] code).map (·.lab), cur,
      n + jumps code⟩ := by
  have := convert_fold (code := code) (pos := 0) (cur := 0) (n := n) (body := []) (done := [])
    (fun i hi ht => (ok.label i hi ht).imp fun l h => h.1) (by simpa using segs_nodup ok)
  simpa [convert] using this

/-! ## The edges -/

/-- The label of a branch, once the next block is known. -/
def resolve (next l : Nat) : Nat := if l = dummyLabel then next else l

/-- The instructions of a block. -/
def Seg.insts (s : Seg) : List Inst :=
  s.body ++ match s.term with
    | .jump i next => if i.t = .goto then [] else [{ i with labels := i.labels.map (resolve next) }]
    | _ => []

/-- Where control goes from a block. -/
def Seg.succs (s : Seg) : List Nat :=
  match s.term with
  | .halt => []
  | .fall l => [l]
  | .jump i next => if i.t = .goto then [i.labels.headD 0] else i.labels.map (resolve next)

def fixed (s : Seg) : Nat × List Inst := (s.lab, s.insts)

def link (g : Graph) (s : Seg) : Graph := s.succs.foldl (fun g l => g.connect s.lab l) g

theorem mapM_resolve {next : Nat} {o : Option Nat} (ho : o = some next) : ∀ {ls : List Nat},
    ls.mapM (fun l => if l = dummyLabel then o else some l) = some (ls.map (resolve next))
  | [] => rfl
  | l :: ls => by
    rw [List.mapM_cons, mapM_resolve ho (ls := ls), ho]
    simp only [resolve, List.map_cons]
    split <;> rfl

theorem setBlock_mid {A B : List (Nat × List Inst)} {l : Nat} {is is' : List Inst}
    (h : (A.map (·.1) ++ l :: B.map (·.1)).Nodup) :
    setBlock (A ++ (l, is) :: B) l is' = A ++ (l, is') :: B := by
  have key : ∀ {C : List (Nat × List Inst)}, l ∉ C.map (·.1) →
      C.map (fun e => if e.1 == l then (e.1, is') else e) = C := by
    intro C hC
    conv => rhs; rw [← List.map_id C]
    refine List.map_congr_left ?_
    intro e he
    have : (e.1 == l) = false := by
      simp only [beq_eq_false_iff_ne, ne_eq]
      rintro rfl
      exact hC (List.mem_map.2 ⟨e, he, rfl⟩)
    simp [this]
  rw [List.nodup_append] at h
  have hA : l ∉ A.map (·.1) := fun hl => h.2.2 l hl l (by simp) rfl
  have hB : l ∉ B.map (·.1) := (List.nodup_cons.1 h.2.1).1
  simp only [setBlock, List.map_append, List.map_cons, beq_self_eq_true, if_true, key hA, key hB]

theorem lookup_mid {A B : List (Nat × List Inst)} {l : Nat} {is : List Inst} (h : l ∉ A.map (·.1)) :
    (A ++ (l, is) :: B).lookup l = some is := by
  induction A with
  | nil => simp
  | cons e A ih =>
    obtain ⟨a, b⟩ := e
    simp only [List.map_cons, List.mem_cons, not_or] at h
    have : (l == a) = false := by simpa using h.1
    rw [List.cons_append, List.lookup_cons, this]
    exact ih h.2

theorem link_fold {whole : List Inst} : ∀ {B A : List Seg} {g : Graph},
    ((A ++ B).map (·.lab)).Nodup → Linked B → (∀ s ∈ B, Lies whole s) →
    (∀ i ∈ whole, i.t = .goto → ∃ l, i.labels = [l]) →
    (List.range' A.length B.length).foldlM (linkBlock ((A ++ B).map (·.lab)) (A ++ B).length)
      (g, A.map fixed ++ B.map raw) = some (B.foldl link g, (A ++ B).map fixed)
  | [], A, g, _, _, _, _ => by simp
  | s :: B, A, g, hn, hl, hs, hg => by
    have ih := link_fold (B := B) (A := A ++ [s]) (g := link g s) (by simpa using hn) hl.2
      (fun t ht => hs t (List.mem_cons_of_mem _ ht)) hg
    have hA : s.lab ∉ (A.map fixed).map (·.1) := by
      intro h
      rw [List.map_append, List.nodup_append] at hn
      refine hn.2.2 s.lab ?_ s.lab (by simp) rfl
      simpa [fixed] using h
    have hN : ((A.map fixed).map (·.1) ++ s.lab :: (B.map raw).map (·.1)).Nodup := by
      have e1 : (A.map fixed).map (·.1) = A.map (·.lab) := by simp [fixed]
      have e2 : (B.map raw).map (·.1) = B.map (·.lab) := by simp [raw]
      rw [e1, e2]
      simpa using hn
    have hstep : linkBlock ((A ++ s :: B).map (·.lab)) (A ++ s :: B).length (g, A.map fixed ++ (s :: B).map raw)
        A.length = some (link g s, (A ++ [s]).map fixed ++ B.map raw) := by
      have h1 : ((A ++ s :: B).map (·.lab))[A.length]? = some s.lab := by simp
      have h2 : (A.map fixed ++ (s :: B).map raw).lookup s.lab = some (raw s).2 := by
        rw [List.map_cons]
        exact lookup_mid (is := (raw s).2) hA
      have lies := hs s (by simp)
      have hlast : ∀ i, s.body.getLast? = some i → Plain i := fun i hi =>
        lies.plain i (List.mem_of_getLast? hi)
      have hset : ∀ is', setBlock (A.map fixed ++ (s :: B).map raw) s.lab is' =
          A.map fixed ++ (s.lab, is') :: B.map raw := fun is' => by
        rw [List.map_cons]
        exact setBlock_mid (is := (raw s).2) hN
      simp only [linkBlock, h1, h2, Option.bind_eq_bind, Option.bind_some]
      have fallcase : s.insts = s.body → (raw s).2 = s.body →
          linkFall ((A ++ s :: B).map (·.lab)) (A ++ s :: B).length A.length s.lab (g, A.map fixed ++ (s :: B).map raw) =
            some (link g s, (A ++ [s]).map fixed ++ B.map raw) →
          (match (raw s).2.getLast? with
            | none => linkFall ((A ++ s :: B).map (·.lab)) (A ++ s :: B).length A.length s.lab
                (g, A.map fixed ++ (s :: B).map raw)
            | some i => if i.t = .goto then (do
                let l ← i.labels[0]?
                some ((g, A.map fixed ++ (s :: B).map raw).1.connect s.lab l,
                  setBlock (g, A.map fixed ++ (s :: B).map raw).2 s.lab (raw s).2.dropLast))
              else if i.t = .condGoto then (do
                let ls ← i.labels.mapM (fun l => if l = dummyLabel then ((A ++ s :: B).map (·.lab))[A.length + 1]? else some l)
                some (ls.foldl (fun g l => g.connect s.lab l) (g, A.map fixed ++ (s :: B).map raw).1,
                  setBlock (g, A.map fixed ++ (s :: B).map raw).2 s.lab ((raw s).2.dropLast ++ [{ i with labels := ls }])))
              else linkFall ((A ++ s :: B).map (·.lab)) (A ++ s :: B).length A.length s.lab
                (g, A.map fixed ++ (s :: B).map raw)) =
          some (link g s, (A ++ [s]).map fixed ++ B.map raw) := by
        intro _ h4 h5
        rw [h4]
        cases hb : s.body.getLast? with
        | none => exact h5
        | some i =>
          have := hlast i hb
          simp only [this.2.1, this.2.2, if_false]
          exact h5
      have hraw : (raw s).2 = s.body → s.insts = s.body → (raw s) = fixed s := by
        intro h3 h4
        simp only [fixed, h4, ← h3]
        rfl
      cases ht : s.term with
      | halt =>
        have e1 : (raw s).2 = s.body := by simp [raw, ht]
        have e2 : s.insts = s.body := by simp [Seg.insts, ht]
        refine fallcase e2 e1 ?_
        have hB : B = [] := by
          cases B with
          | nil => rfl
          | cons s' B =>
            have := hl.1.1
            simp [Seg.next, ht] at this
        subst hB
        simp [linkFall, link, Seg.succs, ht, hraw e1 e2]
      | fall l =>
        have e1 : (raw s).2 = s.body := by simp [raw, ht]
        have e2 : s.insts = s.body := by simp [Seg.insts, ht]
        refine fallcase e2 e1 ?_
        cases B with
        | nil => have := hl.1; simp [ht] at this
        | cons s' B =>
          have := hl.1.1
          simp only [Seg.next, ht, Option.some.injEq] at this
          subst this
          simp [linkFall, link, Seg.succs, ht, hraw e1 e2]
      | jump i next =>
        obtain ⟨hi, hk⟩ := lies.jump i next ht
        have e1 : (raw s).2 = s.body ++ [i] := by simp [raw, ht]
        have hnext : ((A ++ s :: B).map (·.lab))[A.length + 1]? = some next := by
          cases B with
          | nil => have := hl.1; simp [ht] at this
          | cons s' B =>
            have := hl.1.1
            simp only [Seg.next, ht, Option.some.injEq] at this
            subst this
            simp
        simp only [e1, List.getLast?_concat, List.dropLast_concat]
        rcases hk with hk | hk
        · obtain ⟨l, hl⟩ := hg i (List.mem_of_getElem? hi) hk
          simp only [hk, if_true, hl, List.getElem?_cons_zero, Option.bind_some]
          rw [hset]
          simp [link, Seg.succs, ht, hk, hl, fixed, Seg.insts]
        · have hk' : i.t ≠ .goto := by simp [hk]
          simp only [hk, reduceCtorEq, if_false, if_true, mapM_resolve hnext, Option.bind_some]
          rw [hset]
          simp [link, Seg.succs, ht, hk, fixed, Seg.insts]
    rw [List.length_cons, List.range'_succ, List.foldlM_cons, hstep]
    simp only [Option.bind_eq_bind, Option.bind_some]
    simpa using ih

end Verif.Lin
