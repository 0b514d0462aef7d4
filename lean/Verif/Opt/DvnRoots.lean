import Verif.Opt.DvnRun
import Verif.Ssa.Tree
/-!
# After value numbering no copy reads the target of a copy

Every number the pass hands out is a constant, a builtin, a function, or a variable that is not the target of a
copy; and every copy it leaves behind reads such a number.
-/

namespace Verif.Opt

open Verif.Il Verif.Graph Verif.Dom

variable {V W : Type} {I : Interp V W} {c0 : Cfg}

/-! ## Where a site that is always passed lies -/

theorem trail_site_lt {c : Cfg} {ms : List Site} {l k : Nat} (tr : Trail c ms l k) :
    ∀ a b, Site.inst a b ∈ ms → b < (blockOf c a).length := by
  induction tr with
  | start => intro a b h; cases h
  | inst _ hlt ih =>
    intro a b h
    rcases List.mem_cons.1 h with e | h
    · obtain ⟨rfl, rfl⟩ := Site.inst.inj e
      exact hlt
    · exact ih a b h
  | jump _ _ ih =>
    intro a b h
    rcases List.mem_cons.1 h with e | h
    · cases e
    · exact ih a b h

theorem trail_more {c : Cfg} {ms : List Site} {l : Nat} (tr : Trail c ms l 0) :
    ∀ k, k ≤ (blockOf c l).length → ∃ ms', Trail c ms' l k ∧
      ∀ a b, Site.inst a b ∈ ms' → Site.inst a b ∈ ms ∨ a = l := by
  intro k
  induction k with
  | zero => exact fun _ => ⟨ms, tr, fun a b h => .inl h⟩
  | succ k ih =>
    intro hk
    obtain ⟨ms', t, h⟩ := ih (by omega)
    refine ⟨_, .inst t hk, ?_⟩
    intro a b hm
    rcases List.mem_cons.1 hm with e | hm
    · exact .inr (Site.inst.inj e).1
    · exact h a b hm

/-- A walk through the graph is a walk through the program that only passes sites of its blocks. -/
theorem walk_trail {c : Cfg} {L : List Nat} {n : Nat} (h : Walk c.graph.Edge c.entry L n) :
    ∃ ms, Trail c ms n 0 ∧ ∀ a b, Site.inst a b ∈ ms → a ∈ L := by
  induction h with
  | start => exact ⟨[], .start, by simp⟩
  | @step L b n _ he ih =>
    obtain ⟨ms, t, h⟩ := ih
    obtain ⟨ms', t', h'⟩ := trail_more t _ (Nat.le_refl _)
    refine ⟨_, .jump t' he, ?_⟩
    intro a b' hm
    rcases List.mem_cons.1 hm with e | hm
    · cases e
    rcases h' a b' hm with h1 | rfl
    · exact List.mem_append_left _ (h a b' h1)
    · rename_i hw
      refine List.mem_append_left _ ?_
      cases hw <;> simp

theorem passes_later {c : Cfg} {d : Site} {l k : Nat} (h : Passes c d l k) : ∀ j, Passes c d l (k + j) := by
  intro j
  induction j with
  | zero => exact h
  | succ j ih => exact passes_next ih

/-- A site every walk passes is earlier in the block, or in a block that strictly dominates it. -/
theorem passes_where {c : Cfg} {l k x y : Nat} (hr : Reach c.graph.Edge c.entry l)
    (hk : k ≤ (blockOf c l).length) (h : Passes c (.inst x y) l k) :
    (x = l ∧ y < k) ∨ SDominates c.graph.Edge c.entry x l := by
  obtain ⟨ms, tr⟩ := trail_of_reach hr
  by_cases hx : x = l
  · subst hx
    refine .inl ⟨rfl, Classical.byContradiction fun hn => ?_⟩
    obtain ⟨ms1, tr1⟩ := trail_to_end tr k hk
    have hy := trail_site_lt tr1 x y (h ms1 tr1)
    obtain ⟨ms2, tr2⟩ := trail_to_end tr y (by omega)
    refine not_passes_self tr2 ?_
    have := passes_later h (y - k)
    rwa [show k + (y - k) = y by omega] at this
  · refine .inr ⟨?_, hx⟩
    intro L hw
    obtain ⟨ms1, tr1, h1⟩ := walk_trail hw
    obtain ⟨ms2, tr2, h2⟩ := trail_more tr1 k hk
    rcases h2 x y (h ms2 tr2) with h3 | h3
    · exact h1 x y h3
    · exact absurd h3 hx

/-! ## Roots -/

section
variable (c0)

/-- The argument is no target of a copy: if it is a variable an instruction writes, that instruction has been
dealt with and is no copy.  `C` gives the current instructions, `D` says which have been dealt with. -/
def Root (C : Nat → Nat → Option Inst) (D : Nat → Nat → Prop) (a : Arg) : Prop :=
  ∀ z, a = .var z → ∀ x y, DefAt c0 x y z → D x y ∧ ∀ i, C x y = some i → i.t ≠ .varAssign

structure Good (C : Nat → Nat → Option Inst) (D : Nat → Nat → Prop) (s : State) : Prop where
  tgts : ∀ t a, s.tgts.lookup t = some a → Root c0 C D a
  vals : ∀ v a, s.vals.lookup v = some a → Root c0 C D a
  all : ∀ x y i t, D x y → C x y = some i → i.t = .varAssign → t ∈ i.tgts → (s.tgts.lookup t).isSome

/-- What has been dealt with at instruction `k` of block `l`. -/
def Before (l k x y : Nat) : Prop := SDominates c0.graph.Edge c0.entry x l ∨ (x = l ∧ y < k)

end

/-- The program with `b` as the instructions of block `l`. -/
def withBlock (c : Cfg) (l : Nat) (b : List Inst) (x y : Nat) : Option Inst :=
  if x = l then b[y]? else instAt c x y

theorem Root.transfer {C C' : Nat → Nat → Option Inst} {D D' : Nat → Nat → Prop} {a : Arg}
    (h : Root c0 C D a) (h1 : ∀ x y, D x y → D' x y)
    (h2 : ∀ x y i, D x y → C' x y = some i → i.t = .varAssign → C x y = some i) : Root c0 C' D' a := by
  intro z e x y hd
  obtain ⟨g1, g2⟩ := h z e x y hd
  exact ⟨h1 x y g1, fun i hi ht => g2 i (h2 x y i g1 hi ht) ht⟩

theorem Good.transfer {C C' : Nat → Nat → Option Inst} {D D' : Nat → Nat → Prop} {s : State}
    (h : Good c0 C D s) (h1 : ∀ x y, D x y → D' x y)
    (h2 : ∀ x y i, D' x y → C' x y = some i → i.t = .varAssign → D x y ∧ C x y = some i) : Good c0 C' D' s where
  tgts := fun t a e => (h.tgts t a e).transfer h1 (fun x y i g1 g2 g3 => (h2 x y i (h1 x y g1) g2 g3).2)
  vals := fun t a e => (h.vals t a e).transfer h1 (fun x y i g1 g2 g3 => (h2 x y i (h1 x y g1) g2 g3).2)
  all := fun x y i t g1 g2 g3 => by
    obtain ⟨g4, g5⟩ := h2 x y i g1 g2 g3
    exact h.all x y i t g4 g5 g3

theorem root_lit {C : Nat → Nat → Option Inst} {D : Nat → Nat → Prop} {a : Arg} (h : ∀ x, a ≠ .var x) :
    Root c0 C D a := fun z e => absurd e (h z)

section
variable {c : Cfg} {l : Nat} {pre : List Inst} {s : State}

theorem withBlock_append {x y : Nat} {i j : Inst} (h : withBlock c l (pre ++ [j]) x y = some i)
    (hb : Before c0 l pre.length x y) : withBlock c l pre x y = some i := by
  unfold withBlock at h ⊢
  split
  · rename_i hx
    rw [if_pos hx] at h
    rcases hb with hb | hb
    · exact absurd hx hb.2
    · rwa [List.getElem?_append_left hb.2] at h
  · rename_i hx
    rwa [if_neg hx] at h

theorem root_next {a : Arg} {j : Inst} (h : Root c0 (withBlock c l pre) (Before c0 l pre.length) a) :
    Root c0 (withBlock c l (pre ++ [j])) (Before c0 l (pre.length + 1)) a := by
  refine h.transfer ?_ ?_
  · rintro x y (hb | ⟨rfl, hb⟩)
    · exact .inl hb
    · exact .inr ⟨rfl, by omega⟩
  · intro x y i hb h _
    exact withBlock_append h hb

theorem good_next {s' : State} {j : Inst} (h : Good c0 (withBlock c l pre) (Before c0 l pre.length) s)
    (ht : ∀ t a, s'.tgts.lookup t = some a → s.tgts.lookup t = some a ∨
      Root c0 (withBlock c l (pre ++ [j])) (Before c0 l (pre.length + 1)) a)
    (hv : ∀ t a, s'.vals.lookup t = some a → s.vals.lookup t = some a ∨
      Root c0 (withBlock c l (pre ++ [j])) (Before c0 l (pre.length + 1)) a)
    (hm : ∀ t, (s.tgts.lookup t).isSome → (s'.tgts.lookup t).isSome)
    (hj : j.t = .varAssign → ∀ t ∈ j.tgts, (s'.tgts.lookup t).isSome) :
    Good c0 (withBlock c l (pre ++ [j])) (Before c0 l (pre.length + 1)) s' where
  tgts := by
    intro t a e
    rcases ht t a e with e | e
    · exact root_next (h.tgts t a e)
    · exact e
  vals := by
    intro t a e
    rcases hv t a e with e | e
    · exact root_next (h.vals t a e)
    · exact e
  all := by
    intro x y i t hb hi hc hti
    rcases hb with hb | ⟨rfl, hb⟩
    · exact hm t (h.all x y i t (.inl hb) (withBlock_append hi (.inl hb)) hc hti)
    · by_cases hy : y = pre.length
      · subst hy
        simp only [withBlock, if_true, List.getElem?_append_right (Nat.le_refl _), Nat.sub_self,
          List.getElem?_cons_zero, Option.some.injEq] at hi
        subst hi
        exact hj hc t hti
      · have hb' : Before c0 x pre.length x y := .inr ⟨rfl, by omega⟩
        exact hm t (h.all x y i t hb' (withBlock_append hi hb') hc hti)

theorem number_some {t : Nat} {a : Arg} {s' : State} (h : s.number t a = some s') :
    s' = { s with tgts := (t, a) :: s.tgts } := by
  unfold State.number at h
  split at h
  · cases h
  · exact (Option.some.inj h).symm

theorem lookup_mono {t t' : Nat} {a : Arg} {m : List (Nat × Arg)} (h : (m.lookup t').isSome) :
    (((t, a) :: m).lookup t').isSome := by
  rw [List.lookup_cons]
  split
  · rfl
  · exact h

theorem lookup_new {t t' : Nat} {a b : Arg} {m : List (Nat × Arg)} (h : ((t, a) :: m).lookup t' = some b) :
    m.lookup t' = some b ∨ b = a := by
  rw [List.lookup_cons] at h
  split at h
  · exact .inr (Option.some.inj h).symm
  · exact .inl h

theorem canon_root {K : Evaluator} (ssa : StrictSSA c0) (hr : Reach c0.graph.Edge c0.entry l)
    (h : Good c0 (withBlock c l pre) (Before c0 l pre.length) s) (hk : pre.length ≤ (blockOf c0 l).length)
    (hC : ∀ x y i z, withBlock c l pre x y = some i → DefAt c0 x y z → i.t = .varAssign → z ∈ i.tgts)
    {a : Arg} (av : Avail c0 a l pre.length) :
    Root c0 (withBlock c l pre) (Before c0 l pre.length) (s.canonArg K a) := by
  cases a with
  | var z =>
    simp only [State.canonArg]
    cases e : s.tgts.lookup z with
    | some b => exact h.tgts z b e
    | none =>
      intro z' e' x y hd
      obtain rfl : z = z' := by simpa using e'
      have hb : Before c0 l pre.length x y := by
        rcases passes_where hr hk (av z rfl (.inst x y) hd) with h | h
        · exact .inr h
        · exact .inl h
      refine ⟨hb, ?_⟩
      intro i hi ht
      have := h.all x y i z hb hi ht (hC x y i z hi hd ht)
      rw [e] at this
      cases this
  | builtin p =>
    simp only [State.canonArg]
    cases K.builtinVal p <;> exact root_lit (by simp)
  | const p => exact root_lit (by simp [State.canonArg])
  | fn p => exact root_lit (by simp [State.canonArg])

/-- One instruction. -/
theorem dvnInst_roots {K : Evaluator} (hK : EvalSound K I) (ssa : StrictSSA c0)
    (hr : Reach c0.graph.Edge c0.entry l) (hk : pre.length ≤ (blockOf c0 l).length)
    (h : Good c0 (withBlock c l pre) (Before c0 l pre.length) s)
    (hC : ∀ x y i z, withBlock c l pre x y = some i → DefAt c0 x y z → i.t = .varAssign → z ∈ i.tgts)
    {i : Inst} (sh : Shape i) (hav : i.t ≠ .phi → ∀ a ∈ i.args, Avail c0 a l pre.length)
    (hdef : i.t ≠ .phi → ∀ t ∈ i.tgts, DefAt c0 l pre.length t) {s' : State} {j : Inst}
    (e : dvnInst K s i = some (s', j)) :
    Good c0 (withBlock c l (pre ++ [j])) (Before c0 l (pre.length + 1)) s' ∧
    (j.t = .varAssign → ∀ a ∈ j.args,
      Root c0 (withBlock c l (pre ++ [j])) (Before c0 l (pre.length + 1)) a) := by
  by_cases hp : i.t = .phi
  · rw [dvnInst_phi s hp] at e
    obtain ⟨rfl, rfl⟩ := Prod.mk.inj (Option.some.inj e)
    have hn : ({ i with args := i.args.map (s.canonArg K) } : Inst).t ≠ .varAssign := by simp [hp]
    exact ⟨good_next h (fun _ _ e => .inl e) (fun _ _ e => .inl e) (fun _ e => e) (fun e => absurd e hn),
      fun e => absurd e hn⟩
  replace hav := hav hp
  replace hdef := hdef hp
  have hroot : ∀ a ∈ i.args.map (s.canonArg K),
      Root c0 (withBlock c l pre) (Before c0 l pre.length) a := by
    intro a ha
    obtain ⟨b, hb, rfl⟩ := List.mem_map.1 ha
    exact canon_root ssa hr h hk hC (hav b hb)
  unfold dvnInst at e
  have sh1 := shape_args (f := s.canonArg K) sh
  generalize hi1 : ({ i with args := i.args.map (s.canonArg K) } : Inst) = i1 at e sh1
  have hargs : i1.args = i.args.map (s.canonArg K) := by rw [← hi1]
  have htgts : i1.tgts = i.tgts := by rw [← hi1]
  rw [← hargs] at hroot
  rw [← htgts] at hdef
  -- a target of its own
  have own : ∀ t ∈ i1.tgts, ∀ j : Inst, j.t ≠ .varAssign →
      Root c0 (withBlock c l (pre ++ [j])) (Before c0 l (pre.length + 1)) (.var t) := by
    intro t ht j hj z ez x y hd
    obtain rfl := Arg.var.inj ez
    obtain ⟨i2, g1, g2, g3⟩ := hd
    obtain ⟨i3, g4, g5, g6⟩ := hdef t ht
    obtain ⟨rfl, rfl⟩ := ssa.once _ _ _ _ _ _ _ g1 g4 g3 g6
    refine ⟨.inr ⟨rfl, by omega⟩, ?_⟩
    intro i4 hi4
    simp only [withBlock, if_true, List.getElem?_append_right (Nat.le_refl _), Nat.sub_self,
      List.getElem?_cons_zero, Option.some.injEq] at hi4
    exact hi4 ▸ hj
  -- a target with a number
  have put : ∀ (t : Nat) (a : Arg) (s1 s2 : State) (j : Inst), s1.number t a = some s2 → s1.tgts = s.tgts →
      (∀ v b, s1.vals.lookup v = some b → s.vals.lookup v = some b ∨
        Root c0 (withBlock c l (pre ++ [j])) (Before c0 l (pre.length + 1)) b) →
      Root c0 (withBlock c l (pre ++ [j])) (Before c0 l (pre.length + 1)) a →
      (j.t = .varAssign → j.tgts = [t]) →
      Good c0 (withBlock c l (pre ++ [j])) (Before c0 l (pre.length + 1)) s2 := by
    intro t a s1 s2 j hn hs hv ha hj
    obtain rfl := number_some hn
    refine good_next h ?_ hv ?_ ?_
    · intro t' b hb
      rcases lookup_new hb with hb | rfl
      · exact .inl (hs ▸ hb)
      · exact .inr ha
    · intro t' h'
      exact lookup_mono (hs ▸ h')
    · intro hc t' ht'
      rw [hj hc, List.mem_singleton] at ht'
      subst ht'
      simp
  have viaVal : ∀ (v : Val) (t : Nat), i1.tgts = [t] → i1.t ≠ .varAssign →
      numberVal s v t i1 = some (s', j) →
      Good c0 (withBlock c l (pre ++ [j])) (Before c0 l (pre.length + 1)) s' ∧
      (j.t = .varAssign → ∀ a ∈ j.args,
        Root c0 (withBlock c l (pre ++ [j])) (Before c0 l (pre.length + 1)) a) := by
    intro v t ht hnc e
    unfold numberVal State.upsertVal at e
    cases hl : s.vals.lookup v with
    | some a =>
      simp only [hl, Option.bind_eq_bind, Option.bind_eq_some_iff] at e
      obtain ⟨s2, e1, e2⟩ := e
      obtain ⟨rfl, rfl⟩ := Prod.mk.inj (Option.some.inj e2)
      have ha := root_next (j := Inst.varAssign t a) (h.vals v a hl)
      refine ⟨put t a s s2 _ e1 rfl (fun _ _ e => .inl e) ha (fun _ => rfl), ?_⟩
      intro _ b hb
      simp only [Inst.varAssign, List.mem_singleton] at hb
      exact hb ▸ ha
    | none =>
      simp only [hl, Option.bind_eq_bind, Option.bind_eq_some_iff] at e
      obtain ⟨s2, e1, e2⟩ := e
      obtain ⟨rfl, rfl⟩ := Prod.mk.inj (Option.some.inj e2)
      have ha := own t (by simp [ht]) i1 hnc
      refine ⟨put t _ _ s2 _ e1 rfl ?_ ha (fun hc => absurd hc hnc), fun hc => absurd hc hnc⟩
      intro v' b hb
      simp only at hb
      rw [List.lookup_cons] at hb
      split at hb
      · exact .inr (Option.some.inj hb ▸ ha)
      · exact .inl hb
  unfold rewriteInst at e
  split at e
  · cases e
  · rename_i v hce
    obtain ⟨h1, ⟨t, h2⟩, -, -⟩ := consteval_sound hK sh1 hce
    obtain ⟨h5, -⟩ := canon_lit hK (s := s) h1
    simp only [h2, List.getElem?_cons_zero, Option.bind_eq_bind, Option.bind_some,
      Option.bind_eq_some_iff] at e
    obtain ⟨s2, e1, e2⟩ := e
    obtain ⟨rfl, rfl⟩ := Prod.mk.inj (Option.some.inj e2)
    refine ⟨put t _ s s2 _ e1 rfl (fun _ _ e => .inl e) (root_lit h5) (fun _ => rfl), ?_⟩
    intro _ b hb
    simp only [Inst.varAssign, List.mem_singleton] at hb
    rw [hb]
    exact root_lit h5
  · unfold numberInst at e
    split at e
    · rename_i ht
      simp only [Shape, ht] at sh1
      obtain ⟨⟨t, h1⟩, a, b, h2⟩ := sh1
      simp only [h1, h2, List.getElem?_cons_zero, List.getElem?_cons_succ, Option.bind_eq_bind,
        Option.bind_some] at e
      exact viaVal _ t h1 (by simp [ht]) e
    · rename_i ht
      simp only [Shape, ht] at sh1
      obtain ⟨⟨t, h1⟩, a, h2⟩ := sh1
      simp only [h1, h2, List.getElem?_cons_zero, Option.bind_eq_bind, Option.bind_some] at e
      exact viaVal _ t h1 (by simp [ht]) e
    · rename_i ht
      simp only [Shape, ht] at sh1
      obtain ⟨⟨t, h1⟩, a, h2⟩ := sh1
      simp only [asVarAssign, h1, h2, List.getElem?_cons_zero, Option.bind_eq_bind, Option.bind_some,
        Option.bind_eq_some_iff] at e
      obtain ⟨s2, e1, e2⟩ := e
      obtain ⟨rfl, rfl⟩ := Prod.mk.inj (Option.some.inj e2)
      have ha := root_next (j := i1) (hroot a (by simp [h2]))
      refine ⟨put t a s s2 _ e1 rfl (fun _ _ e => .inl e) ha (fun _ => h1), ?_⟩
      intro _ b hb
      rw [h2, List.mem_singleton] at hb
      exact hb ▸ ha
    · rename_i hn
      obtain ⟨rfl, rfl⟩ := Prod.mk.inj (Option.some.inj e)
      exact ⟨good_next h (fun _ _ e => .inl e) (fun _ _ e => .inl e) (fun _ e => e)
        (fun e => absurd e hn), fun e => absurd e hn⟩

theorem root_more {a : Arg} {more : List Inst}
    (h : Root c0 (withBlock c l pre) (Before c0 l pre.length) a) :
    Root c0 (withBlock c l (pre ++ more)) (Before c0 l (pre.length + more.length)) a := by
  refine h.transfer ?_ ?_
  · rintro x y (hb | ⟨rfl, hb⟩)
    · exact .inl hb
    · exact .inr ⟨rfl, by omega⟩
  · intro x y i hb h _
    unfold withBlock at h ⊢
    split
    · rename_i hx
      rw [if_pos hx] at h
      rcases hb with hb | hb
      · exact absurd hx hb.2
      · rwa [List.getElem?_append_left hb.2] at h
    · rename_i hx
      rwa [if_neg hx] at h

/-- The instructions of a block. -/
theorem dvnBlock_roots {K : Evaluator} (hK : EvalSound K I) (ssa : StrictSSA c0)
    (hr : Reach c0.graph.Edge c0.entry l)
    (hC : ∀ x y i z, x ≠ l → instAt c x y = some i → DefAt c0 x y z → i.t = .varAssign → z ∈ i.tgts) :
    ∀ (is pre : List Inst) (s s' : State) (is' : List Inst),
      (∀ j i, is[j]? = some i → Shape i ∧ (i.t ≠ .phi → ∀ a ∈ i.args, Avail c0 a l (pre.length + j)) ∧
        (i.t ≠ .phi → ∀ t ∈ i.tgts, DefAt c0 l (pre.length + j) t)) →
      (∀ y i z, (pre ++ is')[y]? = some i → DefAt c0 l y z → i.t = .varAssign → z ∈ i.tgts) →
      pre.length + is.length ≤ (blockOf c0 l).length →
      Good c0 (withBlock c l pre) (Before c0 l pre.length) s → dvnBlock K s is = some (s', is') →
      Good c0 (withBlock c l (pre ++ is')) (Before c0 l (pre.length + is'.length)) s' ∧
      ∀ (j : Nat) (i : Inst), is'[j]? = some i → i.t = .varAssign → ∀ a ∈ i.args,
        Root c0 (withBlock c l (pre ++ is')) (Before c0 l (pre.length + is'.length)) a := by
  intro is
  induction is with
  | nil =>
    intro pre s s' is' _ _ _ h e
    obtain ⟨rfl, rfl⟩ := Prod.mk.inj (Option.some.inj e)
    simpa using h
  | cons x xs ih =>
    intro pre s s' is' h1 h2 h3 h e
    simp only [dvnBlock, Option.bind_eq_bind, Option.bind_eq_some_iff, Prod.exists] at e
    obtain ⟨s1, j, e1, s2, is2, e2, e3⟩ := e
    obtain ⟨rfl, rfl⟩ := Prod.mk.inj (Option.some.inj e3)
    obtain ⟨g1, g2, g3⟩ := h1 0 x rfl
    simp only [List.length_cons] at h3
    have hC' : ∀ x y i z, withBlock c l pre x y = some i → DefAt c0 x y z → i.t = .varAssign → z ∈ i.tgts := by
      intro x y i z hi
      unfold withBlock at hi
      split at hi
      · rename_i hx
        subst hx
        refine h2 y i z ?_
        rw [List.getElem?_append_left (List.getElem?_eq_some_iff.1 hi).1]
        exact hi
      · rename_i hx
        exact hC x y i z hx hi
    obtain ⟨k1, k2⟩ := dvnInst_roots hK ssa hr (by omega) h hC' g1 g2 g3 e1
    obtain ⟨k3, k4⟩ := ih (pre ++ [j]) s1 s2 is2 (by
        intro n i hi
        have := h1 (n + 1) i hi
        simpa [Nat.add_assoc, Nat.add_comm 1 n] using this)
      (by simpa using h2) (by simp; omega) (by simpa using k1) e2
    simp only [List.append_assoc, List.singleton_append, List.length_append, List.length_singleton,
      Nat.add_assoc, Nat.add_comm 1 is2.length] at k3 k4
    refine ⟨by simpa using k3, ?_⟩
    intro n i hi ht a ha
    cases n with
    | zero =>
      obtain rfl := Option.some.inj hi
      have := root_more (pre := pre ++ [j]) (more := is2) (by simpa using k2 ht a ha)
      simpa [Nat.add_assoc, Nat.add_comm 1 is2.length] using this
    | succ n =>
      simpa using k4 n i hi ht a ha

end

/-! ## Frames -/

theorem canonPhis_frame {K : Evaluator} {s : State} {p : Nat} : ∀ (is : List Inst) (k : Nat) (i : Inst),
    i.t ≠ .phi → ((canonPhis K s p is)[k]? = some i ↔ is[k]? = some i) := by
  intro is
  induction is with
  | nil => intro k i _; rfl
  | cons x xs ih =>
    intro k i hi
    rw [canonPhis]
    split
    · rfl
    · rename_i hx
      have hx : x.t = .phi := Decidable.not_not.1 hx
      cases k with
      | zero =>
        simp only [List.getElem?_cons_zero, Option.some.injEq]
        constructor
        · rintro rfl
          exact absurd hx hi
        · rintro rfl
          exact absurd hx hi
      | succ k => simpa using ih k i hi

theorem canonChildren_frame {K : Evaluator} {s : State} {p : Nat} : ∀ (ns : List Nat) (c c' : Cfg),
    canonChildren K s p ns c = some c' → ∀ x k i, i.t ≠ .phi → (instAt c' x k = some i ↔ instAt c x k = some i) := by
  intro ns
  induction ns with
  | nil =>
    intro c c' e x k i _
    obtain rfl := Option.some.inj e
    rfl
  | cons n ns ih =>
    intro c c' e x k i hi
    simp only [canonChildren, Option.bind_eq_bind, Option.bind_eq_some_iff] at e
    obtain ⟨is, hb, e⟩ := e
    rw [ih _ _ e x k i hi]
    by_cases hx : x = n
    · subst hx
      rw [instAt, blockOf_setBlock_self hb, canonPhis_frame is k i hi]
      simp [instAt, blockOf, hb]
    · rw [instAt, blockOf_setBlock_ne hx]
      rfl

/-! ## The tree -/

/-- What a node strictly dominates, one of its children in the tree dominates. -/
theorem child_dom {E : Nat → Nat → Prop} {entry : Nat} {d : Dom} (t : IsTree E entry d) {l : Nat} :
    ∀ {m : Nat}, Reach E entry m → Dominates E entry l m → l ≠ m →
      ∃ n ∈ d.immediatelyDominatedBy l, Dominates E entry n m := by
  have key : ∀ (q m : Nat), d.postorder.length ≤ q + d.postorder.idxOf m → Reach E entry m →
      Dominates E entry l m → l ≠ m → ∃ n ∈ d.immediatelyDominatedBy l, Dominates E entry n m := by
    intro q
    induction q with
    | zero =>
      intro m hq hr
      have := List.idxOf_lt_length_of_mem ((t.mem m).2 hr)
      omega
    | succ q ih =>
      intro m hq hr hd hne
      have hm : m ≠ entry := by
        rintro rfl
        exact hne (dom_of_entry hd)
      obtain ⟨p, -, hi, hlt⟩ := t.idom m hr hm
      by_cases hp : l = p
      · subst hp
        exact ⟨m, (Ssa.kids_iff t).2 ⟨hr, hm, hi⟩, dom_self⟩
      · obtain ⟨n, h1, h2⟩ := ih p (by omega) (dom_reach hr hi.1.1) (hi.2 l ⟨hd, hne⟩) hp
        exact ⟨n, h1, dom_trans h2 hi.1.1⟩
  intro m hr hd hne
  exact key d.postorder.length m (by omega) hr hd hne

section
variable (c0)

/-- The programs have the same instructions in `x`, phis aside. -/
def SameAt (c c' : Cfg) (x : Nat) : Prop :=
  ∀ k i, i.t ≠ .phi → (instAt c' x k = some i ↔ instAt c x k = some i)

/-- The copies of the blocks that `l` dominates read roots. -/
def Rooted (c : Cfg) (l : Nat) : Prop :=
  ∀ m k i, Dominates c0.graph.Edge c0.entry l m → Reach c0.graph.Edge c0.entry m → instAt c m k = some i →
    i.t = .varAssign → ∀ a ∈ i.args,
      Root c0 (instAt c) (fun x _ => Dominates c0.graph.Edge c0.entry x m) a

end

theorem inner_roots [Nonempty W] {K : Evaluator} (hK : EvalSound K I) (hs : ReadsAreSilent I)
    (wf : WellFormed c0) (ssa : StrictSSA c0) (w : WF c0.graph) {d : Dom}
    (t : IsTree c0.graph.Edge c0.entry d) :
    ∀ (fuel : Nat) (anc : List Nat) (s : State) (c : Cfg) (l : Nat), anc.Nodup →
      (∀ x ∈ anc, Reach c0.graph.Edge c0.entry x ∧ SDominates c0.graph.Edge c0.entry x l) →
      Reach c0.graph.Edge c0.entry l → (c0.entry :: c0.graph.labels).length ≤ fuel + anc.length →
      CfgRel I c0 c → StateOk I c0 s l 0 →
      Good c0 (instAt c) (fun x _ => SDominates c0.graph.Edge c0.entry x l) s →
      ∃ c', inner K d fuel s c l = some c' ∧ CfgRel I c0 c' ∧
        (∀ x, ¬ Dominates c0.graph.Edge c0.entry l x → SameAt c c' x) ∧ Rooted c0 c' l := by
  have hkids : ∀ p n, n ∈ d.immediatelyDominatedBy p → Reach c0.graph.Edge c0.entry n ∧
      IsIdom c0.graph.Edge c0.entry p n := fun p n h =>
    ⟨((Ssa.kids_iff t).1 h).1, ((Ssa.kids_iff t).1 h).2.2⟩
  intro fuel
  induction fuel with
  | zero =>
    intro anc s c l hn ha hl hf
    exfalso
    have hn' : (l :: anc).Nodup := List.nodup_cons.2 ⟨fun h => (ha l h).2.2 rfl, hn⟩
    have hsub : l :: anc ⊆ c0.entry :: c0.graph.labels := by
      intro x hx
      rcases List.mem_cons.1 hx with rfl | hx
      · exact mem_universe w hl
      · exact mem_universe w (ha x hx).1
    have := hn'.length_le_of_subset hsub
    simp only [List.length_cons] at this hf
    omega
  | succ fuel ih =>
    intro anc s c l hn ha hl hf rel h hg
    have hn' : (l :: anc).Nodup := List.nodup_cons.2 ⟨fun h => (ha l h).2.2 rfl, hn⟩
    obtain ⟨is, hb⟩ := block_isSome rel (block_of_reach wf hl)
    have hbo : blockOf c l = is := by simp [blockOf, hb]
    obtain ⟨ms, tr⟩ := trail_of_reach hl
    obtain ⟨s', is', e1, e2, e3, -, e5⟩ := dvnBlock_ok hK hs ssa rel is 0 s ms
      (by simp [hbo]) (Nat.zero_le _) tr h
    have hlen : is'.length = (blockOf c0 l).length := by rw [e2, ← hbo, rel.len]
    have rel' : CfgRel I c0 (setBlock c l is') := by
      refine setBlock_rel rel hb e2 ?_
      intro k i i' g1 g2
      simpa using e5 k i i' (by simpa using g1) g2
    obtain ⟨c1, e6, rel1⟩ := canonChildren_ok hK e3.tgts (pred := l) (c.graph.childrenSorted l)
      (setBlock c l is') rel' (by
        intro n hn
        refine wf.edgeBlock l n ?_
        rw [← rel.graph]
        exact mem_sortLabels.1 hn)
    have hfr := canonChildren_frame _ _ _ e6
    -- the block itself
    have hC : ∀ (c : Cfg), CfgRel I c0 c → ∀ x y i z, instAt c x y = some i → DefAt c0 x y z → z ∈ i.tgts := by
      rintro c rel x y i z hi ⟨i0, g1, g2, g3⟩
      rw [(rel_phi_tgts (rel.point x y i0 i g1 hi)).2]
      exact g3
    have hg0 : Good c0 (withBlock c l []) (Before c0 l ([] : List Inst).length) s := by
      refine hg.transfer (fun x y h => .inl h) ?_
      intro x y i hD hi hc
      rcases hD with hD | ⟨-, hD⟩
      · refine ⟨hD, ?_⟩
        unfold withBlock at hi
        rwa [if_neg hD.2] at hi
      · simp at hD
    obtain ⟨hg1, hr1⟩ := dvnBlock_roots hK ssa hl
      (fun x y i z _ hi hd _ => hC c rel x y i z hi hd) is [] s s' is' (by
        intro j i hi
        have hi' : instAt c l j = some i := by rw [instAt, hbo]; exact hi
        obtain ⟨i0, g0, g1⟩ := rel_other rel hi'
        simp only [List.length_nil, Nat.zero_add]
        rcases g1 with ⟨g2, g3⟩ | ⟨g2, g3⟩
        · have hwf := wf_rel wf rel
          exact ⟨hwf.shape l j i hi', fun h => absurd g3.phi h, fun h => absurd g3.phi h⟩
        · exact ⟨g3.shape, fun _ => g3.avail, fun _ t ht => ⟨i0, g0, g2, g3.tgts ▸ ht⟩⟩)
      (by
        intro y i z hi hd _
        refine hC _ rel' l y i z ?_ hd
        rw [instAt, blockOf_setBlock_self hb]
        simpa using hi)
      (by rw [← hlen, e2]; simp) hg0 e1
    simp only [List.nil_append, List.length_nil, Nat.zero_add] at hg1 hr1
    have hw : ∀ x y i, i.t ≠ .phi → (instAt c1 x y = some i ↔ withBlock c l is' x y = some i) := by
      intro x y i hi
      rw [hfr x y i hi]
      unfold withBlock
      split
      · rename_i hx
        rw [hx, instAt, blockOf_setBlock_self hb]
      · rename_i hx
        rw [instAt, blockOf_setBlock_ne hx]
        rfl
    have hcp : ∀ {i : Inst}, i.t = .varAssign → i.t ≠ .phi := by
      intro i h
      rw [h]
      simp
    have noKid : ∀ n ∈ d.immediatelyDominatedBy l, ∀ x, Dominates c0.graph.Edge c0.entry x l →
        ¬ Dominates c0.graph.Edge c0.entry n x := by
      intro n hn x hx hnx
      obtain ⟨hr, hid⟩ := hkids l n hn
      exact hid.1.2 (dom_antisymm hr hid.1.1 (dom_trans hnx hx))
    -- the children
    have hall : ∀ (ns : List Nat) (c2 : Cfg), ns.Nodup → (∀ n ∈ ns, n ∈ d.immediatelyDominatedBy l) →
        CfgRel I c0 c2 →
        (∀ x, (∀ n ∈ d.immediatelyDominatedBy l, ¬ Dominates c0.graph.Edge c0.entry n x) → SameAt c1 c2 x) →
        ∃ c3, ns.foldlM (fun c n => inner K d fuel s' c n) c2 = some c3 ∧ CfgRel I c0 c3 ∧
          (∀ x, (∀ n ∈ ns, ¬ Dominates c0.graph.Edge c0.entry n x) → SameAt c2 c3 x) ∧
          ∀ n ∈ ns, Rooted c0 c3 n := by
      intro ns
      induction ns with
      | nil => exact fun c2 _ _ r _ => ⟨c2, rfl, r, fun x _ k i _ => Iff.rfl, by simp⟩
      | cons n ns ihn =>
        intro c2 hnd hns r hJ
        have hkn := hns n List.mem_cons_self
        obtain ⟨hr, hid⟩ := hkids l n hkn
        obtain ⟨c3, f1, f2, f3, f4⟩ := ih (l :: anc) s' c2 n hn' (by
            intro x hx
            rcases List.mem_cons.1 hx with rfl | hx
            · exact ⟨hl, hid.1⟩
            · obtain ⟨g1, g2⟩ := ha x hx
              refine ⟨g1, dom_trans g2.1 hid.1.1, ?_⟩
              rintro rfl
              exact g2.2 (dom_antisymm hl g2.1 hid.1.1)) hr
          (by simp only [List.length_cons] at hf ⊢; omega) r
          (e3.mono (fun d hd' => passes_dom hid.1.1 hid.1.2 d hd'))
          (by
            refine hg1.transfer ?_ ?_
            · rintro x y (hb' | ⟨rfl, -⟩)
              · refine ⟨dom_trans hb'.1 hid.1.1, ?_⟩
                rintro rfl
                exact hb'.2 (dom_antisymm hl hb'.1 hid.1.1)
              · exact hid.1
            · intro x y i hD hi hc
              have hxl := hid.2 x hD
              have h1 := (hJ x (fun n' hn' => noKid n' hn' x hxl) y i (hcp hc)).1 hi
              refine ⟨?_, (hw x y i (hcp hc)).1 h1⟩
              by_cases hx : x = l
              · subst hx
                have h2 := (hw x y i (hcp hc)).1 h1
                simp only [withBlock, if_true] at h2
                exact .inr ⟨rfl, (List.getElem?_eq_some_iff.1 h2).1⟩
              · exact .inl ⟨hxl, hx⟩)
        obtain ⟨k1, k2⟩ := List.nodup_cons.1 hnd
        obtain ⟨c4, f5, f6, f7, f8⟩ := ihn c3 k2 (fun m hm => hns m (List.mem_cons_of_mem _ hm)) f2 (by
          intro x hx k i hi
          rw [f3 x (hx n hkn) k i hi, hJ x hx k i hi])
        refine ⟨c4, by simp only [List.foldlM_cons, f1, Option.bind_eq_bind, Option.bind_some, f5], f6, ?_, ?_⟩
        · intro x hx k i hi
          rw [f7 x (fun m hm => hx m (List.mem_cons_of_mem _ hm)) k i hi, f3 x (hx n List.mem_cons_self) k i hi]
        · intro m hm
          rcases List.mem_cons.1 hm with rfl | hm
          · intro q k i hq hrq hi hc a ha'
            have hq' : ∀ x, Dominates c0.graph.Edge c0.entry x q →
                ∀ n' ∈ ns, ¬ Dominates c0.graph.Edge c0.entry n' x := by
              intro x hx n' hn' hd'
              refine Ssa.kids_disjoint t hkn (hns n' (List.mem_cons_of_mem _ hn')) ?_ hrq hq (dom_trans hd' hx)
              rintro rfl
              exact k1 hn'
            have hi' := (f7 q (hq' q dom_self) k i (hcp hc)).1 hi
            refine (f4 q k i hq hrq hi' hc a ha').transfer (fun _ _ h => h) ?_
            intro x y i' hx hi2 hc2
            exact (f7 x (hq' x hx) y i' (hcp hc2)).1 hi2
          · exact f8 m hm
    obtain ⟨c3, g1, g2, g3, g4⟩ := hall (d.immediatelyDominatedBy l) c1 (Ssa.kids_nodup t l) (fun _ h => h) rel1
      (fun x _ k i _ => Iff.rfl)
    refine ⟨c3, ?_, g2, ?_, ?_⟩
    · rw [inner]
      simp only [hb, e1, e6, g1, Option.bind_eq_bind, Option.bind_some]
    · intro x hx k i hi
      rw [g3 x (fun n hn hd' => hx (dom_trans (hkids l n hn).2.1.1 hd')) k i hi, hw x k i hi]
      unfold withBlock
      rw [if_neg (by rintro rfl; exact hx dom_self)]
    · intro m k i hm hrm hi hc a ha'
      by_cases hml : m = l
      · subst hml
        have hi' := (hw m k i (hcp hc)).1 ((g3 m (fun n hn => noKid n hn m dom_self) k i (hcp hc)).1 hi)
        simp only [withBlock, if_true] at hi'
        refine (hr1 k i hi' hc a ha').transfer ?_ ?_
        · rintro x y (hb' | ⟨rfl, -⟩)
          · exact hb'.1
          · exact dom_self
        · intro x y i' hx hi2 hc2
          have hxm : Dominates c0.graph.Edge c0.entry x m := by
            rcases hx with hb' | ⟨rfl, -⟩
            · exact hb'.1
            · exact dom_self
          exact (hw x y i' (hcp hc2)).1 ((g3 x (fun n hn => noKid n hn x hxm) y i' (hcp hc2)).1 hi2)
      · obtain ⟨n, hn, hnm⟩ := child_dom t hrm hm (fun e => hml e.symm)
        exact g4 n hn m k i hnm hrm hi hc a ha'

end Verif.Opt
