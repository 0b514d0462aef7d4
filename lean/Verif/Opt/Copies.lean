import Verif.Opt.Dce
/-!
# Removing copies
-/

namespace Verif.Opt

open Verif.Il Verif.Graph

variable {V W : Type}

theorem ex_cons {α : Type} {P : α → Prop} {a : α} {l : List α} :
    (∃ i, i ∈ a :: l ∧ P i) ↔ P a ∨ ∃ i, i ∈ l ∧ P i := by
  simp

theorem lookup_of_mem_nodup {α : Type} {m : List (Nat × α)} {l : Nat} {v : α} (hn : (m.map (·.1)).Nodup)
    (h : (l, v) ∈ m) : m.lookup l = some v := by
  induction m with
  | nil => cases h
  | cons e m ih =>
    obtain ⟨k, v'⟩ := e
    rw [List.map_cons, List.nodup_cons] at hn
    rw [List.lookup_cons]
    rcases List.mem_cons.1 h with h1 | h1
    · obtain ⟨rfl, rfl⟩ := Prod.mk.inj h1
      simp
    · have hk : l ≠ k := by
        rintro rfl
        exact hn.1 (List.mem_map.2 ⟨(l, v), h1, rfl⟩)
      rw [show (l == k) = false by simpa using hk]
      exact ih hn.2 h1

/-- The instructions of all blocks are those found at some point. -/
theorem mem_allInsts {c : Cfg} (wf : WellFormed c) {i : Inst} :
    i ∈ c.bblocks.flatMap (·.2) ↔ ∃ l k, instAt c l k = some i := by
  rw [List.mem_flatMap]
  constructor
  · rintro ⟨⟨l, is⟩, h1, h2⟩
    obtain ⟨k, hk⟩ := List.getElem?_of_mem h2
    refine ⟨l, k, ?_⟩
    simp only [instAt, blockOf, Cfg.block, lookup_of_mem_nodup wf.labels h1]
    exact hk
  · rintro ⟨l, k, h⟩
    have : i ∈ blockOf c l := List.mem_of_getElem? h
    obtain ⟨is, h1, h2⟩ := mem_blockOf this
    exact ⟨_, h1, h2⟩

theorem allInsts_once {c : Cfg} (wf : WellFormed c) (ssa : StrictSSA c) :
    (c.bblocks.flatMap (·.2)).Pairwise (fun i j => ∀ v ∈ i.tgts, v ∉ j.tgts) := by
  rw [List.pairwise_flatMap]
  constructor
  · rintro ⟨l, is⟩ h
    have hb : blockOf c l = is := by simp [blockOf, Cfg.block, lookup_of_mem_nodup wf.labels h]
    rw [List.pairwise_iff_getElem]
    intro a b ha hb' hab v hv hv'
    have h1 : instAt c l a = some is[a] := by rw [instAt, hb]; exact List.getElem?_eq_getElem ha
    have h2 : instAt c l b = some is[b] := by rw [instAt, hb]; exact List.getElem?_eq_getElem hb'
    have := (ssa.once _ _ _ _ _ _ v h1 h2 hv hv').2
    omega
  · have hn := wf.labels
    rw [List.Nodup, List.pairwise_map] at hn
    refine hn.imp_of_mem ?_
    rintro ⟨l, is⟩ ⟨l', is'⟩ hm hm' hne x hx y hy v hv hv'
    have e1 : blockOf c l = is := by simp [blockOf, Cfg.block, lookup_of_mem_nodup wf.labels hm]
    have e2 : blockOf c l' = is' := by simp [blockOf, Cfg.block, lookup_of_mem_nodup wf.labels hm']
    obtain ⟨a, ha⟩ := List.getElem?_of_mem hx
    obtain ⟨b, hb⟩ := List.getElem?_of_mem hy
    refine hne (ssa.once l a x l' b y v ?_ ?_ hv hv').1
    · rw [instAt, e1]; exact ha
    · rw [instAt, e2]; exact hb

theorem collect_spec : ∀ (is : List Inst) (m : List (Nat × Arg)), (∀ i ∈ is, Shape i) →
    is.Pairwise (fun i j => ∀ v ∈ i.tgts, v ∉ j.tgts) →
    (∀ i ∈ is, ∀ v ∈ i.tgts, m.lookup v = none) →
    ∃ m', collectCopies is m = some m' ∧ ∀ t a, m'.lookup t = some a ↔
      m.lookup t = some a ∨ ∃ i ∈ is, i.t = .varAssign ∧ i.tgts = [t] ∧ i.args = [a] := by
  intro is
  induction is with
  | nil => exact fun m _ _ _ => ⟨m, rfl, by simp⟩
  | cons i is ih =>
    intro m sh hp hm
    have sh' := fun j hj => sh j (List.mem_cons_of_mem _ hj)
    rw [List.pairwise_cons] at hp
    rw [collectCopies]
    by_cases ht : i.t = .varAssign
    · have s := sh i List.mem_cons_self
      simp only [Shape, ht] at s
      obtain ⟨⟨t, h1⟩, a, h2⟩ := s
      have hmt := hm i List.mem_cons_self t (by simp [h1])
      simp only [ht, ne_eq, not_true_eq_false, if_false, asVarAssign, h1, h2, List.getElem?_cons_zero,
        Option.bind_eq_bind, Option.bind_some, hmt, Option.isSome_none, Bool.false_eq_true]
      obtain ⟨m', e, hm'⟩ := ih ((t, a) :: m) sh' hp.2 (by
        intro j hj v hv
        have hvt : v ≠ t := by
          rintro rfl
          exact hp.1 j hj v (by simp [h1]) hv
        rw [List.lookup_cons, show (v == t) = false by simpa using hvt]
        exact hm j (List.mem_cons_of_mem _ hj) v hv)
      refine ⟨m', e, ?_⟩
      intro t' a'
      rw [hm']
      rw [List.lookup_cons]
      by_cases htt : t' = t
      · subst htt
        simp only [beq_self_eq_true, hmt, ex_cons]
        constructor
        · rintro (h | h)
          · obtain rfl := Option.some.inj h
            exact Or.inr (Or.inl ⟨ht, h1, h2⟩)
          · exact Or.inr (Or.inr h)
        · rintro (h | ⟨h3, h4, h5⟩ | h)
          · cases h
          · rw [h2] at h5
            simp at h5
            exact Or.inl (by rw [h5])
          · exact Or.inr h
      · rw [show (t' == t) = false by simpa using htt]
        simp only [ex_cons]
        constructor
        · rintro (h | h)
          · exact Or.inl h
          · exact Or.inr (Or.inr h)
        · rintro (h | ⟨h3, h4, h5⟩ | h)
          · exact Or.inl h
          · rw [h1] at h4
            simp at h4
            exact absurd h4.symm htt
          · exact Or.inr h
    · simp only [ne_eq, ht, not_false_eq_true, if_true]
      obtain ⟨m', e, hm'⟩ := ih m sh' hp.2 (fun j hj => hm j (List.mem_cons_of_mem _ hj))
      refine ⟨m', e, ?_⟩
      intro t' a'
      rw [hm']
      simp [ht]

/-- What the map of copies contains. -/
def CopyMap (c : Cfg) (m : List (Nat × Arg)) : Prop :=
  ∀ t a, m.lookup t = some a ↔ ∃ l k i, instAt c l k = some i ∧ i.t = .varAssign ∧ i.tgts = [t] ∧ i.args = [a]

theorem copies_spec {c : Cfg} (wf : WellFormed c) (ssa : StrictSSA c) :
    ∃ m, collectCopies (c.bblocks.flatMap (·.2)) [] = some m ∧ CopyMap c m := by
  obtain ⟨m, e, h⟩ := collect_spec (c.bblocks.flatMap (·.2)) []
    (fun i hi => by
      obtain ⟨l, k, hk⟩ := (mem_allInsts wf).1 hi
      exact wf.shape l k i hk)
    (allInsts_once wf ssa) (by simp)
  refine ⟨m, e, ?_⟩
  intro t a
  rw [h]
  simp only [List.lookup_nil, reduceCtorEq, false_or]
  constructor
  · rintro ⟨i, hi, h1⟩
    obtain ⟨l, k, hk⟩ := (mem_allInsts wf).1 hi
    exact ⟨l, k, i, hk, h1⟩
  · rintro ⟨l, k, i, hk, h1⟩
    exact ⟨i, (mem_allInsts wf).2 ⟨l, k, hk⟩, h1⟩

/-- Where the argument is available, its replacement has the same value. -/
theorem subst_val {I : Interp V W} {c : Cfg} (nc : NoCopyChains c) {m : List (Nat × Arg)}
    (hm : CopyMap c m) {e e' : Nat → V} {l k : Nat} (hs : Sat I c e l k)
    (ha : AgreeOn (fun x => m.lookup x = none) e e') {a : Arg} (av : Avail c a l k) :
    valOf I e' (substArg m a) = valOf I e a := by
  cases a with
  | var t =>
    simp only [substArg]
    cases h : m.lookup t with
    | none => exact (ha t h).symm
    | some b =>
      obtain ⟨l', k', i, hi, h1, h2, h3⟩ := (hm t b).1 h
      have hp := av t rfl (.inst l' k') ⟨i, hi, by rw [h1]; decide, by simp [h2]⟩
      have hh := hs l' k' i hi hp
      simp only [Holds, h1] at hh
      have := hh b [] h3 t (by simp [h2])
      simp only [Option.getD_some]
      rw [show valOf I e (.var t) = e t from rfl, this]
      refine (valOf_congr I ?_).symm
      intro y hy
      subst hy
      refine ha y ?_
      cases hl : m.lookup y with
      | none => exact hl
      | some z =>
        obtain ⟨l2, k2, i2, hi2, h12, h22, -⟩ := (hm y z).1 hl
        exact absurd (by simp [h22]) (nc l' k' i l2 k2 i2 y hi h1 (by simp [h3]) hi2 h12)
  | builtin p => rfl
  | const p => rfl
  | fn p => rfl

theorem copyBlock_eq (m : List (Nat × Arg)) (is : List Inst) :
    copyBlock m is = is.filterMap (fun i => if i.t = .varAssign then none else some (substInst m i)) := by
  induction is with
  | nil => rfl
  | cons i is ih =>
    rw [List.filterMap_cons]
    by_cases h : i.t = .varAssign
    · simp only [copyBlock, List.filter_cons] at ih ⊢
      simp [h, ih]
    · simp only [copyBlock, List.filter_cons] at ih ⊢
      simp [h, ih]

theorem agree_setAll {U : Nat → Prop} {e e' : Nat → V} (h : AgreeOn U e e') (ts : List Nat) (v : V) :
    AgreeOn U (setAll e ts v) (setAll e' ts v) := by
  intro x hx
  simp only [setAll]
  split
  · rfl
  · exact h x hx

/-- One instruction that is not a copy, on its replaced arguments. -/
theorem exec_subst (I : Interp V W) (m : List (Nat × Arg)) {i : Inst} (ht : i.t ≠ .varAssign)
    {U : Nat → Prop} {e e' : Nat → V} (w : W) (h : AgreeOn U e e')
    (hv : i.t ≠ .phi → ∀ a ∈ i.args, valOf I e' (substArg m a) = valOf I e a) :
    (exec I i (e, w)).2 = (exec I (substInst m i) (e', w)).2 ∧
    AgreeOn U (exec I i (e, w)).1 (exec I (substInst m i) (e', w)).1 := by
  by_cases hp : i.t = .phi
  · simp [exec, substInst, hp]
    exact h
  have hm : (substInst m i).args.map (valOf I e') = i.args.map (valOf I e) := by
    simp only [substInst, List.map_map]
    exact List.map_congr_left (fun a ha => hv hp a ha)
  have ho : opcode (substInst m i) = opcode i := rfl
  have htg : (substInst m i).tgts = i.tgts := rfl
  have htt : (substInst m i).t = i.t := rfl
  cases hk : i.t
  case varAssign => exact absurd hk ht
  case phi => exact absurd hk hp
  all_goals
    simp only [exec, htt, hk, ho, hm, htg, true_and]
    first
      | exact h
      | exact agree_setAll h _ _

theorem copy_exec {I : Interp V W} {c : Cfg} (wf : WellFormed c) (ssa : StrictSSA c) (nc : NoCopyChains c)
    {m : List (Nat × Arg)} (hm : CopyMap c m) {l : Nat} :
    ∀ (is : List Inst) (k : Nat) (ms : List Site) (e e' : Nat → V) (w : W),
      (blockOf c l).drop k = is → k ≤ (blockOf c l).length → Trail c ms l k → Sat I c e l k →
      AgreeOn (fun x => m.lookup x = none) e e' →
      (execAll I is (e, w)).2 = (execAll I (copyBlock m is) (e', w)).2 ∧
      AgreeOn (fun x => m.lookup x = none) (execAll I is (e, w)).1 (execAll I (copyBlock m is) (e', w)).1 := by
  intro is
  induction is with
  | nil => exact fun k ms e e' w _ _ _ _ h => ⟨rfl, h⟩
  | cons i is ih =>
    intro k ms e e' w hd hk tr hs h
    have hi : instAt c l k = some i := by
      have : ((blockOf c l).drop k)[0]? = some i := by rw [hd]; rfl
      simpa [instAt] using this
    have hlt := lt_of_instAt hi
    have hd' : (blockOf c l).drop (k + 1) = is := by
      have : (blockOf c l).drop (k + 1) = ((blockOf c l).drop k).drop 1 := by simp
      rw [this, hd]
      rfl
    have hs' := sat_inst (s := (e, w)) ssa hi tr hs
    have next : ∀ s' : (Nat → V) × W, (exec I i (e, w)).2 = s'.2 →
        AgreeOn (fun x => m.lookup x = none) (exec I i (e, w)).1 s'.1 →
        (execAll I is (exec I i (e, w))).2 = (execAll I (copyBlock m is) s').2 ∧
        AgreeOn (fun x => m.lookup x = none) (execAll I is (exec I i (e, w))).1
          (execAll I (copyBlock m is) s').1 := by
      rintro ⟨a', b'⟩ e1 e2
      simp only at e1 e2
      subst e1
      exact ih (k + 1) _ _ a' _ hd' hlt (.inst tr hlt) hs' e2
    by_cases ht : i.t = .varAssign
    · have : copyBlock m (i :: is) = copyBlock m is := by simp [copyBlock, List.filter_cons, ht]
      rw [this]
      have sh := wf.shape l k i hi
      simp only [Shape, ht] at sh
      obtain ⟨⟨t, h1⟩, a, h2⟩ := sh
      refine next (e', w) (by simp [exec, ht, h2]) ?_
      intro x hx
      rw [exec_other I i (e, w) ?_]
      · exact h x hx
      · rw [h1]
        intro hxt
        rw [List.mem_singleton.1 hxt, (hm t a).2 ⟨l, k, i, hi, ht, h1, h2⟩] at hx
        cases hx
    · have : copyBlock m (i :: is) = substInst m i :: copyBlock m is := by
        simp [copyBlock, List.filter_cons, ht]
      rw [this]
      obtain ⟨h2, h3⟩ := exec_subst I m ht w h (fun hp a ha => subst_val nc hm hs h (ssa.avail l k i hi hp a ha))
      exact next _ h2 h3

theorem zip_map_right {α β γ : Type} (f : β → γ) (xs : List α) (ys : List β) :
    xs.zip (ys.map f) = (xs.zip ys).map (fun p => (p.1, f p.2)) := by
  induction xs generalizing ys with
  | nil => rfl
  | cons x xs ih =>
    cases ys with
    | nil => rfl
    | cons y ys => simp [ih]

theorem copy_enter {I : Interp V W} {c : Cfg} (m : List (Nat × Arg)) {p : Nat} {src src' : Nat → V}
    (hv : ∀ l k i, instAt c l k = some i → i.t = .phi → ∀ a, (p, a) ∈ i.labels.zip i.args →
      valOf I src' (substArg m a) = valOf I src a) {l : Nat} {U : Nat → Prop} :
    ∀ (is : List Inst) (e e' : Nat → V), (∀ i ∈ is, i ∈ blockOf c l) → AgreeOn U e e' →
      AgreeOn U (enter I src p is e) (enter I src' p (copyBlock m is) e') := by
  intro is
  induction is with
  | nil => exact fun e e' _ h => h
  | cons i is ih =>
    intro e e' ha h
    have ha' := fun j hj => ha j (List.mem_cons_of_mem _ hj)
    obtain ⟨k, hk⟩ := List.getElem?_of_mem (ha i List.mem_cons_self)
    rw [enter]
    by_cases ht : i.t = .varAssign
    · have : copyBlock m (i :: is) = copyBlock m is := by simp [copyBlock, List.filter_cons, ht]
      rw [this]
      refine ih _ _ ha' ?_
      simpa [ht] using h
    · have : copyBlock m (i :: is) = substInst m i :: copyBlock m is := by
        simp [copyBlock, List.filter_cons, ht]
      rw [this, enter]
      refine ih _ _ ha' ?_
      by_cases hp : i.t = .phi
      · simp only [substInst, hp, if_true, zip_map_right, lookup_map_snd]
        cases hl : (i.labels.zip i.args).lookup p with
        | none => exact h
        | some a =>
          simp only [Option.map_some, hv l k i hk hp a (mem_of_lookup_eq hl)]
          intro x hx
          simp only [setAll]
          split
          · rfl
          · exact h x hx
      · simpa [substInst, hp] using h

theorem copy_run {I : Interp V W} {c : Cfg} (wf : WellFormed c) (ssa : StrictSSA c) (nc : NoCopyChains c)
    {m : List (Nat × Arg)} (hm : CopyMap c m) (e e' : Nat → V)
    (w : W) (he : AgreeOn (fun x => m.lookup x = none) e e') :
    ∀ n, (run I (mapBlocks c (copyBlock m)) e' w n).at_ = (run I c e w n).at_ ∧
      (run I (mapBlocks c (copyBlock m)) e' w n).world = (run I c e w n).world ∧
      AgreeOn (fun x => m.lookup x = none) (run I c e w n).env (run I (mapBlocks c (copyBlock m)) e' w n).env := by
  have hb : ∀ l, blockOf (mapBlocks c (copyBlock m)) l = copyBlock m (blockOf c l) :=
    fun l => blockOf_map c _ rfl l
  intro n
  induction n with
  | zero => exact ⟨rfl, rfl, he⟩
  | succ n ih =>
    obtain ⟨h1, h2, h3⟩ := ih
    have hsat := sat_run (I := I) wf ssa e w n
    rw [run, run]
    generalize run I c e w n = x at h1 h2 h3 hsat ⊢
    generalize run I (mapBlocks c (copyBlock m)) e' w n = x' at h1 h2 h3 ⊢
    obtain ⟨a, e1, w1⟩ := x
    obtain ⟨a', e1', w1'⟩ := x'
    simp only at h1 h2 h3 hsat
    subst h1 h2
    cases a' with
    | none => exact ⟨rfl, rfl, h3⟩
    | some l =>
      obtain ⟨⟨ms, tr⟩, hs⟩ := hsat l rfl
      obtain ⟨h4, h5⟩ := copy_exec (l := l) wf ssa nc hm (blockOf c l) 0 ms e1 e1' w1' rfl (Nat.zero_le _)
        tr hs h3
      obtain ⟨⟨ms', tr'⟩, hs'⟩ := sat_block (I := I) ssa (blockOf c l) 0 ms (e1, w1') rfl
        (Nat.zero_le _) tr hs
      have hn : next I (mapBlocks c (copyBlock m)) l (copyBlock m (blockOf c l))
          (execAll I (copyBlock m (blockOf c l)) (e1', w1')).1 =
          next I c l (blockOf c l) (execAll I (blockOf c l) (e1, w1')).1 := by
        generalize (execAll I (copyBlock m (blockOf c l)) (e1', w1')).1 = ez at h5
        rw [copyBlock_eq]
        refine next_filterMap wf _ rfl ?_ ?_
        · intro i hi ht
          obtain ⟨k, hk⟩ := List.getElem?_of_mem hi
          refine ⟨substInst m i, by simp [ht], ht, rfl, ?_⟩
          simp only [substInst, List.map_map]
          refine (List.map_congr_left ?_).symm
          intro a ha
          refine subst_val nc hm hs' h5 ?_
          have av := ssa.avail l k i hk (by rw [ht]; decide) a ha
          have hpass : Passes c (.inst l k) l (blockOf c l).length := by
            rw [← wf.branchLast l k i hk ht]
            intro ms2 tr2
            have h0 := ht
            generalize hk1 : k + 1 = k1 at tr2
            cases tr2 with
            | start => cases hk1
            | inst t2 _ =>
              obtain rfl := Nat.succ.inj hk1
              exact List.mem_cons_self
            | jump _ _ => cases hk1
          exact avail_trans av hpass
        · intro i hi ht i' hf
          by_cases hv : i.t = .varAssign
          · simp [hv] at hf
          · simp [hv] at hf
            rw [← hf]
            exact ht
      simp only [step, hb, hn]
      cases hx : next I c l (blockOf c l) (execAll I (blockOf c l) (e1, w1')).1 with
      | none => exact ⟨rfl, h4.symm, h5⟩
      | some s =>
        refine ⟨rfl, h4.symm, ?_⟩
        refine copy_enter (c := c) (l := s) m ?_ (blockOf c s) _ _ (fun _ h => h) h5
        intro l2 k2 i2 hi2 hp2 a ha
        exact subst_val nc hm hs' h5 (ssa.availPhi l2 k2 i2 hi2 hp2 l a ha)

end Verif.Opt
