import Verif.Loader.Lemmas
/-!
# Loading a module graph: the invariant is kept by every step
-/

namespace Verif.Loader

open Verif.Modules (Str Request requestsEqual requestsEqual_refl)

/-- The frame does not belong to load `k`. -/
def Foreign (k : Nat) : Frame → Prop
  | .inner l _ => l ≠ k
  | .loop l _ _ => l ≠ k
  | .after l _ _ => l ≠ k
  | .host _ => True

theorem frameTok_foreign {k : Nat} {f : Frame} (h : Foreign k f) : frameTok k f = 0 := by
  cases f <;> simp_all [Foreign, frameTok]

theorem sum_foreign {k : Nat} {g : List Frame} (h : ∀ x ∈ g, Foreign k x) : (g.map (frameTok k)).sum = 0 := by
  induction g with
  | nil => rfl
  | cons f g ih =>
    simp only [List.map_cons, List.sum_cons, frameTok_foreign (h f (List.mem_cons_self ..)),
      ih (fun x hx => h x (List.mem_cons_of_mem _ hx))]

theorem le_sum_of_mem {x : Nat} {l : List Nat} (h : x ∈ l) : x ≤ l.sum := by
  induction l with
  | nil => cases h
  | cons y l ih =>
    rw [List.sum_cons]
    rcases List.mem_cons.1 h with rfl | h
    · omega
    · have := ih h; omega

theorem tok_append (out : List Token) (g st : List Frame) (k : Nat) :
    tok out (g ++ st) k = (g.map (frameTok k)).sum + tok out st k := by
  unfold tok
  simp only [List.map_append, List.sum_append]
  omega

/-- A load that a step does not concern. -/
theorem LoadOK.frame {mods mods' : List Mod} {out out' : List Token} {f : Frame} {g st : List Frame} {k : Nat}
    {L : Load} (h : LoadOK mods out (f :: st) k L) (hm : MLe mods mods')
    (hc : out'.countP (fun t => t.load == k) = out.countP (fun t => t.load == k))
    (ho : ∀ t : Token, t.load = k → t ∈ out → t ∈ out')
    (hf : Foreign k f) (hg : ∀ x ∈ g, Foreign k x) : LoadOK mods' out' (g ++ st) k L := by
  refine h.mono hm (fun _ => ?_) (fun _ v q hw => .inl ?_) (fun _ w hw => ?_)
  · rw [tok_append, sum_foreign hg, show f :: st = [f] ++ st from rfl, tok_append]
    simp only [List.map_cons, List.map_nil, List.sum_cons, List.sum_nil, frameTok_foreign hf, tok, hc]
    omega
  · rcases hw with hw | ⟨qs, hq, hw⟩
    · exact .inl (ho _ rfl hw)
    · refine .inr ⟨qs, hq, ?_⟩
      rcases hw with hw | hw
      · rcases List.mem_cons.1 hw with rfl | hw
        · exact absurd rfl hf
        · exact .inl (List.mem_append_right _ hw)
      · rcases List.mem_cons.1 hw with rfl | hw
        · exact absurd rfl hf
        · exact .inr (List.mem_append_right _ hw)
  · simp only [List.head?_cons, Option.some.injEq] at hw
    subst hw
    exact absurd rfl hf

/-- A load that has been settled. -/
theorem LoadOK.stopped {mods : List Mod} {out : List Token} {st : List Frame} {l : Nat} {L : Load}
    (h1 : L.isLoading = false) (h2 : L.outcome.isSome = true)
    (h3 : L.outcome = some .fulfilled → Linked mods L.root) : LoadOK mods out st l L := by
  refine ⟨by rw [h1, h2]; rfl, ?_, ?_, ?_, ?_, h3⟩ <;> (intro h; rw [h1] at h; cases h)

theorem LoadOK.stay {mods mods' : List Mod} {out out' : List Token} {st st' : List Frame} {l : Nat} {L : Load}
    (h : LoadOK mods out st l L) (hm : MLe mods mods') (hl : L.isLoading = false) :
    LoadOK mods' out' st' l L :=
  .stopped hl (by rw [h.settled, hl]; rfl) (fun hd => (h.done hd).mono hm)

theorem LoadOK.outcome_none {mods : List Mod} {out : List Token} {st : List Frame} {l : Nat} {L : Load}
    (h : LoadOK mods out st l L) (hl : L.isLoading = true) : L.outcome = none := by
  have := h.settled
  rw [hl] at this
  cases ho : L.outcome with
  | none => rfl
  | some o => rw [ho] at this; cases this

theorem frameIn_mono {n m : Nat} (h : n ≤ m) {f : Frame} (hf : FrameIn n f) : FrameIn m f := by
  cases f <;> simp_all [FrameIn] <;> omega

/-- Failing a load that is loading. -/
theorem fail_inv {w : World} {f : Frame} {st : List Frame} {l : Nat} {L : Load} (e : Error)
    (h : Inv ⟨w, f :: st⟩) (hl : w.loads[l]? = some L) (hload : L.isLoading = true)
    (hfor : ∀ k, k ≠ l → Foreign k f) (hrest : ∀ x ∈ st, Resting x) : Inv ⟨w.fail l e, st⟩ := by
  have hok := h.loads l L hl
  rw [fail_eq hl (hok.outcome_none hload)]
  refine ⟨?_, h.linked, fun x hx => hrest x (List.mem_of_mem_tail hx), ?_, ?_, ?_⟩
  · intro k K hk
    simp only at hk
    rcases getElem?_set_cases hk with ⟨rfl, rfl, _⟩ | ⟨hne, hk⟩
    · exact .stopped rfl rfl (by intro h; cases h)
    · exact (h.loads k K hk).frame (g := []) (MLe.refl _) rfl (fun _ _ h => h) (hfor k (Ne.symm hne)) (by simp)
  · intro k hk
    rw [resting_head hrest] at hk
    cases hk
  · intro x hx
    simp only [List.length_set]
    exact h.frames x (List.mem_cons_of_mem _ hx)
  · intro t ht
    simp only [List.length_set]
    exact h.tokens t ht

theorem enter_inv {w : World} {l m : Nat} {st : List Frame} (h : Inv ⟨w, .inner l m :: st⟩) :
    Inv (enter w l m st) := by
  obtain ⟨L, hL, hload⟩ := h.top l rfl
  have hrest : ∀ x ∈ st, Resting x := h.tail
  have hok := h.loads l L hL
  have hfor : ∀ k, k ≠ l → Foreign k (Frame.inner l m) := fun k hk => Ne.symm hk
  have hcount := hok.count hload
  simp only [tok, List.map_cons, List.sum_cons, frameTok, if_pos] at hcount
  unfold enter
  cases hm : w.mods[m]? with
  | none => exact fail_inv _ h hL hload hfor hrest
  | some r =>
    simp only [hL]
    by_cases hc : r.linked = false ∧ m ∉ L.visited
    · rw [if_pos hc]
      refine ⟨?_, h.linked, hrest, ?_, ?_, ?_⟩
      · intro k K hk
        simp only at hk
        rcases getElem?_set_cases hk with ⟨rfl, rfl, _⟩ | ⟨hne, hk⟩
        · have hreach : ∀ x, Reached w.mods (.inner l m :: st) l L.visited x →
              Reached w.mods (.loop l m r.requests :: st) l (L.visited ++ [m]) x := by
            rintro x (h1 | h1 | h1)
            · exact .inl h1
            · exact .inr (.inl (List.mem_append_left _ h1))
            · simp only [List.head?_cons, Option.some.injEq, Frame.inner.injEq, true_and] at h1
              subst h1
              exact .inr (.inl (by simp))
          refine ⟨hok.settled, fun _ => by have := hok.pos hload; simp only; omega, fun _ => ?_, fun _ v hv => ?_, fun _ => hreach _ (hok.root hload), hok.done⟩
          · simp only [tok, List.map_cons, List.sum_cons, frameTok, if_pos]
            omega
          · rcases List.mem_append.1 hv with hv | hv
            · obtain ⟨x, h1, h2⟩ := hok.visited hload v hv
              refine ⟨x, h1, fun q hq => ?_⟩
              rcases h2 q hq with h3 | ⟨y, h3, h4⟩
              · refine .inl ?_
                rcases h3 with h3 | ⟨qs, h3, h4⟩
                · exact .inl h3
                · refine .inr ⟨qs, h3, ?_⟩
                  simp only [List.mem_cons, reduceCtorEq, false_or] at h4
                  rcases h4 with h4 | h4
                  · exact .inl (List.mem_cons_of_mem _ h4)
                  · exact .inr (List.mem_cons_of_mem _ h4)
              · exact .inr ⟨y, h3, hreach y h4⟩
            · simp only [List.mem_singleton] at hv
              subst hv
              exact ⟨r, hm, fun q hq => .inl (.inr ⟨r.requests, hq, .inl (List.mem_cons_self ..)⟩)⟩
        · exact (h.loads k K hk).frame (g := [.loop l m r.requests]) (MLe.refl _) rfl (fun _ _ h => h)
            (hfor k (Ne.symm hne)) (by simp [Foreign, hne])
      · intro k hk
        simp only [topLoad, Option.some.injEq] at hk
        subst hk
        exact ⟨_, List.getElem?_set_self (List.getElem?_eq_some_iff.1 hL).1, hload⟩
      · intro x hx
        simp only [List.length_set]
        rcases List.mem_cons.1 hx with rfl | hx
        · exact h.frames (.inner l m) (List.mem_cons_self ..)
        · exact h.frames x (List.mem_cons_of_mem _ hx)
      · intro t ht
        simp only [List.length_set]
        exact h.tokens t ht
    · rw [if_neg hc]
      have hm' : Linked w.mods m ∨ m ∈ L.visited := by
        by_cases hv : m ∈ L.visited
        · exact .inr hv
        · refine .inl ⟨r, hm, ?_⟩
          by_cases hl : r.linked = false
          · exact absurd ⟨hl, hv⟩ hc
          · simpa using hl
      refine ⟨?_, h.linked, hrest, ?_, ?_, h.tokens⟩
      · intro k K hk
        by_cases hkl : k = l
        · subst hkl
          rw [hL] at hk
          cases hk
          refine hok.mono (MLe.refl _) (fun _ => ?_) (fun _ v q hw => .inl ?_) (fun _ x hx => ?_)
          · simp [tok, frameTok]
          · rcases hw with hw | ⟨qs, hq, hw⟩
            · exact .inl hw
            · refine .inr ⟨qs, hq, ?_⟩
              simp only [List.mem_cons, reduceCtorEq, false_or] at hw
              rcases hw with h4 | h4
              · exact .inl (List.mem_cons_of_mem _ h4)
              · exact .inr (List.mem_cons_of_mem _ h4)
          · simp only [List.head?_cons, Option.some.injEq, Frame.inner.injEq, true_and] at hx
            subst hx
            rcases hm' with h1 | h1
            · exact .inl h1
            · exact .inr (.inl h1)
        · exact (h.loads k K hk).frame (g := [.loop l m []]) (MLe.refl _) rfl (fun _ _ h => h)
            (hfor k hkl) (by simp [Foreign, Ne.symm hkl])
      · intro k hk
        simp only [topLoad, Option.some.injEq] at hk
        subst hk
        exact ⟨L, hL, hload⟩
      · intro x hx
        rcases List.mem_cons.1 hx with rfl | hx
        · exact h.frames (.inner l m) (List.mem_cons_self ..)
        · exact h.frames x (List.mem_cons_of_mem _ hx)

/-- Moving from the head of the loop past a request, for whatever is put on the stack in between. -/
theorem loop_waiting {out : List Token} {l m v : Nat} {q q' : Request} {qs : List Request} {st : List Frame}
    (hw : Waiting out (.loop l m (q :: qs) :: st) l v q') :
    Waiting out (.after l m qs :: st) l v q' ∨ (v = m ∧ q' = q) := by
  rcases hw with hw | ⟨rs, hq, hw⟩
  · exact .inl (.inl hw)
  · rcases hw with hw | hw
    · rcases List.mem_cons.1 hw with hw | hw
      · simp only [Frame.loop.injEq, true_and] at hw
        obtain ⟨rfl, rfl⟩ := hw
        rcases List.mem_cons.1 hq with rfl | hq
        · exact .inr ⟨rfl, rfl⟩
        · exact .inl (.inr ⟨qs, hq, .inr (List.mem_cons_self ..)⟩)
      · exact .inl (.inr ⟨rs, hq, .inl (List.mem_cons_of_mem _ hw)⟩)
    · simp only [List.mem_cons, reduceCtorEq, false_or] at hw
      exact .inl (.inr ⟨rs, hq, .inr (List.mem_cons_of_mem _ hw)⟩)

theorem waiting_push {out out' : List Token} {st : List Frame} {l v : Nat} {q : Request} (f : Frame)
    (ho : ∀ t ∈ out, t ∈ out') (hw : Waiting out st l v q) : Waiting out' (f :: st) l v q := by
  rcases hw with hw | ⟨qs, hq, hw⟩
  · exact .inl (ho _ hw)
  · refine .inr ⟨qs, hq, ?_⟩
    rcases hw with hw | hw
    · exact .inl (List.mem_cons_of_mem _ hw)
    · exact .inr (List.mem_cons_of_mem _ hw)

theorem request_inv {w : World} {l m : Nat} {q : Request} {qs : List Request} {st : List Frame}
    (h : Inv ⟨w, .loop l m (q :: qs) :: st⟩) : Inv (request w l m q (.after l m qs :: st)) := by
  obtain ⟨L, hL, hload⟩ := h.top l rfl
  have hrest : ∀ x ∈ st, Resting x := h.tail
  have hrest' : ∀ x ∈ Frame.after l m qs :: st, Resting x := by
    intro x hx
    rcases List.mem_cons.1 hx with rfl | hx
    · trivial
    · exact hrest x hx
  have hok := h.loads l L hL
  have hfor : ∀ k, k ≠ l → Foreign k (Frame.loop l m (q :: qs)) := fun k hk => Ne.symm hk
  have hcount := hok.count hload
  simp only [tok, List.map_cons, List.sum_cons, frameTok, if_pos, List.length_cons] at hcount
  have hframes : ∀ x ∈ Frame.after l m qs :: st, FrameIn w.loads.length x := by
    intro x hx
    rcases List.mem_cons.1 hx with rfl | hx
    · exact h.frames (.loop l m (q :: qs)) (List.mem_cons_self ..)
    · exact h.frames x (List.mem_cons_of_mem _ hx)
  unfold request
  by_cases hs : allSupported w.supported q = false
  · rw [if_pos hs]
    unfold continueLoading
    rw [if_pos ((isLoading_iff w l).2 ⟨L, hL, hload⟩)]
    simp only
    rw [fail_eq hL (hok.outcome_none hload)]
    refine ⟨?_, h.linked, fun x hx => hrest x hx, ?_, ?_, ?_⟩
    · intro k K hk
      simp only at hk
      rcases getElem?_set_cases hk with ⟨rfl, rfl, _⟩ | ⟨hne, hk⟩
      · exact .stopped rfl rfl (by intro h; cases h)
      · exact (h.loads k K hk).frame (g := [.after l m qs]) (MLe.refl _) rfl (fun _ _ h => h)
          (hfor k (Ne.symm hne)) (by simp [Foreign, hne])
    · intro k hk
      rw [resting_head hrest'] at hk
      cases hk
    · intro x hx
      simp only [List.length_set]
      exact hframes x hx
    · intro t ht
      simp only [List.length_set]
      exact h.tokens t ht
  · rw [if_neg hs]
    cases hi : imported w.mods m q with
    | some x =>
      simp only
      refine ⟨?_, h.linked, hrest', ?_, ?_, h.tokens⟩
      · intro k K hk
        by_cases hkl : k = l
        · subst hkl
          rw [hL] at hk
          cases hk
          refine hok.mono (MLe.refl _) (fun _ => ?_) (fun _ v q' hw => ?_) (fun _ y hy => ?_)
          · simp only [tok, List.map_cons, List.sum_cons, frameTok, if_pos, List.length_cons]
            omega
          · rcases loop_waiting hw with hw | ⟨rfl, rfl⟩
            · exact .inl (waiting_push _ (fun _ h => h) hw)
            · refine .inr ⟨x, fun r hr => ?_, .inr (.inr rfl)⟩
              unfold imported at hi
              rw [hr] at hi
              exact hi
          · simp at hy
        · exact (h.loads k K hk).frame (g := [.inner l x, .after l m qs]) (MLe.refl _) rfl (fun _ _ h => h)
            (hfor k hkl) (by simp [Foreign, Ne.symm hkl])
      · intro k hk
        simp only [topLoad, Option.some.injEq] at hk
        subst hk
        exact ⟨L, hL, hload⟩
      · intro y hy
        rcases List.mem_cons.1 hy with rfl | hy
        · exact (List.getElem?_eq_some_iff.1 hL).1
        · exact hframes y hy
    | none =>
      simp only
      refine ⟨?_, h.linked, hrest', ?_, ?_, ?_⟩
      · intro k K hk
        by_cases hkl : k = l
        · subst hkl
          simp only [hL] at hk
          cases hk
          refine hok.mono (MLe.refl _) (fun _ => ?_) (fun _ v q' hw => .inl ?_) (fun _ y hy => ?_)
          · simp only [tok, List.map_cons, List.sum_cons, frameTok, if_pos, List.length_cons,
              List.countP_append, List.countP_singleton, beq_self_eq_true]
            omega
          · rcases loop_waiting hw with hw | ⟨rfl, rfl⟩
            · exact waiting_push _ (fun t ht => List.mem_append_left _ ht) hw
            · exact .inl (by simp)
          · simp at hy
        · refine (h.loads k K hk).frame (g := [.host (w.script.headD []), .after l m qs]) (MLe.refl _) ?_
            (fun _ _ h => List.mem_append_left _ h) (hfor k hkl) (by simp [Foreign, Ne.symm hkl])
          simp [List.countP_append, Ne.symm hkl]
      · intro k hk
        cases hk
      · intro y hy
        rcases List.mem_cons.1 hy with rfl | hy
        · trivial
        · exact hframes y hy
      · intro t ht
        simp only [List.mem_append, List.mem_singleton] at ht
        rcases ht with ht | rfl
        · exact h.tokens t ht
        · exact (List.getElem?_eq_some_iff.1 hL).1

theorem finishModule_inv {w : World} {l m : Nat} {st : List Frame} (h : Inv ⟨w, .loop l m [] :: st⟩) :
    Inv ⟨w.finishModule l, st⟩ := by
  obtain ⟨L, hL, hload⟩ := h.top l rfl
  have hrest : ∀ x ∈ st, Resting x := h.tail
  have hok := h.loads l L hL
  have hfor : ∀ k, k ≠ l → Foreign k (Frame.loop l m []) := fun k hk => Ne.symm hk
  have hcount := hok.count hload
  simp only [tok, List.map_cons, List.sum_cons, frameTok, if_pos, List.length_nil] at hcount
  have hwait : ∀ v q, Waiting w.outstanding (.loop l m [] :: st) l v q → Waiting w.outstanding st l v q := by
    rintro v q (hw | ⟨qs, hq, hw⟩)
    · exact .inl hw
    · refine .inr ⟨qs, hq, ?_⟩
      simp only [List.mem_cons, Frame.loop.injEq, true_and, reduceCtorEq, false_or] at hw
      rcases hw with (⟨_, rfl⟩ | hw) | hw
      · cases hq
      · exact .inl hw
      · exact .inr hw
  by_cases hp : L.pending - 1 = 0
  · rw [finishModule_last hL (hok.outcome_none hload) hp]
    -- nothing is pending any more
    have hzero : tok w.outstanding st l = 0 := by unfold tok; omega
    have hnone : ∀ v q, ¬ Waiting w.outstanding st l v q := by
      rintro v q (hw | ⟨qs, hq, hw⟩)
      · have : 0 < w.outstanding.countP (fun t => t.load == l) := List.countP_pos_iff.2 ⟨_, hw, by simp⟩
        unfold tok at hzero
        omega
      · have key : ∀ f ∈ st, frameTok l f = 0 := by
          intro f hf
          have h0 : (st.map (frameTok l)).sum = 0 := by unfold tok at hzero; omega
          have := le_sum_of_mem (List.mem_map_of_mem (f := frameTok l) hf)
          omega
        rcases hw with hw | hw
        · have := key _ hw; simp [frameTok] at this
        · have := key _ hw; simp [frameTok] at this
    have hvis : ∀ v ∈ L.visited, ∃ r : Mod, w.mods[v]? = some r ∧ ∀ q ∈ r.requests,
        ∃ k, r.imported q = some k ∧ (Linked w.mods k ∨ k ∈ L.visited) := by
      intro v hv
      obtain ⟨r, h1, h2⟩ := hok.visited hload v hv
      refine ⟨r, h1, fun q hq => ?_⟩
      rcases h2 q hq with h3 | ⟨k, h3, h4⟩
      · exact absurd (hwait v q h3) (hnone v q)
      · refine ⟨k, h3, ?_⟩
        rcases h4 with h4 | h4 | h4
        · exact .inl h4
        · exact .inr h4
        · simp at h4
    have hlink : ∀ k, (Linked w.mods k ∨ k ∈ L.visited) → Linked (markLinked L.visited w.mods) k := by
      rintro k (hk | hk)
      · exact hk.mono (mle_markLinked _ _)
      · obtain ⟨r, h1, _⟩ := hvis k hk
        exact linked_markLinked h1 hk
    have hroot : Linked (markLinked L.visited w.mods) L.root := by
      apply hlink
      rcases hok.root hload with h4 | h4 | h4
      · exact .inl h4
      · exact .inr h4
      · simp at h4
    refine ⟨?_, ?_, fun x hx => hrest x (List.mem_of_mem_tail hx), ?_, ?_, ?_⟩
    · intro k K hk
      simp only at hk
      rcases getElem?_set_cases hk with ⟨rfl, rfl, _⟩ | ⟨hne, hk⟩
      · exact .stopped rfl rfl (fun _ => hroot)
      · exact (h.loads k K hk).frame (g := []) (mle_markLinked _ _) rfl (fun _ _ h => h)
          (hfor k (Ne.symm hne)) (by simp)
    · intro v r hv hr q hq
      simp only [getElem?_markLinked] at hv
      cases hx : w.mods[v]? with
      | none => rw [hx] at hv; cases hv
      | some x =>
        rw [hx] at hv
        simp only [Option.map_some, Option.some.injEq] at hv
        by_cases hc : v ∈ L.visited ∧ x.linked = false
        · rw [if_pos hc] at hv
          subst hv
          obtain ⟨x', h1, h2⟩ := hvis v hc.1
          rw [hx] at h1
          cases h1
          obtain ⟨k, h3, h4⟩ := h2 q hq
          exact ⟨k, h3, hlink k h4⟩
        · rw [if_neg hc] at hv
          subst hv
          obtain ⟨k, h3, h4⟩ := h.linked v x hx hr q hq
          exact ⟨k, h3, hlink k (.inl h4)⟩
    · intro k hk
      rw [resting_head hrest] at hk
      cases hk
    · intro x hx
      simp only [List.length_set]
      exact h.frames x (List.mem_cons_of_mem _ hx)
    · intro t ht
      simp only [List.length_set]
      exact h.tokens t ht
  · simp only [World.finishModule, hL, if_pos (c := L.pending - 1 ≠ 0) hp]
    refine ⟨?_, h.linked, fun x hx => hrest x (List.mem_of_mem_tail hx), ?_, ?_, ?_⟩
    · intro k K hk
      simp only at hk
      rcases getElem?_set_cases hk with ⟨rfl, rfl, _⟩ | ⟨hne, hk⟩
      · have hreach : ∀ x, Reached w.mods (.loop l m [] :: st) l L.visited x → Reached w.mods st l L.visited x := by
          rintro x (h1 | h1 | h1)
          · exact .inl h1
          · exact .inr (.inl h1)
          · simp at h1
        refine ⟨hok.settled, fun _ => by simp only; omega, fun _ => ?_, fun _ v hv => ?_, fun _ => hreach _ (hok.root hload), hok.done⟩
        · simp only [tok]
          omega
        · obtain ⟨r, h1, h2⟩ := hok.visited hload v hv
          refine ⟨r, h1, fun q hq => ?_⟩
          rcases h2 q hq with h3 | ⟨y, h3, h4⟩
          · exact .inl (hwait v q h3)
          · exact .inr ⟨y, h3, hreach y h4⟩
      · exact (h.loads k K hk).frame (g := []) (MLe.refl _) rfl (fun _ _ h => h)
          (hfor k (Ne.symm hne)) (by simp)
    · intro k hk
      rw [resting_head hrest] at hk
      cases hk
    · intro x hx
      simp only [List.length_set]
      exact h.frames x (List.mem_cons_of_mem _ hx)
    · intro t ht
      simp only [List.length_set]
      exact h.tokens t ht

theorem after_inv {w : World} {l m : Nat} {qs : List Request} {st : List Frame}
    (h : Inv ⟨w, .after l m qs :: st⟩) :
    Inv (if w.isLoading l then ⟨w, .loop l m qs :: st⟩ else ⟨w, st⟩) := by
  have hrest : ∀ x ∈ st, Resting x := h.tail
  have hfor : ∀ k, k ≠ l → Foreign k (Frame.after l m qs) := fun k hk => Ne.symm hk
  by_cases hc : w.isLoading l = true
  · rw [if_pos hc]
    obtain ⟨L, hL, hload⟩ := (isLoading_iff w l).1 hc
    refine ⟨?_, h.linked, hrest, ?_, ?_, h.tokens⟩
    · intro k K hk
      by_cases hkl : k = l
      · subst hkl
        refine (h.loads k K hk).mono (MLe.refl _) (fun _ => ?_) (fun _ v q' hw => .inl ?_) (fun _ y hy => ?_)
        · simp [tok, frameTok]
        · rcases hw with hw | ⟨rs, hq, hw⟩
          · exact .inl hw
          · refine .inr ⟨rs, hq, ?_⟩
            simp only [List.mem_cons, Frame.after.injEq, true_and, reduceCtorEq, false_or] at hw
            rcases hw with hw | ⟨rfl, rfl⟩ | hw
            · exact .inl (List.mem_cons_of_mem _ hw)
            · exact .inl (List.mem_cons_self ..)
            · exact .inr (List.mem_cons_of_mem _ hw)
        · simp at hy
      · exact (h.loads k K hk).frame (g := [.loop l m qs]) (MLe.refl _) rfl (fun _ _ h => h)
          (hfor k hkl) (by simp [Foreign, Ne.symm hkl])
    · intro k hk
      simp only [topLoad, Option.some.injEq] at hk
      subst hk
      exact ⟨L, hL, hload⟩
    · intro x hx
      rcases List.mem_cons.1 hx with rfl | hx
      · exact h.frames (.after l m qs) (List.mem_cons_self ..)
      · exact h.frames x (List.mem_cons_of_mem _ hx)
  · rw [if_neg hc]
    refine ⟨?_, h.linked, fun x hx => hrest x (List.mem_of_mem_tail hx), ?_,
      fun x hx => h.frames x (List.mem_cons_of_mem _ hx), h.tokens⟩
    · intro k K hk
      by_cases hkl : k = l
      · subst hkl
        refine (h.loads k K hk).stay (MLe.refl _) ?_
        rw [← Bool.not_eq_true]
        intro hK
        exact hc ((isLoading_iff w k).2 ⟨K, hk, hK⟩)
      · exact (h.loads k K hk).frame (g := []) (MLe.refl _) rfl (fun _ _ h => h) (hfor k hkl) (by simp)
    · intro k hk
      rw [resting_head hrest] at hk
      cases hk

/-- The unanswered call at index `i` has been removed and the load fails. -/
theorem finish_fail_inv {w : World} {a : Action} {as : List Action} {st : List Frame} {i : Nat} {t : Token}
    {log : List Event} (e : Error) (h : Inv ⟨w, .host (a :: as) :: st⟩) (ht : w.outstanding[i]? = some t) :
    Inv (continueLoading { w with outstanding := w.outstanding.eraseIdx i, log := log } t.load (.error e)
      (.host as :: st)) := by
  have hrest : ∀ x ∈ st, Resting x := h.tail
  have hrest' : ∀ x ∈ Frame.host as :: st, Resting x := by
    intro x hx
    rcases List.mem_cons.1 hx with rfl | hx
    · trivial
    · exact hrest x hx
  have hother : ∀ k K, k ≠ t.load → w.loads[k]? = some K →
      LoadOK w.mods (w.outstanding.eraseIdx i) (.host as :: st) k K := by
    intro k K hne hk
    refine (h.loads k K hk).frame (g := [.host as]) (MLe.refl _) ?_ ?_ trivial (by simp [Foreign])
    · rw [countP_eraseIdx _ _ i t ht]
      simp [Ne.symm hne]
    · intro u hu hmem
      rcases mem_eraseIdx_or _ i t u ht hmem with rfl | hmem
      · exact absurd hu.symm hne
      · exact hmem
  have htok : ∀ u ∈ w.outstanding.eraseIdx i, u.load < w.loads.length :=
    fun u hu => h.tokens u (List.mem_of_mem_eraseIdx hu)
  have hfr : ∀ x ∈ Frame.host as :: st, FrameIn w.loads.length x := by
    intro x hx
    rcases List.mem_cons.1 hx with rfl | hx
    · trivial
    · exact h.frames x (List.mem_cons_of_mem _ hx)
  unfold continueLoading
  by_cases hc : World.isLoading { w with outstanding := w.outstanding.eraseIdx i, log := log } t.load = true
  · rw [if_pos hc]
    obtain ⟨L, hL, hload⟩ := (isLoading_iff _ _).1 hc
    simp only at hL
    simp only
    rw [fail_eq (w := { w with outstanding := w.outstanding.eraseIdx i, log := log }) hL
      ((h.loads _ L hL).outcome_none hload)]
    refine ⟨?_, h.linked, hrest, ?_, ?_, ?_⟩
    · intro k K hk
      simp only at hk
      rcases getElem?_set_cases hk with ⟨rfl, rfl, _⟩ | ⟨hne, hk⟩
      · exact .stopped rfl rfl (by intro h; cases h)
      · exact hother k K (Ne.symm hne) hk
    · intro k hk
      cases hk
    · intro x hx
      simp only [List.length_set]
      exact hfr x hx
    · intro u hu
      simp only [List.length_set]
      exact htok u hu
  · rw [if_neg hc]
    refine ⟨?_, h.linked, hrest, fun k hk => (by cases hk), hfr, htok⟩
    intro k K hk
    by_cases hkl : k = t.load
    · subst hkl
      refine (h.loads _ K hk).stay (MLe.refl _) ?_
      rw [← Bool.not_eq_true]
      intro hK
      exact hc ((isLoading_iff _ _).2 ⟨K, hk, hK⟩)
    · exact hother k K hkl hk

theorem finish_ok_inv {w : World} {a : Action} {as : List Action} {st : List Frame} {i : Nat} {t : Token}
    {log : List Event} {mods' : List Mod} {m : Nat} (h : Inv ⟨w, .host (a :: as) :: st⟩)
    (ht : w.outstanding[i]? = some t) (hm : recordLoaded w.mods t m = some mods') :
    Inv (continueLoading { w with outstanding := w.outstanding.eraseIdx i, log := log, mods := mods' } t.load
      (.ok m) (.host as :: st)) := by
  obtain ⟨hle, hsame, himp⟩ := recordLoaded_spec hm
  have hrest : ∀ x ∈ st, Resting x := h.tail
  have hrest' : ∀ x ∈ Frame.host as :: st, Resting x := by
    intro x hx
    rcases List.mem_cons.1 hx with rfl | hx
    · trivial
    · exact hrest x hx
  have hother : ∀ (g : List Frame) k K, k ≠ t.load → w.loads[k]? = some K → (∀ x ∈ g, Foreign k x) →
      LoadOK mods' (w.outstanding.eraseIdx i) (g ++ st) k K := by
    intro g k K hne hk hg
    refine (h.loads k K hk).frame (g := g) hle ?_ ?_ trivial hg
    · rw [countP_eraseIdx _ _ i t ht]
      simp [Ne.symm hne]
    · intro u hu hmem
      rcases mem_eraseIdx_or _ i t u ht hmem with rfl | hmem
      · exact absurd hu.symm hne
      · exact hmem
  have htok : ∀ u ∈ w.outstanding.eraseIdx i, u.load < w.loads.length :=
    fun u hu => h.tokens u (List.mem_of_mem_eraseIdx hu)
  have hfr : ∀ x ∈ Frame.host as :: st, FrameIn w.loads.length x := by
    intro x hx
    rcases List.mem_cons.1 hx with rfl | hx
    · trivial
    · exact h.frames x (List.mem_cons_of_mem _ hx)
  have hlinked : LinkedOK mods' := linkedOK_of h.linked hle hsame
  unfold continueLoading
  by_cases hc : World.isLoading
      { w with outstanding := w.outstanding.eraseIdx i, log := log, mods := mods' } t.load = true
  · rw [if_pos hc]
    obtain ⟨L, hL, hload⟩ := (isLoading_iff _ _).1 hc
    simp only at hL
    refine ⟨?_, hlinked, hrest', ?_, ?_, htok⟩
    · intro k K hk
      simp only at hk
      by_cases hkl : k = t.load
      · subst hkl
        rw [hL] at hk
        cases hk
        refine (h.loads _ L hL).mono hle (fun _ => ?_) (fun _ v q hw => ?_) (fun _ y hy => ?_)
        · simp only [tok, List.map_cons, List.sum_cons, frameTok, if_pos]
          rw [countP_eraseIdx _ _ i t ht]
          simp only [beq_self_eq_true, if_pos]
          omega
        · rcases hw with hw | ⟨rs, hq, hw⟩
          · rcases mem_eraseIdx_or _ i t _ ht hw with he | hw
            · refine .inr ⟨m, fun r hv => ?_, .inr (.inr rfl)⟩
              have := himp r (by rw [← he]; exact hv)
              rw [← he] at this
              exact this
            · exact .inl (.inl hw)
          · refine .inl (.inr ⟨rs, hq, ?_⟩)
            simp only [List.mem_cons, reduceCtorEq, false_or] at hw
            simp only [List.mem_cons, reduceCtorEq, false_or]
            exact hw
        · simp at hy
      · exact hother [.inner t.load m, .host as] k K hkl hk (by simp [Foreign, Ne.symm hkl])
    · intro k hk
      simp only [topLoad, Option.some.injEq] at hk
      subst hk
      exact ⟨L, hL, hload⟩
    · intro x hx
      rcases List.mem_cons.1 hx with rfl | hx
      · exact (List.getElem?_eq_some_iff.1 hL).1
      · exact hfr x hx
  · rw [if_neg hc]
    refine ⟨?_, hlinked, hrest, fun k hk => (by cases hk), hfr, htok⟩
    intro k K hk
    by_cases hkl : k = t.load
    · subst hkl
      refine (h.loads _ K hk).stay hle ?_
      rw [← Bool.not_eq_true]
      intro hK
      exact hc ((isLoading_iff _ _).2 ⟨K, hk, hK⟩)
    · exact hother [.host as] k K hkl hk (by simp [Foreign])

theorem act_inv {w : World} {a : Action} {as : List Action} {st : List Frame}
    (h : Inv ⟨w, .host (a :: as) :: st⟩) : Inv (act w a (.host as :: st)) := by
  have hrest : ∀ x ∈ st, Resting x := h.tail
  have hrest' : ∀ x ∈ Frame.host as :: st, Resting x := by
    intro x hx
    rcases List.mem_cons.1 hx with rfl | hx
    · trivial
    · exact hrest x hx
  have hfr : ∀ x ∈ Frame.host as :: st, FrameIn w.loads.length x := by
    intro x hx
    rcases List.mem_cons.1 hx with rfl | hx
    · trivial
    · exact h.frames x (List.mem_cons_of_mem _ hx)
  cases a with
  | addModule qs =>
    refine ⟨?_, linkedOK_append h.linked, hrest, fun k hk => (by cases hk), hfr, h.tokens⟩
    intro k K hk
    exact (h.loads k K hk).frame (g := [.host as]) (mle_append _ _) rfl (fun _ _ h => h) trivial
      (by simp [Foreign])
  | start root =>
    refine ⟨?_, h.linked, hrest', ?_, ?_, ?_⟩
    · intro k K hk
      simp only [act] at hk
      rcases Nat.lt_trichotomy k w.loads.length with hlt | heq | hgt
      · rw [List.getElem?_append_left hlt] at hk
        exact (h.loads k K hk).frame (g := [.inner w.loads.length root, .host as]) (MLe.refl _) rfl
          (fun _ _ h => h) trivial (by simp [Foreign, Nat.ne_of_gt hlt])
      · subst heq
        simp only [List.getElem?_append_right (Nat.le_refl _), Nat.sub_self, List.getElem?_cons_zero,
          Option.some.injEq] at hk
        subst hk
        have h1 : w.outstanding.countP (fun t => t.load == w.loads.length) = 0 := by
          rw [List.countP_eq_zero]
          intro t ht
          have := h.tokens t ht
          simp only [beq_iff_eq]
          simp only at this
          omega
        have h2 : (st.map (frameTok w.loads.length)).sum = 0 := by
          apply sum_foreign
          intro x hx
          have := h.frames x (List.mem_cons_of_mem _ hx)
          cases x <;> simp_all [Foreign, FrameIn] <;> omega
        refine ⟨rfl, fun _ => Nat.one_pos, fun _ => ?_, fun _ v hv => (by cases hv), fun _ => .inr (.inr rfl), fun h => (by cases h)⟩
        simp only [act, tok, List.map_cons, List.sum_cons, frameTok, if_pos, h1, h2]
      · rw [List.getElem?_append_right (Nat.le_of_lt hgt)] at hk
        obtain ⟨n, hn⟩ : ∃ n, k - w.loads.length = n + 1 := ⟨k - w.loads.length - 1, by omega⟩
        rw [hn] at hk
        simp at hk
    · intro k hk
      simp only [act, topLoad, Option.some.injEq] at hk
      subst hk
      exact ⟨_, by simp only [act, List.getElem?_append_right (Nat.le_refl _), Nat.sub_self]; rfl, rfl⟩
    · intro x hx
      simp only [act, List.length_append, List.length_singleton]
      rcases List.mem_cons.1 hx with rfl | hx
      · simp [FrameIn]
      · exact frameIn_mono (by omega) (hfr x hx)
    · intro t ht
      simp only [act, List.length_append, List.length_singleton]
      have := h.tokens t ht
      simp only at this
      omega
  | finish i result =>
    simp only [act]
    cases ht : w.outstanding[i]? with
    | none =>
      refine ⟨?_, h.linked, hrest, fun k hk => (by cases hk), hfr, h.tokens⟩
      intro k K hk
      exact (h.loads k K hk).frame (g := [.host as]) (MLe.refl _) rfl (fun _ _ h => h) trivial
        (by simp [Foreign])
    | some t =>
      simp only [finishImported]
      cases result with
      | error e => exact finish_fail_inv _ h ht
      | ok m =>
        simp only
        cases hm : recordLoaded w.mods t m with
        | none => exact finish_fail_inv _ h ht
        | some mods' => exact finish_ok_inv h ht hm

theorem step_inv {c : Config} (h : Inv c) : Inv (step c) := by
  obtain ⟨w, st⟩ := c
  cases st with
  | nil => exact h
  | cons f st =>
    cases f with
    | inner l m => exact enter_inv h
    | loop l m qs =>
      cases qs with
      | nil => exact finishModule_inv h
      | cons q qs => exact request_inv h
    | after l m qs => exact after_inv h
    | host as =>
      cases as with
      | nil =>
        have hrest : ∀ x ∈ st, Resting x := h.tail
        refine ⟨?_, h.linked, fun x hx => hrest x (List.mem_of_mem_tail hx), ?_,
          fun x hx => h.frames x (List.mem_cons_of_mem _ hx), h.tokens⟩
        · intro k K hk
          exact (h.loads k K hk).frame (g := []) (MLe.refl _) rfl (fun _ _ h => h) trivial (by simp)
        · intro k hk
          have e : topLoad st = none := resting_head hrest
          simp only [step] at hk
          rw [e] at hk
          cases hk
      | cons a as => exact act_inv h

theorem inv_initial (supported : List Str) (script : List (List Action)) (as : List Action) :
    Inv (initial supported script as) := by
  refine ⟨?_, ?_, ?_, ?_, ?_, ?_⟩
  · intro l L h; simp [initial] at h
  · intro v r h; simp [initial] at h
  · intro f hf; simp [initial] at hf
  · intro l hl; simp [initial, topLoad] at hl
  · intro f hf
    simp only [initial, List.mem_singleton] at hf
    subst hf
    trivial
  · intro t ht; simp [initial] at ht

theorem run_inv {c : Config} (h : Inv c) (n : Nat) : Inv (run n c) := by
  induction n generalizing c with
  | zero => exact h
  | succ n ih => exact ih (step_inv h)

theorem occurs_inv {supported : List Str} {script : List (List Action)} {as : List Action} {c : Config}
    (h : Occurs supported script as c) : Inv c := by
  obtain ⟨n, rfl⟩ := h
  exact run_inv (inv_initial ..) n

end Verif.Loader
