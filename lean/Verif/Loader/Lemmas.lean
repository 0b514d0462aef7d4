import Verif.Loader.Spec
import Verif.Modules.Lemmas
/-!
# Loading a module graph: lemmas
-/

namespace Verif.Loader

open Verif.Modules (Str Request requestsEqual requestsEqual_refl)

/-! ## Modules only grow -/

/-- Modules keep their requests, their status and what has been loaded for them. -/
def MLe (a b : List Mod) : Prop :=
  ∀ (v : Nat) (r : Mod), a[v]? = some r → ∃ r' : Mod, b[v]? = some r' ∧ r'.requests = r.requests ∧
    (r.linked = true → r'.linked = true) ∧ ∀ q k, r.imported q = some k → r'.imported q = some k

theorem MLe.refl (a : List Mod) : MLe a a := fun _ r h => ⟨r, h, rfl, id, fun _ _ h => h⟩

theorem MLe.trans {a b c : List Mod} (h1 : MLe a b) (h2 : MLe b c) : MLe a c := by
  intro v r h
  obtain ⟨r1, e1, e2, e3, e4⟩ := h1 v r h
  obtain ⟨r2, f1, f2, f3, f4⟩ := h2 v r1 e1
  exact ⟨r2, f1, f2.trans e2, fun x => f3 (e3 x), fun q k x => f4 q k (e4 q k x)⟩

/-- The module exists and has status `Unlinked`. -/
def Linked (mods : List Mod) (m : Nat) : Prop := ∃ r : Mod, mods[m]? = some r ∧ r.linked = true

theorem Linked.mono {a b : List Mod} (h : MLe a b) {m : Nat} : Linked a m → Linked b m := by
  rintro ⟨r, h1, h2⟩
  obtain ⟨r', e1, _, e3, _⟩ := h m r h1
  exact ⟨r', e1, e3 h2⟩

/-- Every linked module's requests lead to linked modules. -/
def LinkedOK (mods : List Mod) : Prop :=
  ∀ (v : Nat) (r : Mod), mods[v]? = some r → r.linked = true → ∀ q ∈ r.requests, ∃ k, r.imported q = some k ∧ Linked mods k

theorem mle_append (a : List Mod) (m : Mod) : MLe a (a ++ [m]) := by
  intro v r h
  refine ⟨r, ?_, rfl, id, fun _ _ h => h⟩
  rw [List.getElem?_append_left (List.getElem?_eq_some_iff.1 h).1]
  exact h

theorem linkedOK_append {a : List Mod} {qs : List Request} (h : LinkedOK a) :
    LinkedOK (a ++ [{ requests := qs }]) := by
  intro v r hv hr q hq
  rcases Nat.lt_or_ge v a.length with hlt | hge
  · rw [List.getElem?_append_left hlt] at hv
    obtain ⟨k, h1, h2⟩ := h v r hv hr q hq
    exact ⟨k, h1, h2.mono (mle_append _ _)⟩
  · rw [List.getElem?_append_right hge] at hv
    cases hd : v - a.length with
    | zero =>
      rw [hd] at hv
      simp only [List.getElem?_cons_zero, Option.some.injEq] at hv
      subst hv
      simp at hr
    | succ n => rw [hd] at hv; simp at hv

theorem imported_append {r : Mod} {e : Request × Nat} {q : Request} {k : Nat}
    (h : r.imported q = some k) : Mod.imported { r with loaded := r.loaded ++ [e] } q = some k := by
  unfold Mod.imported at *
  simp only [List.find?_append]
  cases hf : r.loaded.find? (fun l => requestsEqual l.1 q) with
  | none => rw [hf] at h; cases h
  | some x => rw [hf] at h; simpa using h

theorem getElem?_set_cases {α : Type} {l : List α} {i j : Nat} {x y : α} (h : (l.set i x)[j]? = some y) :
    (i = j ∧ y = x ∧ i < l.length) ∨ (i ≠ j ∧ l[j]? = some y) := by
  rw [List.getElem?_set] at h
  by_cases hij : i = j
  · subst hij
    rw [if_pos rfl] at h
    split at h
    · cases h; exact .inl ⟨rfl, rfl, by assumption⟩
    · cases h
  · rw [if_neg hij] at h
    exact .inr ⟨hij, h⟩

/-- Recording a loaded module only grows the graph, keeps the linked part, and the request then leads to the
module. -/
theorem recordLoaded_spec {mods mods' : List Mod} {t : Token} {m : Nat}
    (h : recordLoaded mods t m = some mods') :
    MLe mods mods' ∧ (∀ (v : Nat) (r' : Mod), mods'[v]? = some r' → ∃ r : Mod, mods[v]? = some r ∧ r.linked = r'.linked) ∧
      ∀ r : Mod, mods'[t.referrer]? = some r → r.imported t.request = some m := by
  unfold recordLoaded at h
  cases hr : mods[t.referrer]? with
  | none =>
    rw [hr] at h
    cases h
    exact ⟨MLe.refl _, fun v r h => ⟨r, h, rfl⟩, fun r h => by rw [hr] at h; cases h⟩
  | some r =>
    rw [hr] at h
    simp only at h
    cases hf : r.loaded.find? (fun l => requestsEqual l.1 t.request) with
    | some e =>
      rw [hf] at h
      simp only at h
      by_cases he : e.2 ≠ m
      · rw [if_pos he] at h; cases h
      · rw [if_neg he] at h
        cases h
        refine ⟨MLe.refl _, fun v r h => ⟨r, h, rfl⟩, fun r' h => ?_⟩
        rw [hr] at h
        cases h
        unfold Mod.imported
        rw [hf]
        simp only [Option.map_some, Option.some.injEq]
        exact Classical.not_not.1 he
    | none =>
      rw [hf] at h
      cases h
      have hlt := (List.getElem?_eq_some_iff.1 hr).1
      refine ⟨?_, ?_, ?_⟩
      · intro v x hx
        by_cases hv : t.referrer = v
        · subst hv
          rw [hr] at hx
          cases hx
          exact ⟨_, List.getElem?_set_self hlt, rfl, id, fun q k h => imported_append h⟩
        · exact ⟨x, by rw [List.getElem?_set_ne hv]; exact hx, rfl, id, fun _ _ h => h⟩
      · intro v x hx
        rcases getElem?_set_cases hx with ⟨rfl, rfl, _⟩ | ⟨_, hx⟩
        · exact ⟨r, hr, rfl⟩
        · exact ⟨x, hx, rfl⟩
      · intro x hx
        rw [List.getElem?_set_self hlt] at hx
        cases hx
        unfold Mod.imported
        simp only [List.find?_append, hf, Option.none_or, List.find?_cons, requestsEqual_refl,
          Option.map_some]

theorem linkedOK_of {a b : List Mod} (h : LinkedOK a) (hm : MLe a b)
    (hb : ∀ (v : Nat) (r' : Mod), b[v]? = some r' → ∃ r : Mod, a[v]? = some r ∧ r.linked = r'.linked) : LinkedOK b := by
  intro v r' hv hl q hq
  obtain ⟨r, h1, h2⟩ := hb v r' hv
  obtain ⟨r2, e1, e2, _, e4⟩ := hm v r h1
  rw [hv] at e1
  cases e1
  obtain ⟨k, k1, k2⟩ := h v r h1 (h2.trans hl) q (e2 ▸ hq)
  exact ⟨k, e4 q k k1, k2.mono hm⟩

theorem getElem?_markLinked (visited : List Nat) (mods : List Mod) (v : Nat) :
    (markLinked visited mods)[v]? =
      (mods[v]?).map (fun (m : Mod) => if v ∈ visited ∧ m.linked = false then { m with linked := true } else m) := by
  unfold markLinked
  rw [List.getElem?_mapIdx]

theorem mle_markLinked (visited : List Nat) (mods : List Mod) : MLe mods (markLinked visited mods) := by
  intro v r h
  refine ⟨_, by rw [getElem?_markLinked, h]; rfl, ?_, ?_, ?_⟩
  · dsimp only
    split <;> rfl
  · intro hl
    dsimp only
    split
    · rfl
    · exact hl
  · intro q k hq
    dsimp only
    split
    · exact hq
    · exact hq

theorem linked_markLinked {visited : List Nat} {mods : List Mod} {v : Nat} {r : Mod}
    (h : mods[v]? = some r) (hv : v ∈ visited) : Linked (markLinked visited mods) v := by
  refine ⟨_, by rw [getElem?_markLinked, h]; rfl, ?_⟩
  dsimp only
  by_cases hl : r.linked = false
  · rw [if_pos ⟨hv, hl⟩]
  · rw [if_neg (fun h => hl h.2)]
    simpa using hl

/-! ## The invariant -/

/-- The part of `pendingModulesCount` of load `l` that a frame accounts for. -/
def frameTok (l : Nat) : Frame → Nat
  | .inner k _ => if k = l then 1 else 0
  | .loop k _ qs => if k = l then qs.length + 1 else 0
  | .after k _ qs => if k = l then qs.length + 1 else 0
  | .host _ => 0

/-- All that is pending for load `l`: unanswered calls and frames. -/
def tok (out : List Token) (st : List Frame) (l : Nat) : Nat :=
  out.countP (fun t => t.load == l) + (st.map (frameTok l)).sum

/-- The request `q` of `v` has not been dealt with yet: it was given to the host, or it is still to come in
a loop. -/
def Waiting (out : List Token) (st : List Frame) (l v : Nat) (q : Request) : Prop :=
  { load := l, referrer := v, request := q } ∈ out ∨
    ∃ qs, q ∈ qs ∧ (Frame.loop l v qs ∈ st ∨ Frame.after l v qs ∈ st)

/-- Module `w` needs no more attention of load `l`, or gets it right now. -/
def Reached (mods : List Mod) (st : List Frame) (l : Nat) (visited : List Nat) (w : Nat) : Prop :=
  Linked mods w ∨ w ∈ visited ∨ st.head? = some (.inner l w)

/-- The invariant of one load. -/
structure LoadOK (mods : List Mod) (out : List Token) (st : List Frame) (l : Nat) (L : Load) : Prop where
  settled : L.outcome.isSome = !L.isLoading
  pos : L.isLoading = true → 0 < L.pending
  count : L.isLoading = true → L.pending = tok out st l
  visited : L.isLoading = true → ∀ v ∈ L.visited, ∃ r : Mod, mods[v]? = some r ∧
    ∀ q ∈ r.requests, Waiting out st l v q ∨ ∃ w, r.imported q = some w ∧ Reached mods st l L.visited w
  root : L.isLoading = true → Reached mods st l L.visited L.root
  done : L.outcome = some .fulfilled → Linked mods L.root

theorem LoadOK.mono {mods mods' : List Mod} {out out' : List Token} {st st' : List Frame} {l : Nat} {L : Load}
    (h : LoadOK mods out st l L) (hm : MLe mods mods')
    (ht : L.isLoading = true → tok out' st' l = tok out st l)
    (hw : L.isLoading = true → ∀ v q, Waiting out st l v q → Waiting out' st' l v q ∨
      ∃ w, (∀ r : Mod, mods'[v]? = some r → r.imported q = some w) ∧ Reached mods' st' l L.visited w)
    (hr : L.isLoading = true → ∀ w, st.head? = some (.inner l w) → Reached mods' st' l L.visited w) :
    LoadOK mods' out' st' l L := by
  have hreach : L.isLoading = true → ∀ w, Reached mods st l L.visited w → Reached mods' st' l L.visited w := by
    rintro hl w (h1 | h1 | h1)
    · exact .inl (h1.mono hm)
    · exact .inr (.inl h1)
    · exact hr hl w h1
  refine ⟨h.settled, h.pos, fun hl => (h.count hl).trans (ht hl).symm, fun hl v hv => ?_,
    fun hl => hreach hl _ (h.root hl), fun hd => (h.done hd).mono hm⟩
  obtain ⟨r, h1, h2⟩ := h.visited hl v hv
  obtain ⟨r', e1, e2, _, e4⟩ := hm v r h1
  refine ⟨r', e1, fun q hq => ?_⟩
  rw [e2] at hq
  rcases h2 q hq with h3 | ⟨w, h3, h4⟩
  · rcases hw hl v q h3 with h5 | ⟨w, h5, h6⟩
    · exact .inl h5
    · exact .inr ⟨w, h5 r' e1, h6⟩
  · exact .inr ⟨w, e4 q w h3, hreach hl w h4⟩

/-- The load whose function is on top of the stack and about to run. -/
def topLoad : List Frame → Option Nat
  | .inner l _ :: _ => some l
  | .loop l _ _ :: _ => some l
  | _ => none

/-- A frame that waits for a call to return, or the host. -/
def Resting : Frame → Prop
  | .after _ _ _ => True
  | .host _ => True
  | _ => False

/-- The load of a frame exists. -/
def FrameIn (n : Nat) : Frame → Prop
  | .inner l _ => l < n
  | .loop l _ _ => l < n
  | .after l _ _ => l < n
  | .host _ => True

/-- The invariant. -/
structure Inv (c : Config) : Prop where
  loads : ∀ l L, c.world.loads[l]? = some L → LoadOK c.world.mods c.world.outstanding c.stack l L
  linked : LinkedOK c.world.mods
  tail : ∀ f ∈ c.stack.tail, Resting f
  top : ∀ l, topLoad c.stack = some l → ∃ L, c.world.loads[l]? = some L ∧ L.isLoading = true
  frames : ∀ f ∈ c.stack, FrameIn c.world.loads.length f
  tokens : ∀ t ∈ c.world.outstanding, t.load < c.world.loads.length

theorem isLoading_iff (w : World) (l : Nat) :
    w.isLoading l = true ↔ ∃ L : Load, w.loads[l]? = some L ∧ L.isLoading = true := by
  unfold World.isLoading
  cases h : w.loads[l]? with
  | none => simp
  | some L => simp

theorem resting_head {st : List Frame} (h : ∀ f ∈ st, Resting f) : topLoad st = none := by
  cases st with
  | nil => rfl
  | cons f st =>
    have := h f (List.mem_cons_self ..)
    cases f <;> simp_all [Resting, topLoad]

theorem resting_not_inner {st : List Frame} (h : ∀ f ∈ st, Resting f) {l w : Nat} :
    st.head? ≠ some (.inner l w) := by
  cases st with
  | nil => simp
  | cons f st =>
    have := h f (List.mem_cons_self ..)
    cases f <;> simp_all [Resting]

/-! ## Settling -/

theorem settle_loads {w : World} {l : Nat} {L : Load} (h : w.loads[l]? = some L) (ho : L.outcome = none)
    (o : Outcome) :
    w.settle l o = { w with loads := w.loads.set l { L with outcome := some o }, log := w.log ++ [.settled l o] } := by
  simp only [World.settle, h, ho]

theorem fail_eq {w : World} {l : Nat} {L : Load} (h : w.loads[l]? = some L) (ho : L.outcome = none) (e : Error) :
    w.fail l e =
      { w with
        loads := w.loads.set l { L with isLoading := false, outcome := some (.rejected e) }
        log := w.log ++ [.settled l (.rejected e)] } := by
  have hlt := (List.getElem?_eq_some_iff.1 h).1
  simp only [World.fail, h]
  rw [settle_loads (L := { L with isLoading := false }) (List.getElem?_set_self hlt) ho]
  simp

theorem finishModule_last {w : World} {l : Nat} {L : Load} (h : w.loads[l]? = some L) (ho : L.outcome = none)
    (hp : L.pending - 1 = 0) :
    w.finishModule l =
      { w with
        loads := w.loads.set l
          { L with pending := L.pending - 1, isLoading := false, outcome := some .fulfilled }
        mods := markLinked L.visited w.mods
        log := w.log ++ [.settled l .fulfilled] } := by
  have hlt := (List.getElem?_eq_some_iff.1 h).1
  simp only [World.finishModule, h, hp]
  rw [if_neg (by simp), settle_loads (L := { L with pending := 0, isLoading := false })
    (List.getElem?_set_self hlt) ho]
  simp

/-! ## Lists of tokens -/

theorem countP_eraseIdx {α : Type} (p : α → Bool) : ∀ (l : List α) (i : Nat) (x : α), l[i]? = some x →
    l.countP p = (l.eraseIdx i).countP p + if p x then 1 else 0
  | [], i, x, h => by simp at h
  | y :: l, 0, x, h => by
    simp only [List.getElem?_cons_zero, Option.some.injEq] at h
    subst h
    simp [List.countP_cons]
  | y :: l, i + 1, x, h => by
    simp only [List.getElem?_cons_succ] at h
    simp only [List.eraseIdx_cons_succ, List.countP_cons, countP_eraseIdx p l i x h]
    omega

theorem mem_eraseIdx_or {α : Type} : ∀ (l : List α) (i : Nat) (x y : α), l[i]? = some x → y ∈ l →
    y = x ∨ y ∈ l.eraseIdx i
  | [], i, x, y, h, _ => by simp at h
  | z :: l, 0, x, y, h, hy => by
    simp only [List.getElem?_cons_zero, Option.some.injEq] at h
    subst h
    rcases List.mem_cons.1 hy with rfl | hy
    · exact .inl rfl
    · exact .inr hy
  | z :: l, i + 1, x, y, h, hy => by
    simp only [List.getElem?_cons_succ] at h
    rcases List.mem_cons.1 hy with rfl | hy
    · exact .inr (by simp)
    · rcases mem_eraseIdx_or l i x y h hy with rfl | h'
      · exact .inl rfl
      · exact .inr (by simp [h'])

end Verif.Loader
