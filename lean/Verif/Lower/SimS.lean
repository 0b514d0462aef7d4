import Verif.Lower.SimExpr
/-!
# Translated statements do what statements do
-/

namespace Verif.Lower

open Verif.Il Verif.Lin Verif.Opt

section
variable {V W : Type} {I : Interp V W} {num : V → W → V × W} {code : List Inst} {μ : Nat → Option Nat}

/-- Where the code goes when a statement ends. -/
def Exit (code : List Inst) (x : Ctx) (name : Option Nat) (pc1 : Nat) : Completion → Nat → Prop
  | .normal, p => p = pc1
  | .brk none, p => ∃ l, x.brk.head? = some l ∧ Is code l p
  | .brk (some m), p => if name = some m then p = pc1 else ∃ e, x.labels.lookup m = some e ∧ Is code e.1 p
  | .cont none, p => ∃ l, x.cont.head? = some l ∧ Is code l p
  | .cont (some m), p => ∃ e l, x.labels.lookup m = some e ∧ e.2 = some l ∧ Is code l p
  | .ret, p => ∃ l, x.ret = some l ∧ Is code l p

/-- The code from `a` on does what the statement did: it gets to where the statement ends, or, if a loop has used
up its iterations, it is still running after `N` steps. -/
def Lands (I : Interp V W) (code : List Inst) (μ : Nat → Option Nat) (x : Ctx) (name : Option Nat) (pc1 N : Nat)
    (a : State V W) : Res V W → Prop
  | .done c s => ∃ env' pc', To I code a ⟨pc', env', s.world⟩ ∧ Agree μ s.vars env' ∧ Exit code x name pc1 c pc'
  | .more s => ∃ env' pc' n, N ≤ n ∧ steps I code a n = ⟨pc', env', s.world⟩ ∧ Agree μ s.vars env' ∧ pc' < code.length

/-- At least one step. -/
def To1 (I : Interp V W) (code : List Inst) (x y : State V W) : Prop := ∃ n, steps I code x (n + 1) = y

theorem To1.trans {x y z : State V W} (h : To1 I code x y) (k : To I code y z) : To1 I code x z := by
  obtain ⟨n, rfl⟩ := h
  obtain ⟨m, rfl⟩ := k
  refine ⟨n + m, ?_⟩
  rw [← steps_add]
  congr 1
  omega

theorem To1.label {pc l : Nat} {e : Nat → V} {w : W} (h : code[pc]? = some (label l)) :
    To1 I code ⟨pc, e, w⟩ ⟨pc + 1, e, w⟩ := ⟨0, step_label h rfl⟩

variable {x : Ctx} {name : Option Nat} {pc1 N : Nat} {a b : State V W} {r : Res V W}

theorem Lands.pre (h : To I code a b) (k : Lands I code μ x name pc1 N b r) : Lands I code μ x name pc1 N a r := by
  cases r with
  | done c s =>
    obtain ⟨e, p, t, q⟩ := k
    exact ⟨e, p, h.trans t, q⟩
  | more s =>
    obtain ⟨e, p, n, hn, t, q⟩ := k
    obtain ⟨m, rfl⟩ := h
    refine ⟨e, p, m + n, by omega, ?_, q⟩
    rw [steps_add]
    exact t

theorem Lands.pre1 (h : To1 I code a b) (k : Lands I code μ x name pc1 N b r) : Lands I code μ x name pc1 (N + 1) a r := by
  cases r with
  | done c s =>
    obtain ⟨e, p, t, q⟩ := k
    obtain ⟨n, hn⟩ := h
    exact ⟨e, p, To.trans ⟨_, hn⟩ t, q⟩
  | more s =>
    obtain ⟨e, p, n, hn, t, q⟩ := k
    obtain ⟨m, rfl⟩ := h
    refine ⟨e, p, (m + 1) + n, by omega, ?_, q⟩
    rw [steps_add]
    exact t

theorem Lands.le {M : Nat} (h : M ≤ N) (k : Lands I code μ x name pc1 N a r) : Lands I code μ x name pc1 M a r := by
  cases r with
  | done c s => exact k
  | more s =>
    obtain ⟨e, p, n, hn, t, q⟩ := k
    exact ⟨e, p, n, by omega, t, q⟩

theorem Lands.bind {x' : Ctx} {name' : Option Nat} {pc1' : Nat} {r' : Res V W} (h : Lands I code μ x name pc1 N a r)
    (hd : ∀ c s env pc, r = .done c s → Agree μ s.vars env → Exit code x name pc1 c pc →
      Lands I code μ x' name' pc1' N ⟨pc, env, s.world⟩ r') (hm : ∀ s, r = .more s → r' = .more s) :
    Lands I code μ x' name' pc1' N a r' := by
  cases r with
  | done c s =>
    obtain ⟨e, p, t, ag, q⟩ := h
    exact (hd c s e p rfl ag q).pre t
  | more s =>
    rw [hm s rfl]
    exact h

/-- Loops. -/
theorem lands_loop {step : St V W → Res V W ⊕ St V W} {pc F : Nat} (hlt : pc < code.length)
    (h : ∀ σ env, Agree μ σ.vars env → match step σ with
      | .inl r => Lands I code μ x name pc1 F ⟨pc, env, σ.world⟩ r
      | .inr s => ∃ env', To1 I code ⟨pc, env, σ.world⟩ ⟨pc, env', s.world⟩ ∧ Agree μ s.vars env') :
    ∀ k, k ≤ F → ∀ σ env, Agree μ σ.vars env → Lands I code μ x name pc1 k ⟨pc, env, σ.world⟩ (loop step k σ)
  | 0, _, σ, env, ag => ⟨env, pc, 0, Nat.le_refl _, rfl, ag, hlt⟩
  | k + 1, hk, σ, env, ag => by
    have := h σ env ag
    rw [loop]
    cases hs : step σ with
    | inl r =>
      rw [hs] at this
      exact this.le hk
    | inr s =>
      rw [hs] at this
      obtain ⟨env', t, ag'⟩ := this
      exact (lands_loop hlt h k (by omega) s env' ag').pre1 t

/-- The labels of a statement. -/
def LsOk (x : Ctx) (name : Option Nat) (ls : List Nat) : Prop :=
  (∀ m ∈ ls, name = some m ∨ ∃ q, x.labels.lookup m = some (q, none)) ∧ ∀ m, name = some m → m ∈ ls

theorem LsOk.nil : LsOk x none [] := ⟨by simp, by simp⟩

/-- What the end of the body of a loop means. -/
theorem after_body {ls : List Nat} {nxt aft p pn pa : Nat} (hls : LsOk x name ls) (hn : Is code nxt pn) (ha : Is code aft pa)
    {c : Completion} {s : St V W} (hx : Exit code (x.enterLoop name aft nxt) none pn c p) :
    (afterBody ls (.done c s) = .inr s ∧ p = pn) ∨
    (∃ c', afterBody ls (.done c s) = .inl (.done c' s) ∧ ((c' = .normal ∧ p = pa) ∨ (c' = c ∧ ∀ pc1, Exit code x name pc1 c p)) ∨
      ∃ m, c = .brk (some m) ∧ name = some m ∧ afterBody ls (.done c s) = .inl (.done c s) ∧ p = pa) := by
  cases c with
  | normal => exact .inl ⟨rfl, hx⟩
  | ret => exact .inr ⟨.ret, .inl ⟨rfl, .inr ⟨rfl, fun _ => hx⟩⟩⟩
  | brk l =>
    cases l with
    | none =>
      obtain ⟨l, hl, hp⟩ := hx
      simp only [Ctx.enterLoop, List.head?_cons, Option.some.injEq] at hl
      subst hl
      exact .inr ⟨.normal, .inl ⟨rfl, .inl ⟨rfl, hp.unique ha⟩⟩⟩
    | some m =>
      simp only [Exit, reduceCtorEq, if_false] at hx
      obtain ⟨e, he, hp⟩ := hx
      by_cases hm : name = some m
      · subst hm
        simp only [Ctx.enterLoop, List.lookup_cons, beq_self_eq_true, Option.some.injEq] at he
        subst he
        exact .inr ⟨.normal, .inr ⟨m, rfl, rfl, rfl, hp.unique ha⟩⟩
      · have he' : x.labels.lookup m = some e := by
          cases name with
          | none => exact he
          | some n =>
            simp only [Ctx.enterLoop, List.lookup_cons] at he
            rwa [show (m == n) = false by simpa using fun h => hm (by rw [h])] at he
        refine .inr ⟨.brk (some m), .inl ⟨rfl, .inr ⟨rfl, fun _ => ?_⟩⟩⟩
        simp only [Exit, hm, if_false]
        exact ⟨e, he', hp⟩
  | cont l =>
    cases l with
    | none =>
      obtain ⟨l, hl, hp⟩ := hx
      simp only [Ctx.enterLoop, List.head?_cons, Option.some.injEq] at hl
      subst hl
      exact .inl ⟨rfl, hp.unique hn⟩
    | some m =>
      obtain ⟨e, l, he, hl, hp⟩ := hx
      by_cases hm : name = some m
      · subst hm
        simp only [Ctx.enterLoop, List.lookup_cons, beq_self_eq_true, Option.some.injEq] at he
        subst he
        simp only [Option.some.injEq] at hl
        subst hl
        exact .inl ⟨by simp [afterBody, hls.2 m rfl], hp.unique hn⟩
      · have he' : x.labels.lookup m = some e := by
          cases name with
          | none => exact he
          | some n =>
            simp only [Ctx.enterLoop, List.lookup_cons] at he
            rwa [show (m == n) = false by simpa using fun h => hm (by rw [h])] at he
        have hnot : m ∉ ls := by
          intro hmem
          rcases hls.1 m hmem with h | ⟨q, h⟩
          · exact hm h
          · rw [he'] at h
            cases h
            cases hl
        exact .inr ⟨.cont (some m), .inl ⟨by simp [afterBody, hnot], .inr ⟨rfl, fun _ => ⟨e, l, he', hl, hp⟩⟩⟩⟩

/-- The rest of an iteration, when the body has ended. -/
theorem lands_body {ls : List Nat} {nxt aft pn pa : Nat} {r : Res V W} (hls : LsOk x name ls)
    (hn : code[pn]? = some (label nxt)) (ha : code[pa]? = some (label aft)) (hp : Placed code)
    (h : Lands I code μ (x.enterLoop name aft nxt) none pn N a r) :
    (∃ s, afterBody ls r = .inr s ∧ ∃ env, To I code a ⟨pn, env, s.world⟩ ∧ Agree μ s.vars env) ∨
    (∃ r', afterBody ls r = .inl r' ∧ Lands I code μ x name (pa + 1) N a r') := by
  cases r with
  | more s => exact .inr ⟨_, rfl, h⟩
  | done c s =>
    obtain ⟨env, p, t, ag, hx⟩ := h
    rcases after_body (s := s) hls (place hp hn) (place hp ha) hx with ⟨h1, rfl⟩ | ⟨c', ⟨h1, h2⟩ | ⟨m, rfl, hm, h1, rfl⟩⟩
    · exact .inl ⟨s, h1, env, t, ag⟩
    · refine .inr ⟨_, h1, ?_⟩
      rcases h2 with ⟨rfl, rfl⟩ | ⟨rfl, h2⟩
      · exact ⟨env, _, t.trans (to_label ha), ag, rfl⟩
      · exact ⟨env, _, t, ag, h2 _⟩
    · refine .inr ⟨_, h1, env, _, t.trans (to_label ha), ag, ?_⟩
      simp [Exit, hm]

end

end Verif.Lower
