import Verif.Lower.Model
import Verif.Lower.Spec
/-!
# Labels and variables of translated code
-/

namespace Verif.Lower

open Verif.Il Verif.Lin Verif.Opt

/-- Later states. -/
structure Ext (C C' : S) : Prop where
  temp : C.temp ≤ C'.temp
  label : C.label ≤ C'.label
  old : ∀ s t, C.syms.lookup s = some t → C'.syms.lookup s = some t
  new : ∀ s t, C'.syms.lookup s = some t → C.syms.lookup s = some t ∨ C.temp ≤ t ∧ t < C'.temp
  inj : ∀ s s' t, C'.syms.lookup s = some t → C'.syms.lookup s' = some t →
    s = s' ∨ C.syms.lookup s = some t ∧ C.syms.lookup s' = some t

def Wf (C : S) : Prop := ∀ s t, C.syms.lookup s = some t → t < C.temp

theorem Ext.refl (C : S) : Ext C C := ⟨Nat.le_refl _, Nat.le_refl _, fun _ _ h => h, fun _ _ h => .inl h, fun _ _ _ h k => .inr ⟨h, k⟩⟩

theorem Ext.trans {A B C : S} (h : Ext A B) (k : Ext B C) : Ext A C where
  temp := Nat.le_trans h.temp k.temp
  label := Nat.le_trans h.label k.label
  old s t e := k.old s t (h.old s t e)
  new s t e := by
    rcases k.new s t e with e | e
    · rcases h.new s t e with e | e
      · exact .inl e
      · have := k.temp
        exact .inr ⟨e.1, by omega⟩
    · have := h.temp
      exact .inr ⟨by omega, e.2⟩
  inj s s' t e e' := by
    rcases k.inj s s' t e e' with e | e
    · exact .inl e
    · exact h.inj s s' t e.1 e.2

theorem Ext.wf {C C' : S} (h : Ext C C') (w : Wf C) : Wf C' := by
  intro s t e
  rcases h.new s t e with e | e
  · have := w s t e
    have := h.temp
    omega
  · exact e.2

theorem Ext.bumpT (C : S) : Ext C C.bumpT :=
  ⟨Nat.le_succ _, Nat.le_refl _, fun _ _ h => h, fun _ _ h => .inl h, fun _ _ _ h k => .inr ⟨h, k⟩⟩

theorem Ext.bumpL (C : S) : Ext C C.bumpL :=
  ⟨Nat.le_refl _, Nat.le_succ _, fun _ _ h => h, fun _ _ h => .inl h, fun _ _ _ h k => .inr ⟨h, k⟩⟩

theorem Ext.labels (C : S) (n : Nat) (h : C.label ≤ n) : Ext C { C with label := n } :=
  ⟨Nat.le_refl _, h, fun _ _ h => h, fun _ _ h => .inl h, fun _ _ _ h k => .inr ⟨h, k⟩⟩

theorem symTemp_ok {C C' : S} {s t : Nat} (h : symTemp C s = (C', t)) (w : Wf C) :
    Ext C C' ∧ C'.label = C.label ∧ t < C'.temp ∧ C'.syms.lookup s = some t := by
  unfold symTemp at h
  split at h
  · rename_i u hu
    simp only [Prod.mk.injEq] at h
    obtain ⟨rfl, rfl⟩ := h
    exact ⟨.refl _, rfl, w _ _ hu, hu⟩
  · rename_i hu
    simp only [Prod.mk.injEq] at h
    obtain ⟨rfl, rfl⟩ := h
    refine ⟨⟨Nat.le_succ _, Nat.le_refl _, ?_, ?_, ?_⟩, rfl, Nat.lt_succ_self _, by simp⟩
    · intro x y e
      simp only [List.lookup_cons]
      split
      · rename_i hx
        rw [beq_iff_eq] at hx
        rw [hx, hu] at e
        cases e
      · exact e
    · intro x y e
      simp only [List.lookup_cons] at e
      split at e
      · cases e
        exact .inr ⟨Nat.le_refl _, Nat.lt_succ_self _⟩
      · exact .inl e
    · intro x x' y e e'
      simp only [List.lookup_cons] at e e'
      split at e <;> split at e'
      · rename_i h _ h'
        rw [beq_iff_eq] at h h'
        exact .inl (h.trans h'.symm)
      · cases e
        exact absurd (w _ _ e') (Nat.lt_irrefl _)
      · cases e'
        exact absurd (w _ _ e) (Nat.lt_irrefl _)
      · exact .inr ⟨e, e'⟩

/-- What holds of an instruction whose jumps go to labels in `P`. -/
def InstOk (P : Nat → Prop) (T : Nat) (i : Inst) : Prop :=
  (i.t = .label → ∃ l, i.labels = [l]) ∧ (i.t = .goto → ∃ l, i.labels = [l] ∧ P l) ∧
  (i.t = .condGoto → ∀ l ∈ i.labels, l = dummyLabel ∨ P l) ∧ (i.t ≠ .label → i.t ≠ .goto → Shape i) ∧ i.t ≠ .phi ∧
  (∀ v ∈ i.tgts, v < T) ∧ ∀ v, Arg.var v ∈ i.args → v < T

theorem InstOk.mono {P Q : Nat → Prop} {T U : Nat} {i : Inst} (h : InstOk P T i) (hp : ∀ l, P l → Q l) (ht : T ≤ U) :
    InstOk Q U i := by
  obtain ⟨h1, h2, h3, h4, h5, h6, h7⟩ := h
  refine ⟨h1, fun e => ?_, fun e l hl => (h3 e l hl).imp_right (hp l), h4, h5,
    fun v hv => Nat.lt_of_lt_of_le (h6 v hv) ht, fun v hv => Nat.lt_of_lt_of_le (h7 v hv) ht⟩
  obtain ⟨l, e1, e2⟩ := h2 e
  exact ⟨l, e1, hp l e2⟩

/-- A piece of code between two states that declares the labels given out in between and `E`, and jumps to
these and to `O`. -/
structure Part (E O : List Nat) (C C' : S) (is : List Inst) : Prop where
  ext : Ext C C'
  ok : ∀ i ∈ is, InstOk (fun l => l ∈ O ∨ C.label ≤ l ∧ l < C'.label) C'.temp i
  count : ∀ l, (declared is).count l = E.count l + if C.label ≤ l ∧ l < C'.label then 1 else 0

theorem declared_append (a b : List Inst) : declared (a ++ b) = declared a ++ declared b := by
  simp [declared]

variable {E F O : List Nat} {A B C D : S} {is js : List Inst}

theorem Part.append (p : Part E O A B is) (q : Part F O B C js) : Part (E ++ F) O A C (is ++ js) where
  ext := p.ext.trans q.ext
  ok := by
    intro i hi
    rcases List.mem_append.1 hi with hi | hi
    · refine (p.ok i hi).mono (fun l hl => hl.imp_right fun h => ⟨h.1, Nat.lt_of_lt_of_le h.2 q.ext.label⟩) q.ext.temp
    · exact (q.ok i hi).mono (fun l hl => hl.imp_right fun h => ⟨Nat.le_trans p.ext.label h.1, h.2⟩) (Nat.le_refl _)
  count := by
    intro l
    rw [declared_append, List.count_append, List.count_append, p.count, q.count]
    have := p.ext.label
    have := q.ext.label
    split <;> split <;> split <;> omega

theorem Part.ofExt (h : Ext A B) (hl : B.label = A.label) : Part [] O A B [] where
  ext := h
  ok := by simp
  count := by
    intro l
    rw [hl]
    simp [declared]

theorem Part.nil : Part [] O A A [] := .ofExt (.refl _) rfl

theorem Part.bumpT (p : Part E O A.bumpT B is) : Part E O A B is := by
  have := (Part.ofExt (O := O) (Ext.bumpT A) rfl).append p
  simpa using this

theorem Part.thenT (p : Part E O A B is) : Part E O A B.bumpT is := by
  have := p.append (Part.ofExt (O := O) (Ext.bumpT B) rfl)
  simpa using this

theorem Part.bumpL {E' : List Nat} (p : Part E' (A.label :: O) A.bumpL B is)
    (hE : ∀ l, E'.count l = (A.label :: E).count l) : Part E O A B is where
  ext := (Ext.bumpL A).trans p.ext
  ok := by
    intro i hi
    have hb := p.ext.label
    refine (p.ok i hi).mono (fun l hl => ?_) (Nat.le_refl _)
    simp only [S.bumpL] at hl hb
    rcases hl with h | h
    · rcases List.mem_cons.1 h with h | h
      · exact .inr ⟨by omega, by omega⟩
      · exact .inl h
    · exact .inr ⟨by omega, h.2⟩
  count := by
    intro l
    have hb := p.ext.label
    have hk : A.bumpL.label = A.label + 1 := rfl
    rw [p.count, hE, List.count_cons]
    simp only [beq_iff_eq]
    split <;> split <;> split <;> omega

theorem Part.weaken {O' : List Nat} (p : Part E O A B is) (h : ∀ l ∈ O, l ∈ O') : Part E O' A B is where
  ext := p.ext
  ok := fun i hi => (p.ok i hi).mono (fun l hl => hl.imp_left (h l)) (Nat.le_refl _)
  count := p.count

theorem Part.congr {E' : List Nat} (p : Part E' O A B is) (h : ∀ l, E'.count l = E.count l) : Part E O A B is where
  ext := p.ext
  ok := p.ok
  count := fun l => by rw [p.count, h]

/-- An instruction that declares no label. -/
def Inner (O : List Nat) (T : Nat) (i : Inst) : Prop := InstOk (· ∈ O) T i ∧ i.t ≠ .label

theorem Part.insts (h : ∀ i ∈ is, Inner O A.temp i) : Part [] O A A is where
  ext := .refl _
  ok := fun i hi => (h i hi).1.mono (fun _ => .inl) (Nat.le_refl _)
  count := by
    intro l
    have : declared is = [] := by
      simp only [declared, List.flatMap_eq_nil_iff, List.mem_filter]
      intro i ⟨hi, ht⟩
      exact absurd (by simpa using ht) (h i hi).2
    rw [this]
    simp

theorem Part.inst {i : Inst} (h : Inner O A.temp i) : Part [] O A A [i] := .insts (by simpa using h)

theorem Part.lab (l : Nat) : Part [l] O A A [Lower.label l] where
  ext := .refl _
  ok := by simp [InstOk, Lower.label]
  count := by
    intro k
    simp [declared, Lower.label]

/-- An argument only reads variables given out. -/
def ArgB (T : Nat) (a : Arg) : Prop := ∀ v, a = .var v → v < T

theorem ArgB.mono {T U : Nat} {a : Arg} (h : ArgB T a) (ht : T ≤ U) : ArgB U a :=
  fun v e => Nat.lt_of_lt_of_le (h v e) ht

theorem ArgB.var {T v : Nat} (h : v < T) : ArgB T (.var v) := by
  intro w e
  cases e
  exact h

theorem ArgB.undef {T : Nat} : ArgB T undef := by simp [ArgB, Lower.undef]

variable {T t : Nat} {a b c : Arg}

theorem inner_bin {o : BinOp} (ht : t < T) (ha : ArgB T a) (hb : ArgB T b) : Inner O T (Inst.bin t a o b) := by
  simp only [Inner, InstOk, Inst.bin, Shape]
  simp [ht]
  rintro v (rfl | rfl)
  · exact ha v rfl
  · exact hb v rfl

theorem inner_un {o : UnOp} (ht : t < T) (ha : ArgB T a) : Inner O T (Inst.un t o a) := by
  simp only [Inner, InstOk, Inst.un, Shape]
  simp [ht]
  rintro v rfl
  exact ha v rfl

theorem inner_assign (ht : t < T) (ha : ArgB T a) : Inner O T (Inst.varAssign t a) := by
  simp only [Inner, InstOk, Inst.varAssign, Shape]
  simp [ht]
  rintro v rfl
  exact ha v rfl

theorem inner_prop (ha : ArgB T a) (hb : ArgB T b) (hc : ArgB T c) : Inner O T (Inst.propAssign a b c) := by
  simp only [Inner, InstOk, Inst.propAssign, Shape]
  simp
  rintro v (rfl | rfl | rfl)
  · exact ha v rfl
  · exact hb v rfl
  · exact hc v rfl

theorem inner_cond {x y : Nat} (ha : ArgB T a) (hx : x = dummyLabel ∨ x ∈ O) (hy : y = dummyLabel ∨ y ∈ O) :
    Inner O T (Inst.condGoto a x y) := by
  simp only [Inner, InstOk, Inst.condGoto, Shape]
  simp [hx, hy]
  rintro v rfl
  exact ha v rfl

theorem inner_call {as : List Arg} {sp : List Nat} (ht : t < T) (ha : ArgB T a) (hb : ArgB T b)
    (hs : ∀ x ∈ as, ArgB T x) : Inner O T (Inst.call (some t) a b as sp) := by
  simp only [Inner, InstOk, Inst.call, Shape]
  simp [ht]
  rintro v (rfl | rfl | h)
  · exact ha v rfl
  · exact hb v rfl
  · exact hs _ h v rfl

theorem inner_goto {l : Nat} (h : l ∈ O) : Inner O T (goto l) := by
  simp [Inner, InstOk, goto, h]

theorem inner_load {s : Nat} (ht : t < T) : Inner O T (foreignLoad t s) := by
  simp [Inner, InstOk, foreignLoad, Shape, ht]

theorem inner_uload {s : List Nat} (ht : t < T) : Inner O T (unknownLoad t s) := by
  simp [Inner, InstOk, unknownLoad, Shape, ht]

theorem inner_fstore {s : Nat} (ha : ArgB T a) : Inner O T (foreignStore s a) := by
  simp [Inner, InstOk, foreignStore, Shape]
  rintro v rfl
  exact ha v rfl

theorem inner_ustore {s : List Nat} (ha : ArgB T a) : Inner O T (unknownStore s a) := by
  simp [Inner, InstOk, unknownStore, Shape]
  rintro v rfl
  exact ha v rfl

/-- Targets of assignments are given out. -/
def DestB (T : Nat) : Dest → Prop
  | .temp t => t < T
  | _ => True

theorem DestB.mono {U : Nat} {d : Dest} (h : DestB T d) (ht : T ≤ U) : DestB U d := by
  cases d <;> simp_all [DestB]
  omega

theorem inner_store {d : Dest} (hd : DestB T d) (ha : ArgB T a) : Inner O T (d.store a) := by
  cases d with
  | temp t => exact inner_assign hd ha
  | foreign s => exact inner_fstore ha
  | unknown n => exact inner_ustore ha

theorem dest_ok {x : VarType} {d : Dest} (h : dest A x = some (B, d)) (w : Wf A) :
    Ext A B ∧ B.label = A.label ∧ DestB B.temp d := by
  cases x with
  | «local» s =>
    simp only [dest, Option.some.injEq, Prod.mk.injEq] at h
    obtain ⟨rfl, rfl⟩ := h
    obtain ⟨h1, h2, h3, -⟩ := symTemp_ok rfl w (s := s)
    exact ⟨h1, h2, h3⟩
  | foreign s =>
    simp only [dest, Option.some.injEq, Prod.mk.injEq] at h
    obtain ⟨rfl, rfl⟩ := h
    exact ⟨.refl _, rfl, trivial⟩
  | unknown s =>
    simp only [dest, Option.some.injEq, Prod.mk.injEq] at h
    obtain ⟨rfl, rfl⟩ := h
    exact ⟨.refl _, rfl, trivial⟩
  | builtin s => simp [dest] at h

theorem load_ok {d : Dest} (h : d.load A = (B, is, a)) (hd : DestB A.temp d) :
    Part [] O A B is ∧ ArgB B.temp a ∧ B.label = A.label := by
  cases d with
  | temp t =>
    simp only [Dest.load, Prod.mk.injEq] at h
    obtain ⟨rfl, rfl, rfl⟩ := h
    exact ⟨.nil, .var hd, rfl⟩
  | foreign s =>
    simp only [Dest.load, Prod.mk.injEq] at h
    obtain ⟨rfl, rfl, rfl⟩ := h
    exact ⟨.bumpT (.inst (inner_load (Nat.lt_succ_self _))), .var (Nat.lt_succ_self _), rfl⟩
  | unknown s =>
    simp only [Dest.load, Prod.mk.injEq] at h
    obtain ⟨rfl, rfl, rfl⟩ := h
    exact ⟨.bumpT (.inst (inner_uload (Nat.lt_succ_self _))), .var (Nat.lt_succ_self _), rfl⟩

theorem compileId_ok {x : VarType} (h : compileId A x = (B, is, a)) (w : Wf A) :
    Part [] O A B is ∧ ArgB B.temp a := by
  cases x with
  | «local» s =>
    simp only [compileId, Prod.mk.injEq] at h
    obtain ⟨rfl, rfl, rfl⟩ := h
    obtain ⟨h1, h2, h3, -⟩ := symTemp_ok rfl w (s := s)
    exact ⟨.ofExt h1 h2, .var h3⟩
  | foreign s =>
    simp only [compileId, Prod.mk.injEq] at h
    obtain ⟨rfl, rfl, rfl⟩ := h
    exact ⟨.bumpT (.inst (inner_load (Nat.lt_succ_self _))), .var (Nat.lt_succ_self _)⟩
  | unknown s =>
    simp only [compileId, Prod.mk.injEq] at h
    obtain ⟨rfl, rfl, rfl⟩ := h
    exact ⟨.bumpT (.inst (inner_uload (Nat.lt_succ_self _))), .var (Nat.lt_succ_self _)⟩
  | builtin s =>
    simp only [compileId, Prod.mk.injEq] at h
    obtain ⟨rfl, rfl, rfl⟩ := h
    exact ⟨.nil, by simp [ArgB]⟩

theorem logJump_ok {op : LogOp} {v skip : Nat} (h : logJump A op v skip = (B, is)) (hv : v < A.temp) (hs : skip ∈ O) :
    Part [] O A B is := by
  cases op with
  | and =>
    simp only [logJump, Prod.mk.injEq] at h
    obtain ⟨rfl, rfl⟩ := h
    exact .inst (inner_cond (.var hv) (.inl rfl) (.inr hs))
  | or =>
    simp only [logJump, Prod.mk.injEq] at h
    obtain ⟨rfl, rfl⟩ := h
    exact .inst (inner_cond (.var hv) (.inr hs) (.inl rfl))
  | nullish =>
    simp only [logJump, Prod.mk.injEq] at h
    obtain ⟨rfl, rfl⟩ := h
    refine .bumpT (.insts ?_)
    simp only [List.mem_cons, List.not_mem_nil, or_false, forall_eq_or_imp, forall_eq]
    refine ⟨inner_bin (Nat.lt_succ_self _) (.var (Nat.lt_succ_of_lt hv)) (by simp [ArgB]), ?_⟩
    exact inner_cond (.var (Nat.lt_succ_self _)) (.inl rfl) (.inr hs)

theorem chainJump_ok {optional : Bool} {l : Nat} (h : chainJump A optional a l = (B, is)) (ha : ArgB A.temp a)
    (hs : l ∈ O) : Part [] O A B is := by
  unfold chainJump at h
  split at h
  · simp only [Prod.mk.injEq] at h
    obtain ⟨rfl, rfl⟩ := h
    refine .bumpT (.insts ?_)
    simp only [List.mem_cons, List.not_mem_nil, or_false, forall_eq_or_imp, forall_eq]
    refine ⟨inner_bin (Nat.lt_succ_self _) (ha.mono (Nat.le_succ _)) (by simp [ArgB]), ?_⟩
    exact inner_cond (.var (Nat.lt_succ_self _)) (.inr hs) (.inl rfl)
  · simp only [Prod.mk.injEq] at h
    obtain ⟨rfl, rfl⟩ := h
    exact .nil

/-- The beginning and the end of an optional chain: the label of the chain is declared by the node that sets
it up. -/
theorem chain_ok {chain : Option Nat} {did : Bool} {l res : Nat} (h : setupChain A chain = (B, did, l))
    (hO : ∀ x ∈ chain, x ∈ O) (p : Part [] (l :: O) B C is) (hr : res < C.temp)
    (h' : completeChain C did res l = (D, js)) : Part [] O A D (is ++ js) := by
  cases chain with
  | some x =>
    simp only [setupChain, Prod.mk.injEq] at h
    obtain ⟨rfl, rfl, rfl⟩ := h
    simp only [completeChain, Bool.false_eq_true, if_false, Prod.mk.injEq] at h'
    obtain ⟨rfl, rfl⟩ := h'
    rw [List.append_nil]
    exact p.weaken (by simpa using hO x rfl)
  | none =>
    simp only [setupChain, Prod.mk.injEq] at h
    obtain ⟨rfl, rfl, rfl⟩ := h
    simp only [completeChain, if_true, Prod.mk.injEq] at h'
    obtain ⟨rfl, rfl⟩ := h'
    refine Part.bumpL (E' := [A.label]) (p.append ?_) (by simp)
    refine Part.bumpL (E' := [A.label, C.label]) ?_ ?_
    · have e : [goto C.label, Lower.label A.label, Inst.varAssign res Lower.undef, goto C.label, Lower.label C.label] =
        [goto C.label] ++ ([Lower.label A.label] ++ ([Inst.varAssign res Lower.undef, goto C.label] ++
          [Lower.label C.label])) := rfl
      rw [e]
      refine (Part.inst (inner_goto (by simp))).append ((Part.lab _).append ((Part.insts ?_).append (Part.lab _)))
      simp only [List.mem_cons, List.not_mem_nil, or_false, forall_eq_or_imp, forall_eq]
      exact ⟨inner_assign hr .undef, inner_goto (by simp)⟩
    · intro k
      simp only [List.count_cons, List.count_nil]
      omega

end Verif.Lower
