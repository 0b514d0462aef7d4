import Verif.Opt.EvalSpec
import Verif.Opt.Copies
import Verif.Dom.Derived
import Verif.Dom.Theorems
/-!
# Value numbering
-/

namespace Verif.Opt

open Verif.Il Verif.Graph Verif.Dom

variable {V W : Type}

/-! ## What compile-time evaluation gives -/

theorem plain_of_valid {q : List Nat} (h : isValidMemberIdent q = true) : PlainName q := by
  cases q with
  | nil => cases h
  | cons a as =>
    simp only [isValidMemberIdent, Bool.and_eq_true, List.all_eq_true] at h
    obtain ⟨⟨h1, h2⟩, -⟩ := h
    refine ⟨a, as, rfl, ?_, ?_⟩
    · simp [isStartChar] at h1
      omega
    · intro ch hc
      rcases List.mem_cons.1 hc with rfl | hc
      · simp [isStartChar] at h1
        omega
      · have := h2 ch hc
        simp [isContinueChar, isStartChar] at this
        omega

theorem foldOrdered_sound {K : Evaluator} {I : Interp V W} (hK : EvalSound K I) {op : BinOp} {l r v : Arg}
    (h : foldOrdered K op l r = some v) (e : Nat → V) :
    (∀ x, v ≠ .var x) ∧ ∀ w, I.op (.bin op) [valOf I e l, valOf I e r] w = (I.lit v, w) := by
  unfold foldOrdered at h
  split at h
  · rename_i a b
    cases hb : K.bin op a b with
    | none => rw [hb] at h; cases h
    | some u =>
      rw [hb] at h
      obtain rfl := Option.some.inj h
      exact ⟨by simp, fun w => hK.bin op a b u w hb⟩
  · rename_i o q
    split at h
    · rename_i hq
      obtain rfl := Option.some.inj h
      exact ⟨by simp, fun w => hK.member o q w (plain_of_valid hq)⟩
    · cases h
  · cases h

theorem foldBin_sound {K : Evaluator} {I : Interp V W} (hK : EvalSound K I) {op : BinOp} {l r v : Arg}
    (h : foldBin K op l r = some v) (e : Nat → V) :
    (∀ x, v ≠ .var x) ∧ ∀ w, I.op (.bin op) [valOf I e l, valOf I e r] w = (I.lit v, w) := by
  obtain ⟨h1, h2⟩ := foldOrdered_sound hK h e
  refine ⟨h1, ?_⟩
  intro w
  rw [← h2 w]
  unfold orderOperands
  split
  · split
    · exact hK.comm _ _ _ w (Or.inl rfl)
    · rfl
  · split
    · exact hK.comm _ _ _ w (Or.inr rfl)
    · rfl
  · rfl

theorem allConsts_spec {I : Interp V W} (e : Nat → V) : ∀ {as : List Arg} {cs : List Const},
    allConsts as = some cs → as.map (valOf I e) = cs.map (fun c => I.lit (.const c)) := by
  intro as
  induction as with
  | nil => intro cs h; obtain rfl := Option.some.inj h; rfl
  | cons a as ih =>
    intro cs h
    cases a with
    | const c =>
      simp only [allConsts, Option.map_eq_some_iff] at h
      obtain ⟨cs', h1, rfl⟩ := h
      simp [ih h1, valOf]
    | builtin p => cases h
    | fn p => cases h
    | var p => cases h

/-- Compile-time evaluation of an instruction gives the value it computes. -/
theorem consteval_sound {K : Evaluator} {I : Interp V W} (hK : EvalSound K I) {i : Inst} {v : Arg}
    (sh : Shape i) (h : consteval K i = some (some v)) :
    (∀ x, v ≠ .var x) ∧ (∃ t, i.tgts = [t]) ∧ (i.t = .bin ∨ i.t = .call) ∧
    ∀ (e : Nat → V) (w : W), I.op (opcode i) (i.args.map (valOf I e)) w = (I.lit v, w) := by
  unfold consteval at h
  split at h
  · rename_i ht
    simp only [Shape, ht] at sh
    obtain ⟨⟨t, h1⟩, a, b, h2⟩ := sh
    rw [h1, h2] at h
    simp at h
    refine ⟨?_, ⟨t, h1⟩, Or.inl ht, ?_⟩
    · by_cases hV : Nonempty (Nat → V)
      · obtain ⟨e⟩ := hV
        exact (foldBin_sound hK h e).1
      · exact (foldBin_sound hK h (fun _ => I.lit (.fn 0))).1
    · intro e w
      have := (foldBin_sound hK h e).2 w
      simpa [opcode, ht, h2] using this
  · rename_i ht
    simp only [Shape, ht] at sh
    obtain ⟨h1, h2⟩ := sh
    match ha : i.args, h2 with
    | f :: th :: rest, _ =>
      rw [ha] at h
      simp only [List.getElem?_cons_zero, Option.bind_eq_bind, Option.bind_some, List.getElem?_cons_succ,
        List.drop_succ_cons, List.drop_zero] at h
      split at h
      · rename_i t f cs e1 e2 e3 _
        simp only [Option.some.injEq, Option.map_eq_some_iff] at h
        obtain ⟨u, h3, rfl⟩ := h
        refine ⟨by simp, ?_, Or.inr ht, ?_⟩
        · cases htg : i.tgts with
          | nil => rw [htg] at e1; cases e1
          | cons t ts =>
            rw [htg] at h1
            cases ts with
            | nil => exact ⟨t, rfl⟩
            | cons _ _ => simp at h1
        · intro e w
          have := hK.call f cs u (valOf I e th) w h3
          rw [← allConsts_spec (I := I) e e3] at this
          simpa [opcode, ht, e2, valOf] using this
      · simp at h
    | [], h2 => simp at h2
    | [_], h2 => simp at h2
  · cases h

/-- It does not panic. -/
theorem consteval_total {K : Evaluator} {i : Inst} (sh : Shape i) : ∃ r, consteval K i = some r := by
  unfold consteval
  split
  · rename_i ht
    simp only [Shape, ht] at sh
    obtain ⟨⟨t, h1⟩, a, b, h2⟩ := sh
    simp [h1, h2]
  · rename_i ht
    simp only [Shape, ht] at sh
    obtain ⟨h1, h2⟩ := sh
    match ha : i.args, h2 with
    | f :: th :: rest, _ =>
      simp only [List.getElem?_cons_zero, Option.bind_eq_bind, Option.bind_some, List.getElem?_cons_succ,
        List.drop_succ_cons, List.drop_zero]
      split
      · exact ⟨_, rfl⟩
      · exact ⟨_, rfl⟩
    | [], h2 => simp at h2
    | [_], h2 => simp at h2
  · exact ⟨none, rfl⟩

/-! ## What the state of the pass promises -/

section
variable (I : Interp V W) (c0 : Cfg)

/-- `t` is written by instruction `b` of block `a`. -/
def DefAt (a b t : Nat) : Prop := ∃ i, instAt c0 a b = some i ∧ i.t ≠ .phi ∧ t ∈ i.tgts

/-- An entry of `tgt_to_coc`: wherever the definition of `t` has been passed, `a` is available and has the
value of `t`. -/
def EntryOk (t : Nat) (a : Arg) : Prop :=
  ∃ x y, DefAt c0 x y t ∧ ∀ l k, Passes c0 (.inst x y) l k →
    Avail c0 a l k ∧ ∀ e, Sat I c0 e l k → e t = valOf I e a

/-- The value of a `Val`. -/
def valVal (v : Val) (e : Nat → V) (w : W) : V :=
  match v with
  | .bin l op r => (I.op (.bin op) [valOf I e l, valOf I e r] w).1
  | .un op a => (I.op (.un op) [valOf I e a] w).1

/-- An entry of `val_to_coc` at a point. -/
def ValOk (v : Val) (a : Arg) (l k : Nat) : Prop :=
  ∃ t x y, a = .var t ∧ DefAt c0 x y t ∧ Passes c0 (.inst x y) l k ∧
    ∀ l' k', Passes c0 (.inst x y) l' k' → ∀ e, Sat I c0 e l' k' → ∀ w, e t = valVal I v e w

structure StateOk (s : State) (l k : Nat) : Prop where
  tgts : ∀ t a, s.tgts.lookup t = some a → EntryOk I c0 t a
  loc : ∀ t a, s.tgts.lookup t = some a → ∀ d, Defines c0 d t → Passes c0 d l k
  vals : ∀ v a, s.vals.lookup v = some a → ValOk I c0 v a l k

/-- What the pass may turn an instruction that is not a phi into. -/
structure InstRel (l k : Nat) (i i' : Inst) : Prop where
  notPhi : i'.t ≠ .phi
  shape : Shape i'
  tgts : i'.tgts = i.tgts
  avail : ∀ a ∈ i'.args, Avail c0 a l k
  exec : ∀ e w, Sat I c0 e l k → exec I i' (e, w) = exec I i (e, w)
  holds : ∀ l' k' e, Passes c0 (.inst l k) l' k' → Sat I c0 e l' k' → Holds I i' e
  pure : i'.t = .bin ∨ i'.t = .un → Timeless I (opcode i')
  branch : i.t = .condGoto → i'.t = .condGoto ∧ i'.labels = i.labels ∧
    ∀ l' k' e, Passes c0 (.inst l k) l' k' → Sat I c0 e l' k' →
      i'.args.map (valOf I e) = i.args.map (valOf I e)
  noBranch : i.t ≠ .condGoto → i'.t ≠ .condGoto

/-- What it may turn a phi into. -/
structure PhiRel (i i' : Inst) : Prop where
  phi : i'.t = .phi
  tgts : i'.tgts = i.tgts
  len : i'.labels.length = i'.args.length
  nodup : i'.labels.Nodup
  labels : ∀ p, p ∈ i'.labels ↔ p ∈ i.labels
  entry : ∀ p a', (p, a') ∈ i'.labels.zip i'.args → ∃ a, (p, a) ∈ i.labels.zip i.args ∧
    Avail c0 a' p (blockOf c0 p).length ∧
    ∀ e, Sat I c0 e p (blockOf c0 p).length → valOf I e a' = valOf I e a

def PointRel (l k : Nat) (i i' : Inst) : Prop :=
  (i.t = .phi ∧ PhiRel I c0 i i') ∨ (i.t ≠ .phi ∧ InstRel I c0 l k i i')

/-- The program during the pass. -/
structure CfgRel (c : Cfg) : Prop where
  graph : c.graph = c0.graph
  entry : c.entry = c0.entry
  labels : c.bblocks.map (·.1) = c0.bblocks.map (·.1)
  len : ∀ l, (blockOf c l).length = (blockOf c0 l).length
  point : ∀ l k i i', instAt c0 l k = some i → instAt c l k = some i' → PointRel I c0 l k i i'

end

section
variable {I : Interp V W} {c0 : Cfg}

theorem passes_next {d : Site} {l k : Nat} (h : Passes c0 d l k) : Passes c0 d l (k + 1) := by
  intro ms tr
  generalize hk1 : k + 1 = k1 at tr
  cases tr with
  | start => cases hk1
  | inst t _ =>
    obtain rfl := Nat.succ.inj hk1
    exact List.mem_cons_of_mem _ (h _ t)
  | jump _ _ => cases hk1

theorem passes_own {l k : Nat} : Passes c0 (.inst l k) l (k + 1) := by
  intro ms tr
  generalize hk1 : k + 1 = k1 at tr
  cases tr with
  | start => cases hk1
  | inst t _ =>
    obtain rfl := Nat.succ.inj hk1
    exact List.mem_cons_self
  | jump _ _ => cases hk1

theorem StateOk.mono {s : State} {l k l' k' : Nat} (h : StateOk I c0 s l k)
    (hp : ∀ d, Passes c0 d l k → Passes c0 d l' k') : StateOk I c0 s l' k' where
  tgts := h.tgts
  loc := fun t a e d hd => hp _ (h.loc t a e d hd)
  vals := fun v a e => by
    obtain ⟨t, x, y, h1, h2, h3, h4⟩ := h.vals v a e
    exact ⟨t, x, y, h1, h2, hp _ h3, h4⟩

/-- Canonicalising an argument where it is available. -/
theorem canon_ok {K : Evaluator} (hK : EvalSound K I) {s : State}
    (ht : ∀ t a, s.tgts.lookup t = some a → EntryOk I c0 t a) {a : Arg} {l k : Nat}
    (av : Avail c0 a l k) :
    Avail c0 (s.canonArg K a) l k ∧ ∀ e, Sat I c0 e l k → valOf I e (s.canonArg K a) = valOf I e a := by
  cases a with
  | var t =>
    simp only [State.canonArg]
    cases h : s.tgts.lookup t with
    | none => exact ⟨av, fun _ _ => rfl⟩
    | some b =>
      obtain ⟨x, y, ⟨i, h1, h2, h3⟩, h4⟩ := ht t b h
      have hp := av t rfl (.inst x y) ⟨i, h1, h2, h3⟩
      obtain ⟨h5, h6⟩ := h4 l k hp
      exact ⟨h5, fun e he => (h6 e he).symm⟩
  | builtin p =>
    simp only [State.canonArg]
    cases h : K.builtinVal p with
    | none => exact ⟨av, fun _ _ => rfl⟩
    | some v => exact ⟨fun x hx => (by cases hx), fun e _ => (hK.builtinVal p v h).symm⟩
  | const p => exact ⟨av, fun _ _ => rfl⟩
  | fn p => exact ⟨av, fun _ _ => rfl⟩

theorem canon_lit {K : Evaluator} (hK : EvalSound K I) {s : State} {v : Arg} (hv : ∀ x, v ≠ .var x) :
    (∀ x, s.canonArg K v ≠ .var x) ∧ ∀ e, valOf I e (s.canonArg K v) = I.lit v := by
  cases v with
  | var t => exact absurd rfl (hv t)
  | builtin p =>
    simp only [State.canonArg]
    cases h : K.builtinVal p with
    | none => exact ⟨by simp, fun _ => rfl⟩
    | some u => exact ⟨by simp, fun e => (hK.builtinVal p u h).symm⟩
  | const p => exact ⟨by simp [State.canonArg], fun _ => rfl⟩
  | fn p => exact ⟨by simp [State.canonArg], fun _ => rfl⟩

theorem shape_args {i : Inst} {f : Arg → Arg} (h : Shape i) : Shape { i with args := i.args.map f } := by
  cases ht : i.t <;> simp only [Shape, ht] at h ⊢
  case bin => obtain ⟨h1, a, b, h2⟩ := h; exact ⟨h1, f a, f b, by simp [h2]⟩
  case un => obtain ⟨h1, a, h2⟩ := h; exact ⟨h1, f a, by simp [h2]⟩
  case varAssign => obtain ⟨h1, a, h2⟩ := h; exact ⟨h1, f a, by simp [h2]⟩
  case propAssign => obtain ⟨h1, a, b, v, h2⟩ := h; exact ⟨h1, f a, f b, f v, by simp [h2]⟩
  case condGoto => obtain ⟨h1, ⟨a, h2⟩, h3⟩ := h; exact ⟨h1, ⟨f a, by simp [h2]⟩, h3⟩
  case call => exact ⟨h.1, by simpa using h.2⟩
  case foreignLoad => exact ⟨h.1, by simp [h.2]⟩
  case unknownLoad => exact ⟨h.1, by simp [h.2]⟩
  case foreignStore => obtain ⟨h1, a, h2⟩ := h; exact ⟨h1, f a, by simp [h2]⟩
  case unknownStore => obtain ⟨h1, a, h2⟩ := h; exact ⟨h1, f a, by simp [h2]⟩
  case phi => exact ⟨h.1, by simpa using h.2⟩

/-- Instructions that differ in arguments of equal value do the same. -/
theorem exec_args {i : Inst} {f : Arg → Arg} {e : Nat → V} {w : W}
    (h : ∀ a ∈ i.args, valOf I e (f a) = valOf I e a) :
    Opt.exec I { i with args := i.args.map f } (e, w) = Opt.exec I i (e, w) := by
  have hm : (i.args.map f).map (valOf I e) = i.args.map (valOf I e) := by
    rw [List.map_map]
    exact List.map_congr_left h
  cases ht : i.t
  case varAssign =>
    cases ha : i.args with
    | nil => simp [Opt.exec, ht, ha]
    | cons a as =>
      have := h a (by simp [ha])
      simp [Opt.exec, ht, ha, this]
  all_goals
    simp only [Opt.exec, ht, opcode, hm]

theorem holds_args {i : Inst} {f : Arg → Arg} {e : Nat → V}
    (h : ∀ a ∈ i.args, valOf I e (f a) = valOf I e a) (hh : Holds I i e) :
    Holds I { i with args := i.args.map f } e := by
  have hm : (i.args.map f).map (valOf I e) = i.args.map (valOf I e) := by
    rw [List.map_map]
    exact List.map_congr_left h
  cases ht : i.t
  case varAssign =>
    simp only [Holds, ht] at hh ⊢
    intro a as e1 t hti
    cases ha : i.args with
    | nil => rw [ha] at e1; cases e1
    | cons a' as' =>
      rw [ha, List.map_cons] at e1
      obtain ⟨rfl, -⟩ := List.cons.inj e1
      rw [h a' (by simp [ha])]
      exact hh a' as' ha t hti
  all_goals
    simp only [Holds, ht, opcode, hm] at hh ⊢
    try exact hh

/-- Stage 1: canonical arguments. -/
theorem rel_canon {K : Evaluator} (hK : EvalSound K I) {s : State}
    (ht : ∀ t a, s.tgts.lookup t = some a → EntryOk I c0 t a) {l k : Nat} {i i' : Inst}
    (r : InstRel I c0 l k i i') :
    InstRel I c0 l k i { i' with args := i'.args.map (s.canonArg K) } where
  notPhi := r.notPhi
  shape := shape_args r.shape
  tgts := r.tgts
  avail := by
    intro a ha
    obtain ⟨b, hb, rfl⟩ := List.mem_map.1 ha
    exact (canon_ok hK ht (r.avail b hb)).1
  exec := by
    intro e w he
    rw [← r.exec e w he]
    exact exec_args (fun a ha => (canon_ok hK ht (r.avail a ha)).2 e he)
  holds := by
    intro l' k' e hp he
    exact holds_args (fun a ha => (canon_ok hK ht (avail_trans (r.avail a ha) hp)).2 e he) (r.holds l' k' e hp he)
  pure := r.pure
  branch := by
    intro h
    obtain ⟨h1, h2, h3⟩ := r.branch h
    refine ⟨h1, h2, ?_⟩
    intro l' k' e hp he
    rw [← h3 l' k' e hp he, List.map_map]
    exact List.map_congr_left (fun a ha => (canon_ok hK ht (avail_trans (r.avail a ha) hp)).2 e he)
  noBranch := r.noBranch

/-- Rewriting to a copy. -/
theorem rel_assign (hs : ReadsAreSilent I) {l k : Nat} {i i' : Inst} (r : InstRel I c0 l k i i') {t : Nat}
    (htg : i'.tgts = [t]) {v : Arg} (av : Avail c0 v l k)
    (hk : i'.t = .bin ∨ i'.t = .un ∨ i'.t = .call)
    (hx : ∀ e, Sat I c0 e l k → ∀ w, (I.op (opcode i') (i'.args.map (valOf I e)) w).1 = valOf I e v)
    (hw : i'.t = .call → ∀ e, Sat I c0 e l k → ∀ w, (I.op (opcode i') (i'.args.map (valOf I e)) w).2 = w)
    (hv : ∀ l' k' e, Passes c0 (.inst l k) l' k' → Sat I c0 e l' k' → e t = valOf I e v) :
    InstRel I c0 l k i (Inst.varAssign t v) where
  notPhi := by simp [Inst.varAssign]
  shape := by simp [Shape, Inst.varAssign]
  tgts := by rw [← r.tgts, htg]; rfl
  avail := by
    intro a ha
    simp only [Inst.varAssign, List.mem_singleton] at ha
    rw [ha]
    exact av
  exec := by
    intro e w he
    rw [← r.exec e w he]
    have h1 := hx e he w
    have h2 : (I.op (opcode i') (i'.args.map (valOf I e)) w).2 = w := by
      rcases hk with h | h | h
      · simpa [opcode, h] using hs.bin _ _ _
      · simpa [opcode, h] using hs.un _ _ _
      · exact hw h e he w
    rcases hk with h | h | h
    all_goals
      simp only [Opt.exec, Inst.varAssign, h, htg, h1, h2]
  holds := by
    intro l' k' e hp he
    simp only [Holds, Inst.varAssign]
    intro a as e1 t' ht'
    obtain ⟨rfl, -⟩ := List.cons.inj e1
    rw [List.mem_singleton.1 ht']
    exact hv l' k' e hp he
  pure := by simp [Inst.varAssign]
  branch := by
    intro h
    have := (r.branch h).1
    rcases hk with h | h | h <;> rw [h] at this <;> cases this
  noBranch := by simp [Inst.varAssign]

theorem number_ok {s : State} {l k : Nat} (h : StateOk I c0 s l k) (ssa : StrictSSA c0) {ms : List Site}
    (tr : Trail c0 ms l k) {t : Nat} {a : Arg} (hd : DefAt c0 l k t) (he : EntryOk I c0 t a) :
    ∃ s', s.number t a = some s' ∧ s'.vals = s.vals ∧
      (∀ t' a', s'.tgts.lookup t' = some a' → EntryOk I c0 t' a') ∧
      (∀ t' a', s'.tgts.lookup t' = some a' → ∀ d, Defines c0 d t' → Passes c0 d l (k + 1)) := by
  have hn : s.tgts.lookup t = none := by
    cases e : s.tgts.lookup t with
    | none => rfl
    | some b => exact absurd (h.loc t b e (.inst l k) hd) (not_passes_self tr)
  refine ⟨{ s with tgts := (t, a) :: s.tgts }, by simp [State.number, hn], rfl, ?_, ?_⟩
  · intro t' a' e
    rw [List.lookup_cons] at e
    by_cases htt : t' = t
    · subst htt
      simp at e
      exact e ▸ he
    · rw [show (t' == t) = false by simpa using htt] at e
      exact h.tgts t' a' e
  · intro t' a' e d hd'
    rw [List.lookup_cons] at e
    by_cases htt : t' = t
    · subst htt
      rw [defines_unique ssa hd' (d' := .inst l k) hd]
      exact passes_own
    · rw [show (t' == t) = false by simpa using htt] at e
      exact passes_next (h.loc t' a' e d hd')

/-- The value an instruction computes is that of its `Val`. -/
theorem upsert_ok (ssa : StrictSSA c0) {s : State} {l k : Nat} (h : StateOk I c0 s l k)
    {t : Nat} (hd : DefAt c0 l k t) {v : Val}
    (hv : ∀ l' k' e, Passes c0 (.inst l k) l' k' → Sat I c0 e l' k' → ∀ w, e t = valVal I v e w)
    [Nonempty W] :
    let r := s.upsertVal v t
    r.1.tgts = s.tgts ∧ (∀ v' a, r.1.vals.lookup v' = some a → ValOk I c0 v' a l (k + 1)) ∧
    EntryOk I c0 t r.2.1 ∧
    (∀ a, r.2.2 = some a → Avail c0 a l k ∧ (∀ e, Sat I c0 e l k → ∀ w, valOf I e a = valVal I v e w) ∧
      ∀ l' k' e, Passes c0 (.inst l k) l' k' → Sat I c0 e l' k' → e t = valOf I e a) := by
  have keep : ∀ v' a, s.vals.lookup v' = some a → ValOk I c0 v' a l (k + 1) := by
    intro v' a e
    obtain ⟨t', x, y, h1, h2, h3, h4⟩ := h.vals v' a e
    exact ⟨t', x, y, h1, h2, passes_next h3, h4⟩
  simp only [State.upsertVal]
  cases hl : s.vals.lookup v with
  | none =>
    refine ⟨rfl, ?_, ?_, by simp⟩
    · intro v' a e
      simp only at e
      rw [List.lookup_cons] at e
      by_cases hvv : v' = v
      · subst hvv
        simp at e
        exact ⟨t, l, k, e.symm, hd, passes_own, fun l' k' hp e he w => hv l' k' e hp he w⟩
      · rw [show (v' == v) = false by simpa using hvv] at e
        exact keep v' a e
    · refine ⟨l, k, hd, ?_⟩
      intro l' k' hp
      refine ⟨?_, fun _ _ => rfl⟩
      intro x hx d hd'
      obtain rfl := Arg.var.inj hx
      rw [defines_unique ssa hd' (d' := .inst l k) hd]
      exact hp
  | some b =>
    obtain ⟨t', x, y, rfl, h2, h3, h4⟩ := h.vals v b hl
    have av : ∀ l' k', Passes c0 (.inst x y) l' k' → Avail c0 (.var t') l' k' := by
      intro l' k' hp z hz d hd'
      obtain rfl := Arg.var.inj hz
      rw [defines_unique ssa hd' (d' := .inst x y) h2]
      exact hp
    have eqv : ∀ l' k' e, Passes c0 (.inst l k) l' k' → Sat I c0 e l' k' → e t = e t' := by
      intro l' k' e hp he
      obtain ⟨w⟩ := ‹Nonempty W›
      rw [hv l' k' e hp he w, h4 l' k' (passes_trans h3 hp) e he w]
    refine ⟨rfl, keep, ⟨l, k, hd, ?_⟩, ?_⟩
    · intro l' k' hp
      exact ⟨av l' k' (passes_trans h3 hp), fun e he => eqv l' k' e hp he⟩
    · intro a ha
      obtain rfl := Option.some.inj ha
      exact ⟨av l k h3, fun e he w => h4 l k h3 e he w, eqv⟩

/-- One instruction that is not a phi. -/
theorem dvnInst_ok [Nonempty W] {K : Evaluator} (hK : EvalSound K I) (hs : ReadsAreSilent I)
    (ssa : StrictSSA c0) {s : State} {l k : Nat} {ms : List Site} (tr : Trail c0 ms l k)
    (h : StateOk I c0 s l k) {i i' : Inst} (hi : instAt c0 l k = some i) (hp : i.t ≠ .phi)
    (r0 : InstRel I c0 l k i i') :
    ∃ s' i'', dvnInst K s i' = some (s', i'') ∧ InstRel I c0 l k i i'' ∧ StateOk I c0 s' l (k + 1) := by
  have r := rel_canon (K := K) hK h.tgts r0
  unfold dvnInst
  generalize hi1 : ({ i' with args := i'.args.map (s.canonArg K) } : Inst) = i1 at r ⊢
  have hdef : ∀ t, i1.tgts = [t] → DefAt c0 l k t := by
    intro t ht
    exact ⟨i, hi, hp, by rw [← r.tgts, ht]; exact List.mem_singleton_self t⟩
  obtain ⟨ce, hce⟩ := consteval_total (K := K) r.shape
  unfold rewriteInst
  rw [hce]
  cases ce with
  | some v =>
    obtain ⟨h1, ⟨t, h2⟩, h3, h4⟩ := consteval_sound hK r.shape hce
    obtain ⟨h5, h6⟩ := canon_lit hK (s := s) h1
    have hpt : ∀ l' k' e, Passes c0 (.inst l k) l' k' → Sat I c0 e l' k' →
        e t = valOf I e (s.canonArg K v) := by
      intro l' k' e hpp he
      have hh := r.holds l' k' e hpp he
      rw [h6]
      obtain ⟨w⟩ := ‹Nonempty W›
      have hop := h4 e
      rcases h3 with h3 | h3
      all_goals
        simp only [Holds, h3] at hh
        have := hh (fun w w' => by rw [hop, hop]) t (by rw [h2]; exact List.mem_singleton_self t) w
        rw [this, hop]
    have rr : InstRel I c0 l k i (Inst.varAssign t (s.canonArg K v)) := by
      refine rel_assign hs r h2 (fun x hx => absurd hx (h5 x)) (by rcases h3 with h | h <;> simp [h]) ?_ ?_ hpt
      · intro e he w
        rw [h4 e w, h6]
      · intro _ e he w
        rw [h4 e w]
    obtain ⟨s', e1, e2, e3, e4⟩ := number_ok h ssa tr (hdef t h2) (a := s.canonArg K v)
      ⟨l, k, hdef t h2, fun l' k' hpp => ⟨fun x hx => absurd hx (h5 x), fun e he => hpt l' k' e hpp he⟩⟩
    refine ⟨s', Inst.varAssign t (s.canonArg K v), ?_, rr, ?_⟩
    · simp only [h2, List.getElem?_cons_zero, Option.bind_eq_bind, Option.bind_some, e1]
    · refine ⟨e3, e4, ?_⟩
      intro v' a' hl
      rw [e2] at hl
      obtain ⟨t', x, y, g1, g2, g3, g4⟩ := h.vals v' a' hl
      exact ⟨t', x, y, g1, g2, passes_next g3, g4⟩
  | none =>
    have keepAll : StateOk I c0 s l (k + 1) := h.mono (fun d hd => passes_next hd)
    have useVal : ∀ (v : Val) (t : Nat), i1.tgts = [t] → (i1.t = .bin ∨ i1.t = .un) →
        (∀ e w, (I.op (opcode i1) (i1.args.map (valOf I e)) w).1 = valVal I v e w) →
        ∃ s' i'', numberVal s v t i1 = some (s', i'') ∧
          InstRel I c0 l k i i'' ∧ StateOk I c0 s' l (k + 1) := by
      intro v t htg hk hval
      have htl := r.pure hk
      have hv : ∀ l' k' e, Passes c0 (.inst l k) l' k' → Sat I c0 e l' k' → ∀ w, e t = valVal I v e w := by
        intro l' k' e hpp he w
        have hh := r.holds l' k' e hpp he
        rw [← hval]
        rcases hk with hk | hk
        all_goals
          simp only [Holds, hk] at hh
          exact hh (fun w w' => htl _ w w') t (by rw [htg]; exact List.mem_singleton_self t) w
      obtain ⟨g1, g2, g3, g4⟩ := upsert_ok ssa h (hdef t htg) hv
      obtain ⟨⟨s1, row, ex⟩, hu⟩ : ∃ q, s.upsertVal v t = q := ⟨_, rfl⟩
      rw [hu] at g1 g2 g3 g4
      simp only at g1 g2 g3 g4
      have hso : StateOk I c0 { vals := [], tgts := s1.tgts } l k :=
        ⟨by rw [g1]; exact h.tgts, by rw [g1]; exact h.loc, by simp⟩
      obtain ⟨s', e1, e2, e3, e4⟩ := number_ok hso ssa tr (hdef t htg) g3
      have e1' : s1.number t row = some { vals := s1.vals, tgts := s'.tgts } := by
        simp only [State.number] at e1 ⊢
        split at e1
        · cases e1
        · rename_i hh
          obtain rfl := Option.some.inj e1
          rw [if_neg hh]
      simp only [numberVal, hu, e1', Option.bind_eq_bind, Option.bind_some]
      refine ⟨_, _, rfl, ?_, ⟨e3, e4, g2⟩⟩
      cases ex with
      | none => exact r
      | some a =>
        obtain ⟨k1, k2, k3⟩ := g4 a rfl
        refine rel_assign hs r htg k1 (by rcases hk with h | h <;> simp [h]) ?_ ?_ k3
        · intro e he w
          rw [hval, k2 e he w]
        · intro hc
          rcases hk with h | h <;> rw [h] at hc <;> cases hc
    show ∃ s' i'', numberInst s i1 = some (s', i'') ∧ _
    unfold numberInst
    split
    · rename_i ht
      have sh := r.shape
      simp only [Shape, ht] at sh
      obtain ⟨⟨t, h1⟩, a, b, h2⟩ := sh
      have := useVal (.bin a i1.binOp b) t h1 (Or.inl ht) (fun e w => by simp [opcode, ht, h2, valVal])
      simpa [h1, h2] using this
    · rename_i ht
      have sh := r.shape
      simp only [Shape, ht] at sh
      obtain ⟨⟨t, h1⟩, a, h2⟩ := sh
      have := useVal (.un i1.unOp a) t h1 (Or.inr ht) (fun e w => by simp [opcode, ht, h2, valVal])
      simpa [h1, h2] using this
    · rename_i ht
      have sh := r.shape
      simp only [Shape, ht] at sh
      obtain ⟨⟨t, h1⟩, a, h2⟩ := sh
      obtain ⟨s', e1, e2, e3, e4⟩ := number_ok h ssa tr (hdef t h1) (a := a) ⟨l, k, hdef t h1, by
        intro l' k' hpp
        refine ⟨avail_trans (r.avail a (by rw [h2]; exact List.mem_singleton_self a)) hpp, ?_⟩
        intro e he
        have hh := r.holds l' k' e hpp he
        simp only [Holds, ht] at hh
        exact hh a [] h2 t (by rw [h1]; exact List.mem_singleton_self t)⟩
      refine ⟨s', i1, ?_, r, e3, e4, ?_⟩
      · simp only [asVarAssign, h1, h2, List.getElem?_cons_zero, Option.bind_eq_bind, Option.bind_some, e1]
      · rw [e2]
        exact keepAll.vals
    · exact ⟨s, i1, rfl, r, keepAll⟩

end

end Verif.Opt
