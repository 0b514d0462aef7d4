import Verif.Emit.Parse3
import Verif.Emit.Spec

/-!
# The printers write renderings
-/

namespace Verif.Emit

/-- What is known of the edge of the rendering of `e`; `ea` says that it ends with an arrow
function. -/
structure Bd (e : Expr) (ea : Bool) (k : Nat) : Prop where
  pos : 1 ≤ k
  lt : 5 ≤ precA e → precA e ≤ 14 → precA e < k
  le : 5 ≤ precA e → precA e ≤ 16 → precA e ≤ k
  tight : 17 ≤ precA e → 18 ≤ k
  two : ea = false → 2 ≤ k
  closed : bareNew e = false → 17 ≤ precA e → k = 20
  bn : bareNew e = true → k = 18

/-- `ts` renders `e`. -/
def Res (e : Expr) (ea : Bool) (ts : List Tok) : Prop := ∃ k : Nat, Bare e k ts ∧ Bd e ea k

theorem wrap_sh {e : Expr} {k P M : Nat} {ts : List Tok} (m : Nat) (hP : P ≤ precA e) (hm : m ≤ M)
    (h : Bare e k ts) : ∃ (p : Bool) (k' : Nat), Sh m e p k' (wrap P M ts) ∧
      ((p = true ∧ k' = 20) ∨ (p = false ∧ k' = k ∧ M ≤ P)) := by
  unfold wrap
  split
  · exact ⟨true, 20, .paren _ _ _ _ h, .inl ⟨rfl, rfl⟩⟩
  · exact ⟨false, k, .bare _ _ _ _ (by omega) h, .inr ⟨rfl, rfl, by omega⟩⟩

theorem bd_closed {e : Expr} {ea : Bool} (hp : 17 ≤ precA e) (hn : bareNew e = false) :
    Bd e ea 20 := by
  constructor <;> intros <;> first | omega | rfl | simp_all

theorem bd_new (c : Expr) (ea : Bool) (h : bareNew (.unary .new c) = true) :
    Bd (.unary .new c) ea 18 := by
  have hp : precA (.unary .new c) = 18 := by
    show prec (.un .new) = 18
    decide
  constructor <;> intros <;> first | omega | rfl | simp_all

theorem bareNew_prec {e : Expr} (h : bareNew e = true) : precA e = 18 := by
  unfold bareNew at h
  split at h <;> first | rfl | simp at h

theorem bareNew_un (op : UnOp) (e : Expr) (h : op ≠ .new) : bareNew (.unary op e) = false := by
  cases op <;> first | rfl | simp at h

theorem r_atom {e : Expr} {ea : Bool} {ts : List Tok} (h : Bare e 20 ts) (hp : 17 ≤ precA e)
    (hn : bareNew e = false) : Res e ea ts := ⟨20, h, bd_closed hp hn⟩

/-- Two precedence facts of prefix operators. -/
theorem un_prec (op : UnOp) (h : op ≠ .new) : prec (.un op) = 16 ∨ prec (.un op) = 3 := by
  cases op <;> first | (left; decide) | (right; decide) | simp at h

theorem r_un {op : UnOp} {e : Expr} {ea ea' : Bool} {P : Nat} {ts : List Tok} (ho : op ≠ .new)
    (hP : P ≤ precA e) (h : Res e ea ts)
    (hea : ea' = false → prec (.un op) ≤ P → prec (.un op) = 3 → ea = false) :
    Res (.unary op e) ea' (unTok op ++ wrap P (prec (.un op)) ts) := by
  obtain ⟨k, hb, bd⟩ := h
  obtain ⟨p, k', hs, hk⟩ := wrap_sh (nextMin (.un op)) hP (by rw [nextMin_un]; exact Nat.le_refl _) hb
  refine ⟨_, .un op e p k' _ ho hs, ?_⟩
  have hpe : precA (.unary op e) = prec (.un op) := rfl
  have hbn := bareNew_un op e ho
  rw [nextMin_un]
  have hpos := bd.pos
  have h16 : prec (.un op) = 16 → 16 ≤ k' := by
    intro h16
    rcases hk with ⟨_, rfl⟩ | ⟨_, rfl, hM⟩
    · omega
    · have := bd.le; have := bd.tight; omega
  have h3 : prec (.un op) = 3 → ea' = false → 2 ≤ k' := by
    intro h3 hf
    rcases hk with ⟨_, rfl⟩ | ⟨_, rfl, hM⟩
    · omega
    · exact bd.two (hea hf hM h3)
  have h1 : 1 ≤ k' := by rcases hk with ⟨_, rfl⟩ | ⟨_, rfl, hM⟩ <;> omega
  rcases un_prec op ho with hop | hop
  · have := h16 hop
    constructor <;> intros <;> simp_all <;> omega
  · constructor
    · omega
    · omega
    · omega
    · omega
    · intro hf; have := h3 hop hf; omega
    · omega
    · simp [hbn]

theorem r_post {op : PostOp} {e : Expr} {ea ea' : Bool} {P : Nat} {ts : List Tok}
    (hP : P ≤ precA e) (h : Res e ea ts) :
    Res (.post op e) ea' (wrap P 17 ts ++ [postTok op]) := by
  obtain ⟨k, hb, bd⟩ := h
  obtain ⟨p, k', hs, hk⟩ := wrap_sh 17 hP (Nat.le_refl _) hb
  refine ⟨20, .post op e p k' _ (by rw [pv_post]; exact hs) ?_, ?_⟩
  · rw [pv_post]
    rcases hk with ⟨_, rfl⟩ | ⟨_, rfl, hM⟩
    · omega
    · have := bd.tight; omega
  · exact bd_closed (by simp [precA, pv_post]) rfl

/-- Two facts of non-assignment operators. -/
theorem bin_prec (b : BinOp) (h : b.isAssignment = false) (hc : b ≠ .comma) :
    5 ≤ prec (.bin b) ∧ (prec (.bin b) < 15 → leftMin b = prec (.bin b) ∧
      rightMin b = prec (.bin b) + 1) ∧ (prec (.bin b) = 15 → leftMin b = 16 ∧ rightMin b = 15) := by
  revert h hc; cases b <;> decide

theorem assign_prec (b : BinOp) (h : b.isAssignment = true) :
    prec (.bin b) = 3 ∧ leftMin b = 4 ∧ rightMin b = 3 := by
  revert h; cases b <;> decide

theorem comma_prec : prec (.bin .comma) = 1 ∧ leftMin .comma = 1 ∧ rightMin .comma = 2 := by decide

theorem assignable_eq (l : Expr) : assignable l = isTarget (l, false) := by
  cases l with
  | member opt o p => cases opt <;> rfl
  | index opt o i => cases opt <;> rfl
  | _ => rfl

theorem target_closed {l : Expr} (h : isTarget (l, false) = true) :
    18 ≤ precA l ∧ bareNew l = false := by
  unfold isTarget at h
  split at h <;> simp_all [precA, bareNew]

/-- A binary expression whose operands are rendered by `sl` and `sr`. -/
theorem r_bin {b : BinOp} {l r : Expr} {eal ear ea' : Bool} {kl kr : Nat} {bl br : List Tok}
    {pl pr : Bool} {kl' kr' : Nat} {tl tr : List Tok}
    (_ : Bare l kl bl) (bdl : Bd l eal kl) (_ : Bare r kr br) (bdr : Bd r ear kr)
    (hl : Sh (leftMin b) l pl kl' tl) (hlk : (pl = true ∧ kl' = 20) ∨ (pl = false ∧ kl' = kl))
    (hr : Sh (rightMin b) r pr kr' tr) (hrk : (pr = true ∧ kr' = 20) ∨ (pr = false ∧ kr' = kr))
    (htgt : b.isAssignment = true → isTarget (l, false) = true ∧ pl = false)
    (hpow : b = .pow → pl = false → powDisallowed l = false)
    (hcomma : b = .comma → eal = false)
    (hea : ea' = false → pr = false → b.isAssignment = true ∨ b = .comma → ear = false) :
    Res (.binary b l r) ea' (tl ++ binTok b :: tr) := by
  have hpe : precA (.binary b l r) = prec (.bin b) := rfl
  have hbn : bareNew (.binary b l r) = false := rfl
  have hle := prec_le b
  have hlside := hl.side
  have hrside := hr.side
  have h1r : 1 ≤ kr' := by
    have := bdr.pos
    rcases hrk with ⟨_, rfl⟩ | ⟨_, rfl⟩ <;> omega
  cases ha : b.isAssignment with
  | true =>
    obtain ⟨ht, rfl⟩ := htgt ha
    obtain ⟨h18, hnn⟩ := target_closed ht
    have hk20 := bdl.closed hnn (by omega)
    have : kl' = 20 := by rcases hlk with ⟨_, h⟩ | ⟨_, h⟩ <;> omega
    subst this
    obtain ⟨hp, hlm, hrm⟩ := assign_prec b ha
    refine ⟨_, .assign b l r pr kr' tl tr ha ht hl hr, ?_⟩
    have h2 : ea' = false → 2 ≤ kr' := by
      intro hf
      rcases hrk with ⟨_, rfl⟩ | ⟨hpr, rfl⟩
      · omega
      · exact bdr.two (hea hf hpr (.inl ha))
    constructor
    · omega
    · omega
    · omega
    · omega
    · intro hf; have := h2 hf; omega
    · omega
    · simp [hbn]
  | false =>
    by_cases hc : b = .comma
    · subst hc
      obtain ⟨hp, hlm, hrm⟩ := comma_prec
      have hkl : prec (.bin .comma) < kl' := by
        rcases hlk with ⟨_, rfl⟩ | ⟨_, rfl⟩
        · omega
        · have := bdl.two (hcomma rfl); omega
      refine ⟨_, .bin .comma l r pl pr kl' kr' tl tr ha (by simp) hl hkl hr, ?_⟩
      have h2 : ea' = false → 2 ≤ kr' := by
        intro hf
        rcases hrk with ⟨_, rfl⟩ | ⟨hpr, rfl⟩
        · omega
        · exact bdr.two (hea hf hpr (.inr rfl))
      constructor
      · omega
      · omega
      · omega
      · omega
      · intro hf; have := h2 hf; omega
      · omega
      · simp [hbn]
    · obtain ⟨h5, hlt, heq⟩ := bin_prec b ha hc
      have hkl : prec (.bin b) < kl' := by
        rcases hlk with ⟨_, rfl⟩ | ⟨hpl, rfl⟩
        · omega
        · have hs : leftMin b ≤ precA l := by
            rcases hlside with h | h
            · simp [h] at hpl
            · exact h
          have := bdl.lt; have := bdl.le; have := bdl.tight
          by_cases h15 : prec (.bin b) = 15
          · have := heq h15; omega
          · have := hlt (by omega); omega
      refine ⟨_, .bin b l r pl pr kl' kr' tl tr ha hpow hl hkl hr, ?_⟩
      have hkr : rightMin b ≤ kr' := by
        rcases hrk with ⟨_, rfl⟩ | ⟨hpr, rfl⟩
        · by_cases h15 : prec (.bin b) = 15
          · have := heq h15; omega
          · have := hlt (by omega); omega
        · have hs : rightMin b ≤ precA r := by
            rcases hrside with h | h
            · simp [h] at hpr
            · exact h
          have := bdr.le; have := bdr.tight; have := rightMin_ge b
          by_cases h15 : prec (.bin b) = 15
          · have := heq h15; omega
          · have := hlt (by omega); omega
      by_cases h15 : prec (.bin b) = 15
      · have := heq h15
        constructor
        · omega
        · omega
        · omega
        · omega
        · omega
        · omega
        · simp [hbn]
      · have := hlt (by omega)
        constructor
        · omega
        · omega
        · omega
        · omega
        · omega
        · omega
        · simp [hbn]

theorem r_cond {c t f : Expr} {eac eat eaf ea' : Bool} {Pc Pt Pf M : Nat} {bc bt bf : List Tok}
    (hM2 : 2 ≤ M) (hPc : Pc ≤ precA c) (hPt : Pt ≤ precA t) (hPf : Pf ≤ precA f)
    (hc : Res c eac bc) (ht : Res t eat bt) (hf : Res f eaf bf)
    (hea : ea' = false → M ≤ Pf → eaf = false) :
    Res (.cond c t f) ea' (wrap Pc (prec .conditional + 1) bc ++ .question ::
      wrap Pt M bt ++ .colon :: wrap Pf M bf) := by
  rw [pv_cond]
  obtain ⟨kc, hbc, bdc⟩ := hc
  obtain ⟨kt, hbt, bdt⟩ := ht
  obtain ⟨kf, hbf, bdf⟩ := hf
  obtain ⟨pc, kc', hsc, hkc⟩ := wrap_sh (M := 4 + 1) 5 hPc (Nat.le_refl _) hbc
  obtain ⟨pt, kt', hst, hkt⟩ := wrap_sh (M := M) 1 hPt (by omega) hbt
  obtain ⟨pf, kf', hsf, hkf⟩ := wrap_sh (M := M) 2 hPf (by omega) hbf
  refine ⟨_, .cond c t f pc pt pf kc' kt' kf' _ _ _ (by rw [pv_cond]; exact hsc) ?_ hst
    (by rw [pv_alt]; exact hsf), ?_⟩
  · rw [pv_cond]
    rcases hkc with ⟨_, rfl⟩ | ⟨_, rfl, hM⟩
    · omega
    · have := bdc.lt; have := bdc.le; have := bdc.tight; omega
  · have hpe : precA (.cond c t f) = 4 := pv_cond
    have h2 : ea' = false → 2 ≤ kf' := by
      intro hf
      rcases hkf with ⟨_, rfl⟩ | ⟨_, rfl, hM⟩
      · omega
      · exact bdf.two (hea hf hM)
    have h1 : 1 ≤ kf' := by
      have := bdf.pos
      rcases hkf with ⟨_, rfl⟩ | ⟨_, rfl, hM⟩ <;> omega
    rw [pv_alt]
    constructor
    · omega
    · omega
    · omega
    · omega
    · intro hf; have := h2 hf; omega
    · omega
    · simp [bareNew]

/-- A callee, object or tag. -/
theorem r_callee {f : Expr} {ea : Bool} {P : Nat} {ts : List Tok} (hP : P ≤ precA f)
    (h : Res f ea ts) (hn : bareNew f = false) : ∃ p : Bool, Sh 18 f p 20 (wrap P 18 ts) := by
  obtain ⟨k, hb, bd⟩ := h
  obtain ⟨p, k', hs, hk⟩ := wrap_sh 18 hP (Nat.le_refl _) hb
  rcases hk with ⟨_, rfl⟩ | ⟨_, rfl, hM⟩
  · exact ⟨p, hs⟩
  · have := bd.closed hn (by omega)
    subst this
    exact ⟨p, hs⟩

theorem r_index {i : Expr} {ea : Bool} {P : Nat} {ts : List Tok} (m M : Nat) (hP : P ≤ precA i)
    (hm : m ≤ M ∨ m ≤ precA i) (h : Res i ea ts) :
    ∃ (p : Bool) (k : Nat), Sh m i p k (wrap P M ts) := by
  obtain ⟨k, hb, _⟩ := h
  unfold wrap
  split
  · exact ⟨true, 20, .paren _ _ _ _ hb⟩
  · exact ⟨false, k, .bare _ _ _ _ (by omega) hb⟩

theorem r_call {f : Expr} {as : Items} {opt ea ea' : Bool} {P : Nat} {ts ta : List Tok}
    (hP : P ≤ precA f) (h : Res f ea ts) (hn : bareNew f = false) (ha : Its false as ta) :
    Res (.call opt f as) ea' (wrap P 18 ts ++ callTok opt :: ta ++ [.rp]) := by
  obtain ⟨p, hs⟩ := r_callee hP h hn
  exact r_atom (.call opt f as p _ _ hs ha) (by simp [precA]) rfl

theorem r_member {o : Expr} {n : Nat} {opt ea ea' : Bool} {P : Nat} {ts : List Tok}
    (hP : P ≤ precA o) (h : Res o ea ts) (hn : bareNew o = false) :
    Res (.member opt o n) ea' (wrap P 18 ts ++ [dotTok opt, .id n]) := by
  obtain ⟨p, hs⟩ := r_callee hP h hn
  exact r_atom (.member opt o n p _ hs) (by simp [precA]) rfl

theorem r_idx {o i : Expr} {opt ea eai ea' : Bool} {P Pi M : Nat} {ts ti : List Tok}
    (hP : P ≤ precA o) (h : Res o ea ts) (hn : bareNew o = false) (hPi : Pi ≤ precA i)
    (hi : Res i eai ti) :
    Res (.index opt o i) ea' (wrap P 18 ts ++ brackTok opt :: wrap Pi M ti ++ [.rb]) := by
  obtain ⟨p, hs⟩ := r_callee hP h hn
  obtain ⟨p', k', hs'⟩ := r_index 1 M hPi (.inr (precA_pos i)) hi
  exact r_atom (.index opt o i p p' k' _ _ hs hs') (by simp [precA]) rfl

theorem r_tagged {f : Expr} {n : Nat} {ea ea' : Bool} {P : Nat} {ts : List Tok}
    (hP : P ≤ precA f) (h : Res f ea ts) (hn : bareNew f = false) :
    Res (.tagged f n) ea' (wrap P 18 ts ++ [.tpl n]) := by
  obtain ⟨p, hs⟩ := r_callee hP h hn
  exact r_atom (.tagged f n p _ hs) (by simp [precA]) rfl

theorem r_arrow {n : Nat} {e : Expr} {p : Bool} {k : Nat} {ts : List Tok} (h : Sh 2 e p k ts)
    (hk : 1 ≤ k) (hobj : ∀ n : Nat, ts.head? ≠ some (.obj n)) :
    Res (.arrow n e) true (.arrow n :: ts) := by
  refine ⟨_, .arrow n e p k ts h hobj, ?_⟩
  have hpe : precA (.arrow n e) = 3 := rfl
  constructor
  · omega
  · omega
  · omega
  · omega
  · simp
  · omega
  · simp [bareNew]

/-- Only a comma expression has the precedence of the comma. -/
theorem not_comma_prec {e : Expr} (h : isComma e = false) : 2 ≤ precA e := by
  cases e with
  | binary b l r => cases b <;> first | (simp [isComma] at h; done) | (simp only [precA]; decide)
  | unary op e => cases op <;> (simp only [precA]; decide)
  | post op e => cases op <;> (simp only [precA]; decide)
  | cond c t f => simp only [precA]; decide
  | _ => simp [precA]

/-- `new` in front of a constructor. -/
theorem r_newBare {c : Expr} {ea : Bool} {ts : List Tok} (h : Chain c ts)
    (hb : bareNew (.unary .new c) = true) : Res (.unary .new c) ea (.new :: ts) :=
  ⟨18, .newBare c ts h, bd_new c ea hb⟩

theorem r_newArgs {c : Expr} {as : Items} {ea : Bool} {ts ta : List Tok} (h : Chain c ts)
    (ha : Its false as ta) :
    Res (.unary .new (.call false c as)) ea (.new :: ts ++ .lp :: ta ++ [.rp]) :=
  r_atom (.newArgs c as ts ta h ha) (by simp only [precA]; decide) rfl

theorem startsOpt_prec {e : Expr} (h : startsOpt e = true) : precA e = 18 := by
  cases e <;> simp_all [startsOpt, precA]

theorem isComma_prec {e : Expr} (h : 2 ≤ precA e) : isComma e = false := by
  unfold isComma
  split
  · have h1 : prec (.bin .comma) = 1 := by decide
    simp only [precA] at h
    omega
  · rfl

end Verif.Emit
