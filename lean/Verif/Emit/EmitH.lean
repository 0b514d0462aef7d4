import Verif.Emit.EmitA

/-!
# The lowered form printer writes renderings
-/

namespace Verif.Emit

theorem precH_le (e : Expr) : precH e ≤ precA e := by
  cases e <;> simp [precH, precA]

theorem precH_eq {e : Expr} (h : 3 ≤ precH e) : precH e = precA e := by
  cases e <;> simp_all [precH]

theorem bodyH_ne (e : Expr) : bodyH e ≠ [] := by
  cases e with
  | unary op e =>
    cases op <;> first
      | (simp [bodyH, unTok]; done)
      | (cases e <;> simp [bodyH])
  | _ => simp [bodyH]

theorem bodyH_head (n : Nat) : ∀ e : Expr, startsObj e = false → (bodyH e).head? ≠ some (.obj n)
  | .id _, _ => by simp [bodyH]
  | .num _, _ => by simp [bodyH]
  | .obj _, h => by simp [startsObj] at h
  | .prim _, _ => by simp [bodyH]
  | .tpl _, _ => by simp [bodyH]
  | .regex _, _ => by simp [bodyH]
  | .func _, _ => by simp [bodyH]
  | .arr _, _ => by simp [bodyH]
  | .arrow _ _, _ => by simp [bodyH]
  | .unary op e, _ => by
    cases op <;> first
      | (simp [bodyH, unTok]; done)
      | (cases e <;> simp [bodyH])
  | .post op e, h => by
    simp only [bodyH]
    exact head_wrap (by simp) (bodyH_ne e) (bodyH_head n e (by simpa [startsObj] using h))
  | .binary b l r, h => by
    simp only [bodyH]
    split
    · exact head_parens (by simp)
    · exact head_wrap (by simp) (bodyH_ne l) (bodyH_head n l (by simpa [startsObj] using h))
  | .cond c t f, h => by
    simp only [bodyH, List.append_assoc]
    exact head_wrap (by simp) (bodyH_ne c) (bodyH_head n c (by simpa [startsObj] using h))
  | .call opt f as, h => by
    simp only [bodyH, List.append_assoc]
    exact head_wrap (by simp) (bodyH_ne f) (bodyH_head n f (by simpa [startsObj] using h))
  | .member opt o p, h => by
    simp only [bodyH]
    exact head_wrap (by simp) (bodyH_ne o) (bodyH_head n o (by simpa [startsObj] using h))
  | .index opt o i, h => by
    simp only [bodyH, List.append_assoc]
    exact head_wrap (by simp) (bodyH_ne o) (bodyH_head n o (by simpa [startsObj] using h))
  | .tagged f p, h => by
    simp only [bodyH]
    exact head_wrap (by simp) (bodyH_ne f) (bodyH_head n f (by simpa [startsObj] using h))

theorem itemsH_false {es : Items} (h : es ≠ .nil) : itemsH false es = .comma :: itemsH true es := by
  cases es with
  | nil => simp at h
  | hole rest => simp [itemsH]
  | item sp e rest => simp [itemsH]

theorem wrap_zero (P : Nat) (ts : List Tok) : wrap P 0 ts = ts := by simp [wrap]

abbrev GoodH (e : Expr) : Prop := Res e (endsArrowH e) (bodyH e)

theorem endsH_of_prec {e : Expr} (h : 3 ≤ precH e) : endsArrowH e = false := by
  cases e with
  | arrow n e => simp [precH] at h
  | binary b l r => revert h; cases b <;> simp only [precH, precA, endsArrowH] <;> first
      | (intro h; exact absurd h (by decide)) | (intro _; trivial)
  | _ => rfl

/-- Lowered constructions always have arguments. -/
theorem okH_new {e : Expr} (h : okH e = true) : bareNew e = false := by
  cases e with
  | unary op e =>
    by_cases ho : op = .new
    · subst ho
      cases e with
      | call opt f as =>
        cases opt with
        | false => rfl
        | true => simp [okH] at h
      | _ => simp [okH] at h
    · exact bareNew_un op e ho
  | _ => rfl

theorem chain_wrapH {e : Expr} {ts : List Tok} {k : Nat} (hb : Bare e k ts) (h : precA e < 18) :
    Chain e (wrap (precH e) 18 ts) := by
  unfold wrap
  have := precH_le e
  rw [if_pos (by omega)]
  exact .paren e k ts hb

mutual
theorem goodH : ∀ e : Expr, okH e = true → GoodH e
  | .id n, _ => r_atom (.id n) (by simp [precA]) rfl
  | .num n, _ => r_atom (.num n) (by simp [precA]) rfl
  | .obj n, _ => r_atom (.obj n) (by simp [precA]) rfl
  | .prim n, _ => r_atom (.prim n) (by simp [precA]) rfl
  | .tpl n, _ => r_atom (.tpl n) (by simp [precA]) rfl
  | .regex n, _ => r_atom (.regex n) (by simp [precA]) rfl
  | .func n, _ => r_atom (.func n) (by simp [precA]) rfl
  | .arr es, h => by
    have := goodItemsH true es (by simpa [okH] using h)
    exact r_atom (.arr es _ this) (by simp [precA]) rfl
  | .unary op e, h => by
    by_cases ho : op = .new
    · subst ho
      have hb := okH_new h
      obtain ⟨f, as, rfl⟩ : ∃ (f : Expr) (as : Items), e = .call false f as := by
        cases e with
        | call opt f as =>
          cases opt with
          | false => exact ⟨f, as, rfl⟩
          | true => simp [bareNew] at hb
        | _ => simp [bareNew] at hb
      simp only [okH, Bool.and_eq_true, Bool.or_eq_true] at h
      obtain ⟨⟨hf, has⟩, hct⟩ := h
      have hits := goodItemsH false as has
      simp only [GoodH, bodyH]
      refine r_newArgs ?_ hits
      cases hso : startsOpt f with
      | true =>
        obtain ⟨k, hbf, _⟩ := goodH f hf
        have hp := startsOpt_prec hso
        have : precH f = 18 := by cases f <;> simp_all [precH, startsOpt]
        rw [if_pos rfl, wrap, if_neg (by omega)]
        exact .paren f k _ hbf
      | false =>
        rw [if_neg (by simp)]
        exact chainH f hf (by simpa [hso] using hct)
    · have hok : okH e = true := by
        revert h; cases op <;> simp [okH] at *
      have hbody : bodyH (.unary op e) = unTok op ++ wrap (precH e) (prec (.un op)) (bodyH e) := by
        cases op <;> first | (simp at ho; done) | simp [bodyH]
      rw [GoodH, hbody]
      refine r_un ho (precH_le e) (goodH e hok) ?_
      intro _ hP h3
      exact endsH_of_prec (by omega)
  | .post op e, h => by
    simp only [GoodH, bodyH, pv_post]
    exact r_post (precH_le e) (goodH e (by simpa [okH] using h))
  | .binary b l r, h => by
    simp only [okH, Bool.and_eq_true] at h
    obtain ⟨⟨⟨⟨hl, hr⟩, ht⟩, hc⟩, haw⟩ := h
    obtain ⟨kl, hbl, bdl⟩ := goodH l hl
    obtain ⟨kr, hbr, bdr⟩ := goodH r hr
    have hPl := precH_le l
    have hPr := precH_le r
    obtain ⟨pl, kl', hsl, hkl, hpt, hpu⟩ : ∃ (pl : Bool) (kl' : Nat),
        Sh (leftMin b) l pl kl' (if b = .pow && isUnaryH l then parens (bodyH l)
          else wrap (precH l) (leftMin b) (bodyH l)) ∧
        ((pl = true ∧ kl' = 20) ∨ (pl = false ∧ kl' = kl)) ∧
        (pl = !((decide (b = .pow) && isUnaryH l) || decide (precH l < leftMin b)) → False) ∧
        (pl = false → (decide (b = .pow) && isUnaryH l) = false) := by
      cases hfl : (decide (b = .pow) && isUnaryH l) with
      | true => exact ⟨true, 20, .paren _ _ _ _ hbl, .inl ⟨rfl, rfl⟩, by simp, by simp⟩
      | false =>
        by_cases hlt : precH l < leftMin b
        · refine ⟨true, 20, ?_, .inl ⟨rfl, rfl⟩, by simp [hlt], by simp⟩
          rw [if_neg (by simp), wrap, if_pos hlt]
          exact .paren _ _ _ _ hbl
        · refine ⟨false, kl, ?_, .inr ⟨rfl, rfl⟩, by simp [hlt], fun _ => rfl⟩
          rw [if_neg (by simp), wrap, if_neg hlt]
          exact .bare _ _ _ _ (by omega) hbl
    obtain ⟨pr, kr', hsr, hkr⟩ := wrap_sh (rightMin b) hPr (Nat.le_refl _) hbr
    simp only [GoodH, bodyH]
    refine r_bin (ear := endsArrowH r) hbl bdl hbr bdr hsl hkl hsr ?_ ?_ ?_ ?_ ?_
    · rcases hkr with h | ⟨h1, h2, _⟩
      · exact .inl h
      · exact .inr ⟨h1, h2⟩
    · intro ha
      have ht' : isTarget (l, false) = true := by simpa [ha, assignable_eq] using ht
      refine ⟨ht', ?_⟩
      obtain ⟨h18, _⟩ := target_closed ht'
      cases pl with
      | false => rfl
      | true =>
        have hfl : decide (b = .pow) = false := by
          revert ha; cases b <;> simp [BinOp.isAssignment]
        have := (assign_prec b ha).2.1
        have hph : precH l = precA l := by
          cases l <;> simp_all [precH, isTarget]
        exact (hpt (by rw [hph]; simp [hfl]; omega)).elim
    · intro hb hp
      subst hb
      have hf := hpu hp
      cases l with
      | unary op x => cases op <;> simp_all [isUnaryH, powDisallowed, isAwait]
      | _ => rfl
    · intro hb
      simpa [hb] using hc
    · intro hea hpr hb
      have hM : rightMin b ≤ precH r := by
        rcases hkr with ⟨h, _⟩ | ⟨_, _, h⟩
        · simp [h] at hpr
        · exact h
      rcases hb with hb | hb
      · have := assign_prec b hb
        exact endsH_of_prec (by omega)
      · subst hb
        have hcm := isComma_prec (e := r) (by have := comma_prec; omega)
        simpa [endsArrowH, hcm] using hea
  | .cond c t f, h => by
    simp only [okH, Bool.and_eq_true] at h
    simp only [GoodH, bodyH]
    exact r_cond (M := prec .conditional) (by decide) (precH_le c) (precH_le t) (precH_le f) (goodH c h.1.1) (goodH t h.1.2)
      (goodH f h.2) (fun _ hp => endsH_of_prec (by have := pv_cond; omega))
  | .call opt f as, h => by
    simp only [okH, Bool.and_eq_true, Bool.not_eq_true'] at h
    simp only [GoodH, bodyH]
    exact r_call (precH_le f) (goodH f h.1) (okH_new h.1) (goodItemsH false as h.2)
  | .member opt o p, h => by
    simp only [okH] at h
    simp only [GoodH, bodyH]
    exact r_member (precH_le o) (goodH o h) (okH_new h)
  | .index opt o i, h => by
    simp only [okH, Bool.and_eq_true, Bool.not_eq_true'] at h
    simp only [GoodH, bodyH]
    exact r_idx (precH_le o) (goodH o h.1) (okH_new h.1) (precH_le i) (goodH i h.2)
  | .tagged f n, h => by
    simp only [okH] at h
    simp only [GoodH, bodyH]
    exact r_tagged (precH_le f) (goodH f h) (okH_new h)
  | .arrow n e, h => by
    simp only [okH, Bool.and_eq_true, Bool.or_eq_true, Bool.not_eq_true'] at h
    have hg := goodH e h.1
    obtain ⟨k, hb, bd⟩ := hg
    simp only [GoodH, bodyH, wrap_zero]
    split
    · exact r_arrow (.paren 2 e k _ hb) (by omega) (fun n => by simp [parens])
    · rename_i hcb
      have hcm : isComma e = false := by
        cases e <;> first | rfl | simpa [arrowParensH] using hcb
      have hob : isObj e = false := by
        cases e <;> first | rfl | simp [arrowParensH] at hcb
      have hso : startsObj e = false := by simpa [hcm, hob] using h.2
      exact r_arrow (.bare 2 e k _ (not_comma_prec hcm) hb) bd.pos
        (fun n => bodyH_head n e hso)
termination_by e => (sizeOf e, 0)
/-- A constructor printed without the parentheses of an optional chain. -/
theorem chainH : ∀ (e : Expr), okH e = true → okCtor e = true →
    Chain e (wrap (precH e) 18 (bodyH e))
  | .id n, _, _ => .base _ _ rfl (.id n)
  | .num n, _, _ => .base _ _ rfl (.num n)
  | .obj n, _, _ => .base _ _ rfl (.obj n)
  | .prim n, _, _ => .base _ _ rfl (.prim n)
  | .tpl n, _, _ => .base _ _ rfl (.tpl n)
  | .regex n, _, _ => .base _ _ rfl (.regex n)
  | .func n, _, _ => .base _ _ rfl (.func n)
  | .arr es, h, _ => by
    obtain ⟨k, hb, bd⟩ := goodH _ h
    have := bd.closed rfl (by simp [precA])
    subst this
    exact .base _ _ rfl hb
  | .arrow n e, h, _ => by
    obtain ⟨k, hb, _⟩ := goodH _ h
    exact chain_wrapH hb (by simp [precA])
  | .post op e, h, _ => by
    obtain ⟨k, hb, _⟩ := goodH _ h
    exact chain_wrapH hb (by simp [precA, pv_post])
  | .binary b l r, h, _ => by
    obtain ⟨k, hb, _⟩ := goodH _ h
    exact chain_wrapH hb (by have := prec_le b; simp only [precA]; omega)
  | .cond c t f, h, _ => by
    obtain ⟨k, hb, _⟩ := goodH _ h
    exact chain_wrapH hb (by simp [precA, pv_cond])
  | .unary op e, h, hc => by
    obtain ⟨k, hb, bd⟩ := goodH _ h
    by_cases ho : op = .new
    · subst ho
      have hbn := okH_new h
      have hp : precA (.unary .new e) = 18 := by show prec (.un .new) = 18; decide
      have hpH : precH (.unary .new e) = precA (.unary .new e) := rfl
      have := bd.closed hbn (by omega)
      subst this
      unfold wrap
      rw [if_neg (by omega)]
      exact .base _ _ rfl hb
    · refine chain_wrapH hb ?_
      have := un_prec op ho
      simp only [precA]
      omega
  | .call opt f as, _, hc => by simp [okCtor] at hc
  | .tagged f n, _, hc => by simp [okCtor] at hc
  | .member opt o n, h, hc => by
    simp only [okH] at h
    have := chainH o h (by simpa [okCtor] using hc)
    simp only [bodyH, precH, precA]
    exact .member opt o n _ this
  | .index opt o i, h, hc => by
    simp only [okH, Bool.and_eq_true] at h
    have := chainH o h.1 (by simpa [okCtor] using hc)
    have hi := goodH i h.2
    obtain ⟨p, k, hs⟩ := r_index 1 0 (precH_le i) (.inr (precA_pos i)) hi
    simp only [bodyH, precH, precA]
    exact .index opt o i p k _ _ this hs
termination_by e => (sizeOf e, 1)
theorem goodItemsH (h : Bool) : ∀ es : Items, okItemsH h es = true → Its h es (itemsH true es)
  | .nil, _ => .nil h
  | .hole rest, hok => by
    simp only [okItemsH, Bool.and_eq_true, bne_iff_ne, ne_eq] at hok
    obtain ⟨⟨rfl, hne⟩, hr⟩ := hok
    have := goodItemsH true rest hr
    simp only [itemsH, if_true, List.nil_append, itemsH_false hne]
    exact .hole rest _ this
  | .item sp e rest, hok => by
    simp only [okItemsH, Bool.and_eq_true, Bool.not_eq_true'] at hok
    obtain ⟨⟨hc, he⟩, hr⟩ := hok
    obtain ⟨p, k, hs⟩ := r_index 2 0 (precH_le e) (.inr (not_comma_prec hc)) (goodH e he)
    by_cases hn : rest = .nil
    · subst hn
      simp only [itemsH, if_true, List.nil_append, List.append_nil]
      exact .last h sp e p k _ hs
    · have := goodItemsH h rest hr
      simp only [itemsH, if_true, List.nil_append, itemsH_false hn]
      exact .cons h sp e rest p k _ _ hs this
termination_by es => (sizeOf es, 0)
end

end Verif.Emit
