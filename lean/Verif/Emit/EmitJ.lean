import Verif.Emit.EmitA

/-!
# The third printer writes renderings
-/

namespace Verif.Emit

/-- Rendering of a printed expression with what is known of its edge. -/
abbrev GoodJ (e : Expr) : Prop := Res e (endsArrowJ e) (bodyJ e)

theorem nextMin_right (b : BinOp) : nextMin (.bin b) = rightMin b := by cases b <;> decide

theorem bodyJ_ne (e : Expr) (h : okJ e = true) : bodyJ e ≠ [] := by
  cases e with
  | unary op e => cases op <;> simp_all [bodyJ, unTok, okJ]
  | _ => simp_all [bodyJ, okJ]

theorem bodyJ_head (n : Nat) : ∀ e : Expr, okJ e = true → (bodyJ e).head? ≠ some (.obj n)
  | .id _, _ => by simp [bodyJ]
  | .num _, _ => by simp [bodyJ]
  | .obj _, h => by simp [okJ] at h
  | .prim _, _ => by simp [bodyJ]
  | .tpl _, h => by simp [okJ] at h
  | .regex _, _ => by simp [bodyJ]
  | .func _, h => by simp [okJ] at h
  | .arr _, h => by simp [okJ] at h
  | .tagged _ _, h => by simp [okJ] at h
  | .arrow _ _, _ => by simp [bodyJ]
  | .unary op e, h => by cases op <;> simp_all [bodyJ, unTok, okJ]
  | .post op e, h => by
    have h : okJ e = true := by simpa [okJ] using h
    simp only [bodyJ]
    exact head_wrap (by simp) (bodyJ_ne e h) (bodyJ_head n e h)
  | .binary b l r, h => by
    simp only [okJ, Bool.and_eq_true] at h
    simp only [bodyJ]
    split
    · exact head_parens (by simp)
    · exact head_wrap (by simp) (bodyJ_ne l h.1.1.1.1) (bodyJ_head n l h.1.1.1.1)
  | .cond c t f, h => by
    simp only [okJ, Bool.and_eq_true] at h
    simp only [bodyJ, List.append_assoc]
    exact head_wrap (by simp) (bodyJ_ne c h.1.1) (bodyJ_head n c h.1.1)
  | .call opt f as, h => by
    simp only [okJ, Bool.and_eq_true] at h
    simp only [bodyJ, List.append_assoc]
    exact head_wrap (by simp) (bodyJ_ne f h.1) (bodyJ_head n f h.1)
  | .member opt o p, h => by
    have h : okJ o = true := by simpa [okJ] using h
    simp only [bodyJ]
    exact head_wrap (by simp) (bodyJ_ne o h) (bodyJ_head n o h)
  | .index opt o i, h => by
    simp only [okJ, Bool.and_eq_true] at h
    simp only [bodyJ, List.append_assoc]
    exact head_wrap (by simp) (bodyJ_ne o h.1) (bodyJ_head n o h.1)

theorem itemsJ_false {es : Items} (h : es ≠ .nil) (ho : okItemsJ es = true) :
    itemsJ false es = .comma :: itemsJ true es := by
  cases es with
  | nil => simp at h
  | hole rest => simp [okItemsJ] at ho
  | item sp e rest => simp [itemsJ]

theorem okJ_not_new {e : Expr} (h : okJ e = true) : bareNew e = false := by
  cases e with
  | unary op e => cases op <;> first | rfl | simp [okJ] at h
  | _ => rfl

mutual
theorem okJ_supported : ∀ e : Expr, okJ e = true → supportedJ e = true
  | .id _, _ => rfl
  | .num _, _ => rfl
  | .prim _, _ => rfl
  | .regex _, _ => rfl
  | .obj _, h => by simp [okJ] at h
  | .tpl _, h => by simp [okJ] at h
  | .func _, h => by simp [okJ] at h
  | .arr _, h => by simp [okJ] at h
  | .tagged _ _, h => by simp [okJ] at h
  | .arrow _ e, h => by
    simp only [okJ, Bool.and_eq_true] at h
    simpa [supportedJ] using okJ_supported e h.1
  | .unary op e, h => by
    have he : okJ e = true := by cases op <;> simp_all [okJ]
    have := okJ_supported e he
    cases op <;> simp_all [okJ, supportedJ, unaryJ]
  | .post op e, h => by simpa [supportedJ] using okJ_supported e (by simpa [okJ] using h)
  | .binary b l r, h => by
    simp only [okJ, Bool.and_eq_true] at h
    simp [supportedJ, okJ_supported l h.1.1.1.1, okJ_supported r h.1.1.1.2]
  | .cond c t f, h => by
    simp only [okJ, Bool.and_eq_true] at h
    simp [supportedJ, okJ_supported c h.1.1, okJ_supported t h.1.2, okJ_supported f h.2]
  | .call opt f as, h => by
    simp only [okJ, Bool.and_eq_true] at h
    simp [supportedJ, okJ_supported f h.1, okItemsJ_supported as h.2]
  | .member opt o p, h => by simpa [supportedJ] using okJ_supported o (by simpa [okJ] using h)
  | .index opt o i, h => by
    simp only [okJ, Bool.and_eq_true] at h
    simp [supportedJ, okJ_supported o h.1, okJ_supported i h.2]
theorem okItemsJ_supported : ∀ es : Items, okItemsJ es = true → supportedItemsJ es = true
  | .nil, _ => rfl
  | .hole _, h => by simp [okItemsJ] at h
  | .item sp e rest, h => by
    simp only [okItemsJ, Bool.and_eq_true] at h
    simp [supportedItemsJ, okJ_supported e h.1.2, okItemsJ_supported rest h.2]
end

mutual
theorem goodJ : ∀ e : Expr, okJ e = true → GoodJ e
  | .id n, _ => r_atom (.id n) (by simp [precA]) rfl
  | .num n, _ => r_atom (.num n) (by simp [precA]) rfl
  | .prim n, _ => r_atom (.prim n) (by simp [precA]) rfl
  | .regex n, _ => r_atom (.regex n) (by simp [precA]) rfl
  | .obj _, h => by simp [okJ] at h
  | .tpl _, h => by simp [okJ] at h
  | .func _, h => by simp [okJ] at h
  | .arr _, h => by simp [okJ] at h
  | .tagged _ _, h => by simp [okJ] at h
  | .unary op e, h => by
    have ho : op ≠ .new := by intro ho; subst ho; simp [okJ] at h
    have he : okJ e = true := by cases op <;> simp_all [okJ]
    simp only [GoodJ, bodyJ]
    refine r_un ho (Nat.le_refl _) (goodJ e he) ?_
    intro _ _ h3
    exfalso
    revert h3 h
    cases op <;> first | (intro h; simp [okJ] at h; done) | (intro _ h3; exact absurd h3 (by decide))
  | .post op e, h => by
    simp only [GoodJ, bodyJ, pv_post]
    exact r_post (Nat.le_refl _) (goodJ e (by simpa [okJ] using h))
  | .binary b l r, h => by
    simp only [okJ, Bool.and_eq_true, Bool.not_eq_true'] at h
    obtain ⟨⟨⟨⟨hl, hr⟩, ht⟩, hc⟩, hpw⟩ := h
    obtain ⟨kl, hbl, bdl⟩ := goodJ l hl
    obtain ⟨kr, hbr, bdr⟩ := goodJ r hr
    have hpe : prec (.bin b) ≤ leftMin b := by cases b <;> decide
    obtain ⟨pl, kl', hsl, hkl, hpt, hpu⟩ : ∃ (pl : Bool) (kl' : Nat),
        Sh (leftMin b) l pl kl' (if (b = .pow && isUnaryA l) = true then parens (bodyJ l)
          else wrap (precA l) (prec (.bin b)) (bodyJ l)) ∧
        ((pl = true ∧ kl' = 20) ∨ (pl = false ∧ kl' = kl)) ∧
        (isTarget (l, false) = true → b ≠ .pow → pl = false) ∧
        (pl = false → (b = .pow && isUnaryA l) = false) := by
      cases hfl : (b = .pow && isUnaryA l : Bool) with
      | true =>
        refine ⟨true, 20, ?_, .inl ⟨rfl, rfl⟩, ?_, by simp⟩
        · rw [if_pos rfl]; exact .paren _ _ _ _ hbl
        · intro _ hb; simp [hb] at hfl
      | false =>
        by_cases hlt : precA l < prec (.bin b)
        · refine ⟨true, 20, ?_, .inl ⟨rfl, rfl⟩, ?_, by simp⟩
          · rw [if_neg (by simp), wrap, if_pos hlt]
            exact .paren _ _ _ _ hbl
          · intro h _
            have := (target_closed h).1
            have := prec_le b
            omega
        · refine ⟨false, kl, ?_, .inr ⟨rfl, rfl⟩, by simp, fun _ => rfl⟩
          rw [if_neg (by simp), wrap, if_neg hlt]
          refine .bare _ _ _ _ ?_ hbl
          cases ha : b.isAssignment with
          | true =>
            have := (target_closed (l := l) (by simpa [ha, assignable_eq] using ht)).1
            have := assign_prec b ha
            omega
          | false =>
            by_cases hcm : b = .comma
            · subst hcm
              have := comma_prec
              omega
            · have hb := bin_prec b ha hcm
              by_cases h15 : prec (.bin b) = 15
              · have := hb.2.2 h15
                have hbp : b = .pow := by
                  revert h15; cases b <;> first | (intro; rfl) | (intro h; exact absurd h (by decide))
                subst hbp
                have hnp : isPow l = false := by simpa using hpw
                have h16 : 16 ≤ precA l := by
                  have h15' : prec (.bin .pow) ≤ precA l := by omega
                  have hne : precA l ≠ 15 := by
                    intro he
                    cases l with
                    | binary b' l' r' =>
                      revert he hnp
                      cases b' <;> simp only [precA, isPow] <;>
                        first | (intro h; exact absurd h (by decide)) | (intro _ h; exact absurd h (by decide))
                    | unary op e => revert he; cases op <;> (simp only [precA]; decide)
                    | post op e => revert he; cases op <;> (simp only [precA]; decide)
                    | cond c t f => revert he; simp only [precA]; decide
                    | _ => simp [precA] at he
                  omega
                omega
              · have hle := prec_le b
                have := hb.2.1 (by omega)
                omega
    obtain ⟨pr, kr', hsr, hkr⟩ := wrap_sh (M := nextMin (.bin b)) (rightMin b)
      (Nat.le_refl (precA r)) (by rw [nextMin_right]; exact Nat.le_refl _) hbr
    simp only [GoodJ, bodyJ]
    refine r_bin hbl bdl hbr bdr hsl hkl hsr (hkr.imp id (fun h => ⟨h.1, h.2.1⟩)) ?_ ?_ ?_ ?_
    · intro ha
      have ht' : isTarget (l, false) = true := by simpa [ha, assignable_eq] using ht
      exact ⟨ht', hpt ht' (by intro hb; subst hb; simp [BinOp.isAssignment] at ha)⟩
    · intro hb hp
      subst hb
      have hf := hpu hp
      cases l <;> simp_all [isUnaryA, powDisallowed]
    · intro hb
      simpa [hb] using hc
    · intro hea hpr hb
      have hside := hsr.side
      rw [hpr] at hside
      have hrm : rightMin b ≤ precA r := by simpa using hside
      have h2 : 2 ≤ rightMin b := by
        rcases hb with hb | hb
        · have := assign_prec b hb; omega
        · subst hb; decide
      have hcm := isComma_prec (e := r) (by omega)
      rcases hb with hb | hb
      · simpa [endsArrowJ, hb, hcm] using hea
      · simpa [endsArrowJ, hb, hcm] using hea
  | .cond c t f, h => by
    simp only [okJ, Bool.and_eq_true] at h
    simp only [GoodJ, bodyJ]
    refine r_cond (M := prec (.bin .assign)) (by decide) (Nat.le_refl _) (Nat.le_refl _)
      (Nat.le_refl _) (goodJ c h.1.1) (goodJ t h.1.2) (goodJ f h.2) ?_
    intro hea hM
    have h3 : prec (.bin .assign) = 3 := by decide
    have hcm := isComma_prec (e := f) (by omega)
    simpa [endsArrowJ, hcm] using hea
  | .call opt f as, h => by
    simp only [okJ, Bool.and_eq_true] at h
    simp only [GoodJ, bodyJ]
    exact r_call (Nat.le_refl _) (goodJ f h.1) (okJ_not_new h.1) (goodItemsJ as h.2)
  | .member opt o p, h => by
    have h : okJ o = true := by simpa [okJ] using h
    simp only [GoodJ, bodyJ]
    exact r_member (Nat.le_refl _) (goodJ o h) (okJ_not_new h)
  | .index opt o i, h => by
    simp only [okJ, Bool.and_eq_true] at h
    simp only [GoodJ, bodyJ]
    exact r_idx (Nat.le_refl _) (goodJ o h.1) (okJ_not_new h.1) (Nat.le_refl _) (goodJ i h.2)
  | .arrow n e, h => by
    simp only [okJ, Bool.and_eq_true, Bool.not_eq_true'] at h
    obtain ⟨k, hb, bd⟩ := goodJ e h.1
    simp only [GoodJ, bodyJ, wrap_one]
    exact r_arrow (.bare 2 e k _ (not_comma_prec h.2) hb) bd.pos (fun n => bodyJ_head n e h.1)
theorem goodItemsJ : ∀ es : Items, okItemsJ es = true → Its false es (itemsJ true es)
  | .nil, _ => .nil false
  | .hole rest, hok => by simp [okItemsJ] at hok
  | .item sp e rest, hok => by
    simp only [okItemsJ, Bool.and_eq_true, Bool.not_eq_true'] at hok
    obtain ⟨⟨hc, he⟩, hr⟩ := hok
    obtain ⟨p, k, hs⟩ := r_index 2 1 (Nat.le_refl _) (.inr (not_comma_prec hc)) (goodJ e he)
    by_cases hn : rest = .nil
    · subst hn
      simp only [itemsJ, if_true, List.nil_append, List.append_nil]
      exact .last false sp e p k _ hs
    · have := goodItemsJ rest hr
      simp only [itemsJ, if_true, List.nil_append, itemsJ_false hn hr]
      exact .cons false sp e rest p k _ _ hs this
end

end Verif.Emit
