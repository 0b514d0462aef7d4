import Verif.Emit.Emission

/-!
# The syntax tree printer writes renderings
-/

namespace Verif.Emit

/-- The printer's order of alternatives for the first token, forgetting parentheses. -/
theorem head_wrap {P M : Nat} {ts tail : List Tok} {t : Tok} (ht : t ≠ .lp) (hne : ts ≠ [])
    (h : ts.head? ≠ some t) : (wrap P M ts ++ tail).head? ≠ some t := by
  unfold wrap
  split
  · simp [parens]; exact fun h => ht h.symm
  · cases ts with
    | nil => simp at hne
    | cons u r => simpa using h

theorem head_parens {ts tail : List Tok} {t : Tok} (ht : t ≠ .lp) :
    (parens ts ++ tail).head? ≠ some t := by
  simp [parens]; exact fun h => ht h.symm

theorem wrap_ne {P M : Nat} {ts : List Tok} (h : ts ≠ []) : wrap P M ts ≠ [] := by
  unfold wrap parens
  split <;> simp_all

theorem bodyA_ne (e : Expr) : bodyA e ≠ [] := by
  cases e with
  | unary op e =>
    cases op <;> first
      | (simp [bodyA, unTok]; done)
      | (cases e with
         | call opt f as => cases opt <;> simp [bodyA]
         | _ => simp [bodyA])
  | _ => simp [bodyA]

/-- The printer's text of an expression for which `startsBrace` is false does not start with an
object literal. -/
theorem bodyA_head (n : Nat) : ∀ e : Expr, startsBrace e = false → (bodyA e).head? ≠ some (.obj n)
  | .id _, _ => by simp [bodyA]
  | .num _, _ => by simp [bodyA]
  | .obj _, h => by simp [startsBrace] at h
  | .prim _, _ => by simp [bodyA]
  | .tpl _, _ => by simp [bodyA]
  | .regex _, _ => by simp [bodyA]
  | .func _, _ => by simp [bodyA]
  | .arr _, _ => by simp [bodyA]
  | .arrow _ _, _ => by simp [bodyA]
  | .unary op e, _ => by
    cases op <;> first
      | (simp [bodyA, unTok]; done)
      | (cases e with
         | call opt f as => cases opt <;> simp [bodyA]
         | _ => simp [bodyA])
  | .post op e, h => by
    simp only [bodyA]
    exact head_wrap (by simp) (bodyA_ne e) (bodyA_head n e (by simpa [startsBrace] using h))
  | .binary b l r, h => by
    simp only [bodyA]
    split
    · exact head_parens (by simp)
    · exact head_wrap (by simp) (bodyA_ne l) (bodyA_head n l (by simpa [startsBrace] using h))
  | .cond c t f, h => by
    simp only [bodyA, List.append_assoc]
    exact head_wrap (by simp) (bodyA_ne c) (bodyA_head n c (by simpa [startsBrace] using h))
  | .call opt f as, h => by
    simp only [bodyA, List.append_assoc]
    exact head_wrap (by simp) (bodyA_ne f) (bodyA_head n f (by simpa [startsBrace] using h))
  | .member opt o p, h => by
    simp only [bodyA]
    exact head_wrap (by simp) (bodyA_ne o) (bodyA_head n o (by simpa [startsBrace] using h))
  | .index opt o i, h => by
    simp only [bodyA, List.append_assoc]
    exact head_wrap (by simp) (bodyA_ne o) (bodyA_head n o (by simpa [startsBrace] using h))
  | .tagged f p, h => by
    simp only [bodyA]
    exact head_wrap (by simp) (bodyA_ne f) (bodyA_head n f (by simpa [startsBrace] using h))

theorem itemsA_false {es : Items} (h : es ≠ .nil) : itemsA false es = .comma :: itemsA true es := by
  cases es with
  | nil => simp at h
  | hole rest => simp [itemsA]
  | item sp e rest => simp [itemsA]

theorem wrap_one (e : Expr) (ts : List Tok) : wrap (precA e) 1 ts = ts := by
  unfold wrap
  have := precA_pos e
  rw [if_neg (by omega)]

/-- Rendering of a printed expression with what is known of its edge. -/
abbrev GoodA (e : Expr) : Prop := Res e (endsArrowA e) (bodyA e)

theorem endsA_of_prec {e : Expr} (h : 4 ≤ precA e) : endsArrowA e = false := by
  cases e with
  | arrow n e => simp [precA] at h
  | binary b l r => revert h; cases b <;> simp only [precA, endsArrowA] <;> first
      | (intro h; exact absurd h (by decide)) | (intro _; simp [BinOp.isAssignment]; done)
  | unary op e => revert h; cases op <;> simp only [precA, endsArrowA] <;> first
      | (intro h; exact absurd h (by decide)) | (intro _; trivial)
  | _ => rfl

theorem chain_wrap {e : Expr} {ts : List Tok} {k : Nat} (hb : Bare e k ts) (h : precA e < 18) :
    Chain e (wrap (precA e) 18 ts) := by
  unfold wrap
  rw [if_pos h]
  exact .paren e k ts hb

mutual
theorem goodA : ∀ e : Expr, okA e = true → GoodA e
  | .id n, _ => r_atom (.id n) (by simp [precA]) rfl
  | .num n, _ => r_atom (.num n) (by simp [precA]) rfl
  | .obj n, _ => r_atom (.obj n) (by simp [precA]) rfl
  | .prim n, _ => r_atom (.prim n) (by simp [precA]) rfl
  | .tpl n, _ => r_atom (.tpl n) (by simp [precA]) rfl
  | .regex n, _ => r_atom (.regex n) (by simp [precA]) rfl
  | .func n, _ => r_atom (.func n) (by simp [precA]) rfl
  | .arr es, h => by
    have := goodItemsA true es (by simpa [okA] using h)
    exact r_atom (.arr es _ this) (by simp [precA]) rfl
  | .unary op e, h => by
    by_cases ho : op = .new
    · subst ho
      cases hb : bareNew (.unary .new e) with
      | false =>
        obtain ⟨f, as, rfl⟩ : ∃ (f : Expr) (as : Items), e = .call false f as := by
          cases e with
          | call opt f as =>
            cases opt with
            | false => exact ⟨f, as, rfl⟩
            | true => simp [bareNew] at hb
          | _ => simp [bareNew] at hb
        simp only [okA, Bool.and_eq_true, Bool.or_eq_true] at h
        obtain ⟨⟨hf, has⟩, hct⟩ := h
        have hits := goodItemsA false as has
        simp only [GoodA, bodyA]
        refine r_newArgs ?_ hits
        cases hso : startsOpt f with
        | true =>
          obtain ⟨k, hbf, _⟩ := goodA f hf
          rw [if_pos rfl, wrap, if_neg (by rw [startsOpt_prec hso]; omega)]
          exact .paren f k _ hbf
        | false =>
          rw [if_neg (by simp)]
          exact chainA f hf (by simpa [hso] using hct)
      | true =>
        have hok : okA e = true ∧ (startsOpt e = true ∨ okCtor e = true ∨ bareNew e = true) := by
          cases e with
          | call opt f as =>
            cases opt with
            | false => simp [bareNew] at hb
            | true => simpa [okA, startsOpt] using h
          | _ => simpa [okA, or_assoc] using h
        obtain ⟨he, hct⟩ := hok
        have hbody : bodyA (.unary .new e) =
            .new :: (if startsOpt e then parens (wrap (precA e) 18 (bodyA e))
              else wrap (precA e) 18 (bodyA e)) := by
          cases e with
          | call opt f as =>
            cases opt with
            | false => simp [bareNew] at hb
            | true => simp [bodyA, startsOpt, precA, wrap]
          | _ => simp [bodyA]
        rw [GoodA, hbody]
        cases hso : startsOpt e with
        | true =>
          obtain ⟨k, hbf, _⟩ := goodA e he
          rw [if_pos rfl, wrap, if_neg (by rw [startsOpt_prec hso]; omega)]
          exact r_newBare (.paren e k _ hbf) hb
        | false =>
          rw [if_neg (by simp)]
          by_cases hbe : bareNew e = true
          · obtain ⟨k, hbf, bd⟩ := goodA e he
            have := bd.bn hbe
            subst this
            rw [wrap, if_neg (by rw [bareNew_prec hbe]; omega)]
            obtain ⟨c, rfl⟩ : ∃ c : Expr, e = .unary .new c := by
              unfold bareNew at hbe
              split at hbe
              · simp at hbe
              · exact ⟨_, rfl⟩
              · simp at hbe
            exact ⟨18, .newNew c _ hbf, bd_new _ _ hb⟩
          · exact r_newBare (chainA e he (by simpa [hso, hbe] using hct)) hb
    · have hok : okA e = true := by
        revert h; cases op <;> simp [okA] at * 
      have hbody : bodyA (.unary op e) = unTok op ++ wrap (precA e) (prec (.un op)) (bodyA e) := by
        cases op <;> first | (simp at ho; done) | simp [bodyA]
      rw [GoodA, hbody]
      refine r_un ho (Nat.le_refl _) (goodA e hok) ?_
      intro hea hP h3
      have hcm := isComma_prec (e := e) (by omega)
      cases op <;> first
        | (simpa [endsArrowA, hcm] using hea)
        | (exfalso; revert h3; decide)
  | .post op e, h => by
    simp only [GoodA, bodyA]
    exact r_post (Nat.le_refl _) (goodA e (by simpa [okA] using h))
  | .binary b l r, h => by
    simp only [okA, Bool.and_eq_true] at h
    obtain ⟨⟨⟨hl, hr⟩, ht⟩, hc⟩ := h
    obtain ⟨kl, hbl, bdl⟩ := goodA l hl
    obtain ⟨kr, hbr, bdr⟩ := goodA r hr
    obtain ⟨pl, kl', hsl, hkl, hpt, hpu⟩ : ∃ (pl : Bool) (kl' : Nat),
        Sh (leftMin b) l pl kl' (if forceLeftA b l then parens (bodyA l)
          else wrap (precA l) (leftMin b) (bodyA l)) ∧
        ((pl = true ∧ kl' = 20) ∨ (pl = false ∧ kl' = kl)) ∧
        (pl = !(forceLeftA b l || decide (precA l < leftMin b)) → False) ∧
        (pl = false → forceLeftA b l = false) := by
      cases hfl : forceLeftA b l with
      | true => exact ⟨true, 20, .paren _ _ _ _ hbl, .inl ⟨rfl, rfl⟩, by simp, by simp⟩
      | false =>
        by_cases hlt : precA l < leftMin b
        · refine ⟨true, 20, ?_, .inl ⟨rfl, rfl⟩, by simp [hlt], by simp⟩
          rw [if_neg (by simp), wrap, if_pos hlt]
          exact .paren _ _ _ _ hbl
        · refine ⟨false, kl, ?_, .inr ⟨rfl, rfl⟩, by simp [hlt], fun _ => rfl⟩
          rw [if_neg (by simp), wrap, if_neg hlt]
          exact .bare _ _ _ _ (by omega) hbl
    obtain ⟨pr, kr', hsr, hkr⟩ : ∃ (pr : Bool) (kr' : Nat),
        Sh (rightMin b) r pr kr' (if forceRightA b r then parens (bodyA r)
          else wrap (precA r) (rightMin b) (bodyA r)) ∧
        ((pr = true ∧ kr' = 20) ∨ (pr = false ∧ kr' = kr)) := by
      cases hfr : forceRightA b r with
      | true => exact ⟨true, 20, .paren _ _ _ _ hbr, .inl ⟨rfl, rfl⟩⟩
      | false =>
        obtain ⟨p, k', hs, hk⟩ := wrap_sh (rightMin b) (Nat.le_refl (precA r)) (Nat.le_refl _) hbr
        refine ⟨p, k', hs, ?_⟩
        rcases hk with h | ⟨h1, h2, _⟩
        · exact .inl h
        · exact .inr ⟨h1, h2⟩
    simp only [GoodA, bodyA]
    refine r_bin hbl bdl hbr bdr hsl hkl hsr hkr ?_ ?_ ?_ ?_
    · intro ha
      have ht' : isTarget (l, false) = true := by simpa [ha, assignable_eq] using ht
      refine ⟨ht', ?_⟩
      obtain ⟨h18, _⟩ := target_closed ht'
      cases pl with
      | false => rfl
      | true =>
        have hfl : forceLeftA b l = false := by
          revert ha; cases b <;> simp [forceLeftA, BinOp.isAssignment]
        have := (assign_prec b ha).2.1
        exact (hpt (by simp [hfl]; omega)).elim
    · intro hb hp
      subst hb
      have hf := hpu hp
      cases l <;> simp_all [forceLeftA, isUnaryA, powDisallowed]
    · intro hb
      simpa [hb] using hc
    · intro hea hpr hb
      have hside := hsr.side
      rw [hpr] at hside
      have hrm : rightMin b ≤ precA r := by simpa using hside
      have h2 : 2 ≤ rightMin b := by
        rcases hb with hb | hb
        · have := assign_prec b hb; omega
        · subst hb; decide
      have hcm := isComma_prec (e := r) (by omega)
      rcases hb with hb | hb
      · simpa [endsArrowA, hb, hcm] using hea
      · simpa [endsArrowA, hb, hcm] using hea
  | .cond c t f, h => by
    simp only [okA, Bool.and_eq_true] at h
    simp only [GoodA, bodyA]
    exact r_cond (M := prec .conditional) (by decide) (Nat.le_refl _) (Nat.le_refl _) (Nat.le_refl _) (goodA c h.1.1) (goodA t h.1.2)
      (goodA f h.2) (fun _ hp => endsA_of_prec hp)
  | .call opt f as, h => by
    simp only [okA, Bool.and_eq_true, Bool.not_eq_true'] at h
    simp only [GoodA, bodyA]
    exact r_call (Nat.le_refl _) (goodA f h.1.1) h.2 (goodItemsA false as h.1.2)
  | .member opt o p, h => by
    simp only [okA, Bool.and_eq_true, Bool.not_eq_true'] at h
    simp only [GoodA, bodyA]
    exact r_member (Nat.le_refl _) (goodA o h.1) h.2
  | .index opt o i, h => by
    simp only [okA, Bool.and_eq_true, Bool.not_eq_true'] at h
    simp only [GoodA, bodyA]
    exact r_idx (Nat.le_refl _) (goodA o h.1.1) h.2 (Nat.le_refl _) (goodA i h.1.2)
  | .tagged f n, h => by
    simp only [okA, Bool.and_eq_true, Bool.not_eq_true'] at h
    simp only [GoodA, bodyA]
    exact r_tagged (Nat.le_refl _) (goodA f h.1) h.2
  | .arrow n e, h => by
    have hg := goodA e (by simpa [okA] using h)
    obtain ⟨k, hb, bd⟩ := hg
    simp only [GoodA, bodyA, wrap_one]
    split
    · exact r_arrow (.paren 2 e k _ hb) (by omega) (fun n => by simp [parens])
    · rename_i hcb
      simp only [Bool.or_eq_true, not_or, Bool.not_eq_true] at hcb
      exact r_arrow (.bare 2 e k _ (not_comma_prec hcb.1) hb) bd.pos
        (fun n => bodyA_head n e hcb.2)
termination_by e => (sizeOf e, 0)
/-- A constructor printed without the parentheses of an optional chain. -/
theorem chainA : ∀ (e : Expr), okA e = true → okCtor e = true →
    Chain e (wrap (precA e) 18 (bodyA e))
  | .id n, _, _ => .base _ _ rfl (.id n)
  | .num n, _, _ => .base _ _ rfl (.num n)
  | .obj n, _, _ => .base _ _ rfl (.obj n)
  | .prim n, _, _ => .base _ _ rfl (.prim n)
  | .tpl n, _, _ => .base _ _ rfl (.tpl n)
  | .regex n, _, _ => .base _ _ rfl (.regex n)
  | .func n, _, _ => .base _ _ rfl (.func n)
  | .arr es, h, _ => by
    obtain ⟨k, hb, bd⟩ := goodA _ h
    have := bd.closed rfl (by simp [precA])
    subst this
    exact .base _ _ rfl hb
  | .arrow n e, h, _ => by
    obtain ⟨k, hb, _⟩ := goodA _ h
    exact chain_wrap hb (by simp [precA])
  | .post op e, h, _ => by
    obtain ⟨k, hb, _⟩ := goodA _ h
    exact chain_wrap hb (by simp [precA, pv_post])
  | .binary b l r, h, _ => by
    obtain ⟨k, hb, _⟩ := goodA _ h
    exact chain_wrap hb (by have := prec_le b; simp only [precA]; omega)
  | .cond c t f, h, _ => by
    obtain ⟨k, hb, _⟩ := goodA _ h
    exact chain_wrap hb (by simp [precA, pv_cond])
  | .unary op e, h, hc => by
    obtain ⟨k, hb, bd⟩ := goodA _ h
    by_cases ho : op = .new
    · subst ho
      have hbn : bareNew (.unary .new e) = false := by simpa [okCtor] using hc
      have hp : precA (.unary .new e) = 18 := by show prec (.un .new) = 18; decide
      have := bd.closed hbn (by omega)
      subst this
      unfold wrap
      rw [if_neg (by omega)]
      exact .base _ _ rfl hb
    · refine chain_wrap hb ?_
      have := un_prec op ho
      simp only [precA]
      omega
  | .call opt f as, _, hc => by simp [okCtor] at hc
  | .tagged f n, _, hc => by simp [okCtor] at hc
  | .member opt o n, h, hc => by
    simp only [okA, Bool.and_eq_true] at h
    have := chainA o h.1 (by simpa [okCtor] using hc)
    simp only [bodyA, precA]
    exact .member opt o n _ this
  | .index opt o i, h, hc => by
    simp only [okA, Bool.and_eq_true] at h
    have := chainA o h.1.1 (by simpa [okCtor] using hc)
    have hi := goodA i h.1.2
    obtain ⟨p, k, hs⟩ := r_index 1 1 (Nat.le_refl _) (.inl (Nat.le_refl _)) hi
    simp only [bodyA, precA]
    exact .index opt o i p k _ _ this hs
termination_by e => (sizeOf e, 1)
theorem goodItemsA (h : Bool) : ∀ es : Items, okItemsA h es = true → Its h es (itemsA true es)
  | .nil, _ => .nil h
  | .hole rest, hok => by
    simp only [okItemsA, Bool.and_eq_true, bne_iff_ne, ne_eq] at hok
    obtain ⟨⟨rfl, hne⟩, hr⟩ := hok
    have := goodItemsA true rest hr
    simp only [itemsA, if_true, List.nil_append, itemsA_false hne]
    exact .hole rest _ this
  | .item sp e rest, hok => by
    simp only [okItemsA, Bool.and_eq_true, Bool.not_eq_true'] at hok
    obtain ⟨⟨hc, he⟩, hr⟩ := hok
    obtain ⟨p, k, hs⟩ := r_index 2 1 (Nat.le_refl _) (.inr (not_comma_prec hc)) (goodA e he)
    by_cases hn : rest = .nil
    · subst hn
      simp only [itemsA, if_true, List.nil_append, List.append_nil]
      exact .last h sp e p k _ hs
    · have := goodItemsA h rest hr
      simp only [itemsA, if_true, List.nil_append, itemsA_false hn]
      exact .cons h sp e rest p k _ _ hs this
termination_by es => (sizeOf es, 0)
end

end Verif.Emit
