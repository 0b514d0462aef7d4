import Verif.Names.Spec
import Verif.Values.Lemmas
import Verif.Harness.Lemmas
import Mathlib.Data.List.Nodup
import Mathlib.Data.List.Pairwise
/-!
# Helper lemmas for names
-/

namespace Verif.Names

/-! ## Encoding -/

theorem firstChars_length : firstChars.length = 54 := rfl
theorem nonFirstChars_length : nonFirstChars.length = 64 := rfl

theorem first_idx : ∀ i, i < 54 → firstChars.idxOf (firstChars.getD i 0) = i := by decide +kernel
theorem nonFirst_idx : ∀ i, i < 64 → nonFirstChars.idxOf (nonFirstChars.getD i 0) = i := by decide +kernel

instance (c : Nat) : Decidable (IdentStart c) := by unfold IdentStart; infer_instance
instance (c : Nat) : Decidable (IdentPart c) := by unfold IdentPart; infer_instance
instance : (n : Name) → Decidable (IdentName n)
  | [] => by unfold IdentName; infer_instance
  | _ :: _ => by unfold IdentName; infer_instance

theorem first_start : ∀ i, i < 54 → IdentStart (firstChars.getD i 0) := by decide +kernel
theorem nonFirst_part : ∀ i, i < 64 → IdentPart (nonFirstChars.getD i 0) := by decide +kernel

/-- Inverse of `encodeTail`. -/
def decodeTail : Name → Nat
  | [] => 0
  | c :: cs => nonFirstChars.idxOf c + 64 * decodeTail cs

/-- Inverse of `encode`. -/
def decode : Name → Nat
  | [] => 0
  | c :: cs => firstChars.idxOf c + 54 * decodeTail cs

theorem decodeTail_encodeTail : ∀ fuel n, n ≤ fuel → decodeTail (encodeTail fuel n) = n := by
  intro fuel
  induction fuel with
  | zero => intro n h; simp [encodeTail, decodeTail]; omega
  | succ fuel ih =>
    intro n h
    unfold encodeTail
    rw [nonFirstChars_length]
    split
    · rename_i hn
      simp only [decodeTail]
      rw [nonFirst_idx _ (Nat.mod_lt _ (by decide)), ih _ (by omega)]
      omega
    · simp [decodeTail]; omega

theorem decode_encode (n : Nat) : decode (encode n) = n := by
  unfold encode
  rw [firstChars_length]
  simp only [decode]
  rw [first_idx _ (Nat.mod_lt _ (by decide)), decodeTail_encodeTail _ _ (Nat.div_le_self _ _)]
  omega

theorem encode_injective : Function.Injective encode := fun a b h => by
  rw [← decode_encode a, h, decode_encode b]

theorem encodeTail_part : ∀ fuel n, ∀ d ∈ encodeTail fuel n, IdentPart d := by
  intro fuel
  induction fuel with
  | zero => intro n d h; simp [encodeTail] at h
  | succ fuel ih =>
    intro n d h
    unfold encodeTail at h
    split at h
    · rcases List.mem_cons.1 h with rfl | h
      · exact nonFirst_part _ (Nat.mod_lt _ (by decide))
      · exact ih _ _ h
    · simp at h

theorem encode_ident (n : Nat) : IdentName (encode n) :=
  ⟨first_start _ (Nat.mod_lt _ (by decide)), encodeTail_part _ _⟩

theorem nextName_some (allowed : Name → Bool) : ∀ fuel c n c', nextName allowed fuel c = some (n, c') →
    ∃ k, k < fuel ∧ c' = c + k + 1 ∧ n = encode (c + k) ∧ allowed n = true ∧
      ∀ j, j < k → allowed (encode (c + j)) = false := by
  intro fuel
  induction fuel with
  | zero => intro c n c' h; simp [nextName] at h
  | succ fuel ih =>
    intro c n c' h
    simp only [nextName] at h
    split at h
    · rename_i ha
      simp only [Option.some.injEq, Prod.mk.injEq] at h
      exact ⟨0, by omega, by omega, h.1.symm, h.1 ▸ ha, fun j hj => absurd hj (by omega)⟩
    · rename_i ha
      obtain ⟨k, hk, h1, h2, h3, h4⟩ := ih _ _ _ h
      refine ⟨k + 1, by omega, by omega, by rw [h2]; congr 1; omega, h3, ?_⟩
      intro j hj
      cases j with
      | zero => simpa using ha
      | succ j => have := h4 j (by omega); rw [← this]; congr 2; omega

theorem nextName_none (allowed : Name → Bool) : ∀ fuel c, nextName allowed fuel c = none →
    ∀ j, j < fuel → allowed (encode (c + j)) = false := by
  intro fuel
  induction fuel with
  | zero => intro c h j hj; omega
  | succ fuel ih =>
    intro c h j hj
    simp only [nextName] at h
    split at h
    · simp at h
    · rename_i ha
      cases j with
      | zero => simpa using ha
      | succ j => have := ih _ h j (by omega); rw [← this]; congr 2; omega

theorem pigeon {α : Type} [DecidableEq α] (f : Nat → α) (hf : Function.Injective f) (S : List α) (n : Nat)
    (h : ∀ j, j < n → f j ∈ S) : n ≤ S.length := by
  have hn : ((List.range n).map f).Nodup := List.nodup_range.map hf
  have := hn.length_le_of_subset (l₂ := S) (by
    intro x hx
    obtain ⟨j, hj, rfl⟩ := List.mem_map.1 hx
    exact h j (List.mem_range.1 hj))
  simpa using this

theorem nextName_total (S : List Name) (fuel c : Nat) (h : S.length < fuel) :
    ∃ n c', nextName (fun n => !S.contains n) fuel c = some (n, c') := by
  cases e : nextName (fun n => !S.contains n) fuel c with
  | some p => exact ⟨p.1, p.2, rfl⟩
  | none =>
    have h2 := nextName_none _ _ _ e
    have := pigeon (fun j => encode (c + j)) (fun a b hab => by
      have := encode_injective hab; omega) S fuel (fun j hj => by simpa using h2 j hj)
    omega

theorem nextNames_spec (fuel : Nat) : ∀ (ss : List (List Name)) (c : Nat) (ns : List Name) (c' : Nat),
    nextNames fuel ss c = some (ns, c') →
    c ≤ c' ∧ (∀ n ∈ ns, ∃ k, c ≤ k ∧ k < c' ∧ n = encode k) ∧ ns.Nodup ∧
      List.Forall₂ (fun n s => n ∉ s) ns ss := by
  intro ss
  induction ss with
  | nil =>
    intro c ns c' h
    simp only [nextNames, Option.some.injEq, Prod.mk.injEq] at h
    obtain ⟨rfl, rfl⟩ := h
    exact ⟨Nat.le_refl _, by simp, List.nodup_nil, .nil⟩
  | cons s ss ih =>
    intro c ns c' h
    simp only [nextNames] at h
    split at h
    · simp at h
    · rename_i n c1 e1
      split at h
      · simp at h
      · rename_i ns' c2 e2
        simp only [Option.some.injEq, Prod.mk.injEq] at h
        obtain ⟨rfl, rfl⟩ := h
        obtain ⟨h1, h2, h3, h4⟩ := ih _ _ _ e2
        obtain ⟨k, hk, rfl, rfl, ha, _⟩ := nextName_some _ _ _ _ _ e1
        refine ⟨by omega, ?_, List.nodup_cons.2 ⟨?_, h3⟩, .cons ?_ h4⟩
        · intro m hm
          rcases List.mem_cons.1 hm with rfl | hm
          · exact ⟨c + k, by omega, by omega, rfl⟩
          · obtain ⟨k', a, b, d⟩ := h2 m hm
            exact ⟨k', by omega, b, d⟩
        · intro hm
          obtain ⟨k', a, _, d⟩ := h2 _ hm
          have := encode_injective d
          omega
        · simpa using ha

/-! ## Mangler loops -/

/-- The `k`-th candidate. -/
def cand (base : Name) (k : Nat) : Name := if k = 0 then base else suffixed base k

theorem toDigits_injective : Function.Injective Values.toDigits := fun a b h => by
  rw [← Values.toDigits_value a, h, Values.toDigits_value b]

theorem suffixed_length (base : Name) (k : Nat) : base.length < (suffixed base k).length := by
  simp [suffixed]

theorem cand_injective (base : Name) : Function.Injective (cand base) := by
  intro a b h
  unfold cand at h
  split at h <;> split at h
  · omega
  · have := suffixed_length base b; rw [← h] at this; omega
  · have := suffixed_length base a; rw [h] at this; omega
  · have := List.append_cancel_left h
    exact toDigits_injective (List.cons.inj this).2

theorem freshLoop_some (used : List Name) (base : Name) : ∀ fuel c n c',
    freshLoop used base fuel c = some (n, c') → ∃ k, n = cand base k ∧ n ∉ used := by
  intro fuel
  induction fuel with
  | zero => intro c n c' h; simp [freshLoop] at h
  | succ fuel ih =>
    intro c n c' h
    simp only [freshLoop] at h
    rw [show (if c = 0 then base else suffixed base c) = cand base c from rfl] at h
    split at h
    · exact ih _ _ _ h
    · rename_i hu
      simp only [Option.some.injEq, Prod.mk.injEq] at h
      refine ⟨c, h.1.symm, ?_⟩
      rw [← h.1]
      simpa using hu

theorem freshLoop_none (used : List Name) (base : Name) : ∀ fuel c,
    freshLoop used base fuel c = none → ∀ j, j < fuel → cand base (c + j) ∈ used := by
  intro fuel
  induction fuel with
  | zero => intro c h j hj; omega
  | succ fuel ih =>
    intro c h j hj
    simp only [freshLoop] at h
    rw [show (if c = 0 then base else suffixed base c) = cand base c from rfl] at h
    split at h
    · rename_i hu
      cases j with
      | zero => simpa using hu
      | succ j => have := ih _ h j (by omega); rw [show c + (j + 1) = c + 1 + j by omega]; exact this
    · simp at h

theorem freshLoop_total (used : List Name) (base : Name) (fuel c : Nat) (h : used.length < fuel) :
    ∃ n c', freshLoop used base fuel c = some (n, c') := by
  cases e : freshLoop used base fuel c with
  | some p => exact ⟨p.1, p.2, rfl⟩
  | none =>
    have := pigeon (fun j => cand base (c + j)) (fun a b hab => by
      have := cand_injective base hab; omega) used fuel (freshLoop_none used base fuel c e)
    omega

theorem uniqueLoop_eq (used : List Name) (base : Name) : ∀ fuel d,
    uniqueLoop used base fuel (cand base d) (d + 1) = (freshLoop used base fuel d).map Prod.fst := by
  intro fuel
  induction fuel with
  | zero => intro d; rfl
  | succ fuel ih =>
    intro d
    simp only [uniqueLoop, freshLoop]
    have h1 : (if d = 0 then base else suffixed base d) = cand base d := rfl
    rw [h1]
    split
    · have := ih (d + 1)
      simpa [cand] using this
    · rfl

theorem ensureUnique_some {fuel : Nat} {m m' : Mangler} {base n : Name}
    (h : m.ensureUnique fuel base = some (n, m')) :
    (∃ k, n = cand base k) ∧ n ∉ m.used ∧ m' = { m with used := n :: m.used } := by
  unfold Mangler.ensureUnique at h
  have e := uniqueLoop_eq m.used base fuel 0
  simp only [cand, if_true, Nat.zero_add] at e
  rw [e] at h
  cases e2 : freshLoop m.used base fuel 0 with
  | none => rw [e2] at h; simp at h
  | some p =>
    rw [e2] at h
    simp only [Option.map_some, Option.some.injEq, Prod.mk.injEq] at h
    obtain ⟨k, h1, h2⟩ := freshLoop_some _ _ _ _ p.1 p.2 e2
    obtain ⟨rfl, rfl⟩ := h
    exact ⟨⟨k, h1⟩, h2, rfl⟩

theorem ensureUnique_total {fuel : Nat} {m : Mangler} (base : Name) (h : m.used.length < fuel) :
    ∃ n m', m.ensureUnique fuel base = some (n, m') := by
  unfold Mangler.ensureUnique
  have e := uniqueLoop_eq m.used base fuel 0
  simp only [cand, if_true, Nat.zero_add] at e
  rw [e]
  obtain ⟨n, c', e2⟩ := freshLoop_total m.used base fuel 0 h
  rw [e2]
  exact ⟨_, _, rfl⟩

/-! ## Valid identifiers -/

theorem isStart_iff (c : Nat) : isStart c = true ↔ IdentStart c := by
  unfold isStart IdentStart
  simp only [Bool.or_eq_true, Bool.and_eq_true, decide_eq_true_eq, beq_iff_eq]
  omega

theorem isContinue_iff (c : Nat) : isContinue c = true ↔ IdentPart c := by
  unfold isContinue IdentPart
  simp only [Bool.or_eq_true, Bool.and_eq_true, decide_eq_true_eq, isStart_iff]

theorem sanitizeFrom_part : ∀ (s : Name) (i : Nat), ∀ d ∈ sanitizeFrom (i + 1) s, IdentPart d := by
  intro s
  induction s with
  | nil => intro i d h; simp [sanitizeFrom] at h
  | cons c cs ih =>
    intro i d h
    simp only [sanitizeFrom] at h
    rw [if_neg (Nat.succ_ne_zero i)] at h
    rcases List.mem_cons.1 h with rfl | h
    · by_cases hv : isContinue c = true
      · rw [if_pos hv]; exact (isContinue_iff c).1 hv
      · rw [if_neg hv]; decide
    · exact ih _ _ h

theorem sanitize_ident (s : Name) : IdentName (sanitize s) := by
  cases s with
  | nil => exact ⟨.inr (.inr (.inr rfl)), by simp [sanitizeFrom]⟩
  | cons c cs =>
    have hs : IdentStart (if isStart c = true then c else 95) := by
      split
      · rename_i h; exact (isStart_iff c).1 h
      · exact .inr (.inr (.inr rfl))
    unfold sanitize
    simp only [sanitizeFrom, if_true]
    generalize (if isStart c = true then c else 95) = d at hs
    split
    · refine ⟨.inr (.inr (.inr rfl)), ?_⟩
      intro d hd
      rcases List.mem_cons.1 hd with rfl | hd
      · exact .inl hs
      · exact sanitizeFrom_part _ _ _ hd
    · exact ⟨hs, sanitizeFrom_part _ _⟩

theorem sanitizeFrom_id : ∀ (s : Name) (i : Nat), (∀ d ∈ s, IdentPart d) → sanitizeFrom (i + 1) s = s := by
  intro s
  induction s with
  | nil => intro i _; rfl
  | cons c cs ih =>
    intro i h
    simp only [sanitizeFrom]
    rw [ih _ (fun d hd => h d (List.mem_cons_of_mem _ hd))]
    have := (isContinue_iff c).2 (h c List.mem_cons_self)
    simp [this]

/-- Valid identifiers are left alone. -/
theorem sanitize_id (s : Name) (h : IdentName s) : sanitize s = s := by
  cases s with
  | nil => exact h.elim
  | cons c cs =>
    unfold sanitize
    have h1 : isStart c = true := (isStart_iff c).2 h.1
    simp only [sanitizeFrom, if_true, h1]
    rw [sanitizeFrom_id _ _ h.2]
    rw [if_neg]
    have := h.1
    unfold IdentStart at this
    simp only [List.isEmpty_cons, Bool.false_or, Bool.and_eq_true, decide_eq_true_eq]
    omega

theorem digits_part (k : Nat) : ∀ d ∈ Values.toDigits k, IdentPart d :=
  fun d hd => .inr ((Values.toDigits_digits k).2 d hd)

theorem ident_append {s t : Name} (h : IdentName s) (ht : ∀ d ∈ t, IdentPart d) : IdentName (s ++ t) := by
  cases s with
  | nil => exact h.elim
  | cons c cs =>
    refine ⟨h.1, ?_⟩
    intro d hd
    rcases List.mem_append.1 hd with hd | hd
    · exact h.2 d hd
    · exact ht d hd

theorem cand_ident {base : Name} (h : IdentName base) (k : Nat) : IdentName (cand base k) := by
  unfold cand
  split
  · exact h
  · refine ident_append h ?_
    intro d hd
    rcases List.mem_cons.1 hd with rfl | hd
    · exact .inl (.inr (.inr (.inr rfl)))
    · exact digits_part _ _ hd

theorem shortRev_letters : ∀ fuel n, ∀ d ∈ shortRev fuel n, 97 ≤ d ∧ d ≤ 122 := by
  intro fuel
  induction fuel with
  | zero => intro n d h; simp [shortRev] at h
  | succ fuel ih =>
    intro n d h
    simp only [shortRev] at h
    split at h
    · simp only [List.mem_singleton] at h; omega
    · rcases List.mem_cons.1 h with rfl | h
      · omega
      · exact ih _ _ h

theorem shortRev_ne_nil (fuel n : Nat) : shortRev (fuel + 1) n ≠ [] := by
  simp only [shortRev]
  split <;> simp

/-- Inverse of `shortRev`. -/
def shortVal : Name → Nat
  | [] => 0
  | [c] => c - 97
  | c :: cs => (c - 97) + 26 * (shortVal cs + 1)

theorem shortVal_shortRev : ∀ fuel n, n < fuel → shortVal (shortRev fuel n) = n := by
  intro fuel
  induction fuel with
  | zero => intro n h; omega
  | succ fuel ih =>
    intro n h
    simp only [shortRev]
    split
    · simp only [shortVal]; omega
    · rename_i hn
      have hr := ih (n / 26 - 1) (by omega)
      cases fuel with
      | zero => omega
      | succ f =>
        cases e : shortRev (f + 1) (n / 26 - 1) with
        | nil => exact absurd e (shortRev_ne_nil _ _)
        | cons d ds =>
          rw [e] at hr
          simp only [shortVal, hr]
          omega

theorem encodeShort_val (n : Nat) : shortVal (encodeShort n).reverse = n := by
  unfold encodeShort
  rw [List.reverse_reverse]
  exact shortVal_shortRev _ _ (Nat.lt_succ_self n)

theorem encodeShort_ident (n : Nat) : IdentName (encodeShort n) := by
  have h1 : ∀ d ∈ encodeShort n, 97 ≤ d ∧ d ≤ 122 := by
    intro d hd
    exact shortRev_letters (n + 1) n d (by simpa [encodeShort] using hd)
  have h2 : encodeShort n ≠ [] := by
    unfold encodeShort
    simpa using shortRev_ne_nil n n
  cases e : encodeShort n with
  | nil => exact absurd e h2
  | cons c cs =>
    rw [e] at h1
    exact ⟨.inl (h1 c List.mem_cons_self), fun d hd => .inl (.inl (h1 d (List.mem_cons_of_mem _ hd)))⟩

/-! ## Histories of the mangler -/

/-- The base name of a register or foreign binding. -/
def regBase (minify : Bool) (r : Nat) : Name :=
  if minify then encodeShort r else sanitize (114 :: Values.toDigits r)

/-- The base name of a foreign binding. -/
def foreignBase (minify : Bool) (i : Nat) : Name :=
  if minify then encodeShort i else sanitize (95 :: 95 :: 102 :: Values.toDigits i)

/-- The shape of an answer. -/
def Shape : Request → Name → Prop
  | .fresh pre, n => ∃ k, n = cand (sanitize pre) k
  | .reg _ r, n => ∃ b k, n = cand (regBase b r) k
  | .foreign _ i, n => ∃ b k, n = cand (foreignBase b i) k

theorem shape_ident {q : Request} {n : Name} (h : Shape q n) : IdentName n := by
  cases q with
  | fresh pre => obtain ⟨k, rfl⟩ := h; exact cand_ident (sanitize_ident _) _
  | reg b r =>
    obtain ⟨b, k, rfl⟩ := h
    refine cand_ident ?_ _
    unfold regBase
    split
    · exact encodeShort_ident _
    · exact sanitize_ident _
  | foreign b r =>
    obtain ⟨b, k, rfl⟩ := h
    refine cand_ident ?_ _
    unfold foreignBase
    split
    · exact encodeShort_ident _
    · exact sanitize_ident _

theorem sameThing_symm {a b : Request} (h : SameThing a b) : SameThing b a := by
  cases a <;> cases b <;> simp_all [SameThing]

/-- Invariant relating the mangler to the answers given so far. -/
structure Inv (R : List Name) (m : Mangler) (log : List (Request × Name)) : Prop where
  reserved : ∀ n ∈ R, n ∈ m.used
  logged : ∀ e ∈ log, e.2 ∈ m.used ∧ e.2 ∉ R ∧ Shape e.1 e.2
  regs : ∀ r n, m.regs.lookup r = some n ↔ ∃ b, (Request.reg b r, n) ∈ log
  foreigns : ∀ i n, m.foreigns.lookup i = some n ↔ ∃ b, (Request.foreign b i, n) ∈ log
  distinct : log.Pairwise (fun a b => a.2 = b.2 ↔ SameThing a.1 b.1)

theorem inv_new (reserved : List Name) :
    Inv (defaultReserved ++ reserved) (Mangler.new reserved) [] :=
  ⟨fun _ h => h, by simp, by simp [Mangler.new], by simp [Mangler.new], .nil⟩

theorem inv_related {R : List Name} {m : Mangler} {log : List (Request × Name)} (hi : Inv R m log)
    {a b : Request × Name} (ha : a ∈ log) (hb : b ∈ log) (hab : a ≠ b) :
    a.2 = b.2 ↔ SameThing a.1 b.1 := by
  have hs : ∀ x y : Request × Name, (x.2 = y.2 ↔ SameThing x.1 y.1) → (y.2 = x.2 ↔ SameThing y.1 x.1) :=
    fun x y h => ⟨fun e => sameThing_symm (h.1 e.symm), fun s => (h.2 (sameThing_symm s)).symm⟩
  haveI : Std.Symm (fun a b : Request × Name => a.2 = b.2 ↔ SameThing a.1 b.1) := ⟨hs⟩
  exact List.Pairwise.forall (R := fun a b : Request × Name => a.2 = b.2 ↔ SameThing a.1 b.1) hi.distinct ha hb hab

theorem lookup_cons_nat {β : Type} (a b : Nat) (v : β) (l : List (Nat × β)) :
    ((a, v) :: l).lookup b = if b = a then some v else l.lookup b := by
  rw [List.lookup_cons]
  by_cases h : b = a
  · subst h; simp
  · simp [h, beq_eq_false_iff_ne.2 h]

/-- A new name preserves the invariant. -/
theorem inv_new_name {R : List Name} {m : Mangler} {log : List (Request × Name)} (hi : Inv R m log)
    {q : Request} {n : Name} {m' : Mangler} (hn : n ∉ m.used) (hs : Shape q n)
    (hu : m'.used = n :: m.used)
    (hr : m'.regs = match q with | .reg _ r => (r, n) :: m.regs | _ => m.regs)
    (hf : m'.foreigns = match q with | .foreign _ r => (r, n) :: m.foreigns | _ => m.foreigns)
    (hq : ∀ b r, q = .reg b r → m.regs.lookup r = none)
    (hq' : ∀ b r, q = .foreign b r → m.foreigns.lookup r = none) :
    Inv R m' ((q, n) :: log) := by
  refine ⟨?_, ?_, ?_, ?_, ?_⟩
  · intro x hx; rw [hu]; exact List.mem_cons_of_mem _ (hi.reserved x hx)
  · intro e he
    rw [hu]
    rcases List.mem_cons.1 he with rfl | he
    · exact ⟨List.mem_cons_self, fun h => hn (hi.reserved _ h), hs⟩
    · have := hi.logged e he
      exact ⟨List.mem_cons_of_mem _ this.1, this.2⟩
  · intro r x
    rw [hr]
    cases q with
    | fresh pre => simp [hi.regs]
    | foreign b i => simp [hi.regs]
    | reg b r' =>
      simp only [lookup_cons_nat]
      split
      · rename_i e
        subst e
        have h0 := hq b r rfl
        constructor
        · intro e
          rw [← Option.some.inj e]
          exact ⟨b, List.mem_cons_self⟩
        · rintro ⟨b', hb⟩
          rcases List.mem_cons.1 hb with hb | hb
          · simp only [Prod.mk.injEq] at hb; rw [hb.2]
          · have := (hi.regs r x).2 ⟨b', hb⟩
            rw [h0] at this; simp at this
      · rename_i hne
        rw [hi.regs]
        constructor
        · rintro ⟨b', hb⟩; exact ⟨b', List.mem_cons_of_mem _ hb⟩
        · rintro ⟨b', hb⟩
          rcases List.mem_cons.1 hb with hb | hb
          · simp only [Prod.mk.injEq, Request.reg.injEq] at hb; exact absurd hb.1.2 hne
          · exact ⟨b', hb⟩
  · intro r x
    rw [hf]
    cases q with
    | fresh pre => simp [hi.foreigns]
    | reg b i => simp [hi.foreigns]
    | foreign b r' =>
      simp only [lookup_cons_nat]
      split
      · rename_i e
        subst e
        have h0 := hq' b r rfl
        constructor
        · intro e
          rw [← Option.some.inj e]
          exact ⟨b, List.mem_cons_self⟩
        · rintro ⟨b', hb⟩
          rcases List.mem_cons.1 hb with hb | hb
          · simp only [Prod.mk.injEq] at hb; rw [hb.2]
          · have := (hi.foreigns r x).2 ⟨b', hb⟩
            rw [h0] at this; simp at this
      · rename_i hne
        rw [hi.foreigns]
        constructor
        · rintro ⟨b', hb⟩; exact ⟨b', List.mem_cons_of_mem _ hb⟩
        · rintro ⟨b', hb⟩
          rcases List.mem_cons.1 hb with hb | hb
          · simp only [Prod.mk.injEq, Request.foreign.injEq] at hb; exact absurd hb.1.2 hne
          · exact ⟨b', hb⟩
  · refine List.pairwise_cons.2 ⟨?_, hi.distinct⟩
    intro e he
    constructor
    · intro h
      exact absurd ((hi.logged e he).1) (by rw [← h]; exact hn)
    · intro h
      exfalso
      obtain ⟨q', n'⟩ := e
      cases q with
      | fresh pre => cases q' <;> simp [SameThing] at h
      | reg b r =>
        cases q' with
        | reg b' r' =>
          simp only [SameThing] at h
          subst h
          have := (hi.regs r n').2 ⟨b', he⟩
          rw [hq b r rfl] at this; simp at this
        | fresh _ => simp [SameThing] at h
        | foreign _ _ => simp [SameThing] at h
      | foreign b r =>
        cases q' with
        | foreign b' r' =>
          simp only [SameThing] at h
          subst h
          have := (hi.foreigns r n').2 ⟨b', he⟩
          rw [hq' b r rfl] at this; simp at this
        | fresh _ => simp [SameThing] at h
        | reg _ _ => simp [SameThing] at h

/-- A remembered name preserves the invariant. -/
theorem inv_cached {R : List Name} {m : Mangler} {log : List (Request × Name)} (hi : Inv R m log)
    {q q0 : Request} {n : Name} (h0 : (q0, n) ∈ log) (hs : SameThing q q0)
    (hq : (∃ b b' r, q = .reg b r ∧ q0 = .reg b' r) ∨ (∃ b b' r, q = .foreign b r ∧ q0 = .foreign b' r)) :
    Inv R m ((q, n) :: log) := by
  have hl := hi.logged _ h0
  refine ⟨hi.reserved, ?_, ?_, ?_, ?_⟩
  · intro e he
    rcases List.mem_cons.1 he with rfl | he
    · refine ⟨hl.1, hl.2.1, ?_⟩
      rcases hq with ⟨b, b', r, rfl, rfl⟩ | ⟨b, b', r, rfl, rfl⟩
      · exact hl.2.2
      · exact hl.2.2
    · exact hi.logged e he
  · intro r x
    rw [hi.regs]
    constructor
    · rintro ⟨b', hb⟩; exact ⟨b', List.mem_cons_of_mem _ hb⟩
    · rintro ⟨b', hb⟩
      rcases List.mem_cons.1 hb with hb | hb
      · simp only [Prod.mk.injEq] at hb
        obtain ⟨rfl, rfl⟩ := hb
        rcases hq with ⟨b, b'', r', h1, rfl⟩ | ⟨b, b'', r', h1, rfl⟩
        · obtain ⟨rfl, rfl⟩ := Request.reg.inj h1
          exact ⟨b'', h0⟩
        · simp at h1
      · exact ⟨b', hb⟩
  · intro r x
    rw [hi.foreigns]
    constructor
    · rintro ⟨b', hb⟩; exact ⟨b', List.mem_cons_of_mem _ hb⟩
    · rintro ⟨b', hb⟩
      rcases List.mem_cons.1 hb with hb | hb
      · simp only [Prod.mk.injEq] at hb
        obtain ⟨rfl, rfl⟩ := hb
        rcases hq with ⟨b, b'', r', h1, rfl⟩ | ⟨b, b'', r', h1, rfl⟩
        · simp at h1
        · obtain ⟨rfl, rfl⟩ := Request.foreign.inj h1
          exact ⟨b'', h0⟩
      · exact ⟨b', hb⟩
  · refine List.pairwise_cons.2 ⟨?_, hi.distinct⟩
    intro e he
    have key : n = e.2 ↔ SameThing q0 e.1 := by
      by_cases hne : (q0, n) = e
      · subst hne
        refine ⟨fun _ => ?_, fun _ => rfl⟩
        rcases hq with ⟨b, b', r, rfl, rfl⟩ | ⟨b, b', r, rfl, rfl⟩ <;> rfl
      · exact inv_related hi h0 he hne
    show n = e.2 ↔ SameThing q e.1
    rw [key]
    rcases hq with ⟨b, b', r, rfl, rfl⟩ | ⟨b, b', r, rfl, rfl⟩
    · cases e.1 <;> simp [SameThing]
    · cases e.1 <;> simp [SameThing]

theorem serve_inv {R : List Name} {m m' : Mangler} {log : List (Request × Name)} (hi : Inv R m log)
    {fuel : Nat} {q : Request} {n : Name} (h : m.serve fuel q = some (n, m')) :
    Inv R m' ((q, n) :: log) := by
  cases q with
  | fresh pre =>
    simp only [Mangler.serve, Mangler.fresh] at h
    split at h
    · simp at h
    · rename_i c k e
      simp only [Option.some.injEq, Prod.mk.injEq] at h
      obtain ⟨rfl, rfl⟩ := h
      obtain ⟨j, h1, h2⟩ := freshLoop_some _ _ _ _ _ _ e
      exact inv_new_name hi h2 ⟨j, h1⟩ rfl rfl rfl (by intro _ _ h; simp at h) (by intro _ _ h; simp at h)
  | reg b r =>
    simp only [Mangler.serve, Mangler.nameForReg] at h
    cases e : m.regs.lookup r with
    | some x =>
      rw [e] at h
      simp only [Option.some.injEq, Prod.mk.injEq] at h
      obtain ⟨rfl, rfl⟩ := h
      obtain ⟨b', hb⟩ := (hi.regs r x).1 e
      exact inv_cached hi hb rfl (.inl ⟨b, b', r, rfl, rfl⟩)
    | none =>
      rw [e] at h
      simp only at h
      split at h
      · simp at h
      · rename_i x m1 e1
        simp only [Option.some.injEq, Prod.mk.injEq] at h
        obtain ⟨rfl, rfl⟩ := h
        obtain ⟨⟨k, h1⟩, h2, rfl⟩ := ensureUnique_some e1
        exact inv_new_name hi h2 ⟨b, k, h1⟩ rfl rfl rfl
          (by intro _ _ h; obtain ⟨rfl, rfl⟩ := Request.reg.inj h; exact e) (by intro _ _ h; simp at h)
  | foreign b r =>
    simp only [Mangler.serve, Mangler.nameForForeign] at h
    cases e : m.foreigns.lookup r with
    | some x =>
      rw [e] at h
      simp only [Option.some.injEq, Prod.mk.injEq] at h
      obtain ⟨rfl, rfl⟩ := h
      obtain ⟨b', hb⟩ := (hi.foreigns r x).1 e
      exact inv_cached hi hb rfl (.inr ⟨b, b', r, rfl, rfl⟩)
    | none =>
      rw [e] at h
      simp only at h
      split at h
      · simp at h
      · rename_i x m1 e1
        simp only [Option.some.injEq, Prod.mk.injEq] at h
        obtain ⟨rfl, rfl⟩ := h
        obtain ⟨⟨k, h1⟩, h2, rfl⟩ := ensureUnique_some e1
        exact inv_new_name hi h2 ⟨b, k, h1⟩ rfl rfl rfl
          (by intro _ _ h; simp at h) (by intro _ _ h; obtain ⟨rfl, rfl⟩ := Request.foreign.inj h; exact e)

theorem serve_total {m : Mangler} {fuel : Nat} (q : Request) (h : m.used.length < fuel) :
    ∃ n m', m.serve fuel q = some (n, m') ∧ m'.used.length ≤ m.used.length + 1 := by
  cases q with
  | fresh pre =>
    obtain ⟨n, c', e⟩ := freshLoop_total m.used (sanitize pre) fuel ((m.counters.lookup (sanitize pre)).getD 0) h
    simp only [Mangler.serve, Mangler.fresh, e]
    exact ⟨_, _, rfl, by simp⟩
  | reg b r =>
    simp only [Mangler.serve, Mangler.nameForReg]
    cases e : m.regs.lookup r with
    | some x => exact ⟨_, _, rfl, by simp⟩
    | none =>
      obtain ⟨n, m1, e1⟩ := ensureUnique_total (m := m) (regBase b r) h
      have h2 := (ensureUnique_some e1).2.2
      unfold regBase at e1
      simp only [e1]
      exact ⟨_, _, rfl, by simp [h2]⟩
  | foreign b r =>
    simp only [Mangler.serve, Mangler.nameForForeign]
    cases e : m.foreigns.lookup r with
    | some x => exact ⟨_, _, rfl, by simp⟩
    | none =>
      obtain ⟨n, m1, e1⟩ := ensureUnique_total (m := m) (foreignBase b r) h
      have h2 := (ensureUnique_some e1).2.2
      unfold foreignBase at e1
      simp only [e1]
      exact ⟨_, _, rfl, by simp [h2]⟩

theorem serveAll_total {fuel : Nat} : ∀ (qs : List Request) (m : Mangler), m.used.length + qs.length < fuel →
    ∃ ns m', m.serveAll fuel qs = some (ns, m') := by
  intro qs
  induction qs with
  | nil => intro m _; exact ⟨_, _, rfl⟩
  | cons q qs ih =>
    intro m h
    simp only [List.length_cons] at h
    obtain ⟨n, m1, e1, h1⟩ := serve_total (m := m) (fuel := fuel) q (by omega)
    obtain ⟨ns, m2, e2⟩ := ih m1 (by omega)
    simp only [Mangler.serveAll, e1, e2]
    exact ⟨_, _, rfl⟩

theorem serveAll_inv {R : List Name} {fuel : Nat} : ∀ (qs : List Request) (m m' : Mangler)
    (log : List (Request × Name)) (ns : List Name), Inv R m log → m.serveAll fuel qs = some (ns, m') →
    ns.length = qs.length ∧ Inv R m' ((qs.zip ns).reverse ++ log) := by
  intro qs
  induction qs with
  | nil =>
    intro m m' log ns hi h
    simp only [Mangler.serveAll, Option.some.injEq, Prod.mk.injEq] at h
    obtain ⟨rfl, rfl⟩ := h
    exact ⟨rfl, by simpa using hi⟩
  | cons q qs ih =>
    intro m m' log ns hi h
    simp only [Mangler.serveAll] at h
    split at h
    · simp at h
    · rename_i n m1 e1
      split at h
      · simp at h
      · rename_i ns' m2 e2
        simp only [Option.some.injEq, Prod.mk.injEq] at h
        obtain ⟨rfl, rfl⟩ := h
        obtain ⟨h1, h2⟩ := ih _ _ _ _ (serve_inv hi e1) e2
        refine ⟨by simp [h1], ?_⟩
        simpa [List.reverse_cons, List.append_assoc] using h2

/-! ## Reserved words and the shape of answers -/

theorem cand_no_underscore {base : Name} {k : Nat} (h : 95 ∉ cand base k) : cand base k = base := by
  unfold cand at h ⊢
  split
  · rfl
  · rename_i hk
    rw [if_neg hk] at h
    exact absurd (by simp [suffixed]) h

/-! ## Roots of builtin paths -/

theorem splitDots_find : ∀ (s acc : Name), (∀ c ∈ acc, c ≠ 46) →
    (splitDots acc s).find? (fun t => !t.isEmpty) =
      (let r := if acc = [] then pathRoot s else acc.reverse ++ s.takeWhile (· ≠ 46);
        if r = [] then none else some r) := by
  intro s
  induction s with
  | nil =>
    intro acc _
    cases acc with
    | nil => rfl
    | cons a as => simp [splitDots]
  | cons c cs ih =>
    intro acc hacc
    simp only [splitDots]
    by_cases hc : c = 46
    · subst hc
      rw [if_pos rfl]
      cases acc with
      | nil =>
        have := ih [] (by simp)
        simp only [List.reverse_nil, List.find?_cons, List.isEmpty_nil, Bool.not_true]
        rw [this]
        simp [pathRoot, List.dropWhile_cons]
      | cons a as => simp
    · rw [if_neg hc]
      rw [ih (c :: acc) (by
        intro d hd
        rcases List.mem_cons.1 hd with rfl | hd
        · exact hc
        · exact hacc d hd)]
      cases acc with
      | nil => simp [pathRoot, List.dropWhile_cons, List.takeWhile_cons, hc]
      | cons a as => simp [List.takeWhile_cons, hc]

theorem argReserved_root (path : Name) (h : pathRoot path ≠ []) :
    pathRoot path ∈ argReserved (.builtin path) := by
  unfold argReserved
  simp only
  rw [splitDots_find path [] (by simp)]
  simp [h]

/-! ## Byte offsets -/

theorem lenUtf8_pos (c : Nat) : 0 < lenUtf8 c := by
  unfold lenUtf8; split <;> (try split) <;> (try split) <;> omega

theorem byteLen_append (a b : Name) : byteLen (a ++ b) = byteLen a + byteLen b := by
  simp [byteLen]

theorem byteLen_cons (c : Nat) (s : Name) : byteLen (c :: s) = lenUtf8 c + byteLen s := by
  simp [byteLen]

theorem byteLen_nil : byteLen [] = 0 := rfl

theorem byteLen_eq_zero {s : Name} (h : byteLen s = 0) : s = [] := by
  cases s with
  | nil => rfl
  | cons c cs => rw [byteLen_cons] at h; have := lenUtf8_pos c; omega

theorem dropBytes_append (a b : Name) : dropBytes (a ++ b) (byteLen a) = some b := by
  induction a with
  | nil => cases b <;> rfl
  | cons c cs ih =>
    rw [byteLen_cons, List.cons_append]
    have := lenUtf8_pos c
    obtain ⟨k, hk⟩ : ∃ k, lenUtf8 c + byteLen cs = k + 1 := ⟨lenUtf8 c + byteLen cs - 1, by omega⟩
    rw [hk, dropBytes, if_pos (by omega), ← hk, Nat.add_sub_cancel_left, ih]

theorem takeBytes_append (a b : Name) : takeBytes (a ++ b) (byteLen a) = some a := by
  induction a with
  | nil => cases b <;> rfl
  | cons c cs ih =>
    rw [byteLen_cons, List.cons_append]
    have := lenUtf8_pos c
    obtain ⟨k, hk⟩ : ∃ k, lenUtf8 c + byteLen cs = k + 1 := ⟨lenUtf8 c + byteLen cs - 1, by omega⟩
    rw [hk, takeBytes, if_pos (by omega), ← hk, Nat.add_sub_cancel_left, ih]
    rfl

theorem dropBytes_some : ∀ (s t : Name) (n : Nat), dropBytes s n = some t → ∃ a, s = a ++ t ∧ byteLen a = n := by
  intro s
  induction s with
  | nil =>
    intro t n h
    cases n with
    | zero => simp only [dropBytes, Option.some.injEq] at h; exact ⟨[], by simp [h], rfl⟩
    | succ n => simp [dropBytes] at h
  | cons c cs ih =>
    intro t n h
    cases n with
    | zero => simp only [dropBytes, Option.some.injEq] at h; exact ⟨[], by simp [h], rfl⟩
    | succ n =>
      simp only [dropBytes] at h
      split at h
      · obtain ⟨a, rfl, ha⟩ := ih _ _ h
        exact ⟨c :: a, rfl, by rw [byteLen_cons]; omega⟩
      · simp at h

theorem takeBytes_some : ∀ (s t : Name) (n : Nat), takeBytes s n = some t → ∃ b, s = t ++ b ∧ byteLen t = n := by
  intro s
  induction s with
  | nil =>
    intro t n h
    cases n with
    | zero => simp only [takeBytes, Option.some.injEq] at h; exact ⟨[], by simp [← h], by rw [← h]; rfl⟩
    | succ n => simp [takeBytes] at h
  | cons c cs ih =>
    intro t n h
    cases n with
    | zero => simp only [takeBytes, Option.some.injEq] at h; exact ⟨c :: cs, by simp [← h], by rw [← h]; rfl⟩
    | succ n =>
      simp only [takeBytes] at h
      split at h
      · cases e : takeBytes cs (n + 1 - lenUtf8 c) with
        | none => rw [e] at h; simp at h
        | some u =>
          rw [e] at h
          simp only [Option.map_some, Option.some.injEq] at h
          obtain ⟨b, rfl, hb⟩ := ih _ _ e
          exact ⟨b, by simp [← h], by rw [← h, byteLen_cons]; omega⟩
      · simp at h

theorem slice_append (a b c : Name) : slice (a ++ b ++ c) (byteLen a) (byteLen a + byteLen b) = some b := by
  unfold slice
  rw [if_pos (by omega), List.append_assoc, dropBytes_append, Option.bind_some, Nat.add_sub_cancel_left,
    takeBytes_append]

theorem slice_some {s m : Name} {a b : Nat} (h : slice s a b = some m) :
    ∃ p q, s = p ++ m ++ q ∧ byteLen p = a ∧ a + byteLen m = b := by
  unfold slice at h
  split at h
  · cases e : dropBytes s a with
    | none => rw [e] at h; simp at h
    | some t =>
      rw [e, Option.bind_some] at h
      obtain ⟨p, rfl, hp⟩ := dropBytes_some _ _ _ e
      obtain ⟨q, rfl, hq⟩ := takeBytes_some _ _ _ h
      exact ⟨p, q, by simp, hp, by omega⟩
  · simp at h

/-- A string has at most one prefix of a given length in bytes. -/
theorem prefix_unique : ∀ (a b c d : Name), a ++ b = c ++ d → byteLen a = byteLen c → a = c ∧ b = d := by
  intro a b c d h hl
  have h1 := dropBytes_append a b
  have h2 := dropBytes_append c d
  rw [h, hl, h2] at h1
  have := Option.some.inj h1
  subst this
  exact ⟨List.append_cancel_right h, rfl⟩

/-! ## Splicing -/

theorem splice_complete : ∀ (ps : List Piece) (pre tail : Name),
    splice (pre ++ oldText ps tail) (byteLen pre) (replacementsOf (byteLen pre) ps) =
      some (newText ps tail) := by
  intro ps
  induction ps with
  | nil => intro pre tail; exact dropBytes_append _ _
  | cons p ps ih =>
    intro pre tail
    simp only [replacementsOf, splice, oldText, newText]
    rw [if_pos ⟨by omega, by omega⟩]
    have h1 : pre ++ (p.kept ++ p.old ++ oldText ps tail) =
        pre ++ p.kept ++ (p.old ++ oldText ps tail) := by simp
    rw [h1, slice_append, Option.bind_some]
    have h2 : pre ++ p.kept ++ (p.old ++ oldText ps tail) =
        (pre ++ p.kept ++ p.old) ++ oldText ps tail := by simp
    have h3 : byteLen pre + byteLen p.kept + byteLen p.old = byteLen (pre ++ p.kept ++ p.old) := by
      rw [byteLen_append, byteLen_append]
    rw [h2, h3, ih]
    rfl

theorem splice_sound : ∀ (rs : List Replacement) (src : Name) (cur : Nat) (out pre rest : Name),
    src = pre ++ rest → byteLen pre = cur → splice src cur rs = some out →
    ∃ ps tail, rest = oldText ps tail ∧ rs = replacementsOf cur ps ∧ out = newText ps tail := by
  intro rs
  induction rs with
  | nil =>
    intro src cur out pre rest hs hp h
    simp only [splice] at h
    subst hs hp
    rw [dropBytes_append] at h
    exact ⟨[], rest, rfl, rfl, (Option.some.inj h).symm⟩
  | cons r rs ih =>
    intro src cur out pre rest hs hp h
    simp only [splice] at h
    split at h
    · rename_i hr
      cases e : slice src cur r.start with
      | none => rw [e] at h; simp at h
      | some kept =>
        rw [e, Option.bind_some] at h
        cases e2 : splice src r.stop rs with
        | none => rw [e2] at h; simp at h
        | some o =>
          rw [e2] at h
          simp only [Option.map_some, Option.some.injEq] at h
          obtain ⟨p, q, h1, h2, h3⟩ := slice_some e
          have hpp := prefix_unique pre rest p (kept ++ q) (by rw [← hs, h1]; simp) (by omega)
          obtain ⟨rfl, rfl⟩ := hpp
          -- the source splits at `r.stop`
          have hd : ∃ t, dropBytes src r.stop = some t := by
            cases rs with
            | nil => simp only [splice] at e2; exact ⟨o, e2⟩
            | cons r' rs' =>
              simp only [splice] at e2
              split at e2
              · cases e3 : slice src r.stop r'.start with
                | none => rw [e3] at e2; simp at e2
                | some k =>
                  unfold slice at e3
                  split at e3
                  · cases e4 : dropBytes src r.stop with
                    | none => rw [e4] at e3; simp at e3
                    | some t => exact ⟨t, rfl⟩
                  · simp at e3
              · simp at e2
          obtain ⟨t, ht⟩ := hd
          obtain ⟨a, ha1, ha2⟩ := dropBytes_some _ _ _ ht
          -- `q` splits at `r.stop - r.start`
          have hle : byteLen (pre ++ kept) ≤ byteLen a := by rw [byteLen_append]; omega
          have hsplit : ∃ old, a = pre ++ kept ++ old ∧ q = old ++ t := by
            have heq : (pre ++ kept) ++ q = a ++ t := by rw [← ha1, h1]
            rcases List.append_eq_append_iff.1 heq with ⟨w, hw1, hw2⟩ | ⟨w, hw1, hw2⟩
            · exact ⟨w, hw1, hw2⟩
            · have : byteLen w = 0 := by
                rw [hw1, byteLen_append] at hle; omega
              have := byteLen_eq_zero this
              subst this
              exact ⟨[], by simpa using hw1.symm, by simpa using hw2.symm⟩
          obtain ⟨old, rfl, rfl⟩ := hsplit
          obtain ⟨ps, tail, g1, g2, g3⟩ := ih src r.stop o (pre ++ kept ++ old) t ha1 ha2 e2
          refine ⟨⟨kept, old, r.text⟩ :: ps, tail, ?_, ?_, ?_⟩
          · simp only [oldText]; rw [← g1]; simp
          · simp only [replacementsOf]
            have hstart : cur + byteLen kept = r.start := h3
            have hstop : cur + byteLen kept + byteLen old = r.stop := by
              rw [← ha2, byteLen_append, byteLen_append]; omega
            rw [hstart] at hstop ⊢
            rw [hstop, ← g2]
          · simp only [newText]; rw [← h, g3]
    · simp at h

/-! ## Sorting -/

theorem insertRep_perm (r : Replacement) : ∀ l, (insertRep r l).Perm (r :: l) := by
  intro l
  induction l with
  | nil => exact .refl _
  | cons s rs ih =>
    simp only [insertRep]
    split
    · exact (List.Perm.cons s ih).trans (.swap _ _ _)
    · exact .refl _

theorem sortReps_perm : ∀ l, (sortReps l).Perm l := by
  intro l
  induction l with
  | nil => exact .refl _
  | cons r rs ih => exact (insertRep_perm _ _).trans (.cons r ih)

theorem insertRep_sorted (r : Replacement) : ∀ l : List Replacement, l.Pairwise (·.start ≤ ·.start) →
    (insertRep r l).Pairwise (·.start ≤ ·.start) := by
  intro l
  induction l with
  | nil => intro _; simp [insertRep]
  | cons s rs ih =>
    intro h
    have h' := List.pairwise_cons.1 h
    simp only [insertRep]
    split
    · rename_i hlt
      refine List.pairwise_cons.2 ⟨?_, ih h'.2⟩
      intro x hx
      rcases List.mem_cons.1 ((insertRep_perm r rs).mem_iff.1 hx) with rfl | hx
      · omega
      · exact h'.1 x hx
    · rename_i hle
      refine List.pairwise_cons.2 ⟨?_, h⟩
      intro x hx
      rcases List.mem_cons.1 hx with rfl | hx
      · omega
      · have := h'.1 x hx; omega

theorem sortReps_sorted : ∀ l, (sortReps l).Pairwise (·.start ≤ ·.start) := by
  intro l
  induction l with
  | nil => exact .nil
  | cons r rs ih => exact insertRep_sorted _ _ ih

theorem sorted_perm_eq : ∀ (a b : List Replacement), a.Perm b → a.Pairwise (·.start ≤ ·.start) →
    b.Pairwise (·.start < ·.start) → a = b := by
  intro a
  induction a with
  | nil => intro b h _ _; exact (List.nil_perm.1 h).symm
  | cons x a ih =>
    intro b h ha hb
    cases b with
    | nil => exact absurd h.symm (by simp)
    | cons y b =>
      have ha' := List.pairwise_cons.1 ha
      have hb' := List.pairwise_cons.1 hb
      have hx : x ∈ y :: b := h.mem_iff.1 List.mem_cons_self
      have hy : y ∈ x :: a := h.mem_iff.2 List.mem_cons_self
      have hxy : x = y := by
        rcases List.mem_cons.1 hx with e | hx
        · exact e
        · rcases List.mem_cons.1 hy with e | hy
          · exact e.symm
          · have h1 := hb'.1 x hx
            have h2 := ha'.1 y hy
            omega
      subst hxy
      rw [ih b (List.perm_cons _ |>.1 h) ha'.2 hb'.2]

/-! ## Quotes -/

theorem scanQuote_some (q : Nat) (hq : q ≠ 92) : ∀ (s : Name) (off e : Nat),
    (scanQuote q false off s = some e ↔
      ∃ body tail, s = body ++ tail ∧ LiteralBody q body ∧ e = off + byteLen body) ∧
    (scanQuote q true off s = some e ↔
      ∃ c body tail, s = c :: body ++ tail ∧ LiteralBody q body ∧ e = off + byteLen (c :: body)) := by
  intro s
  induction s with
  | nil =>
    intro off e
    constructor
    · simp only [scanQuote, reduceCtorEq, false_iff]
      rintro ⟨body, tail, h, hb, _⟩
      have := List.append_eq_nil_iff.1 h.symm
      rw [this.1] at hb
      cases hb
    · simp [scanQuote]
  | cons c cs ih =>
    intro off e
    constructor
    · simp only [scanQuote]
      split
      · rename_i hc
        subst hc
        rw [(ih (off + lenUtf8 92) e).2]
        constructor
        · rintro ⟨d, body, tail, rfl, hb, rfl⟩
          exact ⟨92 :: d :: body, tail, rfl, .escape hb, by simp only [byteLen_cons]; omega⟩
        · rintro ⟨body, tail, h, hb, rfl⟩
          cases hb with
          | close => simp only [List.cons_append, List.cons.injEq] at h; exact absurd h.1.symm hq
          | plain h1 h2 h3 => simp only [List.cons_append, List.cons.injEq] at h; exact absurd h.1.symm h1
          | escape h3 =>
            rename_i d body
            simp only [List.cons_append, List.cons.injEq, true_and] at h
            exact ⟨d, body, tail, h, h3, by simp only [byteLen_cons]; omega⟩
      · rename_i hc
        split
        · rename_i hc2
          subst hc2
          simp only [Option.some.injEq]
          constructor
          · rintro rfl
            exact ⟨[c], cs, rfl, .close, by simp [byteLen]⟩
          · rintro ⟨body, tail, h, hb, rfl⟩
            cases hb with
            | close => simp [byteLen]
            | plain h1 h2 h3 => simp only [List.cons_append, List.cons.injEq] at h; exact absurd h.1.symm h2
            | escape h3 => simp only [List.cons_append, List.cons.injEq] at h; exact absurd h.1 hc
        · rename_i hc2
          rw [(ih (off + lenUtf8 c) e).1]
          constructor
          · rintro ⟨body, tail, rfl, hb, rfl⟩
            exact ⟨c :: body, tail, rfl, .plain hc hc2 hb, by simp only [byteLen_cons]; omega⟩
          · rintro ⟨body, tail, h, hb, rfl⟩
            cases hb with
            | close => simp only [List.cons_append, List.cons.injEq] at h; exact absurd h.1 hc2
            | plain h1 h2 h3 =>
              rename_i d body
              simp only [List.cons_append, List.cons.injEq] at h
              obtain ⟨rfl, rfl⟩ := h
              exact ⟨body, tail, rfl, h3, by simp only [byteLen_cons]; omega⟩
            | escape h3 => simp only [List.cons_append, List.cons.injEq] at h; exact absurd h.1 hc
    · simp only [scanQuote]
      rw [(ih (off + lenUtf8 c) e).1]
      constructor
      · rintro ⟨body, tail, rfl, hb, rfl⟩
        exact ⟨c, body, tail, rfl, hb, by simp only [byteLen_cons]; omega⟩
      · rintro ⟨d, body, tail, h, hb, rfl⟩
        simp only [List.cons_append, List.cons.injEq] at h
        obtain ⟨rfl, rfl⟩ := h
        exact ⟨body, tail, rfl, hb, by simp only [byteLen_cons]; omega⟩

theorem literalAt_iff (src : Name) (start e : Nat) :
    LiteralAt src start e ↔ ∃ q rest, dropBytes src start = some (q :: rest) ∧ (q = 34 ∨ q = 39) ∧
      scanQuote q false (start + 1) rest = some e := by
  have hl : ∀ q : Nat, (q = 34 ∨ q = 39) → lenUtf8 q = 1 ∧ q ≠ 92 := by
    rintro q (rfl | rfl) <;> decide
  constructor
  · rintro ⟨pre, q, body, tail, rfl, rfl, hq, hb, rfl⟩
    refine ⟨q, body ++ tail, ?_, hq, ?_⟩
    · rw [List.append_assoc, dropBytes_append]; rfl
    · refine ((scanQuote_some q (hl q hq).2 _ _ _).1).2 ⟨body, tail, rfl, hb, ?_⟩
      rw [byteLen_cons, (hl q hq).1]; omega
  · rintro ⟨q, rest, hd, hq, hs⟩
    obtain ⟨pre, rfl, hp⟩ := dropBytes_some _ _ _ hd
    obtain ⟨body, tail, rfl, hb, rfl⟩ := ((scanQuote_some q (hl q hq).2 _ _ _).1).1 hs
    refine ⟨pre, q, body, tail, by simp, hp, hq, hb, ?_⟩
    rw [byteLen_cons, (hl q hq).1]; omega

theorem extended_iff (src : Name) (r r' : Replacement) : Extended src r r' ↔ r' = extendRep src r := by
  have hfun : ∀ e e', LiteralAt src r.start e → LiteralAt src r.start e' → e = e' := by
    intro e e' h h'
    obtain ⟨q, rest, h1, _, h2⟩ := (literalAt_iff _ _ _).1 h
    obtain ⟨q', rest', h1', _, h2'⟩ := (literalAt_iff _ _ _).1 h'
    rw [h1] at h1'
    have := Option.some.inj h1'
    simp only [List.cons.injEq] at this
    obtain ⟨rfl, rfl⟩ := this
    rw [h2] at h2'
    exact Option.some.inj h2'
  have hext : Extended src r (extendRep src r) := by
    unfold extendRep
    split
    · rename_i q rest hd
      split
      · rename_i hq
        split
        · rename_i e he
          have hlit := (literalAt_iff src r.start e).2 ⟨q, rest, hd, hq, he⟩
          split
          · exact ⟨rfl, rfl, .inl ⟨e, hlit, by simp only; omega⟩⟩
          · exact ⟨rfl, rfl, .inl ⟨e, hlit, by omega⟩⟩
        · rename_i he
          refine ⟨rfl, rfl, .inr ⟨?_, rfl⟩⟩
          rintro ⟨e, h⟩
          obtain ⟨q', rest', h1, _, h2⟩ := (literalAt_iff _ _ _).1 h
          rw [hd] at h1
          have := Option.some.inj h1
          simp only [List.cons.injEq] at this
          obtain ⟨rfl, rfl⟩ := this
          rw [he] at h2
          simp at h2
      · rename_i hq
        refine ⟨rfl, rfl, .inr ⟨?_, rfl⟩⟩
        rintro ⟨e, h⟩
        obtain ⟨q', rest', h1, h3, h2⟩ := (literalAt_iff _ _ _).1 h
        rw [hd] at h1
        have := Option.some.inj h1
        simp only [List.cons.injEq] at this
        obtain ⟨rfl, rfl⟩ := this
        exact hq h3
    · rename_i hd
      refine ⟨rfl, rfl, .inr ⟨?_, rfl⟩⟩
      rintro ⟨e, h⟩
      obtain ⟨q', rest', h1, h3, h2⟩ := (literalAt_iff _ _ _).1 h
      exact hd q' rest' h1
  constructor
  · intro h
    obtain ⟨h1, h2, h3⟩ := h
    obtain ⟨g1, g2, g3⟩ := hext
    have : r'.stop = (extendRep src r).stop := by
      rcases h3 with ⟨e, a, b⟩ | ⟨a, b⟩ <;> rcases g3 with ⟨e', a', b'⟩ | ⟨a', b'⟩
      · rw [b, b', hfun _ _ a a']
      · exact absurd ⟨e, a⟩ a'
      · exact absurd ⟨e', a'⟩ a
      · rw [b, b']
    cases r'
    cases hx : extendRep src r
    simp_all
  · rintro rfl; exact hext

theorem forall2_extended (src : Name) : ∀ (reps reps' : List Replacement),
    List.Forall₂ (Extended src) reps reps' ↔ reps' = reps.map (extendRep src) := by
  intro reps
  induction reps with
  | nil => intro reps'; simp
  | cons r rs ih =>
    intro reps'
    cases reps' with
    | nil => simp
    | cons r' rs' => simp [List.forall₂_cons, ih, extended_iff]

end Verif.Names
