import Verif.Names.Lemmas
/-!
# Properties C40, C41, C42: generated names and source rewriting
-/

namespace Verif.Names

/-! ## C40: the minifier's generator -/

/-- **C40.** Whatever finite set of names is unavailable and wherever the counter stands, `next_name`
returns after at most one turn more than there are unavailable names. The name is a valid identifier that
is not in the set, it is the first available one from the counter on, and the counter moves past it. -/
theorem C40_fresh (unavailable : List Name) (counter fuel : Nat) (h : unavailable.length < fuel) :
    ∃ name k, nextName (fun n => !unavailable.contains n) fuel counter = some (name, counter + k + 1) ∧
      k ≤ unavailable.length ∧ IdentName name ∧ name ∉ unavailable ∧ name = encode (counter + k) ∧
      ∀ j, j < k → encode (counter + j) ∈ unavailable := by
  obtain ⟨n, c', e⟩ := nextName_total unavailable fuel counter h
  obtain ⟨k, _, rfl, h2, h3, h4⟩ := nextName_some _ _ _ _ _ e
  have h5 : ∀ j, j < k → encode (counter + j) ∈ unavailable := fun j hj => by simpa using h4 j hj
  refine ⟨n, k, e, ?_, h2 ▸ encode_ident _, by simpa using h3, h2, h5⟩
  exact pigeon (fun j => encode (counter + j)) (fun a b hab => by
    have := encode_injective hab; omega) unavailable k h5

example : nextName (fun n => ![[97], [98]].contains n) 3 0 = some ([99], 3) := by decide +kernel

/-- **C40.** Distinct counters give distinct names, and every name is a valid identifier. -/
theorem C40_injective : Function.Injective encode ∧ ∀ n, IdentName (encode n) :=
  ⟨encode_injective, encode_ident⟩

-- `a`, `_`, `ab`, `ac`, a three-letter name
example : encode 0 = [97] ∧ encode 53 = [95] ∧ encode 54 = [97, 98] ∧ encode 108 = [97, 99] ∧
    (encode 3456).length = 3 := by decide +kernel

/-- **C40.** With the reserved names unavailable, the name is allowed as a binding identifier everywhere,
including strict mode code and modules. -/
theorem C40_not_reserved (others : List Name) (counter fuel c' : Nat) (name : Name)
    (h : nextName (fun n => !(reservedNames ++ others).contains n) fuel counter = some (name, c')) :
    name ∉ ecmaReserved ∧ name ∉ others := by
  obtain ⟨k, _, _, _, h3, _⟩ := nextName_some _ _ _ _ _ h
  simp only [Bool.not_eq_true', List.contains_eq_mem, decide_eq_false_iff_not, List.mem_append,
    not_or] at h3
  have hsub : ∀ w ∈ ecmaReserved, w ∈ reservedNames := by decide +kernel
  exact ⟨fun h => h3.1 (hsub _ h), h3.2⟩

-- the counter of the keyword `do` is skipped
example : encode (decode [100, 111]) = [100, 111] ∧
    (nextName (fun n => !(reservedNames ++ []).contains n) 100 (decode [100, 111])).map Prod.fst =
      some [101, 111] := by decide +kernel

/-- **C40.** Successive calls on one generator, whatever is unavailable each time, give pairwise distinct
names, each available at its call; and they all return. -/
theorem C40_sequence (sets : List (List Name)) (counter fuel : Nat)
    (h : ∀ s ∈ sets, s.length < fuel) :
    ∃ names c', nextNames fuel sets counter = some (names, c') ∧ names.Nodup ∧
      List.Forall₂ (fun n s => n ∉ s) names sets ∧ ∀ n ∈ names, IdentName n := by
  have htot : ∀ (ss : List (List Name)) (c : Nat), (∀ s ∈ ss, s.length < fuel) →
      ∃ ns c', nextNames fuel ss c = some (ns, c') := by
    intro ss
    induction ss with
    | nil => intro c _; exact ⟨_, _, rfl⟩
    | cons s ss ih =>
      intro c hs
      obtain ⟨n, c1, e1⟩ := nextName_total s fuel c (hs s List.mem_cons_self)
      obtain ⟨ns, c2, e2⟩ := ih c1 (fun t ht => hs t (List.mem_cons_of_mem _ ht))
      exact ⟨n :: ns, c2, by simp only [nextNames, e1, e2]⟩
  obtain ⟨ns, c', e⟩ := htot sets counter h
  obtain ⟨_, h2, h3, h4⟩ := nextNames_spec fuel sets counter ns c' e
  exact ⟨ns, c', e, h3, h4, fun n hn => by obtain ⟨k, _, _, rfl⟩ := h2 n hn; exact encode_ident k⟩

example : nextNames 5 [[[97]], [], [[99], [100]]] 0 = some ([[98], [99], [101]], 5) := by decide +kernel

/-! ## C42: the decompiler's mangler -/

/-- **C42.** The mangler always answers: with `n` reserved names, every loop of every request in a history
of `k` requests ends within `n + k + 1` turns. -/
theorem C42_answers (reserved : List Name) (qs : List Request) (fuel : Nat)
    (h : (defaultReserved ++ reserved).length + qs.length < fuel) :
    ∃ names m, (Mangler.new reserved).serveAll fuel qs = some (names, m) ∧ names.length = qs.length := by
  obtain ⟨ns, m', e⟩ := serveAll_total qs (Mangler.new reserved) h
  exact ⟨ns, m', e, (serveAll_inv qs _ _ [] _ (inv_new reserved) e).1⟩

/-- **C42.** In every history of requests, two answers are the same name exactly when they are the same
answer, or both are for the same register, or both are for the same foreign binding. -/
theorem C42_unique (reserved : List Name) (qs : List Request) (fuel : Nat) (names : List Name) (m : Mangler)
    (h : (Mangler.new reserved).serveAll fuel qs = some (names, m)) (i j : Nat) (qi qj : Request)
    (ni nj : Name) (hqi : qs[i]? = some qi) (hqj : qs[j]? = some qj) (hni : names[i]? = some ni)
    (hnj : names[j]? = some nj) :
    ni = nj ↔ i = j ∨ SameThing qi qj := by
  have hi := (serveAll_inv qs _ _ [] _ (inv_new reserved) h).2
  rw [List.append_nil] at hi
  have hd : (qs.zip names).Pairwise (fun a b => a.2 = b.2 ↔ SameThing a.1 b.1) := by
    have := List.pairwise_reverse.1 hi.distinct
    refine this.imp ?_
    intro a b hab
    exact ⟨fun e => sameThing_symm (hab.1 e.symm), fun s => (hab.2 (sameThing_symm s)).symm⟩
  have hz : ∀ (i : Nat) (qi : Request) (ni : Name), qs[i]? = some qi → names[i]? = some ni → (qs.zip names)[i]? = some (qi, ni) := by
    intro i qi ni h1 h2
    rw [List.getElem?_zip_eq_some]
    exact ⟨h1, h2⟩
  have key : ∀ (i j : Nat) (qi qj : Request) (ni nj : Name), i < j → qs[i]? = some qi → qs[j]? = some qj → names[i]? = some ni →
      names[j]? = some nj → (ni = nj ↔ SameThing qi qj) := by
    intro i j qi qj ni nj hij h1 h2 h3 h4
    have e1 := hz i qi ni h1 h3
    have e2 := hz j qj nj h2 h4
    obtain ⟨l1, g1⟩ := List.getElem?_eq_some_iff.1 e1
    obtain ⟨l2, g2⟩ := List.getElem?_eq_some_iff.1 e2
    have := List.pairwise_iff_getElem.1 hd i j l1 l2 hij
    rw [g1, g2] at this
    exact this
  rcases Nat.lt_trichotomy i j with hlt | rfl | hgt
  · rw [key i j qi qj ni nj hlt hqi hqj hni hnj]
    constructor
    · exact .inr
    · rintro (e | h)
      · omega
      · exact h
  · rw [hni] at hnj
    exact ⟨fun _ => .inl rfl, fun _ => Option.some.inj hnj⟩
  · have := key j i qj qi nj ni hgt hqj hqi hnj hni
    constructor
    · intro e; exact .inr (sameThing_symm (this.1 e.symm))
    · rintro (e | h)
      · omega
      · exact (this.2 (sameThing_symm h)).symm

-- `fresh("r0")`, register 0 twice, `fresh("r0")`, register 0 minified, foreign 0
example : ((Mangler.new []).serveAll 100
    [.fresh [114, 48], .reg false 0, .reg true 0, .fresh [114, 48], .reg true 1, .foreign true 1]).map
      Prod.fst =
    some [[114, 48], [114, 48, 95, 49], [114, 48, 95, 49], [114, 48, 95, 50], [98], [98, 95, 49]] := by
  decide +kernel

/-- **C42.** No answer is one of the names given as reserved, a keyword, `eval` or `arguments`. -/
theorem C42_not_reserved (reserved : List Name) (qs : List Request) (fuel : Nat) (names : List Name)
    (m : Mangler) (h : (Mangler.new reserved).serveAll fuel qs = some (names, m)) :
    ∀ n ∈ names, n ∉ reserved ∧ n ∉ keywords := by
  obtain ⟨hlen, hi⟩ := serveAll_inv qs _ _ [] _ (inv_new reserved) h
  rw [List.append_nil] at hi
  intro n hn
  obtain ⟨i, hi'⟩ := List.mem_iff_getElem?.1 hn
  obtain ⟨hl, _⟩ := List.getElem?_eq_some_iff.1 hi'
  have hq : qs[i]? = some qs[i] := List.getElem?_eq_getElem (by omega)
  have hz : (qs[i], n) ∈ qs.zip names := List.mem_of_getElem? ((List.getElem?_zip_eq_some).2 ⟨hq, hi'⟩)
  have := (hi.logged (qs[i], n) (by simpa using hz)).2.1
  simp only [defaultReserved, List.mem_append, not_or] at this
  exact ⟨this.2, this.1.1⟩

-- a reserved name is avoided
example : ((Mangler.new [[120]]).serveAll 100 [.fresh [120]]).map Prod.fst = some [[120, 95, 49]] := by
  decide +kernel

/-- **C42 (partial).** Every answer is a valid identifier name. It is no reserved word of ECMAScript, strict
mode included, except that a request `fresh` can be answered with `package` (and so could a register above
the range of `u32`). Missing: `package` must not be answered at all; see `C42_package_violated`. -/
theorem C42_valid_partial (reserved : List Name) (qs : List Request) (fuel : Nat) (names : List Name)
    (m : Mangler) (h : (Mangler.new reserved).serveAll fuel qs = some (names, m)) (i : Nat) (q : Request)
    (n : Name) (hq : qs[i]? = some q) (hn : names[i]? = some n) :
    IdentName n ∧ ((∀ pre, q = .fresh pre → n ≠ [112, 97, 99, 107, 97, 103, 101]) →
      (∀ b r, q = .reg b r ∨ q = .foreign b r → r < 2 ^ 32) → n ∉ ecmaReserved) := by
  obtain ⟨hlen, hi⟩ := serveAll_inv qs _ _ [] _ (inv_new reserved) h
  rw [List.append_nil] at hi
  have hz : (q, n) ∈ qs.zip names := List.mem_of_getElem? ((List.getElem?_zip_eq_some).2 ⟨hq, hn⟩)
  have hl := hi.logged (q, n) (by simpa using hz)
  refine ⟨shape_ident hl.2.2, ?_⟩
  intro hc hc32 hr
  have hword : ∀ w ∈ ecmaReserved, w ∈ defaultReserved ∨ w = [112, 97, 99, 107, 97, 103, 101] := by
    decide +kernel
  rcases hword n hr with hd | rfl
  · exact hl.2.1 (List.mem_append_left _ hd)
  · have hshort : ∀ r, r < 2 ^ 32 → encodeShort r ≠ [112, 97, 99, 107, 97, 103, 101] := by
      intro r hr e
      have := encodeShort_val r
      rw [e] at this
      have h2 : shortVal ([112, 97, 99, 107, 97, 103, 101] : Name).reverse = 4956098918 := by
        decide +kernel
      omega
    have hsan : ∀ c s, IdentName (c :: s) → c ≠ 112 → sanitize (c :: s) ≠ [112, 97, 99, 107, 97, 103, 101] := by
      intro c s hs hc e
      rw [sanitize_id _ hs] at e
      exact hc (List.cons.inj e).1
    cases q with
    | fresh pre => exact hc pre rfl rfl
    | reg b r =>
      obtain ⟨b', k, e⟩ := hl.2.2
      have e2 := cand_no_underscore (base := regBase b' r) (k := k) (by rw [← e]; simp)
      rw [e2] at e
      unfold regBase at e
      split at e
      · exact hshort r (hc32 b r (by simp)) e.symm
      · exact hsan 114 _ ⟨by decide, digits_part r⟩ (by decide) e.symm
    | foreign b r =>
      obtain ⟨b', k, e⟩ := hl.2.2
      have e2 := cand_no_underscore (base := foreignBase b' r) (k := k) (by rw [← e]; simp)
      rw [e2] at e
      unfold foreignBase at e
      split at e
      · exact hshort r (hc32 b r (by simp)) e.symm
      · refine hsan 95 _ ⟨by decide, ?_⟩ (by decide) e.symm
        intro d hd
        simp only [List.mem_cons] at hd
        rcases hd with rfl | rfl | hd
        · decide
        · decide
        · exact digits_part r d hd

-- an invalid prefix, an empty one, a keyword, a digit at the front
example : ((Mangler.new []).serveAll 100 [.fresh [45, 233, 49], .fresh [], .fresh [105, 102], .fresh [49, 97]]).map
    Prod.fst = some [[95, 95, 49], [95], [105, 102, 95, 49], [95, 97]] := by decide +kernel

/-- **C42 is violated** for one word: `fresh("package")` answers `package`, which strict mode code cannot
use as an identifier, because the mangler's reserved set (unlike the minifier's) leaves it out. -/
theorem C42_package_violated :
    ∃ n ∈ ecmaReserved, ((Mangler.new []).serveAll 100 [.fresh n]).map Prod.fst = some [n] :=
  ⟨[112, 97, 99, 107, 97, 103, 101], by decide +kernel, by decide +kernel⟩

/-- **C42.** A mangler set up with the names collected from some code never answers with a global variable
that the code loads or stores, nor with the root object of a builtin the code mentions. -/
theorem C42_globals (insts : List Inst) (qs : List Request) (fuel : Nat) (names : List Name) (m : Mangler)
    (h : (Mangler.new (collectReserved insts)).serveAll fuel qs = some (names, m)) (i : Inst)
    (hi : i ∈ insts) :
    (i.unknownAccess = true → i.unknown ∉ names) ∧
      ∀ path, Arg.builtin path ∈ i.args → pathRoot path ∉ names := by
  have hnr := C42_not_reserved _ _ _ _ _ h
  have hval : ∀ n ∈ names, n ≠ [] := by
    intro n hn
    obtain ⟨hlen, hinv⟩ := serveAll_inv qs _ _ [] _ (inv_new _) h
    rw [List.append_nil] at hinv
    obtain ⟨k, hk⟩ := List.mem_iff_getElem?.1 hn
    obtain ⟨hl, _⟩ := List.getElem?_eq_some_iff.1 hk
    have hq : qs[k]? = some qs[k] := List.getElem?_eq_getElem (by omega)
    have := (C42_valid_partial _ _ _ _ _ h k _ n hq hk).1
    rintro rfl
    exact this
  constructor
  · intro hu hn
    refine (hnr _ hn).1 ?_
    have hne := hval _ hn
    refine List.mem_flatMap.2 ⟨i, hi, List.mem_append_left _ ?_⟩
    cases e : i.unknown with
    | nil => exact absurd e hne
    | cons c cs => simp [hu]
  · intro path hp hn
    refine (hnr _ hn).1 ?_
    exact List.mem_flatMap.2 ⟨i, hi, List.mem_append_right _
      (List.mem_flatMap.2 ⟨_, hp, argReserved_root path (hval _ hn)⟩)⟩

-- `Math.abs` reserves `Math`; an unknown load of `x` reserves `x`
example : collectReserved [⟨true, [120], [.builtin [77, 97, 46, 97], .other]⟩] = [[120], [77, 97]] := by
  decide +kernel

/-! ## C41: rewriting source text -/

/-- **C41.** Cut the source into kept text and replaced text. Give the replacements for the replaced pieces,
as byte ranges with distinct starts, in any order, possibly too short where a piece is a string literal.
Then exactly the replaced pieces change and everything else is copied. -/
theorem C41_rewrite (ps : List Piece) (tail : Name) (reps reps' : List Replacement)
    (hext : List.Forall₂ (Extended (oldText ps tail)) reps reps')
    (hperm : reps'.Perm (replacementsOf 0 ps))
    (hdistinct : (replacementsOf 0 ps).Pairwise (·.start < ·.start)) :
    rewriteSource (oldText ps tail) reps = some (newText ps tail) := by
  rw [forall2_extended] at hext
  unfold rewriteSource
  rw [← hext, sorted_perm_eq _ _ ((sortReps_perm reps').trans hperm) (sortReps_sorted _) hdistinct]
  have := splice_complete ps [] tail
  simpa [byteLen] using this

-- `é=x;"a\"b"` with `x` ↦ `yy` and the literal (given as its first byte only) ↦ `z`, in reverse order
example : rewriteSource [233, 61, 120, 59, 34, 97, 92, 34, 98, 34] [⟨5, 6, [122]⟩, ⟨3, 4, [121, 121]⟩] =
    some [233, 61, 121, 121, 59, 122] := by decide +kernel
example : Extended [233, 61, 120, 59, 34, 97, 92, 34, 98, 34] ⟨5, 6, [122]⟩ ⟨5, 11, [122]⟩ := by
  rw [extended_iff]; decide +kernel

/-- **C41.** Whatever replacements are given: if the rewriting returns at all, the source is cut into kept
and replaced pieces, the replaced pieces are the given ranges (string literals completed), each is replaced
by its text and everything else is copied. Overlapping or misplaced ranges never produce wrong text. -/
theorem C41_sound (src out : Name) (reps : List Replacement) (h : rewriteSource src reps = some out) :
    ∃ ps tail reps', src = oldText ps tail ∧ out = newText ps tail ∧
      List.Forall₂ (Extended src) reps reps' ∧ reps'.Perm (replacementsOf 0 ps) := by
  unfold rewriteSource at h
  obtain ⟨ps, tail, h1, h2, h3⟩ := splice_sound _ src 0 out [] src rfl rfl h
  refine ⟨ps, tail, reps.map (extendRep src), h1, h3, (forall2_extended _ _ _).2 rfl, ?_⟩
  rw [← h2]
  exact (sortReps_perm _).symm

-- overlapping ranges, a range past the end and one inside a character are refused
example : rewriteSource [97, 98, 99] [⟨0, 2, []⟩, ⟨1, 3, []⟩] = none ∧
    rewriteSource [97, 98, 99] [⟨2, 4, []⟩] = none ∧ rewriteSource [233, 98] [⟨0, 1, []⟩] = none := by
  decide +kernel

end Verif.Names
