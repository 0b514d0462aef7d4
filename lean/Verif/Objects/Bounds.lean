import Verif.Objects.Arrays

namespace Verif.Objects

def Bound (s : Store) : Prop := ∀ o ∈ s.objs, ArrBound o

theorem Bound.same {s s' : Store} (h : Bound s) (he : s'.objs = s.objs) : Bound s' := fun o ho => h o (he ▸ ho)

theorem Bound.set {s : Store} (h : Bound s) {id : Nat} {o' : Obj} (ho : ArrBound o') (a : List Bool) :
    Bound ⟨s.objs.set id o', a⟩ := by
  intro x hx
  rcases List.mem_or_eq_of_mem_set hx with h' | rfl
  · exact h x h'
  · exact ho

theorem bound_ordinary {o : Obj} (h : o.arrayLen = none) : ArrBound o := by
  intro n hn; rw [h] at hn; cases hn

/-- Bounds in terms of own properties. -/
theorem bound_iff {o : Obj} {n : Nat} (ha : o.arrayLen = some n) :
    ArrBound o ↔ ∀ k i d, k.arrayIndex = some i → o.getOwn k = some d → i < n := by
  constructor
  · intro h k i d hi hd
    exact h n ha _ (lookup_mem hd) i hi
  · intro h m hm e he i hi
    rw [ha] at hm; cases hm
    obtain ⟨d, hd⟩ := lookup_isSome_of_mem he
    exact h e.key i d hi hd

/-! ## Ordinary definitions on arrays -/

theorem getOwn_defined_other {o : Obj} {n : Nat} {w : Bool} {es : List Entry} {k : Key} {d : Desc}
    (hp : o.props = lenEntry n w :: es) (m : Nat) (k' : Key) :
    Obj.getOwn { o with arrayLen := some m, props := lenEntry m w :: writeProps es k d } k' =
      if k' = lenKey then some ⟨false, false, .data (numVal m) w⟩ else if k' = k then some d else o.getOwn k' := by
  simp only [Obj.getOwn, hp]
  by_cases h : k' = lenKey
  · subst h; rw [if_pos rfl]; exact lookup_cons_eq (e := lenEntry m w)
  · rw [if_neg h, lookup_cons_ne (fun e => h e.symm), lookup_cons_ne (fun e => h e.symm), lookup_writeProps]

theorem bound_defined_other {o : Obj} {k : Key} {d : Desc} {nl : Option Nat} (hs : ArrShape o) (hb : ArrBound o)
    (hk : k ≠ lenKey) (hn : o.newArrayLength k d = .ok nl) : ArrBound (o.defined k d nl) := by
  cases ha : o.arrayLen with
  | none =>
    obtain ⟨_, he⟩ := defined_ordinary ha hn
    rw [he]; exact bound_ordinary ha
  | some n =>
    obtain ⟨_, _, w, es, hp⟩ := hs.cases ha
    rw [defined_other ha hp hk hn]
    refine (bound_iff (n := grownLen n k) rfl).2 ?_
    intro k' i c hi hc
    rw [getOwn_defined_other hp] at hc
    have hne : k' ≠ lenKey := by rintro rfl; rw [arrayIndex_length] at hi; cases hi
    rw [if_neg hne] at hc
    by_cases h : k' = k
    · subst h; simp only [grownLen, hi]; omega
    · rw [if_neg h] at hc
      have := (bound_iff ha).1 hb k' i c hi hc
      unfold grownLen
      cases k.arrayIndex <;> simp only <;> omega

theorem ordinaryDefine_bound {id : Nat} {k : Key} {p : Patch} {s : Store} (hs : Shape s) (hb : Bound s)
    (hk : k ≠ lenKey) : Bound (ordinaryDefine id k p s).2 := by
  generalize hr : ordinaryDefine id k p s = r
  have := ordinaryDefine_out id k p s
  rw [hr] at this
  cases this with
  | invalid => exact hb
  | oom => exact hb.same rfl
  | noObj => exact hb.same rfl
  | rejected => exact hb.same rfl
  | nothing => exact hb.same rfl
  | wrong => exact hb.same rfl
  | wrote a o d nl hv ho hd hn =>
    have hm := List.mem_of_getElem? ho
    exact hb.set (bound_defined_other (hs o hm) (hb o hm) hk hn) a

/-- The object after a length definition: the length entry replaced. -/
def withLen (o : Obj) (es : List Entry) (l : Nat) (w : Bool) : Obj :=
  { o with arrayLen := some l, props := lenEntry l w :: es }

theorem getOwn_withLen {o : Obj} {n : Nat} {w0 : Bool} {es : List Entry} (hp : o.props = lenEntry n w0 :: es)
    (l : Nat) (w : Bool) (k' : Key) :
    (withLen o es l w).getOwn k' = if k' = lenKey then some ⟨false, false, .data (numVal l) w⟩ else o.getOwn k' := by
  simp only [Obj.getOwn, hp, withLen]
  by_cases h : k' = lenKey
  · subst h; rw [if_pos rfl]; exact lookup_cons_eq (e := lenEntry l w)
  · rw [if_neg h, lookup_cons_ne (fun e => h e.symm), lookup_cons_ne (fun e => h e.symm)]

theorem getOwn_lenKey {o : Obj} {n : Nat} {w : Bool} {es : List Entry} (hp : o.props = lenEntry n w :: es) :
    o.getOwn lenKey = some ⟨false, false, .data (numVal n) w⟩ := by
  rw [Obj.getOwn, hp]; exact lookup_cons_eq (e := lenEntry n w)

/-- A definition of `length` on a well-shaped array, with an acceptable value or none. -/
inductive LenOut (id : Nat) (p : Patch) (s : Store) (o : Obj) (n : Nat) (w : Bool) (es : List Entry) (l : Nat) :
    Except Err Bool × Store → Prop where
  | oom (a) : LenOut id p s o n w es l (.error .outOfMemory, ⟨s.objs, a⟩)
  | invalid : p.valid = false → LenOut id p s o n w es l (.error .invalidPatch, s)
  | rejected (a) : p.valid = true → ¬ EsAccepts o.extensible p (some ⟨false, false, .data (numVal n) w⟩) →
      LenOut id p s o n w es l (.ok false, ⟨s.objs, a⟩)
  | nothing (a) : HasNoField p → LenOut id p s o n w es l (.ok true, ⟨s.objs, a⟩)
  | wrote (a) : p.valid = true → EsAccepts o.extensible p (some ⟨false, false, .data (numVal n) w⟩) →
      LenOut id p s o n w es l (.ok true, ⟨s.objs.set id (withLen o es l (p.writable.getD w)), a⟩)

theorem ordinaryDefine_len {id : Nat} {p : Patch} {s : Store} {o : Obj} {n l : Nat} {w : Bool} {es : List Entry}
    (ho : s.objs[id]? = some o) (ha : o.arrayLen = some n) (hp : o.props = lenEntry n w :: es) (hl : l < 2 ^ 32)
    (hpv : p.value = some (numVal l) ∨ (p.value = none ∧ l = n)) :
    LenOut id p s o n w es l (ordinaryDefine id lenKey p s) := by
  have hown := getOwn_lenKey hp
  have hval : p.value.getD (numVal n) = numVal l := by
    rcases hpv with h | ⟨h, rfl⟩ <;> rw [h] <;> rfl
  have hout := ordinaryDefine_out id lenKey p s
  generalize ordinaryDefine id lenKey p s = r at hout
  have key : ∀ d, p.valid = true → decideDefine o.extensible p (o.getOwn lenKey) = some (some d) →
      d = ⟨false, false, .data (numVal l) (p.writable.getD w)⟩ ∧
      EsAccepts o.extensible p (some ⟨false, false, .data (numVal n) w⟩) := by
    intro d hv hd
    obtain ⟨hacc, hres⟩ := decide_some_some hv hd
    rw [hown] at hacc hres
    refine ⟨?_, hacc⟩
    have hf := frozen_of_es hacc hres rfl
    rcases d with ⟨de, dc, dk⟩
    obtain ⟨f1, f2, _⟩ := hf
    simp only at f1 f2
    subst f1 f2
    have hk := hres.2.2
    cases dk with
    | accessor g st =>
      simp only [accGet] at hk
      exfalso
      rcases hk.2.1 with h | h
      · rcases hacc with h' | h' | h'
        · cases h'; simp [HasAccessorField] at h
        · cases h'
        · exact h'.2.2.1 h
      · exact h rfl
    | data v w' =>
      simp only [dataValue, dataWritable] at hk
      obtain ⟨_, _, rfl, rfl⟩ := hk
      have e1 : pick p.value (some (numVal n)) .undefined = p.value.getD (numVal n) := by cases p.value <;> rfl
      have e2 : pick p.writable (some w) false = p.writable.getD w := by cases p.writable <;> rfl
      rw [e1, e2, hval]
  cases hout with
  | invalid hv => exact .invalid hv
  | oom a => exact .oom a
  | noObj a _ h => rw [ho] at h; cases h
  | rejected a o' hv ho' hd =>
    rw [ho] at ho'; cases ho'
    rw [decide_none_iff _ _ _ hv, hown] at hd
    exact .rejected a hv hd
  | nothing a o' hv ho' hd =>
    rw [ho] at ho'; cases ho'
    exact .nothing a (decide_some_none hd).choose_spec.2
  | wrong a o' d e hv ho' hd hn =>
    rw [ho] at ho'; cases ho'
    obtain ⟨rfl, _⟩ := key d hv hd
    exfalso
    simp only [Obj.newArrayLength, ha, Key.isLength, hp, position, lenEntry] at hn
    simp [numVal, arrayLengthFromNum_nat hl] at hn
  | wrote a o' d nl hv ho' hd hn =>
    rw [ho] at ho'; cases ho'
    obtain ⟨rfl, hacc⟩ := key d hv hd
    obtain ⟨x, w', l', hk, hl', he⟩ := defined_length ha hp hn
    simp only [numVal, Kind.data.injEq, Value.number.injEq] at hk
    obtain ⟨rfl, rfl⟩ := hk
    rw [arrayLengthFromNum_nat hl] at hl'
    cases hl'
    rw [he]
    exact .wrote a hv hacc

theorem bound_withLen {o : Obj} {n l : Nat} {w0 w : Bool} {es : List Entry} (hp : o.props = lenEntry n w0 :: es)
    (h : ∀ k i d, k.arrayIndex = some i → o.getOwn k = some d → i < l) : ArrBound (withLen o es l w) := by
  refine (bound_iff (n := l) rfl).2 ?_
  intro k i d hi hd
  have hne : k ≠ lenKey := by rintro rfl; rw [arrayIndex_length] at hi; cases hi
  rw [getOwn_withLen hp, if_neg hne] at hd
  exact h k i d hi hd

/-! ## The deletion loop -/

/-- `o'` is `o` without the index keys satisfying `gone`. -/
def Without (o o' : Obj) (gone : Nat → Prop) : Prop :=
  o'.proto = o.proto ∧ o'.extensible = o.extensible ∧ o'.arrayLen = o.arrayLen ∧
  o'.props.Sublist o.props ∧
  (∀ k i, k.arrayIndex = some i → gone i → o'.getOwn k = none) ∧
  (∀ k, (∀ i, k.arrayIndex = some i → ¬ gone i) → o'.getOwn k = o.getOwn k)

/-- Outcome of the deletion loop. -/
inductive DelLoopOut (id newLen oldLen : Nat) (s : Store) (o : Obj) (L : List Key) : Except Err LoopEnd × Store → Prop where
  | oom (s') : DelLoopOut id newLen oldLen s o L (.error .outOfMemory, s')
  | finished (o' a) :
      (∀ k ∈ L, ∀ i, k.arrayIndex = some i → newLen ≤ i → i < oldLen → ∀ d, o.getOwn k = some d → d.configurable = true) →
      Without o o' (fun i => (∃ k ∈ L, k.arrayIndex = some i) ∧ newLen ≤ i ∧ i < oldLen) →
      DelLoopOut id newLen oldLen s o L (.ok .finished, ⟨s.objs.set id o', a⟩)
  | stuck (o' a m km c) : km ∈ L → km.arrayIndex = some m → newLen ≤ m → m < oldLen →
      o.getOwn km = some c → c.configurable = false →
      (∀ k ∈ L, ∀ i, k.arrayIndex = some i → m < i → i < oldLen → ∀ d, o.getOwn k = some d → d.configurable = true) →
      Without o o' (fun i => (∃ k ∈ L, k.arrayIndex = some i) ∧ m < i ∧ i < oldLen) →
      DelLoopOut id newLen oldLen s o L (.ok (.stuckAt m), ⟨s.objs.set id o', a⟩)

theorem Without.refl (o : Obj) (gone : Nat → Prop) (h : ∀ k i, k.arrayIndex = some i → gone i → o.getOwn k = none) :
    Without o o gone := ⟨rfl, rfl, rfl, List.Sublist.refl _, h, fun _ _ => rfl⟩

theorem set_self {l : List Obj} {i : Nat} {o : Obj} (h : l[i]? = some o) : l.set i o = l := by
  apply List.ext_getElem?
  intro j
  rw [List.getElem?_set]
  by_cases hj : i = j
  · subst hj
    obtain ⟨hl, he⟩ := List.getElem?_eq_some_iff.1 h
    simp [hl, he]
  · rw [if_neg hj]

theorem deleteLoop_out (id newLen oldLen : Nat) (L : List Key) : ∀ (s : Store) (o : Obj), s.objs[id]? = some o →
    (o.props.map Entry.key).Nodup →
    L.Pairwise (fun a b => ∀ i j, a.arrayIndex = some i → b.arrayIndex = some j → j < i) →
    DelLoopOut id newLen oldLen s o L (deleteLoop id newLen oldLen L s) := by
  induction L with
  | nil =>
    intro s o ho hnd _
    have := DelLoopOut.finished (id := id) (newLen := newLen) (oldLen := oldLen) (s := s) (o := o) (L := []) o s.alloc
      (by simp) (Without.refl o _ (by rintro k i _ ⟨⟨k', hk', _⟩, _⟩; cases hk'))
    rw [set_self ho] at this
    exact this
  | cons k ks ih =>
    intro s o ho hnd hpw
    rw [List.pairwise_cons] at hpw
    obtain ⟨hhead, htail⟩ := hpw
    unfold deleteLoop
    -- skipping a key that is not in range
    have skip : (∀ i, k.arrayIndex = some i → ¬ (newLen ≤ i ∧ i < oldLen)) →
        DelLoopOut id newLen oldLen s o (k :: ks) (deleteLoop id newLen oldLen ks s) := by
      intro hno
      have := ih s o ho hnd htail
      generalize deleteLoop id newLen oldLen ks s = r at this
      cases this with
      | oom s' => exact .oom s'
      | finished o' a h1 h2 =>
        refine .finished o' a ?_ ?_
        · intro k' hk' i hi h3 h4
          rcases List.mem_cons.1 hk' with rfl | hk'
          · exact absurd ⟨h3, h4⟩ (hno i hi)
          · exact h1 k' hk' i hi h3 h4
        · obtain ⟨a1, a2, a3, a4, a5, a6⟩ := h2
          refine ⟨a1, a2, a3, a4, ?_, ?_⟩
          · rintro k' i hi ⟨⟨k'', hk'', hi''⟩, h5⟩
            rcases List.mem_cons.1 hk'' with rfl | hk''
            · exact absurd h5 (hno i hi'')
            · exact a5 k' i hi ⟨⟨k'', hk'', hi''⟩, h5⟩
          · intro k' h5
            apply a6
            rintro i hi ⟨⟨k'', hk'', hi''⟩, h6⟩
            exact h5 i hi ⟨⟨k'', List.mem_cons_of_mem _ hk'', hi''⟩, h6⟩
      | stuck o' a m km c h1 h2 h3 h4 h5 h6 h7 h8 =>
        refine .stuck o' a m km c (List.mem_cons_of_mem _ h1) h2 h3 h4 h5 h6 ?_ ?_
        · intro k' hk' i hi h9 h10
          rcases List.mem_cons.1 hk' with rfl | hk'
          · exact absurd ⟨by omega, h10⟩ (hno i hi)
          · exact h7 k' hk' i hi h9 h10
        · obtain ⟨a1, a2, a3, a4, a5, a6⟩ := h8
          refine ⟨a1, a2, a3, a4, ?_, ?_⟩
          · rintro k' i hi ⟨⟨k'', hk'', hi''⟩, h9⟩
            rcases List.mem_cons.1 hk'' with rfl | hk''
            · exact absurd ⟨by omega, h9.2⟩ (hno i hi'')
            · exact a5 k' i hi ⟨⟨k'', hk'', hi''⟩, h9⟩
          · intro k' h9
            apply a6
            rintro i hi ⟨⟨k'', hk'', hi''⟩, h10⟩
            exact h9 i hi ⟨⟨k'', List.mem_cons_of_mem _ hk'', hi''⟩, h10⟩
    cases hk : k.arrayIndex with
    | none => exact skip (by intro i hi; rw [hk] at hi; cases hi)
    | some i =>
      simp only
      by_cases hlt : i < newLen
      · rw [if_pos hlt]
        have := DelLoopOut.finished (id := id) (newLen := newLen) (oldLen := oldLen) (s := s) (o := o) (L := k :: ks) o s.alloc
          (by
            intro k' hk' j hj h1 h2
            rcases List.mem_cons.1 hk' with rfl | hk'
            · rw [hk] at hj; cases hj; omega
            · have := hhead k' hk' i j hk hj; omega)
          (Without.refl o _ (by
            rintro k' j _ ⟨⟨k'', hk'', hj''⟩, h1⟩
            rcases List.mem_cons.1 hk'' with rfl | hk''
            · rw [hk] at hj''; cases hj''; omega
            · have := hhead k'' hk'' i j hk hj''; omega))
        rw [set_self ho] at this
        exact this
      · rw [if_neg hlt]
        by_cases hge : i ≥ oldLen
        · rw [if_pos hge]
          exact skip (by intro j hj; rw [hk] at hj; cases hj; omega)
        · rw [if_neg hge, bind_run]
          have hdel := ordinaryDelete_out id k s
          generalize ordinaryDelete id k s = rd at hdel
          cases hdel with
          | oom a => exact .oom _
          | noObj a h => rw [ho] at h; cases h
          | refused a o' c ho' hc hcc =>
            rw [ho] at ho'; cases ho'
            simp only [Bool.false_eq_true, if_false, pure_run]
            have := DelLoopOut.stuck (id := id) (newLen := newLen) (oldLen := oldLen) (s := s) (o := o) (L := k :: ks)
              o a i k c (List.mem_cons_self ..) hk (by omega) (by omega) hc hcc
              (by
                intro k' hk' j hj h1 h2
                rcases List.mem_cons.1 hk' with rfl | hk'
                · rw [hk] at hj; cases hj; omega
                · have := hhead k' hk' i j hk hj; omega)
              (Without.refl o _ (by
                rintro k' j _ ⟨⟨k'', hk'', hj''⟩, h1⟩
                rcases List.mem_cons.1 hk'' with rfl | hk''
                · rw [hk] at hj''; cases hj''; omega
                · have := hhead k'' hk'' i j hk hj''; omega))
            rw [set_self ho] at this
            exact this
          | missing a o' ho' hc =>
            rw [ho] at ho'; cases ho'
            simp only [if_true]
            have := ih ⟨s.objs, a⟩ o ho hnd htail
            generalize deleteLoop id newLen oldLen ks ⟨s.objs, a⟩ = r at this
            have hg : ∀ k' j, k'.arrayIndex = some j → j = i → o.getOwn k' = none := by
              intro k' j hj e; subst e; rw [arrayIndex_inj hj hk]; exact hc
            cases this with
            | oom s' => exact .oom s'
            | finished o' b h1 h2 =>
              obtain ⟨a1, a2, a3, a4, a5, a6⟩ := h2
              refine .finished o' b ?_ ⟨a1, a2, a3, a4, ?_, ?_⟩
              · intro k' hk' j hj h3 h4 d hd
                rcases List.mem_cons.1 hk' with rfl | hk'
                · rw [hc] at hd; cases hd
                · exact h1 k' hk' j hj h3 h4 d hd
              · rintro k' j hj ⟨⟨k'', hk'', hj''⟩, h5⟩
                by_cases hin : ∃ k ∈ ks, k.arrayIndex = some j
                · exact a5 k' j hj ⟨hin, h5⟩
                · rcases List.mem_cons.1 hk'' with rfl | hk''
                  · rw [a6 k' (by rintro j' hj' ⟨hin', _⟩; rw [hj] at hj'; cases hj'; exact hin hin')]
                    rw [arrayIndex_inj hj hj'']; exact hc
                  · exact absurd ⟨k'', hk'', hj''⟩ hin
              · intro k' h5
                apply a6
                rintro j hj ⟨⟨k'', hk'', hj''⟩, h6⟩
                exact h5 j hj ⟨⟨k'', List.mem_cons_of_mem _ hk'', hj''⟩, h6⟩
            | stuck o' b m km c h1 h2 h3 h4 h5 h6 h7 h8 =>
              obtain ⟨a1, a2, a3, a4, a5, a6⟩ := h8
              refine .stuck o' b m km c (List.mem_cons_of_mem _ h1) h2 h3 h4 h5 h6 ?_ ⟨a1, a2, a3, a4, ?_, ?_⟩
              · intro k' hk' j hj h9 h10 d hd
                rcases List.mem_cons.1 hk' with rfl | hk'
                · rw [hc] at hd; cases hd
                · exact h7 k' hk' j hj h9 h10 d hd
              · rintro k' j hj ⟨⟨k'', hk'', hj''⟩, h9⟩
                by_cases hin : ∃ k ∈ ks, k.arrayIndex = some j
                · exact a5 k' j hj ⟨hin, h9⟩
                · rcases List.mem_cons.1 hk'' with rfl | hk''
                  · rw [a6 k' (by rintro j' hj' ⟨hin', _⟩; rw [hj] at hj'; cases hj'; exact hin hin')]
                    rw [arrayIndex_inj hj hj'']; exact hc
                  · exact absurd ⟨k'', hk'', hj''⟩ hin
              · intro k' h9
                apply a6
                rintro j hj ⟨⟨k'', hk'', hj''⟩, h10⟩
                exact h9 j hj ⟨⟨k'', List.mem_cons_of_mem _ hk'', hj''⟩, h10⟩
          | removed a o' c ho' hc hcc =>
            rw [ho] at ho'; cases ho'
            simp only [if_true]
            have hlook : (s.objs.set id { o with props := removeAt k o.props })[id]? = some { o with props := removeAt k o.props } := by
              simp [(List.getElem?_eq_some_iff.1 ho).1]
            have hnd' : ((removeAt k o.props).map Entry.key).Nodup := hnd.sublist ((removeAt_sublist k o.props).map _)
            have hget : ∀ k', lookup k' (removeAt k o.props) = if k' = k then none else o.getOwn k' :=
              fun k' => lookup_removeAt hnd
            have := ih ⟨s.objs.set id { o with props := removeAt k o.props }, a⟩ _ hlook hnd' htail
            generalize deleteLoop id newLen oldLen ks ⟨s.objs.set id { o with props := removeAt k o.props }, a⟩ = r at this
            have hself : ∀ k' ∈ ks, k' ≠ k := by
              rintro k' hk' rfl
              have := hhead k' hk' i i hk hk
              omega
            cases this with
            | oom s' => exact .oom s'
            | finished o' b h1 h2 =>
              obtain ⟨a1, a2, a3, a4, a5, a6⟩ := h2
              simp only [List.set_set]
              refine .finished o' b ?_ ⟨a1, a2, a3, a4.trans (removeAt_sublist k o.props), ?_, ?_⟩
              · intro k' hk' j hj h3 h4 d hd
                rcases List.mem_cons.1 hk' with rfl | hk'
                · rw [hc] at hd; cases hd; exact hcc
                · refine h1 k' hk' j hj h3 h4 d ?_
                  simp only [Obj.getOwn]
                  rw [hget, if_neg (hself k' hk')]; exact hd
              · rintro k' j hj ⟨⟨k'', hk'', hj''⟩, h5⟩
                by_cases hin : ∃ k ∈ ks, k.arrayIndex = some j
                · exact a5 k' j hj ⟨hin, h5⟩
                · rcases List.mem_cons.1 hk'' with rfl | hk''
                  · rw [a6 k' (by rintro j' hj' ⟨hin', _⟩; rw [hj] at hj'; cases hj'; exact hin hin')]
                    simp only [Obj.getOwn]
                    rw [hget, if_pos (arrayIndex_inj hj hj'')]
                  · exact absurd ⟨k'', hk'', hj''⟩ hin
              · intro k' h5
                rw [a6]
                · simp only [Obj.getOwn]
                  rw [hget, if_neg]
                  · rfl
                  · rintro rfl; exact h5 i hk ⟨⟨_, List.mem_cons_self .., hk⟩, by omega, by omega⟩
                · rintro j hj ⟨⟨k'', hk'', hj''⟩, h6⟩
                  exact h5 j hj ⟨⟨k'', List.mem_cons_of_mem _ hk'', hj''⟩, h6⟩
            | stuck o' b m km c' h1 h2 h3 h4 h5 h6 h7 h8 =>
              obtain ⟨a1, a2, a3, a4, a5, a6⟩ := h8
              simp only [List.set_set]
              have hmi : m < i := hhead km h1 i m hk h2
              refine .stuck o' b m km c' (List.mem_cons_of_mem _ h1) h2 h3 h4 ?_ h6 ?_
                ⟨a1, a2, a3, a4.trans (removeAt_sublist k o.props), ?_, ?_⟩
              · simp only [Obj.getOwn] at h5
                rw [hget, if_neg (hself km h1)] at h5; exact h5
              · intro k' hk' j hj h9 h10 d hd
                rcases List.mem_cons.1 hk' with rfl | hk'
                · rw [hc] at hd; cases hd; exact hcc
                · refine h7 k' hk' j hj h9 h10 d ?_
                  simp only [Obj.getOwn]
                  rw [hget, if_neg (hself k' hk')]; exact hd
              · rintro k' j hj ⟨⟨k'', hk'', hj''⟩, h9⟩
                by_cases hin : ∃ k ∈ ks, k.arrayIndex = some j
                · exact a5 k' j hj ⟨hin, h9⟩
                · rcases List.mem_cons.1 hk'' with rfl | hk''
                  · rw [a6 k' (by rintro j' hj' ⟨hin', _⟩; rw [hj] at hj'; cases hj'; exact hin hin')]
                    simp only [Obj.getOwn]
                    rw [hget, if_pos (arrayIndex_inj hj hj'')]
                  · exact absurd ⟨k'', hk'', hj''⟩ hin
              · intro k' h9
                rw [a6]
                · simp only [Obj.getOwn]
                  rw [hget, if_neg]
                  · rfl
                  · rintro rfl; exact h9 i hk ⟨⟨_, List.mem_cons_self .., hk⟩, by omega, by omega⟩
                · rintro j hj ⟨⟨k'', hk'', hj''⟩, h10⟩
                  exact h9 j hj ⟨⟨k'', List.mem_cons_of_mem _ hk'', hj''⟩, h10⟩

/-! ## Shrinking -/

/-- Outcome of shrinking an array `o` from `oldLen` to `newLen`. -/
inductive ShrinkOut (id newLen : Nat) (p : Patch) (s : Store) (o : Obj) : Except Err Bool × Store → Prop where
  | oom (s') : ShrinkOut id newLen p s o (.error .outOfMemory, s')
  | rejected (a) : ¬ (p.configurable ≠ some true ∧ p.enumerable ≠ some true) →
      ShrinkOut id newLen p s o (.ok false, ⟨s.objs, a⟩)
  | done (o' a) : p.configurable ≠ some true → p.enumerable ≠ some true →
      (∀ k i d, k.arrayIndex = some i → newLen ≤ i → o.getOwn k = some d → d.configurable = true) →
      o'.arrayLen = some newLen →
      o'.getOwn lenKey = some ⟨false, false, .data (numVal newLen) (!(p.writable == some false))⟩ →
      (∀ k i, k.arrayIndex = some i → newLen ≤ i → o'.getOwn k = none) →
      (∀ k, k ≠ lenKey → (∀ i, k.arrayIndex = some i → i < newLen) → o'.getOwn k = o.getOwn k) →
      ShrinkOut id newLen p s o (.ok true, ⟨s.objs.set id o', a⟩)
  | stuck (o' a m km c) : p.configurable ≠ some true → p.enumerable ≠ some true →
      km.arrayIndex = some m → newLen ≤ m → o.getOwn km = some c → c.configurable = false →
      (∀ k i d, k.arrayIndex = some i → m < i → o.getOwn k = some d → d.configurable = true) →
      o'.arrayLen = some (m + 1) →
      o'.getOwn lenKey = some ⟨false, false, .data (numVal (m + 1)) (!(p.writable == some false))⟩ →
      (∀ k i, k.arrayIndex = some i → m < i → o'.getOwn k = none) →
      (∀ k, k ≠ lenKey → (∀ i, k.arrayIndex = some i → i ≤ m) → o'.getOwn k = o.getOwn k) →
      ShrinkOut id newLen p s o (.ok false, ⟨s.objs.set id o', a⟩)

theorem applyReadOnly_eq {s : Store} {id n : Nat} {o : Obj} {es : List Entry} (ho : s.objs[id]? = some o)
    (ha : o.arrayLen = some n) (hp : o.props = lenEntry n true :: es) (w' : Bool) :
    applyReadOnly id w' s = (.ok (), ⟨s.objs.set id (withLen o es n w'), s.alloc⟩) := by
  have hw : ∀ w, withLen o es n w = { o with props := lenEntry n w :: es } := by
    intro w; rcases o with ⟨a, b, c, d⟩; simp only at ha; subst ha; rfl
  unfold applyReadOnly
  cases w' with
  | true =>
    have : withLen o es n true = o := by rw [hw, ← hp]
    rw [this, set_self ho]
    rfl
  | false =>
    simp only [Bool.false_eq_true, if_false]
    rw [setLengthWritable_eq ho ha hp, hw]

theorem mem_keys_iff {o : Obj} {k : Key} : k ∈ o.props.map Entry.key ↔ ∃ d, o.getOwn k = some d := by
  constructor
  · intro h
    obtain ⟨e, he, rfl⟩ := List.mem_map.1 h
    exact lookup_isSome_of_mem he
  · rintro ⟨d, hd⟩
    exact List.mem_map_of_mem (lookup_mem hd)

theorem ne_lenKey_of_index {k : Key} {i : Nat} (h : k.arrayIndex = some i) : k ≠ lenKey := by
  rintro rfl; rw [arrayIndex_length] at h; cases h

theorem accepts_len_iff {ext : Bool} {p : Patch} {n : Nat} (hv : p.valid = true) (hval : p.value ≠ none) :
    EsAccepts ext p (some ⟨false, false, .data (numVal n) true⟩) ↔ p.configurable ≠ some true ∧ p.enumerable ≠ some true := by
  have hna : ¬ HasAccessorField p := fun h => (valid_iff p).1 hv ⟨.inl hval, h⟩
  constructor
  · rintro (h | h | h)
    · cases h; exact absurd rfl hval
    · cases h
    · refine ⟨h.1, fun he => ?_⟩
      have := h.2.1 true he
      cases this
  · rintro ⟨h1, h2⟩
    refine .inr (.inr ⟨h1, ?_, hna, by simp⟩)
    intro e he
    cases e with
    | false => rfl
    | true => exact absurd he h2

theorem shrink_out {id : Nat} {p : Patch} {s : Store} {o : Obj} {newLen oldLen : Nat} {es : List Entry}
    (hs : Shape s) (hb : ArrBound o) (ho : s.objs[id]? = some o) (ha : o.arrayLen = some oldLen)
    (hp : o.props = lenEntry oldLen true :: es) (hlt : newLen < oldLen) (hv : p.valid = true) (hval : p.value ≠ none) :
    ShrinkOut id newLen p s o (shrink id lenKey p newLen oldLen s) := by
  have hsh := hs o (List.mem_of_getElem? ho)
  obtain ⟨hold, hnd, _⟩ := hsh.cases ha
  have hbd := (bound_iff ha).1 hb
  unfold shrink
  generalize hnw : (!(p.writable == some false)) = newWritable
  generalize hp' : (if newWritable then p else { p with writable := some true } : Patch) = p'
  have hp'c : p'.configurable = p.configurable ∧ p'.enumerable = p.enumerable ∧ p'.get = p.get ∧ p'.set = p.set ∧
      p'.writable.getD true = true := by
    rw [← hp']
    cases newWritable with
    | false => simp
    | true =>
      simp only [if_true, true_and]
      cases hw : p.writable with
      | none => rfl
      | some b => cases b with
        | true => rfl
        | false => rw [hw] at hnw; cases hnw
  generalize hq : ({ p' with value := some (numVal newLen) } : Patch) = q
  have hqv : q.valid = true := by
    rw [valid_iff]
    rintro ⟨_, h⟩
    apply (valid_iff p).1 hv
    refine ⟨.inl hval, ?_⟩
    rw [← hq] at h
    simp only [HasAccessorField, hp'c.2.2.1, hp'c.2.2.2.1] at h
    exact h
  have hqval : q.value = some (numVal newLen) := by rw [← hq]
  have hqw : q.writable.getD true = true := by rw [← hq]; exact hp'c.2.2.2.2
  have hqc : q.configurable = p.configurable ∧ q.enumerable = p.enumerable := by
    rw [← hq]; exact ⟨hp'c.1, hp'c.2.1⟩
  rw [bind_run]
  have hlen := ordinaryDefine_len (p := q) (l := newLen) ho ha hp (by omega) (.inl hqval)
  have hgood := (Resp.ordinaryDefine_nonIndex (id := id) (p := q) arrayIndex_length) s hs
  generalize ordinaryDefine id lenKey q s = r1 at hlen hgood
  cases hlen with
  | oom a => exact .oom _
  | invalid h => rw [hqv] at h; cases h
  | rejected a _ hrej =>
    refine .rejected a ?_
    rw [accepts_len_iff hqv (by rw [hqval]; simp), hqc.1, hqc.2] at hrej
    exact hrej
  | nothing a h => cases h; cases hqval
  | wrote a _ hacc =>
    rw [accepts_len_iff hqv (by rw [hqval]; simp), hqc.1, hqc.2] at hacc
    rw [hqw] at hgood ⊢
    simp only [Bool.not_true, Bool.false_eq_true, if_false]
    rw [bind_run]
    generalize ho1 : withLen o es newLen true = o1 at hgood ⊢
    have hlook1 : (s.objs.set id o1)[id]? = some o1 := by simp [(List.getElem?_eq_some_iff.1 ho).1]
    have hget1 : ∀ k, k ≠ lenKey → o1.getOwn k = o.getOwn k := by
      intro k hk; rw [← ho1, getOwn_withLen hp, if_neg hk]
    rcases allocate_cases ⟨s.objs.set id o1, a⟩ with ⟨b, hal⟩ | ⟨b, hal⟩
    · rw [hal]
      simp only
      rw [bind_run, getObj_some (by exact hlook1)]
      simp only
      rw [bind_run]
      have hsh1 : Shape ⟨s.objs.set id o1, b⟩ := hgood.shape
      have hshape1 : ArrShape o1 := hsh1 o1 (List.mem_of_getElem? hlook1)
      have hnd1 : (o1.props.map Entry.key).Nodup := (hshape1.cases (n := newLen) (by rw [← ho1]; rfl)).2.1
      have hpw : o1.ownKeys.reverse.Pairwise (fun a b => ∀ i j, a.arrayIndex = some i → b.arrayIndex = some j → j < i) := by
        rw [List.pairwise_reverse]
        exact (ownKeys_index_sorted hnd1).imp fun h i j hi hj => h j i hj hi
      have hdl := deleteLoop_out id newLen oldLen o1.ownKeys.reverse ⟨s.objs.set id o1, b⟩ o1 hlook1 hnd1 hpw
      have hgood2 := Resp.deleteLoop id newLen oldLen o1.ownKeys.reverse _ hsh1
      generalize deleteLoop id newLen oldLen o1.ownKeys.reverse ⟨s.objs.set id o1, b⟩ = r2 at hdl hgood2
      have hmem : ∀ k, k ∈ o1.ownKeys.reverse ↔ ∃ d, o1.getOwn k = some d := by
        intro k; rw [List.mem_reverse, mem_ownKeys, mem_keys_iff]
      have hidx : ∀ k i, k.arrayIndex = some i → (∀ d, o1.getOwn k = some d → k ∈ o1.ownKeys.reverse) :=
        fun k i _ d hd => (hmem k).2 ⟨d, hd⟩
      cases hdl with
      | oom s' => exact .oom _
      | finished o2 c hconf hwo =>
        obtain ⟨w1, w2, w3, w4, w5, w6⟩ := hwo
        simp only [List.set_set] at hgood2 ⊢
        have hlook2 : (s.objs.set id o2)[id]? = some o2 := by simp [(List.getElem?_eq_some_iff.1 ho).1]
        have hlen2 : o2.arrayLen = some newLen := by rw [w3, ← ho1]; rfl
        obtain ⟨_, _, w, es2, hp2⟩ := (hgood2.shape o2 (List.mem_of_getElem? hlook2)).cases hlen2
        have hw : w = true := by
          have h1 := w6 lenKey (by intro i hi; rw [arrayIndex_length] at hi; cases hi)
          rw [getOwn_lenKey hp2, ← ho1, getOwn_withLen hp, if_pos rfl] at h1
          cases h1; rfl
        subst hw
        simp only [finishShrink]
        rw [bind_run, applyReadOnly_eq (by exact hlook2) hlen2 hp2]
        simp only [List.set_set, pure_run]
        refine .done _ _ hacc.1 hacc.2 ?_ rfl ?_ ?_ ?_
        · intro k i d hi hle hd
          rw [← hget1 k (ne_lenKey_of_index hi)] at hd
          have hlo : i < oldLen := by
            rw [hget1 k (ne_lenKey_of_index hi)] at hd; exact hbd k i d hi hd
          exact hconf k (hidx k i hi d hd) i hi hle hlo d hd
        · rw [getOwn_withLen hp2, if_pos rfl, hnw]
        · intro k i hi hle
          rw [getOwn_withLen hp2, if_neg (ne_lenKey_of_index hi)]
          cases hd : o1.getOwn k with
          | none =>
            cases h2 : o2.getOwn k with
            | none => rfl
            | some d2 =>
              obtain ⟨d, hd'⟩ := lookup_isSome_of_mem (w4.subset (lookup_mem h2))
              simp only [Obj.getOwn] at hd
              rw [hd] at hd'; cases hd'
          | some d =>
            have hlo : i < oldLen := by
              rw [hget1 k (ne_lenKey_of_index hi)] at hd; exact hbd k i d hi hd
            exact w5 k i hi ⟨⟨k, (hmem k).2 ⟨d, hd⟩, hi⟩, hle, hlo⟩
        · intro k hk hlt'
          rw [getOwn_withLen hp2, if_neg hk, w6 k, hget1 k hk]
          rintro i hi ⟨_, h1, _⟩
          have := hlt' i hi
          omega
      | stuck o2 c m km cc hkm hm hle hlo hown hncc hconf hwo =>
        obtain ⟨w1, w2, w3, w4, w5, w6⟩ := hwo
        simp only [List.set_set] at hgood2 ⊢
        have hlook2 : (s.objs.set id o2)[id]? = some o2 := by simp [(List.getElem?_eq_some_iff.1 ho).1]
        have hlen2 : o2.arrayLen = some newLen := by rw [w3, ← ho1]; rfl
        obtain ⟨_, _, w, es2, hp2⟩ := (hgood2.shape o2 (List.mem_of_getElem? hlook2)).cases hlen2
        have hw : w = true := by
          have h1 := w6 lenKey (by intro i hi; rw [arrayIndex_length] at hi; cases hi)
          rw [getOwn_lenKey hp2, ← ho1, getOwn_withLen hp, if_pos rfl] at h1
          cases h1; rfl
        subst hw
        simp only [finishShrink]
        rw [bind_run]
        have hm1 : m + 1 < 2 ^ 32 := by omega
        have hlen3 := ordinaryDefine_len (id := id) (s := ⟨s.objs.set id o2, c⟩) (p := { value := some (numVal (m + 1)) })
          (l := m + 1) hlook2 hlen2 hp2 hm1 (.inl rfl)
        generalize ordinaryDefine id lenKey { value := some (numVal (m + 1)) } ⟨s.objs.set id o2, c⟩ = r3 at hlen3
        cases hlen3 with
        | oom => exact .oom _
        | invalid h => cases h
        | rejected a' h1 h2 => exact absurd ((accepts_len_iff h1 (by simp)).2 ⟨by simp, by simp⟩) h2
        | nothing a' h => cases h
        | wrote a' h1 h2 =>
          simp only [Option.getD_none, Bool.not_true, Bool.false_eq_true, if_false, List.set_set]
          rw [bind_run]
          generalize ho3 : withLen o2 es2 (m + 1) true = o3
          have hlook3 : (s.objs.set id o3)[id]? = some o3 := by simp [(List.getElem?_eq_some_iff.1 ho).1]
          have hlen3 : o3.arrayLen = some (m + 1) := by rw [← ho3]; rfl
          have hp3 : o3.props = lenEntry (m + 1) true :: es2 := by rw [← ho3]; rfl
          have hget3 : ∀ k, k ≠ lenKey → o3.getOwn k = o2.getOwn k := by
            intro k hk; rw [← ho3, getOwn_withLen hp2, if_neg hk]
          rw [applyReadOnly_eq (by exact hlook3) hlen3 hp3]
          simp only [List.set_set, pure_run]
          have hkmne := ne_lenKey_of_index hm
          refine .stuck _ _ m km cc hacc.1 hacc.2 hm hle (by rw [← hget1 km hkmne]; exact hown) hncc ?_ rfl ?_ ?_ ?_
          · intro k i d hi hmi hd
            rw [← hget1 k (ne_lenKey_of_index hi)] at hd
            have hlo : i < oldLen := by
              rw [hget1 k (ne_lenKey_of_index hi)] at hd; exact hbd k i d hi hd
            exact hconf k (hidx k i hi d hd) i hi hmi hlo d hd
          · rw [getOwn_withLen hp3, if_pos rfl, hnw]
          · intro k i hi hmi
            have hne := ne_lenKey_of_index hi
            rw [getOwn_withLen hp3, if_neg hne, hget3 k hne]
            cases hd : o1.getOwn k with
            | none =>
              cases h2 : o2.getOwn k with
              | none => rfl
              | some d2 =>
                obtain ⟨d, hd'⟩ := lookup_isSome_of_mem (w4.subset (lookup_mem h2))
                simp only [Obj.getOwn] at hd
                rw [hd] at hd'; cases hd'
            | some d =>
              have hlo : i < oldLen := by
                rw [hget1 k hne] at hd; exact hbd k i d hi hd
              exact w5 k i hi ⟨⟨k, (hmem k).2 ⟨d, hd⟩, hi⟩, hmi, hlo⟩
          · intro k hk hlt'
            rw [getOwn_withLen hp3, if_neg hk, hget3 k hk, w6 k, hget1 k hk]
            rintro i hi ⟨_, h1, _⟩
            have := hlt' i hi
            omega
    · rw [hal]; exact .oom _

/-! ## Bounds along histories -/

/-- Bounds survive, unless the operation ran out of memory and `cut` allows that. -/
def BResp {α : Type} (cut : Bool) (m : M α) : Prop :=
  ∀ s, Shape s → Bound s → (cut = true ∧ (m s).1 = .error .outOfMemory) ∨ Bound (m s).2

theorem BResp.bind {α β : Type} {c : Bool} {m : M α} {k : α → M β} (hr : Resp m) (hm : BResp c m) (hk : ∀ a, BResp c (k a)) :
    BResp c (m >>= k) := by
  intro s hs hb
  rw [bind_run]
  have h1 := hr s hs
  have h2 := hm s hs hb
  generalize m s = r at h1 h2
  rcases r with ⟨e | a, s'⟩
  · rcases h2 with ⟨hc, h⟩ | h
    · simp only at h; cases h; exact .inl ⟨hc, rfl⟩
    · exact .inr h
  · rcases h2 with ⟨_, h⟩ | h
    · cases h
    · exact hk a s' h1.shape h

theorem BResp.pure {α : Type} (c : Bool) (a : α) : BResp c (Pure.pure a : M α) := fun _ _ hb => .inr hb
theorem BResp.fail {α : Type} (c : Bool) (e : Err) : BResp c (fail e : M α) := fun _ _ hb => .inr hb
theorem BResp.allocate (c : Bool) : BResp c allocate := by
  intro s _ hb
  rcases allocate_cases s with ⟨a, h⟩ | ⟨a, h⟩ <;> rw [h] <;> exact .inr (hb.same rfl)
theorem BResp.getObj (c : Bool) (id : Nat) : BResp c (getObj id) := by
  intro s _ hb
  cases h : s.objs[id]? with
  | none => rw [getObj_none h]; exact .inr hb
  | some o => rw [getObj_some h]; exact .inr hb
theorem BResp.ite {α : Type} {b : Bool} {c : Prop} [Decidable c] {x y : M α} (hx : BResp b x) (hy : BResp b y) :
    BResp b (if c then x else y) := by split <;> assumption

theorem BResp.ordinaryDefine (c : Bool) {id : Nat} {k : Key} {p : Patch} (hk : k ≠ lenKey) : BResp c (ordinaryDefine id k p) :=
  fun _ hs hb => .inr (ordinaryDefine_bound hs hb hk)

theorem BResp.delete (c : Bool) (id : Nat) (k : Key) : BResp c (ordinaryDelete id k) := by
  intro s hs hb
  refine .inr ?_
  have := ordinaryDelete_out id k s
  generalize Objects.ordinaryDelete id k s = r at this
  cases this with
  | oom => exact hb.same rfl
  | noObj => exact hb.same rfl
  | missing => exact hb.same rfl
  | refused => exact hb.same rfl
  | removed a o c ho hc hcc =>
    apply hb.set
    intro n hn e he i hi
    exact hb o (List.mem_of_getElem? ho) n hn e ((removeAt_sublist k o.props).subset he) i hi

theorem arraySetLength_bound {id : Nat} {p : Patch} (hv : p.valid = true) : BResp true (arraySetLength id lenKey p) := by
  intro s hs hb
  have hplain : ∀ (q : Patch) (o : Obj) (n l : Nat), s.objs[id]? = some o → o.arrayLen = some n → n ≤ l → l < 2 ^ 32 →
      (q.value = some (numVal l) ∨ (q.value = none ∧ l = n)) → Bound (ordinaryDefine id lenKey q s).2 := by
    intro q o n l ho ha hle hl hq
    have hm := List.mem_of_getElem? ho
    obtain ⟨_, _, w, es, hp⟩ := (hs o hm).cases ha
    have := ordinaryDefine_len ho ha hp hl hq
    generalize ordinaryDefine id lenKey q s = r at this
    cases this with
    | oom => exact hb.same rfl
    | invalid => exact hb
    | rejected => exact hb.same rfl
    | nothing => exact hb.same rfl
    | wrote =>
      apply hb.set
      apply bound_withLen hp
      intro k i d hi hd
      have := (bound_iff ha).1 (hb o hm) k i d hi hd
      omega
  unfold arraySetLength
  cases hpv : p.value with
  | none =>
    simp only
    refine .inr ?_
    cases ho : s.objs[id]? with
    | none =>
      have := ordinaryDefine_out id lenKey p s
      generalize ordinaryDefine id lenKey p s = r at this
      cases this with
      | invalid => exact hb
      | oom => exact hb.same rfl
      | noObj => exact hb.same rfl
      | rejected => exact hb.same rfl
      | nothing => exact hb.same rfl
      | wrong => exact hb.same rfl
      | wrote a o d nl _ ho' => rw [ho] at ho'; cases ho'
    | some o =>
      cases ha : o.arrayLen with
      | some n =>
        have hlt := ((hs o (List.mem_of_getElem? ho)).cases ha).1
        exact hplain p o n n ho ha (Nat.le_refl _) hlt (.inr ⟨hpv, rfl⟩)
      | none =>
        have := ordinaryDefine_out id lenKey p s
        generalize ordinaryDefine id lenKey p s = r at this
        cases this with
        | invalid => exact hb
        | oom => exact hb.same rfl
        | noObj => exact hb.same rfl
        | rejected => exact hb.same rfl
        | nothing => exact hb.same rfl
        | wrong => exact hb.same rfl
        | wrote a o' d nl _ ho' hd hn =>
          rw [ho] at ho'; cases ho'
          apply hb.set
          obtain ⟨_, he⟩ := defined_ordinary ha hn
          rw [he]; exact bound_ordinary ha
  | some v =>
    simp only
    cases hl : arrayLengthFromValue v with
    | none => exact .inr hb
    | some l =>
      simp only
      have hl32 : l < 2 ^ 32 := by
        cases v <;> simp only [arrayLengthFromValue] at hl <;> first | cases hl | exact arrayLengthFromNum_lt hl
      rw [bind_run]
      cases ho : s.objs[id]? with
      | none => rw [getObj_none ho]; exact .inr hb
      | some o =>
        rw [getObj_some ho]
        simp only
        cases ha : o.arrayLen with
        | none => exact .inr hb
        | some n =>
          simp only [ge_iff_le]
          by_cases hle : n ≤ l
          · rw [if_pos hle]
            exact .inr (hplain { p with value := some (numVal l) } o n l ho ha hle hl32 (.inl rfl))
          · rw [if_neg hle]
            obtain ⟨_, _, w, es, hp⟩ := (hs o (List.mem_of_getElem? ho)).cases ha
            rw [lengthWritable_eq ha hp]
            cases w with
            | false => exact .inr hb
            | true =>
              simp only
              have := shrink_out (p := p) hs (hb o (List.mem_of_getElem? ho)) ho ha hp (Nat.lt_of_not_le hle) hv (by rw [hpv]; simp)
              generalize shrink id lenKey p l n s = r at this
              cases this with
              | oom s2 => exact .inl (by simp)
              | rejected => exact .inr (hb.same rfl)
              | done o' a _ _ _ h1 h2 h3 h4 =>
                refine .inr (hb.set ((bound_iff h1).2 ?_) a)
                intro k i d hi hd
                by_cases hli : l ≤ i
                · rw [h3 k i hi hli] at hd; cases hd
                · omega
              | stuck o' a m km c _ _ _ _ _ _ _ h1 h2 h3 h4 =>
                refine .inr (hb.set ((bound_iff h1).2 ?_) a)
                intro k i d hi hd
                by_cases hli : m < i
                · rw [h3 k i hi hli] at hd; cases hd
                · omega

theorem BResp.arrayDefineIndex (c : Bool) {id : Nat} {k : Key} {p : Patch} {i : Nat} (hk : k.arrayIndex = some i) :
    BResp c (arrayDefineIndex id k p i) := by
  intro s hs hb
  refine .inr ?_
  cases ho : s.objs[id]? with
  | none =>
    unfold Objects.arrayDefineIndex
    rw [bind_run, getObj_none ho]; exact hb
  | some o =>
    cases ha : o.arrayLen with
    | none =>
      unfold Objects.arrayDefineIndex
      rw [bind_run, getObj_some ho]
      simp only [ha]
      exact hb
    | some n =>
      have hout := arrayDefineIndex_out (p := p) hs hk ho ha
      generalize hr : Objects.arrayDefineIndex id k p i s = r at hout
      have hm := List.mem_of_getElem? ho
      cases hout with
      | refused => exact hb
      | ordinary hw => exact ordinaryDefine_bound hs hb (ne_lenKey_of_index hk)
      | moved a hle hw hc =>
        obtain ⟨d, hd⟩ := hc
        have := (bound_iff ha).1 (hb o hm) k i d hk hd
        omega

theorem BResp.arrayDefine (c : Bool) (id : Nat) (k : Key) (p : Patch) (h : k = lenKey → c = true) :
    BResp c (arrayDefine id k p) := by
  unfold Objects.arrayDefine
  cases hv : p.valid with
  | false => exact BResp.fail _ _
  | true =>
    simp only [Bool.not_true, Bool.false_eq_true, if_false]
    refine BResp.bind Resp.allocate (BResp.allocate c) fun _ => ?_
    cases hl : k.isLength with
    | true =>
      have hk := (isLength_iff k).1 hl
      rw [h hk, hk]
      exact arraySetLength_bound hv
    | false =>
      simp only [Bool.false_eq_true, if_false]
      have hne : k ≠ lenKey := by rintro rfl; cases hl
      cases hi : k.arrayIndex with
      | some i => exact BResp.arrayDefineIndex c hi
      | none => exact BResp.ordinaryDefine c hne

theorem BResp.defineOwn (c : Bool) (id : Nat) (k : Key) (p : Patch) (h : k = lenKey → c = true) :
    BResp c (defineOwn id k p) := by
  intro s hs hb
  unfold Objects.defineOwn
  rw [bind_run]
  cases ho : s.objs[id]? with
  | none => rw [getObj_none ho]; exact .inr hb
  | some o =>
    rw [getObj_some ho]
    simp only
    cases ha : o.arrayLen with
    | none =>
      refine .inr ?_
      simp only [Option.isSome_none, Bool.false_eq_true, if_false]
      have := ordinaryDefine_out id k p s
      generalize Objects.ordinaryDefine id k p s = r at this
      cases this with
      | invalid => exact hb
      | oom => exact hb.same rfl
      | noObj => exact hb.same rfl
      | rejected => exact hb.same rfl
      | nothing => exact hb.same rfl
      | wrong => exact hb.same rfl
      | wrote a o' d nl _ ho' hd hn =>
        rw [ho] at ho'; cases ho'
        apply hb.set
        obtain ⟨_, he⟩ := defined_ordinary ha hn
        rw [he]; exact bound_ordinary ha
    | some n => exact BResp.arrayDefine c id k p h s hs hb

theorem BResp.createDataProperty (c : Bool) (id : Nat) (k : Key) (v : Value) (h : k = lenKey → c = true) :
    BResp c (createDataProperty id k v) :=
  BResp.bind Resp.allocate (BResp.allocate c) fun _ => BResp.defineOwn c _ _ _ h

theorem BResp.setOnReceiver (c : Bool) (k : Key) (v r : Value) (h : k = lenKey → c = true) : BResp c (setOnReceiver k v r) := by
  unfold Objects.setOnReceiver
  cases r with
  | object r =>
    refine BResp.bind (Resp.getObj r) (BResp.getObj c r) fun o => ?_
    cases o.getOwn k with
    | none => exact BResp.createDataProperty c _ _ _ h
    | some d =>
      simp only
      cases d.kind with
      | accessor => exact BResp.pure _ _
      | data _ w => exact BResp.ite (BResp.pure _ _) (BResp.defineOwn c _ _ _ h)
  | _ => exact BResp.pure _ _

theorem BResp.ordinarySet (c : Bool) (id : Nat) (k : Key) (v r : Value) (h : k = lenKey → c = true) :
    BResp c (ordinarySet id k v r) := by
  unfold Objects.ordinarySet
  refine BResp.bind Resp.allocate (BResp.allocate c) fun _ => ?_
  intro s hs hb
  dsimp only
  cases getProperty s.objs k maxPrototypeChain (some id) with
  | error e => exact .inr hb
  | ok d =>
    simp only
    cases (d.getD ⟨true, true, .data .undefined true⟩).kind with
    | data _ w =>
      simp only
      cases w with
      | false => exact .inr hb
      | true => exact (BResp.bind (Resp.setOnReceiver k v r) (BResp.setOnReceiver c k v r h) fun _ => BResp.pure _ _) s hs hb
    | accessor _ set =>
      simp only
      split <;> exact .inr hb

theorem toRes_err {α : Type} {f : α → Res} {r : Except Err α × Store} (h : r.1 = .error .outOfMemory) :
    (toRes f r).1 = .err .outOfMemory := by
  rcases r with ⟨_ | _, _⟩
  · cases h; rfl
  · cases h

theorem writesLength_key {k : Key} : k = lenKey ↔ (match k with | .str s => s == lengthUnits | .sym _ => false) = true := by
  cases k <;> simp [lenKey]

theorem step_bound (op : Op) {s : Store} (hs : Shape s) (hb : Bound s)
    (hn : writesLength op = true → (step op s).1 ≠ .err .outOfMemory) : Bound (step op s).2 := by
  have fin : ∀ {α : Type} {f : α → Res} {m : M α}, step op s = toRes f (m s) → BResp (writesLength op) m → Bound (step op s).2 := by
    intro α f m he hm
    rcases hm s hs hb with ⟨hc, h⟩ | h
    · exact absurd (by rw [he]; exact toRes_err h) (hn hc)
    · rw [he, toRes_snd]; exact h
  cases op with
  | newObject p es =>
    refine fin rfl (BResp.bind Resp.allocate (BResp.allocate _) fun _ => ?_)
    intro s _ hb
    refine .inr ?_
    intro o ho
    rcases List.mem_append.1 ho with ho | ho
    · exact hb o ho
    · rw [List.mem_singleton.1 ho]; exact bound_ordinary rfl
  | newArray n =>
    by_cases h : n < 2 ^ 32
    · refine fin (m := allocObj (newArray n)) (f := fun _ => .unit) (by simp only [step, if_pos h]) (BResp.bind Resp.allocate (BResp.allocate _) fun _ => ?_)
      intro s _ hb
      refine .inr ?_
      intro o ho
      rcases List.mem_append.1 ho with ho | ho
      · exact hb o ho
      · rw [List.mem_singleton.1 ho]
        intro m hm e he i hi
        simp only [newArray, List.mem_singleton] at he
        subst he
        rw [arrayIndex_length] at hi; cases hi
    · simp only [step, if_neg h]; exact hb
  | define id k p =>
    refine fin rfl (BResp.defineOwn _ id k p fun h => ?_)
    subst h; rfl
  | create id k v =>
    refine fin rfl (BResp.createDataProperty _ id k v fun h => ?_)
    subst h; rfl
  | delete id k => exact fin rfl (BResp.delete _ id k)
  | set id k v r =>
    refine fin rfl (BResp.ordinarySet _ id k v r fun h => ?_)
    subst h; rfl
  | preventExtensions id =>
    refine fin (m := preventExtensions id) (f := fun _ => .unit) rfl ?_
    intro s _ hb
    refine .inr ?_
    unfold preventExtensions
    rw [bind_run]
    cases ho : s.objs[id]? with
    | none => rw [getObj_none ho]; exact hb
    | some o =>
      rw [getObj_some ho]
      exact Bound.set (o' := { o with extensible := false }) hb (hb o (List.mem_of_getElem? ho)) _
  | setProto id p =>
    refine fin (m := setProto id p) (f := fun _ => .unit) rfl ?_
    intro s _ hb
    refine .inr ?_
    unfold setProto
    rw [bind_run]
    cases ho : s.objs[id]? with
    | none => rw [getObj_none ho]; exact hb
    | some o =>
      rw [getObj_some ho]
      exact Bound.set (o' := { o with proto := p }) hb (hb o (List.mem_of_getElem? ho)) _

theorem run_bound (ops : List Op) {s : Store} (hs : Shape s) (hb : Bound s) (hn : NoCutShort ops s) : Bound (run ops s) := by
  induction ops generalizing s with
  | nil => exact hb
  | cons op ops ih => exact ih (step_good op hs).shape (step_bound op hs hb hn.1) hn.2

end Verif.Objects
