import Verif.Objects.Ops
import Verif.Objects.Keys

namespace Verif.Objects

/-- The key `"length"`. -/
abbrev lenKey : Key := .str lengthUnits

/-- The entry holding an array's length. -/
def lenEntry (n : Nat) (w : Bool) : Entry := ⟨lenKey, ⟨false, false, .data (numVal n) w⟩⟩

theorem defined_length {o : Obj} {n : Nat} {w : Bool} {es : List Entry} {d : Desc} {nl : Option Nat}
    (ha : o.arrayLen = some n) (hp : o.props = lenEntry n w :: es) (hn : o.newArrayLength lenKey d = .ok nl) :
    ∃ x w' l, d.kind = .data (.number x) w' ∧ arrayLengthFromNum x = some l ∧
      o.defined lenKey d nl =
        { o with
          arrayLen := some l
          props := ⟨lenKey, { d with kind := .data (numVal l) w' }⟩ :: es } := by
  simp only [Obj.newArrayLength, ha, Key.isLength, hp, position, lenEntry] at hn
  simp at hn
  split at hn
  · rename_i x w' hk
    split at hn
    · rename_i l hl
      cases hn
      refine ⟨x, w', l, hk, hl, ?_⟩
      rw [Obj.defined, hp, show writeProps (lenEntry n w :: es) lenKey d = ⟨lenKey, d⟩ :: es from
        writeProps_cons_eq (lenEntry n w) es d]
      simp only [Obj.finishDefine, arrayIndex_length, Obj.setArrayLength, ha, Desc.withValue, hk]
    · cases hn
  · cases hn

/-- The length after writing key `k` into an array of length `n`. -/
def grownLen (n : Nat) (k : Key) : Nat :=
  match k.arrayIndex with
  | some i => max n (i + 1)
  | none => n

theorem defined_other {o : Obj} {n : Nat} {w : Bool} {es : List Entry} {k : Key} {d : Desc} {nl : Option Nat}
    (ha : o.arrayLen = some n) (hp : o.props = lenEntry n w :: es) (hk : k ≠ lenKey)
    (hn : o.newArrayLength k d = .ok nl) :
    o.defined k d nl =
      { o with
        arrayLen := some (grownLen n k)
        props := lenEntry (grownLen n k) w :: writeProps es k d } := by
  have hl : k.isLength = false := by
    cases h : k.isLength with
    | false => rfl
    | true => exact absurd ((isLength_iff k).1 h) hk
  have : nl = none := by simp [Obj.newArrayLength, hl] at hn; exact hn.symm
  subst this
  rw [Obj.defined, hp, writeProps_cons_ne (by intro h; exact hk h.symm)]
  simp only [Obj.finishDefine, grownLen, ha]
  cases hi : k.arrayIndex with
  | none => simp
  | some i =>
    have hle := arrayIndex_le hi
    have hm : (i + 1) % 2 ^ 32 = i + 1 := Nat.mod_eq_of_lt (by omega)
    simp only [hm]
    by_cases hc : i + 1 > n
    · rw [if_pos hc, show max n (i + 1) = i + 1 by omega]
      simp [Obj.setArrayLength, Desc.withValue, lenEntry]
    · rw [if_neg hc, show max n (i + 1) = n by omega]

theorem lookup_cons_ne {e : Entry} {es : List Entry} {k : Key} (h : e.key ≠ k) : lookup k (e :: es) = lookup k es := by
  simp [lookup, h]

theorem lookup_cons_eq {e : Entry} {es : List Entry} : lookup e.key (e :: es) = some e.desc := by simp [lookup]

/-! ## Relations between objects and between stores -/

def FrozenObj (o o' : Obj) : Prop :=
  ∀ k d, o.getOwn k = some d → d.configurable = false → ∃ d', o'.getOwn k = some d' ∧ FrozenAs d d'

def SealedObj (o o' : Obj) : Prop :=
  o.extensible = false → o'.extensible = false ∧ ∀ k, o.getOwn k = none → o'.getOwn k = none

structure ObjStep (o o' : Obj) : Prop where
  shape : ArrShape o'
  frozen : FrozenObj o o'
  sealed : SealedObj o o'
  kind : o'.arrayLen.isSome = o.arrayLen.isSome

theorem ObjStep.refl {o : Obj} (h : ArrShape o) : ObjStep o o where
  shape := h
  frozen := fun _ d hd hc => ⟨d, hd, FrozenAs.refl d hc⟩
  sealed := fun h => ⟨h, fun _ h => h⟩
  kind := rfl

theorem FrozenObj.trans {a b c : Obj} (h : FrozenObj a b) (h' : FrozenObj b c) : FrozenObj a c := by
  intro k d hd hc
  obtain ⟨d', hd', hf⟩ := h k d hd hc
  obtain ⟨d'', hd'', hf'⟩ := h' k d' hd' hf.1
  exact ⟨d'', hd'', hf.trans hf'⟩

theorem SealedObj.trans {a b c : Obj} (h : SealedObj a b) (h' : SealedObj b c) : SealedObj a c := by
  intro he
  obtain ⟨h1, h2⟩ := h he
  obtain ⟨h3, h4⟩ := h' h1
  exact ⟨h3, fun k hk => h4 k (h2 k hk)⟩

def Shape (s : Store) : Prop := ∀ o ∈ s.objs, ArrShape o

/-- Every object of `s` has a well-behaved successor in `s'`. -/
structure Good (s s' : Store) : Prop where
  shape : Shape s'
  objs : ∀ (id : Nat) (o : Obj), s.objs[id]? = some o →
    ∃ o' : Obj, s'.objs[id]? = some o' ∧ FrozenObj o o' ∧ SealedObj o o' ∧ o'.arrayLen.isSome = o.arrayLen.isSome

theorem Good.refl {s : Store} (h : Shape s) : Good s s where
  shape := h
  objs := fun _ o ho => ⟨o, ho, fun _ d hd hc => ⟨d, hd, FrozenAs.refl d hc⟩, fun h => ⟨h, fun _ h => h⟩, rfl⟩

theorem Good.same {s : Store} (h : Shape s) {s' : Store} (he : s'.objs = s.objs) : Good s s' where
  shape := fun o ho => h o (he ▸ ho)
  objs := fun _ o ho => ⟨o, he ▸ ho, fun _ d hd hc => ⟨d, hd, FrozenAs.refl d hc⟩, fun h => ⟨h, fun _ h => h⟩, rfl⟩

theorem Good.trans {a b c : Store} (h : Good a b) (h' : Good b c) : Good a c where
  shape := h'.shape
  objs := fun id o ho => by
    obtain ⟨o', ho', h1, h2, h3⟩ := h.objs id o ho
    obtain ⟨o'', ho'', h1', h2', h3'⟩ := h'.objs id o' ho'
    exact ⟨o'', ho'', h1.trans h1', h2.trans h2', h3'.trans h3⟩

theorem getElem?_set_some {l : List Obj} {i j : Nat} {o o' x : Obj} (ho : l[i]? = some o) (hx : l[j]? = some x) :
    (l.set i o')[j]? = some (if j = i then o' else x) := by
  rw [List.getElem?_set]
  by_cases h : i = j
  · subst h
    have : i < l.length := (List.getElem?_eq_some_iff.1 ho).1
    simp [this]
  · rw [if_neg h, if_neg (fun e => h e.symm)]; exact hx

theorem Good.set {s : Store} (h : Shape s) {id : Nat} {o o' : Obj} (ho : s.objs[id]? = some o)
    (hs : ObjStep o o') (a : List Bool) : Good s ⟨s.objs.set id o', a⟩ where
  shape := by
    intro x hx
    rcases List.mem_or_eq_of_mem_set hx with h' | rfl
    · exact h x h'
    · exact hs.shape
  objs := by
    intro j x hx
    refine ⟨_, getElem?_set_some ho hx, ?_⟩
    by_cases hj : j = id
    · subst hj
      rw [ho] at hx; cases hx
      rw [if_pos rfl]
      exact ⟨hs.frozen, hs.sealed, hs.kind⟩
    · rw [if_neg hj]
      exact ⟨fun _ d hd hc => ⟨d, hd, FrozenAs.refl d hc⟩, fun h => ⟨h, fun _ h => h⟩, rfl⟩

/-! ## The write of an accepted definition -/

theorem patch_value_frozen {ext : Bool} {p : Patch} {c d : Desc} {v v' : Value} {w : Bool} (ha : EsAccepts ext p (some c))
    (hr : EsResult p (some c) d) (hc : c.configurable = false) (hk : c.kind = .data v w) (hk' : d.kind = .data v' w') :
    (w = false → v' = v ∧ w' = false) := by
  rintro rfl
  have := (frozen_of_es ha hr hc).2.2
  rw [hk] at this
  simp only at this
  rw [hk'] at this
  cases this
  exact ⟨rfl, rfl⟩

theorem ArrShape.cases {o : Obj} {n : Nat} (h : ArrShape o) (ha : o.arrayLen = some n) :
    n < 2 ^ 32 ∧ (o.props.map Entry.key).Nodup ∧ ∃ w es, o.props = lenEntry n w :: es := h n ha

theorem lengthWritable_eq {o : Obj} {n : Nat} {w : Bool} {es : List Entry} (ha : o.arrayLen = some n)
    (hp : o.props = lenEntry n w :: es) : o.lengthWritable = .ok w := by
  simp [Obj.lengthWritable, ha, hp, lenEntry, Key.isLength]

theorem numVal_inj {a b : Nat} (h : numVal a = numVal b) : a = b := by
  simp only [numVal, Value.number.injEq, Num.fin.injEq] at h
  exact_mod_cast h

theorem step_defined {o : Obj} {k : Key} {p : Patch} {d : Desc} {nl : Option Nat} (hv : p.valid = true)
    (hs : ArrShape o) (hd : decideDefine o.extensible p (o.getOwn k) = some (some d))
    (hn : o.newArrayLength k d = .ok nl)
    (hg : ∀ n i, o.arrayLen = some n → k.arrayIndex = some i → n ≤ i → o.lengthWritable = .ok true) :
    ObjStep o (o.defined k d nl) := by
  obtain ⟨hacc, hres⟩ := decide_some_some hv hd
  have hfr : ∀ c, o.getOwn k = some c → c.configurable = false → FrozenAs c d := by
    intro c hc hcc
    rw [hc] at hacc hres
    exact frozen_of_es hacc hres hcc
  have hext : o.getOwn k = none → o.extensible = true := by
    intro h; rw [h] at hacc; exact hacc
  cases ha : o.arrayLen with
  | none =>
    obtain ⟨rfl, he⟩ := defined_ordinary ha hn
    rw [he]
    refine ⟨?_, ?_, ?_, rfl⟩
    · intro n h; simp only at h; rw [ha] at h; cases h
    · intro k' c hc hcc
      simp only [Obj.getOwn, lookup_writeProps]
      by_cases hk : k' = k
      · subst hk; rw [if_pos rfl]; exact ⟨d, rfl, hfr c hc hcc⟩
      · rw [if_neg hk]; exact ⟨c, hc, FrozenAs.refl c hcc⟩
    · intro hne
      refine ⟨hne, fun k' hk' => ?_⟩
      simp only [Obj.getOwn, lookup_writeProps]
      by_cases hk : k' = k
      · subst hk; rw [hext hk'] at hne; cases hne
      · rw [if_neg hk]; exact hk'
  | some n =>
    obtain ⟨hlt, hnd, w, es, hp⟩ := hs.cases ha
    have hown : o.getOwn lenKey = some ⟨false, false, .data (numVal n) w⟩ := by
      rw [Obj.getOwn, hp]; exact lookup_cons_eq (e := lenEntry n w)
    by_cases hk : k = lenKey
    · subst hk
      obtain ⟨x, w', l, hkind, hl, he⟩ := defined_length ha hp hn
      rw [he]
      have hf := hfr _ hown rfl
      have hd' : ({ d with kind := .data (numVal l) w' } : Desc) = ⟨false, false, .data (numVal l) w'⟩ := by
        have h1 := hf.1
        have h2 := hf.2.1
        simp only at h2
        rw [h1, h2]
      have hff : FrozenAs ⟨false, false, .data (numVal n) w⟩ { d with kind := .data (numVal l) w' } := by
        refine ⟨hf.1, hf.2.1, ?_⟩
        cases w with
        | true => exact ⟨_, _, rfl⟩
        | false =>
          have := hf.2.2
          simp only at this
          rw [hkind] at this
          simp only [Kind.data.injEq] at this
          obtain ⟨h1, rfl⟩ := this
          simp only [numVal, Value.number.injEq] at h1
          subst h1
          rw [arrayLengthFromNum_nat hlt] at hl
          cases hl
          rfl
      have hget : ∀ k', Obj.getOwn { o with arrayLen := some l, props := ⟨lenKey, { d with kind := .data (numVal l) w' }⟩ :: es } k'
          = if k' = lenKey then some { d with kind := .data (numVal l) w' } else o.getOwn k' := by
        intro k'
        simp only [Obj.getOwn, hp]
        by_cases h : k' = lenKey
        · subst h; rw [if_pos rfl]; exact lookup_cons_eq (e := ⟨lenKey, _⟩)
        · rw [if_neg h, lookup_cons_ne (fun e => h e.symm), lookup_cons_ne (fun e => h e.symm)]
      refine ⟨?_, ?_, ?_, by simp [ha]⟩
      · intro m hm
        cases hm
        refine ⟨arrayLengthFromNum_lt hl, ?_, w', es, by rw [hd']⟩
        rw [hp] at hnd
        exact hnd
      · intro k' c hc hcc
        rw [hget]
        by_cases h : k' = lenKey
        · subst h
          rw [hown] at hc; cases hc
          rw [if_pos rfl]; exact ⟨_, rfl, hff⟩
        · rw [if_neg h]; exact ⟨c, hc, FrozenAs.refl c hcc⟩
      · intro hne
        refine ⟨hne, fun k' hk' => ?_⟩
        rw [hget]
        by_cases h : k' = lenKey
        · subst h; rw [hown] at hk'; cases hk'
        · rw [if_neg h]; exact hk'
    · have he := defined_other ha hp hk hn
      rw [he]
      have hget : ∀ k', Obj.getOwn { o with arrayLen := some (grownLen n k), props := lenEntry (grownLen n k) w :: writeProps es k d } k'
          = if k' = lenKey then some ⟨false, false, .data (numVal (grownLen n k)) w⟩
            else if k' = k then some d else o.getOwn k' := by
        intro k'
        simp only [Obj.getOwn, hp]
        by_cases h : k' = lenKey
        · subst h; rw [if_pos rfl]; exact lookup_cons_eq (e := lenEntry _ w)
        · rw [if_neg h, lookup_cons_ne (fun e => h e.symm), lookup_cons_ne (fun e => h e.symm), lookup_writeProps]
      have hlen : grownLen n k < 2 ^ 32 := by
        unfold grownLen
        cases hi : k.arrayIndex with
        | none => exact hlt
        | some i => have := arrayIndex_le hi; simp only; omega
      refine ⟨?_, ?_, ?_, by simp [ha]⟩
      · intro m hm
        cases hm
        refine ⟨hlen, ?_, w, _, rfl⟩
        rw [hp] at hnd
        simp only [List.map_cons, List.nodup_cons] at hnd ⊢
        refine ⟨?_, nodup_writeProps hnd.2⟩
        rw [keys_writeProps]
        split
        · rw [List.mem_append]
          rintro (h | h)
          · exact hnd.1 h
          · exact hk (List.mem_singleton.1 h).symm
        · exact hnd.1
      · intro k' c hc hcc
        rw [hget]
        by_cases h : k' = lenKey
        · subst h
          rw [hown] at hc; cases hc
          rw [if_pos rfl]
          refine ⟨_, rfl, rfl, rfl, ?_⟩
          cases w with
          | true => exact ⟨_, _, rfl⟩
          | false =>
            have : grownLen n k = n := by
              unfold grownLen
              cases hi : k.arrayIndex with
              | none => rfl
              | some i =>
                by_cases hle : n ≤ i
                · have := hg n i ha hi hle
                  rw [lengthWritable_eq ha hp] at this
                  cases this
                · simp only; omega
            simp only [this]
        · rw [if_neg h]
          by_cases h' : k' = k
          · subst h'; rw [if_pos rfl]; exact ⟨d, rfl, hfr c hc hcc⟩
          · rw [if_neg h']; exact ⟨c, hc, FrozenAs.refl c hcc⟩
      · intro hne
        refine ⟨hne, fun k' hk' => ?_⟩
        rw [hget]
        by_cases h : k' = lenKey
        · subst h; rw [hown] at hk'; cases hk'
        · rw [if_neg h]
          by_cases h' : k' = k
          · subst h'; rw [hext hk'] at hne; cases hne
          · rw [if_neg h']; exact hk'

theorem ordinaryDefine_good {id : Nat} {k : Key} {p : Patch} {s : Store} (hs : Shape s)
    (hg : ∀ o n i, s.objs[id]? = some o → o.arrayLen = some n → k.arrayIndex = some i → n ≤ i →
      o.lengthWritable = .ok true) : Good s (ordinaryDefine id k p s).2 := by
  generalize hr : ordinaryDefine id k p s = r
  have := ordinaryDefine_out id k p s
  rw [hr] at this
  cases this with
  | invalid => exact Good.refl hs
  | oom => exact Good.same hs rfl
  | noObj => exact Good.same hs rfl
  | rejected => exact Good.same hs rfl
  | nothing => exact Good.same hs rfl
  | wrong => exact Good.same hs rfl
  | wrote a o d nl hv ho hd hn =>
    exact Good.set hs ho (step_defined hv (hs o (List.mem_of_getElem? ho)) hd hn fun n i h1 h2 h3 => hg o n i ho h1 h2 h3) a

/-! ## Deletion -/

theorem step_removed {o : Obj} {k : Key} {c : Desc} (hs : ArrShape o) (hc : o.getOwn k = some c)
    (hcc : c.configurable = true) : ObjStep o { o with props := removeAt k o.props } := by
  have hget : ∀ k' d, o.getOwn k' = some d → d.configurable = false → lookup k' (removeAt k o.props) = some d := by
    intro k' d hd hdc
    rw [lookup_removeAt_ne]
    · exact hd
    · rintro rfl
      rw [hc] at hd; cases hd
      rw [hcc] at hdc; cases hdc
  refine ⟨?_, ?_, ?_, rfl⟩
  · intro n ha
    obtain ⟨hlt, hnd, w, es, hp⟩ := hs.cases ha
    refine ⟨hlt, (hnd.sublist ((removeAt_sublist k o.props).map _)), w, removeAt k es, ?_⟩
    have hne : ¬ lenKey = k := by
      rintro rfl
      rw [Obj.getOwn, hp] at hc
      rw [show lookup lenKey (lenEntry n w :: es) = some (lenEntry n w).desc from lookup_cons_eq (e := lenEntry n w)] at hc
      cases hc
      cases hcc
    rw [hp]
    simp [removeAt, lenEntry, hne]
  · intro k' d hd hdc
    exact ⟨d, hget k' d hd hdc, FrozenAs.refl d hdc⟩
  · intro he
    refine ⟨he, fun k' hk' => ?_⟩
    simp only [Obj.getOwn] at hk' ⊢
    rw [lookup_eq_none] at hk' ⊢
    exact fun e he => hk' e ((removeAt_sublist k o.props).subset he)

/-- What `ordinary_delete` can do. -/
inductive DelOut (id : Nat) (k : Key) (s : Store) : Except Err Bool × Store → Prop where
  | oom (a) : DelOut id k s (.error .outOfMemory, ⟨s.objs, a⟩)
  | noObj (a) : s.objs[id]? = none → DelOut id k s (.error .invalidHandle, ⟨s.objs, a⟩)
  | missing (a o) : s.objs[id]? = some o → o.getOwn k = none → DelOut id k s (.ok true, ⟨s.objs, a⟩)
  | refused (a o c) : s.objs[id]? = some o → o.getOwn k = some c → c.configurable = false →
      DelOut id k s (.ok false, ⟨s.objs, a⟩)
  | removed (a o c) : s.objs[id]? = some o → o.getOwn k = some c → c.configurable = true →
      DelOut id k s (.ok true, ⟨s.objs.set id { o with props := removeAt k o.props }, a⟩)

theorem ordinaryDelete_out (id : Nat) (k : Key) (s : Store) : DelOut id k s (ordinaryDelete id k s) := by
  unfold ordinaryDelete
  rw [bind_run]
  rcases allocate_cases s with ⟨a, h⟩ | ⟨a, h⟩
  · rw [h]
    simp only
    rw [bind_run]
    cases ho : s.objs[id]? with
    | none => rw [getObj_none (by exact ho)]; exact .noObj a ho
    | some o =>
      rw [getObj_some (by exact ho)]
      simp only
      cases hc : o.getOwn k with
      | none => exact .missing a o ho hc
      | some c =>
        simp only
        cases hcc : c.configurable with
        | false => exact .refused a o c ho hc hcc
        | true =>
          simp only [Bool.not_true, Bool.false_eq_true, if_false]
          rw [bind_run]
          rcases allocate_cases ⟨s.objs, a⟩ with ⟨b, h'⟩ | ⟨b, h'⟩
          · rw [h']; exact .removed b o c ho hc hcc
          · rw [h']; exact .oom b
  · rw [h]; exact .oom a

theorem ordinaryDelete_good {id : Nat} {k : Key} {s : Store} (hs : Shape s) : Good s (ordinaryDelete id k s).2 := by
  generalize hr : ordinaryDelete id k s = r
  have := ordinaryDelete_out id k s
  rw [hr] at this
  cases this with
  | oom => exact Good.same hs rfl
  | noObj => exact Good.same hs rfl
  | missing => exact Good.same hs rfl
  | refused => exact Good.same hs rfl
  | removed a o c ho hc hcc => exact Good.set hs ho (step_removed (hs o (List.mem_of_getElem? ho)) hc hcc) a

/-! ## Composition -/

/-- `m` keeps everything in order, from any well-shaped store. -/
def Resp {α : Type} (m : M α) : Prop := ∀ s, Shape s → Good s (m s).2

theorem Resp.bind {α β : Type} {m : M α} {k : α → M β} (hm : Resp m) (hk : ∀ a, Resp (k a)) : Resp (m >>= k) := by
  intro s hs
  rw [bind_run]
  have := hm s hs
  generalize m s = r at this
  rcases r with ⟨a | a, s'⟩
  · exact this
  · exact this.trans (hk a s' this.shape)

theorem Resp.pure {α : Type} (a : α) : Resp (Pure.pure a : M α) := fun _ hs => Good.refl hs
theorem Resp.fail {α : Type} (e : Err) : Resp (fail e : M α) := fun _ hs => Good.refl hs
theorem Resp.allocate : Resp allocate := by
  intro s hs
  rcases allocate_cases s with ⟨a, h⟩ | ⟨a, h⟩ <;> rw [h] <;> exact Good.same hs rfl
theorem Resp.getObj (id : Nat) : Resp (getObj id) := by
  intro s hs
  cases h : s.objs[id]? with
  | none => rw [getObj_none h]; exact Good.refl hs
  | some o => rw [getObj_some h]; exact Good.refl hs

theorem Resp.ordinaryDefine_nonIndex {id : Nat} {k : Key} {p : Patch} (h : k.arrayIndex = none) : Resp (ordinaryDefine id k p) :=
  fun _ hs => ordinaryDefine_good hs fun _ _ _ _ _ hi _ => by rw [h] at hi; cases hi

theorem Resp.delete (id : Nat) (k : Key) : Resp (ordinaryDelete id k) := fun _ hs => ordinaryDelete_good hs

theorem setLengthWritable_eq {s : Store} {id n : Nat} {o : Obj} {w : Bool} {es : List Entry} (ho : s.objs[id]? = some o)
    (ha : o.arrayLen = some n) (hp : o.props = lenEntry n w :: es) (w' : Bool) :
    setLengthWritable id w' s = (.ok (), ⟨s.objs.set id { o with props := lenEntry n w' :: es }, s.alloc⟩) := by
  unfold setLengthWritable
  rw [bind_run, getObj_some ho]
  simp only [ha, hp, lenEntry, Key.isLength]
  rfl

theorem step_lengthReadOnly {o : Obj} {n : Nat} {w : Bool} {es : List Entry} (hs : ArrShape o)
    (ha : o.arrayLen = some n) (hp : o.props = lenEntry n w :: es) :
    ObjStep o { o with props := lenEntry n false :: es } := by
  obtain ⟨hlt, hnd, _⟩ := hs.cases ha
  have hget : ∀ k', Obj.getOwn { o with props := lenEntry n false :: es } k'
      = if k' = lenKey then some ⟨false, false, .data (numVal n) false⟩ else o.getOwn k' := by
    intro k'
    simp only [Obj.getOwn, hp]
    by_cases h : k' = lenKey
    · subst h; rw [if_pos rfl]; exact lookup_cons_eq (e := lenEntry n false)
    · rw [if_neg h, lookup_cons_ne (fun e => h e.symm), lookup_cons_ne (fun e => h e.symm)]
  have hown : o.getOwn lenKey = some ⟨false, false, .data (numVal n) w⟩ := by
    rw [Obj.getOwn, hp]; exact lookup_cons_eq (e := lenEntry n w)
  refine ⟨?_, ?_, ?_, rfl⟩
  · intro m hm
    simp only at hm
    rw [ha] at hm; cases hm
    refine ⟨hlt, ?_, false, es, rfl⟩
    rw [hp] at hnd; exact hnd
  · intro k' c hc hcc
    rw [hget]
    by_cases h : k' = lenKey
    · subst h
      rw [hown] at hc; cases hc
      rw [if_pos rfl]
      refine ⟨_, rfl, rfl, rfl, ?_⟩
      cases w with
      | true => exact ⟨_, _, rfl⟩
      | false => rfl
    · rw [if_neg h]; exact ⟨c, hc, FrozenAs.refl c hcc⟩
  · intro hne
    refine ⟨hne, fun k' hk' => ?_⟩
    rw [hget]
    by_cases h : k' = lenKey
    · subst h; rw [hown] at hk'; cases hk'
    · rw [if_neg h]; exact hk'

theorem Resp.setLengthReadOnly (id : Nat) : Resp (setLengthWritable id false) := by
  intro s hs
  cases ho : s.objs[id]? with
  | none =>
    unfold setLengthWritable
    rw [bind_run, getObj_none ho]; exact Good.refl hs
  | some o =>
    cases ha : o.arrayLen with
    | none =>
      unfold setLengthWritable
      rw [bind_run, getObj_some ho]
      simp only [ha]
      exact Good.refl hs
    | some n =>
      have hsh := hs o (List.mem_of_getElem? ho)
      obtain ⟨_, _, w, es, hp⟩ := hsh.cases ha
      rw [setLengthWritable_eq ho ha hp]
      exact Good.set hs ho (step_lengthReadOnly hsh ha hp) _

theorem Resp.deleteLoop (id newLen oldLen : Nat) (ks : List Key) : Resp (deleteLoop id newLen oldLen ks) := by
  induction ks with
  | nil => exact Resp.pure _
  | cons k ks ih =>
    unfold Objects.deleteLoop
    cases k.arrayIndex with
    | none => exact ih
    | some i =>
      simp only
      split
      · exact Resp.pure _
      · split
        · exact ih
        · refine Resp.bind (Resp.delete id k) fun ok => ?_
          split
          · exact ih
          · exact Resp.pure _

theorem Resp.ite {α : Type} {c : Prop} [Decidable c] {a b : M α} (ha : Resp a) (hb : Resp b) : Resp (if c then a else b) := by
  split <;> assumption

theorem Resp.applyReadOnly (id : Nat) (w : Bool) : Resp (applyReadOnly id w) :=
  Resp.ite (Resp.pure _) (Resp.setLengthReadOnly id)

theorem Resp.finishShrink (id : Nat) (w : Bool) (r : LoopEnd) : Resp (finishShrink id lenKey w r) := by
  cases r with
  | finished =>
    unfold Objects.finishShrink
    exact Resp.bind (Resp.applyReadOnly id w) fun _ => Resp.pure _
  | stuckAt i =>
    unfold Objects.finishShrink
    refine Resp.bind (Resp.ordinaryDefine_nonIndex arrayIndex_length) fun ok => Resp.ite (Resp.fail _) ?_
    exact Resp.bind (Resp.applyReadOnly id w) fun _ => Resp.pure _

theorem Resp.shrink (id : Nat) (p : Patch) (a b : Nat) : Resp (shrink id lenKey p a b) := by
  unfold Objects.shrink
  refine Resp.bind (Resp.ordinaryDefine_nonIndex arrayIndex_length) fun ok => Resp.ite (Resp.pure _) ?_
  refine Resp.bind Resp.allocate fun _ => Resp.bind (Resp.getObj _) fun o => ?_
  exact Resp.bind (Resp.deleteLoop _ _ _ _) fun r => Resp.finishShrink _ _ _

theorem Resp.arraySetLength (id : Nat) (p : Patch) : Resp (arraySetLength id lenKey p) := by
  unfold Objects.arraySetLength
  cases p.value with
  | none => exact Resp.ordinaryDefine_nonIndex arrayIndex_length
  | some v =>
    simp only
    cases arrayLengthFromValue v with
    | none => exact Resp.pure _
    | some l =>
      simp only
      refine Resp.bind (Resp.getObj _) fun o => ?_
      cases o.arrayLen with
      | none => exact Resp.fail _
      | some n =>
        simp only
        refine Resp.ite (Resp.ordinaryDefine_nonIndex arrayIndex_length) ?_
        cases o.lengthWritable with
        | error e => exact Resp.fail _
        | ok b => cases b with
          | false => exact Resp.pure _
          | true => exact Resp.shrink _ _ _ _

theorem setArrayLength_self {o : Obj} {n : Nat} {w : Bool} {es : List Entry} (ha : o.arrayLen = some n)
    (hp : o.props = lenEntry n w :: es) : o.setArrayLength n = o := by
  rcases o with ⟨a, b, c, d⟩
  simp only at ha hp
  subst ha hp
  rfl

theorem step_grow {o : Obj} {n m : Nat} {es : List Entry} (hs : ArrShape o)
    (ha : o.arrayLen = some n) (hp : o.props = lenEntry n true :: es) (hm : m < 2 ^ 32) :
    o.setArrayLength m = { o with arrayLen := some m, props := lenEntry m true :: es } ∧
    ObjStep o (o.setArrayLength m) := by
  have he : o.setArrayLength m = { o with arrayLen := some m, props := lenEntry m true :: es } := by
    simp [Obj.setArrayLength, ha, hp, lenEntry, Desc.withValue]
  refine ⟨he, ?_⟩
  rw [he]
  obtain ⟨hlt, hnd, _⟩ := hs.cases ha
  have hget : ∀ k', Obj.getOwn { o with arrayLen := some m, props := lenEntry m true :: es } k'
      = if k' = lenKey then some ⟨false, false, .data (numVal m) true⟩ else o.getOwn k' := by
    intro k'
    simp only [Obj.getOwn, hp]
    by_cases h : k' = lenKey
    · subst h; rw [if_pos rfl]; exact lookup_cons_eq (e := lenEntry m true)
    · rw [if_neg h, lookup_cons_ne (fun e => h e.symm), lookup_cons_ne (fun e => h e.symm)]
  have hown : o.getOwn lenKey = some ⟨false, false, .data (numVal n) true⟩ := by
    rw [Obj.getOwn, hp]; exact lookup_cons_eq (e := lenEntry n true)
  refine ⟨?_, ?_, ?_, by simp [ha]⟩
  · intro l hl
    cases hl
    refine ⟨hm, ?_, true, es, rfl⟩
    rw [hp] at hnd; exact hnd
  · intro k' c hc hcc
    rw [hget]
    by_cases h : k' = lenKey
    · subst h
      rw [hown] at hc; cases hc
      rw [if_pos rfl]
      exact ⟨_, rfl, rfl, rfl, _, _, rfl⟩
    · rw [if_neg h]; exact ⟨c, hc, FrozenAs.refl c hcc⟩
  · intro hne
    refine ⟨hne, fun k' hk' => ?_⟩
    rw [hget]
    by_cases h : k' = lenKey
    · subst h; rw [hown] at hk'; cases hk'
    · rw [if_neg h]; exact hk'

/-- What the array-index branch does: refuse, act as the ordinary definition, or only move the length. -/
inductive IdxOut (id : Nat) (k : Key) (p : Patch) (i : Nat) (s : Store) (o : Obj) (n : Nat) : Except Err Bool × Store → Prop where
  | refused : n ≤ i → o.lengthWritable = .ok false → IdxOut id k p i s o n (.ok false, s)
  | ordinary : (n ≤ i → o.lengthWritable = .ok true) → IdxOut id k p i s o n (ordinaryDefine id k p s)
  | moved (a) : n ≤ i → o.lengthWritable = .ok true → (∃ c, o.getOwn k = some c) →
      IdxOut id k p i s o n (.ok true, ⟨s.objs.set id (o.setArrayLength (i + 1)), a⟩)

/-- What follows the ordinary definition when the index is beyond the length. -/
def afterIdx (id i : Nat) (r : Except Err Bool × Store) : Except Err Bool × Store :=
  match r with
  | (.error e, s') => (.error e, s')
  | (.ok false, s') => (.ok false, s')
  | (.ok true, s') =>
    match s'.objs[id]? with
    | none => (.error .invalidHandle, s')
    | some o' =>
      match o'.arrayLen with
      | none => (.error .invariant, s')
      | some _ => (.ok true, ⟨s'.objs.set id (o'.setArrayLength (i + 1)), s'.alloc⟩)

theorem arrayDefineIndex_out {id : Nat} {k : Key} {p : Patch} {i : Nat} {s : Store} {o : Obj} {n : Nat}
    (hs : Shape s) (hk : k.arrayIndex = some i) (ho : s.objs[id]? = some o) (ha : o.arrayLen = some n) :
    IdxOut id k p i s o n (arrayDefineIndex id k p i s) := by
  have hsh := hs o (List.mem_of_getElem? ho)
  obtain ⟨hlt, hnd, w, es, hp⟩ := hsh.cases ha
  have hne : k ≠ lenKey := by rintro rfl; rw [arrayIndex_length] at hk; cases hk
  have hlw := lengthWritable_eq ha hp
  by_cases hle : n ≤ i
  · cases w with
    | false =>
      have : arrayDefineIndex id k p i s = (.ok false, s) := by
        unfold arrayDefineIndex
        rw [bind_run, getObj_some ho]
        simp only [ha, hlw, ge_iff_le, if_pos hle, pure_run]
      rw [this]
      exact .refused hle hlw
    | true =>
      have hout := ordinaryDefine_out id k p s
      generalize hr : ordinaryDefine id k p s = r at hout
      have hgen : ∀ a, arrayDefineIndex id k p i s = a → IdxOut id k p i s o n a →
        IdxOut id k p i s o n (arrayDefineIndex id k p i s) := by rintro a rfl h; exact h
      have hun : arrayDefineIndex id k p i s =
          afterIdx id i r := by
        unfold arrayDefineIndex
        rw [bind_run, getObj_some ho]
        simp only [ha, hlw, ge_iff_le, if_pos hle]
        rw [bind_run, hr]
        rcases r with ⟨e | b, s'⟩
        · rfl
        · cases b with
          | false => rfl
          | true =>
            simp only [Bool.not_true, Bool.false_eq_true, if_false]
            rw [bind_run]
            cases ho' : s'.objs[id]? with
            | none => rw [getObj_none ho']; simp only [afterIdx, ho']
            | some o' =>
              rw [getObj_some ho']
              simp only [afterIdx, ho']
              cases o'.arrayLen <;> rfl
      rw [hun]
      have hord := IdxOut.ordinary (id := id) (k := k) (p := p) (i := i) (s := s) (o := o) (n := n) (fun _ => hlw)
      rw [hr] at hord
      cases hout with
      | invalid => exact hord
      | oom => exact hord
      | noObj => exact hord
      | rejected => exact hord
      | wrong => exact hord
      | nothing a o' hv ho' hd =>
        rw [ho] at ho'; cases ho'
        simp only [afterIdx, ho, ha]
        obtain ⟨c, hc, _⟩ := decide_some_none hd
        exact .moved a hle hlw ⟨c, hc⟩
      | wrote a o' d nl hv ho' hd hn =>
        rw [ho] at ho'; cases ho'
        have he := defined_other ha hp hne hn
        have hal : (o.defined k d nl).arrayLen = some (i + 1) := by
          rw [he]; simp only [grownLen, hk]; congr 1; omega
        have hpp : (o.defined k d nl).props = lenEntry (i + 1) true :: writeProps es k d := by
          rw [he]; simp only [grownLen, hk]; rw [show max n (i + 1) = i + 1 by omega]
        have hlook : (s.objs.set id (o.defined k d nl))[id]? = some (o.defined k d nl) := by
          simp [(List.getElem?_eq_some_iff.1 ho).1]
        simp only [afterIdx, hlook, hal, setArrayLength_self hal hpp, List.set_set]
        exact hord
  · have : arrayDefineIndex id k p i s = ordinaryDefine id k p s := by
      unfold arrayDefineIndex
      rw [bind_run, getObj_some ho]
      simp only [ha, ge_iff_le, if_neg hle]
      rw [bind_run]
      generalize ordinaryDefine id k p s = r
      rcases r with ⟨a | a, s'⟩
      · rfl
      · cases a <;> rfl
    rw [this]
    exact .ordinary fun h => absurd h hle

theorem Resp.arrayDefineIndex {id : Nat} {k : Key} {p : Patch} {i : Nat} (hk : k.arrayIndex = some i) :
    Resp (arrayDefineIndex id k p i) := by
  intro s hs
  cases ho : s.objs[id]? with
  | none =>
    unfold Objects.arrayDefineIndex
    rw [bind_run, getObj_none ho]; exact Good.refl hs
  | some o =>
    cases ha : o.arrayLen with
    | none =>
      unfold Objects.arrayDefineIndex
      rw [bind_run, getObj_some ho]
      simp only [ha]
      exact Good.refl hs
    | some n =>
      have hout := arrayDefineIndex_out (p := p) hs hk ho ha
      generalize hr : Objects.arrayDefineIndex id k p i s = r at hout
      have hsh := hs o (List.mem_of_getElem? ho)
      obtain ⟨hlt, hnd, w, es, hp⟩ := hsh.cases ha
      cases hout with
      | refused => exact Good.refl hs
      | ordinary hw =>
        apply ordinaryDefine_good hs
        intro o' n' i' ho' ha' hi' hle
        rw [ho] at ho'; cases ho'
        rw [ha] at ha'; cases ha'
        rw [hk] at hi'; cases hi'
        exact hw hle
      | moved a hle hw _ =>
        rw [lengthWritable_eq ha hp] at hw
        cases hw
        have := arrayIndex_le hk
        exact Good.set hs ho (step_grow hsh ha hp (by omega)).2 a

theorem Resp.arrayDefine (id : Nat) (k : Key) (p : Patch) : Resp (arrayDefine id k p) := by
  unfold Objects.arrayDefine
  refine Resp.ite (Resp.fail _) (Resp.bind Resp.allocate fun _ => ?_)
  cases hl : k.isLength with
  | true =>
    rw [(isLength_iff k).1 hl]
    exact Resp.arraySetLength id p
  | false =>
    simp only [Bool.false_eq_true, if_false]
    cases hi : k.arrayIndex with
    | some i => exact Resp.arrayDefineIndex hi
    | none => exact Resp.ordinaryDefine_nonIndex hi

theorem Resp.defineOwn (id : Nat) (k : Key) (p : Patch) : Resp (defineOwn id k p) := by
  intro s hs
  unfold Objects.defineOwn
  rw [bind_run]
  cases ho : s.objs[id]? with
  | none => rw [getObj_none ho]; exact Good.refl hs
  | some o =>
    rw [getObj_some ho]
    simp only
    cases ha : o.arrayLen with
    | none =>
      apply ordinaryDefine_good hs
      intro o' n' i' ho' ha'
      rw [ho] at ho'; cases ho'
      rw [ha] at ha'; cases ha'
    | some n => exact Resp.arrayDefine id k p s hs

theorem Resp.createDataProperty (id : Nat) (k : Key) (v : Value) : Resp (createDataProperty id k v) :=
  Resp.bind Resp.allocate fun _ => Resp.defineOwn _ _ _

theorem Resp.setOnReceiver (k : Key) (v r : Value) : Resp (setOnReceiver k v r) := by
  unfold Objects.setOnReceiver
  cases r with
  | object r =>
    refine Resp.bind (Resp.getObj r) fun o => ?_
    cases o.getOwn k with
    | none => exact Resp.createDataProperty _ _ _
    | some d =>
      simp only
      cases d.kind with
      | accessor => exact Resp.pure _
      | data _ w => exact Resp.ite (Resp.pure _) (Resp.defineOwn _ _ _)
  | _ => exact Resp.pure _

theorem Resp.ordinarySet (id : Nat) (k : Key) (v r : Value) : Resp (ordinarySet id k v r) := by
  unfold Objects.ordinarySet
  refine Resp.bind Resp.allocate fun _ => ?_
  intro s hs
  dsimp only
  cases getProperty s.objs k maxPrototypeChain (some id) with
  | error e => exact Good.refl hs
  | ok d =>
    simp only
    cases (d.getD ⟨true, true, .data .undefined true⟩).kind with
    | data _ w =>
      simp only
      cases w with
      | false => exact Good.refl hs
      | true => exact (Resp.bind (Resp.setOnReceiver k v r) fun _ => Resp.pure _) s hs
    | accessor _ set =>
      simp only
      split <;> exact Good.refl hs

theorem Resp.preventExtensions (id : Nat) : Resp (preventExtensions id) := by
  intro s hs
  unfold Objects.preventExtensions
  rw [bind_run]
  cases ho : s.objs[id]? with
  | none => rw [getObj_none ho]; exact Good.refl hs
  | some o =>
    rw [getObj_some ho]
    exact Good.set (o' := { o with extensible := false }) hs ho
      ⟨hs o (List.mem_of_getElem? ho), fun _ d hd hc => ⟨d, hd, FrozenAs.refl d hc⟩,
      fun _ => ⟨rfl, fun _ h => h⟩, rfl⟩ _

theorem Resp.setProto (id : Nat) (p : Option Nat) : Resp (setProto id p) := by
  intro s hs
  unfold Objects.setProto
  rw [bind_run]
  cases ho : s.objs[id]? with
  | none => rw [getObj_none ho]; exact Good.refl hs
  | some o =>
    rw [getObj_some ho]
    exact Good.set (o' := { o with proto := p }) hs ho
      ⟨hs o (List.mem_of_getElem? ho), fun _ d hd hc => ⟨d, hd, FrozenAs.refl d hc⟩,
      fun h => ⟨h, fun _ h => h⟩, rfl⟩ _

theorem Good.push {s : Store} (hs : Shape s) {o : Obj} (h : ArrShape o) (a : List Bool) : Good s ⟨s.objs ++ [o], a⟩ where
  shape := by
    intro x hx
    rcases List.mem_append.1 hx with hx | hx
    · exact hs x hx
    · rw [List.mem_singleton.1 hx]; exact h
  objs := by
    intro id x hx
    refine ⟨x, ?_, fun _ d hd hc => ⟨d, hd, FrozenAs.refl d hc⟩, fun h => ⟨h, fun _ h => h⟩, rfl⟩
    rw [List.getElem?_append_left (List.getElem?_eq_some_iff.1 hx).1]
    exact hx

theorem Resp.allocObj {o : Obj} (h : ArrShape o) : Resp (allocObj o) :=
  Resp.bind Resp.allocate fun _ => fun _ hs => Good.push hs h _

theorem shape_newArray {n : Nat} (h : n < 2 ^ 32) : ArrShape (newArray n) := by
  intro m hm
  cases hm
  exact ⟨h, by simp [newArray], true, [], rfl⟩

theorem shape_newObject (p : Option Nat) (es : List Entry) : ArrShape (newObject p es) := by
  intro m hm; cases hm

theorem toRes_snd {α : Type} (f : α → Res) (r : Except Err α × Store) : (toRes f r).2 = r.2 := by
  rcases r with ⟨_ | _, _⟩ <;> rfl

theorem step_good (op : Op) {s : Store} (hs : Shape s) : Good s (step op s).2 := by
  cases op with
  | newObject p es => rw [step, toRes_snd]; exact Resp.allocObj (shape_newObject p es) s hs
  | newArray n =>
    simp only [step]
    split
    · rename_i h; rw [toRes_snd]; exact Resp.allocObj (shape_newArray h) s hs
    · exact Good.refl hs
  | define id k p => rw [step, toRes_snd]; exact Resp.defineOwn id k p s hs
  | create id k v => rw [step, toRes_snd]; exact Resp.createDataProperty id k v s hs
  | delete id k => rw [step, toRes_snd]; exact Resp.delete id k s hs
  | set id k v r => rw [step, toRes_snd]; exact Resp.ordinarySet id k v r s hs
  | preventExtensions id => rw [step, toRes_snd]; exact Resp.preventExtensions id s hs
  | setProto id p => rw [step, toRes_snd]; exact Resp.setProto id p s hs

theorem run_good (ops : List Op) {s : Store} (hs : Shape s) : Good s (run ops s) := by
  induction ops generalizing s with
  | nil => exact Good.refl hs
  | cons op ops ih =>
    have h := step_good op hs
    exact h.trans (ih h.shape)

theorem shape_empty (a : List Bool) : Shape ⟨[], a⟩ := by intro o ho; cases ho

end Verif.Objects
