import Verif.Objects.Bounds

/-! # Key order and memory along histories -/

namespace Verif.Objects

def Obj.keys (o : Obj) : List Key := o.props.map Entry.key

theorem keys_setArrayLength (o : Obj) (n : Nat) : (o.setArrayLength n).keys = o.keys := by
  unfold Obj.setArrayLength
  cases o.arrayLen with
  | none => rfl
  | some m => cases h : o.props <;> simp [Obj.keys, h]

theorem keys_finishDefine (o : Obj) (k : Key) (nl : Option Nat) : (o.finishDefine k nl).keys = o.keys := by
  unfold Obj.finishDefine
  have : ∀ o' : Obj, o'.keys = o.keys → Obj.keys (match k.arrayIndex, o'.arrayLen with
      | some i, some cur => if (i + 1) % 2 ^ 32 > cur then o'.setArrayLength ((i + 1) % 2 ^ 32) else o'
      | _, _ => o') = o.keys := by
    intro o' h
    split
    · split
      · rw [keys_setArrayLength, h]
      · exact h
    · exact h
  cases nl with
  | none => exact this o rfl
  | some n => exact this _ (keys_setArrayLength o n)

theorem keys_defined (o : Obj) (k : Key) (d : Desc) (nl : Option Nat) :
    (o.defined k d nl).keys = if o.getOwn k = none then o.keys ++ [k] else o.keys := by
  unfold Obj.defined
  rw [keys_finishDefine]
  exact keys_writeProps o.props k d

theorem getOwn_none_iff (o : Obj) (k : Key) : o.getOwn k = none ↔ k ∉ o.keys := by
  unfold Obj.getOwn Obj.keys
  induction o.props with
  | nil => simp [lookup]
  | cons e es ih =>
    unfold lookup
    by_cases h : e.key = k
    · simp [h]
    · simp [h, ih, Ne.symm h]

/-- How an operation may change one key list: `KeyRel`s. -/
abbrev KeyRel := List Key → List Key → Prop
def kSame : KeyRel := fun a b => b = a
def kSub : KeyRel := fun a b => b.Sublist a
def kOne (k : Key) : KeyRel := fun a b => b.Sublist a ∨ (k ∉ a ∧ b = a ++ [k])

def KR (R : KeyRel) (s s' : Store) : Prop :=
  ∀ (id : Nat) (o : Obj), s.objs[id]? = some o → ∃ o' : Obj, s'.objs[id]? = some o' ∧ R o.keys o'.keys

theorem KR.same {R : KeyRel} (hR : ∀ a, R a a) {s s' : Store} (h : s'.objs = s.objs) : KR R s s' :=
  fun _ o ho => ⟨o, by rw [h]; exact ho, hR _⟩

theorem KR.set {R : KeyRel} (hR : ∀ a, R a a) {s : Store} {id : Nat} {o o' : Obj} (ho : s.objs[id]? = some o)
    (h : R o.keys o'.keys) (a : List Bool) : KR R s ⟨s.objs.set id o', a⟩ := by
  intro j x hx
  refine ⟨_, getElem?_set_some ho hx, ?_⟩
  split
  · rename_i hj
    subst hj
    rw [ho] at hx; cases hx
    exact h
  · exact hR _

theorem kSame.rfl' (a : List Key) : kSame a a := rfl
theorem kSub.rfl' (a : List Key) : kSub a a := List.Sublist.refl a
theorem kOne.rfl' (k : Key) (a : List Key) : kOne k a a := .inl (List.Sublist.refl a)

def KM {α : Type} (R : KeyRel) (m : M α) : Prop := ∀ s, Shape s → KR R s (m s).2

theorem KM.mono {α : Type} {R R' : KeyRel} (h : ∀ a b, R a b → R' a b) {m : M α} (hm : KM R m) : KM R' m := by
  intro s hs id o ho
  obtain ⟨o', ho', hr⟩ := hm s hs id o ho
  exact ⟨o', ho', h _ _ hr⟩

theorem KM.bind {α β : Type} {R R1 R2 : KeyRel} (hc : ∀ a b c, R1 a b → R2 b c → R a c) (h1 : ∀ a b, R1 a b → R a b)
    {m : M α} {k : α → M β} (hr : Resp m) (hm : KM R1 m) (hk : ∀ a, KM R2 (k a)) : KM R (m >>= k) := by
  intro s hs
  rw [bind_run]
  have g := hr s hs
  have h := hm s hs
  generalize m s = r at g h
  rcases r with ⟨e | a, s'⟩
  · intro id o ho
    obtain ⟨o', ho', hr⟩ := h id o ho
    exact ⟨o', ho', h1 _ _ hr⟩
  · intro id o ho
    obtain ⟨o', ho', hr⟩ := h id o ho
    obtain ⟨o'', ho'', hr'⟩ := hk a s' g.shape id o' ho'
    exact ⟨o'', ho'', hc _ _ _ hr hr'⟩

/-- After an operation that leaves key lists alone. -/
theorem KM.after {α β : Type} {R : KeyRel} (hR : ∀ a, R a a) {m : M α} {k : α → M β} (hr : Resp m) (hm : KM kSame m)
    (hk : ∀ a, KM R (k a)) : KM R (m >>= k) :=
  KM.bind (R1 := kSame) (R2 := R) (fun a b c (h : b = a) h2 => h ▸ h2) (fun a b (h : b = a) => h ▸ hR a) hr hm hk

theorem KM.pure {α : Type} {R : KeyRel} (hR : ∀ a, R a a) (a : α) : KM R (Pure.pure a : M α) := fun _ _ => KR.same hR rfl
theorem KM.fail {α : Type} {R : KeyRel} (hR : ∀ a, R a a) (e : Err) : KM R (fail e : M α) := fun _ _ => KR.same hR rfl
theorem KM.allocate {R : KeyRel} (hR : ∀ a, R a a) : KM R allocate := by
  intro s _
  rcases allocate_cases s with ⟨a, h⟩ | ⟨a, h⟩ <;> rw [h] <;> exact KR.same hR rfl
theorem KM.getObj {R : KeyRel} (hR : ∀ a, R a a) (id : Nat) : KM R (getObj id) := by
  intro s _
  cases h : s.objs[id]? with
  | none => rw [getObj_none h]; exact KR.same hR rfl
  | some o => rw [getObj_some h]; exact KR.same hR rfl
theorem KM.ite {α : Type} {R : KeyRel} {c : Prop} [Decidable c] {x y : M α} (hx : KM R x) (hy : KM R y) :
    KM R (if c then x else y) := by split <;> assumption

theorem KM.ordinaryDefine (id : Nat) (k : Key) (p : Patch) : KM (kOne k) (ordinaryDefine id k p) := by
  intro s _
  have := ordinaryDefine_out id k p s
  generalize Objects.ordinaryDefine id k p s = r at this
  cases this with
  | invalid => exact KR.same (kOne.rfl' k) rfl
  | oom => exact KR.same (kOne.rfl' k) rfl
  | noObj => exact KR.same (kOne.rfl' k) rfl
  | rejected => exact KR.same (kOne.rfl' k) rfl
  | nothing => exact KR.same (kOne.rfl' k) rfl
  | wrong => exact KR.same (kOne.rfl' k) rfl
  | wrote a o d nl _ ho =>
    refine KR.set (kOne.rfl' k) ho ?_ a
    rw [keys_defined]
    split
    · rename_i h
      exact .inr ⟨(getOwn_none_iff o k).1 h, rfl⟩
    · exact kOne.rfl' k _

/-- Defining `length` on an array adds no key. -/
theorem ordinaryDefine_len_same {s : Store} {id n : Nat} {o : Obj} {p : Patch} (hs : Shape s) (ho : s.objs[id]? = some o)
    (ha : o.arrayLen = some n) : KR kSame s (ordinaryDefine id lenKey p s).2 := by
  have := ordinaryDefine_out id lenKey p s
  generalize Objects.ordinaryDefine id lenKey p s = r at this
  cases this with
  | invalid => exact KR.same kSame.rfl' rfl
  | oom => exact KR.same kSame.rfl' rfl
  | noObj => exact KR.same kSame.rfl' rfl
  | rejected => exact KR.same kSame.rfl' rfl
  | nothing => exact KR.same kSame.rfl' rfl
  | wrong => exact KR.same kSame.rfl' rfl
  | wrote a o' d nl _ ho' =>
    rw [ho] at ho'; cases ho'
    refine KR.set kSame.rfl' ho ?_ a
    obtain ⟨_, _, w, es, hp⟩ := (hs o (List.mem_of_getElem? ho)).cases ha
    rw [keys_defined, if_neg]
    · rfl
    · rw [getOwn_none_iff]
      simp [Obj.keys, hp, lenEntry]

theorem removeAt_keys_sublist (k : Key) (o : Obj) : (Obj.keys { o with props := removeAt k o.props }).Sublist o.keys :=
  (removeAt_sublist k o.props).map _

theorem KM.delete (id : Nat) (k : Key) : KM kSub (ordinaryDelete id k) := by
  intro s _
  have := ordinaryDelete_out id k s
  generalize Objects.ordinaryDelete id k s = r at this
  cases this with
  | oom => exact KR.same kSub.rfl' rfl
  | noObj => exact KR.same kSub.rfl' rfl
  | missing => exact KR.same kSub.rfl' rfl
  | refused => exact KR.same kSub.rfl' rfl
  | removed a o c ho => exact KR.set kSub.rfl' ho (removeAt_keys_sublist k o) a

theorem kSub.trans' {a b c : List Key} (h : kSub a b) (h' : kSub b c) : kSub a c := List.Sublist.trans h' h

theorem KM.deleteLoop (id n m : Nat) (ks : List Key) : KM kSub (deleteLoop id n m ks) := by
  induction ks with
  | nil => exact KM.pure kSub.rfl' _
  | cons k ks ih =>
    unfold Objects.deleteLoop
    split
    · exact ih
    · refine KM.ite (KM.pure kSub.rfl' _) (KM.ite ih ?_)
      refine KM.bind (R1 := kSub) (R2 := kSub) (fun a b c => kSub.trans') (fun _ _ h => h) (Resp.delete id k) (KM.delete id k) fun ok => ?_
      exact KM.ite ih (KM.pure kSub.rfl' _)

theorem keys_setLen (o : Obj) (e : Entry) (es : List Entry) (h : o.props = e :: es) (d : Desc) :
    Obj.keys { o with props := { e with desc := d } :: es } = o.keys := by simp [Obj.keys, h]

theorem KM.applyReadOnly (id : Nat) (w : Bool) : KM kSame (applyReadOnly id w) := by
  unfold Objects.applyReadOnly
  refine KM.ite (KM.pure kSame.rfl' _) ?_
  intro s _
  unfold Objects.setLengthWritable
  rw [bind_run]
  cases ho : s.objs[id]? with
  | none => rw [getObj_none ho]; exact KR.same kSame.rfl' rfl
  | some o =>
    rw [getObj_some ho]
    simp only
    cases o.arrayLen with
    | none => exact KR.same kSame.rfl' rfl
    | some n =>
      cases hp : o.props with
      | nil => exact KR.same kSame.rfl' rfl
      | cons e es =>
        simp only
        split
        · exact KR.same kSame.rfl' rfl
        · cases e.desc.kind with
          | data v w =>
            refine KR.set (o' := ⟨o.proto, o.extensible, { e with desc := { e.desc with kind := .data v false } } :: es, some n⟩)
              kSame.rfl' ho ?_ _
            simp [kSame, Obj.keys, hp]
          | accessor => exact KR.same kSame.rfl' rfl

/-- Object `id` is an array. -/
def ArrAt (id : Nat) (s : Store) : Prop := ∃ o : Obj, s.objs[id]? = some o ∧ o.arrayLen.isSome

theorem ArrAt.good {id : Nat} {s s' : Store} (h : ArrAt id s) (g : Good s s') : ArrAt id s' := by
  obtain ⟨o, ho, ha⟩ := h
  obtain ⟨o', ho', _, _, h⟩ := g.objs id o ho
  exact ⟨o', ho', by rw [h]; exact ha⟩

theorem KR.trans {R : KeyRel} (hR : ∀ a b c, R a b → R b c → R a c) {s s' s'' : Store} (h : KR R s s') (h' : KR R s' s'') :
    KR R s s'' := by
  intro id o ho
  obtain ⟨o', ho', r⟩ := h id o ho
  obtain ⟨o'', ho'', r'⟩ := h' id o' ho'
  exact ⟨o'', ho'', hR _ _ _ r r'⟩

theorem KR.sub {s s' : Store} (h : KR kSame s s') : KR kSub s s' := by
  intro id o ho
  obtain ⟨o', ho', r⟩ := h id o ho
  refine ⟨o', ho', ?_⟩
  have : o'.keys = o.keys := r
  rw [this]; exact kSub.rfl' _

theorem ordinaryDefine_len_sub {s : Store} {id : Nat} {p : Patch} (hs : Shape s) (ha : ArrAt id s) :
    KR kSub s (ordinaryDefine id lenKey p s).2 := by
  obtain ⟨o, ho, h⟩ := ha
  obtain ⟨n, hn⟩ := Option.isSome_iff_exists.1 h
  exact (ordinaryDefine_len_same hs ho hn).sub

/-- The combinators for arrays. -/
def KA {α : Type} (id : Nat) (m : M α) : Prop := ∀ s, Shape s → ArrAt id s → KR kSub s (m s).2

theorem KA.of {α : Type} {id : Nat} {m : M α} (h : KM kSub m) : KA id m := fun s hs _ => h s hs
theorem KA.of' {α : Type} {id : Nat} {m : M α} (h : KM kSame m) : KA id m := fun s hs _ => (h s hs).sub

theorem KA.bind {α β : Type} {id : Nat} {m : M α} {k : α → M β} (hr : Resp m) (hm : KA id m) (hk : ∀ a, KA id (k a)) :
    KA id (m >>= k) := by
  intro s hs ha
  rw [bind_run]
  have g := hr s hs
  have h := hm s hs ha
  generalize m s = r at g h
  rcases r with ⟨e | a, s'⟩
  · exact h
  · exact KR.trans (R := kSub) (fun _ _ _ => kSub.trans') h (hk a s' g.shape (ha.good g))

theorem KA.ite {α : Type} {id : Nat} {c : Prop} [Decidable c] {x y : M α} (hx : KA id x) (hy : KA id y) :
    KA id (if c then x else y) := by split <;> assumption

theorem KA.finishShrink (id : Nat) (w : Bool) (r : LoopEnd) : KA id (finishShrink id lenKey w r) := by
  cases r with
  | finished =>
    exact KA.bind (Resp.applyReadOnly id w) (KA.of' (KM.applyReadOnly id w)) fun _ => KA.of (KM.pure kSub.rfl' _)
  | stuckAt i =>
    refine KA.bind (Resp.ordinaryDefine_nonIndex arrayIndex_length) (fun s hs ha => ordinaryDefine_len_sub hs ha) fun ok => ?_
    refine KA.ite (KA.of (KM.fail kSub.rfl' _)) ?_
    exact KA.bind (Resp.applyReadOnly id w) (KA.of' (KM.applyReadOnly id w)) fun _ => KA.of (KM.pure kSub.rfl' _)

theorem KA.shrink (id : Nat) (p : Patch) (n m : Nat) : KA id (shrink id lenKey p n m) := by
  unfold Objects.shrink
  refine KA.bind (Resp.ordinaryDefine_nonIndex arrayIndex_length) (fun s hs ha => ordinaryDefine_len_sub hs ha) fun ok => ?_
  refine KA.ite (KA.of (KM.pure kSub.rfl' _)) ?_
  refine KA.bind Resp.allocate (KA.of (KM.allocate kSub.rfl')) fun _ => ?_
  refine KA.bind (Resp.getObj id) (KA.of (KM.getObj kSub.rfl' id)) fun o => ?_
  exact KA.bind (Resp.deleteLoop id n m _) (KA.of (KM.deleteLoop id n m _)) fun r => KA.finishShrink id _ r

theorem KA.arraySetLength (id : Nat) (p : Patch) : KA id (arraySetLength id lenKey p) := by
  unfold Objects.arraySetLength
  have hd : ∀ q, KA id (ordinaryDefine id lenKey q) := fun q s hs ha => ordinaryDefine_len_sub hs ha
  cases p.value with
  | none => exact hd p
  | some v =>
    simp only
    cases arrayLengthFromValue v with
    | none => exact KA.of (KM.pure kSub.rfl' _)
    | some l =>
      refine KA.bind (Resp.getObj id) (KA.of (KM.getObj kSub.rfl' id)) fun o => ?_
      cases o.arrayLen with
      | none => exact KA.of (KM.fail kSub.rfl' _)
      | some n =>
        refine KA.ite (hd _) ?_
        cases o.lengthWritable with
        | error e => exact KA.of (KM.fail kSub.rfl' _)
        | ok w =>
          cases w with
          | false => exact KA.of (KM.pure kSub.rfl' _)
          | true => exact KA.shrink id p l n

theorem KM.arrayDefineIndex {id : Nat} {k : Key} {p : Patch} {i : Nat} :
    KM (kOne k) (arrayDefineIndex id k p i) := by
  intro s hs
  have hfin : ∀ (s1 s2 : Store), s1.objs = s2.objs → KR (kOne k) s s2 → KR (kOne k) s s1 := by
    intro s1 s2 h h2 id o ho
    rw [h]; exact h2 id o ho
  unfold Objects.arrayDefineIndex
  rw [bind_run]
  cases ho : s.objs[id]? with
  | none => rw [getObj_none ho]; exact KR.same (kOne.rfl' k) rfl
  | some o =>
    rw [getObj_some ho]
    simp only
    cases ha : o.arrayLen with
    | none => exact KR.same (kOne.rfl' k) rfl
    | some n =>
      simp only
      generalize (if i ≥ n then o.lengthWritable else Except.ok true) = w
      rcases w with e | _ | _
      · exact KR.same (kOne.rfl' k) rfl
      · exact KR.same (kOne.rfl' k) rfl
      · simp only
        rw [bind_run]
        have h := KM.ordinaryDefine id k p s hs
        generalize Objects.ordinaryDefine id k p s = r at h
        rcases r with ⟨e | ok, s'⟩
        · exact h
        · simp only
          split
          · exact h
          · split
            · rw [bind_run]
              cases ho' : s'.objs[id]? with
              | none => rw [getObj_none ho']; exact h
              | some o' =>
                rw [getObj_some ho']
                simp only
                cases o'.arrayLen with
                | none => exact h
                | some m =>
                  simp only [bind_run, putObj, pure_run]
                  intro j x hx
                  obtain ⟨x', hx', r⟩ := h j x hx
                  refine ⟨_, getElem?_set_some ho' hx', ?_⟩
                  split
                  · rename_i hj
                    subst hj
                    rw [ho'] at hx'; cases hx'
                    rw [keys_setArrayLength]; exact r
                  · exact r
            · exact h

theorem KM.defineOwn (id : Nat) (k : Key) (p : Patch) : KM (kOne k) (defineOwn id k p) := by
  intro s hs
  unfold Objects.defineOwn
  rw [bind_run]
  cases ho : s.objs[id]? with
  | none => rw [getObj_none ho]; exact KR.same (kOne.rfl' k) rfl
  | some o =>
    rw [getObj_some ho]
    simp only
    cases ha : o.arrayLen with
    | none => exact KM.ordinaryDefine id k p s hs
    | some n =>
      simp only [Option.isSome_some, if_true]
      unfold Objects.arrayDefine
      split
      · exact KR.same (kOne.rfl' k) rfl
      · rw [bind_run]
        rcases allocate_cases s with ⟨a, h⟩ | ⟨a, h⟩
        · rw [h]
          simp only
          split
          · rename_i hl
            rw [(isLength_iff k).1 hl]
            have : KR kSub s (Objects.arraySetLength id lenKey p ⟨s.objs, a⟩).2 :=
              KA.arraySetLength id p ⟨s.objs, a⟩ hs ⟨o, ho, by rw [ha]; rfl⟩
            intro j x hx
            obtain ⟨x', hx', r⟩ := this j x hx
            exact ⟨x', hx', .inl r⟩
          · cases hi : k.arrayIndex with
            | some i => exact KM.arrayDefineIndex ⟨s.objs, a⟩ hs
            | none => exact KM.ordinaryDefine id k p ⟨s.objs, a⟩ hs
        · rw [h]; exact KR.same (kOne.rfl' k) rfl

theorem KM.createDataProperty (id : Nat) (k : Key) (v : Value) : KM (kOne k) (createDataProperty id k v) :=
  KM.after (kOne.rfl' k) Resp.allocate (KM.allocate kSame.rfl') fun _ => KM.defineOwn _ _ _

theorem KM.setOnReceiver (k : Key) (v r : Value) : KM (kOne k) (setOnReceiver k v r) := by
  unfold Objects.setOnReceiver
  cases r with
  | object r =>
    refine KM.after (kOne.rfl' k) (Resp.getObj r) (KM.getObj kSame.rfl' r) fun o => ?_
    cases o.getOwn k with
    | none => exact KM.createDataProperty _ _ _
    | some d =>
      simp only
      cases d.kind with
      | accessor => exact KM.pure (kOne.rfl' k) _
      | data _ w => exact KM.ite (KM.pure (kOne.rfl' k) _) (KM.defineOwn _ _ _)
  | _ => exact KM.pure (kOne.rfl' k) _

theorem KM.ordinarySet (id : Nat) (k : Key) (v r : Value) : KM (kOne k) (ordinarySet id k v r) := by
  unfold Objects.ordinarySet
  refine KM.after (kOne.rfl' k) Resp.allocate (KM.allocate kSame.rfl') fun _ => ?_
  intro s hs
  dsimp only
  cases getProperty s.objs k maxPrototypeChain (some id) with
  | error e => exact KR.same (kOne.rfl' k) rfl
  | ok d =>
    simp only
    cases (d.getD ⟨true, true, .data .undefined true⟩).kind with
    | data _ w =>
      simp only
      cases w with
      | false => exact KR.same (kOne.rfl' k) rfl
      | true =>
        simp only [Bool.not_true, Bool.false_eq_true, if_false]
        rw [bind_run]
        have h := KM.setOnReceiver k v r s hs
        generalize Objects.setOnReceiver k v r s = x at h
        rcases x with ⟨_ | _, _⟩ <;> exact h
    | accessor _ set =>
      simp only
      split <;> exact KR.same (kOne.rfl' k) rfl

/-- What any operation does to the key list of an object: it removes keys or adds one at the end. -/
theorem step_keys (op : Op) {s : Store} (hs : Shape s) :
    ∃ k, KR (kOne k) s (step op s).2 := by
  have push : ∀ (x : Obj) k, KM (kOne k) (allocObj x) := by
    intro x k
    refine KM.after (kOne.rfl' k) Resp.allocate (KM.allocate kSame.rfl') fun _ => ?_
    intro s _ j o ho
    refine ⟨o, ?_, kOne.rfl' k _⟩
    simp only [pushObj]
    rw [List.getElem?_append_left (List.getElem?_eq_some_iff.1 ho).1]
    exact ho
  cases op with
  | newObject p es => exact ⟨lenKey, by simp only [step, toRes_snd]; exact push _ _ s hs⟩
  | newArray n =>
    refine ⟨lenKey, ?_⟩
    simp only [step]
    split
    · rw [toRes_snd]; exact push _ _ s hs
    · exact KR.same (kOne.rfl' _) rfl
  | define id k p => exact ⟨k, by simp only [step, toRes_snd]; exact KM.defineOwn id k p s hs⟩
  | create id k v => exact ⟨k, by simp only [step, toRes_snd]; exact KM.createDataProperty id k v s hs⟩
  | delete id k =>
    refine ⟨k, ?_⟩
    simp only [step, toRes_snd]
    exact KM.mono (R := kSub) (fun _ _ h => .inl h) (KM.delete id k) s hs
  | set id k v r => exact ⟨k, by simp only [step, toRes_snd]; exact KM.ordinarySet id k v r s hs⟩
  | preventExtensions id =>
    refine ⟨lenKey, ?_⟩
    simp only [step, toRes_snd]
    unfold preventExtensions
    rw [bind_run]
    cases ho : s.objs[id]? with
    | none => rw [getObj_none ho]; exact KR.same (kOne.rfl' _) rfl
    | some o =>
      rw [getObj_some ho]
      exact KR.set (o' := { o with extensible := false }) (kOne.rfl' _) ho (kOne.rfl' _ _) _
  | setProto id p =>
    refine ⟨lenKey, ?_⟩
    simp only [step, toRes_snd]
    unfold setProto
    rw [bind_run]
    cases ho : s.objs[id]? with
    | none => rw [getObj_none ho]; exact KR.same (kOne.rfl' _) rfl
    | some o =>
      rw [getObj_some ho]
      exact KR.set (o' := { o with proto := p }) (kOne.rfl' _) ho (kOne.rfl' _ _) _

/-! ## Enough memory -/

/-- All coming allocations succeed. -/
def Ample (s : Store) : Prop := ∀ b ∈ s.alloc, b = true

def AM {α : Type} (m : M α) : Prop := ∀ s, Ample s → (m s).1 ≠ .error .outOfMemory ∧ Ample (m s).2

theorem AM.bind {α β : Type} {m : M α} {k : α → M β} (hm : AM m) (hk : ∀ a, AM (k a)) : AM (m >>= k) := by
  intro s hs
  rw [bind_run]
  have h := hm s hs
  generalize m s = r at h
  rcases r with ⟨e | a, s'⟩
  · exact ⟨fun h' => h.1 (by cases h'; rfl), h.2⟩
  · exact hk a s' h.2
theorem AM.pure {α : Type} (a : α) : AM (Pure.pure a : M α) := fun _ h => ⟨nofun, h⟩
theorem AM.fail {α : Type} {e : Err} (he : e ≠ .outOfMemory) : AM (fail e : M α) :=
  fun _ h => ⟨fun h' => he (by cases h'; rfl), h⟩
theorem AM.allocate : AM allocate := by
  intro s h
  unfold Objects.allocate
  split
  · exact ⟨nofun, h⟩
  · rename_i r hr
    exact ⟨nofun, fun b hb => h b (by rw [hr]; exact List.mem_cons_of_mem _ hb)⟩
  · rename_i r hr
    have := h false (by rw [hr]; exact List.mem_cons_self)
    cases this
theorem AM.getObj (id : Nat) : AM (getObj id) := by
  intro s h
  cases ho : s.objs[id]? with
  | none => rw [getObj_none ho]; exact ⟨nofun, h⟩
  | some o => rw [getObj_some ho]; exact ⟨nofun, h⟩
theorem AM.putObj (id : Nat) (o : Obj) : AM (putObj id o) := fun _ h => ⟨nofun, h⟩
theorem AM.ite {α : Type} {c : Prop} [Decidable c] {x y : M α} (hx : AM x) (hy : AM y) :
    AM (if c then x else y) := by split <;> assumption

theorem newArrayLength_err {o : Obj} {k : Key} {d : Desc} {e : Err} (h : o.newArrayLength k d = .error e) : e = .invariant := by
  unfold Obj.newArrayLength at h
  repeat' split at h
  all_goals cases h
  all_goals rfl

theorem lengthWritable_err {o : Obj} {e : Err} (h : o.lengthWritable = .error e) : e = .invariant := by
  unfold Obj.lengthWritable at h
  repeat' split at h
  all_goals cases h
  all_goals rfl

theorem AM.defineProperty (id : Nat) (k : Key) (d : Desc) : AM (defineProperty id k d) := by
  refine AM.bind AM.allocate fun _ => AM.bind (AM.getObj id) fun o => ?_
  cases h : o.newArrayLength k d with
  | error e => rw [newArrayLength_err h]; exact AM.fail nofun
  | ok nl =>
    refine AM.bind ?_ fun _ => AM.putObj _ _
    unfold writeEntry
    split
    · exact AM.pure _
    · exact AM.bind AM.allocate fun _ => AM.pure _

theorem AM.ordinaryDefine (id : Nat) (k : Key) (p : Patch) : AM (ordinaryDefine id k p) := by
  unfold Objects.ordinaryDefine
  refine AM.ite (AM.fail nofun) (AM.bind AM.allocate fun _ => AM.bind (AM.getObj id) fun o => ?_)
  unfold validateAndApply
  refine AM.ite (AM.fail nofun) ?_
  split
  · exact AM.pure _
  · exact AM.pure _
  · exact AM.bind (AM.defineProperty _ _ _) fun _ => AM.pure _

theorem AM.ordinaryDelete (id : Nat) (k : Key) : AM (ordinaryDelete id k) := by
  refine AM.bind AM.allocate fun _ => AM.bind (AM.getObj id) fun o => ?_
  split
  · exact AM.pure _
  · exact AM.ite (AM.pure _) (AM.bind AM.allocate fun _ => AM.bind (AM.putObj _ _) fun _ => AM.pure _)

theorem AM.deleteLoop (id n m : Nat) (ks : List Key) : AM (deleteLoop id n m ks) := by
  induction ks with
  | nil => exact AM.pure _
  | cons k ks ih =>
    unfold Objects.deleteLoop
    split
    · exact ih
    · exact AM.ite (AM.pure _) (AM.ite ih (AM.bind (AM.ordinaryDelete id k) fun ok => AM.ite ih (AM.pure _)))

theorem AM.applyReadOnly (id : Nat) (w : Bool) : AM (applyReadOnly id w) := by
  refine AM.ite (AM.pure _) ?_
  refine AM.bind (AM.getObj id) fun o => ?_
  split
  · refine AM.ite (AM.fail nofun) ?_
    split
    · exact AM.putObj _ _
    · exact AM.fail nofun
  · exact AM.fail nofun

theorem AM.finishShrink (id : Nat) (k : Key) (w : Bool) (r : LoopEnd) : AM (finishShrink id k w r) := by
  cases r with
  | finished => exact AM.bind (AM.applyReadOnly id w) fun _ => AM.pure _
  | stuckAt i =>
    exact AM.bind (AM.ordinaryDefine _ _ _) fun ok => AM.ite (AM.fail nofun) (AM.bind (AM.applyReadOnly id w) fun _ => AM.pure _)

theorem AM.shrink (id : Nat) (k : Key) (p : Patch) (n m : Nat) : AM (shrink id k p n m) := by
  unfold Objects.shrink
  exact AM.bind (AM.ordinaryDefine _ _ _) fun ok => AM.ite (AM.pure _) (AM.bind AM.allocate fun _ =>
    AM.bind (AM.getObj id) fun o => AM.bind (AM.deleteLoop _ _ _ _) fun r => AM.finishShrink _ _ _ _)

theorem AM.arraySetLength (id : Nat) (k : Key) (p : Patch) : AM (arraySetLength id k p) := by
  unfold Objects.arraySetLength
  cases p.value with
  | none => exact AM.ordinaryDefine _ _ _
  | some v =>
    simp only
    cases arrayLengthFromValue v with
    | none => exact AM.pure _
    | some l =>
      refine AM.bind (AM.getObj id) fun o => ?_
      cases o.arrayLen with
      | none => exact AM.fail nofun
      | some n =>
        refine AM.ite (AM.ordinaryDefine _ _ _) ?_
        cases h : o.lengthWritable with
        | error e => rw [lengthWritable_err h]; exact AM.fail nofun
        | ok w =>
          cases w with
          | false => exact AM.pure _
          | true => exact AM.shrink _ _ _ _ _

theorem AM.arrayDefineIndex (id : Nat) (k : Key) (p : Patch) (i : Nat) : AM (arrayDefineIndex id k p i) := by
  refine AM.bind (AM.getObj id) fun o => ?_
  cases o.arrayLen with
  | none => exact AM.fail nofun
  | some n =>
    dsimp only
    split
    · rename_i e he
      split at he
      · rw [lengthWritable_err he]; exact AM.fail nofun
      · cases he
    · exact AM.pure _
    · refine AM.bind (AM.ordinaryDefine _ _ _) fun ok => AM.ite (AM.pure _) (AM.ite ?_ (AM.pure _))
      refine AM.bind (AM.getObj id) fun o => ?_
      cases o.arrayLen with
      | none => exact AM.fail nofun
      | some n => exact AM.bind (AM.putObj _ _) fun _ => AM.pure _

theorem AM.defineOwn (id : Nat) (k : Key) (p : Patch) : AM (defineOwn id k p) := by
  refine AM.bind (AM.getObj id) fun o => AM.ite ?_ (AM.ordinaryDefine _ _ _)
  unfold Objects.arrayDefine
  refine AM.ite (AM.fail nofun) (AM.bind AM.allocate fun _ => AM.ite (AM.arraySetLength _ _ _) ?_)
  split
  · exact AM.arrayDefineIndex _ _ _ _
  · exact AM.ordinaryDefine _ _ _

theorem AM.createDataProperty (id : Nat) (k : Key) (v : Value) : AM (createDataProperty id k v) :=
  AM.bind AM.allocate fun _ => AM.defineOwn _ _ _

theorem AM.setOnReceiver (k : Key) (v r : Value) : AM (setOnReceiver k v r) := by
  unfold Objects.setOnReceiver
  cases r with
  | object r =>
    refine AM.bind (AM.getObj r) fun o => ?_
    cases o.getOwn k with
    | none => exact AM.createDataProperty _ _ _
    | some d =>
      simp only
      cases d.kind with
      | accessor => exact AM.pure _
      | data _ w => exact AM.ite (AM.pure _) (AM.defineOwn _ _ _)
  | _ => exact AM.pure _

theorem getProperty_err {objs : List Obj} {k : Key} {n : Nat} {id : Option Nat} {e : Err}
    (h : getProperty objs k n id = .error e) : e ≠ .outOfMemory := by
  induction n generalizing id with
  | zero =>
    cases id with
    | none => cases h
    | some i => cases h; nofun
  | succ n ih =>
    cases id with
    | none => cases h
    | some i =>
      unfold getProperty at h
      repeat' split at h
      · cases h; nofun
      · cases h
      · exact ih h

theorem AM.ordinarySet (id : Nat) (k : Key) (v r : Value) : AM (ordinarySet id k v r) := by
  refine AM.bind AM.allocate fun _ => ?_
  intro s hs
  dsimp only
  cases h : getProperty s.objs k maxPrototypeChain (some id) with
  | error e => exact ⟨fun h' => getProperty_err h (by cases h'; rfl), hs⟩
  | ok d =>
    simp only
    split
    · split
      · exact ⟨nofun, hs⟩
      · exact (AM.bind (AM.setOnReceiver k v r) fun _ => AM.pure _) s hs
    · split <;> exact ⟨nofun, hs⟩

theorem step_ample (op : Op) {s : Store} (h : Ample s) : (step op s).1 ≠ .err .outOfMemory ∧ Ample (step op s).2 := by
  have fin : ∀ {α : Type} {f : α → Res} {m : M α}, (∀ a, f a ≠ .err .outOfMemory) → step op s = toRes f (m s) → AM m →
      (step op s).1 ≠ .err .outOfMemory ∧ Ample (step op s).2 := by
    intro α f m hf he hm
    have h1 := hm s h
    rw [he, toRes_snd]
    refine ⟨?_, h1.2⟩
    generalize m s = r at h1
    rcases r with ⟨e | a, s'⟩
    · intro h'; exact h1.1 (by simp only [toRes] at h'; cases h'; rfl)
    · exact hf a
  cases op with
  | newObject p es => exact fin nofun rfl (AM.bind AM.allocate fun _ => fun _ h => ⟨nofun, h⟩)
  | newArray n =>
    by_cases hn : n < 2 ^ 32
    · exact fin (m := allocObj (newArray n)) (f := fun _ => .unit) nofun (by simp only [step, if_pos hn])
        (AM.bind AM.allocate fun _ => fun _ h => ⟨nofun, h⟩)
    · simp only [step, if_neg hn]; exact ⟨nofun, h⟩
  | define id k p => exact fin nofun rfl (AM.defineOwn _ _ _)
  | create id k v => exact fin nofun rfl (AM.createDataProperty _ _ _)
  | delete id k => exact fin nofun rfl (AM.ordinaryDelete _ _)
  | set id k v r => exact fin nofun rfl (AM.ordinarySet _ _ _ _)
  | preventExtensions id => exact fin (m := preventExtensions id) (f := fun _ => .unit) (fun _ => nofun) rfl (AM.bind (AM.getObj _) fun _ => AM.putObj _ _)
  | setProto id p => exact fin (m := setProto id p) (f := fun _ => .unit) (fun _ => nofun) rfl (AM.bind (AM.getObj _) fun _ => AM.putObj _ _)

theorem run_ample (ops : List Op) {s : Store} (h : Ample s) : NoCutShort ops s ∧ Ample (run ops s) := by
  induction ops generalizing s with
  | nil => exact ⟨trivial, h⟩
  | cons op ops ih =>
    have h1 := step_ample op h
    exact ⟨⟨fun _ => h1.1, (ih h1.2).1⟩, (ih h1.2).2⟩

/-! ## The number of objects -/

/-- The operation creates no object. -/
def LM {α : Type} (m : M α) : Prop := ∀ s, (m s).2.objs.length = s.objs.length

theorem LM.bind {α β : Type} {m : M α} {k : α → M β} (hm : LM m) (hk : ∀ a, LM (k a)) : LM (m >>= k) := by
  intro s
  rw [bind_run]
  have h := hm s
  generalize m s = r at h
  rcases r with ⟨e | a, s'⟩
  · exact h
  · exact (hk a s').trans h
theorem LM.pure {α : Type} (a : α) : LM (Pure.pure a : M α) := fun _ => rfl
theorem LM.fail {α : Type} {e : Err} : LM (fail e : M α) := fun _ => rfl
theorem LM.allocate : LM allocate := by
  intro s
  rcases allocate_cases s with ⟨a, h⟩ | ⟨a, h⟩ <;> rw [h]
theorem LM.getObj (id : Nat) : LM (getObj id) := by
  intro s
  cases ho : s.objs[id]? with
  | none => rw [getObj_none ho]
  | some o => rw [getObj_some ho]
theorem LM.putObj (id : Nat) (o : Obj) : LM (putObj id o) := fun _ => List.length_set
theorem LM.ite {α : Type} {c : Prop} [Decidable c] {x y : M α} (hx : LM x) (hy : LM y) :
    LM (if c then x else y) := by split <;> assumption

theorem LM.defineProperty (id : Nat) (k : Key) (d : Desc) : LM (defineProperty id k d) := by
  refine LM.bind LM.allocate fun _ => LM.bind (LM.getObj id) fun o => ?_
  cases h : o.newArrayLength k d with
  | error e => exact LM.fail
  | ok nl =>
    refine LM.bind ?_ fun _ => LM.putObj _ _
    unfold writeEntry
    split
    · exact LM.pure _
    · exact LM.bind LM.allocate fun _ => LM.pure _

theorem LM.ordinaryDefine (id : Nat) (k : Key) (p : Patch) : LM (ordinaryDefine id k p) := by
  unfold Objects.ordinaryDefine
  refine LM.ite (LM.fail) (LM.bind LM.allocate fun _ => LM.bind (LM.getObj id) fun o => ?_)
  unfold validateAndApply
  refine LM.ite (LM.fail) ?_
  split
  · exact LM.pure _
  · exact LM.pure _
  · exact LM.bind (LM.defineProperty _ _ _) fun _ => LM.pure _

theorem LM.ordinaryDelete (id : Nat) (k : Key) : LM (ordinaryDelete id k) := by
  refine LM.bind LM.allocate fun _ => LM.bind (LM.getObj id) fun o => ?_
  split
  · exact LM.pure _
  · exact LM.ite (LM.pure _) (LM.bind LM.allocate fun _ => LM.bind (LM.putObj _ _) fun _ => LM.pure _)

theorem LM.deleteLoop (id n m : Nat) (ks : List Key) : LM (deleteLoop id n m ks) := by
  induction ks with
  | nil => exact LM.pure _
  | cons k ks ih =>
    unfold Objects.deleteLoop
    split
    · exact ih
    · exact LM.ite (LM.pure _) (LM.ite ih (LM.bind (LM.ordinaryDelete id k) fun ok => LM.ite ih (LM.pure _)))

theorem LM.applyReadOnly (id : Nat) (w : Bool) : LM (applyReadOnly id w) := by
  refine LM.ite (LM.pure _) ?_
  refine LM.bind (LM.getObj id) fun o => ?_
  split
  · refine LM.ite (LM.fail) ?_
    split
    · exact LM.putObj _ _
    · exact LM.fail
  · exact LM.fail

theorem LM.finishShrink (id : Nat) (k : Key) (w : Bool) (r : LoopEnd) : LM (finishShrink id k w r) := by
  cases r with
  | finished => exact LM.bind (LM.applyReadOnly id w) fun _ => LM.pure _
  | stuckAt i =>
    exact LM.bind (LM.ordinaryDefine _ _ _) fun ok => LM.ite (LM.fail) (LM.bind (LM.applyReadOnly id w) fun _ => LM.pure _)

theorem LM.shrink (id : Nat) (k : Key) (p : Patch) (n m : Nat) : LM (shrink id k p n m) := by
  unfold Objects.shrink
  exact LM.bind (LM.ordinaryDefine _ _ _) fun ok => LM.ite (LM.pure _) (LM.bind LM.allocate fun _ =>
    LM.bind (LM.getObj id) fun o => LM.bind (LM.deleteLoop _ _ _ _) fun r => LM.finishShrink _ _ _ _)

theorem LM.arraySetLength (id : Nat) (k : Key) (p : Patch) : LM (arraySetLength id k p) := by
  unfold Objects.arraySetLength
  cases p.value with
  | none => exact LM.ordinaryDefine _ _ _
  | some v =>
    simp only
    cases arrayLengthFromValue v with
    | none => exact LM.pure _
    | some l =>
      refine LM.bind (LM.getObj id) fun o => ?_
      cases o.arrayLen with
      | none => exact LM.fail
      | some n =>
        refine LM.ite (LM.ordinaryDefine _ _ _) ?_
        cases h : o.lengthWritable with
        | error e => exact LM.fail
        | ok w =>
          cases w with
          | false => exact LM.pure _
          | true => exact LM.shrink _ _ _ _ _

theorem LM.arrayDefineIndex (id : Nat) (k : Key) (p : Patch) (i : Nat) : LM (arrayDefineIndex id k p i) := by
  refine LM.bind (LM.getObj id) fun o => ?_
  cases o.arrayLen with
  | none => exact LM.fail
  | some n =>
    dsimp only
    split
    · exact LM.fail
    · exact LM.pure _
    · refine LM.bind (LM.ordinaryDefine _ _ _) fun ok => LM.ite (LM.pure _) (LM.ite ?_ (LM.pure _))
      refine LM.bind (LM.getObj id) fun o => ?_
      cases o.arrayLen with
      | none => exact LM.fail
      | some n => exact LM.bind (LM.putObj _ _) fun _ => LM.pure _

theorem LM.defineOwn (id : Nat) (k : Key) (p : Patch) : LM (defineOwn id k p) := by
  refine LM.bind (LM.getObj id) fun o => LM.ite ?_ (LM.ordinaryDefine _ _ _)
  unfold Objects.arrayDefine
  refine LM.ite (LM.fail) (LM.bind LM.allocate fun _ => LM.ite (LM.arraySetLength _ _ _) ?_)
  split
  · exact LM.arrayDefineIndex _ _ _ _
  · exact LM.ordinaryDefine _ _ _

theorem LM.createDataProperty (id : Nat) (k : Key) (v : Value) : LM (createDataProperty id k v) :=
  LM.bind LM.allocate fun _ => LM.defineOwn _ _ _

theorem LM.setOnReceiver (k : Key) (v r : Value) : LM (setOnReceiver k v r) := by
  unfold Objects.setOnReceiver
  cases r with
  | object r =>
    refine LM.bind (LM.getObj r) fun o => ?_
    cases o.getOwn k with
    | none => exact LM.createDataProperty _ _ _
    | some d =>
      simp only
      cases d.kind with
      | accessor => exact LM.pure _
      | data _ w => exact LM.ite (LM.pure _) (LM.defineOwn _ _ _)
  | _ => exact LM.pure _

theorem LM.ordinarySet (id : Nat) (k : Key) (v r : Value) : LM (ordinarySet id k v r) := by
  refine LM.bind LM.allocate fun _ => ?_
  intro s
  dsimp only
  cases getProperty s.objs k maxPrototypeChain (some id) with
  | error e => rfl
  | ok d =>
    simp only
    split
    · split
      · rfl
      · exact (LM.bind (LM.setOnReceiver k v r) fun _ => LM.pure _) s
    · split <;> rfl

/-! ## Listing -/

/-- New objects appear only at the end, as allocated. -/
theorem step_new (op : Op) (s : Store) :
    (∃ x, (step op s).2.objs = s.objs ++ [x] ∧
      ((∃ p es, op = .newObject p es ∧ x = newObject p es) ∨ ∃ n, op = .newArray n ∧ x = newArray n)) ∨
    (step op s).2.objs.length = s.objs.length := by
  have push : ∀ x, (allocObj x s).2.objs = s.objs ++ [x] ∨ (allocObj x s).2.objs.length = s.objs.length := by
    intro x
    unfold allocObj
    rw [bind_run]
    rcases allocate_cases s with ⟨a, h⟩ | ⟨a, h⟩ <;> rw [h]
    · exact .inl rfl
    · exact .inr rfl
  cases op with
  | newObject p es =>
    simp only [step, toRes_snd]
    rcases push (newObject p es) with h | h
    · exact .inl ⟨_, h, .inl ⟨p, es, rfl, rfl⟩⟩
    · exact .inr h
  | newArray n =>
    simp only [step]
    split
    · rw [toRes_snd]
      rcases push (newArray n) with h | h
      · exact .inl ⟨_, h, .inr ⟨n, rfl, rfl⟩⟩
      · exact .inr h
    · exact .inr rfl
  | define id k p => exact .inr (by simp only [step, toRes_snd]; exact LM.defineOwn id k p s)
  | create id k v => exact .inr (by simp only [step, toRes_snd]; exact LM.createDataProperty id k v s)
  | delete id k => exact .inr (by simp only [step, toRes_snd]; exact LM.ordinaryDelete id k s)
  | set id k v r => exact .inr (by simp only [step, toRes_snd]; exact LM.ordinarySet id k v r s)
  | preventExtensions id =>
    exact .inr (by simp only [step, toRes_snd]; exact (LM.bind (LM.getObj id) fun _ => LM.putObj _ _) s)
  | setProto id p =>
    exact .inr (by simp only [step, toRes_snd]; exact (LM.bind (LM.getObj id) fun _ => LM.putObj _ _) s)

theorem pair_sublist_append {a b k : Key} {l : List Key} (h : [a, b].Sublist (l ++ [k])) :
    [a, b].Sublist l ∨ (a ∈ l ∧ b = k) := by
  rw [List.sublist_append_iff] at h
  obtain ⟨l1, l2, he, h1, h2⟩ := h
  match l2, h2 with
  | [], _ => rw [List.append_nil] at he; exact .inl (he ▸ h1)
  | [x], h2 =>
    have hx : x = k := by simpa using h2
    subst hx
    match l1, he with
    | [], he => simp at he
    | [y], he =>
      simp at he
      obtain ⟨rfl, rfl⟩ := he
      exact .inr ⟨h1.subset (by simp), rfl⟩
    | _ :: _ :: _, he => simp at he
  | _ :: _ :: _, h2 => exact absurd h2.length_le (by simp)

theorem before_filter {a b : Key} {l : List Key} {f : Key → Bool} (ha : f a = true) (hb : f b = true) :
    [a, b].Sublist l ↔ [a, b].Sublist (l.filter f) := by
  constructor
  · intro h
    have := h.filter f
    simpa [ha, hb] using this
  · intro h; exact h.trans List.filter_sublist

end Verif.Objects
