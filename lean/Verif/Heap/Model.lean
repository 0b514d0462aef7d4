/-!
# Model of the vm-js garbage-collected heap

Models `/repo/vm-js/src/heap.rs` (slots, roots, allocation, mark/sweep collection, scopes,
persistent roots, symbol registry), `/repo/vm-js/src/handle.rs` (handles) and the `Trace`
implementations in `heap.rs`, `function.rs`, `env.rs`, `promise.rs`, `property.rs`.

Conventions.  A Rust `Vec` used as a stack with `push`/`pop` at the end (free lists and the GC work
list) is a `List` whose head is the top of the stack.  `root_stack`, `env_root_stack`, the slot table
and the persistent root tables keep the `Vec` order.  `usize` is 64 bits.  Allocator failure
(`try_reserve_exact` returning an error although the byte limit allows the request) is not modelled.
-/

namespace Verif.Heap

/-- `usize::MAX` on a 64-bit target. -/
def usizeMax : Nat := 2 ^ 64 - 1

/-- `u32` modulus: slot generations are `u32` and wrap (`heap.rs` 438). -/
def u32Mod : Nat := 2 ^ 32

/-- `usize::saturating_add`. -/
def satAdd (a b : Nat) : Nat := min usizeMax (a + b)

/-- `usize::saturating_mul`. -/
def satMul (a b : Nat) : Nat := min usizeMax (a * b)

/-- `/repo/vm-js/src/handle.rs` 5–37: `HeapId`, a packed `{ index: u32, generation: u32 }`.
Simplification: kept unpacked. -/
structure HeapId where
  index : Nat
  gen : Nat
deriving DecidableEq, Repr

/-- `/repo/vm-js/src/value.rs`: `Value`.  Numbers are opaque bit patterns, BigInts integers.
The three handle variants carry the raw `HeapId`. -/
inductive Value where
  | undefined
  | null
  | bool (b : Bool)
  | number (bits : Nat)
  | bigint (i : Int)
  | string (s : HeapId)
  | symbol (s : HeapId)
  | object (o : HeapId)
deriving DecidableEq, Repr

/-- `/repo/vm-js/src/property.rs` 8–11: `PropertyKey`. -/
inductive PropertyKey where
  | string (s : HeapId)
  | symbol (s : HeapId)
deriving DecidableEq, Repr

/-- `/repo/vm-js/src/property.rs` 61–64: `PropertyKind`. -/
inductive PropertyKind where
  | data (value : Value) (writable : Bool)
  | accessor (get set : Value)
deriving DecidableEq, Repr

/-- `/repo/vm-js/src/property.rs` 34–39 and `heap.rs` 3936–3939: `PropertyDescriptor` in a `PropertyEntry`. -/
structure PropertyEntry where
  key : PropertyKey
  enumerable : Bool
  configurable : Bool
  kind : PropertyKind
deriving DecidableEq, Repr

/-- `heap.rs` 3714–3720: `ObjectBase`; `arrayLength` is `ObjectKind::Array(ArrayObject{length})` (3924–3933). -/
structure ObjectBase where
  prototype : Option HeapId
  extensible : Bool
  properties : List PropertyEntry
  arrayLength : Option Nat
deriving DecidableEq, Repr

/-- `/repo/vm-js/src/function.rs`: `FunctionData`.  Non-handle payload is dropped. -/
inductive FunctionData where
  | none
  | promiseCapabilityExecutor
  | promiseResolvingFunction (promise : HeapId)
  | promiseFinallyHandler (onFinally constructor : Value)
  | promiseFinallyThunk (value : Value)
deriving DecidableEq, Repr

/-- `/repo/vm-js/src/function.rs`: `JsFunction`.  Fields without handles (call/construct handler,
length, this mode, strictness, job realm) are summarised by `info`. -/
structure JsFunction where
  base : ObjectBase
  name : HeapId
  data : FunctionData
  boundTarget : Option HeapId
  boundThis : Option Value
  boundNewTarget : Option Value
  boundArgs : Option (List Value)
  nativeSlots : Option (List Value)
  realm : Option HeapId
  closureEnv : Option HeapId
  info : Nat
deriving DecidableEq, Repr

/-- `/repo/vm-js/src/env.rs` 207–214: `EnvBinding`. -/
structure EnvBinding where
  symbol : Nat
  name : Option HeapId
  value : Value
  mutable : Bool
  initialized : Bool
  strict : Bool
deriving DecidableEq, Repr

/-- `/repo/vm-js/src/env.rs` 6–12, 124–129, 137–141: `EnvRecord`. -/
inductive EnvRecord where
  | declarative (outer : Option HeapId) (bindings : List EnvBinding)
      (thisValue newTarget : Option Value)
  | objectEnv (outer : Option HeapId) (bindingObject : HeapId) (withEnvironment : Bool)
deriving DecidableEq, Repr

/-- `/repo/vm-js/src/promise.rs` 55–64: `PromiseCapability`. -/
structure PromiseCapability where
  promise : Value
  resolve : Value
  reject : Value
deriving DecidableEq, Repr

/-- `/repo/vm-js/src/promise.rs` 77–85: `PromiseReaction`; the handler is a `JobCallback`, of which
only the traced callback object matters (`jobs.rs` 340–420). -/
structure PromiseReaction where
  capability : Option PromiseCapability
  isReject : Bool
  handler : Option HeapId
deriving DecidableEq, Repr

/-- `/repo/vm-js/src/promise.rs` 38–42. -/
inductive PromiseState where
  | pending | fulfilled | rejected
deriving DecidableEq, Repr

/-- `heap.rs` 3846–3860: `JsPromise`. -/
structure JsPromise where
  base : ObjectBase
  state : PromiseState
  result : Option Value
  fulfillReactions : Option (List PromiseReaction)
  rejectReactions : Option (List PromiseReaction)
  isHandled : Bool
deriving DecidableEq, Repr

/-- `heap.rs` 3677–3685: `HeapObject`. -/
inductive HeapObject where
  | string (units : List Nat)
  | symbol (id : Nat) (description : Option HeapId)
  | object (base : ObjectBase)
  | function (f : JsFunction)
  | env (e : EnvRecord)
  | promise (p : JsPromise)
deriving DecidableEq, Repr

/-! ## Tracing (outgoing references, in trace order) -/

/-- `heap.rs` 3967–3974: `Tracer::trace_value`, as the list of handles passed to `trace_heap_id`. -/
def Value.refs : Value → List HeapId
  | .string s => [s]
  | .symbol s => [s]
  | .object o => [o]
  | _ => []

/-- References of an optional handle. -/
def optRefs : Option HeapId → List HeapId
  | some i => [i]
  | none => []

/-- References of an optional value. -/
def optValRefs : Option Value → List HeapId
  | some v => v.refs
  | none => []

/-- `property.rs` 23–30. -/
def PropertyKey.refs : PropertyKey → List HeapId
  | .string s => [s]
  | .symbol s => [s]

/-- `property.rs` 67–77. -/
def PropertyKind.refs : PropertyKind → List HeapId
  | .data v _ => v.refs
  | .accessor g s => g.refs ++ s.refs

/-- `heap.rs` 3941–3946 with `property.rs` 54–58. -/
def PropertyEntry.refs (p : PropertyEntry) : List HeapId := p.key.refs ++ p.kind.refs

/-- `heap.rs` 3794–3803: `ObjectBase::trace`. -/
def ObjectBase.refs (b : ObjectBase) : List HeapId :=
  optRefs b.prototype ++ b.properties.flatMap PropertyEntry.refs

/-- `function.rs` 309–326. -/
def FunctionData.refs : FunctionData → List HeapId
  | .none => []
  | .promiseCapabilityExecutor => []
  | .promiseResolvingFunction p => [p]
  | .promiseFinallyHandler f c => f.refs ++ c.refs
  | .promiseFinallyThunk v => v.refs

/-- `function.rs` 304–354: `JsFunction::trace`. -/
def JsFunction.refs (f : JsFunction) : List HeapId :=
  f.base.refs ++ [f.name] ++ f.data.refs ++ optRefs f.boundTarget ++ optValRefs f.boundThis ++
  optValRefs f.boundNewTarget ++ (f.boundArgs.getD []).flatMap Value.refs ++
  (f.nativeSlots.getD []).flatMap Value.refs ++ optRefs f.realm ++ optRefs f.closureEnv

/-- `env.rs` 216–223: `EnvBinding::trace`. -/
def EnvBinding.refs (b : EnvBinding) : List HeapId := optRefs b.name ++ b.value.refs

/-- `env.rs` 179–204: `EnvRecord::trace`. -/
def EnvRecord.refs : EnvRecord → List HeapId
  | .declarative outer bindings thisValue newTarget =>
    optRefs outer ++ bindings.flatMap EnvBinding.refs ++ optValRefs thisValue ++ optValRefs newTarget
  | .objectEnv outer obj _ => optRefs outer ++ [obj]

/-- `promise.rs` 66–72. -/
def PromiseCapability.refs (c : PromiseCapability) : List HeapId :=
  c.promise.refs ++ c.resolve.refs ++ c.reject.refs

/-- `promise.rs` 87–96. -/
def PromiseReaction.refs (r : PromiseReaction) : List HeapId :=
  (match r.capability with | some c => c.refs | none => []) ++ optRefs r.handler

/-- `heap.rs` 3905–3921: `JsPromise::trace`. -/
def JsPromise.refs (p : JsPromise) : List HeapId :=
  p.base.refs ++ optValRefs p.result ++
  (p.fulfillReactions.getD []).flatMap PromiseReaction.refs ++
  (p.rejectReactions.getD []).flatMap PromiseReaction.refs

/-- `heap.rs` 3687–3712: `HeapObject::trace` (with `JsString`, `JsSymbol`, `JsObject`). -/
def HeapObject.refs : HeapObject → List HeapId
  | .string _ => []
  | .symbol _ desc => optRefs desc
  | .object b => b.refs
  | .function f => f.refs
  | .env e => e.refs
  | .promise p => p.refs

/-! ## Heap state -/

/-- `heap.rs` 3659–3664: `Slot`. -/
structure Slot where
  generation : Nat
  value : Option HeapObject
  hostSlots : Option (Nat × Nat)
  bytes : Nat
deriving DecidableEq, Repr

/-- `heap.rs` 3667–3674: `Slot::new`. -/
def Slot.new : Slot := { generation := 0, value := none, hostSlots := none, bytes := 0 }

/-- Vector capacities, which `estimated_total_bytes` (259–324) charges for. -/
structure Caps where
  slots : Nat
  marks : Nat
  freeList : Nat
  worklist : Nat
  rootStack : Nat
  envRootStack : Nat
  persistentRoots : Nat
  persistentRootsFree : Nat
  registry : Nat
deriving DecidableEq, Repr

/-- `heap.rs` 77–109: `Heap`.  Persistent *environment* roots are a separate table in the code with the
same operations as the value root table; the model keeps a single persistent table and stores an
environment root as its handle.  Element sizes (`mem::size_of`) are the constants below. -/
structure Heap where
  maxBytes : Nat
  gcThreshold : Nat
  usedBytes : Nat
  gcRuns : Nat
  slots : List Slot
  marks : List Nat
  freeList : List Nat
  nextSymbolId : Nat
  rootStack : List Value
  envRootStack : List HeapId
  persistentRoots : List (Option Value)
  persistentRootsFree : List Nat
  symbolRegistry : List (HeapId × HeapId)
  caps : Caps
deriving DecidableEq, Repr

/-- `mem::size_of` of the element types; the proofs do not depend on the particular numbers. -/
def szSlot : Nat := 344
def szId : Nat := 8
def szU32 : Nat := 4
def szValue : Nat := 24
def szOptValue : Nat := 24
def szRegistryEntry : Nat := 16

/-- `heap.rs` 170–193: `Heap::new`. -/
def Heap.new (maxBytes gcThreshold : Nat) : Heap :=
  { maxBytes, gcThreshold, usedBytes := 0, gcRuns := 0, slots := [], marks := [], freeList := [],
    nextSymbolId := 1, rootStack := [], envRootStack := [], persistentRoots := [],
    persistentRootsFree := [], symbolRegistry := [],
    caps := ⟨0, 0, 0, 0, 0, 0, 0, 0, 0⟩ }

/-- `/repo/vm-js/src/error.rs`: the errors the modelled functions return. -/
inductive VmError where
  | outOfMemory
  | invalidHandle
  | prototypeCycle
  | prototypeChainTooDeep
deriving DecidableEq, Repr

/-- `heap.rs` 2355–2365 `Heap::validate` and 3993–4005 `Tracer::validate`, on a slot table. -/
def validateIn (slots : List Slot) (id : HeapId) : Option Nat :=
  match slots[id.index]? with
  | none => none
  | some slot =>
    if slot.generation ≠ id.gen then none
    else if slot.value.isNone then none
    else some id.index

/-- `heap.rs` 2346–2349: `get_heap_object`, `none` standing for `Err(InvalidHandle)`. -/
def Heap.get (h : Heap) (id : HeapId) : Option HeapObject :=
  match validateIn h.slots id with
  | none => none
  | some idx => (h.slots[idx]?).bind Slot.value

/-! ## Garbage collection -/

/-- Tracer state: mark bytes (0 white, 1 grey, 2 black) and work list (`heap.rs` 3952–3956). -/
structure Tracer where
  marks : List Nat
  work : List HeapId

/-- `heap.rs` 3980–3991: `Tracer::trace_heap_id`. -/
def traceHeapId (slots : List Slot) (t : Tracer) (id : HeapId) : Tracer :=
  match validateIn slots id with
  | none => t
  | some idx =>
    if t.marks.getD idx 0 ≠ 0 then t
    else { marks := t.marks.set idx 1, work := id :: t.work }

/-- Tracing a list of handles in order (the `for` loops in 372–397 and the bodies of `trace`). -/
def traceAll (slots : List Slot) (t : Tracer) (ids : List HeapId) : Tracer :=
  ids.foldl (traceHeapId slots) t

/-- Number of slots not yet black; decreases at each scan, so the mark loop terminates. -/
def notBlack (marks : List Nat) : Nat := (marks.filter (· ≠ 2)).length

theorem notBlack_set_le (marks : List Nat) (i : Nat) (h : marks.getD i 0 = 0) :
    notBlack (marks.set i 1) ≤ notBlack marks := by
  induction marks generalizing i with
  | nil => simp
  | cons m ms ih =>
    cases i with
    | zero =>
      simp at h
      subst h
      simp [notBlack]
    | succ i =>
      have := ih i (by simpa using h)
      simp only [notBlack, List.set_cons_succ, List.filter_cons] at this ⊢
      split <;> first | omega | (simp only [List.length_cons]; omega)

theorem notBlack_traceAll_le (slots : List Slot) (ids : List HeapId) (t : Tracer) :
    notBlack (traceAll slots t ids).marks ≤ notBlack t.marks := by
  induction ids generalizing t with
  | nil => simp [traceAll]
  | cons i is ih =>
    have h1 := ih (traceHeapId slots t i)
    have h2 : notBlack (traceHeapId slots t i).marks ≤ notBlack t.marks := by
      unfold traceHeapId
      split
      · exact Nat.le_refl _
      · split
        · exact Nat.le_refl _
        · rename_i h
          exact notBlack_set_le _ _ (by simpa using h)
    simp only [traceAll, List.foldl_cons] at h1 ⊢
    omega

theorem notBlack_set2_lt (marks : List Nat) (i : Nat) (hi : i < marks.length)
    (h : marks.getD i 0 ≠ 2) : notBlack (marks.set i 2) < notBlack marks := by
  induction marks generalizing i with
  | nil => simp at hi
  | cons m ms ih =>
    cases i with
    | zero =>
      simp at h
      simp [notBlack, h]
    | succ i =>
      have := ih i (by simpa using hi) (by simpa using h)
      simp only [notBlack, List.set_cons_succ, List.filter_cons] at this ⊢
      split <;> first | omega | (simp only [List.length_cons]; omega)

/-- `heap.rs` 399–415: the mark loop `while let Some(id) = tracer.pop_work()`.
The test `idx < marks.length` stands for the Rust bounds check of `tracer.marks[idx]`
(the two vectors have equal length, `debug_assert_eq!` at 366). -/
def markLoop (slots : List Slot) (t : Tracer) : Tracer :=
  match _hw : t.work with
  | [] => t
  | id :: rest =>
    match validateIn slots id with
    | none => markLoop slots { t with work := rest }
    | some idx =>
      if _hb : idx < t.marks.length ∧ t.marks.getD idx 0 ≠ 2 then
        match (slots[idx]?).bind Slot.value with
        | none => markLoop slots { marks := t.marks.set idx 2, work := rest }
        | some obj =>
          markLoop slots (traceAll slots { marks := t.marks.set idx 2, work := rest } obj.refs)
      else markLoop slots { t with work := rest }
termination_by (notBlack t.marks, t.work.length)
decreasing_by
  · apply Prod.Lex.right; simp [_hw]
  · apply Prod.Lex.left
    exact notBlack_set2_lt _ _ _hb.1 _hb.2
  · apply Prod.Lex.left
    exact Nat.lt_of_le_of_lt (notBlack_traceAll_le _ _ _) (notBlack_set2_lt _ _ _hb.1 _hb.2)
  · apply Prod.Lex.right; simp [_hw]

/-- Result of the sweep. -/
structure SweepState where
  slots : List Slot
  marks : List Nat
  used : Nat
  free : List Nat

/-- `heap.rs` 418–441: the sweep loop over the slots from index `idx` on; saturating subtraction is
`Nat` subtraction.  Marks and slots have the same length; if marks run out the rest is left alone
(Rust would panic). -/
def sweepLoop : Nat → List Slot → List Nat → Nat → List Nat → SweepState
  | _, [], ms, used, free => ⟨[], ms, used, free⟩
  | _, s :: ss, [], used, free => ⟨s :: ss, [], used, free⟩
  | idx, s :: ss, m :: ms, used, free =>
    if s.value.isNone then
      let r := sweepLoop (idx + 1) ss ms used free
      { r with slots := s :: r.slots, marks := 0 :: r.marks }
    else if m ≠ 0 then
      let r := sweepLoop (idx + 1) ss ms used free
      { r with slots := s :: r.slots, marks := 0 :: r.marks }
    else
      let s' : Slot := { generation := (s.generation + 1) % u32Mod, value := none,
                         hostSlots := none, bytes := 0 }
      let r := sweepLoop (idx + 1) ss ms (used - s.bytes) (idx :: free)
      { r with slots := s' :: r.slots, marks := 0 :: r.marks }

/-- `heap.rs` 372–397: all root handles in the order they are traced: caller's extra roots, the value
root stack, the environment root stack, persistent roots, registry keys and symbols. -/
def Heap.rootIds (h : Heap) (extra : List HeapId) : List HeapId :=
  extra ++ h.rootStack.flatMap Value.refs ++ h.envRootStack ++
  h.persistentRoots.flatMap optValRefs ++
  h.symbolRegistry.flatMap (fun e => [e.1, e.2])

/-- The mark phase (`heap.rs` 364–416). -/
def Heap.mark (h : Heap) (extra : List HeapId) : Tracer :=
  markLoop h.slots (traceAll h.slots { marks := h.marks, work := [] } (h.rootIds extra))

/-- `heap.rs` 355–445: `collect_garbage_with_extra_roots`. -/
def Heap.collect (h : Heap) (extra : List HeapId) : Heap :=
  let t := h.mark extra
  let r := sweepLoop 0 h.slots t.marks h.usedBytes h.freeList
  { h with gcRuns := h.gcRuns + 1, slots := r.slots, marks := r.marks, usedBytes := r.used,
           freeList := r.free }

/-! ## Memory limits and allocation -/

/-- `heap.rs` 29: `MIN_VEC_CAPACITY`. -/
def minVecCapacity : Nat := 1

theorem minVecCapacity_pos : 0 < minVecCapacity := by decide

/-- `heap.rs` 4029–4034: the doubling loop of `grown_capacity`; `none` is the overflow exit. -/
def growLoop (cap required : Nat) (hc : 0 < cap) : Option Nat :=
  if cap < required then
    if cap * 2 ≤ usizeMax then growLoop (cap * 2) required (by omega) else none
  else some cap
termination_by required - cap

/-- `heap.rs` 4024–4036: `grown_capacity`. -/
def grownCapacity (cur required : Nat) : Nat :=
  if required ≤ cur then cur
  else (growLoop (max cur minVecCapacity) required
    (Nat.lt_of_lt_of_le minVecCapacity_pos (Nat.le_max_right _ _))).getD usizeMax

/-- `heap.rs` 4038–4050: `vec_capacity_growth_bytes` for a non-zero element size. -/
def growthBytes (elem cur required : Nat) : Nat :=
  let n := grownCapacity cur required
  if n = usizeMax then usizeMax else satMul (n - cur) elem

/-- `heap.rs` 4052–4068: `reserve_vec_to_len`, returning the new capacity (`try_reserve_exact`
succeeds and reserves exactly what is asked), `none` for `OutOfMemory`. -/
def reserveTo (cur required : Nat) : Option Nat :=
  if required ≤ cur then some cur
  else
    let n := grownCapacity cur required
    if n = usizeMax then none else some n

/-- `heap.rs` 259–324: `estimated_total_bytes`. -/
def Heap.estimated (h : Heap) : Nat :=
  let t := satAdd 0 h.usedBytes
  let t := satAdd t (satMul h.caps.slots szSlot)
  let t := satAdd t h.caps.marks
  let t := satAdd t (satMul h.caps.freeList szU32)
  let t := satAdd t (satMul h.caps.worklist szId)
  let t := satAdd t (satMul h.caps.rootStack szValue)
  let t := satAdd t (satMul h.caps.envRootStack szId)
  let t := satAdd t (satMul h.caps.persistentRoots szOptValue)
  let t := satAdd t (satMul h.caps.persistentRootsFree szU32)
  satAdd t (satMul h.caps.registry szRegistryEntry)

/-- `heap.rs` 2378–2408: `ensure_can_allocate_with_extra_roots`.  The heap is returned also on error,
because a collection may already have run. -/
def Heap.ensure (h : Heap) (additional : Heap → Nat) (extra : List HeapId) :
    Except VmError Unit × Heap :=
  let after := satAdd h.estimated (additional h)
  let h1 := if after > h.gcThreshold then h.collect extra else h
  let after1 := satAdd h1.estimated (additional h1)
  if after1 > h1.maxBytes then (.error .outOfMemory, h1) else (.ok (), h1)

/-- `heap.rs` 2508–2532: `additional_bytes_for_new_slot`. -/
def Heap.additionalNewSlot (h : Heap) : Nat :=
  let n := h.slots.length + 1
  let b := satAdd 0 (growthBytes szSlot h.caps.slots n)
  let b := satAdd b (growthBytes 1 h.caps.marks n)
  let b := satAdd b (growthBytes szU32 h.caps.freeList n)
  satAdd b (growthBytes szId h.caps.worklist n)

/-- `heap.rs` 2500–2506: `additional_bytes_for_heap_alloc`. -/
def Heap.additionalAlloc (payload : Nat) (h : Heap) : Nat :=
  if h.freeList.isEmpty then satAdd payload h.additionalNewSlot else payload

/-- `heap.rs` 2534–2542: `reserve_for_new_slot`. -/
def Heap.reserveNewSlot (h : Heap) : Option Heap := do
  let n := h.slots.length + 1
  let cs ← reserveTo h.caps.slots n
  let cm ← reserveTo h.caps.marks n
  let cf ← reserveTo h.caps.freeList n
  let cw ← reserveTo h.caps.worklist n
  some { h with caps := { h.caps with slots := cs, marks := cm, freeList := cf, worklist := cw } }

/-- `heap.rs` 2440–2449: filling slot `idx` and charging its bytes. -/
def Heap.fillSlot (h : Heap) (idx : Nat) (obj : HeapObject) (bytes : Nat) : Heap :=
  { h with
    slots := h.slots.modify idx (fun s => { s with value := some obj, hostSlots := none, bytes := bytes })
    usedBytes := satAdd h.usedBytes bytes }

/-- Generation of slot `idx`. -/
def Heap.genAt (h : Heap) (idx : Nat) : Nat := ((h.slots[idx]?).map Slot.generation).getD 0

/-- `heap.rs` 2423–2454: `alloc_unchecked`.  `idx.try_into::<u32>()` fails only after the slot is
filled; slot tables of 2^32 entries are outside the model, so that error is not modelled. -/
def Heap.allocUnchecked (h : Heap) (obj : HeapObject) (bytes : Nat) : Except VmError HeapId × Heap :=
  match h.ensure (Heap.additionalAlloc bytes) [] with
  | (.error e, h1) => (.error e, h1)
  | (.ok _, h1) =>
    match h1.freeList with
    | idx :: rest =>
      let h2 := { h1 with freeList := rest }
      (.ok ⟨idx, h2.genAt idx⟩, h2.fillSlot idx obj bytes)
    | [] =>
      match h1.reserveNewSlot with
      | none => (.error .outOfMemory, h1)
      | some h2 =>
        let idx := h2.slots.length
        let h3 := { h2 with slots := h2.slots ++ [Slot.new], marks := h2.marks ++ [0] }
        (.ok ⟨idx, h3.genAt idx⟩, h3.fillSlot idx obj bytes)

/-- `heap.rs` 2410–2421: `update_slot_bytes`. -/
def Heap.updateSlotBytes (h : Heap) (idx newBytes : Nat) : Heap :=
  let old := ((h.slots[idx]?).map Slot.bytes).getD 0
  { h with
    usedBytes := if newBytes ≥ old then satAdd h.usedBytes (newBytes - old)
                 else h.usedBytes - (old - newBytes)
    slots := h.slots.modify idx (fun s => { s with bytes := newBytes }) }

/-! ## Stack roots and scopes -/

/-- `heap.rs` 2809–2846: `Scope::push_roots_with_extra_roots` (also `Heap::push_stack_root` 220–236,
which is the one-value case without extra roots). -/
def Heap.pushRoots (h : Heap) (vs : List Value) (extra : List HeapId) : Except VmError Unit × Heap :=
  if vs.isEmpty then (.ok (), h)
  else
    let n := h.rootStack.length + vs.length
    let g := growthBytes szValue h.caps.rootStack n
    if g ≠ 0 then
      match h.ensure (fun _ => g) (vs.flatMap Value.refs ++ extra) with
      | (.error e, h1) => (.error e, h1)
      | (.ok _, h1) =>
        match reserveTo h1.caps.rootStack n with
        | none => (.error .outOfMemory, h1)
        | some c =>
          (.ok (), { h1 with caps := { h1.caps with rootStack := c }, rootStack := h1.rootStack ++ vs })
    else (.ok (), { h with rootStack := h.rootStack ++ vs })

/-- `heap.rs` 2848–2868: `Scope::push_env_root`. -/
def Heap.pushEnvRoot (h : Heap) (env : HeapId) : Except VmError Unit × Heap :=
  let n := h.envRootStack.length + 1
  let g := growthBytes szId h.caps.envRootStack n
  if g ≠ 0 then
    match h.ensure (fun _ => g) [env] with
    | (.error e, h1) => (.error e, h1)
    | (.ok _, h1) =>
      match reserveTo h1.caps.envRootStack n with
      | none => (.error .outOfMemory, h1)
      | some c =>
        (.ok (), { h1 with caps := { h1.caps with envRootStack := c },
                           envRootStack := h1.envRootStack ++ [env] })
  else (.ok (), { h with envRootStack := h.envRootStack ++ [env] })

/-- `heap.rs` 2784–2791: dropping a `Scope` created when the stacks had lengths `n` and `m`
(also `truncate_stack_roots`, 239–241). -/
def Heap.truncateRoots (h : Heap) (n m : Nat) : Heap :=
  { h with rootStack := h.rootStack.take n, envRootStack := h.envRootStack.take m }

/-- `heap.rs` 199–207, 2784–2791, 2871–2880: run `body` inside a scope (`Heap::scope` /
`Scope::reborrow`), whose `Drop` runs on success and on error. -/
def Heap.inScope {α : Type} (h : Heap) (body : Heap → Except VmError α × Heap) :
    Except VmError α × Heap :=
  let r := body h
  (r.1, r.2.truncateRoots h.rootStack.length h.envRootStack.length)

/-! ## Persistent roots -/

/-- `heap.rs` 2544–2568: bytes and reservation for one more persistent root (table and free list). -/
def Heap.additionalPersistent (h : Heap) : Nat :=
  let n := h.persistentRoots.length + 1
  satAdd (satAdd 0 (growthBytes szOptValue h.caps.persistentRoots n))
    (growthBytes szU32 h.caps.persistentRootsFree n)

/-- `heap.rs` 455–480: `add_root` (and 529–552 `add_env_root`). -/
def Heap.addRoot (h : Heap) (v : Value) : Except VmError Nat × Heap :=
  match h.persistentRootsFree with
  | idx :: rest =>
    (.ok idx, { h with persistentRootsFree := rest,
                       persistentRoots := h.persistentRoots.set idx (some v) })
  | [] =>
    match h.ensure Heap.additionalPersistent v.refs with
    | (.error e, h1) => (.error e, h1)
    | (.ok _, h1) =>
      let n := h1.persistentRoots.length + 1
      match reserveTo h1.caps.persistentRoots n, reserveTo h1.caps.persistentRootsFree n with
      | some c1, some c2 =>
        (.ok h1.persistentRoots.length,
          { h1 with caps := { h1.caps with persistentRoots := c1, persistentRootsFree := c2 },
                    persistentRoots := (h1.persistentRoots ++ [none]).set h1.persistentRoots.length (some v) })
      | _, _ => (.error .outOfMemory, h1)

/-- `heap.rs` 483–488: `get_root`. -/
def Heap.getRoot (h : Heap) (id : Nat) : Option Value := (h.persistentRoots[id]?).join

/-- `heap.rs` 493–509: `set_root` (release build: no effect for an invalid or removed id). -/
def Heap.setRoot (h : Heap) (id : Nat) (v : Value) : Heap :=
  match h.persistentRoots[id]? with
  | some (some _) => { h with persistentRoots := h.persistentRoots.set id (some v) }
  | _ => h

/-- `heap.rs` 512–525: `remove_root` (release build). -/
def Heap.removeRoot (h : Heap) (id : Nat) : Heap :=
  match h.persistentRoots[id]? with
  | some (some _) => { h with persistentRoots := h.persistentRoots.set id none,
                              persistentRootsFree := id :: h.persistentRootsFree }
  | _ => h

/-! ## Symbols and the symbol registry -/

/-- `/repo/vm-js/src/string.rs` 82–92: comparison of string contents by UTF-16 code unit. -/
def cmpUnits : List Nat → List Nat → Ordering
  | [], [] => .eq
  | [], _ :: _ => .lt
  | _ :: _, [] => .gt
  | a :: as, b :: bs => if a < b then .lt else if b < a then .gt else cmpUnits as bs

/-- `heap.rs` 734–739: `get_string`. -/
def Heap.getString (h : Heap) (id : HeapId) : Option (List Nat) :=
  match h.get id with
  | some (.string u) => some u
  | _ => none

/-- `heap.rs` 2477–2498: `symbol_registry_binary_search` on `low..high`;
`Ok (Ok idx)` is `some (.inl idx)`, `Ok (Err idx)` is `some (.inr idx)`, `Err _` is `none`. -/
def Heap.registrySearch (h : Heap) (key : List Nat) (low high : Nat) : Option (Nat ⊕ Nat) :=
  if _hlt : low < high then
    let mid := low + (high - low) / 2
    match (h.symbolRegistry[mid]?).bind (fun e => h.getString e.1) with
    | none => none
    | some midKey =>
      match cmpUnits midKey key with
      | Ordering.lt => h.registrySearch key (mid + 1) high
      | Ordering.gt => h.registrySearch key low mid
      | Ordering.eq => some (.inl mid)
  else some (.inr low)
termination_by high - low

/-- `heap.rs` 2456–2461: `symbol_registry_get`. -/
def Heap.registryGet (h : Heap) (key : List Nat) : Option (Option HeapId) :=
  match h.registrySearch key 0 h.symbolRegistry.length with
  | none => none
  | some (.inl idx) => some ((h.symbolRegistry[idx]?).map Prod.snd)
  | some (.inr _) => some none

/-- The `?` operator: continue with the value and the current heap, or return the error (the heap may
have changed in either case). -/
def andThen {α β : Type} (r : Except VmError α × Heap) (k : α → Heap → Except VmError β × Heap) :
    Except VmError β × Heap :=
  match r.1 with
  | .error e => (.error e, r.2)
  | .ok a => k a r.2

/-- `heap.rs` 2601–2609: `reserve_for_symbol_registry_insert` after its limit check. -/
def Heap.reserveRegistry (h : Heap) : Except VmError Unit × Heap :=
  match reserveTo h.caps.registry (h.symbolRegistry.length + 1) with
  | none => (.error .outOfMemory, h)
  | some c => (.ok (), { h with caps := { h.caps with registry := c } })

/-- `heap.rs` 2592–2609: `reserve_for_symbol_registry_insert`, which may collect. -/
def Heap.reserveRegistryInsert (h : Heap) : Except VmError Unit × Heap :=
  andThen (h.ensure (fun h => growthBytes szRegistryEntry h.caps.registry
    (h.symbolRegistry.length + 1)) []) fun _ h => h.reserveRegistry

/-- `heap.rs` 2466–2474: the rest of `symbol_registry_insert`. -/
def Heap.registryInsertSorted (h : Heap) (key sym : HeapId) : Except VmError Unit × Heap :=
  match h.getString key with
  | none => (.error .invalidHandle, h)
  | some k =>
    match h.registrySearch k 0 h.symbolRegistry.length with
    | none => (.error .invalidHandle, h)
    | some (.inl _) => (.ok (), h)
    | some (.inr pos) =>
      (.ok (), { h with
        symbolRegistry := h.symbolRegistry.take pos ++ (key, sym) :: h.symbolRegistry.drop pos })

/-- `heap.rs` 2463–2475: `symbol_registry_insert`. -/
def Heap.registryInsert (h : Heap) (key sym : HeapId) : Except VmError Unit × Heap :=
  andThen h.reserveRegistryInsert fun _ h => h.registryInsertSorted key sym

/-- The root `new_symbol` pushes (`heap.rs` 2950–2953). -/
def descRoots : Option HeapId → List Value
  | some d => [.string d]
  | none => []

/-- `heap.rs` 2957–2962: taking the next symbol id (`wrapping_add`) and allocating. -/
def Heap.allocSymbol (h : Heap) (desc : Option HeapId) : Except VmError HeapId × Heap :=
  ({ h with nextSymbolId := (h.nextSymbolId + 1) % 2 ^ 64 } : Heap).allocUnchecked
    (.symbol h.nextSymbolId desc) 0

/-- `heap.rs` 2945–2963: `Scope::new_symbol`. -/
def Heap.newSymbol (h : Heap) (desc : Option HeapId) : Except VmError HeapId × Heap :=
  h.inScope fun h =>
    andThen (h.pushRoots (descRoots desc) []) fun _ h =>
    andThen (h.ensure (fun _ => 0) []) fun _ h =>
    h.allocSymbol desc

/-- `heap.rs` 1801–1811: bytes `symbol_for` may need. -/
def Heap.symbolForBytes (h : Heap) : Nat :=
  satAdd (satAdd 0 (Heap.additionalAlloc 0 h))
    (growthBytes szRegistryEntry h.caps.registry (h.symbolRegistry.length + 1))

/-- `heap.rs` 1813–1819: root the key, create the symbol, root it, insert. -/
def Heap.symbolForCreate (h : Heap) (key : HeapId) : Except VmError HeapId × Heap :=
  h.inScope fun h =>
    andThen (h.pushRoots [.string key] []) fun _ h =>
    andThen (h.newSymbol (some key)) fun sym h =>
    andThen (h.pushRoots [.symbol sym] []) fun _ h =>
    andThen (h.registryInsert key sym) fun _ h =>
    (.ok sym, h)

/-- `heap.rs` 1792–1820: `symbol_for`. -/
def Heap.symbolFor (h : Heap) (key : HeapId) : Except VmError HeapId × Heap :=
  match h.getString key with
  | none => (.error .invalidHandle, h)
  | some k =>
    match h.registryGet k with
    | none => (.error .invalidHandle, h)
    | some (some sym) => (.ok sym, h)
    | some none =>
      andThen (h.ensure Heap.symbolForBytes [key]) fun _ h => h.symbolForCreate key

/-! ## Allocation entry points -/

/-- `heap.rs` 2911–2926: `alloc_string_from_code_units`; `heap_size_bytes_for_len` is 2 bytes per unit
(`string.rs` 50–56). -/
def Heap.allocString (h : Heap) (units : List Nat) : Except VmError HeapId × Heap :=
  andThen (h.ensure (fun _ => satMul units.length 2) []) fun _ h =>
  h.allocUnchecked (.string units) (satMul units.length 2)

/-- `mem::size_of::<PropertyEntry>()`. -/
def szPropertyEntry : Nat := 88

/-- The roots `alloc_object_with_properties` pushes (`heap.rs` 2993–3016). -/
def objectRoots (proto : Option HeapId) (props : List PropertyEntry) : List Value :=
  (match proto with | some p => [Value.object p] | none => []) ++
  props.flatMap fun p =>
    (match p.key with | .string s => Value.string s | .symbol s => Value.symbol s) ::
    (match p.kind with | .data v _ => [v] | .accessor g s => [g, s])

/-- `heap.rs` 2984–3025: `alloc_object_with_properties`. -/
def Heap.allocObject (h : Heap) (proto : Option HeapId) (props : List PropertyEntry) :
    Except VmError HeapId × Heap :=
  h.inScope fun h =>
    andThen (h.pushRoots (objectRoots proto props) []) fun _ h =>
    andThen (h.ensure (fun _ => satMul props.length szPropertyEntry) []) fun _ h =>
    h.allocUnchecked (.object ⟨proto, true, props, none⟩) (satMul props.length szPropertyEntry)

/-- The variant of a cell (never changed by mutation). -/
def HeapObject.tag : HeapObject → Nat
  | .string _ => 0
  | .symbol _ _ => 1
  | .object _ => 2
  | .function _ => 3
  | .env _ => 4
  | .promise _ => 5

/-- The `[[Prototype]]` of an object-like cell. -/
def HeapObject.proto? : HeapObject → Option HeapId
  | .object b => b.prototype
  | .function f => f.base.prototype
  | .promise p => p.base.prototype
  | _ => none

/-- In-place mutation of a live object, function, environment or promise cell (adding or replacing a
property, a reaction, a binding, settling a promise, changing extensibility): the common shape of
`define_property` 2140–2343, `promise_append_reaction` 1689–1785, `promise_settle_and_take_reactions`,
`env_add_binding` 2079–2137, `object_delete_own_property` 911–1041: compute the new byte size, make room
for the growth, store, `update_slot_bytes`.  What is stored is a parameter.  None of these functions
changes the variant of a cell or its prototype, and strings and symbols are immutable, so other writes
are refused. -/
def Heap.writeCell (h : Heap) (id : HeapId) (obj : HeapObject) (bytes : Nat) :
    Except VmError Unit × Heap :=
  match h.get id with
  | none => (.error .invalidHandle, h)
  | some cur =>
    if cur.tag < 2 ∨ cur.tag ≠ obj.tag ∨ cur.proto? ≠ obj.proto? then (.error .invalidHandle, h)
    else
      let old := ((h.slots[id.index]?).map Slot.bytes).getD 0
      match h.ensure (fun _ => bytes - old) [] with
      | (.error e, h) => (.error e, h)
      | (.ok _, h) =>
        match (h.slots[id.index]?).bind Slot.value with
        | none => (.error .invalidHandle, h)
        | some _ =>
          (.ok (), ({ h with slots := h.slots.modify id.index (fun s => { s with value := some obj }) }
            : Heap).updateSlotBytes id.index bytes)

/-! ## Prototype chains -/

/-- `heap.rs` 23: `MAX_PROTOTYPE_CHAIN`. -/
def maxPrototypeChain : Nat := 10000

/-- `heap.rs` 763–770: `get_object_base`. -/
def Heap.objectBase (h : Heap) (id : HeapId) : Option ObjectBase :=
  match h.get id with
  | some (.object b) => some b
  | some (.function f) => some f.base
  | some (.promise p) => some p.base
  | _ => none

/-- Replace the `ObjectBase` of an object-like cell. -/
def HeapObject.withBase : HeapObject → ObjectBase → HeapObject
  | .object _, b => .object b
  | .function f, b => .function { f with base := b }
  | .promise p, b => .promise { p with base := b }
  | o, _ => o

/-- `heap.rs` 848–862: the walk along the new prototype's chain. -/
def Heap.protoWalk (h : Heap) (obj : HeapId) (steps : Nat) (visited : List HeapId) :
    Option HeapId → Except VmError Unit
  | none => .ok ()
  | some p =>
    if _hs : steps ≥ maxPrototypeChain then .error .prototypeChainTooDeep
    else if p ∈ visited then .error .prototypeCycle
    else if p = obj then .error .prototypeCycle
    else
      match h.objectBase p with
      | none => .error .invalidHandle
      | some b => h.protoWalk obj (steps + 1) (p :: visited) b.prototype
termination_by maxPrototypeChain - steps

/-- `heap.rs` 829–866: `object_set_prototype`. -/
def Heap.setPrototype (h : Heap) (obj : HeapId) (proto : Option HeapId) :
    Except VmError Unit × Heap :=
  match h.objectBase obj with
  | none => (.error .invalidHandle, h)
  | some b =>
    if proto = some obj then (.error .prototypeCycle, h)
    else
      match h.protoWalk obj 0 [] proto with
      | .error e => (.error e, h)
      | .ok _ =>
        (.ok (), { h with slots := h.slots.modify obj.index (fun s => { s with value := s.value.map (·.withBase { b with prototype := proto }) }) })

/-! ## Histories -/

/-- One call of the public API. -/
inductive Op where
  | collect (extra : List HeapId)
  | allocString (units : List Nat)
  | newSymbol (desc : Option HeapId)
  | allocObject (proto : Option HeapId) (props : List PropertyEntry)
  /-- allocation of an array, function, environment or promise cell, whose contents the caller has rooted -/
  | allocCell (obj : HeapObject) (bytes : Nat)
  | writeCell (id : HeapId) (obj : HeapObject) (bytes : Nat)
  | setPrototype (obj : HeapId) (proto : Option HeapId)
  | pushRoots (vs : List Value)
  | pushEnvRoot (env : HeapId)
  | truncateRoots (n m : Nat)
  | addRoot (v : Value)
  | setRoot (id : Nat) (v : Value)
  | removeRoot (id : Nat)
  | symbolFor (key : HeapId)

/-- The heap after one API call, whether it succeeded or returned an error. -/
def Heap.step (h : Heap) : Op → Heap
  | .collect extra => h.collect extra
  | .allocString u => (h.allocString u).2
  | .newSymbol d => (h.newSymbol d).2
  | .allocObject p ps => (h.allocObject p ps).2
  | .allocCell o b => (h.allocUnchecked o b).2
  | .writeCell id o b => (h.writeCell id o b).2
  | .setPrototype o p => (h.setPrototype o p).2
  | .pushRoots vs => (h.pushRoots vs []).2
  | .pushEnvRoot e => (h.pushEnvRoot e).2
  | .truncateRoots n m => h.truncateRoots n m
  | .addRoot v => (h.addRoot v).2
  | .setRoot id v => h.setRoot id v
  | .removeRoot id => h.removeRoot id
  | .symbolFor k => (h.symbolFor k).2

/-- The heap after a sequence of API calls. -/
def Heap.run (h : Heap) (ops : List Op) : Heap := ops.foldl Heap.step h

/-- Well-bracketed use of scopes: code can only create a scope with `Heap::scope` / `Scope::reborrow`
(`heap.rs` 199–207, 2871–2880) and the borrow checker makes it end, via `Drop` (2783–2791), after
everything done inside.  `fail` is an early return with `?`: the rest is skipped, but enclosing scopes are
still dropped. -/
inductive Prog where
  | skip
  | call (op : Op)
  | fail
  | seq (p q : Prog)
  | scope (p : Prog)

/-- Running a program; the flag tells whether it finished without `fail`. -/
def Prog.exec : Prog → Heap → Bool × Heap
  | .skip, h => (true, h)
  | .call op, h => (true, h.step op)
  | .fail, h => (false, h)
  | .seq p q, h =>
    let r := p.exec h
    if r.1 then q.exec r.2 else r
  | .scope p, h =>
    let r := p.exec h
    (r.1, r.2.truncateRoots h.rootStack.length h.envRootStack.length)

end Verif.Heap
