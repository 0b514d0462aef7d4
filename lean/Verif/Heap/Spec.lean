import Verif.Heap.Model

/-!
# Specification of the heap

Stated without the tracer: which handles a cell *contains*, what is reachable, what the byte counter
should be, and what a persistent root table is.
-/

namespace Verif.Heap

/-- A value that is the handle `i`. -/
inductive Value.Is (i : HeapId) : Value → Prop
  | string : Value.Is i (.string i)
  | symbol : Value.Is i (.symbol i)
  | object : Value.Is i (.object i)

/-- A property key that is the handle `i`. -/
inductive PropertyKey.Is (i : HeapId) : PropertyKey → Prop
  | string : PropertyKey.Is i (.string i)
  | symbol : PropertyKey.Is i (.symbol i)

/-- The handle `i` occurs in one of the fields of an object base. -/
inductive ObjectBase.Contains (i : HeapId) (b : ObjectBase) : Prop
  | prototype (h : b.prototype = some i)
  | key (p : PropertyEntry) (hp : p ∈ b.properties) (h : p.key.Is i)
  | value (p : PropertyEntry) (hp : p ∈ b.properties) (v : Value) (w : Bool)
      (hk : p.kind = .data v w) (h : v.Is i)
  | getter (p : PropertyEntry) (hp : p ∈ b.properties) (g s : Value)
      (hk : p.kind = .accessor g s) (h : g.Is i)
  | setter (p : PropertyEntry) (hp : p ∈ b.properties) (g s : Value)
      (hk : p.kind = .accessor g s) (h : s.Is i)

/-- The handle `i` occurs in a promise reaction. -/
inductive PromiseReaction.Contains (i : HeapId) (r : PromiseReaction) : Prop
  | capPromise (c : PromiseCapability) (hc : r.capability = some c) (h : c.promise.Is i)
  | capResolve (c : PromiseCapability) (hc : r.capability = some c) (h : c.resolve.Is i)
  | capReject (c : PromiseCapability) (hc : r.capability = some c) (h : c.reject.Is i)
  | handler (h : r.handler = some i)

/-- The handle `i` occurs in some field of the heap cell: one constructor per handle-carrying field. -/
inductive HeapObject.Contains (i : HeapId) : HeapObject → Prop
  | symbolDescription (n : Nat) : Contains i (.symbol n (some i))
  | objectField (b : ObjectBase) (h : b.Contains i) : Contains i (.object b)
  | functionBase (f : JsFunction) (h : f.base.Contains i) : Contains i (.function f)
  | functionName (f : JsFunction) (h : f.name = i) : Contains i (.function f)
  | functionPromise (f : JsFunction) (h : f.data = .promiseResolvingFunction i) :
      Contains i (.function f)
  | functionOnFinally (f : JsFunction) (a c : Value) (hd : f.data = .promiseFinallyHandler a c)
      (h : a.Is i) : Contains i (.function f)
  | functionConstructor (f : JsFunction) (a c : Value) (hd : f.data = .promiseFinallyHandler a c)
      (h : c.Is i) : Contains i (.function f)
  | functionThunk (f : JsFunction) (v : Value) (hd : f.data = .promiseFinallyThunk v) (h : v.Is i) :
      Contains i (.function f)
  | functionBoundTarget (f : JsFunction) (h : f.boundTarget = some i) : Contains i (.function f)
  | functionBoundThis (f : JsFunction) (v : Value) (hv : f.boundThis = some v) (h : v.Is i) :
      Contains i (.function f)
  | functionNewTarget (f : JsFunction) (v : Value) (hv : f.boundNewTarget = some v) (h : v.Is i) :
      Contains i (.function f)
  | functionArg (f : JsFunction) (vs : List Value) (hvs : f.boundArgs = some vs) (v : Value)
      (hv : v ∈ vs) (h : v.Is i) : Contains i (.function f)
  | functionSlot (f : JsFunction) (vs : List Value) (hvs : f.nativeSlots = some vs) (v : Value)
      (hv : v ∈ vs) (h : v.Is i) : Contains i (.function f)
  | functionRealm (f : JsFunction) (h : f.realm = some i) : Contains i (.function f)
  | functionEnv (f : JsFunction) (h : f.closureEnv = some i) : Contains i (.function f)
  | envOuter (bs : List EnvBinding) (t n : Option Value) :
      Contains i (.env (.declarative (some i) bs t n))
  | envName (o : Option HeapId) (bs : List EnvBinding) (t n : Option Value) (b : EnvBinding)
      (hb : b ∈ bs) (h : b.name = some i) : Contains i (.env (.declarative o bs t n))
  | envValue (o : Option HeapId) (bs : List EnvBinding) (t n : Option Value) (b : EnvBinding)
      (hb : b ∈ bs) (h : b.value.Is i) : Contains i (.env (.declarative o bs t n))
  | envThis (o : Option HeapId) (bs : List EnvBinding) (v : Value) (n : Option Value) (h : v.Is i) :
      Contains i (.env (.declarative o bs (some v) n))
  | envNewTarget (o : Option HeapId) (bs : List EnvBinding) (t : Option Value) (v : Value)
      (h : v.Is i) : Contains i (.env (.declarative o bs t (some v)))
  | objectEnvOuter (b : HeapId) (w : Bool) : Contains i (.env (.objectEnv (some i) b w))
  | objectEnvObject (o : Option HeapId) (w : Bool) : Contains i (.env (.objectEnv o i w))
  | promiseBase (p : JsPromise) (h : p.base.Contains i) : Contains i (.promise p)
  | promiseResult (p : JsPromise) (v : Value) (hv : p.result = some v) (h : v.Is i) :
      Contains i (.promise p)
  | promiseFulfill (p : JsPromise) (rs : List PromiseReaction) (hrs : p.fulfillReactions = some rs)
      (r : PromiseReaction) (hr : r ∈ rs) (h : r.Contains i) : Contains i (.promise p)
  | promiseReject (p : JsPromise) (rs : List PromiseReaction) (hrs : p.rejectReactions = some rs)
      (r : PromiseReaction) (hr : r ∈ rs) (h : r.Contains i) : Contains i (.promise p)

/-- `i` is one of the roots the collector is told about. -/
inductive Heap.IsRoot (h : Heap) (extra : List HeapId) (i : HeapId) : Prop
  | extra (hm : i ∈ extra)
  | stack (v : Value) (hm : v ∈ h.rootStack) (hv : v.Is i)
  | envStack (hm : i ∈ h.envRootStack)
  | persistent (v : Value) (hm : some v ∈ h.persistentRoots) (hv : v.Is i)
  | registryKey (s : HeapId) (hm : (i, s) ∈ h.symbolRegistry)
  | registrySymbol (k : HeapId) (hm : (k, i) ∈ h.symbolRegistry)

/-- `i` is a valid handle (`get` returns a cell) that can be reached from the roots by following
handles stored in cells. -/
inductive Heap.Reachable (h : Heap) (extra : List HeapId) : HeapId → Prop
  | root {i : HeapId} (hr : h.IsRoot extra i) (hl : (h.get i).isSome) : Reachable h extra i
  | step {i j : HeapId} {o : HeapObject} (hi : Reachable h extra i) (ho : h.get i = some o)
      (hc : o.Contains j) (hl : (h.get j).isSome) : Reachable h extra j

/-- Total payload bytes of the cells currently allocated. -/
def Heap.liveBytes (h : Heap) : Nat :=
  (h.slots.map fun s => if s.value.isSome then s.bytes else 0).sum

/-- The invariant every heap satisfies between operations: mark bytes are all clear and as many as
slots, free slots are exactly those on the free list (each once) and carry no bytes, the byte counter
is exact and generations are `u32`s. -/
structure Heap.Ok (h : Heap) : Prop where
  marksLen : h.marks.length = h.slots.length
  marksClear : ∀ m ∈ h.marks, m = 0
  freeNodup : h.freeList.Nodup
  freeIff : ∀ idx, idx ∈ h.freeList ↔ ∃ s, h.slots[idx]? = some s ∧ s.value = none
  freeBytes : ∀ s ∈ h.slots, s.value = none → s.bytes = 0 ∧ s.hostSlots = none
  used : h.usedBytes = h.liveBytes
  gens : ∀ s ∈ h.slots, s.generation < u32Mod

/-- The heap between operations also respects the configured limit. -/
def Heap.WithinLimit (h : Heap) : Prop := h.estimated ≤ h.maxBytes

/-- No dangling handles: every handle stored in an allocated cell, and every root, is valid. -/
structure Heap.Closed (h : Heap) : Prop where
  cells : ∀ i o j, h.get i = some o → o.Contains j → (h.get j).isSome
  roots : ∀ i, h.IsRoot [] i → (h.get i).isSome

/-- The prototype chain starting at `i` ends after finitely many steps. -/
inductive Heap.ProtoEnds (h : Heap) : HeapId → Prop
  | intro (i : HeapId) (hn : ∀ b p, h.objectBase i = some b → b.prototype = some p → ProtoEnds h p) :
      ProtoEnds h i

/-- What a caller of the API must guarantee: handles it passes are valid, and where the callee may
collect before storing them, they are reachable from the roots. -/
def Op.Pre (h : Heap) : Op → Prop
  | .collect _ => True
  | .allocString _ => True
  | .newSymbol d => ∀ i, d = some i → ∃ u, h.get i = some (.string u)
  | .allocObject p ps =>
      ∀ i, (HeapObject.object ⟨p, true, ps, none⟩).Contains i → (h.get i).isSome
  | .allocCell o _ => ∀ i, o.Contains i → h.Reachable [] i
  | .writeCell id o _ => h.Reachable [] id ∧ ∀ i, o.Contains i → h.Reachable [] i
  | .setPrototype _ _ => True
  | .pushRoots vs => ∀ v ∈ vs, ∀ i, v.Is i → (h.get i).isSome
  | .pushEnvRoot e => (h.get e).isSome
  | .truncateRoots _ _ => True
  | .addRoot v => ∀ i, v.Is i → (h.get i).isSome
  | .setRoot _ v => ∀ i, v.Is i → (h.get i).isSome
  | .removeRoot _ => True
  | .symbolFor _ => True

/-- Every call of the history respects its precondition in the state in which it is made. -/
def Heap.Legal (h : Heap) : List Op → Prop
  | [] => True
  | op :: ops => op.Pre h ∧ Heap.Legal (h.step op) ops

/-- The program drops roots only by closing scopes. -/
def Prog.Scoped : Prog → Prop
  | .skip => True
  | .call op => ∀ n m, op ≠ .truncateRoots n m
  | .fail => True
  | .seq p q => p.Scoped ∧ q.Scoped
  | .scope p => p.Scoped

/-- Every call the program makes respects its precondition. -/
def Prog.Legal : Prog → Heap → Prop
  | .skip, _ => True
  | .call op, h => op.Pre h
  | .fail, _ => True
  | .seq p q, h => p.Legal h ∧ ((p.exec h).1 = true → q.Legal (p.exec h).2)
  | .scope p, h => p.Legal h

open Classical in
/-- Total size of the allocated cells that are not reachable. -/
noncomputable def Heap.garbageBytes (h : Heap) (extra : List HeapId) : Nat :=
  ((List.range h.slots.length).map fun idx =>
    match h.slots[idx]? with
    | some s => if s.value.isSome ∧ ¬ h.Reachable extra ⟨idx, s.generation⟩ then s.bytes else 0
    | none => 0).sum

/-- `p` is on the prototype chain of `i` (or is `i`). -/
inductive Heap.OnChain (h : Heap) : HeapId → HeapId → Prop
  | self (i : HeapId) : OnChain h i i
  | next {i p q : HeapId} {b : ObjectBase} (hb : h.objectBase i = some b) (hp : b.prototype = some p)
      (hq : OnChain h p q) : OnChain h i q

end Verif.Heap
