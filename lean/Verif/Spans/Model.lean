import Mathlib.Data.Prod.Lex

/-!
# Model of the span index of hir-js

hir-js/src/span_map.rs: `SpanIndex<T>`, with which tools find the innermost expression, statement,
definition or type at an offset. Offsets are natural numbers here (`u32` in the code; nothing is
added to them). A binary search over a sorted vector is modelled by a search from its front.
-/

namespace Verif.Spans

/-- span_map.rs 417-427 `SpanEntry`, `ActiveSpan` (diagnostics/src/lib.rs 58-66 `TextRange`) -/
structure Span (T : Type) where
  start : Nat
  stop : Nat
  id : T
  deriving DecidableEq, Repr

variable {T : Type}

/-- lib.rs 69-71 `len`; subtraction saturates -/
def Span.len (s : Span T) : Nat := s.stop - s.start

/-- lib.rs 79-81 `is_empty` -/
def Span.isEmpty (s : Span T) : Bool := s.stop ≤ s.start

/-- span_map.rs 445-454: what `ActiveSpan::cmp` compares, in order -/
def Span.key (s : Span T) : Nat ×ₗ Nat ×ₗ T ×ₗ Nat := toLex (s.len, toLex (s.start, toLex (s.id, s.stop)))

theorem Span.key_injective : Function.Injective (Span.key (T := T)) := by
  intro a b h
  cases a
  cases b
  simp only [Span.key, EmbeddingLike.apply_eq_iff_eq, Prod.mk.injEq] at h
  simp [h]

/-- span_map.rs 445-460 `Ord for ActiveSpan` -/
instance [LinearOrder T] : LinearOrder (Span T) := LinearOrder.lift' Span.key Span.key_injective

/-- span_map.rs 462-467 `Segment` -/
structure Segment (T : Type) where
  start : Nat
  stop : Nat
  best : Span T
  deriving DecidableEq, Repr

/-- span_map.rs 475-479 `EventKind`, in order -/
inductive EventKind where
  | stop | start
  deriving DecidableEq, Repr

def EventKind.rank : EventKind → Nat
  | .stop => 0
  | .start => 1

/-- span_map.rs 481-486 `Event` -/
structure Event (T : Type) where
  pos : Nat
  kind : EventKind
  span : Span T
  deriving DecidableEq, Repr

/-- span_map.rs 288-300 `SpanIndex`; the map `by_id` is a function -/
structure Index (T : Type) where
  spans : List (Span T) := []
  segments : List (Segment T) := []
  empties : List (Span T) := []
  byId : T → Option (Span T) := fun _ => none

/-- Inserting into a sorted list, before what is not smaller. -/
def insertBy {A : Type} (le : A → A → Bool) (a : A) : List A → List A
  | [] => [a]
  | b :: bs => if le a b then a :: b :: bs else b :: insertBy le a bs

/-- `slice::sort_by`, a stable sort -/
def sortBy {A : Type} (le : A → A → Bool) : List A → List A
  | [] => []
  | a :: as => insertBy le a (sortBy le as)

section
variable [LinearOrder T]

/-- span_map.rs 333-346 `record_by_id` -/
def record (m : T → Option (Span T)) (s : Span T) : T → Option (Span T) := fun i =>
  if i = s.id then
    match m i with
    | some best => if s < best then some s else some best
    | none => some s
  else m i

/-- span_map.rs 317-331 `add` -/
def Index.add (x : Index T) (s : Span T) : Index T :=
  let x := { x with byId := record x.byId s }
  if s.isEmpty then { x with empties := x.empties ++ [s] } else { x with spans := x.spans ++ [s] }

/-- span_map.rs 488-510: the events of the spans -/
def events : List (Span T) → List (Event T)
  | [] => []
  | s :: ss =>
    if s.isEmpty then events ss
    else ⟨s.start, .start, s⟩ :: ⟨s.stop, .stop, s⟩ :: events ss

/-- span_map.rs 512-517: the order in which events are sorted -/
def Event.le (a b : Event T) : Bool :=
  if a.pos ≠ b.pos then a.pos < b.pos
  else if a.kind ≠ b.kind then a.kind.rank < b.kind.rank
  else a.span ≤ b.span

/-- `BTreeSet::insert`, the set being the sorted list of its elements -/
def insertSet (s : Span T) : List (Span T) → List (Span T)
  | [] => [s]
  | a :: as => if s < a then s :: a :: as else if s = a then a :: as else a :: insertSet s as

/-- span_map.rs 559-572 `push_segment`; the segments are listed from the last to the first -/
def pushSegment (segs : List (Segment T)) (start stop : Nat) (best : Span T) : List (Segment T) :=
  match segs with
  | prev :: rest =>
    if prev.best = best ∧ prev.stop = start then { prev with stop := stop } :: rest
    else ⟨start, stop, best⟩ :: segs
  | [] => [⟨start, stop, best⟩]

/-- span_map.rs 525-555: the loop of `build_segments`. The first argument bounds the number of rounds
and is the number of events at first; the result lists the segments from the last to the first. -/
def sweep : Nat → List (Event T) → List (Span T) → List (Segment T) → Option Nat → Option (Span T) →
    List (Segment T)
  | 0, _, _, segs, _, _ => segs
  | _, [], _, segs, _, _ => segs
  | n + 1, e :: es, active, segs, prev, best =>
    let pos := e.pos
    let segs :=
      match prev, best with
      | some p, some b => if p < pos then pushSegment segs p pos b else segs
      | _, _ => segs
    let now := (e :: es).takeWhile fun x => x.pos = pos
    let active := now.foldl (fun a x => if x.kind = .stop then a.erase x.span else a) active
    let active := now.foldl (fun a x => if x.kind = .start then insertSet x.span a else a) active
    sweep n ((e :: es).dropWhile fun x => x.pos = pos) active segs (some pos) active.head?

/-- span_map.rs 488-557 `build_segments` -/
def buildSegments (spans : List (Span T)) : List (Segment T) :=
  let es := sortBy Event.le (events spans)
  (sweep es.length es [] [] none none).reverse

/-- span_map.rs 361-367 `finalize`: the order by which the spans are sorted -/
def entryLe (a b : Span T) : Bool :=
  if a.start ≠ b.start then a.start < b.start
  else if a.stop ≠ b.stop then a.stop < b.stop
  else a.id ≤ b.id

/-- span_map.rs 361-367 `finalize` -/
def Index.finalize (x : Index T) : Index T :=
  let spans := sortBy entryLe x.spans
  { x with
    spans := spans
    segments := buildSegments spans
    empties := sortBy (fun a b => a ≤ b) x.empties }

/-- span_map.rs 351-359 `from_spans` -/
def Index.ofSpans (ss : List (Span T)) : Index T :=
  (ss.foldl Index.add {}).finalize

/-- span_map.rs 379-391: the least of the empty spans at the offset -/
def bestEmpty (es : List (Span T)) (offset : Nat) : Option (Span T) :=
  ((es.dropWhile fun s => s.start < offset).takeWhile fun s => s.start = offset).foldl
    (fun best s =>
      match best with
      | some b => if s < b then some s else some b
      | none => some s) none

/-- span_map.rs 374-378: the span of the segment at the offset -/
def lookup (segs : List (Segment T)) (offset : Nat) : Option (Span T) :=
  match segs.dropWhile fun g => g.stop ≤ offset with
  | g :: _ => if g.start ≤ offset then some g.best else none
  | [] => none

/-- span_map.rs 373-398 `query_span` -/
def Index.query (x : Index T) (offset : Nat) : Option (Span T) :=
  match lookup x.segments offset, bestEmpty x.empties offset with
  | none, none => none
  | some b, none => some b
  | none, some e => some e
  | some b, some e => some (min b e)

/-- span_map.rs 400-402 `span_of` -/
def Index.spanOf (x : Index T) (i : T) : Option (Span T) := x.byId i

end

/-! ## Definitions -/

/-- span_map.rs 21-37 `DefSpanKey`: the rank of the kind (49-79 `def_kind_rank`), then the
definition -/
abbrev DefKey := Nat ×ₗ Nat

/-- span_map.rs 85-97 `SpanMap`, its part about definitions -/
structure Defs where
  index : Index DefKey := {}
  keys : Nat → Option DefKey := fun _ => none

/-- span_map.rs 112-116 `add_def` -/
def Defs.add (x : Defs) (start stop rank d : Nat) : Defs :=
  { index := x.index.add ⟨start, stop, toLex (rank, d)⟩
    keys := fun i => if i = d then some (toLex (rank, d)) else x.keys i }

def Defs.finalize (x : Defs) : Defs := { x with index := x.index.finalize }

/-- span_map.rs 236-245 `def_span_at_offset`, `def_at_offset` -/
def Defs.at (x : Defs) (offset : Nat) : Option (Nat × Nat × Nat) :=
  (x.index.query offset).map fun s => (s.start, s.stop, (ofLex s.id).2)

/-- span_map.rs 251-256 `def_span` -/
def Defs.spanOf (x : Defs) (d : Nat) : Option (Nat × Nat) :=
  match x.keys d with
  | some k => (x.index.spanOf k).map fun s => (s.start, s.stop)
  | none => none

end Verif.Spans
