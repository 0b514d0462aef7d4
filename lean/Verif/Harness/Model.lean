import Verif.Values.Model
/-!
# Diagnostics ordering, test shards, expectation manifests and source locations

Models `diagnostics/src/lib.rs`, `typecheck-ts/src/codes.rs` (normalisation),
`conformance-harness/src/shard.rs`, `conformance-harness/src/expectations.rs` and
`parse-js/src/loc.rs`.

Strings are lists of their UTF-8 bytes: Rust compares `str` by bytes and the code modelled here never
looks inside them otherwise (`/` is the single byte 47).
-/

namespace Verif.Harness

/-- A string as its bytes. -/
abbrev Str := List Nat

/-- `str::cmp` and `Vec::cmp`/slice `cmp`: element by element, a proper prefix is smaller. -/
def cmpList {α : Type} (cmp : α → α → Ordering) : List α → List α → Ordering
  | [], [] => .eq
  | [], _ :: _ => .lt
  | _ :: _, [] => .gt
  | a :: as, b :: bs => (cmp a b).then (cmpList cmp as bs)

/-- `str::cmp`. -/
def cmpStr : Str → Str → Ordering := cmpList (fun a b : Nat => compare a b)

/-- `slice::sort_by` is a stable sort; the model is stable insertion: an element goes before the first
element it is not greater than. -/
def insertBy {α : Type} (cmp : α → α → Ordering) (x : α) : List α → List α
  | [] => [x]
  | y :: ys => if cmp x y = .gt then y :: insertBy cmp x ys else x :: y :: ys

/-- `slice::sort_by`. -/
def sortBy {α : Type} (cmp : α → α → Ordering) : List α → List α
  | [] => []
  | x :: xs => insertBy cmp x (sortBy cmp xs)

/-! ## Diagnostics -/

/-- `diagnostics/src/lib.rs` 57–62, 64–82: `TextRange` (offsets are `u32`). -/
structure TextRange where
  start : Nat
  stop : Nat
deriving DecidableEq

/-- `diagnostics/src/lib.rs` 87–90: `Span`. -/
structure Span where
  file : Nat
  range : TextRange
deriving DecidableEq

/-- `diagnostics/src/lib.rs` 106–111: `Severity`. -/
inductive Severity where
  | error | warning | note | help
deriving DecidableEq

/-- `diagnostics/src/lib.rs` 133–137: `Label`. -/
structure Label where
  span : Span
  message : Str
  isPrimary : Bool
deriving DecidableEq

/-- `diagnostics/src/lib.rs` 224–231: `Diagnostic`. -/
structure Diagnostic where
  code : Str
  severity : Severity
  message : Str
  primary : Span
  labels : List Label
  notes : List Str
deriving DecidableEq

/-- `bool::cmp`: `false < true`. -/
def cmpBool : Bool → Bool → Ordering
  | false, true => .lt
  | true, false => .gt
  | _, _ => .eq

/-- `diagnostics/src/lib.rs` 419–426: `severity_rank`. -/
def severityRank : Severity → Nat
  | .error => 0
  | .warning => 1
  | .note => 2
  | .help => 3

/-- `diagnostics/src/lib.rs` 410–417: `label_cmp`. -/
def labelCmp (a b : Label) : Ordering :=
  (cmpBool b.isPrimary a.isPrimary).then
  ((compare a.span.file b.span.file).then
  ((compare a.span.range.start b.span.range.start).then
  ((compare a.span.range.stop b.span.range.stop).then
  (cmpStr a.message b.message))))

/-- `diagnostics/src/lib.rs` 388–394: the loop over the zipped lists. -/
def cmpZip : List Label → List Label → Ordering
  | a :: as, b :: bs => if labelCmp a b = .eq then cmpZip as bs else labelCmp a b
  | _, _ => .eq

/-- `diagnostics/src/lib.rs` 381–396: `compare_labels`. -/
def compareLabels (a b : List Label) : Ordering :=
  let as := sortBy labelCmp a
  let bs := sortBy labelCmp b
  (compare as.length bs.length).then (cmpZip as bs)

/-- `diagnostics/src/lib.rs` 398–408: `compare_notes`. -/
def compareNotes (a b : List Str) : Ordering :=
  let as := sortBy cmpStr a
  let bs := sortBy cmpStr b
  (compare as.length bs.length).then (cmpList cmpStr as bs)

/-- `diagnostics/src/lib.rs` 360–371: `diagnostic_cmp`. -/
def diagnosticCmp (a b : Diagnostic) : Ordering :=
  (compare a.primary.file b.primary.file).then
  ((compare a.primary.range.start b.primary.range.start).then
  ((compare a.primary.range.stop b.primary.range.stop).then
  ((cmpStr a.code b.code).then
  ((compare (severityRank a.severity) (severityRank b.severity)).then
  ((cmpStr a.message b.message).then
  ((compareLabels a.labels b.labels).then
  (compareNotes a.notes b.notes)))))))

/-- `diagnostics/src/lib.rs` 373–375: `sort_diagnostics`. -/
def sortDiagnostics (ds : List Diagnostic) : List Diagnostic := sortBy diagnosticCmp ds

/-- `diagnostics/src/lib.rs` 377–379: `sort_labels`. -/
def sortLabels (ls : List Label) : List Label := sortBy labelCmp ls

/-- `typecheck-ts/src/codes.rs` 76–79: `normalize_diagnostic`. -/
def normalizeDiagnostic (d : Diagnostic) : Diagnostic :=
  { d with labels := sortLabels d.labels, notes := sortBy cmpStr d.notes }

/-- `typecheck-ts/src/codes.rs` 68–73: `normalize_diagnostics`. -/
def normalizeDiagnostics (ds : List Diagnostic) : List Diagnostic :=
  sortDiagnostics (ds.map normalizeDiagnostic)

/-- The derived `Ord` of `Span` (`diagnostics/src/lib.rs` 86–90) and `TextRange`: fields in order. -/
def spanCmp (a b : Span) : Ordering :=
  (compare a.file b.file).then
  ((compare a.range.start b.range.start).then (compare a.range.stop b.range.stop))

/-- `diagnostics/src/lib.rs` 163–171: `impl Ord for Label`. -/
def labelOrd (a b : Label) : Ordering :=
  (cmpBool b.isPrimary a.isPrimary).then
  ((spanCmp a.span b.span).then (cmpStr a.message b.message))

/-- `diagnostics/src/lib.rs` 303–334: `impl Ord for Diagnostic` through `sort_key`, a tuple compared
lexicographically (the derived `Ord` of `Severity` follows the order of its variants). -/
def diagnosticOrd (a b : Diagnostic) : Ordering :=
  (compare (severityRank a.severity) (severityRank b.severity)).then
  ((cmpStr a.code b.code).then
  ((spanCmp a.primary b.primary).then
  ((cmpStr a.message b.message).then
  ((cmpList labelOrd a.labels b.labels).then
  (cmpList cmpStr a.notes b.notes)))))

/-! ## Shards -/

/-- `shard.rs` 6–9: `Shard`. -/
structure Shard where
  index : Nat
  total : Nat
deriving DecidableEq

/-- The number of values of a 64-bit `usize`. -/
def usizeLim : Nat := 2 ^ 64

/-- One turn of the loop of `usize::from_str`: `checked_mul(10)`, then `checked_add(digit)`. -/
def usizeStep (acc c : Nat) : Option Nat :=
  if 48 ≤ c ∧ c ≤ 57 then
    if acc * 10 < usizeLim then
      if acc * 10 + (c - 48) < usizeLim then some (acc * 10 + (c - 48)) else none
    else none
  else none

/-- The loop of `usize::from_str`. -/
def usizeLoop : Nat → Str → Option Nat
  | acc, [] => some acc
  | acc, c :: cs =>
    match usizeStep acc c with
    | none => none
    | some a => usizeLoop a cs

/-- `usize::from_str`: an optional `+` (43), then at least one digit; empty strings and a lone sign are
errors. -/
def parseUsize : Str → Option Nat
  | [] => none
  | [c] => if c = 43 ∨ c = 45 then none else usizeLoop 0 [c]
  | c :: cs => if c = 43 then usizeLoop 0 cs else usizeLoop 0 (c :: cs)

/-- `str::split_once('/')`: around the first `/` (47). -/
def splitOnce : Str → Option (Str × Str)
  | [] => none
  | c :: cs =>
    if c = 47 then some ([], cs)
    else match splitOnce cs with
      | none => none
      | some (a, b) => some (c :: a, b)

/-- `shard.rs` 21–42: `Shard::from_str`; the error messages are not modelled. -/
def Shard.fromStr (raw : Str) : Option Shard :=
  match splitOnce raw with
  | none => none
  | some (indexRaw, totalRaw) =>
    match parseUsize indexRaw with
    | none => none
    | some index =>
      match parseUsize totalRaw with
      | none => none
      | some total =>
        if total = 0 then none
        else if index ≥ total then none
        else some ⟨index, total⟩

/-- `shard.rs` 13–15: `includes`; `none` is the panic of a remainder by zero. -/
def Shard.includes (s : Shard) (idx : Nat) : Option Bool :=
  if s.total = 0 then none else some (idx % s.total == s.index)

/-- `shard.rs` 46–53: `apply_shard`, from position `idx` on. -/
def applyFrom {α : Type} (s : Shard) (idx : Nat) : List α → Option (List α)
  | [] => some []
  | x :: xs =>
    match s.includes idx with
    | none => none
    | some b =>
      match applyFrom s (idx + 1) xs with
      | none => none
      | some ys => some (if b then x :: ys else ys)

/-- `shard.rs` 46–53: `apply_shard`. -/
def applyShard {α : Type} (items : List α) (s : Shard) : Option (List α) := applyFrom s 0 items

/-! ## Expectations -/

/-- `expectations.rs` 10–15: `ExpectationKind`. -/
inductive Kind where
  | pass | skip | xfail | flaky
deriving DecidableEq

/-- `expectations.rs` 25–32: `Expectation`. -/
structure Expectation where
  kind : Kind
  reason : Option Str
  trackingIssue : Option Str
deriving DecidableEq

/-- `expectations.rs` 36–39: `AppliedExpectation`. -/
structure Applied where
  expectation : Expectation
  fromManifest : Bool
deriving DecidableEq

/-- `expectations.rs` 197–205: `RawEntry`, an entry of a manifest after TOML or JSON decoding (not
modelled). -/
structure RawEntry where
  id : Option Str
  glob : Option Str
  regex : Option Str
  status : Option Kind
  reason : Option Str
  trackingIssue : Option Str
deriving DecidableEq

/-- The `globset` and `regex` crates: whether a pattern compiles, and what the compiled pattern
matches.  Parameters of the model. -/
structure Patterns where
  globOk : Str → Bool
  globMatch : Str → Str → Bool
  regexOk : Str → Bool
  regexMatch : Str → Str → Bool

/-- `expectations.rs` 174–178: `Matcher`; a compiled pattern is named by its source. -/
inductive Matcher where
  | exact (s : Str)
  | glob (s : Str)
  | regex (s : Str)
deriving DecidableEq

/-- `expectations.rs` 180–188: `Matcher::matches`. -/
def Matcher.matches (P : Patterns) (id : Str) : Matcher → Bool
  | .exact p => p == id
  | .glob p => P.globMatch p id
  | .regex p => P.regexMatch p id

/-- `expectations.rs` 161–165: `Entry`. -/
structure Entry where
  matcher : Matcher
  expectation : Expectation
deriving DecidableEq

/-- `expectations.rs` 72–76: `Expectations`. -/
structure Expectations where
  exact : List Entry
  globs : List Entry
  regexes : List Entry

/-- `expectations.rs` 208–243: `RawEntry::matcher`; `none` is an error (the messages are not modelled,
and neither is the unreachable `expect`). -/
def RawEntry.matcher (P : Patterns) (e : RawEntry) : Option Matcher :=
  let seen := (if e.id.isSome then 1 else 0) + (if e.glob.isSome then 1 else 0) +
    (if e.regex.isSome then 1 else 0)
  if seen = 0 then none
  else if seen > 1 then none
  else match e.id with
    | some id => some (.exact id)
    | none =>
      match e.glob with
      | some g => if P.globOk g then some (.glob g) else none
      | none =>
        match e.regex with
        | some r => if P.regexOk r then some (.regex r) else none
        | none => none

/-- `expectations.rs` 131–155: the loop of `from_manifest`. -/
def fromManifestLoop (P : Patterns) (acc : Expectations) : List RawEntry → Option Expectations
  | [] => some acc
  | e :: es =>
    match e.matcher P with
    | none => none
    | some m =>
      match e.status with
      | none => none
      | some kind =>
        let entry : Entry := ⟨m, ⟨kind, e.reason, e.trackingIssue⟩⟩
        match m with
        | .exact _ => fromManifestLoop P { acc with exact := acc.exact ++ [entry] } es
        | .glob _ => fromManifestLoop P { acc with globs := acc.globs ++ [entry] } es
        | .regex _ => fromManifestLoop P { acc with regexes := acc.regexes ++ [entry] } es

/-- `expectations.rs` 129–158: `from_manifest`. -/
def fromManifest (P : Patterns) (es : List RawEntry) : Option Expectations :=
  fromManifestLoop P ⟨[], [], []⟩ es

/-- `expectations.rs` 116–127: `lookup_in`. -/
def lookupIn (P : Patterns) (id : Str) : List Entry → Option Applied
  | [] => none
  | e :: es => if e.matcher.matches P id then some ⟨e.expectation, true⟩ else lookupIn P id es

/-- `expectations.rs` 35, 17–21, 24: the default `AppliedExpectation`. -/
def Applied.default : Applied := ⟨⟨.pass, none, none⟩, false⟩

/-- `expectations.rs` 100–114: `lookup`. -/
def Expectations.lookup (P : Patterns) (x : Expectations) (id : Str) : Applied :=
  match lookupIn P id x.exact with
  | some a => a
  | none =>
    match lookupIn P id x.globs with
    | some a => a
    | none =>
      match lookupIn P id x.regexes with
      | some a => a
      | none => .default

/-- `expectations.rs` 47–53: `AppliedExpectation::matches`. -/
def Applied.matches (a : Applied) (mismatched : Bool) : Bool :=
  match a.expectation.kind with
  | .pass => !mismatched
  | .skip => true
  | .xfail => mismatched
  | .flaky => mismatched

/-- `expectations.rs` 55–60: `covers_mismatch`. -/
def Applied.coversMismatch (a : Applied) : Bool :=
  match a.expectation.kind with
  | .pass => false
  | .skip => true
  | .xfail => true
  | .flaky => true

/-! ## Locations -/

/-- `loc.rs` 118: `Loc`, a pair of `usize`. -/
structure Loc where
  start : Nat
  stop : Nat
deriving DecidableEq

/-- The largest `u32`. -/
def u32Max : Nat := 2 ^ 32 - 1

/-- `loc.rs` 238–244: `clamp_to_u32`. -/
def clampToU32 (v : Nat) : Nat × Option Nat :=
  if v > u32Max then (u32Max, some v) else (v, none)

/-- `loc.rs` 93–96: `LocOverflow`. -/
structure LocOverflow where
  start : Option Nat
  stop : Option Nat
deriving DecidableEq

/-- `loc.rs` 107–113: `any`, `into_option`. -/
def LocOverflow.intoOption (o : LocOverflow) : Option LocOverflow :=
  if o.start.isSome || o.stop.isSome then some o else none

/-- `loc.rs` 38–47: `from_loc_saturating` (also `Loc::as_range_with_overflow`, 138–140). -/
def fromLocSaturating (l : Loc) : TextRange × Option LocOverflow :=
  let s := clampToU32 l.start
  let e := clampToU32 l.stop
  (⟨s.1, e.1⟩, (LocOverflow.mk s.2 e.2).intoOption)

/-- `loc.rs` 50–56: `checked_from_loc`. -/
def checkedFromLoc (l : Loc) : Except LocOverflow TextRange :=
  match fromLocSaturating l with
  | (_, some o) => .error o
  | (r, none) => .ok r

/-- `loc.rs` 65–73: `From<Loc> for TextRange` (and `as_range`, `to_diagnostics_range`). -/
def TextRange.ofLoc (l : Loc) : TextRange := (fromLocSaturating l).1

/-- `loc.rs` 75–79: `From<TextRange> for Loc`. -/
def Loc.ofRange (r : TextRange) : Loc := ⟨r.start, r.stop⟩

/-- `loc.rs` 208–211, 222–230: `extend`, `+`. -/
def Loc.add (a b : Loc) : Loc := ⟨min a.start b.start, max a.stop b.stop⟩

/-- `loc.rs` 213–219: `add_option`. -/
def Loc.addOption (a : Loc) : Option Loc → Loc
  | some b => a.add b
  | none => a

/-- `loc.rs` 146–156: `best_effort`. -/
def Loc.bestEffort : Option Loc → Option Loc → Loc
  | some a, some b => a.add b
  | some a, none => a
  | none, some b => b
  | none, none => ⟨0, 0⟩

/-- `loc.rs` 200–202: `is_empty`. -/
def Loc.isEmpty (l : Loc) : Bool := decide (l.start ≥ l.stop)

/-- `loc.rs` 204–206: `len`; `none` is the overflow panic of a debug build. -/
def Loc.len (l : Loc) : Option Nat := if l.start ≤ l.stop then some (l.stop - l.start) else none

/-- `diagnostics/src/lib.rs` 69–71, `loc.rs` 26–28: `len`, saturating. -/
def TextRange.len (r : TextRange) : Nat := r.stop - r.start

/-- `diagnostics/src/lib.rs` 75–77, `loc.rs` 30–32: `contains`. -/
def TextRange.contains (r : TextRange) (o : Nat) : Bool := decide (o ≥ r.start) && decide (o < r.stop)

/-- `diagnostics/src/lib.rs` 79–81, `loc.rs` 34–36: `is_empty`. -/
def TextRange.isEmpty (r : TextRange) : Bool := decide (r.start ≥ r.stop)

end Verif.Harness
