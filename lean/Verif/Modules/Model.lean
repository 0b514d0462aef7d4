import Verif.Values.Model
/-!
# Module requests, module records and the module graph: model

Sources: `vm-js/src/module_request.rs`, `vm-js/src/module_record.rs`, `vm-js/src/module_graph.rs`.

Simplifications.
* A string is the list of its Unicode scalar values.
* Recursion is bounded by fuel; the result `none` stands for a panic (a module id outside the graph) or
  for running out of fuel. The theorems show that enough fuel always gives a result. The native stack
  limit is not modelled.
* Parsing is modelled from the list of module items on; the parser itself is not.
* The namespace object itself (`module_namespace_create`, 191–248) is not modelled here, only its sorted
  list of export names.
-/

namespace Verif.Modules

open Verif.Values (cmpUtf16)

/-- A string. -/
abbrev Str := List Nat

/-! ## Module requests -/

/-- `module_request.rs` 36–40: `ImportAttribute`. -/
structure Attr where
  key : Str
  value : Str
deriving DecidableEq, Repr

/-- `module_request.rs` 52–57: `cmp_import_attribute`. -/
def cmpAttr (a b : Attr) : Ordering :=
  match cmpUtf16 a.key b.key with
  | .eq => cmpUtf16 a.value b.value
  | o => o

/-- `slice::sort_by` (stable): insert before the first element that is greater. -/
def insertBy {α : Type} (cmp : α → α → Ordering) (x : α) : List α → List α
  | [] => [x]
  | y :: ys => if cmp x y = .gt then y :: insertBy cmp x ys else x :: y :: ys

/-- `slice::sort_by`: a stable sort. (The algorithm of the standard library is replaced by insertion from
the right; both give the stable sorted permutation.) -/
def sortBy {α : Type} (cmp : α → α → Ordering) : List α → List α
  | [] => []
  | x :: xs => insertBy cmp x (sortBy cmp xs)

/-- `module_request.rs` 62–66: `ModuleRequest`. Its `==` is equality of both fields. -/
structure Request where
  specifier : Str
  attributes : List Attr
deriving DecidableEq, Repr

/-- `module_request.rs` 76–82: `ModuleRequest::new`. -/
def Request.new (specifier : Str) (attributes : List Attr) : Request :=
  { specifier := specifier, attributes := sortBy cmpAttr attributes }

/-- `module_request.rs` 86–88: `canonicalize`. -/
def Request.canonicalize (r : Request) : Request :=
  { r with attributes := sortBy cmpAttr r.attributes }

/-- `module_request.rs` 92–96: `with_import_attribute`. -/
def Request.withAttribute (r : Request) (key value : Str) : Request :=
  Request.canonicalize { r with attributes := r.attributes ++ [⟨key, value⟩] }

/-- `module_request.rs` 162–187: `module_requests_equal`. -/
def requestsEqual (l r : Request) : Bool :=
  if l.specifier ≠ r.specifier then false
  else if l.attributes.length ≠ r.attributes.length then false
  else l.attributes.all (fun a => r.attributes.any (fun b => a.key == b.key && a.value == b.value))

/-! ## Module records -/

/-- `module_record.rs` 36–40: `ImportName`. -/
inductive ImportName where
  | name (n : Str)
  | all
deriving DecidableEq, Repr

/-- `module_record.rs` 30–34: `LocalExportEntry`. -/
structure LocalExport where
  exportName : Str
  localName : Str
deriving DecidableEq, Repr

/-- `module_record.rs` 42–47: `IndirectExportEntry`. -/
structure IndirectExport where
  exportName : Str
  request : Request
  importName : ImportName
deriving DecidableEq, Repr

/-- `module_record.rs` 54–58: `BindingName`. -/
inductive BindingName where
  | name (n : Str)
  | namespace
deriving DecidableEq, Repr

/-- `module_record.rs` 60–64: `ResolvedBinding`. -/
structure Binding where
  module : Nat
  bindingName : BindingName
deriving DecidableEq, Repr

/-- `module_record.rs` 66–71: `ResolveExportResult`. -/
inductive Resolution where
  | resolved (b : Binding)
  | notFound
  | ambiguous
deriving DecidableEq, Repr

/-- `module_record.rs` 80–102: `SourceTextModuleRecord`, without status, `has_tla` and the cached
namespace. -/
structure Record where
  requested : List Request := []
  locals : List LocalExport := []
  indirects : List IndirectExport := []
  stars : List Request := []
  loaded : List (Request × Nat) := []
deriving DecidableEq, Repr

/-- `module_graph.rs` 14–18: the modules, indexed by module id. -/
abbrev Graph := List Record

/-- `module_graph.rs` 158–165: `get_imported_module`, on the record of the referrer. -/
def Record.imported (r : Record) (q : Request) : Option Nat :=
  (r.loaded.find? (fun l => requestsEqual l.1 q)).map Prod.snd

/-- The string `default`. -/
def default_ : Str := [100, 101, 102, 97, 117, 108, 116]

/-- A resolve set: `module_record.rs` 339. -/
abbrev ResolveSet := List (Nat × Str)

/-- `module_record.rs` 402–444: the loop over the star exports. `rec` is the recursive call on an imported
module. -/
def starLoop (rec : Nat → ResolveSet → Option (Resolution × ResolveSet)) (r : Record) :
    List Request → Option Binding → ResolveSet → Option (Resolution × ResolveSet)
  | [], none, R => some (.notFound, R)
  | [], some b, R => some (.resolved b, R)
  | q :: qs, acc, R =>
    match r.imported q with
    | none => starLoop rec r qs acc R
    | some im =>
      match rec im R with
      | none => none
      | some (.ambiguous, R1) => some (.ambiguous, R1)
      | some (.notFound, R1) => starLoop rec r qs acc R1
      | some (.resolved b, R1) =>
        match acc with
        | none => starLoop rec r qs (some b) R1
        | some e => if e = b then starLoop rec r qs (some e) R1 else some (.ambiguous, R1)

/-- `module_record.rs` 334–445: `resolve_export_with_set`. -/
def resolve (g : Graph) : Nat → Nat → Str → ResolveSet → Option (Resolution × ResolveSet)
  | 0, _, _, _ => none
  | fuel + 1, m, n, R =>
    if (m, n) ∈ R then some (.notFound, R)
    else
      match g[m]? with
      | none => none
      | some r =>
        match r.locals.find? (fun e => e.exportName == n) with
        | some e => some (.resolved { module := m, bindingName := .name e.localName }, R ++ [(m, n)])
        | none =>
          match r.indirects.find? (fun e => e.exportName == n) with
          | some e =>
            match r.imported e.request with
            | none => some (.notFound, R ++ [(m, n)])
            | some im =>
              match e.importName with
              | .all => some (.resolved { module := im, bindingName := .namespace }, R ++ [(m, n)])
              | .name x => resolve g fuel im x (R ++ [(m, n)])
          | none =>
            if n = default_ then some (.notFound, R ++ [(m, n)])
            else starLoop (fun im S => resolve g fuel im n S) r r.stars none (R ++ [(m, n)])

/-- `module_record.rs` 325–332: `resolve_export`. -/
def resolveExport (g : Graph) (fuel m : Nat) (n : Str) : Option Resolution :=
  (resolve g fuel m n []).map Prod.fst

/-- `module_record.rs` 306–317: append the names of a star export. -/
def addNames (acc : List Str) : List Str → List Str
  | [] => acc
  | n :: ns =>
    if n = default_ then addNames acc ns
    else if n ∈ acc then addNames acc ns
    else addNames (acc ++ [n]) ns

/-- `module_record.rs` 292–318: the loop over the star exports. -/
def namesLoop (rec : Nat → List Nat → Option (List Str × List Nat)) (r : Record) :
    List Request → List Str → List Nat → Option (List Str × List Nat)
  | [], acc, S => some (acc, S)
  | q :: qs, acc, S =>
    match r.imported q with
    | none => namesLoop rec r qs acc S
    | some im =>
      match rec im S with
      | none => none
      | some (ns, S1) => namesLoop rec r qs (addNames acc ns) S1

/-- `module_record.rs` 262–322: `get_exported_names_with_star_set`. -/
def names (g : Graph) : Nat → Nat → List Nat → Option (List Str × List Nat)
  | 0, _, _ => none
  | fuel + 1, m, S =>
    if m ∈ S then some ([], S)
    else
      match g[m]? with
      | none => none
      | some r =>
        namesLoop (fun im S => names g fuel im S) r r.stars
          (r.locals.map (·.exportName) ++ r.indirects.map (·.exportName)) (S ++ [m])

/-- `module_record.rs` 258–260: `get_exported_names`. -/
def exportedNames (g : Graph) (fuel m : Nat) : Option (List Str) := (names g fuel m []).map Prod.fst

/-- `module_graph.rs` 101–109: the names that resolve. -/
def unambiguous (g : Graph) (fuel m : Nat) : List Str → Option (List Str)
  | [] => some []
  | n :: ns =>
    match resolveExport g fuel m n, unambiguous g fuel m ns with
    | some (.resolved _), some out => some (n :: out)
    | some _, some out => some out
    | _, _ => none

/-- `module_graph.rs` 98–125 and 196–199: the `[[Exports]]` list of the namespace made by
`get_module_namespace`. -/
def namespaceExports (g : Graph) (fuel m : Nat) : Option (List Str) :=
  match exportedNames g fuel m with
  | none => none
  | some ns =>
    match unambiguous g fuel m ns with
    | none => none
    | some out => some (sortBy cmpUtf16 out)

/-! ## Linking by specifier -/

/-- `module_graph.rs` 43–47, 182–184: what `register_specifier` stores. -/
def hostEntry (specifier : Str) (m : Nat) : Request × Nat := (Request.new specifier [], m)

/-- `module_graph.rs` 167–172: `resolve_host_module`. -/
def resolveHost (hosts : List (Request × Nat)) (q : Request) : Option Nat :=
  (hosts.find? (fun h => h.1 = q)).map Prod.snd

/-- `module_graph.rs` 139–154: the requests of one module. (An unknown specifier is skipped; in a debug
build the `debug_assert!` panics instead.) -/
def linkRequests (hosts : List (Request × Nat)) : List Request → List (Request × Nat) → List (Request × Nat)
  | [], loaded => loaded
  | q :: qs, loaded =>
    match resolveHost hosts q with
    | none => linkRequests hosts qs loaded
    | some m => linkRequests hosts qs (loaded ++ [(q, m)])

/-- `module_graph.rs` 136–156: `link_all_by_specifier`. -/
def linkAll (hosts : List (Request × Nat)) (g : Graph) : Graph :=
  g.map (fun r => { r with loaded := linkRequests hosts r.requested r.loaded })

/-! ## From module items to a record -/

/-- The module items of a source text that matter for the record. -/
inductive Item where
  /-- `import … from "m"`: the imported name (`all` for `* as x`) and the local name of each binding. -/
  | importFrom (typeOnly : Bool) (q : Request) (bindings : List (ImportName × Str))
  /-- `export default expr` -/
  | exportDefault
  /-- `export * from "m"`, `export * as x from "m"` -/
  | exportAll (typeOnly : Bool) (alias : Option Str) (q : Request)
  /-- `export {x as y} from "m"`: exported-from name and alias -/
  | exportFrom (typeOnly : Bool) (names : List (Str × Str)) (q : Request)
  /-- `export {x as y}` -/
  | exportList (typeOnly : Bool) (names : List (Str × Str))
  /-- `export var/let/const` -/
  | exportVars (names : List Str)
  /-- `export function/class`: `name = none` only after `export default` -/
  | exportDecl (isDefault : Bool) (name : Option Str)
  | other
deriving Repr

/-- The string `*default*`. -/
def starDefault : Str := [42, 100, 101, 102, 97, 117, 108, 116, 42]

/-- `module_record.rs` 769–773: `push_requested_module`. -/
def pushRequested (out : List Request) (q : Request) : List Request :=
  if out.any (fun e => requestsEqual e q) then out else out ++ [q]

/-- `module_record.rs` 129–253: one statement of the loop in `parse`. -/
def addItem (r : Record) : Item → Record
  | .importFrom typeOnly q _ =>
    if typeOnly then r else { r with requested := pushRequested r.requested q }
  | .exportDefault => { r with locals := r.locals ++ [⟨default_, starDefault⟩] }
  | .exportAll typeOnly alias q =>
    if typeOnly then r
    else
      match alias with
      | none => { r with requested := pushRequested r.requested q, stars := r.stars ++ [q] }
      | some a =>
        { r with requested := pushRequested r.requested q, indirects := r.indirects ++ [⟨a, q, .all⟩] }
  | .exportFrom typeOnly ns q =>
    if typeOnly then r
    else
      { r with
        requested := pushRequested r.requested q
        indirects := r.indirects ++ ns.map (fun x => ⟨x.2, q, .name x.1⟩) }
  | .exportList typeOnly ns =>
    if typeOnly then r else { r with locals := r.locals ++ ns.map (fun x => ⟨x.2, x.1⟩) }
  | .exportVars ns => { r with locals := r.locals ++ ns.map (fun x => ⟨x, x⟩) }
  | .exportDecl isDefault name =>
    { r with
      locals := r.locals ++
        [⟨if isDefault then default_ else name.getD starDefault, name.getD starDefault⟩] }
  | .other => r

/-- `module_record.rs` 116–255: `parse`, from the list of items on. -/
def recordOf (items : List Item) : Record := items.foldl addItem {}

end Verif.Modules
