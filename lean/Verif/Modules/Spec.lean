import Verif.Modules.Model
import Verif.Values.Spec
/-!
# Modules: specification
-/

namespace Verif.Modules

/-! ## Requests -/

/-- Same specifier and the same set of attributes. -/
def SameRequest (l r : Request) : Prop :=
  l.specifier = r.specifier ∧ ∀ a, a ∈ l.attributes ↔ a ∈ r.attributes

/-- No attribute is given twice. -/
def NoDup (r : Request) : Prop := r.attributes.Nodup

/-- Every string in the request is a Rust string. -/
def Scalars (r : Request) : Prop :=
  ∀ a ∈ r.attributes, (∀ c ∈ a.key, Verif.Values.IsScalar c) ∧ (∀ c ∈ a.value, Verif.Values.IsScalar c)

/-! ## Export resolution -/

/-- Every module id that a module record refers to is in the graph. -/
def WellLinked (g : Graph) : Prop := ∀ r ∈ g, ∀ l ∈ r.loaded, l.2 < g.length

/-- ECMA-262 ResolveExport as a relation: module `m` provides binding `b` under the name `n`.
The least relation such that: a local export provides the local name; an indirect export provides the
namespace of the imported module or whatever that module provides under the import name; otherwise, for
names other than `default`, every star export provides whatever its module provides. -/
inductive Provides (g : Graph) : Nat → Str → Binding → Prop where
  | local_ {m n r e} : g[m]? = some r → r.locals.find? (fun e => e.exportName == n) = some e →
      Provides g m n { module := m, bindingName := .name e.localName }
  | namespace_ {m n r e im} : g[m]? = some r → (∀ e ∈ r.locals, e.exportName ≠ n) →
      r.indirects.find? (fun e => e.exportName == n) = some e → r.imported e.request = some im →
      e.importName = .all → Provides g m n { module := im, bindingName := .namespace }
  | indirect {m n r e im x b} : g[m]? = some r → (∀ e ∈ r.locals, e.exportName ≠ n) →
      r.indirects.find? (fun e => e.exportName == n) = some e → r.imported e.request = some im →
      e.importName = .name x → Provides g im x b → Provides g m n b
  | star {m n r q im b} : g[m]? = some r → (∀ e ∈ r.locals, e.exportName ≠ n) →
      (∀ e ∈ r.indirects, e.exportName ≠ n) → n ≠ default_ → q ∈ r.stars → r.imported q = some im →
      Provides g im n b → Provides g m n b

/-- ECMA-262 GetExportedNames as a relation: module `m` exports the name `n`. -/
inductive Exports (g : Graph) : Nat → Str → Prop where
  | local_ {m n r} : g[m]? = some r → (∃ e ∈ r.locals, e.exportName = n) → Exports g m n
  | indirect {m n r} : g[m]? = some r → (∃ e ∈ r.indirects, e.exportName = n) → Exports g m n
  | star {m n r q im} : g[m]? = some r → n ≠ default_ → q ∈ r.stars → r.imported q = some im →
      Exports g im n → Exports g m n

/-- The names a module exports itself, in the order of its entries. -/
def Record.ownNames (r : Record) : List Str :=
  r.locals.map (·.exportName) ++ r.indirects.map (·.exportName)

/-- A fuel that is enough for every question about the graph: one for every pair of a module and a name
that a question can reach, and one more. -/
def enoughFuel (g : Graph) : Nat := g.length * (1 + (g.flatMap (·.indirects)).length) + 1

/-! ## Linking -/

/-- The module registered first under a specifier. -/
def firstRegistered (regs : List (Str × Nat)) (specifier : Str) : Option Nat :=
  (regs.find? (fun p => p.1 = specifier)).map Prod.snd

/-! ## ParseModule -/

/-- The local names bound by named imports (not `* as x`), with the request and the imported name. -/
def namedImports (items : List Item) : List (Str × Request × Str) :=
  items.flatMap (fun i =>
    match i with
    | .importFrom false q bs =>
      bs.filterMap (fun b => match b.1 with | .name x => some (b.2, q, x) | .all => none)
    | _ => [])

/-- ECMA-262 ExportEntries of an item, those without a module request: export name and local name. -/
def localEntries : Item → List (Str × Str)
  | .exportDefault => [(default_, starDefault)]
  | .exportList false ns => ns.map (fun x => (x.2, x.1))
  | .exportVars ns => ns.map (fun x => (x, x))
  | .exportDecl true name => [(default_, name.getD starDefault)]
  | .exportDecl false name => [(name.getD starDefault, name.getD starDefault)]
  | _ => []

/-- ECMA-262 ExportEntries of an item, those with a module request other than `export *`. -/
def fromEntries : Item → List IndirectExport
  | .exportAll false (some a) q => [⟨a, q, .all⟩]
  | .exportFrom false ns q => ns.map (fun x => ⟨x.2, q, .name x.1⟩)
  | _ => []

/-- ECMA-262 ExportEntries of an item: `export * from`. -/
def starEntries : Item → List Request
  | .exportAll false none q => [q]
  | _ => []

/-- ECMA-262 ParseModule steps 9–10, local exports: the entries whose local name is not a named import. -/
def specLocals (items : List Item) : List LocalExport :=
  (items.flatMap localEntries).filterMap (fun e =>
    if (namedImports items).any (fun i => i.1 == e.2) then none else some ⟨e.1, e.2⟩)

/-- ECMA-262 ParseModule steps 9–10, indirect exports: the entries with a module request, and the local
entries whose local name is a named import, which are re-exports. -/
def specIndirects (items : List Item) : List IndirectExport :=
  items.flatMap (fun i =>
    (localEntries i).filterMap (fun e =>
      ((namedImports items).find? (fun i => i.1 == e.2)).map (fun i => ⟨e.1, i.2.1, .name i.2.2⟩)) ++
    fromEntries i)

/-- The requests of an item. -/
def itemRequests : Item → List Request
  | .importFrom false q _ => [q]
  | .exportAll false _ q => [q]
  | .exportFrom false _ q => [q]
  | _ => []

end Verif.Modules
