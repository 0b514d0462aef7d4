import Verif.Rename.Check
/-!
# Properties C39, C65: renaming
-/

namespace Verif.Rename

open Verif.Names

/-! ## C39: no capture, no merging -/

/-- The minifier always produces names. -/
theorem C39_answers (sem : Sem) (h : Nat) (refs : List Ref) : ∃ ren, assignNames sem h refs = some ren :=
  assign_total sem h refs

/-- **C39 (partial).** For any scope tree and any identifiers bound by lexical scoping: after renaming,
every identifier that denoted a symbol denotes the same symbol under its new name, every global identifier
is still global, and two symbols of one scope have different names; new names are identifiers that are not
reserved.

Missing: block functions with declarations between the block and the function around it (hypothesis
`Links`; refuted by `C39_annexB_violated`), and variables pinned by a `with` in a scope with free variables
that are not (hypothesis `PinsAreSafe`, needed for the first claim only; refuted by
`C39_pinned_violated`). -/
theorem C39_partial (sem : Sem) (h : Nat) (refs : List Ref) (ren : Renames)
    (T : Tables sem h) (B : Bound sem refs) (L : Links sem refs) (P : PinsAreSafe sem refs)
    (ha : assignNames sem h refs = some ren) :
    (∀ r ∈ refs, ∀ x, r.sym = some x →
      Denotes sem (newName sem ren) (newName sem ren x) r.scope (some x)) ∧
    (∀ r ∈ refs, r.sym = none → Denotes sem (newName sem ren) r.name r.scope none) ∧
    (∀ s x y, Anc sem sem.top s → Declares sem s x → Declares sem s y →
      newName sem ren x = newName sem ren y → x = y) ∧
    ∀ x n, ren.lookup x = some n → IdentName n ∧ n ∉ ecmaReserved := by
  obtain ⟨done, hd, I⟩ := assign_inv T B L ha
  refine ⟨?_, ?_, ?_, ?_⟩
  · intro r hr x hx
    obtain ⟨h1, h2, _, _⟩ := (B r hr).2.some_spec T hx
    refine denotes_some h2 h1 ?_
    intro t y ht hxt hne hy
    have htt : Anc sem sem.top t := by
      rcases (B r hr).1.total ht with h3 | h3
      · exact h3
      · rw [Anc.top_top T h3]; exact .refl
    exact I.i4 P t ((hd t).2 htt) y x hy ⟨hne, hxt, r, hr, hx, ht⟩
  · intro r hr hx
    refine denotes_none T _ ?_
    intro t y ht hy
    have htt : Anc sem sem.top t := by
      rcases (B r hr).1.total ht with h3 | h3
      · exact h3
      · rw [Anc.top_top T h3]; exact .refl
    exact I.i5 t ((hd t).2 htt) y r.name hy ((mem_unknown T B t r.name).2 ⟨r, hr, hx, rfl, ht⟩)
  · intro s x y hs hx hy he
    apply Classical.byContradiction
    intro hne
    exact I.i6 s ((hd s).2 hs) x y hx hy hne he
  · intro x n hn
    have h8 := I.i8 x n hn
    have hsub : ∀ w ∈ ecmaReserved, w ∈ reservedNames := by decide +kernel
    exact ⟨h8.1, fun hm => h8.2 (hsub _ hm)⟩

/-- **C39** in full for strict code, so for every module: there are no Annex B functions and no `with`;
exports stand at the top. Direct `eval` is allowed. -/
theorem C39_strict (sem : Sem) (h : Nat) (refs : List Ref) (ren : Renames)
    (T : Tables sem h) (B : Bound sem refs) (hb : sem.annexB = [])
    (hw : ∀ s, Anc sem sem.top s → ¬ HasWith sem s)
    (hx : ∀ x, Exported sem refs x → sem.declScope x = sem.top)
    (ha : assignNames sem h refs = some ren) :
    (∀ r ∈ refs, ∀ x, r.sym = some x →
      Denotes sem (newName sem ren) (newName sem ren x) r.scope (some x)) ∧
    (∀ r ∈ refs, r.sym = none → Denotes sem (newName sem ren) r.name r.scope none) ∧
    (∀ s x y, Anc sem sem.top s → Declares sem s x → Declares sem s y →
      newName sem ren x = newName sem ren y → x = y) ∧
    ∀ x n, ren.lookup x = some n → IdentName n ∧ n ∉ ecmaReserved := by
  refine C39_partial sem h refs ren T B ⟨?_, ?_, ?_⟩ ?_ ha
  · rw [hb]; exact List.nodup_nil
  · intro b v hbv; rw [hb] at hbv; cases hbv
  · intro b v hbv; rw [hb] at hbv; cases hbv
  · intro s x y hs hd hp hf
    rcases hp with hp | ⟨t, h1, h2, _⟩
    · have := hx x hp
      rw [hd.scope T] at this
      subst this
      have h4 : sem.declScope y = sem.top := Anc.top_top T hf.2.1
      exact absurd h4.symm hf.1
    · exact absurd h2 (hw t h1)

/-- A module: `export function f(x){ let y = x + g; return () => { let z = y; return z + f } }`. -/
def modScopes : List Scope := [
  { children := [1], symbols := [([102], 0)], isModule := true },
  { parent := some 0, children := [2], symbols := [([120], 1), ([121], 2)] },
  { parent := some 1, symbols := [([122], 3)] }]

def modSem : Sem := ofList modScopes [([102], 0), ([120], 1), ([121], 1), ([122], 2)] []

def modRefs : List Ref := [
  ⟨0, [102], some 0, true⟩, ⟨1, [120], some 1, false⟩, ⟨1, [121], some 2, false⟩, ⟨1, [120], some 1, false⟩,
  ⟨1, [103], none, false⟩, ⟨2, [122], some 3, false⟩, ⟨2, [121], some 2, false⟩, ⟨2, [122], some 3, false⟩,
  ⟨2, [102], some 0, false⟩]

-- `f` stays; `x`, `y` become `a`, `b`; `z`, where `x` is not used, becomes `a` again
example : assignNames modSem 3 modRefs = some [(3, [97]), (2, [98]), (1, [97])] := by decide +kernel

theorem modTables : Tables modSem 3 :=
  tables_of (ds := [0, 1, 2]) (by decide +kernel)

example : Tables modSem 3 ∧ Bound modSem modRefs ∧ modSem.annexB = [] ∧
    (∀ s, ¬ HasWith modSem s) ∧ ∀ x, Exported modSem modRefs x → modSem.declScope x = modSem.top := by
  refine ⟨modTables, bound_of modTables (by decide +kernel), rfl, ?_, ?_⟩
  · rintro s ⟨h1, _⟩
    match s with
    | 0 => cases h1
    | 1 => cases h1
    | 2 => cases h1
    | s + 3 => cases h1
  · rintro x ⟨r, hr, h1, h2, h3⟩
    have : ∀ r ∈ modRefs, r.markExport = true → r.sym = some 0 := by decide
    rw [this r hr h2] at h1; cases h1; rfl

/-- A sloppy script with an Annex B function:
`function outer(p){ if(p){ function foo(){ foo } foo } foo; w }` in global mode. -/
def annexScopes : List Scope := [
  { children := [1] },
  { parent := some 0, children := [2], symbols := [([112], 0), ([102, 111, 111], 1)] },
  { parent := some 1, children := [3], symbols := [([102, 111, 111], 2)] },
  { parent := some 2 }]

def annexSem : Sem :=
  ofList annexScopes [([112], 1), ([102, 111, 111], 1), ([102, 111, 111], 2)] [(2, 1)]

def annexRefs : List Ref := [
  ⟨1, [112], some 0, false⟩, ⟨2, [102, 111, 111], some 2, false⟩, ⟨3, [102, 111, 111], some 2, false⟩,
  ⟨1, [102, 111, 111], some 1, false⟩, ⟨1, [119], none, false⟩]

example : assignNames annexSem 4 annexRefs = some [(2, [98]), (2, [98]), (1, [98]), (0, [97])] := by
  decide +kernel

theorem annexTables : Tables annexSem 4 := tables_of (ds := [0, 1, 2, 3]) (by decide +kernel)
theorem annexBound : Bound annexSem annexRefs := bound_of annexTables (by decide +kernel)

example : Tables annexSem 4 ∧ Bound annexSem annexRefs ∧ Links annexSem annexRefs ∧
    PinsAreSafe annexSem annexRefs :=
  ⟨annexTables, annexBound, links_of annexTables annexBound (by decide +kernel),
    pins_of annexTables annexBound (by decide +kernel)⟩

/-- A linked block function and its `var` end up with one name: the function's name token belongs to
both. -/
theorem C39_linked (sem : Sem) (h : Nat) (refs : List Ref) (ren : Renames)
    (T : Tables sem h) (B : Bound sem refs) (L : Links sem refs) (ha : assignNames sem h refs = some ren)
    (b v : Sym) (hbv : (b, v) ∈ sem.annexB) (hn : sem.symName b = sem.symName v) :
    newName sem ren b = newName sem ren v := by
  obtain ⟨done, hd, I⟩ := assign_inv T B L ha
  rw [newName, newName, I.i3 b v hbv, hn]

/-! ### The claim fails with declarations between a block function and its `var` -/

/-- `function outer(){ { let q=1; { function foo(){} q; } } foo; }` -/
def gapScopes : List Scope := [
  { children := [1] },
  { parent := some 0, children := [2], symbols := [([102, 111, 111], 0)] },
  { parent := some 1, children := [3], symbols := [([113], 1)] },
  { parent := some 2, children := [4], symbols := [([102, 111, 111], 2)] },
  { parent := some 3 }]

def gapSem : Sem := ofList gapScopes [([102, 111, 111], 1), ([113], 2), ([102, 111, 111], 3)] [(2, 0)]

def gapRefs : List Ref := [
  ⟨2, [113], some 1, false⟩, ⟨3, [102, 111, 111], some 2, false⟩, ⟨3, [113], some 1, false⟩,
  ⟨1, [102, 111, 111], some 0, false⟩]

/-- **C39 fails** (Annex B): the identifier `q` in the inner block denotes the `let` variable; after
renaming both `q` and `foo` are `a` and it denotes the function. -/
theorem C39_annexB_violated : ∃ ren, Tables gapSem 5 ∧ Bound gapSem gapRefs ∧
    assignNames gapSem 5 gapRefs = some ren ∧
    (∃ r ∈ gapRefs, r.scope = 3 ∧ r.sym = some 1) ∧
    Denotes gapSem (newName gapSem ren) (newName gapSem ren 1) 3 (some 2) := by
  have T : Tables gapSem 5 := tables_of (ds := [0, 1, 2, 3, 4]) (by decide +kernel)
  have e : assignNames gapSem 5 gapRefs = some [(2, [97]), (1, [97]), (2, [97]), (0, [97])] := by decide +kernel
  refine ⟨_, T, bound_of T (by decide +kernel), e, ⟨⟨3, [113], some 1, false⟩, by simp [gapRefs], rfl, rfl⟩, ?_⟩
  have := denotes_of T (newName gapSem [(2, [97]), (1, [97]), (2, [97]), (0, [97])]) [97] 3
  rw [show resolveIn gapSem (newName gapSem [(2, [97]), (1, [97]), (2, [97]), (0, [97])]) [97]
    (chain gapSem 5 3) = some 2 by decide +kernel] at this
  exact this

/-! ### The claim fails when a `with` pins a variable -/

/-- `(function(q){ return function(a){ (function(){ with(o){ a } })(); return q; }; })` -/
def withScopes : List Scope := [
  { children := [1] },
  { parent := some 0, children := [2], symbols := [([113], 0)] },
  { parent := some 1, children := [3], symbols := [([97], 1)] },
  { parent := some 2, children := [4], isDynamic := true },
  { parent := some 3, isDynamic := true }]

def withSem : Sem := ofList withScopes [([113], 1), ([97], 2)] []

def withRefs : List Ref := [
  ⟨1, [113], some 0, false⟩, ⟨2, [97], some 1, false⟩, ⟨3, [111], none, false⟩, ⟨4, [97], some 1, false⟩,
  ⟨2, [113], some 0, false⟩]

/-- **C39 fails** (pinned variables): `a` keeps its name because of the `with`, `q` is renamed to `a`, and
the `q` of the inner function denotes that function's parameter. -/
theorem C39_pinned_violated : ∃ ren, Tables withSem 5 ∧ Bound withSem withRefs ∧
    assignNames withSem 5 withRefs = some ren ∧
    (∃ r ∈ withRefs, r.scope = 2 ∧ r.sym = some 0) ∧
    Denotes withSem (newName withSem ren) (newName withSem ren 0) 2 (some 1) := by
  have T : Tables withSem 5 := tables_of (ds := [0, 1, 2, 3, 4]) (by decide +kernel)
  have e : assignNames withSem 5 withRefs = some [(0, [97])] := by decide +kernel
  refine ⟨_, T, bound_of T (by decide +kernel), e, ⟨⟨2, [113], some 0, false⟩, by simp [withRefs], rfl, rfl⟩, ?_⟩
  have := denotes_of T (newName withSem [(0, [97])]) [97] 2
  rw [show resolveIn withSem (newName withSem [(0, [97])]) [97] (chain withSem 5 2) = some 1
    by decide +kernel] at this
  exact this

/-! ## C65: observable names are kept -/

/-- **C65 (partial).** Symbols of a scope that a direct `eval` can see (its own and all around it) or that a
`with` affects keep their names, and so do exported symbols and symbols used inside a `with`.

Missing: block functions used inside a `with` when their `var` is not (the field `pinned` of `LinkOk`;
refuted by `C65_annexB_violated`), and the other conditions of `Links` on block functions. -/
theorem C65_partial (sem : Sem) (h : Nat) (refs : List Ref) (ren : Renames)
    (T : Tables sem h) (B : Bound sem refs) (L : Links sem refs) (ha : assignNames sem h refs = some ren) :
    (∀ s x, Anc sem sem.top s → Observable sem s → Declares sem s x → newName sem ren x = sem.symName x) ∧
    ∀ x, Exported sem refs x ∨ UsedInWith sem refs x → newName sem ren x = sem.symName x := by
  obtain ⟨done, hd, I⟩ := assign_inv T B L ha
  exact ⟨fun s x hs ho hx => newName_none (I.i1 s ((hd s).2 hs) ho x hx), fun x hx => newName_none (I.i2 x hx)⟩

/-- `function f(x){ function g(y){ eval("") ; w } function k(z){ z } }`: only `k`'s parameter changes. -/
def evalScopes : List Scope := [
  { children := [1] },
  { parent := some 0, children := [2, 3], symbols := [([120], 0), ([103], 1), ([107], 2)],
    isDynamic := true, hasDirectEval := true },
  { parent := some 1, symbols := [([121], 3)], isDynamic := true, hasDirectEval := true },
  { parent := some 1, symbols := [([122], 4)] }]

def evalSem : Sem := ofList evalScopes [([120], 1), ([103], 1), ([107], 1), ([121], 2), ([122], 3)] []

def evalRefs : List Ref := [
  ⟨1, [120], some 0, false⟩, ⟨1, [103], some 1, false⟩, ⟨2, [121], some 3, false⟩, ⟨2, [119], none, false⟩,
  ⟨1, [107], some 2, false⟩, ⟨3, [122], some 4, false⟩]

example : assignNames evalSem 3 evalRefs = some [(4, [97])] := by decide +kernel

example : Tables evalSem 3 ∧ Bound evalSem evalRefs ∧ Links evalSem evalRefs ∧ Observable evalSem 1 := by
  have T : Tables evalSem 3 := tables_of (ds := [0, 1, 2, 2]) (by decide +kernel)
  have B : Bound evalSem evalRefs := bound_of T (by decide +kernel)
  refine ⟨T, B, links_of T B (by decide +kernel), ?_⟩
  have ht : Anc evalSem evalSem.top 1 := (mem_chain T _ _).1 (by decide +kernel)
  exact (disabled_iff (refs := evalRefs) T ht).1 (by decide +kernel)

/-- `function outer(){ { function foo(){} (function(){ with(o){ foo } })() } }` -/
def pinScopes : List Scope := [
  { children := [1] },
  { parent := some 0, children := [2], symbols := [([102, 111, 111], 0)] },
  { parent := some 1, children := [3, 4], symbols := [([102, 111, 111], 1)] },
  { parent := some 2 },
  { parent := some 2, children := [5], isDynamic := true },
  { parent := some 4, isDynamic := true }]

def pinSem : Sem := ofList pinScopes [([102, 111, 111], 1), ([102, 111, 111], 2)] [(1, 0)]

def pinRefs : List Ref := [
  ⟨2, [102, 111, 111], some 1, false⟩, ⟨4, [111], none, false⟩, ⟨5, [102, 111, 111], some 1, false⟩]

/-- **C65 fails** (Annex B): `foo` is used inside a `with`, where the object's property `foo` takes
precedence, and is renamed to `a`. -/
theorem C65_annexB_violated : ∃ ren, Tables pinSem 5 ∧ Bound pinSem pinRefs ∧
    assignNames pinSem 5 pinRefs = some ren ∧ UsedInWith pinSem pinRefs 1 ∧
    newName pinSem ren 1 ≠ pinSem.symName 1 := by
  have T : Tables pinSem 5 := tables_of (ds := [0, 1, 2, 3, 3, 4]) (by decide +kernel)
  have B : Bound pinSem pinRefs := bound_of T (by decide +kernel)
  have e : assignNames pinSem 5 pinRefs = some [(1, [97]), (1, [97]), (0, [97])] := by decide +kernel
  refine ⟨_, T, B, e, ?_, by decide +kernel⟩
  have ht : Anc pinSem pinSem.top 5 := (mem_chain T _ _).1 (by decide +kernel)
  refine ⟨5, ht, ⟨rfl, rfl⟩, (mem_foreign T B 5 1).1 (by decide +kernel)⟩

end Verif.Rename
