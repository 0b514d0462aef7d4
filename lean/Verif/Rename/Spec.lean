import Verif.Rename.Model
/-!
# What renaming must preserve
-/

namespace Verif.Rename

open Verif.Names

/-- `a` is `s` or one of the scopes around `s`. -/
inductive Anc (sem : Sem) (a : Nat) : Nat → Prop
  | refl : Anc sem a a
  | up {s p : Nat} : (sem.scope s).parent = some p → Anc sem a p → Anc sem a s

/-- `x` is declared in `s`. -/
def Declares (sem : Sem) (s : Nat) (x : Sym) : Prop := ∃ n, (n, x) ∈ (sem.scope s).symbols

/-- Lexical scoping when every symbol `x` is called `name x`: the identifier `n` in scope `s` denotes the
symbol of that name in the nearest scope having one, or is global. -/
inductive Denotes (sem : Sem) (name : Sym → Name) (n : Name) : Nat → Option Sym → Prop
  | here {s : Nat} {x : Sym} : Declares sem s x → name x = n → Denotes sem name n s (some x)
  | up {s p : Nat} {r : Option Sym} : (∀ x, Declares sem s x → name x ≠ n) →
      (sem.scope s).parent = some p → Denotes sem name n p r → Denotes sem name n s r
  | glob {s : Nat} : (∀ x, Declares sem s x → name x ≠ n) → (sem.scope s).parent = none →
      Denotes sem name n s none

/-- The scope tables the binder makes: a tree of height at most `h` below `top`, every symbol in the table
of the scope that declares it, under its own name, at most one for each name. -/
structure Tables (sem : Sem) (h : Nat) : Prop where
  top : (sem.scope sem.top).parent = none
  children : ∀ s c, c ∈ (sem.scope s).children ↔ (sem.scope c).parent = some s
  nodup : ∀ s, (sem.scope s).children.Nodup
  depth : ∃ d : Nat → Nat, (∀ s p, (sem.scope s).parent = some p → d s = d p + 1) ∧ ∀ s, d s < h
  symbol : ∀ s n x, (n, x) ∈ (sem.scope s).symbols → sem.declScope x = s ∧ sem.symName x = n
  names : ∀ s, ((sem.scope s).symbols.map Prod.fst).Nodup

/-- The identifiers are in the tree and carry the symbols that lexical scoping gives. -/
def Bound (sem : Sem) (refs : List Ref) : Prop :=
  ∀ r ∈ refs, Anc sem sem.top r.scope ∧ Denotes sem sem.symName r.name r.scope r.sym

/-- `x` is declared outside `s` and used inside. -/
def Free (sem : Sem) (refs : List Ref) (s : Nat) (x : Sym) : Prop :=
  s ≠ sem.declScope x ∧ Anc sem (sem.declScope x) s ∧ ∃ r ∈ refs, r.sym = some x ∧ Anc sem s r.scope

/-- The scope is affected by a `with` statement (and contains no direct `eval`). -/
def HasWith (sem : Sem) (s : Nat) : Prop :=
  (sem.scope s).isDynamic = true ∧ (sem.scope s).hasDirectEval = false

/-- The names of the scope are observable: a `with` affects it or a direct `eval` is in it or inside. -/
def Observable (sem : Sem) (s : Nat) : Prop :=
  HasWith sem s ∨ ∃ d, Anc sem sem.top d ∧ (sem.scope d).hasDirectEval = true ∧ Anc sem s d

/-- `x` is exported by its declaration. -/
def Exported (sem : Sem) (refs : List Ref) (x : Sym) : Prop :=
  ∃ r ∈ refs, r.sym = some x ∧ r.markExport = true ∧ (sem.scope r.scope).isModule = true

/-- `x` is used inside a `with`. -/
def UsedInWith (sem : Sem) (refs : List Ref) (x : Sym) : Prop :=
  ∃ s, Anc sem sem.top s ∧ HasWith sem s ∧ Free sem refs s x

/-- `x` must keep its name although its scope is not observable. -/
def Pinned (sem : Sem) (refs : List Ref) (x : Sym) : Prop := Exported sem refs x ∨ UsedInWith sem refs x

/-- Where a variable must keep its name because of an export or a `with` further inside, the free variables
of its scope keep theirs too. (Programs without `with` and with exports only at the top meet this.) -/
def PinsAreSafe (sem : Sem) (refs : List Ref) : Prop :=
  ∀ s x y, Anc sem sem.top s → Declares sem s x → Pinned sem refs x → Free sem refs s y →
    Pinned sem refs y ∨ Observable sem (sem.declScope y)

/-- A function declared in a block and the `var` it also assigns to: the scopes in between declare nothing,
a `with` or `eval` in the block is also seen by the function around it, and a `with` further inside does
not use the block's binding alone. -/
structure LinkOk (sem : Sem) (refs : List Ref) (b v : Sym) : Prop where
  block : Declares sem (sem.declScope b) b
  above : ∃ p, (sem.scope (sem.declScope b)).parent = some p ∧ Anc sem (sem.declScope v) p
  between : ∀ s x, Anc sem (sem.declScope v) s → Anc sem s (sem.declScope b) → s ≠ sem.declScope v →
    s ≠ sem.declScope b → ¬ Declares sem s x
  target : (Declares sem (sem.declScope v) v ∧ sem.symName v = sem.symName b) ∨
    (sem.declScope v = sem.top ∧ ∀ x, ¬ Declares sem sem.top x)
  observable : Observable sem (sem.declScope b) → Observable sem (sem.declScope v)
  pinned : Pinned sem refs b → Pinned sem refs v

/-- The links between block functions and `var`s: a map, no `var` is itself a block function, and every
link is as above. -/
structure Links (sem : Sem) (refs : List Ref) : Prop where
  map : (sem.annexB.map Prod.fst).Nodup
  apart : ∀ b v, (b, v) ∈ sem.annexB → ∀ w, (v, w) ∉ sem.annexB
  ok : ∀ b v, (b, v) ∈ sem.annexB → LinkOk sem refs b v

end Verif.Rename
