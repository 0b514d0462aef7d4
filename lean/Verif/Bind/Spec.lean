import Verif.Bind.Model

/-!
# Where ECMA-262 binds an identifier

A scope chain is a list of scopes, innermost first, each with the names bound in
it.  An identifier means the first scope of the chain that binds its name
(ECMA-262 §9.1.2.1 GetIdentifierReference).  The names a scope binds are read off
the syntax before anything runs (§8.2 Scope Analysis, Annex B.3.2 for functions
in blocks of sloppy code).
-/

namespace Verif.Bind

/-- How a name is declared. -/
inductive Tag
  /-- A `var`, a parameter, or a function at the top level of a function: bound
  in the function around it. -/
  | var
  /-- `let`, `const`, class, import, or the own name of an expression: bound in
  the scope around it. -/
  | lex
  /-- A function in a block: bound in the block.  The flag says whether Annex
  B.3.2 applies: sloppy code, not async, not a generator. -/
  | fn (annexB : Bool)
  /-- The `var` that Annex B.3.2 adds for a function in an inner block. -/
  | hoist
  /-- A catch parameter; the flag says whether it is a plain identifier. -/
  | catchP (simple : Bool)
deriving DecidableEq, Repr

abbrev Decls := List (Tag × Name)

/-- Bound in the scope around it, whatever that scope is. -/
def Tag.isLocal : Tag → Bool
  | .lex | .fn _ | .catchP _ => true
  | _ => false

/-- A `var` of this name may not appear in a scope with this declaration.  A plain
catch parameter is no obstacle (Annex B.3.4). -/
def Tag.blocks : Tag → Bool
  | .lex | .fn _ | .catchP false => true
  | _ => false

/-- Some declaration of `x` stands in the way of a `var x`. -/
def blocked (L : Decls) (x : Name) : Bool := L.any fun d => d.1.blocks && d.2 == x

/-- What the declarations in a block say to the scope around the block.  A `var`
goes on.  A function of the block gives an Annex B `var`.  One from further in
goes on if a `var` of that name could stand here. -/
def outward (L : Decls) : Decls :=
  L.filterMap fun d => match d.1 with
    | .var => some (.var, d.2)
    | .fn true => some (.hoist, d.2)
    | .hoist => if blocked L d.2 then none else some (.hoist, d.2)
    | _ => none

/-- What a pattern declares inside a node without a scope. -/
def Group.gov (gov : Option Tag) : Group → Option Tag
  | .varDecl .var => some .var
  | .varDecl .lexical => some .lex
  | .import_ => some .lex
  | _ => gov

/-- Whether an identifier of a pattern is being declared: it is inside a
declared pattern, and it is not inside a default value or a computed key. -/
def Group.act (a : Bool) : Group → Bool
  | .patDecl => true
  | .dflt => false
  | _ => a

/-- What a pattern declares directly inside a scope. -/
def ScopeNode.gov (gov : Option Tag) : ScopeNode → Option Tag
  | .catch_ simple => some (.catchP simple)
  | _ => gov

/-- Function declarations directly inside are bound in this scope. -/
def ScopeNode.isBlock : ScopeNode → Bool
  | .block | .catch_ _ => true
  | _ => false

/-- Only class code is strict by itself (§11.2.2). -/
def ScopeNode.isStrict (s : Bool) : ScopeNode → Bool
  | .cls => true
  | _ => s

/-- What a piece of a program declares for the scope around it.  `blk`: directly
in a block; `s`: strict code; `gov`: what a declared pattern declares; `a`:
inside a declared pattern. -/
def decls (blk s : Bool) (gov : Option Tag) (a : Bool) : Tree → Decls
  | .nil => []
  | .seq t u => decls blk s gov a t ++ decls blk s gov a u
  | .use _ => []
  | .pat x =>
    if a then
      match gov with
      | none => []
      | some g => [(g, x)]
    else []
  | .fname x plain => if blk then [(.fn (plain && !s), x)] else [(.var, x)]
  | .cname x => [(.lex, x)]
  | .group g t => decls blk s (g.gov gov) (g.act a) t
  | .scope .static _ _ => []
  | .scope k _ t => outward (decls k.isBlock (k.isStrict s) (k.gov gov) a t)
  | .func _ _ _ _ _ => []
  | .forOf _ lhs rhs b =>
    outward (decls true s (some .lex) a lhs ++ decls true s gov a b)
      ++ decls blk s gov a rhs

/-- The names a block binds. -/
def blockNames (L : Decls) : List Name := (L.filter fun d => d.1.isLocal).map (·.2)

/-- The names a function binds: everything that reaches it. -/
def funcNames (L : Decls) : List Name := L.map (·.2)

/-- The names a parameter list binds. -/
def paramNames (L : Decls) : List Name := (L.filter fun d => d.1 != .hoist).map (·.2)

/-- A function that is no arrow function also binds `arguments` (§10.2.11). -/
def argNames (arrow : Bool) : List Name := if arrow then [] else ["arguments"]

/-- A scope chain. -/
abbrev Env := List (ScopeId × List Name)

/-- The scope an identifier means. -/
def find (E : Env) (x : Name) : Option ScopeId :=
  (E.find? fun f => decide (x ∈ f.2)).map (·.1)

/-- Every use of an identifier in source order, with the scope it means.  Scopes
are named as in the model, by the kinds and spans from them to the top.

The parameters of a function do not see what its body declares, and neither do
functions inside the parameters (§10.2.11).  The head expression of a `for`-`of`
sees the loop's names, uninitialised (§14.7.5.12).

A function's body and its parameters are counted as one scope: if the body
redeclares a parameter, both are the same binding.  The copy of a declared class's
name that its body sees (§15.7.14) is counted as the same binding as the name. -/
def walk (E : Env) (cur : ScopeId) (blk s : Bool) (gov : Option Tag) (a : Bool) :
    Tree → List (Name × Option ScopeId)
  | .nil => []
  | .seq t u => walk E cur blk s gov a t ++ walk E cur blk s gov a u
  | .use x => [(x, find E x)]
  | .pat x => if a then [] else [(x, find E x)]
  | .fname _ _ => []
  | .cname _ => []
  | .group g t => walk E cur blk s (g.gov gov) (g.act a) t
  | .scope .static sp t =>
    walk (((.static, sp) :: cur, funcNames (decls false s gov a t)) :: E)
      ((.static, sp) :: cur) false s gov a t
  | .scope k sp t =>
    walk (((k.kind, sp) :: cur,
        blockNames (decls k.isBlock (k.isStrict s) (k.gov gov) a t)) :: E)
      ((k.kind, sp) :: cur) k.isBlock (k.isStrict s) (k.gov gov) a t
  | .func sp arrow strict ps b =>
    walk (((funcKind arrow, sp) :: cur,
        argNames arrow ++ paramNames (decls false (s || strict) (some .var) false ps)) :: E)
      ((funcKind arrow, sp) :: cur) false (s || strict) (some .var) false ps
    ++ walk (((funcKind arrow, sp) :: cur,
        argNames arrow ++ funcNames (decls false (s || strict) (some .var) false ps
          ++ decls false (s || strict) (some .var) false b)) :: E)
      ((funcKind arrow, sp) :: cur) false (s || strict) (some .var) false b
  | .forOf sp lhs rhs b =>
    walk (((.block, sp) :: cur,
        blockNames (decls true s (some .lex) a lhs ++ decls true s gov a b)) :: E)
      ((.block, sp) :: cur) true s (some .lex) a lhs
    ++ (walk (((.block, sp) :: cur, blockNames (decls true s (some .lex) a lhs)) :: E)
        cur blk s gov a rhs
      ++ walk (((.block, sp) :: cur,
          blockNames (decls true s (some .lex) a lhs ++ decls true s gov a b)) :: E)
        ((.block, sp) :: cur) true s gov a b)

/-- Every use in a program, with the scope it means.  In the mode for tools that
know the globals already, the names of the top scope are left unresolved. -/
def meaning (m : Mode) (strict : Bool) (sp : Nat) (t : Tree) : List (Name × Option ScopeId) :=
  walk [([(topKind m, sp)],
      if m = .global then [] else funcNames (decls false (m == .module_ || strict) none false t))]
    [(topKind m, sp)] false (m == .module_ || strict) none false t

/-! ## What the theorem assumes of a program -/

/-- The scopes a piece of a program makes directly inside the scope around it. -/
def keys : Tree → List (SK × Nat)
  | .seq a b => keys a ++ keys b
  | .group _ t => keys t
  | .scope k sp _ => [(k.kind, sp)]
  | .func sp arrow _ _ _ => [(funcKind arrow, sp)]
  | .forOf sp _ rhs _ => (.block, sp) :: keys rhs
  | _ => []

/-- Two scopes of one kind directly inside the same scope have different spans. -/
def Distinct : Tree → Prop
  | .seq a b => Distinct a ∧ Distinct b ∧ ∀ k ∈ keys a, k ∉ keys b
  | .group _ t => Distinct t
  | .scope _ _ t => Distinct t
  | .func _ _ _ ps b => Distinct ps ∧ Distinct b ∧ ∀ k ∈ keys ps, k ∉ keys b
  | .forOf sp lhs rhs b =>
    Distinct lhs ∧ Distinct rhs ∧ Distinct b ∧ (∀ k ∈ keys lhs, k ∉ keys b) ∧
      (.block, sp) ∉ keys rhs
  | _ => True

/-- The identifiers in a piece of a program. -/
def mentions : Tree → List Name
  | .seq a b => mentions a ++ mentions b
  | .use x | .pat x => [x]
  | .group _ t => mentions t
  | .scope _ _ t => mentions t
  | .func _ _ _ ps b => mentions ps ++ mentions b
  | .forOf _ lhs rhs b => mentions lhs ++ (mentions rhs ++ mentions b)
  | _ => []

/-- It contains a function. -/
def hasFunc : Tree → Bool
  | .seq a b => hasFunc a || hasFunc b
  | .group _ t => hasFunc t
  | .scope _ _ t => hasFunc t
  | .func _ _ _ _ _ => true
  | .forOf _ lhs rhs b => hasFunc lhs || hasFunc rhs || hasFunc b
  | _ => false

/-- Annex B: no name handed out of an inner block is at the same time a catch
parameter of this scope and in the way.  It fails for destructured catch
parameters only, or for a body that redeclares the parameter, which is an early
error. -/
def catchOk (L : Decls) : Bool :=
  L.all fun d => d.1 != .hoist ||
    !(L.any fun e => (e.1 == .catchP true || e.1 == .catchP false) && e.2 == d.2) ||
    !blocked L d.2

/-- Inside a declared pattern, its default values and computed keys included. -/
def Group.within (p : Bool) : Group → Bool
  | .patDecl => true
  | _ => p

/-- Inside a method. -/
def Group.inMethod (c : Bool) : Group → Bool
  | .method => true
  | _ => c

/-- The programs the theorem speaks about.  Every conjunct that is not a fact of
the grammar leaves out programs that the binder gets wrong; each has a
counterexample in `Theorems.lean`.

* Being somewhere inside a declared pattern (`p`) is being declared by it (`a`).  It
  fails for an assignment inside a default value of a declared pattern.
* At a function declaration in a block, Annex B applies (`plain`, sloppy by `s`)
  just if the code is not strict and not in a method (`c`).  It fails for async
  functions and generators in blocks of sloppy code, and for functions in blocks of a
  sloppy object literal's methods.
* If there is a function in a parameter list, the body declares no further names.
* The head expression of a lexical `for`-`of` uses none of the loop's names.
* `catchOk`. -/
def Fits (p a c s blk : Bool) (gov : Option Tag) : Tree → Prop
  | .seq t u => Fits p a c s blk gov t ∧ Fits p a c s blk gov u
  | .pat _ => p = a ∧ (∀ b, gov = some (.catchP b) → blk = true)
  | .fname _ plain => blk = true → (plain && !s) = !c
  | .group g t => Fits (g.within p) (g.act a) (g.inMethod c) s blk (g.gov gov) t
  | .scope k _ t =>
    Fits p a (k.isStrict c) (k.isStrict s) k.isBlock (k.gov gov) t ∧
      catchOk (decls k.isBlock (k.isStrict s) (k.gov gov) a t) = true
  | .func _ _ strict ps b =>
    Fits p false (c || strict) (s || strict) false (some .var) ps ∧
    Fits p false (c || strict) (s || strict) false (some .var) b ∧
    (hasFunc ps = true →
      ∀ x ∈ funcNames (decls false (s || strict) (some .var) false ps
          ++ decls false (s || strict) (some .var) false b),
        x ∈ paramNames (decls false (s || strict) (some .var) false ps))
  | .forOf _ lhs rhs b =>
    Fits p a c s true (some .lex) lhs ∧ Fits p a c s blk gov rhs ∧
    Fits p a c s true gov b ∧
    catchOk (decls true s (some .lex) a lhs ++ decls true s gov a b) = true ∧
    ∀ x ∈ mentions rhs, x ∉ blockNames (decls true s (some .lex) a lhs)
  | _ => True

end Verif.Bind
