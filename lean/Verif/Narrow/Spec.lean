import Verif.Narrow.Model

/-!
# What narrowing is to do (C86)

Types are sets of values. A condition that came out true or false tells something about the values
of the variables; the narrowed types must still have those values.
-/

namespace Verif.Narrow

inductive Class where
  | plain | array | function
  deriving DecidableEq, Repr

/-- Keys of objects at run time: `x[0]` and `x["0"]` are the same. -/
inductive JsKey where
  | name (s : String)
  | sym (n : Nat)
  deriving DecidableEq

def Key.js : Key → JsKey
  | .str s => .name s
  | .num n => .name (toString n)
  | .sym n => .sym n

def Segment.js : Segment → JsKey
  | .str s => .name s
  | .num n => .name (toString n)

/-- Values. An object has some keys and a value for each of them. -/
inductive V where
  | undef | null
  | bool (b : Bool) | num (n : Num) | str (s : String) | big (i : Int) | sym (n : Nat)
  | obj (c : Class) (has : JsKey → Bool) (get : JsKey → V)

/-- ECMA-262 7.1.2 ToBoolean -/
def V.truthy : V → Bool
  | .undef | .null => false
  | .bool b => b
  | .num n => n ≠ .nan && n ≠ .val 0
  | .str s => s ≠ ""
  | .big i => i ≠ 0
  | .sym _ | .obj _ _ _ => true

/-- ECMA-262 13.5.3 typeof -/
def V.typeof : V → String
  | .undef => "undefined"
  | .null => "object"
  | .bool _ => "boolean"
  | .num _ => "number"
  | .str _ => "string"
  | .big _ => "bigint"
  | .sym _ => "symbol"
  | .obj .function _ _ => "function"
  | .obj _ _ _ => "object"

def V.nullish (v : V) : Prop := v = .undef ∨ v = .null

def Lit.val : Lit → V
  | .str s => .str s
  | .num n => .num (.val n)
  | .bool b => .bool b
  | .null => .null
  | .undef => .undef

/-- What is left open: the values of types that are not looked into, the properties of primitive
values, and what `==` takes for equal to a literal beside the literal itself. If `exact`, objects
have no other properties than their types say. -/
structure World where
  ref : Nat → V → Prop
  param : Nat → V → Prop
  computed : Nat → V → Prop
  iteratorReturn : V → Prop
  template : Nat → String → Prop
  caseOf : Ty → String → Prop
  builtin : V → String → V
  coerces : V → Lit → Prop
  exact : Bool

mutual
/-- Whether an index signature with keys of this type is about names that are (`num`) or are not
numbers. -/
def covers (num : Bool) : Ty → Bool
  | .string => true
  | .strLit _ => true
  | .number => num
  | .numLit _ => num
  | .union ms => coversSome num ms
  | .inter ms => coversEach num ms
  | _ => false
def coversSome (num : Bool) : List Ty → Bool
  | m :: ms => covers num m || coversSome num ms
  | [] => false
def coversEach (num : Bool) : List Ty → Bool
  | m :: ms => covers num m && coversEach num ms
  | [] => true
end

/-- The values of a type. Object types hold functions exactly if they have call signatures. -/
inductive Mem (K : Tools) (W : World) : V → Ty → Prop where
  | any {v} : Mem K W v .any
  | unknown {v} : Mem K W v .unknown
  | void : Mem K W .undef .void
  | null : Mem K W .null .null
  | undef : Mem K W .undef .undef
  | emptyObject {v} : ¬ v.nullish → Mem K W v .emptyObject
  | boolean {b} : Mem K W (.bool b) .boolean
  | number {n} : Mem K W (.num n) .number
  | string {s} : Mem K W (.str s) .string
  | bigint {i} : Mem K W (.big i) .bigint
  | symbol {n} : Mem K W (.sym n) .symbol
  | boolLit {b} : Mem K W (.bool b) (.boolLit b)
  | numLit {n} : Mem K W (.num n) (.numLit n)
  | strLit {s} : Mem K W (.str s) (.strLit s)
  | bigLit {i} : Mem K W (.big i) (.bigLit i)
  | template {s p} : W.template p s → Mem K W (.str s) (.template p)
  | array {has get e} : has (.name "length") = true →
      (∀ s, has (.name s) = true → K.index s = true → Mem K W (get (.name s)) e) →
      Mem K W (.obj .array has get) (.array e)
  | tuple {has get} {es : List Ty} : has (.name "length") = true →
      (∀ (i : Nat) (e : Ty), es[i]? = some e → has (.name (toString i)) = true) →
      (∀ (i : Nat) (e : Ty), es[i]? = some e → Mem K W (get (.name (toString i))) e) →
      Mem K W (.obj .array has get) (.tuple es)
  | object {c has get ps is callable} : (c = .function ↔ callable = true) →
      (∀ k t, (k, t, false) ∈ ps → has k.js = true) →
      (∀ k t o, (k, t, o) ∈ ps → has k.js = true →
        (o = true → get k.js ≠ V.undef) → Mem K W (get k.js) t) →
      (∀ kt t, (kt, t) ∈ is → ∀ s, has (.name s) = true → covers (K.numeric s) kt = true →
        Mem K W (get (.name s)) t) →
      (W.exact = true → ∀ s, has (.name s) = true →
        (∃ k t o, (k, t, o) ∈ ps ∧ k.js = .name s) ∨
        ∃ kt t, (kt, t) ∈ is ∧ covers (K.numeric s) kt = true) →
      Mem K W (.obj c has get) (.object ps is callable)
  | callable {has get} : Mem K W (.obj .function has get) .callable
  | union {v m ms} : m ∈ ms → Mem K W v m → Mem K W v (.union ms)
  | inter {v ms} : (∀ m ∈ ms, Mem K W v m) → Mem K W v (.inter ms)
  | ref {v n} : W.ref n v → Mem K W v (.ref n)
  | param {v n} : W.param n v → Mem K W v (.param n)
  | computed {v n} : W.computed n v → Mem K W v (.computed n)
  | noInfer {v t} : Mem K W v t → Mem K W v (.noInfer t)
  | iteratorReturn {v} : W.iteratorReturn v → Mem K W v .iteratorReturn
  | caseOf {s t} : W.caseOf t s → Mem K W (.str s) (.caseOf t)

/-- Reading a path of properties; fails at undefined and null. -/
def read (W : World) : V → List Segment → Option V
  | v, [] => some v
  | .undef, _ :: _ => none
  | .null, _ :: _ => none
  | .obj _ has get, g :: path => read W (if has g.js then get g.js else .undef) path
  | v, g :: path =>
    match g.js with
    | .name s => read W (W.builtin v s) path
    | .sym _ => none

/-- `v == lit` without `v === lit`: null and undefined equal each other. -/
def Coerces (W : World) (v : V) (lit : Lit) : Prop :=
  match lit with
  | .null | .undef => v.nullish
  | _ => W.coerces v lit

/-- What a test of a value comes out as. There is nothing if it throws: reading a property of
undefined, or `in` of a value that is no object. -/
def Outcome (K : Tools) (W : World) (v : V) (b : Bool) : Test → Prop
  | .truthy => v.truthy = b
  | .typeof s => b = true ↔ v.typeof = s
  | .eq lit loose => b = true ↔ v = lit.val ∨ (loose = true ∧ Coerces W v lit)
  | .path g p lit => ∃ w, read W v (g :: p) = some w ∧ (b = true ↔ w = lit.val)
  | .has p => ∃ c has get, v = .obj c has get ∧ has (.name p) = b
  | .is t => b = true ↔ Mem K W v t

/-- What a condition comes out as, given the values of the variables. -/
inductive Runs (K : Tools) (W : World) (σ : Nat → V) : Cond → Bool → Prop where
  | test {t x b} : Outcome K W (σ x) b t → Runs K W σ (.test false t x) b
  | testNot {t x b} : Outcome K W (σ x) b t → Runs K W σ (.test true t x) (!b)
  | not {c b} : Runs K W σ c b → Runs K W σ (.not c) (!b)
  | andFalse {a c} : Runs K W σ a false → Runs K W σ (.and a c) false
  | andTrue {a c b} : Runs K W σ a true → Runs K W σ c b → Runs K W σ (.and a c) b
  | orTrue {a c} : Runs K W σ a true → Runs K W σ (.or a c) true
  | orFalse {a c b} : Runs K W σ a false → Runs K W σ c b → Runs K W σ (.or a c) b
  | left {x c} : ¬ (σ x).nullish → Runs K W σ (.coalesce x c) (σ x).truthy
  | right {x c b} : (σ x).nullish → Runs K W σ c b → Runs K W σ (.coalesce x c) b

/-- The variables have values of their types. -/
def Models (K : Tools) (W : World) (σ : Nat → V) (Γ : Env) : Prop := ∀ x, Mem K W (σ x) (Γ x)

/-- The store's union has the values of its members (C66). -/
def UnionOk (K : Tools) (W : World) : Prop :=
  ∀ ts v, Mem K W v (K.union ts) ↔ ∃ t ∈ ts, Mem K W v t

/-- Assignable types have the values of their sources (C84). -/
def AssignableOk (K : Tools) (W : World) : Prop :=
  ∀ a b v, K.assignable a b = true → Mem K W v a → Mem K W v b

/-- Texts of numbers parse as numbers. -/
def NumericOk (K : Tools) : Prop := ∀ n : Int, K.numeric (toString n) = true

/-! ## Where narrowing is to be trusted

For every kind of test, the types for which a true (`b`) or false outcome keeps all values. The
types left out are those of the `_violated` theorems. -/

mutual
/-- The members of a union, and of unions in it; `through` also those of `NoInfer`. -/
def leaves (through : Bool) : Ty → List Ty
  | .union ms => leavesAll through ms
  | .noInfer t => if through then leaves through t else [.noInfer t]
  | t => [t]
def leavesAll (through : Bool) : List Ty → List Ty
  | [] => []
  | m :: ms => leaves through m ++ leavesAll through ms
end

/-- Types that are not looked into. -/
def Ty.opaque : Ty → Bool
  | .any | .unknown | .union _ | .inter _ | .ref _ | .param _ | .computed _ | .noInfer _
  | .iteratorReturn => true
  | _ => false

def FairTypeofMember (b : Bool) (s : String) : Ty → Prop
  | .tuple _ => b = true → s ≠ "object"
  | .void => b = true → s ≠ "undefined"
  | .template _ => b = true → s ≠ "string"
  | .object _ _ c => c = true → if b then s ≠ "function" else s ≠ "object"
  | .ref _ => b = false ∧ s ≠ "object"
  | .noInfer t => FairTypeofMember b s t
  | .any | .unknown | .emptyObject | .inter _ | .union _ | .param _ | .computed _ | .iteratorReturn =>
    b = false
  | _ => True

def FairTypeof (b : Bool) (s : String) : Ty → Prop
  | .union ms => ∀ m ∈ ms, FairTypeofMember b s m
  | .noInfer t => FairTypeof b s t
  | .any | .unknown | .emptyObject | .iteratorReturn => True
  | t => FairTypeofMember b s t

/-- A comparison with null or undefined. -/
def FairNullish (b : Bool) (t : Ty) : Prop :=
  b = true → ∀ l ∈ leaves false t, l.opaque = false ∧ l ≠ .void

/-- A type whose values are equal to a literal only if the type says so. -/
def Comparable (lit : Lit) (l : Ty) : Prop :=
  l.opaque = false ∧
  match l with
  | .emptyObject | .template _ | .caseOf _ => False
  | .void => lit ≠ .undef
  | _ => True

def FairLiteral (K : Tools) (W : World) (b : Bool) (lit : Lit) (loose : Bool) (t : Ty) : Prop :=
  b = true → (∀ l ∈ leaves false t, Comparable lit l) ∧
    (loose = true → ∀ v, Mem K W v t → ¬ W.coerces v lit)

/-- Strings and numbers are told apart in paths. -/
def Segment.same : Segment → Key → Bool
  | .str s, .str t => s = t
  | .num m, .num n => m = n
  | _, _ => false

/-- Written as a number. -/
def Segment.number : Segment → Bool
  | .num _ => true
  | _ => false

/-- The type of a property, and whether it may be absent. -/
def found (g : Segment) : List (Key × Ty × Bool) → List (Ty × Ty) → Option (Ty × Bool)
  | (k, t, o) :: ps, is => if g.same k then some (t, o) else found g ps is
  | [], (kt, t) :: is => if covers g.number kt then some (t, true) else found g [] is
  | [], [] => none

/-- All objects of the type that have the literal at the path are recognized. -/
def FairPathTrue (lit : Lit) : List Segment → Ty → Prop
  | [], _ => True
  | g :: path, .object ps is _ => ∃ t o, found g ps is = some (t, o) ∧
      match path with
      | [] => (∀ l ∈ leaves false t, Comparable lit l) ∧ (o = true → lit ≠ .undef)
      | _ => ∀ l ∈ leaves false t, FairPathTrue lit path l
  | _ :: _, t => t = .null ∨ t = .undef ∨ t = .void ∨ t = .never

/-- A type that is not about the literal. -/
def Apart : Lit → Ty → Prop
  | .str s, .strLit t => s ≠ t
  | .str _, .string => False
  | .num m, .numLit n => n ≠ .val m
  | .num _, .number => False
  | .bool a, .boolLit b => a ≠ b
  | .bool _, .boolean => False
  | .null, .null => False
  | .undef, .undef => False
  | _, _ => True

/-- The type does not say that the literal could be at the path. -/
def Excluded (lit : Lit) : List Segment → Ty → Prop
  | [], _ => True
  | g :: path, .object ps is _ =>
    ∀ t o, found g ps is = some (t, o) →
      match path with
      | [] => ∀ l ∈ leaves false t, Apart lit l
      | _ => ∀ l ∈ leaves false t, Excluded lit path l
  | _ :: _, .inter _ => False
  | _ :: _, _ => True

/-- All objects of the type have the literal at the path. -/
def Certain (lit : Lit) : List Segment → Ty → Prop
  | [], _ => False
  | g :: path, .object ps is _ => ∃ t, found g ps is = some (t, false) ∧
      match path with
      | [] =>
        match t, lit with
        | .strLit s, .str s' => s = s'
        | .numLit (.val i), .num j => i = j
        | .boolLit b, .bool b' => b = b'
        | .null, .null => True
        | .undef, .undef => True
        | _, _ => False
      | _ => Certain lit path t
  | _ :: _, _ => False

def FairPathLeaf (b : Bool) (path : List Segment) (lit : Lit) : Ty → Prop
  | .any | .unknown | .emptyObject | .param _ | .ref _ => True
  | t => if b then FairPathTrue lit path t else Excluded lit path t ∨ Certain lit path t

def FairHasLeaf (K : Tools) (W : World) (b : Bool) (p : String) : Ty → Prop
  | .object ps is _ =>
    if ps.any (fun q => q.1.js = .name p) || is.any (fun i => covers (K.numeric p) i.1) then
      b = false → ∃ k t, (k, t, false) ∈ ps ∧ k.js = .name p
    else b = true → W.exact = true
  | .array _ | .tuple _ => if p = "length" then True else if K.index p then b = true else b = false
  | .inter _ => False
  | .callable | .computed _ | .noInfer _ | .iteratorReturn => b = false
  | _ => True

def FairIsLeaf (K : Tools) (W : World) (target l : Ty) : Prop :=
  K.assignable l target = true ∨ K.assignable target l = true ∨
    ∀ v, Mem K W v l → ¬ Mem K W v target

def FairTest (K : Tools) (W : World) (b : Bool) (ty : Ty) : Test → Prop
  | .truthy => True
  | .typeof s => FairTypeof b s ty
  | .eq .null _ => FairNullish b ty
  | .eq .undef _ => FairNullish b ty
  | .eq lit loose => FairLiteral K W b lit loose ty
  | .path g p lit => ∀ l ∈ leaves false ty, FairPathLeaf b (g :: p) lit l
  | .has p => ∀ l ∈ leaves false ty, FairHasLeaf K W b p l
  | .is t => b = true → ∀ l ∈ leaves false ty, FairIsLeaf K W t l

/-- Types that are split right into null and undefined on the one hand and the rest. -/
def FairCoalesce (t : Ty) : Prop :=
  ∀ l ∈ leaves true t, (∀ n, l ≠ .ref n) ∧ (∀ n, l ≠ .param n) ∧ ∀ n, l ≠ .computed n

/-- The variables of a condition. -/
def Cond.vars : Cond → List Nat
  | .test _ _ x => [x]
  | .not c => c.vars
  | .and a b => a.vars ++ b.vars
  | .or a b => a.vars ++ b.vars
  | .coalesce x c => x :: c.vars

/-- The conditions of which an outcome keeps all values. A false `a && b` is to be trusted only if
`b` is about variables `a` is about, and `a` is false only for null and undefined; `x ?? c` only
if `c` is about `x`, too. -/
def Fair (K : Tools) (W : World) : Env → Bool → Cond → Prop
  | Γ, b, .test neg t x => FairTest K W (b != neg) (Γ x) t
  | Γ, b, .not c => Fair K W Γ (!b) c
  | Γ, true, .and a c => Fair K W Γ true a ∧ Fair K W (branch K Γ a true) true c
  | Γ, false, .and a c =>
    (∀ y ∈ c.vars, y ∈ a.vars) ∧
    (∀ y ∈ a.vars, ∀ l ∈ leaves true (branch K Γ a false y), l = .null ∨ l = .undef ∨ l = .void) ∧
    Fair K W Γ false a ∧ Fair K W Γ true a ∧ Fair K W (branch K Γ a true) false c
  | Γ, true, .or a c =>
    Fair K W Γ true a ∧ Fair K W Γ false a ∧ Fair K W (branch K Γ a false) true c
  | Γ, false, .or a c => Fair K W Γ false a ∧ Fair K W (branch K Γ a false) false c
  | Γ, b, .coalesce x c =>
    (∀ y ∈ c.vars, y = x) ∧ FairCoalesce (Γ x) ∧ Fair K W (setVar Γ x (nonNullish K (Γ x)).2) b c

end Verif.Narrow
