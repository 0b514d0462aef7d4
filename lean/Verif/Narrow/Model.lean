/-!
# Model of type narrowing in typecheck-ts

typecheck-ts/src/check/flow_narrow.rs, and the part of hir_body.rs that evaluates conditions.

Simplified:
* Types are trees. References to named types are not expanded here (`expander` is `None`); a `named`
  type stands for references, type parameters, conditional, mapped and indexed types and the like.
* Facts are about variables; the facts about property paths (`x.kind`) that the code keeps beside
  those about `x` are left out, and so are optional chains, assertion functions, `instanceof`, and
  comparisons of two variables.
* Numbers are NaN or an integer.
* The type of the operand of `typeof` is the type of the variable (in the code: the union of the
  types it had each time the body was visited).
-/

namespace Verif.Narrow

/-- Numbers: NaN, or one of the others. -/
inductive Num where
  | nan
  | val (i : Int)
  deriving DecidableEq, Repr

/-- types-ts-interned/src/shape.rs 36-42 `PropKey` -/
inductive Key where
  | str (s : String)
  | num (n : Int)
  | sym (n : Nat)
  deriving DecidableEq, Repr

/-- types-ts-interned/src/kind.rs 120-198 `TypeKind`. An object type has properties (key, type,
optional), index signatures (type of the keys, type of the values), and may be callable.
`named` are references and type parameters, `computed` the types that are not looked into
(conditional, mapped, indexed access, keyof, this, predicate, infer). -/
inductive Ty where
  | any | unknown | never | void | null | undef | emptyObject
  | boolean | number | string | bigint | symbol
  | boolLit (b : Bool) | numLit (n : Num) | strLit (s : String) | bigLit (i : Int)
  | template (p : Nat)
  | array (e : Ty)
  | tuple (es : List Ty)
  | object (props : List (Key × Ty × Bool)) (indexers : List (Ty × Ty)) (callable : Bool)
  | callable
  | union (ms : List Ty)
  | inter (ms : List Ty)
  | ref (n : Nat)
  | param (n : Nat)
  | computed (n : Nat)
  /-- `NoInfer<T>` -/
  | noInfer (t : Ty)
  /-- `BuiltinIteratorReturn` -/
  | iteratorReturn
  /-- `Uppercase<T>` and the like -/
  | caseOf (t : Ty)
  deriving Repr

/-- flow_narrow.rs 222-230 `LiteralValue`; a number is compared as its text in the code -/
inductive Lit where
  | str (s : String) | num (n : Int) | bool (b : Bool) | null | undef
  deriving DecidableEq, Repr

/-- flow.rs 11-16 `PathSegment` -/
inductive Segment where
  | str (s : String)
  | num (n : Int)
  deriving DecidableEq, Repr

/-- What narrowing uses: the store's union (store.rs 770-830), assignability, and whether a name
parses as a number (`str::parse::<f64>`) or as a number that is an index. -/
structure Tools where
  union : List Ty → Ty
  assignable : Ty → Ty → Bool
  numeric : String → Bool
  index : String → Bool

/-- flow_narrow.rs 269-274 and the other loops over the members of a union: `never` is not pushed -/
def keep : Ty → List Ty → List Ty
  | .never, ts => ts
  | t, ts => t :: ts

section
variable (K : Tools)

mutual
/-- The recursion over unions (and through `NoInfer`, if `through`) that most functions of
flow_narrow.rs share: 263-277, 293-306, 358-371 and 410-413, 432-450, 556-570, 721-731, 960-973. -/
def split (through : Bool) (leaf : Ty → Ty × Ty) : Ty → Ty × Ty
  | .union ms => let r := splits through leaf ms; (K.union r.1, K.union r.2)
  | .noInfer t => if through then split through leaf t else leaf (.noInfer t)
  | t => leaf t
def splits (through : Bool) (leaf : Ty → Ty × Ty) : List Ty → List Ty × List Ty
  | [] => ([], [])
  | m :: ms =>
    let r := split through leaf m
    let rs := splits through leaf ms
    (keep r.1 rs.1, keep r.2 rs.2)
end

/-- flow_narrow.rs 253-261 `matches_literal` -/
def matchesNullish (loose : Bool) : Lit → Ty → Bool
  | .null, .null => true
  | .null, .undef => loose
  | .undef, .undef => true
  | .undef, .null => loose
  | _, _ => false

/-- flow_narrow.rs 278-285 -/
def nullishLeaf (loose : Bool) (lit : Lit) (t : Ty) : Ty × Ty :=
  if matchesNullish loose lit t then (t, .never) else (.never, t)

/-- flow_narrow.rs 233-287 `narrow_by_nullish_equality`, for the four equality operators -/
def narrowNullishEq (loose : Bool) (lit : Lit) (t : Ty) : Ty × Ty :=
  match lit with
  | .null | .undef => split K false (nullishLeaf loose lit) t
  | _ => (.never, t)

/-- flow_narrow.rs 307-350 -/
def literalLeaf (lit : Lit) : Ty → Ty × Ty
  | .strLit s => if lit = .str s then (.strLit s, .never) else (.never, .strLit s)
  | .string => match lit with | .str s => (.strLit s, .string) | _ => (.never, .string)
  | .numLit n =>
    match n, lit with
    | .val i, .num j => if i = j then (.numLit n, .never) else (.never, .numLit n)
    | _, _ => (.never, .numLit n)
  | .number => match lit with | .num n => (.numLit (.val n), .number) | _ => (.never, .number)
  | .boolLit b => if lit = .bool b then (.boolLit b, .never) else (.never, .boolLit b)
  | .boolean => match lit with | .bool b => (.boolLit b, .boolean) | _ => (.never, .boolean)
  | .null => if lit = .null then (.null, .never) else (.never, .null)
  | .undef => if lit = .undef then (.undef, .never) else (.never, .undef)
  | t => (.never, t)

/-- flow_narrow.rs 290-352 `narrow_by_literal` -/
def narrowLiteral (lit : Lit) (t : Ty) : Ty × Ty := split K false (literalLeaf lit) t

/-- flow_narrow.rs 372-424 -/
def truthyLeaf : Ty → Ty × Ty
  | .never => (.never, .never)
  | .any => (.any, .any)
  | .unknown => (.unknown, .unknown)
  | .emptyObject => (.emptyObject, .emptyObject)
  | .null => (.never, .null)
  | .undef => (.never, .undef)
  | .void => (.never, .void)
  | .boolLit b => if b then (.boolLit b, .never) else (.never, .boolLit b)
  | .numLit n =>
    if n = .val 0 ∨ n = .nan then (.never, .numLit n) else (.numLit n, .never)
  | .bigLit i => if i = 0 then (.never, .bigLit i) else (.bigLit i, .never)
  | .strLit s => if s = "" then (.never, .strLit s) else (.strLit s, .never)
  | .boolean => (.boolLit true, .boolLit false)
  | .symbol => (.symbol, .never)
  | .object ps is c => (.object ps is c, .never)
  | .array e => (.array e, .never)
  | .tuple es => (.tuple es, .never)
  | .callable => (.callable, .never)
  | t => (t, t)

/-- flow_narrow.rs 355-426 `truthy_falsy_types` -/
def truthyFalsy (t : Ty) : Ty × Ty := split K true truthyLeaf t

/-- flow_narrow.rs 446-457 -/
def nonNullishLeaf : Ty → Ty × Ty
  | .null => (.never, .null)
  | .undef => (.never, .undef)
  | .void => (.never, .void)
  | .iteratorReturn => (.iteratorReturn, .iteratorReturn)
  | .any => (.any, .any)
  | .unknown => (.unknown, .unknown)
  | .inter ms => (.inter ms, .inter ms)
  | .never => (.never, .never)
  | t => (t, .never)

/-- flow_narrow.rs 429-459 `narrow_non_nullish` -/
def nonNullish (t : Ty) : Ty × Ty := split K true nonNullishLeaf t

/-- flow_narrow.rs 464-483 `matches_typeof` -/
def matchesTypeof (target : String) : Ty → Bool
  | .string | .strLit _ => target = "string"
  | .number | .numLit _ => target = "number"
  | .boolean | .boolLit _ => target = "boolean"
  | .bigint | .bigLit _ => target = "bigint"
  | .symbol => target = "symbol"
  | .callable => target = "function"
  | .undef => target = "undefined"
  | .null => target = "object"
  | .object _ _ _ | .array _ | .ref _ => target = "object"
  | .noInfer t => matchesTypeof target t
  | .caseOf _ => target = "string"
  | _ => false

/-- flow_narrow.rs 507-519 -/
def typeofUnknown (target : String) : Ty :=
  if target = "string" then .string
  else if target = "number" then .number
  else if target = "boolean" then .boolean
  else if target = "bigint" then .bigint
  else if target = "symbol" then .symbol
  else if target = "undefined" then .undef
  else .unknown

/-- flow_narrow.rs 462-528 `narrow_by_typeof` -/
def narrowTypeof (target : String) : Ty → Ty × Ty
  | .union ms =>
    (K.union (ms.filter fun m => matchesTypeof target m),
     K.union (ms.filter fun m => !matchesTypeof target m))
  | .any => (.any, .any)
  | .emptyObject => (.emptyObject, .emptyObject)
  | .noInfer t => narrowTypeof target t
  | .iteratorReturn => (.iteratorReturn, .iteratorReturn)
  | .unknown => (typeofUnknown target, .unknown)
  | t => if matchesTypeof target t then (t, .never) else (.never, t)

mutual
/-- typecheck-ts/src/type_queries.rs 614-649 `indexer_accepts_key` for a string key (`num` false) or a
number key; the depth limit is left out -/
def accepts (num : Bool) : Ty → Bool
  | .string | .strLit _ => true
  | .number | .numLit _ => num
  | .union ms => acceptsAny num ms
  | .inter ms => acceptsAll num ms
  | _ => false
def acceptsAny (num : Bool) : List Ty → Bool
  | [] => false
  | m :: ms => accepts num m || acceptsAny num ms
def acceptsAll (num : Bool) : List Ty → Bool
  | [] => true
  | m :: ms => accepts num m && acceptsAll num ms
end

/-- flow_narrow.rs 772-776: whether a property is the one named -/
def Key.named (s : String) : Key → Bool
  | .str t => t = s
  | .num n => toString n = s
  | .sym _ => false

/-- flow_narrow.rs 625-640 -/
def Segment.matches (g : Segment) (k : Key) : Bool :=
  match k, g with
  | .str t, .str s => t = s
  | .num m, .num n => m = n
  | _, _ => false

mutual
/-- flow_narrow.rs 665-692 `matches_discriminant_value` -/
def matchesValue (lit : Lit) : Ty → Bool
  | .union ms => matchesAnyValue lit ms
  | .strLit s => lit = .str s
  | .string => match lit with | .str _ => true | _ => false
  | .numLit (.val i) => lit = .num i
  | .number => match lit with | .num _ => true | _ => false
  | .boolLit b => lit = .bool b
  | .boolean => match lit with | .bool _ => true | _ => false
  | .null => lit = .null
  | .undef => lit = .undef
  | _ => false
def matchesAnyValue (lit : Lit) : List Ty → Bool
  | [] => false
  | m :: ms => matchesValue lit m || matchesAnyValue lit ms
end

/-- flow_narrow.rs 643-646 `probe_key` -/
def Segment.isNum : Segment → Bool
  | .str _ => false
  | .num _ => true

mutual
/-- flow_narrow.rs 599-663 `matches_discriminant_path` -/
def matchesPath (lit : Lit) : List Segment → Ty → Bool
  | [], _ => false
  | g :: path, .union ms => matchesPathAny lit (g :: path) ms
  | g :: path, .inter ms => matchesPathAny lit (g :: path) ms
  | g :: path, .object ps is _ => matchesProps lit g path ps is
  | _ :: _, _ => false
def matchesPathAny (lit : Lit) : List Segment → List Ty → Bool
  | _, [] => false
  | path, m :: ms => matchesPath lit path m || matchesPathAny lit path ms
/-- flow_narrow.rs 625-660: the first property with the key, then the first index signature that takes it -/
def matchesProps (lit : Lit) (g : Segment) (path : List Segment) :
    List (Key × Ty × Bool) → List (Ty × Ty) → Bool
  | (k, t, o) :: ps, is =>
    if g.matches k then
      match path with
      | [] => matchesValue lit t
      | h :: rest => matchesPath lit (h :: rest) t
    else matchesProps lit g path ps is
  | [], is => matchesIndexers lit g path is
def matchesIndexers (lit : Lit) (g : Segment) (path : List Segment) : List (Ty × Ty) → Bool
  | (kt, t) :: is =>
    if accepts g.isNum kt then
      match path with
      | [] => matchesValue lit t
      | h :: rest => matchesPath lit (h :: rest) t
    else matchesIndexers lit g path is
  | [] => false
end

/-- flow_narrow.rs 555, 571-576, 589-595 -/
def discriminantLeaf (path : List Segment) (lit : Lit) : Ty → Ty × Ty
  | .any => (.any, .any)
  | .unknown => (.unknown, .unknown)
  | .emptyObject => (.emptyObject, .emptyObject)
  | .param n => (.param n, .param n)
  | .ref n => (.ref n, .ref n)
  | t => if matchesPath lit path t then (t, .never) else (.never, t)

/-- flow_narrow.rs 531-597 `narrow_by_discriminant_path`, without expansion of references -/
def narrowDiscriminant (path : List Segment) (lit : Lit) (t : Ty) : Ty × Ty :=
  split K false (discriminantLeaf path lit) t

mutual
/-- flow_narrow.rs 695-808 `narrow_by_in_check`, without expansion of references. (In the code the
result of a leaf goes through `union` as well.) -/
def narrowIn (prop : String) : Ty → Ty × Ty
  | .union ms => let r := narrowIns prop ms; (K.union r.1, K.union r.2)
  | .inter ms =>
    (if canHave prop ms then .inter ms else .never, if canLack prop ms then .inter ms else .never)
  | .array e =>
    if prop = "length" ∨ K.index prop then (.array e, .never) else (.never, .array e)
  | .tuple es =>
    if prop = "length" ∨ K.index prop then (.tuple es, .never) else (.never, .tuple es)
  | .object ps is c =>
    if ps.any (fun p => p.1.named prop) || is.any (fun i => accepts (K.numeric prop) i.1) then
      (.object ps is c, .never)
    else (.never, .object ps is c)
  | .any => (.any, .any)
  | .unknown => (.unknown, .unknown)
  | .emptyObject => (.emptyObject, .emptyObject)
  | .param n => (.param n, .param n)
  | .ref n => (.ref n, .ref n)
  | t => (.never, t)
def narrowIns (prop : String) : List Ty → List Ty × List Ty
  | [] => ([], [])
  | m :: ms =>
    let r := narrowIn prop m
    let rs := narrowIns prop ms
    (keep r.1 rs.1, keep r.2 rs.2)
/-- 716-723 `can_have` -/
def canHave (prop : String) : List Ty → Bool
  | [] => false
  | m :: ms =>
    (match (narrowIn prop m).1 with | .never => false | _ => true) || canHave prop ms
/-- 716-723 `can_lack` -/
def canLack (prop : String) : List Ty → Bool
  | [] => true
  | m :: ms =>
    (match (narrowIn prop m).2 with | .never => false | _ => true) && canLack prop ms
end

/-- flow_narrow.rs 974-982 -/
def assignableLeaf (target t : Ty) : Ty × Ty :=
  if K.assignable t target then (t, .never)
  else if K.assignable target t then (target, t)
  else (.never, t)

/-- flow_narrow.rs 952-984 `narrow_by_assignability` -/
def narrowAssignable (target t : Ty) : Ty × Ty := split K false (assignableLeaf K target) t

/-! ## Conditions -/

/-- A test of a variable. -/
inductive Test where
  /-- `x` -/
  | truthy
  /-- `typeof x === "..."` -/
  | typeof (s : String)
  /-- `x === lit`, or `x == lit` if loose -/
  | eq (lit : Lit) (loose : Bool)
  /-- `x.a.b === lit` -/
  | path (first : Segment) (rest : List Segment) (lit : Lit)
  /-- `"p" in x` -/
  | has (prop : String)
  /-- a call `isT(x)` of a function declared to return `x is T` -/
  | is (t : Ty)

/-- hir_body.rs 8633-8638, 9160-9174, 9236-9253, 9352-9355, 8755-8765, 9486-9502: the function each
test uses -/
def Test.narrow (t : Test) (ty : Ty) : Ty × Ty :=
  match t with
  | .truthy => truthyFalsy K ty
  | .typeof s => narrowTypeof K s ty
  | .eq .null loose => narrowNullishEq K loose .null ty
  | .eq .undef loose => narrowNullishEq K loose .undef ty
  | .eq lit _ => narrowLiteral K lit ty
  | .path g p lit => narrowDiscriminant K (g :: p) lit ty
  | .has p => narrowIn K p ty
  | .is t => narrowAssignable K t ty

/-- Conditions; `test true` is the negated comparison (`!==`). -/
inductive Cond where
  | test (neg : Bool) (t : Test) (x : Nat)
  | not (c : Cond)
  | and (a b : Cond)
  | or (a b : Cond)
  /-- `x ?? c` -/
  | coalesce (x : Nat) (c : Cond)

/-- flow.rs 71-75 `Env`, the types of the variables (with `initial` for those not in it) -/
abbrev Env := Nat → Ty

/-- flow_narrow.rs 58-63 `Facts`, without assertions -/
structure Facts where
  truthy : Nat → Option Ty := fun _ => none
  falsy : Nat → Option Ty := fun _ => none

/-- flow.rs 151-176 `apply_facts`, `apply_falsy`, `apply_map` -/
def apply (Γ : Env) (m : Nat → Option Ty) : Env := fun x => (m x).getD (Γ x)

/-- flow_narrow.rs 182-191 `apply_sequence` -/
def sequence (first second : Nat → Option Ty) : Nat → Option Ty := fun x =>
  match second x with
  | some t => some t
  | none => first x

/-- flow_narrow.rs 193-206 `join_alternatives` -/
def joined (first second : Nat → Option Ty) : Nat → Option Ty := fun x =>
  match first x, second x with
  | some a, some b => some (K.union [a, b])
  | some a, none => some a
  | none, b => b

/-- The comparisons with `prim.never`, e.g. flow_narrow.rs 84. -/
def isNever : Ty → Bool
  | .never => true
  | _ => false

/-- flow_narrow.rs 66-109 `and_facts` -/
def andFacts (l r : Facts) : Facts :=
  let rf := sequence l.truthy r.falsy
  { truthy := sequence l.truthy r.truthy
    falsy := fun x =>
      match l.falsy x, rf x with
      | some a, some b =>
        if isNever b then some a
        else
          let nullish := (nonNullish K a).2
          if isNever nullish then some b else some (K.union [b, nullish])
      | some a, none => some a
      | none, b => b }

/-- flow_narrow.rs 112-146 `or_facts`, then hir_body.rs 9081-9090 -/
def orFacts (Γ : Env) (l r : Facts) : Facts :=
  let rt := sequence l.falsy r.truthy
  { truthy := fun x =>
      match l.truthy x, rt x with
      | some a, some b => some (K.union [a, b])
      | some a, none => some a
      | none, some b =>
        let t := match r.falsy x with
          | some f => K.union [b, f]
          | none => b
        some (K.union [t, Γ x])
      | none, none => none
    falsy := sequence l.falsy r.falsy }

/-- A single fact (hir_body.rs 9136-9158 `apply_narrowing`). -/
def one (x : Nat) (t : Ty) : Nat → Option Ty := fun y => if y = x then some t else none

/-- flow.rs 100-104 `set_var` -/
def setVar (Γ : Env) (x : Nat) (t : Ty) : Env := fun y => if y = x then t else Γ y

/-- hir_body.rs 9059-9134 `eval_logical`, 9136-9158 `apply_narrowing`, 8653-8659 `!`, flow_narrow.rs
155-180 `nullish_coalesce_facts`: the facts of a condition -/
def facts (Γ : Env) : Cond → Facts
  | .test neg t x =>
    let r := t.narrow K (Γ x)
    if neg then ⟨one x r.2, one x r.1⟩ else ⟨one x r.1, one x r.2⟩
  | .not c => let f := facts Γ c; ⟨f.falsy, f.truthy⟩
  | .and a b =>
    let l := facts Γ a
    andFacts K l (facts (apply Γ l.truthy) b)
  | .or a b =>
    let l := facts Γ a
    orFacts K Γ l (facts (apply Γ l.falsy) b)
  | .coalesce x c =>
    let r := truthyFalsy K (Γ x)
    let l : Facts := ⟨one x r.1, one x r.2⟩
    let nullish := (nonNullish K (Γ x)).2
    let right := facts (setVar Γ x nullish) c
    if isNever nullish then l
    else
      ⟨joined K l.truthy (sequence (one x nullish) right.truthy),
       joined K l.falsy (sequence (one x nullish) right.falsy)⟩

/-- The types of the variables where a condition holds (the `then` branch), or does not: flow.rs
151-176 `apply_facts` and `apply_falsy` of the facts of the condition. -/
def branch (Γ : Env) (c : Cond) (b : Bool) : Env :=
  apply Γ (if b then (facts K Γ c).truthy else (facts K Γ c).falsy)

end

end Verif.Narrow
