import Verif.Names.Model
/-!
# What users of the name generators and of source rewriting rely on
-/

namespace Verif.Names

/-- An ASCII letter, `$` or `_`: the ASCII part of ECMA-262 `IdentifierStart`. -/
def IdentStart (c : Nat) : Prop := (97 ≤ c ∧ c ≤ 122) ∨ (65 ≤ c ∧ c ≤ 90) ∨ c = 36 ∨ c = 95

/-- The ASCII part of ECMA-262 `IdentifierPart`. -/
def IdentPart (c : Nat) : Prop := IdentStart c ∨ (48 ≤ c ∧ c ≤ 57)

/-- A syntactically valid (ASCII) identifier name. -/
def IdentName : Name → Prop
  | [] => False
  | c :: cs => IdentStart c ∧ ∀ d ∈ cs, IdentPart d

/-- The words that ECMA-262 does not allow as a binding identifier in strict mode or in a module
(`ReservedWord`, the strict mode reserved words, `await`, `eval` and `arguments`). -/
def ecmaReserved : List Name := [
  [97, 119, 97, 105, 116] /- await -/,
  [98, 114, 101, 97, 107] /- break -/,
  [99, 97, 115, 101] /- case -/,
  [99, 97, 116, 99, 104] /- catch -/,
  [99, 108, 97, 115, 115] /- class -/,
  [99, 111, 110, 115, 116] /- const -/,
  [99, 111, 110, 116, 105, 110, 117, 101] /- continue -/,
  [100, 101, 98, 117, 103, 103, 101, 114] /- debugger -/,
  [100, 101, 102, 97, 117, 108, 116] /- default -/,
  [100, 101, 108, 101, 116, 101] /- delete -/,
  [100, 111] /- do -/,
  [101, 108, 115, 101] /- else -/,
  [101, 110, 117, 109] /- enum -/,
  [101, 120, 112, 111, 114, 116] /- export -/,
  [101, 120, 116, 101, 110, 100, 115] /- extends -/,
  [102, 97, 108, 115, 101] /- false -/,
  [102, 105, 110, 97, 108, 108, 121] /- finally -/,
  [102, 111, 114] /- for -/,
  [102, 117, 110, 99, 116, 105, 111, 110] /- function -/,
  [105, 102] /- if -/,
  [105, 109, 112, 111, 114, 116] /- import -/,
  [105, 110] /- in -/,
  [105, 110, 115, 116, 97, 110, 99, 101, 111, 102] /- instanceof -/,
  [110, 101, 119] /- new -/,
  [110, 117, 108, 108] /- null -/,
  [114, 101, 116, 117, 114, 110] /- return -/,
  [115, 117, 112, 101, 114] /- super -/,
  [115, 119, 105, 116, 99, 104] /- switch -/,
  [116, 104, 105, 115] /- this -/,
  [116, 104, 114, 111, 119] /- throw -/,
  [116, 114, 117, 101] /- true -/,
  [116, 114, 121] /- try -/,
  [116, 121, 112, 101, 111, 102] /- typeof -/,
  [118, 97, 114] /- var -/,
  [118, 111, 105, 100] /- void -/,
  [119, 104, 105, 108, 101] /- while -/,
  [119, 105, 116, 104] /- with -/,
  [121, 105, 101, 108, 100] /- yield -/,
  [108, 101, 116] /- let -/,
  [115, 116, 97, 116, 105, 99] /- static -/,
  [105, 109, 112, 108, 101, 109, 101, 110, 116, 115] /- implements -/,
  [105, 110, 116, 101, 114, 102, 97, 99, 101] /- interface -/,
  [112, 97, 99, 107, 97, 103, 101] /- package -/,
  [112, 114, 105, 118, 97, 116, 101] /- private -/,
  [112, 114, 111, 116, 101, 99, 116, 101, 100] /- protected -/,
  [112, 117, 98, 108, 105, 99] /- public -/,
  [101, 118, 97, 108] /- eval -/,
  [97, 114, 103, 117, 109, 101, 110, 116, 115] /- arguments -/]

/-- Two requests are for the same thing: the same register or the same foreign binding. A request for a
fresh name is never for the same thing as another request. -/
def SameThing : Request → Request → Prop
  | .reg _ a, .reg _ b => a = b
  | .foreign _ a, .foreign _ b => a = b
  | _, _ => False

/-- The first part of a dotted path: what precedes the first full stop, after leading full stops. -/
def pathRoot (path : Name) : Name := (path.dropWhile (· = 46)).takeWhile (· ≠ 46)

/-- A piece of source: text that is kept, then text that is replaced, then the replacement. -/
structure Piece where
  kept : Name
  old : Name
  new : Name

/-- The source described by some pieces and a tail. -/
def oldText : List Piece → Name → Name
  | [], tail => tail
  | p :: ps, tail => p.kept ++ p.old ++ oldText ps tail

/-- The intended result. -/
def newText : List Piece → Name → Name
  | [], tail => tail
  | p :: ps, tail => p.kept ++ p.new ++ newText ps tail

/-- The replacements described by some pieces, the first piece starting at byte `off`. -/
def replacementsOf : Nat → List Piece → List Replacement
  | _, [] => []
  | off, p :: ps =>
    ⟨off + byteLen p.kept, off + byteLen p.kept + byteLen p.old, p.new⟩ ::
      replacementsOf (off + byteLen p.kept + byteLen p.old) ps

/-- The characters of a string literal up to and including its closing quote: no unescaped quote
before the last character. -/
inductive LiteralBody (quote : Nat) : Name → Prop where
  | close : LiteralBody quote [quote]
  | plain {c : Nat} {cs : Name} : c ≠ 92 → c ≠ quote → LiteralBody quote cs → LiteralBody quote (c :: cs)
  | escape {c : Nat} {cs : Name} : LiteralBody quote cs → LiteralBody quote (92 :: c :: cs)

/-- A string literal begins at byte `start` of the source and ends before byte `e`. -/
def LiteralAt (src : Name) (start e : Nat) : Prop :=
  ∃ pre q body tail, src = pre ++ q :: body ++ tail ∧ byteLen pre = start ∧ (q = 34 ∨ q = 39) ∧
    LiteralBody q body ∧ e = start + byteLen (q :: body)

/-- What becomes of a replacement: one that begins at a string literal covers at least that literal, any
other keeps its range. -/
def Extended (src : Name) (r r' : Replacement) : Prop :=
  r'.start = r.start ∧ r'.text = r.text ∧
    ((∃ e, LiteralAt src r.start e ∧ r'.stop = max r.stop e) ∨
      ((¬ ∃ e, LiteralAt src r.start e) ∧ r'.stop = r.stop))

end Verif.Names
