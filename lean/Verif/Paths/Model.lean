/-!
# Model of the normalization of paths

`/repo/diagnostics/src/paths.rs`: `normalize_ts_path_into` makes the virtual path of a file.
Strings are lists of characters: every index that the code uses is next to an ASCII character,
so bytes and characters give the same cuts.
-/

namespace Verif.Paths

abbrev Text := List Char

/-- `bytes[i] == b'/' || bytes[i] == b'\\'`, paths.rs:36, 51, 75. -/
def isSlash (c : Char) : Bool := c == '/' || c == '\\'

/-- `strip_prefix`. -/
def strip (p s : Text) : Option Text := if p.isPrefixOf s then some (s.drop p.length) else none

/-- The extended prefixes, paths.rs:29-32. -/
def stripExtended (raw : Text) : Text :=
  ((strip ['\\', '\\', '?', '\\'] raw).or (strip ['/', '/', '?', '/'] raw)).getD raw

/-- The loops over leading slashes, paths.rs:34-39, 49-54. -/
def skipSlashes : Text → Text
  | [] => []
  | c :: r => if isSlash c then skipSlashes r else c :: r

/-- `is_ascii_alphabetic`. -/
def isAlpha (c : Char) : Bool := ('a' ≤ c && c ≤ 'z') || ('A' ≤ c && c ≤ 'Z')

/-- `to_ascii_lowercase`. -/
def lower (c : Char) : Char := if 'A' ≤ c ∧ c ≤ 'Z' then Char.ofNat (c.toNat + 32) else c

/-- The drive letter and the rest, paths.rs:41-56. -/
def drive : Text → Option Char × Text
  | c :: ':' :: r => if isAlpha c then (some (lower c), skipSlashes r) else (none, c :: ':' :: r)
  | s => (none, s)

/-- `rfind('/')`, paths.rs:101. -/
def rfind : Text → Nat → Option Nat → Option Nat
  | [], _, found => found
  | c :: r, i, found => rfind r (i + 1) (if c = '/' then some i else found)

/-- `..`, paths.rs:84-110. -/
def pop (root : Nat) (out : Text) : Text :=
  if out.length ≤ root then out
  else
    let stop := if root < out.length ∧ out.getLast? = some '/' then out.length - 1 else out.length
    if stop ≤ root then out.take root
    else
      match rfind (out.take stop) 0 none with
      | some pos => if pos < root then out.take root else out.take pos
      | none => out.take root

/-- One segment, paths.rs:79-117. -/
def segment (root : Nat) (out part : Text) : Text :=
  if part.isEmpty || part == ['.'] then out
  else if part == ['.', '.'] then pop root out
  else (if out.getLast? = some '/' then out else out ++ ['/']) ++ part

/-- The loop over the rest, paths.rs:72-118: `part` is the segment that is being read. -/
def loop (root : Nat) : Text → Text → Text → Text
  | [], part, out => segment root out part
  | c :: r, part, out =>
    if isSlash c then loop root r [] (segment root out part)
    else loop root r (part ++ [c]) out

/-- `normalize_ts_path_into`, paths.rs:28-119. -/
def normalize (raw : Text) : Text :=
  let rest := skipSlashes (stripExtended raw)
  let (d, rest) := drive rest
  let out := match d with
    | some c => [c, ':', '/']
    | none => ['/']
  loop out.length rest [] out

end Verif.Paths
