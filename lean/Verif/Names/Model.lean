import Verif.Values.Model
/-!
# Name generation and source rewriting

Models `minify-js/src/rename/mod.rs` (`NameGenerator`, `reserved_names`, `rewrite_source`) and
`optimize-js/src/decompile/names.rs` (`NameMangler`).

Strings are lists of code points. Counters are `Nat` (the code uses `usize`; overflow after 2^64 names is
not modelled). A loop that the code runs until it succeeds takes a number of turns as its first argument
and answers `none` when it has not succeeded within them.
-/

namespace Verif.Names

/-- A string as its code points. -/
abbrev Name := List Nat

/-! ## The minifier's name generator -/

/-- `rename/mod.rs` 318: `FIRST_CHARS`, `a`–`z`, `A`–`Z`, `$`, `_`. -/
def firstChars : List Nat := List.range' 97 26 ++ List.range' 65 26 ++ [36, 95]

/-- `rename/mod.rs` 319: `NON_FIRST_CHARS`, the same and `0`–`9`. -/
def nonFirstChars : List Nat := List.range' 97 26 ++ List.range' 65 26 ++ [36, 95] ++ List.range' 48 10

/-- `rename/mod.rs` 331–335: the `while n > 0` loop of `encode`. A number needs no more turns than its
value. -/
def encodeTail : Nat → Nat → Name
  | 0, _ => []
  | fuel + 1, n =>
    if n > 0 then nonFirstChars.getD (n % nonFirstChars.length) 0 :: encodeTail fuel (n / nonFirstChars.length)
    else []

/-- `rename/mod.rs` 326–337: `NameGenerator::encode`. -/
def encode (n : Nat) : Name :=
  firstChars.getD (n % firstChars.length) 0 :: encodeTail n (n / firstChars.length)

/-- `rename/mod.rs` 339–347: `NameGenerator::next_name` from a given counter; the answer is the name and
the new counter. -/
def nextName (allowed : Name → Bool) : Nat → Nat → Option (Name × Nat)
  | 0, _ => none
  | fuel + 1, counter =>
    let candidate := encode counter
    if allowed candidate then some (candidate, counter + 1) else nextName allowed fuel (counter + 1)

/-- Several calls of `next_name` on one generator, each with its own set of unavailable names. -/
def nextNames (fuel : Nat) : List (List Name) → Nat → Option (List Name × Nat)
  | [], c => some ([], c)
  | s :: ss, c =>
    match nextName (fun n => !s.contains n) fuel c with
    | none => none
    | some (n, c') =>
      match nextNames fuel ss c' with
      | none => none
      | some (ns, c'') => some (n :: ns, c'')

/-- `parse-js/src/lex/mod.rs` 355–437: the values of `KEYWORDS_MAPPING`. -/
def keywords : List Name := [
  [97, 115] /- as -/,
  [97, 115, 121, 110, 99] /- async -/,
  [97, 119, 97, 105, 116] /- await -/,
  [98, 114, 101, 97, 107] /- break -/,
  [99, 97, 115, 101] /- case -/,
  [99, 97, 116, 99, 104] /- catch -/,
  [99, 108, 97, 115, 115] /- class -/,
  [99, 111, 110, 115, 116] /- const -/,
  [99, 111, 110, 115, 116, 114, 117, 99, 116, 111, 114] /- constructor -/,
  [99, 111, 110, 116, 105, 110, 117, 101] /- continue -/,
  [100, 101, 98, 117, 103, 103, 101, 114] /- debugger -/,
  [100, 101, 102, 97, 117, 108, 116] /- default -/,
  [100, 101, 108, 101, 116, 101] /- delete -/,
  [100, 111] /- do -/,
  [101, 108, 115, 101] /- else -/,
  [101, 110, 117, 109] /- enum -/,
  [101, 120, 112, 111, 114, 116] /- export -/,
  [101, 120, 116, 101, 110, 100, 115] /- extends -/,
  [102, 105, 110, 97, 108, 108, 121] /- finally -/,
  [102, 111, 114] /- for -/,
  [102, 114, 111, 109] /- from -/,
  [102, 117, 110, 99, 116, 105, 111, 110] /- function -/,
  [103, 101, 116] /- get -/,
  [105, 102] /- if -/,
  [105, 109, 112, 111, 114, 116] /- import -/,
  [105, 110] /- in -/,
  [105, 110, 115, 116, 97, 110, 99, 101, 111, 102] /- instanceof -/,
  [108, 101, 116] /- let -/,
  [110, 101, 119] /- new -/,
  [111, 102] /- of -/,
  [111, 117, 116] /- out -/,
  [114, 101, 116, 117, 114, 110] /- return -/,
  [115, 101, 116] /- set -/,
  [115, 116, 97, 116, 105, 99] /- static -/,
  [115, 117, 112, 101, 114] /- super -/,
  [115, 119, 105, 116, 99, 104] /- switch -/,
  [116, 104, 105, 115] /- this -/,
  [116, 104, 114, 111, 119] /- throw -/,
  [116, 114, 121] /- try -/,
  [116, 121, 112, 101, 111, 102] /- typeof -/,
  [117, 115, 105, 110, 103] /- using -/,
  [118, 97, 114] /- var -/,
  [118, 111, 105, 100] /- void -/,
  [119, 104, 105, 108, 101] /- while -/,
  [119, 105, 116, 104] /- with -/,
  [121, 105, 101, 108, 100] /- yield -/,
  [97, 98, 115, 116, 114, 97, 99, 116] /- abstract -/,
  [97, 99, 99, 101, 115, 115, 111, 114] /- accessor -/,
  [97, 110, 121] /- any -/,
  [97, 115, 115, 101, 114, 116, 115] /- asserts -/,
  [98, 105, 103, 105, 110, 116] /- bigint -/,
  [98, 111, 111, 108, 101, 97, 110] /- boolean -/,
  [100, 101, 99, 108, 97, 114, 101] /- declare -/,
  [105, 109, 112, 108, 101, 109, 101, 110, 116, 115] /- implements -/,
  [105, 110, 102, 101, 114] /- infer -/,
  [105, 110, 116, 114, 105, 110, 115, 105, 99] /- intrinsic -/,
  [105, 110, 116, 101, 114, 102, 97, 99, 101] /- interface -/,
  [105, 115] /- is -/,
  [107, 101, 121, 111, 102] /- keyof -/,
  [109, 111, 100, 117, 108, 101] /- module -/,
  [110, 97, 109, 101, 115, 112, 97, 99, 101] /- namespace -/,
  [110, 101, 118, 101, 114] /- never -/,
  [110, 117, 109, 98, 101, 114] /- number -/,
  [111, 98, 106, 101, 99, 116] /- object -/,
  [111, 118, 101, 114, 114, 105, 100, 101] /- override -/,
  [112, 114, 105, 118, 97, 116, 101] /- private -/,
  [112, 114, 111, 116, 101, 99, 116, 101, 100] /- protected -/,
  [112, 117, 98, 108, 105, 99] /- public -/,
  [114, 101, 97, 100, 111, 110, 108, 121] /- readonly -/,
  [115, 97, 116, 105, 115, 102, 105, 101, 115] /- satisfies -/,
  [115, 116, 114, 105, 110, 103] /- string -/,
  [115, 121, 109, 98, 111, 108] /- symbol -/,
  [116, 121, 112, 101] /- type -/,
  [117, 110, 100, 101, 102, 105, 110, 101, 100] /- undefined -/,
  [117, 110, 105, 113, 117, 101] /- unique -/,
  [117, 110, 107, 110, 111, 119, 110] /- unknown -/,
  [102, 97, 108, 115, 101] /- false -/,
  [110, 117, 108, 108] /- null -/,
  [116, 114, 117, 101] /- true -/]

/-- `rename/mod.rs` 350–362: `reserved_names`. -/
def reservedNames : List Name :=
  keywords ++ [[116, 114, 117, 101], [102, 97, 108, 115, 101], [110, 117, 108, 108],
    [112, 97, 99, 107, 97, 103, 101], [101, 118, 97, 108], [97, 114, 103, 117, 109, 101, 110, 116, 115]]

/-! ## The decompiler's name mangler -/

/-- `names.rs` 16–24: `NameMangler`. Hash maps are association lists, the newest entry first. The public
field `minify_locals` is passed with each request instead, so that a client may change it at any time. -/
structure Mangler where
  used : List Name
  counters : List (Name × Nat)
  regs : List (Nat × Name)
  foreigns : List (Nat × Name)

/-- `names.rs` 145–154: `default_reserved_names`. -/
def defaultReserved : List Name :=
  keywords ++ [[101, 118, 97, 108], [97, 114, 103, 117, 109, 101, 110, 116, 115]]

/-- `names.rs` 29–40: `NameMangler::new`. -/
def Mangler.new (reserved : List Name) : Mangler :=
  { used := defaultReserved ++ reserved, counters := [], regs := [], foreigns := [] }

/-- `names.rs` 172–174: `is_start`. -/
def isStart (c : Nat) : Bool :=
  (97 ≤ c && c ≤ 122) || (65 ≤ c && c ≤ 90) || c == 95 || c == 36

/-- `names.rs` 175–177: `is_continue`. -/
def isContinue (c : Nat) : Bool := isStart c || (48 ≤ c && c ≤ 57)

/-- `names.rs` 179–187: the loop of `sanitize_identifier` from position `idx`. -/
def sanitizeFrom : Nat → Name → Name
  | _, [] => []
  | idx, ch :: rest =>
    let valid := if idx = 0 then isStart ch else isContinue ch
    (if valid then ch else 95) :: sanitizeFrom (idx + 1) rest

/-- `names.rs` 171–193: `sanitize_identifier`. -/
def sanitize (pre : Name) : Name :=
  let out := sanitizeFrom 0 pre
  if out.isEmpty || (match out with | c :: _ => 48 ≤ c && c ≤ 57 | [] => false) then 95 :: out else out

/-- `names.rs` 156–169: the loop of `encode_short_identifier`, least significant letter first. -/
def shortRev : Nat → Nat → Name
  | 0, _ => []
  | fuel + 1, n =>
    let c := 97 + n % 26
    let n' := n / 26
    if n' = 0 then [c] else c :: shortRev fuel (n' - 1)

/-- `names.rs` 156–169: `encode_short_identifier`. -/
def encodeShort (n : Nat) : Name := (shortRev (n + 1) n).reverse

/-- `format!("{base}_{k}")`. -/
def suffixed (base : Name) (k : Nat) : Name := base ++ 95 :: Values.toDigits k

/-- `names.rs` 48–61: the loop of `fresh`. The answer is the candidate and the counter after it. -/
def freshLoop (used : List Name) (base : Name) : Nat → Nat → Option (Name × Nat)
  | 0, _ => none
  | fuel + 1, counter =>
    let candidate := if counter = 0 then base else suffixed base counter
    if used.contains candidate then freshLoop used base fuel (counter + 1)
    else some (candidate, counter + 1)

/-- `names.rs` 43–62: `fresh`. -/
def Mangler.fresh (fuel : Nat) (m : Mangler) (pre : Name) : Option (Name × Mangler) :=
  let base := sanitize pre
  let counter := (m.counters.lookup base).getD 0
  match freshLoop m.used base fuel counter with
  | none => none
  | some (candidate, counter') =>
    some (candidate, { m with counters := (base, counter') :: m.counters, used := candidate :: m.used })

/-- `names.rs` 98–102: the loop of `ensure_unique`. -/
def uniqueLoop (used : List Name) (base : Name) : Nat → Name → Nat → Option Name
  | 0, _, _ => none
  | fuel + 1, candidate, d =>
    if used.contains candidate then uniqueLoop used base fuel (suffixed base d) (d + 1)
    else some candidate

/-- `names.rs` 95–105: `ensure_unique`. -/
def Mangler.ensureUnique (fuel : Nat) (m : Mangler) (base : Name) : Option (Name × Mangler) :=
  match uniqueLoop m.used base fuel base 1 with
  | none => none
  | some candidate => some (candidate, { m with used := candidate :: m.used })

/-- `names.rs` 65–77: `name_for_reg` (`114` is `r`). -/
def Mangler.nameForReg (fuel : Nat) (m : Mangler) (minify : Bool) (reg : Nat) : Option (Name × Mangler) :=
  match m.regs.lookup reg with
  | some name => some (name, m)
  | none =>
    let base := if minify then encodeShort reg else sanitize (114 :: Values.toDigits reg)
    match m.ensureUnique fuel base with
    | none => none
    | some (name, m') => some (name, { m' with regs := (reg, name) :: m'.regs })

/-- `names.rs` 81–93: `name_for_foreign` (`95 95 102` is `__f`). -/
def Mangler.nameForForeign (fuel : Nat) (m : Mangler) (minify : Bool) (idx : Nat) :
    Option (Name × Mangler) :=
  match m.foreigns.lookup idx with
  | some name => some (name, m)
  | none =>
    let base := if minify then encodeShort idx else sanitize (95 :: 95 :: 102 :: Values.toDigits idx)
    match m.ensureUnique fuel base with
    | none => none
    | some (name, m') => some (name, { m' with foreigns := (idx, name) :: m'.foreigns })

/-- What a client asks for. -/
inductive Request where
  | fresh (pre : Name)
  | reg (minify : Bool) (reg : Nat)
  | foreign (minify : Bool) (idx : Nat)
deriving DecidableEq

/-- Serves one request. -/
def Mangler.serve (fuel : Nat) (m : Mangler) : Request → Option (Name × Mangler)
  | .fresh pre => m.fresh fuel pre
  | .reg b r => m.nameForReg fuel b r
  | .foreign b i => m.nameForForeign fuel b i

/-- Serves a history of requests and collects the answers. -/
def Mangler.serveAll (fuel : Nat) : Mangler → List Request → Option (List Name × Mangler)
  | m, [] => some ([], m)
  | m, q :: qs =>
    match m.serve fuel q with
    | none => none
    | some (n, m') =>
      match serveAll fuel m' qs with
      | none => none
      | some (ns, m'') => some (n :: ns, m'')

/-- The part of `il/inst.rs` `Arg` that matters for `collect_reserved_from_insts`: a builtin path or
anything else. -/
inductive Arg where
  | builtin (path : Name)
  | other

/-- The part of `il/inst.rs` `Inst` that matters for `collect_reserved_from_insts`: whether the type is
`UnknownLoad` or `UnknownStore`, the `unknown` name and the arguments. -/
structure Inst where
  unknownAccess : Bool
  unknown : Name
  args : List Arg

/-- `path.split('.')`: the pieces between full stops (`46`), `acc` is the current piece reversed. -/
def splitDots : Name → Name → List Name
  | acc, [] => [acc.reverse]
  | acc, c :: cs => if c = 46 then acc.reverse :: splitDots [] cs else splitDots (c :: acc) cs

/-- `names.rs` 131–137: what one argument reserves. -/
def argReserved : Arg → List Name
  | .builtin path => ((splitDots [] path).find? (fun s => !s.isEmpty)).toList
  | .other => []

/-- `names.rs` 122–143: `collect_reserved_from_insts`. -/
def collectReserved (insts : List Inst) : List Name :=
  insts.flatMap (fun i =>
    (if i.unknownAccess && !i.unknown.isEmpty then [i.unknown] else []) ++ i.args.flatMap argReserved)

/-! ## Rewriting source text -/

/-- `char::len_utf8`. -/
def lenUtf8 (c : Nat) : Nat :=
  if c < 0x80 then 1 else if c < 0x800 then 2 else if c < 0x10000 then 3 else 4

/-- `str::len` in bytes. -/
def byteLen (s : Name) : Nat := (s.map lenUtf8).sum

/-- `rename/mod.rs`: `Replacement`, a range of byte offsets and the new text. -/
structure Replacement where
  start : Nat
  stop : Nat
  text : Name
deriving DecidableEq

/-- `&s[n..]`: what follows byte offset `n`; `none` where the slice panics (past the end or inside a
character). -/
def dropBytes : Name → Nat → Option Name
  | s, 0 => some s
  | [], _ + 1 => none
  | c :: cs, n + 1 => if lenUtf8 c ≤ n + 1 then dropBytes cs (n + 1 - lenUtf8 c) else none

/-- `&s[..n]`; `none` where the slice panics. -/
def takeBytes : Name → Nat → Option Name
  | _, 0 => some []
  | [], _ + 1 => none
  | c :: cs, n + 1 =>
    if lenUtf8 c ≤ n + 1 then (takeBytes cs (n + 1 - lenUtf8 c)).map (c :: ·) else none

/-- `&s[a..b]`; `none` where the slice panics. -/
def slice (s : Name) (a b : Nat) : Option Name :=
  if a ≤ b then (dropBytes s a).bind (fun t => takeBytes t (b - a)) else none

/-- `rename/mod.rs` 833–851: the scan for the closing quote; `off` is the byte offset of the next
character, the answer is the offset after the quote. -/
def scanQuote (quote : Nat) : Bool → Nat → Name → Option Nat
  | _, _, [] => none
  | true, off, c :: cs => scanQuote quote false (off + lenUtf8 c) cs
  | false, off, c :: cs =>
    if c = 92 then scanQuote quote true (off + lenUtf8 c) cs
    else if c = quote then some (off + lenUtf8 c)
    else scanQuote quote false (off + lenUtf8 c) cs

/-- `rename/mod.rs` 825–852: extends a replacement that begins at a quote over the whole string literal.
`source.as_bytes().get(start)` is a quote byte exactly when `start` is the offset of a quote character,
because quotes are single bytes that occur in no other character. -/
def extendRep (src : Name) (r : Replacement) : Replacement :=
  match dropBytes src r.start with
  | some (q :: rest) =>
    if q = 34 ∨ q = 39 then
      match scanQuote q false (r.start + 1) rest with
      | some e => if r.stop < e then { r with stop := e } else r
      | none => r
    else r
  | _ => r

/-- Stable insertion by start. -/
def insertRep (r : Replacement) : List Replacement → List Replacement
  | [] => [r]
  | s :: rs => if r.start > s.start then s :: insertRep r rs else r :: s :: rs

/-- `rename/mod.rs` 854: `sort_by_key(|r| r.start)`, stable. -/
def sortReps : List Replacement → List Replacement
  | [] => []
  | r :: rs => insertRep r (sortReps rs)

/-- `rename/mod.rs` 857–863: the splicing loop and the final copy; `none` is a panic. -/
def splice (src : Name) : Nat → List Replacement → Option Name
  | cur, [] => dropBytes src cur
  | cur, r :: rs =>
    if r.start ≥ cur ∧ r.stop ≥ r.start then
      (slice src cur r.start).bind fun kept =>
        (splice src r.stop rs).map fun rest => kept ++ r.text ++ rest
    else none

/-- `rename/mod.rs` 815–865: `rewrite_source`; `none` is a panic. -/
def rewriteSource (src : Name) (reps : List Replacement) : Option Name :=
  splice src 0 (sortReps (reps.map (extendRep src)))

end Verif.Names
