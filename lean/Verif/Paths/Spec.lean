import Verif.Paths.Model

/-!
# What a path means

A path is a drive, if it has one, and the directories from the root to a file.
-/

namespace Verif.Paths

/-- Both slashes separate. -/
def Sep (c : Char) : Prop := c = '/' ∨ c = '\\'

instance (c : Char) : Decidable (Sep c) := inferInstanceAs (Decidable (_ ∨ _))

/-- The parts between the separators. -/
def partsOf : Text → List Text
  | [] => [[]]
  | c :: r =>
    if Sep c then [] :: partsOf r
    else
      match partsOf r with
      | p :: ps => (c :: p) :: ps
      | [] => [[c]]

/-- One step through the tree of directories, from the directory `at`: `..` of the root is the
root. -/
def step (at_ : List Text) (part : Text) : List Text :=
  if part = "".toList ∨ part = ".".toList then at_
  else if part = "..".toList then at_.dropLast
  else at_ ++ [part]

/-- Where a path leads, from the root. -/
def leads (s : Text) : List Text := (partsOf s).foldl step []

/-- The letters. -/
def Letter (c : Char) : Prop := 65 ≤ c.toNat ∧ c.toNat ≤ 90 ∨ 97 ≤ c.toNat ∧ c.toNat ≤ 122

/-- It begins with a drive. -/
def DriveLike (s : Text) : Prop := ∃ c r, s = c :: ':' :: r ∧ Letter c

/-- The small letter. -/
def small (c : Char) : Char := if c.toNat ≤ 90 then Char.ofNat (c.toNat + 32) else c

/-- The extended prefixes of Windows. -/
def Extended (s : Text) : Prop := s = "\\\\?\\".toList ∨ s = "//?/".toList

/-- The path of `dirs` on a drive, or on none. -/
def render (stem : Text) (dirs : List Text) : Text :=
  stem ++ if dirs = [] then ['/'] else dirs.flatMap fun d => '/' :: d

/-- A name of a file or directory. -/
def IsName (s : Text) : Prop :=
  s ≠ "".toList ∧ s ≠ ".".toList ∧ s ≠ "..".toList ∧ ∀ c ∈ s, ¬ Sep c

/-- What `normalize` has to return: an extended prefix and the separators after it do not count,
then a drive may follow, and the rest leads somewhere. -/
def Normal (raw out : Text) : Prop :=
  ∃ ext seps rest, raw = ext ++ (seps ++ rest) ∧
    (Extended ext ∨ ext = [] ∧ ∀ p t, Extended p → raw ≠ p ++ t) ∧
    (∀ c ∈ seps, Sep c) ∧ (∀ c r, rest = c :: r → ¬ Sep c) ∧
    ((∃ c s, rest = c :: ':' :: s ∧ Letter c ∧ out = render [small c, ':'] (leads s)) ∨
      (¬ DriveLike rest ∧ out = render [] (leads rest)))

end Verif.Paths
