import Verif.Free.Main
import Verif.Expr.Toy
/-!
# A host that creates objects

The small host of `Verif.Expr.Toy`, with BigInts for `**` and the shifts.
-/

namespace Verif.Free.Toy
open Verif.Expr (Expr Args Elems Parts Members BinOp UnOp ArithOp Str Key Num Val Host M ascii)
open Verif.Expr.Toy (World put hostOf)

/-- Integers as numbers.  `&`, `|` and `^` of BigInts are not used. -/
def num : Num (Option Int) :=
  { Verif.Expr.Toy.num with
    bigArith := fun op i j =>
      match op with
      | .pow => if j < 0 then none else some (i ^ j.toNat)
      | .shl => some (i * 2 ^ j.toNat)
      | .shr => some (i / 2 ^ j.toNat)
      | _ => some 0 }

def host : Host (Option Int) Unit Bool (List (Val (Option Int))) Str Nat (World (Option Int)) := hostOf num some

/-- The entries for the first objects. -/
def old {A : Type} (n : Nat) (obj : A → Nat) (l : List A) : List A := l.filter fun a => obj a < n

/-- The variables and the old objects are as before. -/
def Since (w₀ w : World (Option Int)) : Prop :=
  w.vars = w₀.vars ∧ w₀.next ≤ w.next ∧
    old w₀.next (·.1.1) w.props = old w₀.next (·.1.1) w₀.props ∧
    old w₀.next (·.1) w.funs = old w₀.next (·.1) w₀.funs ∧
    old w₀.next (·.1) w.protos = old w₀.next (·.1) w₀.protos

def New (w₀ _w : World (Option Int)) (o : Nat) : Prop := w₀.next ≤ o

theorem old_put {A B : Type} [DecidableEq A] (n : Nat) (obj : A → Nat) (a : A) (b : B) (l : List (A × B)) (h : n ≤ obj a) :
    old n (fun p => obj p.1) (put a b l) = old n (fun p => obj p.1) l := by
  unfold old put
  rw [List.filter_cons, if_neg (by simpa using h), List.filter_filter]
  apply List.filter_congr
  intro p _
  by_cases e : p.1 = a
  · subst e
    have : ¬ obj p.1 < n := by omega
    simp [this]
  · simp [e]

theorem allocates : Allocates host Since New where
  refl w := ⟨rfl, Nat.le_refl _, rfl, rfl, rfl⟩
  array w₀ w es h := by
    obtain ⟨h1, h2, h3, h4, h5⟩ := h
    refine ⟨_, _, rfl, ⟨h1, Nat.le_succ_of_le h2, ?_, h4, h5⟩, fun _ h => h⟩
    exact (old_put _ (fun a : Nat × Key => a.1) _ _ _ h2).trans h3
  object w₀ w h := by
    obtain ⟨h1, h2, h3, h4, h5⟩ := h
    exact ⟨_, _, rfl, ⟨⟨h1, Nat.le_succ_of_le h2, h3, h4, h5⟩, fun _ h => h⟩, h2⟩
  closure w₀ w c f name h := by
    obtain ⟨h1, h2, h3, h4, h5⟩ := h
    refine ⟨_, _, rfl, ⟨h1, Nat.le_succ_of_le h2, ?_, ?_, h5⟩, fun _ h => h⟩
    · exact (old_put _ (fun a : Nat × Key => a.1) _ _ _ h2).trans h3
    · exact (old_put _ (fun a : Nat => a) _ _ _ h2).trans h4
  define w₀ w o k v h hn := by
    obtain ⟨h1, h2, h3, h4, h5⟩ := h
    exact ⟨_, rfl, ⟨h1, h2, (old_put _ (fun a : Nat × Key => a.1) _ _ _ hn).trans h3, h4, h5⟩, fun _ h => h⟩
  setProto w₀ w o v h hn := by
    obtain ⟨h1, h2, h3, h4, h5⟩ := h
    cases v with
    | obj p => exact ⟨_, rfl, ⟨h1, h2, h3, h4, (old_put _ (fun a : Nat => a) _ _ _ hn).trans h5⟩, fun _ h => h⟩
    | _ => exact ⟨_, rfl, ⟨h1, h2, h3, h4, h5⟩, fun _ h => h⟩
  method w₀ w c d o k f h hn := by
    obtain ⟨h1, h2, h3, h4, h5⟩ := h
    refine ⟨_, rfl, ⟨h1, Nat.le_succ_of_le h2, ?_, ?_, h5⟩, fun _ h => h⟩
    · exact (old_put _ (fun a : Nat × Key => a.1) _ _ _ hn).trans h3
    · exact (old_put _ (fun a : Nat => a) _ _ _ h2).trans h4

theorem unbounded : Unbounded host.num := by
  intro op i j h h'
  cases op with
  | pow =>
    have : ¬ j < 0 := by
      have := h' (.inl rfl)
      omega
    exact ⟨i ^ j.toNat, by show (if j < 0 then none else _) = _; rw [if_neg this]⟩
  | _ => exact ⟨_, rfl⟩

end Verif.Free.Toy
