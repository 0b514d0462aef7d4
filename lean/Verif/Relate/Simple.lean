import Verif.Relate.Laws
import Verif.Relate.LawSpec

namespace Verif.Relate

variable {C : Ctx}

/-- A value of the first type that tells it from the second. -/
def sample : Kind → Kind → Val
  | .boolean, .boolLit b => .bool (!b)
  | .number, .numLit n => .num (n + 1)
  | .string, .strLit n => .str (n + 1)
  | .bigint, .bigLit n => .big (n + 1)
  | .symbol, .uniqueSymbol => .sym 1
  | .unknown, .emptyObject => .undef
  | .unknown, _ => .obj
  | .emptyObject, _ => .obj
  | .null, _ => .null
  | .undef, _ => .undef
  | .void, _ => .undef
  | .boolean, _ => .bool true
  | .boolLit b, _ => .bool b
  | .number, _ => .num 0
  | .numLit n, _ => .num n
  | .string, _ => .str 0
  | .strLit n, _ => .str n
  | .bigint, _ => .big 0
  | .bigLit n, _ => .big n
  | .symbol, _ => .sym 0
  | .uniqueSymbol, _ => .sym 0
  | _, _ => .obj

/-- What the rules answer for different simple types. -/
def simpleRule (S : Store) (o : Opts) (a b : Kind) : Bool :=
  match special S o a b with
  | some r => r
  | none =>
    match a, b with
    | .boolLit a, .boolLit b => a = b
    | .numLit a, .numLit b => a = b
    | .strLit a, .strLit b => a = b
    | .bigLit a, .bigLit b => a = b
    | _, _ => false

theorem simpleRule_sound {S : Store} {o : Opts} (ho : o.strictNull = true) {a b : Kind}
    (ha : Simple a = true) (hb : Simple b = true) (h : simpleRule S o a b = true) (v : Val)
    (hv : Has v a) : Has v b := by
  cases a <;> cases ha <;> cases b <;> cases hb <;> cases v <;>
    simp_all [simpleRule, special, Has]

theorem simpleRule_complete {S : Store} {o : Opts} (ho : o.strictNull = true) {a b : Kind}
    (hab : a ≠ b) (ha : Simple a = true) (hb : Simple b = true) (h : simpleRule S o a b = false) :
    Has (sample a b) a ∧ ¬ Has (sample a b) b := by
  cases a <;> cases ha <;> cases b <;> cases hb <;> simp_all [simpleRule, special, Has, sample] <;>
    omega

theorem holds_simple {R : Id → Id → Mode → Prop} {a b : Id} (hab : a ≠ b)
    (ha : Simple (C.store.kind a) = true) (hb : Simple (C.store.kind b) = true)
    (na : C.store.normalize a = a) (nb : C.store.normalize b = b) :
    (Holds R (rules C a b {}) ↔ simpleRule C.store C.opts (C.store.kind a) (C.store.kind b) = true) ∧
      (rules C a b {}).questions = [] := by
  have hv : byVariance C.store (C.store.kind a) (C.store.kind b) {} = ([], false) :=
    byVariance_left (fun d as e => by rw [e] at ha; cases ha)
  constructor
  · rw [holds_normal hab hv na nb]
    unfold simpleRule
    cases hs : special C.store C.opts (C.store.kind a) (C.store.kind b) with
    | some r => simp
    | none =>
      generalize C.store.kind a = ka at *
      generalize C.store.kind b = kb at *
      cases ka <;> cases ha <;> cases kb <;> cases hb <;>
        simp [expanded, composite, structural, Holds, holds_ofBool]
  · have hq : ∀ r, (Goal.ofBool r).questions = [] := by intro r; cases r <;> rfl
    simp only [rules, assignable, if_neg hab, hv, Goal.all, Goal.questions, List.nil_append, na, nb]
    simp only [ne_eq, not_true_eq_false, decide_false, Bool.or_self, Bool.and_false,
      Bool.false_eq_true, if_false]
    cases hs : special C.store C.opts (C.store.kind a) (C.store.kind b) with
    | some r => exact hq r
    | none =>
      generalize C.store.kind a = ka at *
      generalize C.store.kind b = kb at *
      cases ka <;> cases ha <;> cases kb <;> cases hb <;>
        simp [expanded, composite, structural, Goal.questions, hq]

end Verif.Relate
