import Verif.Expr.Model
import Verif.Expr.Spec
/-!
# Two runs side by side
-/

namespace Verif.Expr
open Verif.Exec (Out)

section
variable {F W A B A' B' : Type}

/-- Did a run end with an error that cannot be caught? -/
def Fatal (r : Option (Out (Val F) A × W)) : Prop := ∃ w, r = some (.fatal, w)

/-- The ends of two runs that do the same: `Q` relates the results. -/
inductive Same (Q : A → B → W → Prop) : Option (Out (Val F) A × W) → Option (Out (Val F) B × W) → Prop where
  | none : Same Q none none
  | ok {a b w} : Q a b w → Same Q (some (.ok a, w)) (some (.ok b, w))
  | throw {v w} : Same Q (some (.throw v, w)) (some (.throw v, w))

/-- Two steps do the same from a state, unless one gives up. -/
def Sim (Q : A → B → W → Prop) (m : M F W A) (s : M F W B) (w : W) : Prop :=
  Fatal (m w) ∨ Fatal (s w) ∨ Same Q (m w) (s w)

/-- The same results. -/
def Eqv : A → A → W → Prop := fun a b _ => a = b

theorem Sim.refl (m : M F W A) (w : W) : Sim Eqv m m w := by
  unfold Sim
  rcases h : m w with _ | ⟨o, w'⟩
  · exact .inr (.inr .none)
  · cases o with
    | ok a => exact .inr (.inr (.ok rfl))
    | throw v => exact .inr (.inr .throw)
    | fatal => exact .inl ⟨_, rfl⟩

theorem Sim.pure {Q : A → B → W → Prop} {a : A} {b : B} {w : W} (h : Q a b w) :
    Sim Q (F := F) (Pure.pure a) (Pure.pure b) w := .inr (.inr (.ok h))

theorem Sim.fatal {Q : A → B → W → Prop} (s : M F W B) (w : W) : Sim Q (M.fatal) s w := .inl ⟨_, rfl⟩

theorem Sim.fatal' {Q : A → B → W → Prop} (m : M F W A) (w : W) : Sim Q m (M.fatal) w := .inr (.inl ⟨_, rfl⟩)

theorem Sim.raise {E R I P C : Type} (H : Host F E R I P C W) {Q : A → B → W → Prop} (k : ErrorKind) (w : W) :
    Sim Q (Expr.raise H k) (Expr.raise H k) w := .inr (.inr .throw)

theorem bind_apply (m : M F W A) (f : A → M F W B) (w : W) : (m >>= f) w = M.bind m f w := rfl

theorem Fatal.bind {m : M F W A} {f : A → M F W B} {w : W} (h : Fatal (m w)) : Fatal ((m >>= f) w) := by
  obtain ⟨w', h⟩ := h
  exact ⟨w', by rw [bind_apply]; simp [M.bind, h]⟩

theorem Sim.bind {Q : A → B → W → Prop} {Q' : A' → B' → W → Prop} {m : M F W A} {s : M F W B} {f : A → M F W A'}
    {g : B → M F W B'} {w : W} (h : Sim Q m s w) (hf : ∀ a b w', Q a b w' → Sim Q' (f a) (g b) w') :
    Sim Q' (m >>= f) (s >>= g) w := by
  rcases h with h | h | h
  · exact .inl h.bind
  · exact .inr (.inl h.bind)
  · unfold Sim
    rw [bind_apply, bind_apply]
    unfold M.bind
    generalize m w = r at h
    generalize s w = t at h
    cases h with
    | none => exact .inr (.inr .none)
    | ok q => exact hf _ _ _ q
    | throw => exact .inr (.inr .throw)

theorem Sim.bindE {Q' : A' → B' → W → Prop} {m s : M F W A} {f : A → M F W A'} {g : A → M F W B'} {w : W}
    (h : Sim Eqv m s w) (hf : ∀ a w', Sim Q' (f a) (g a) w') : Sim Q' (m >>= f) (s >>= g) w :=
  h.bind fun a b w' hab => by cases hab; exact hf a w'

theorem Sim.mono {Q Q' : A → B → W → Prop} {m : M F W A} {s : M F W B} {w : W} (h : Sim Q m s w)
    (hq : ∀ a b w', Q a b w' → Q' a b w') : Sim Q' m s w := by
  rcases h with h | h | h
  · exact .inl h
  · exact .inr (.inl h)
  · refine .inr (.inr ?_)
    generalize m w = r at h
    generalize s w = t at h
    cases h with
    | none => exact .none
    | ok q => exact .ok (hq _ _ _ q)
    | throw => exact .throw

/-- Right-associated binds and binds of `pure`. -/
theorem bind_bind (m : M F W A) (f : A → M F W B) (g : B → M F W A') :
    ((m >>= f) >>= g) = (m >>= fun a => f a >>= g) := by
  funext w
  simp only [bind_apply, M.bind]
  rcases m w with _ | ⟨o, w'⟩
  · rfl
  · cases o <;> rfl

theorem pure_bind' (a : A) (f : A → M F W B) : ((Pure.pure a : M F W A) >>= f) = f a := rfl

theorem bind_pure' (m : M F W A) : (m >>= fun a => (Pure.pure a : M F W A)) = m := by
  funext w
  simp only [bind_apply, M.bind]
  rcases m w with _ | ⟨o, w'⟩
  · rfl
  · cases o <;> rfl

theorem raise_bind {E R I P C : Type} (H : Host F E R I P C W) (k : ErrorKind) (f : A → M F W B) :
    ((raise H k : M F W A) >>= f) = raise H k := rfl

theorem fatal_bind (f : A → M F W B) : ((M.fatal : M F W A) >>= f) = M.fatal := rfl

theorem ask_bind (q : W → A) (f : A → M F W B) (w : W) : (M.ask q >>= f) w = f (q w) w := rfl

/-- One run does the same as the other or gives up. -/
def Sub (m s : M F W A) : Prop := ∀ w, Fatal (m w) ∨ m w = s w

theorem Sub.refl (m : M F W A) : Sub m m := fun _ => .inr rfl

theorem Sub.fatal (s : M F W A) : Sub M.fatal s := fun _ => .inl ⟨_, rfl⟩

theorem Sub.bind {m s : M F W A} {f g : A → M F W B} (h : Sub m s) (hf : ∀ a, Sub (f a) (g a)) :
    Sub (m >>= f) (s >>= g) := by
  intro w
  rcases h w with h | h
  · exact .inl h.bind
  · simp only [bind_apply, M.bind, ← h]
    rcases m w with _ | ⟨o, w'⟩
    · exact .inr rfl
    · cases o with
      | ok a => exact hf a w'
      | throw v => exact .inr rfl
      | fatal => exact .inl ⟨_, rfl⟩

theorem Sub.within (ok : Bool) : Sub (Ecma.within (F := F) (W := W) false ok) (Ecma.within true ok) := by
  cases ok
  · exact Sub.fatal _
  · exact Sub.refl _
end

end Verif.Expr
