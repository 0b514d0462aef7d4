import Verif.Types.Spec
import Verif.Types.InternLemmas
/-!
# Lemmas: the order of types is a total order
-/

namespace Verif.Types
open Store
open Verif.Harness

theorem tp_cmpBool : TotalPreorder cmpBool where
  swap a b := by cases a <;> cases b <;> rfl
  trans a b c := by cases a <;> cases b <;> cases c <;> simp [cmpBool]

theorem tp_int : TotalPreorder (fun a b : Int => compare a b) where
  swap a b := Std.OrientedCmp.eq_swap
  trans a b c h1 h2 := by
    have e : ∀ x y : Int, compare x y ≠ .gt ↔ (compare x y).isLE := by
      intro x y; cases compare x y <;> simp
    rw [e] at *
    exact Std.TransCmp.isLE_trans h1 h2

theorem tp_option {α : Type} {cmp : α → α → Ordering} (h : TotalPreorder cmp) :
    TotalPreorder (cmpOption cmp) where
  swap a b := by
    cases a <;> cases b
    · rfl
    · rfl
    · rfl
    · exact h.swap _ _
  trans a b c := by
    cases a <;> cases b <;> cases c <;> simp [cmpOption]
    exact h.trans _ _ _

theorem tp_const {α : Type} : TotalPreorder (fun _ _ : α => Ordering.eq) :=
  ⟨fun _ _ => rfl, fun _ _ _ _ _ => by simp⟩

section
variable {rec : Nat → Nat → Ordering} {st : Store}

theorem tp_slices (h : TotalPreorder rec) : TotalPreorder (cmpSlices rec) := tp_list h

theorem tp_params (h : TotalPreorder rec) : TotalPreorder (cmpParams rec) :=
  tp_list (tp_then (tp_on tp_cmpBool Param.optional)
    (tp_then (tp_on tp_cmpBool Param.rest) (tp_on h Param.ty)))

theorem tp_typeParams (h : TotalPreorder rec) : TotalPreorder (cmpTypeParams rec) :=
  tp_list (tp_then (tp_on tp_nat TypeParamDecl.id)
    (tp_then (tp_on (tp_option h) TypeParamDecl.constraint)
      (tp_on (tp_option h) TypeParamDecl.default_)))

/-- Comparing by something first and then by the identifier. -/
theorem tp_ids {c : Nat → Nat → Ordering} (h : TotalPreorder c) :
    TotalPreorder (fun a b => if a = b then .eq else (c a b).then (compare a b)) := by
  have e : (fun a b : Nat => if a = b then Ordering.eq else (c a b).then (compare a b)) =
      fun a b => (c a b).then (compare a b) := by
    funext a b
    by_cases hab : a = b
    · subst hab; rw [if_pos rfl, h.refl]; simp
    · rw [if_neg hab]
  rw [e]
  exact tp_then h tp_nat

theorem tp_sig (h : TotalPreorder rec) : TotalPreorder (cmpSig rec st) := by
  have := tp_ids (tp_then (tp_on (tp_params h) (fun a => (st.sig a).params))
    (tp_then (tp_on h (fun a => (st.sig a).ret))
      (tp_then (tp_on (tp_typeParams h) (fun a => (st.sig a).typeParams))
        (tp_on (tp_option h) (fun a => (st.sig a).thisParam)))))
  simp only [Ordering.then_assoc] at this
  exact this

theorem tp_key : TotalPreorder st.cmpKey := by
  have e : st.cmpKey = fun a b => (compare (keyRank a) (keyRank b)).then
      ((cmpStr (match a with | .string n => st.name n | .symbol n => st.name n | .number _ => [])
        (match b with | .string n => st.name n | .symbol n => st.name n | .number _ => [])).then
        (compare (match a with | .number i => i | _ => (0 : Int))
          (match b with | .number i => i | _ => (0 : Int)))) := by
    funext a b
    have r1 : ∀ x : List Nat, cmpStr x x = .eq := fun x => tp_str.refl x
    have r2 : ∀ x : Int, compare x x = .eq := fun x => tp_int.refl x
    cases a <;> cases b <;> first | rfl | simp [cmpKey, keyRank, r1, r2]
  rw [e]
  exact tp_then (tp_on tp_nat _) (tp_then (tp_on tp_str _) (tp_on tp_int _))

theorem tp_prop (h : TotalPreorder rec) : TotalPreorder (cmpProp rec st) :=
  tp_then (tp_on tp_key Property.key)
    (tp_then (tp_on h (fun p : Property => p.data.ty))
      (tp_then (tp_on tp_cmpBool (fun p : Property => p.data.optional))
        (tp_then (tp_on tp_cmpBool (fun p : Property => p.data.readonly))
          (tp_then (tp_on tp_cmpBool (fun p : Property => p.data.isMethod))
            (tp_then (tp_on (tp_option (tp_on tp_nat accessRank))
                (fun p : Property => p.data.accessibility))
              (tp_on (tp_option tp_nat) (fun p : Property => p.data.declaredOn)))))))

theorem tp_indexer (h : TotalPreorder rec) : TotalPreorder (cmpIndexer rec) :=
  tp_then (tp_on h Indexer.keyType) (tp_then (tp_on h Indexer.valueType)
    (tp_on tp_cmpBool Indexer.readonly))

theorem tp_sigs (h : TotalPreorder rec) : TotalPreorder (cmpSigs rec st) := tp_list (tp_sig h)

theorem tp_shape (h : TotalPreorder rec) : TotalPreorder (cmpShape rec st) :=
  tp_then (tp_on (tp_list (tp_prop h)) Shape.properties)
    (tp_then (tp_on (tp_sigs h) Shape.callSigs)
      (tp_then (tp_on (tp_sigs h) Shape.constructSigs)
        (tp_on (tp_list (tp_indexer h)) Shape.indexers)))

theorem tp_elem (h : TotalPreorder rec) : TotalPreorder (cmpElem rec) :=
  tp_then (tp_on h TupleElem.ty) (tp_then (tp_on tp_cmpBool TupleElem.optional)
    (tp_then (tp_on tp_cmpBool TupleElem.rest) (tp_on tp_cmpBool TupleElem.readonly)))

theorem tp_mapped (h : TotalPreorder rec) : TotalPreorder (cmpMapped rec) :=
  tp_then (tp_on tp_nat MappedType.param) (tp_then (tp_on h MappedType.source)
    (tp_then (tp_on h MappedType.value)
      (tp_then (tp_on tp_nat (fun m : MappedType => modifierRank m.readonly))
        (tp_then (tp_on tp_nat (fun m : MappedType => modifierRank m.optional))
          (tp_then (tp_on (tp_option h) MappedType.nameType)
            (tp_on (tp_option h) MappedType.asType))))))

/-! ### One comparison for all kinds: by what the kinds contain -/

/-- The part of a kind that is compared, as a product of all the things kinds contain; those that a
kind does not contain have a default. -/
structure Parts where
  bool : Bool := false
  int : Int := 0
  str : List Nat := []
  nat : Nat := 0
  opred : Option (Option Nat) := none
  types : List Nat := []
  otype : Option Nat := none
  bool2 : Bool := false
  shape : Shape := ⟨[], [], [], []⟩
  sigs : List Nat := []
  elems : List TupleElem := []
  mapped : MappedType := ⟨0, 0, 0, .add, .add, none, none⟩
  chunks : List TemplateChunk := []

def parts (st : Store) : Kind → Parts
  | .boolLit b => { bool := b }
  | .numLit i => { int := i }
  | .strLit n => { str := st.name n }
  | .bigLit i => { int := i }
  | .union ms => { types := ms }
  | .inter ms => { types := ms }
  | .object o => { shape := st.shapeOf o }
  | .callable o => { sigs := o }
  | .ref d a => { nat := d, types := a }
  | .infer p c => { nat := p, otype := c }
  | .tuple es => { elems := es }
  | .array t r => { bool := r, types := [t] }
  | .typeParam p => { nat := p }
  | .predicate p a b => { opred := p, otype := a, bool2 := b }
  | .conditional c e t f d => { types := [c, e, t, f], bool2 := d }
  | .mapped m => { mapped := m }
  | .template h s => { str := h, chunks := s }
  | .intrinsic k t => { nat := intrinsicRank k, types := [t] }
  | .indexed o i => { types := [o, i] }
  | .keyOf t => { types := [t] }
  | _ => {}

def cmpParts (rec : Nat → Nat → Ordering) (st : Store) (a b : Parts) : Ordering :=
  (cmpBool a.bool b.bool).then <| (compare a.int b.int).then <| (cmpStr a.str b.str).then <|
  (compare a.nat b.nat).then <|
  (cmpOption (cmpOption (fun m n : Nat => compare m n)) a.opred b.opred).then <|
  (cmpList rec a.types b.types).then <| (cmpOption rec a.otype b.otype).then <|
  (cmpBool a.bool2 b.bool2).then <| (cmpShape rec st a.shape b.shape).then <|
  (cmpSigs rec st a.sigs b.sigs).then <| (cmpList (cmpElem rec) a.elems b.elems).then <|
  (cmpMapped rec a.mapped b.mapped).then <|
  cmpList (fun x y : TemplateChunk => (rec x.ty y.ty).then (cmpStr x.literal y.literal)) a.chunks b.chunks

theorem tp_parts (h : TotalPreorder rec) : TotalPreorder (cmpParts rec st) :=
  tp_then (tp_on tp_cmpBool Parts.bool) <| tp_then (tp_on tp_int Parts.int) <|
  tp_then (tp_on tp_str Parts.str) <| tp_then (tp_on tp_nat Parts.nat) <|
  tp_then (tp_on (tp_option (tp_option tp_nat)) Parts.opred) <|
  tp_then (tp_on (tp_list h) Parts.types) <| tp_then (tp_on (tp_option h) Parts.otype) <|
  tp_then (tp_on tp_cmpBool Parts.bool2) <| tp_then (tp_on (tp_shape h) Parts.shape) <|
  tp_then (tp_on (tp_sigs h) Parts.sigs) <| tp_then (tp_on (tp_list (tp_elem h)) Parts.elems) <|
  tp_then (tp_on (tp_mapped h) Parts.mapped) <|
  tp_on (tp_list (tp_then (tp_on h TemplateChunk.ty) (tp_on tp_str TemplateChunk.literal))) Parts.chunks

theorem cmpKind_parts (h : TotalPreorder rec) (a b : Kind) (hd : a.discriminant = b.discriminant) :
    cmpKind rec st a b = cmpParts rec st (parts st a) (parts st b) := by
  have r0 : ∀ x, rec x x = .eq := h.refl
  have r1 : ∀ x : List Nat, cmpStr x x = .eq := fun x => tp_str.refl x
  have r2 : ∀ x : Int, compare x x = .eq := fun x => tp_int.refl x
  have r3 : ∀ x : Bool, cmpBool x x = .eq := fun x => tp_cmpBool.refl x
  have r4 : ∀ x, cmpShape rec st x x = .eq := (tp_shape h).refl
  have r5 : ∀ x, cmpMapped rec x x = .eq := (tp_mapped h).refl
  cases a <;> cases b <;> cases hd <;>
    simp [Ordering.then_assoc, cmpKind, cmpParts, parts, r1, r2, r3, r4, r5, cmpList, cmpOption, cmpSigs, cmpSlices]

theorem tp_kind (h : TotalPreorder rec) :
    TotalPreorder (fun a b : Kind => (compare a.discriminant b.discriminant).then (cmpKind rec st a b)) := by
  have e : (fun a b : Kind => (compare a.discriminant b.discriminant).then (cmpKind rec st a b)) =
      fun a b => (compare a.discriminant b.discriminant).then
        (cmpParts rec st (parts st a) (parts st b)) := by
    funext a b
    by_cases hd : a.discriminant = b.discriminant
    · rw [cmpKind_parts h a b hd]
    · cases e : compare a.discriminant b.discriminant with
      | eq => exact absurd (Nat.compare_eq_eq.1 e) hd
      | lt => rfl
      | gt => rfl
  rw [e]
  exact tp_then (tp_on tp_nat Kind.discriminant) (tp_on (tp_parts h) (parts st))

theorem tp_typeWith (h : TotalPreorder rec) : TotalPreorder (typeCmpWith rec st) := by
  have := tp_ids (tp_on (tp_kind (st := st) h) st.kind)
  have e : typeCmpWith rec st = fun a b => if a = b then .eq else
      ((compare (st.kind a).discriminant (st.kind b).discriminant).then
        (cmpKind rec st (st.kind a) (st.kind b))).then (compare a b) := by
    funext a b
    unfold typeCmpWith
    rw [Ordering.then_assoc]
  rw [e]; exact this

theorem typeWith_eq (a b : Nat) : typeCmpWith rec st a b = .eq ↔ a = b := by
  unfold typeCmpWith
  by_cases h : a = b
  · simp [h]
  · rw [if_neg h]
    simp only [then_eq, h, iff_false]
    rintro ⟨_, _, e⟩
    exact h (Nat.compare_eq_eq.1 e)

end

theorem tp_typeCmpN (st : Store) : ∀ n, TotalPreorder (st.typeCmpN n)
  | 0 => tp_nat
  | n + 1 => tp_typeWith (tp_typeCmpN st n)

theorem typeCmpN_eq (st : Store) (n a b : Nat) : st.typeCmpN n a b = .eq ↔ a = b := by
  cases n with
  | zero => exact Nat.compare_eq_eq
  | succ n => exact typeWith_eq a b

theorem tp_typeCmp (st : Store) : TotalPreorder st.typeCmp := tp_typeCmpN st _

theorem typeCmp_eq (st : Store) (a b : Nat) : st.typeCmp a b = .eq ↔ a = b := typeCmpN_eq st _ a b

theorem tp_sigCmp (st : Store) : TotalPreorder st.sigCmp := tp_sig (tp_typeCmp st)

theorem sigCmp_eq (st : Store) (a b : Nat) : st.sigCmp a b = .eq ↔ a = b := by
  unfold Store.sigCmp cmpSig
  by_cases h : a = b
  · simp [h]
  · rw [if_neg h]
    simp only [then_eq, h, iff_false]
    rintro ⟨_, _, _, _, e⟩
    exact h (Nat.compare_eq_eq.1 e)

end Verif.Types
