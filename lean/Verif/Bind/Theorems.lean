import Verif.Bind.Resolve

/-!
# C90: every identifier is bound where ECMA-262 binds it

`bind` is the model of `bind_js`: for every use of an identifier, in source
order, the scope whose symbol the binder attaches to it.  `meaning` is the
independent answer: the first scope of the scope chain that binds the name.
-/

namespace Verif.Bind

/-- C90, for programs that `Fits` describes and that do not mention `arguments`:
every use gets the symbol of the scope its name means.  Missing: the programs the
binder gets wrong (the `_violated` theorems below, one for each clause of `Fits`),
dead zones, `with` and direct `eval`. -/
theorem C90_uses_mean_partial (m : Mode) (strict : Bool) (sp : Nat) (t : Tree)
    (hd : Distinct t)
    (hf : Fits false false (m == .module_ || strict) (m == .module_ || strict) false none t)
    (ha : "arguments" ∉ mentions t) :
    bind m strict sp t = meaning m strict sp t := by
  have A : Args m [(topKind m, sp)] (m == .module_ || strict) none false none :=
    { ne := by simp
      blk := by cases m <;> rfl
      ctx := rfl
      gov := Or.inl rfl
      mod_ := by rintro rfl; rfl }
  unfold bind meaning
  have hW := whole_code (m := m) (cur := [(topKind m, sp)]) (c := (m == .module_ || strict))
    (ctx := none) (p := false) (t := t)
  have HI : AgreeIn (code m [(topKind m, sp)] (m == .module_ || strict) none false t)
      [(topKind m, sp)] (code m [(topKind m, sp)] (m == .module_ || strict) none false t) :=
    fun _ _ => Iff.rfl
  have hT : ∀ x, ([(topKind m, sp)], x) ∈
      tables (code m [(topKind m, sp)] (m == .module_ || strict) none false t) ↔
      x ∈ (if m = .global then [] else
        funcNames (decls false (m == .module_ || strict) none false t)) := by
    intro x
    have hsy := sym_iff m t _ _ _ _ _ _ _ _ A hf [(topKind m, sp)] x List.suffix_rfl
    by_cases hm : m = .global
    · rw [if_pos hm, hW.tab, hsy]
      subst hm
      simp only [List.not_mem_nil, iff_false, not_or]
      constructor
      · rintro ⟨tg, -, ⟨-, -, h⟩ | ⟨-, h⟩⟩
        · exact h ⟨rfl, rfl⟩
        · simp [nearest, topKind, SK.isVar] at h
      · rintro ⟨b, h, -⟩
        have h := nearest_idem (hW.near h).symm
        simp [nearest, topKind, SK.isVar] at h
    · rw [if_neg hm]
      refine tab_var hW ?_ (fun h => hm h.1) HI ?_ hsy (annex_here m t _ _ _ _ _ _ _ _ A hf x)
        (hoist_iff m _ t _ _ _ _ _ _ _ _ A hf hd HI.under x)
      · cases m with
        | global => exact absurd rfl hm
        | script => rfl
        | module_ => rfl
      · intro b cl h
        rcases annex_loc h with rfl | h'
        · exact List.suffix_rfl
        · exact h'.trans (List.tail_suffix _)
  have key : ∀ x ∈ mentions t, lookupUse none
      (tables (code m [(topKind m, sp)] (m == .module_ || strict) none false t))
      [(topKind m, sp)] x = find [([(topKind m, sp)], if m = .global then [] else
        funcNames (decls false (m == .module_ || strict) none false t))] x :=
    enter (pc := none) (by intro _ _ e; cases e) (fun x _ => hT x) (fun x _ => rfl)
  exact res_eq m _ _ hW t _ none _ _ none _ _ _ _ _ A hf hd HI.under ha
    (by intro _ _ e; cases e) key (fun _ => key)

/-! ## The hypotheses are met -/

/-- `var x`, as a statement. -/
def varS (x : Name) : Tree := .group (.varDecl .var) (.group .patDecl (.pat x))

/-- `let x`, as a statement. -/
def letS (x : Name) : Tree := .group (.varDecl .lexical) (.group .patDecl (.pat x))

/-- ```
var x;
function f(a, b = a + x) {
  let y;
  { { function g() { x; } } var z; g; }
  for (let y of a) { y; z; }
  try {} catch (e) { e; { function e() {} } }
  var x; x; y; g; e;
}
``` -/
def sample : Tree :=
  .seq (varS "x") <|
  .seq (.fname "f" true) <|
  .func 10 false false
    (.seq (.group .patDecl (.pat "a"))
      (.seq (.group .patDecl (.pat "b")) (.seq (.use "a") (.use "x"))))
    (.seq (letS "y") <|
     .seq (.scope .block 20
        (.seq (.scope .block 21
            (.seq (.fname "g" true) (.func 22 false false .nil (.use "x"))))
          (.seq (varS "z") (.use "g")))) <|
     .seq (.forOf 30 (.group .patDecl (.pat "y")) (.use "a")
        (.scope .block 31 (.seq (.use "y") (.use "z")))) <|
     .seq (.scope .block 40 .nil) <|
     .seq (.scope (.catch_ true) 41
        (.seq (.group .patDecl (.pat "e")) <|
         .seq (.use "e")
          (.scope .block 42 (.seq (.fname "e" true) (.func 43 false false .nil .nil))))) <|
     .seq (varS "x") <| .seq (.use "x") <| .seq (.use "y") <| .seq (.use "g") (.use "e"))

theorem sample_fits : Fits false false false false false none sample := by
  simp [sample, Fits, varS, letS, Group.gov, Group.act, Group.within, Group.inMethod, ScopeNode.gov,
    ScopeNode.isBlock, ScopeNode.isStrict, hasFunc, decls, outward, catchOk,
    blocked, Tag.blocks, blockNames, Tag.isLocal, mentions]

theorem sample_distinct : Distinct sample := by
  simp [sample, Distinct, varS, letS, keys, ScopeNode.kind, funcKind]

/-- The hypotheses of `C90_uses_mean_partial` hold of a sloppy script with hoisted
variables, block functions, a loop, a catch clause and default parameters. -/
example : bind .script false 0 sample = meaning .script false 0 sample :=
  C90_uses_mean_partial .script false 0 sample sample_distinct sample_fits
    (by decide +kernel)

/-- The answers: the parameters see the script's `x`, the body its own `x`; the
block function `g` and the catch clause's function `e` reach the function. -/
example : bind .script false 0 sample =
    let top : ScopeId := [(.global, 0)]
    let f := (.func, 10) :: top
    [("a", some f), ("x", some top),
     ("x", some f), ("g", some f),
     ("a", some f), ("y", some ((.block, 30) :: f)), ("z", some f),
     ("e", some ((.block, 41) :: f)),
     ("x", some f), ("y", some f), ("g", some f), ("e", some f)] := by
  decide +kernel

/-! ## Programs the binder gets wrong -/

/-- `var x; function f(a = () => x) { var x; }`: the arrow function in the default
value must not see the body's `x`, but it is given that one. -/
theorem C90_param_closure_violated :
    ∃ t, Distinct t ∧
      bind .module_ false 0 t = [("x", some [(.func, 1), (.module_, 0)])] ∧
      meaning .module_ false 0 t = [("x", some [(.module_, 0)])] := by
  refine ⟨.seq (varS "x") (.seq (.fname "f" true) (.func 1 false false
    (.seq (.group .patDecl (.pat "a")) (.func 2 true false .nil (.use "x")))
    (varS "x"))), ?_, by decide +kernel, by decide +kernel⟩
  simp [Distinct, varS, keys, funcKind]

/-- `let b; { let {a = b = 1} = {}; b; }`: the assignment in the default value is
taken for a declaration, so the later `b` is given a binding of the block. -/
theorem C90_pattern_assignment_violated :
    ∃ t, Distinct t ∧
      bind .module_ false 0 t = [("b", some [(.block, 1), (.module_, 0)])] ∧
      meaning .module_ false 0 t =
        [("b", some [(.module_, 0)]), ("b", some [(.module_, 0)])] := by
  refine ⟨.seq (letS "b") (.scope .block 1 (.seq (.group (.varDecl .lexical) (.group .patDecl
    (.seq (.pat "a") (.group .dflt (.pat "b"))))) (.use "b"))), ?_,
    by decide +kernel, by decide +kernel⟩
  simp [Distinct, letS, keys]

/-- `let x; for (let x of x) {}`: the head expression must see the loop's
uninitialised `x` and throw, but it is given the outer one. -/
theorem C90_for_head_violated :
    ∃ t, Distinct t ∧
      bind .module_ false 0 t = [("x", some [(.module_, 0)])] ∧
      meaning .module_ false 0 t = [("x", some [(.block, 1), (.module_, 0)])] := by
  refine ⟨.seq (letS "x") (.forOf 1 (.group .patDecl (.pat "x")) (.use "x")
    (.scope .block 2 .nil)), ?_, by decide +kernel, by decide +kernel⟩
  simp [Distinct, letS, keys]

/-- `var f; function g() { { async function f() {} } f; }` in a sloppy script:
Annex B does not hoist async functions, so the last `f` is the script's, but it is
given a binding of `g`. -/
theorem C90_async_block_function_violated :
    ∃ t, Distinct t ∧
      bind .script false 0 t = [("f", some [(.func, 1), (.global, 0)])] ∧
      meaning .script false 0 t = [("f", some [(.global, 0)])] := by
  refine ⟨.seq (varS "f") (.seq (.fname "g" true) (.func 1 false false .nil
    (.seq (.scope .block 2 (.seq (.fname "f" false) (.func 3 false false .nil .nil)))
      (.use "f")))), ?_, by decide +kernel, by decide +kernel⟩
  simp [Distinct, varS, keys, funcKind]

/-- `var f; ({ m() { { function f() {} } f; } })` in a sloppy script: the method is
sloppy code, so Annex B hoists `f` to it, but the binder takes object literals'
methods for strict code and gives the last `f` the script's binding. -/
theorem C90_object_method_violated :
    ∃ t, Distinct t ∧
      bind .script false 0 t = [("f", some [(.global, 0)])] ∧
      meaning .script false 0 t = [("f", some [(.func, 1), (.global, 0)])] := by
  refine ⟨.seq (varS "f") (.group .method (.func 1 false false .nil
    (.seq (.scope .block 2 (.seq (.fname "f" true) (.func 3 false false .nil .nil)))
      (.use "f")))), ?_, by decide +kernel, by decide +kernel⟩
  simp [Distinct, varS, keys, funcKind]

/-- `var f; function g() { try {} catch ({f}) { { function f() {} } } f; }` in a
sloppy script: a destructured catch parameter keeps Annex B from hoisting, but the
binder hoists. -/
theorem C90_catch_pattern_violated :
    ∃ t, Distinct t ∧
      bind .script false 0 t = [("f", some [(.func, 1), (.global, 0)])] ∧
      meaning .script false 0 t = [("f", some [(.global, 0)])] := by
  refine ⟨.seq (varS "f") (.seq (.fname "g" true) (.func 1 false false .nil
    (.seq (.scope (.catch_ false) 2 (.seq (.group .patDecl (.pat "f"))
      (.scope .block 3 (.seq (.fname "f" true) (.func 4 false false .nil .nil)))))
      (.use "f")))), ?_, by decide +kernel, by decide +kernel⟩
  simp [Distinct, varS, keys, funcKind]

/-- `var arguments; function f() { arguments; }` in a sloppy script: the use means
the function's own `arguments`, but it is given the variable. -/
theorem C90_arguments_violated :
    ∃ t, Distinct t ∧
      bind .script false 0 t = [("arguments", some [(.global, 0)])] ∧
      meaning .script false 0 t = [("arguments", some [(.func, 1), (.global, 0)])] := by
  refine ⟨.seq (varS "arguments") (.seq (.fname "f" true) (.func 1 false false .nil
    (.use "arguments"))), ?_, by decide +kernel, by decide +kernel⟩
  simp [Distinct, varS, keys, funcKind]

end Verif.Bind
