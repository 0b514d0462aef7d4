import Verif.Modules.Lemmas
/-!
# Modules: theorems (C21, C22, C23, C53, C54, C55)
-/

namespace Verif.Modules

open Verif.Values (cmpUtf16 IsScalar encode_inj)

/-! ## C21: module requests -/

/-- **C21.** For requests without repeated attributes, `ModuleRequestsEqual` says exactly: same specifier
and same set of attributes. -/
theorem C21_equal_iff {l r : Request} (hl : NoDup l) (hr : NoDup r) :
    requestsEqual l r = true ↔ SameRequest l r := by
  rw [requestsEqual_iff]
  constructor
  · rintro ⟨h1, h2, h3⟩
    exact ⟨h1, fun a => ⟨h3 a, mem_of_subset_nodup hl h2 h3 a⟩⟩
  · rintro ⟨h1, h2⟩
    exact ⟨h1, ((List.perm_ext_iff_of_nodup hl hr).2 h2).length_eq, fun a => (h2 a).1⟩

/-- **C21, equivalence.** It is an equivalence relation on requests without repeated attributes. -/
theorem C21_equivalence {a b c : Request} (ha : NoDup a) (hb : NoDup b) (hc : NoDup c) :
    requestsEqual a a = true ∧ (requestsEqual a b = true → requestsEqual b a = true) ∧
    (requestsEqual a b = true → requestsEqual b c = true → requestsEqual a c = true) := by
  refine ⟨requestsEqual_refl a, ?_, ?_⟩
  · rw [C21_equal_iff ha hb, C21_equal_iff hb ha]
    exact fun h => ⟨h.1.symm, fun x => (h.2 x).symm⟩
  · rw [C21_equal_iff ha hb, C21_equal_iff hb hc, C21_equal_iff ha hc]
    exact fun h1 h2 => ⟨h1.1.trans h2.1, fun x => (h1.2 x).trans (h2.2 x)⟩

/-- **C21, canonical form.** The order in which attributes are given does not matter: the constructor
gives the same request for any two orders. -/
theorem C21_order_irrelevant (s : Str) {xs ys : List Attr} (hp : xs.Perm ys)
    (hx : Scalars { specifier := s, attributes := xs }) : Request.new s xs = Request.new s ys := by
  unfold Request.new
  congr 1
  have p : (sortBy cmpAttr xs).Perm (sortBy cmpAttr ys) :=
    (sortBy_perm _ xs).trans (hp.trans (sortBy_perm _ ys).symm)
  refine List.Perm.eq_of_pairwise (le := fun a b => cmpAttr a b ≠ .gt) ?_ (sortBy_sorted cmpAttr_ok _)
    (sortBy_sorted cmpAttr_ok _) p
  intro a b ha hb h1 h2
  have hb' : b ∈ xs := (sortBy_perm _ xs).subset (p.symm.subset hb)
  exact cmpAttr_eq (hx a ((sortBy_perm _ xs).subset ha)) (hx b hb') (antisymm_of_ok cmpAttr_ok h1 h2)

/-- **C21, canonical requests.** For requests without repeated attributes, equality of the canonical
forms is the same as `ModuleRequestsEqual`. -/
theorem C21_canonical {l r : Request} (hl : NoDup l) (hr : NoDup r) (sl : Scalars l) :
    l.canonicalize = r.canonicalize ↔ requestsEqual l r = true := by
  rw [C21_equal_iff hl hr]
  constructor
  · intro h
    refine ⟨?_, fun a => ?_⟩
    · have := congrArg Request.specifier h
      exact this
    · have := congrArg Request.attributes h
      simp only [Request.canonicalize] at this
      rw [← (sortBy_perm cmpAttr l.attributes).mem_iff, ← (sortBy_perm cmpAttr r.attributes).mem_iff, this]
  · rintro ⟨h1, h2⟩
    have := C21_order_irrelevant l.specifier ((List.perm_ext_iff_of_nodup hl hr).2 h2) sl
    unfold Request.new at this
    unfold Request.canonicalize
    rw [this, h1]

/-- Non-vacuity: two orders of two attributes. -/
example :
    let a : Attr := ⟨[116], [106]⟩
    let b : Attr := ⟨[97], [0x1F600]⟩
    NoDup ⟨[109], [a, b]⟩ ∧ Scalars ⟨[109], [a, b]⟩ ∧ Request.new [109] [a, b] = Request.new [109] [b, a] ∧
      (Request.new [109] [a, b]).attributes = [b, a] ∧
      requestsEqual ⟨[109], [a, b]⟩ ⟨[109], [b, a]⟩ = true ∧
      requestsEqual ⟨[109], [a, b]⟩ ⟨[109], [b, b]⟩ = false := by
  refine ⟨?_, ?_, by decide +kernel, by decide +kernel, by decide +kernel, by decide +kernel⟩
  · unfold NoDup; decide
  · unfold Scalars IsScalar; decide

/-- **C21 fails with repeated attributes.** `ModuleRequest` can hold an attribute twice (the constructor and
`with_import_attribute` accept it). Then the relation is not symmetric, and the documented equivalence of
`==` on canonical requests with `ModuleRequestsEqual` is false. -/
theorem C21_duplicates_violated :
    ∃ l r : Request, l = Request.new l.specifier l.attributes ∧ r = Request.new r.specifier r.attributes ∧
      requestsEqual l r = true ∧ requestsEqual r l = false ∧ l ≠ r :=
  ⟨⟨[109], [⟨[97], [98]⟩, ⟨[97], [98]⟩]⟩, ⟨[109], [⟨[97], [98]⟩, ⟨[97], [99]⟩]⟩, by decide +kernel,
    by decide +kernel, by decide +kernel, by decide +kernel, by decide +kernel⟩

/-! ## C22: export resolution -/

/-- **C22.** On every well-linked module graph, cyclic or not, export resolution returns, and its answer is
the one of the relation `Provides`: "not found" when nothing is provided under the name, the binding
when exactly one is provided, "ambiguous" when there are two. -/
theorem C22_resolve_exact (g : Graph) (hw : WellLinked g) (m : Nat) (hm : m < g.length) (n : Str)
    (fuel : Nat) (hf : enoughFuel g ≤ fuel) :
    ∃ res, resolveExport g fuel m n = some res ∧
      (res = .notFound ↔ ∀ b, ¬ Provides g m n b) ∧
      (∀ b, res = .resolved b ↔ Provides g m n b ∧ ∀ b', Provides g m n b' → b' = b) ∧
      (res = .ambiguous ↔ ∃ b1 b2, b1 ≠ b2 ∧ Provides g m n b1 ∧ Provides g m n b2) := by
  have hU : (m, n) ∈ univ g n := mem_univ.2 ⟨hm, .inl rfl⟩
  have htodo : todo (univ g n) [] < fuel := by
    have h1 : todo (univ g n) [] ≤ (univ g n).length := List.length_filter_le ..
    have h2 := univ_length g n
    omega
  obtain ⟨⟨res, R⟩, hres⟩ := resolve_total hw n fuel m n [] hU htodo
  have k := resolve_ok fuel m n [] res R hres
  refine ⟨res, by unfold resolveExport; rw [hres]; rfl, ?_⟩
  -- every provided binding is the result, unless the result is ambiguous
  have all : res ≠ .ambiguous → ∀ b, Provides g m n b → res = .resolved b := by
    intro hna b hb
    obtain ⟨p, hp, hl⟩ := leaf_in_closed (S := R) (fun p hp s hs => k.closed hna p hp (by simp) s hs) hb k.root
    exact k.found hna p hp (by simp) b hl
  cases res with
  | notFound =>
    refine ⟨⟨fun _ b hb => ?_, fun _ => rfl⟩, fun b => ⟨by simp, fun h => ?_⟩, ⟨by simp, ?_⟩⟩
    · have := all (by simp) b hb; cases this
    · have := all (by simp) b h.1; cases this
    · rintro ⟨b1, _, _, h, _⟩
      have := all (by simp) b1 h; cases this
  | resolved c =>
    have hc := k.sound c rfl
    refine ⟨⟨by simp, fun h => absurd hc (h c)⟩, fun b => ⟨fun h => ?_, fun h => ?_⟩, ⟨by simp, ?_⟩⟩
    · cases h
      refine ⟨hc, fun b' hb' => ?_⟩
      have := all (by simp) b' hb'; cases this; rfl
    · rw [h.2 c hc]
    · rintro ⟨b1, b2, hne, h1, h2⟩
      have e1 := all (by simp) b1 h1
      have e2 := all (by simp) b2 h2
      rw [e1] at e2
      cases e2
      exact absurd rfl hne
  | ambiguous =>
    obtain ⟨b1, b2, hne, h1, h2⟩ := k.two rfl
    refine ⟨⟨by simp, fun h => absurd h1 (h b1)⟩, fun b => ⟨by simp, fun h => ?_⟩, ⟨fun _ => ⟨b1, b2, hne, h1, h2⟩, fun _ => rfl⟩⟩
    exact absurd ((h.2 b1 h1).trans (h.2 b2 h2).symm) hne

/-- **C22, what a binding is.** A provided binding names a module of the graph, and is either the
namespace of that module or the local name of one of its local exports. -/
theorem C22_binding_exists (g : Graph) (hw : WellLinked g) {m : Nat} {n : Str} {b : Binding}
    (h : Provides g m n b) :
    ∃ r, g[b.module]? = some r ∧
      (b.bindingName = .namespace ∨ ∃ e ∈ r.locals, b.bindingName = .name e.localName) := by
  induction h with
  | @local_ m n r e hg hl => exact ⟨r, hg, .inr ⟨e, List.mem_of_find?_eq_some hl, rfl⟩⟩
  | namespace_ hg hl hi him hn =>
    have := imported_lt hw hg him
    exact ⟨_, List.getElem?_eq_getElem this, .inl rfl⟩
  | indirect _ _ _ _ _ _ ih => exact ih
  | star _ _ _ _ _ _ _ ih => exact ih

/-- **C22, `default` never comes through a star.** A module that provides `default` has an export entry
named `default` itself. -/
theorem C22_default_not_through_star (g : Graph) {m : Nat} {b : Binding} (h : Provides g m default_ b) :
    ∃ r, g[m]? = some r ∧ default_ ∈ r.ownNames := by
  generalize hn : default_ = n at h
  cases h with
  | @local_ _ _ r e hg hl =>
    refine ⟨r, hg, ?_⟩
    have h1 := List.mem_of_find?_eq_some hl
    have h2 := List.find?_some hl
    simp only [beq_iff_eq] at h2
    simp only [Record.ownNames, List.mem_append, List.mem_map]
    exact .inl ⟨e, h1, h2⟩
  | @namespace_ _ _ r e _ hg _ hi _ _ =>
    refine ⟨r, hg, ?_⟩
    have h1 := List.mem_of_find?_eq_some hi
    have h2 := List.find?_some hi
    simp only [beq_iff_eq] at h2
    simp only [Record.ownNames, List.mem_append, List.mem_map]
    exact .inr ⟨e, h1, h2⟩
  | @indirect _ _ r e _ _ _ hg _ hi _ _ _ =>
    refine ⟨r, hg, ?_⟩
    have h1 := List.mem_of_find?_eq_some hi
    have h2 := List.find?_some hi
    simp only [beq_iff_eq] at h2
    simp only [Record.ownNames, List.mem_append, List.mem_map]
    exact .inr ⟨e, h1, h2⟩
  | star _ _ _ hd _ _ _ => exact absurd hn.symm hd

/-- A cyclic example graph: module 0 star-exports 1 and 2, both star-export 3 and 0; module 2 also has its
own `y`, and so has module 1 (under another local name). -/
def exampleGraph : Graph :=
  let q (c : Nat) : Request := ⟨[c], []⟩
  let loaded := [(q 48, 0), (q 49, 1), (q 50, 2), (q 51, 3)]
  [ { stars := [q 49, q 50], loaded := loaded },
    { stars := [q 51, q 48], locals := [⟨[121], [97]⟩], loaded := loaded },
    { stars := [q 51, q 48], locals := [⟨[121], [98]⟩], loaded := loaded },
    { locals := [⟨[120], [120]⟩, ⟨default_, starDefault⟩],
      indirects := [⟨[122], q 48, .all⟩, ⟨[119], q 48, .name [119]⟩], loaded := loaded } ]

/-- Non-vacuity: `x` resolves through the diamond, `y` is ambiguous, `z` is a namespace, `w` is a cycle of
re-exports that provides nothing, and `default` is not found. -/
example : WellLinked exampleGraph ∧
    resolveExport exampleGraph (enoughFuel exampleGraph) 0 [120] =
      some (.resolved { module := 3, bindingName := .name [120] }) ∧
    resolveExport exampleGraph (enoughFuel exampleGraph) 0 [121] = some .ambiguous ∧
    resolveExport exampleGraph (enoughFuel exampleGraph) 0 [122] =
      some (.resolved { module := 0, bindingName := .namespace }) ∧
    resolveExport exampleGraph (enoughFuel exampleGraph) 0 [119] = some .notFound ∧
    resolveExport exampleGraph (enoughFuel exampleGraph) 0 default_ = some .notFound := by
  refine ⟨?_, by decide +kernel, by decide +kernel, by decide +kernel, by decide +kernel, by decide +kernel⟩
  unfold WellLinked; decide +kernel

/-! ## C23: exported names -/

/-- **C23.** On every well-linked graph the list of exported names is returned; it contains exactly the
names in the relation `Exports`; it starts with the module's own names in order; `default` is in it only
if the module itself has it; and no name is repeated unless the module's own entries repeat it. -/
theorem C23_names_exact (g : Graph) (hw : WellLinked g) (m : Nat) (r : Record) (hm : g[m]? = some r)
    (fuel : Nat) (hf : g.length < fuel) :
    ∃ ns, exportedNames g fuel m = some ns ∧ (∀ n, n ∈ ns ↔ Exports g m n) ∧
      (∃ rest, ns = r.ownNames ++ rest ∧ default_ ∉ rest) ∧ (r.ownNames.Nodup → ns.Nodup) := by
  have hlt : m < g.length := by
    rw [List.getElem?_eq_some_iff] at hm; exact hm.1
  have htodo : todoM g.length [] < fuel := by
    have h1 : todoM g.length [] ≤ (List.range g.length).length := List.length_filter_le ..
    rw [List.length_range] at h1
    omega
  obtain ⟨⟨ns, S⟩, hns⟩ := names_total hw fuel m [] hlt htodo
  have k := names_ok fuel m [] ns S hns
  have ho : own g m = r.ownNames := by simp only [own, hm]
  obtain ⟨rest, hrest, hnd⟩ := k.fresh (by simp)
  rw [ho] at hrest
  refine ⟨ns, by unfold exportedNames; rw [hns]; rfl, fun n => ⟨k.sound n, fun h => ?_⟩,
    ⟨rest, hrest, fun h => hnd _ h rfl⟩, fun h => k.nodup (by rw [ho]; exact h)⟩
  by_cases hd : n = default_
  · have := own_of_exports_default h hd
    rw [ho] at this
    rw [hrest]
    exact List.mem_append_left _ this
  · obtain ⟨p, hp, hn⟩ := own_in_closed (S := S) (fun p hp s hs => k.closed p hp (by simp) s hs) h k.root
    exact k.all p hp (by simp) n hn hd

/-- Non-vacuity: the names of the example graph. -/
example : exportedNames exampleGraph 5 0 = some [[121], [120], [122], [119]] := by decide +kernel

/-! ## C53: the namespace exports -/

theorem exports_of_provides {g : Graph} {m : Nat} {n : Str} {b : Binding} (h : Provides g m n b) :
    Exports g m n := by
  have key : ∀ {r : Record} {m : Nat} {n : Str} {e : IndirectExport}, g[m]? = some r →
      r.indirects.find? (fun e => e.exportName == n) = some e → Exports g m n := by
    intro r m n e hg hi
    have h2 := List.find?_some hi
    simp only [beq_iff_eq] at h2
    exact .indirect hg ⟨e, List.mem_of_find?_eq_some hi, h2⟩
  induction h with
  | @local_ m n r e hg hl =>
    have h2 := List.find?_some hl
    simp only [beq_iff_eq] at h2
    exact .local_ hg ⟨e, List.mem_of_find?_eq_some hl, h2⟩
  | namespace_ hg _ hi _ _ => exact key hg hi
  | indirect hg _ hi _ _ _ _ => exact key hg hi
  | star hg _ _ hd hq him _ ih => exact .star hg hd hq him ih

theorem unambiguous_spec {g : Graph} {fuel m : Nat}
    (htot : ∀ n, ∃ res, resolveExport g fuel m n = some res) : ∀ ns : List Str,
    ∃ out, unambiguous g fuel m ns = some out ∧ out.Sublist ns ∧
      ∀ n, n ∈ out ↔ n ∈ ns ∧ ∃ b, resolveExport g fuel m n = some (.resolved b) := by
  intro ns
  induction ns with
  | nil => exact ⟨[], rfl, List.Sublist.refl _, by simp⟩
  | cons x xs ih =>
    obtain ⟨out, h1, h2, h3⟩ := ih
    obtain ⟨res, hres⟩ := htot x
    simp only [unambiguous, h1, hres]
    cases res with
    | resolved b =>
      refine ⟨x :: out, rfl, h2.cons_cons x, fun n => ?_⟩
      simp only [List.mem_cons, h3]
      constructor
      · rintro (rfl | ⟨h, h'⟩)
        · exact ⟨.inl rfl, b, hres⟩
        · exact ⟨.inr h, h'⟩
      · rintro ⟨rfl | h, h'⟩
        · exact .inl rfl
        · exact .inr ⟨h, h'⟩
    | notFound =>
      refine ⟨out, rfl, h2.cons x, fun n => ?_⟩
      simp only [List.mem_cons, h3]
      constructor
      · rintro ⟨h, h'⟩; exact ⟨.inr h, h'⟩
      · rintro ⟨rfl | h, b, h'⟩
        · rw [hres] at h'; cases h'
        · exact ⟨h, b, h'⟩
    | ambiguous =>
      refine ⟨out, rfl, h2.cons x, fun n => ?_⟩
      simp only [List.mem_cons, h3]
      constructor
      · rintro ⟨h, h'⟩; exact ⟨.inr h, h'⟩
      · rintro ⟨rfl | h, b, h'⟩
        · rw [hres] at h'; cases h'
        · exact ⟨h, b, h'⟩

/-- **C53.** The export list of a module namespace contains exactly the names under which the module
provides one and only one binding, in ascending order of UTF-16 code units, without repetition if the
module's own entries do not repeat a name. -/
theorem C53_namespace_exports (g : Graph) (hw : WellLinked g) (m : Nat) (r : Record) (hm : g[m]? = some r)
    (fuel : Nat) (hf : enoughFuel g ≤ fuel) :
    ∃ ns, namespaceExports g fuel m = some ns ∧
      (∀ n, n ∈ ns ↔ ∃ b, Provides g m n b ∧ ∀ b', Provides g m n b' → b' = b) ∧
      ns.Pairwise (fun a b => cmpUtf16 a b ≠ .gt) ∧ (r.ownNames.Nodup → ns.Nodup) := by
  have hlt : m < g.length := by
    rw [List.getElem?_eq_some_iff] at hm; exact hm.1
  have hlen : g.length < fuel := by
    have h1 : g.length ≤ g.length * (1 + (g.flatMap (·.indirects)).length) :=
      Nat.le_mul_of_pos_right _ (by omega)
    unfold enoughFuel at hf
    omega
  obtain ⟨ns, h1, h2, _, h4⟩ := C23_names_exact g hw m r hm fuel hlen
  have htot : ∀ n, ∃ res, resolveExport g fuel m n = some res := fun n => by
    obtain ⟨res, h, _⟩ := C22_resolve_exact g hw m hlt n fuel hf
    exact ⟨res, h⟩
  obtain ⟨out, o1, o2, o3⟩ := unambiguous_spec htot ns
  refine ⟨sortBy cmpUtf16 out, by simp only [namespaceExports, h1, o1], ?_, sortBy_sorted cmpUtf16_ok _, ?_⟩
  · intro n
    rw [(sortBy_perm _ _).mem_iff, o3]
    obtain ⟨res, e, _, e2, _⟩ := C22_resolve_exact g hw m hlt n fuel hf
    constructor
    · rintro ⟨_, b, hb⟩
      rw [e] at hb
      cases hb
      exact ⟨b, (e2 b).1 rfl⟩
    · rintro ⟨b, hb⟩
      refine ⟨(h2 n).2 (exports_of_provides hb.1), b, ?_⟩
      rw [e, (e2 b).2 hb]
  · intro h
    exact ((sortBy_perm _ _).nodup_iff).2 (o2.nodup (h4 h))

/-- Non-vacuity: in the example, `x` and `z` are in the namespace; the ambiguous `y` and the cyclic `w` are
not. -/
example : namespaceExports exampleGraph (enoughFuel exampleGraph) 0 = some [[120], [122]] := by decide +kernel

/-! ## C54: linking by specifier -/

theorem resolveHost_entry (regs : List (Str × Nat)) (q : Request) :
    resolveHost (regs.map (fun p => hostEntry p.1 p.2)) q =
      if q.attributes = [] then firstRegistered regs q.specifier else none := by
  induction regs with
  | nil => simp [resolveHost, firstRegistered]
  | cons p regs ih =>
    unfold resolveHost firstRegistered at *
    simp only [List.map_cons, List.find?_cons]
    obtain ⟨s, as⟩ := q
    by_cases h : p.1 = s
    · by_cases ha : as = []
      · simp [hostEntry, Request.new, sortBy, h, ha]
      · have hne : ¬ ((hostEntry p.1 p.2).1 = (⟨s, as⟩ : Request)) := by
          intro e
          have := congrArg Request.attributes e
          simp [hostEntry, Request.new, sortBy] at this
          exact ha this
        simp only [hne, decide_false]
        rw [ih, if_neg ha, if_neg ha]
    · have hne : ¬ ((hostEntry p.1 p.2).1 = (⟨s, as⟩ : Request)) := by
        intro e
        exact h (congrArg Request.specifier e)
      simp only [hne, decide_false, h]
      exact ih

theorem linkRequests_find (hosts : List (Request × Nat)) (f : Request → Bool) (qs : List Request)
    (loaded : List (Request × Nat)) :
    ((linkRequests hosts qs loaded).find? (fun l => f l.1)).map Prod.snd =
      match (loaded.find? (fun l => f l.1)).map Prod.snd with
      | some m => some m
      | none => ((qs.filterMap (fun q => (resolveHost hosts q).map (fun m => (q, m)))).find?
          (fun l => f l.1)).map Prod.snd := by
  induction qs generalizing loaded with
  | nil =>
    simp only [linkRequests, List.filterMap_nil, List.find?_nil, Option.map_none]
    cases (loaded.find? (fun l => f l.1)) <;> rfl
  | cons q qs ih =>
    simp only [linkRequests]
    cases h : resolveHost hosts q with
    | none =>
      simp only
      rw [ih, List.filterMap_cons_none (by simp [h])]
    | some m =>
      simp only
      rw [ih, List.filterMap_cons_some (b := (q, m)) (by simp [h]), List.find?_append]
      cases hl : loaded.find? (fun l => f l.1) with
      | some p => rfl
      | none =>
        simp only [Option.none_or, List.find?_cons, List.find?_nil, Option.map_none]
        cases hq : f q <;> simp

/-- **C54.** After linking a graph whose modules have no loaded modules yet, every request of a module
without attributes leads to the module registered first under its specifier (or to none if there is no
such registration), and a request with attributes leads nowhere. -/
theorem C54_link_by_specifier (regs : List (Str × Nat)) (g : Graph) (m : Nat) (r : Record)
    (hm : g[m]? = some r) (hl : r.loaded = []) :
    ∃ r', (linkAll (regs.map (fun p => hostEntry p.1 p.2)) g)[m]? = some r' ∧
      r'.requested = r.requested ∧ r'.locals = r.locals ∧ r'.indirects = r.indirects ∧
      r'.stars = r.stars ∧
      (∀ q ∈ r.requested, q.attributes = [] → r'.imported q = firstRegistered regs q.specifier) ∧
      (∀ q, q.attributes ≠ [] → r'.imported q = none) := by
  refine ⟨{ r with loaded := linkRequests (regs.map (fun p => hostEntry p.1 p.2)) r.requested r.loaded },
    by unfold linkAll; rw [List.getElem?_map, hm]; rfl, rfl, rfl, rfl, rfl, ?_, ?_⟩
  · intro q hq ha
    unfold Record.imported
    simp only [hl]
    rw [linkRequests_find _ (fun x => requestsEqual x q)]
    simp only [List.find?_nil, Option.map_none]
    -- every linked request equal to `q` leads to the same module
    have all : ∀ l ∈ r.requested.filterMap (fun q =>
        (resolveHost (regs.map (fun p => hostEntry p.1 p.2)) q).map (fun m => (q, m))),
        requestsEqual l.1 q = true → firstRegistered regs q.specifier = some l.2 := by
      intro l hmem heq
      obtain ⟨q', _, hq'⟩ := List.mem_filterMap.1 hmem
      rw [resolveHost_entry] at hq'
      obtain ⟨e1, e2, _⟩ := (requestsEqual_iff _ _).1 heq
      by_cases ha' : q'.attributes = []
      · rw [if_pos ha'] at hq'
        cases hf : firstRegistered regs q'.specifier with
        | none => rw [hf] at hq'; cases hq'
        | some k =>
          rw [hf] at hq'
          cases hq'
          rw [← e1]
          exact hf
      · rw [if_neg ha'] at hq'; cases hq'
    cases hf : (r.requested.filterMap (fun q =>
        (resolveHost (regs.map (fun p => hostEntry p.1 p.2)) q).map (fun m => (q, m)))).find?
        (fun l => requestsEqual l.1 q) with
    | some l =>
      have := all l (List.mem_of_find?_eq_some hf) (by have := List.find?_some hf; simpa using this)
      rw [this]
      rfl
    | none =>
      cases hr : firstRegistered regs q.specifier with
      | none => rfl
      | some k =>
        exfalso
        rw [List.find?_eq_none] at hf
        apply hf (q, k)
        · refine List.mem_filterMap.2 ⟨q, hq, ?_⟩
          rw [resolveHost_entry, if_pos ha, hr]
          rfl
        · exact requestsEqual_refl q
  · intro q ha
    unfold Record.imported
    simp only [hl]
    rw [linkRequests_find _ (fun x => requestsEqual x q)]
    simp only [List.find?_nil, Option.map_none]
    rw [Option.map_eq_none_iff, List.find?_eq_none]
    intro l hmem heq
    obtain ⟨q', _, hq'⟩ := List.mem_filterMap.1 hmem
    rw [resolveHost_entry] at hq'
    obtain ⟨_, e2, _⟩ := (requestsEqual_iff _ _).1 heq
    by_cases ha' : q'.attributes = []
    · rw [if_pos ha'] at hq'
      cases hf : firstRegistered regs q'.specifier with
      | none => rw [hf] at hq'; cases hq'
      | some k =>
        rw [hf] at hq'
        cases hq'
        rw [ha'] at e2
        exact ha (List.length_eq_zero_iff.1 e2.symm)
    · rw [if_neg ha'] at hq'; cases hq'

/-- Non-vacuity: two registrations of the same specifier; the first wins. -/
example :
    let g : Graph := [{ requested := [⟨[97], []⟩, ⟨[98], [⟨[116], [106]⟩]⟩] }]
    let g' := linkAll [hostEntry [97] 3, hostEntry [97] 4, hostEntry [98] 5] g
    (g'.map (fun r => r.imported ⟨[97], []⟩)) = [some 3] ∧
      (g'.map (fun r => r.imported ⟨[98], [⟨[116], [106]⟩]⟩)) = [none] := by decide +kernel

/-! ## C55: from source items to the record -/

theorem recordOf_lists (items : List Item) (r : Record) :
    (items.foldl addItem r).locals =
      r.locals ++ (items.flatMap localEntries).map (fun e => ⟨e.1, e.2⟩) ∧
    (items.foldl addItem r).indirects = r.indirects ++ items.flatMap fromEntries ∧
    (items.foldl addItem r).stars = r.stars ++ items.flatMap starEntries ∧
    (items.foldl addItem r).requested = (items.flatMap itemRequests).foldl pushRequested r.requested := by
  induction items generalizing r with
  | nil => simp
  | cons i items ih =>
    obtain ⟨h1, h2, h3, h4⟩ := ih (addItem r i)
    simp only [List.foldl_cons, List.flatMap_cons, List.map_append, List.foldl_append, h1, h2, h3, h4]
    cases i with
    | importFrom t q bs => cases t <;> simp [addItem, localEntries, fromEntries, starEntries, itemRequests]
    | exportDefault => simp [addItem, localEntries, fromEntries, starEntries, itemRequests]
    | exportAll t a q =>
      cases t <;> cases a <;> simp [addItem, localEntries, fromEntries, starEntries, itemRequests]
    | exportFrom t ns q => cases t <;> simp [addItem, localEntries, fromEntries, starEntries, itemRequests]
    | exportList t ns =>
      cases t <;> simp [addItem, localEntries, fromEntries, starEntries, itemRequests, Function.comp_def]
    | exportVars ns => simp [addItem, localEntries, fromEntries, starEntries, itemRequests, Function.comp_def]
    | exportDecl d n => cases d <;> simp [addItem, localEntries, fromEntries, starEntries, itemRequests]
    | other => simp [addItem, localEntries, fromEntries, starEntries, itemRequests]

theorem pushRequested_mem (qs out : List Request) :
    ∀ q ∈ out ++ qs, ∃ e ∈ qs.foldl pushRequested out, requestsEqual e q = true := by
  induction qs generalizing out with
  | nil => intro q hq; exact ⟨q, by simpa using hq, requestsEqual_refl q⟩
  | cons x qs ih =>
    intro q hq
    simp only [List.foldl_cons]
    by_cases hx : out.any (fun e => requestsEqual e x) = true
    · have hp : pushRequested out x = out := by unfold pushRequested; rw [if_pos hx]
      rw [hp]
      have hmono : ∀ e ∈ out, e ∈ qs.foldl pushRequested out := by
        clear ih hq hx hp
        induction qs generalizing out with
        | nil => intro e h; exact h
        | cons y qs ih2 =>
          intro e h
          simp only [List.foldl_cons]
          apply ih2
          unfold pushRequested
          split
          · exact h
          · exact List.mem_append_left _ h
      rcases List.mem_append.1 hq with hq | hq
      · exact ⟨q, hmono q hq, requestsEqual_refl q⟩
      · rcases List.mem_cons.1 hq with rfl | hq
        · obtain ⟨e, he, h⟩ := List.any_eq_true.1 hx
          exact ⟨e, hmono e he, h⟩
        · exact ih out q (List.mem_append_right _ hq)
    · have hp : pushRequested out x = out ++ [x] := by unfold pushRequested; rw [if_neg hx]
      rw [hp]
      apply ih
      simpa using hq

theorem filterMap_congr' {α β : Type} {f g : α → Option β} (l : List α) (h : ∀ x ∈ l, f x = g x) :
    l.filterMap f = l.filterMap g := by
  induction l with
  | nil => rfl
  | cons x l ih =>
    simp only [List.filterMap_cons, h x (List.mem_cons_self ..)]
    rw [ih (fun y hy => h y (List.mem_cons_of_mem _ hy))]

/-- **C55 (partial).** If no exported local name is a named import, the export entries of the record are
those of ECMA-262 ParseModule; and in any case every request of the source has an equal one in
`[[RequestedModules]]`, which contains nothing else. Missing: re-exports of imported names, for which the
claim is false (`C55_reexported_import_violated`). -/
theorem C55_entries_partial (items : List Item)
    (h : ∀ e ∈ items.flatMap localEntries, ∀ i ∈ namedImports items, i.1 ≠ e.2) :
    (recordOf items).locals = specLocals items ∧ (recordOf items).indirects = specIndirects items ∧
    (recordOf items).stars = items.flatMap starEntries := by
  obtain ⟨h1, h2, h3, _⟩ := recordOf_lists items {}
  have hany : ∀ e ∈ items.flatMap localEntries, (namedImports items).any (fun i => i.1 == e.2) = false := by
    intro e he
    rw [Bool.eq_false_iff]
    intro ht
    obtain ⟨i, hi, hie⟩ := List.any_eq_true.1 ht
    simp only [beq_iff_eq] at hie
    exact h e he i hi hie
  refine ⟨?_, ?_, ?_⟩
  · unfold recordOf specLocals
    rw [h1]
    simp only [List.nil_append]
    rw [← List.filterMap_eq_map]
    exact filterMap_congr' _ (fun e he => by simp [hany e he])
  · unfold recordOf specIndirects
    rw [h2]
    simp only [List.nil_append]
    have : ∀ xs : List Item, (∀ x ∈ xs, x ∈ items) → xs.flatMap fromEntries =
        xs.flatMap (fun i =>
          (localEntries i).filterMap (fun e =>
            ((namedImports items).find? (fun i => i.1 == e.2)).map (fun i => ⟨e.1, i.2.1, .name i.2.2⟩)) ++
          fromEntries i) := by
      intro xs
      induction xs with
      | nil => intro _; rfl
      | cons x xs ih =>
        intro hx
        rw [List.flatMap_cons, List.flatMap_cons, ← ih (fun y hy => hx y (List.mem_cons_of_mem _ hy))]
        congr 1
        rw [List.filterMap_eq_nil_iff.2, List.nil_append]
        intro e he
        rw [Option.map_eq_none_iff, List.find?_eq_none]
        intro i hi hie
        simp only [beq_iff_eq] at hie
        exact h e (List.mem_flatMap.2 ⟨x, hx x (List.mem_cons_self ..), he⟩) i hi hie
    exact this items (fun _ h => h)
  · unfold recordOf; rw [h3]; rfl

/-- **C55, requested modules.** -/
theorem C55_requested_modules (items : List Item) :
    (∀ q ∈ items.flatMap itemRequests, ∃ e ∈ (recordOf items).requested, requestsEqual e q = true) ∧
    (∀ q ∈ (recordOf items).requested, q ∈ items.flatMap itemRequests) := by
  obtain ⟨_, _, _, h4⟩ := recordOf_lists items {}
  unfold recordOf
  rw [h4]
  refine ⟨fun q hq => pushRequested_mem _ _ q (by simpa using hq), ?_⟩
  have : ∀ (qs out : List Request), ∀ q ∈ qs.foldl pushRequested out, q ∈ out ∨ q ∈ qs := by
    intro qs
    induction qs with
    | nil => intro out q hq; exact .inl hq
    | cons x qs ih =>
      intro out q hq
      rcases ih _ q hq with h | h
      · unfold pushRequested at h
        split at h
        · exact .inl h
        · rcases List.mem_append.1 h with h | h
          · exact .inl h
          · simp only [List.mem_singleton] at h
            exact .inr (by rw [h]; exact List.mem_cons_self ..)
      · exact .inr (List.mem_cons_of_mem _ h)
  intro q hq
  rcases this _ _ q hq with h | h
  · cases h
  · exact h

/-- Non-vacuity: `import {a} from "m"; export {b as c}; export * from "n"; export default 1`. -/
example :
    let items : List Item := [.importFrom false ⟨[109], []⟩ [(.name [97], [97])], .exportList false [([98], [99])],
      .exportAll false none ⟨[110], []⟩, .exportDefault]
    (∀ e ∈ items.flatMap localEntries, ∀ i ∈ namedImports items, i.1 ≠ e.2) ∧
    (recordOf items).locals = [⟨[99], [98]⟩, ⟨default_, starDefault⟩] ∧
    (recordOf items).requested = [⟨[109], []⟩, ⟨[110], []⟩] := by decide +kernel

/-- **C55 fails for re-exported imports.** Module `b` is `import {x} from "a"; export {x}`. ECMA-262 makes
this an indirect export of `a`'s `x`; the code makes it a local export. In a module that star-exports
both `a` and `b`, `x` is then reported as ambiguous, although both are the same binding. -/
theorem C55_reexported_import_violated :
    let a : Request := ⟨[97], []⟩
    let b : Request := ⟨[98], []⟩
    let loaded := [(a, 0), (b, 1)]
    let mainItems : List Item := [.exportAll false none a, .exportAll false none b]
    let aItems : List Item := [.exportVars [[120]]]
    let bItems : List Item := [.importFrom false a [(.name [120], [120])], .exportList false [([120], [120])]]
    let code (items : List Item) : Record := { recordOf items with loaded := loaded }
    let spec (items : List Item) : Record :=
      { recordOf items with locals := specLocals items, indirects := specIndirects items, loaded := loaded }
    resolveExport [code aItems, code bItems, code mainItems] 20 2 [120] = some .ambiguous ∧
    resolveExport [spec aItems, spec bItems, spec mainItems] 20 2 [120] =
      some (.resolved { module := 0, bindingName := .name [120] }) := by decide +kernel

end Verif.Modules
