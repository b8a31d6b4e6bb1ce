import Verif.Hash.WalkRel

/-
C111: the collection of the implementation dependencies of a module's items.
-/

namespace Verif.Hash

theorem Ctx.in_itemDeps {c : Ctx} {d : Dep} (i : TopItem) :
    d.In (c.itemDeps i) ↔
      ∃ q ∈ (match i with | .decl _ t => t.freeD | .stmt _ t => t.freeD), c.Means q d := by
  have h0 : ¬ d.In ([], []) := by cases d <;> simp [Dep.In]
  cases i <;> simp [Ctx.itemDeps, Ctx.in_walk, Ctx.Got, h0]

theorem Ctx.in_implSplit {c : Ctx} {d : Dep} {n : Name} (items : List TopItem) :
    d.In (c.implSplit n items) ↔ ∃ i ∈ items, i.name = n ∧ d.In (c.itemDeps i) := by
  have h0 : ¬ d.In ([], []) := by cases d <;> simp [Dep.In]
  have key : ∀ (items : List TopItem) (a : Split),
      d.In (items.foldl (fun a i => if i.name = n then
        ((c.itemDeps i).1 ++ a.1, (c.itemDeps i).2 ++ a.2) else a) a) ↔
      d.In a ∨ ∃ i ∈ items, i.name = n ∧ d.In (c.itemDeps i) := by
    intro items
    induction items with
    | nil => simp
    | cons i is ih =>
      intro a
      rw [List.foldl_cons, ih]
      by_cases hi : i.name = n
      · have : d.In ((c.itemDeps i).1 ++ a.1, (c.itemDeps i).2 ++ a.2) ↔
            d.In (c.itemDeps i) ∨ d.In a := Dep.in_append
        rw [if_pos hi, this]
        simp only [List.mem_cons, exists_eq_or_imp, hi, true_and]
        tauto
      · simp [hi]
  rw [Ctx.implSplit, key]
  simp [h0]

theorem mem_implDeps {q : QName} {n : Name} (items : List TopItem) :
    q ∈ implDeps n items ↔ ∃ i ∈ items, i.name = n ∧ q ∈ i.freeQ := by
  have key : ∀ (items : List TopItem) (a : List QName),
      q ∈ items.foldl (fun a i => if i.name = n then i.freeQ ++ a else a) a ↔
      q ∈ a ∨ ∃ i ∈ items, i.name = n ∧ q ∈ i.freeQ := by
    intro items
    induction items with
    | nil => simp
    | cons i is ih =>
      intro a
      rw [List.foldl_cons, ih]
      by_cases hi : i.name = n
      · rw [if_pos hi, List.mem_append]
        simp only [List.mem_cons, exists_eq_or_imp, hi, true_and]
        tauto
      · simp [hi]
  rw [implDeps, key]
  simp

theorem Ctx.in_splitDeps {c : Ctx} {d : Dep} (qs : List QName) :
    d.In (c.splitDeps qs) ↔ ∃ q ∈ qs, c.Means q d := by
  have h0 : ¬ d.In ([], []) := by cases d <;> simp [Dep.In]
  have key : ∀ (qs : List QName) (a : Split),
      d.In (qs.foldl c.add a) ↔ d.In a ∨ ∃ q ∈ qs, c.Means q d := by
    intro qs
    induction qs with
    | nil => simp
    | cons q qs ih =>
      intro a
      simp only [List.foldl_cons, ih, Ctx.in_add, List.mem_cons, exists_eq_or_imp, or_assoc]
  rw [Ctx.splitDeps, key]
  simp [h0]

/-- C111: a name to which an item refers, and which nothing in the item
introduces, is among the collected dependencies of the item. -/
theorem C111_occurs_partial (c : Ctx) (items : List TopItem) (i : TopItem) (hi : i ∈ items) (q : QName)
    (hq : q ∈ i.refs) (hb : ∀ x ∈ i.intro, q ≠ .noQ x) (d : Dep) (hd : c.Means q d) :
    d.In (c.implSplit i.name items) := by
  rw [Ctx.in_implSplit]
  refine ⟨i, hi, rfl, ?_⟩
  rw [Ctx.in_itemDeps]
  refine ⟨q, ?_, hd⟩
  have main : ∀ {s : SS} (t : Syn s), q ∈ t.refs → (∀ x ∈ t.intro, q ≠ .noQ x) →
      (∀ x ∈ t.heads, x ∈ t.intro) → q ∈ t.freeD := by
    intro s t h1 h2 h3
    rcases t.refs_freeQ h1 with h | ⟨n, hn, rfl⟩
    · rcases t.freeQ_freeD h with h | ⟨n, hn, rfl⟩
      · exact h
      · exact absurd rfl (h2 n (h3 n hn))
    · exact absurd rfl (h2 n hn)
  cases i with
  | decl n t =>
    refine main t hq hb fun x hx => t.bound_intro ?_
    rw [t.bound_heads (.inl rfl)]
    exact hx
  | stmt n t =>
    rcases t.refs_freeQ hq with h | ⟨n, hn, rfl⟩
    · rcases t.freeQ_freeD' h with h | ⟨h, _⟩
      · exact h
      · cases h
    · exact absurd rfl (hb n hn)

/-- C111: a collected dependency of `n` is a name to which an item `n`
refers. -/
theorem C111_sound (c : Ctx) (items : List TopItem) (n : Name) (d : Dep)
    (h : d.In (c.implSplit n items)) :
    ∃ i ∈ items, i.name = n ∧ ∃ q ∈ i.refs, c.Means q d := by
  rw [Ctx.in_implSplit] at h
  obtain ⟨i, hi, hn, h⟩ := h
  rw [Ctx.in_itemDeps] at h
  obtain ⟨q, hq, hd⟩ := h
  refine ⟨i, hi, hn, q, ?_, hd⟩
  cases i with
  | decl _ t => exact t.freeD_refs hq
  | stmt _ t => exact t.freeD_refs hq

/-- C111: the collection in one pass has all the dependencies that splitting
the free names of the items gives, but for the items' own names. -/
theorem C111_reference (c : Ctx) (items : List TopItem) (n : Name) (d : Dep)
    (hown : ∀ i ∈ items, ∀ x ∈ i.heads, x ∈ c.locals)
    (h : d.In (c.splitDeps (implDeps n items))) :
    d.In (c.implSplit n items) ∨
      ∃ i ∈ items, i.name = n ∧ ∃ x ∈ i.heads, d = .loc x := by
  rw [Ctx.in_splitDeps] at h
  obtain ⟨q, hq, hd⟩ := h
  rw [mem_implDeps] at hq
  obtain ⟨i, hi, hn, hq⟩ := hq
  rw [Ctx.in_implSplit]
  cases i with
  | decl m t =>
    rcases t.freeQ_freeD hq with h | ⟨x, hx, rfl⟩
    · exact .inl ⟨_, hi, hn, Ctx.in_itemDeps _ |>.2 ⟨q, h, hd⟩⟩
    · have hx' := hown _ hi x hx
      refine .inr ⟨_, hi, hn, x, hx, ?_⟩
      cases hd with
      | plain => rfl
      | aliased hq => exact absurd hx' (hq _ rfl)
      | own hq => exact absurd hx' (hq _ rfl)
      | other hq => exact absurd hx' (hq _ rfl)
  | stmt m t =>
    rcases t.freeQ_freeD' hq with h | ⟨h, _⟩
    · exact .inl ⟨_, hi, hn, Ctx.in_itemDeps _ |>.2 ⟨q, h, hd⟩⟩
    · cases h

/-- C111: the collection in one pass has no other dependencies than splitting
the free names of the items gives, but for plain names declared by groups of
declarations inside an item. -/
theorem C111_extra (c : Ctx) (items : List TopItem) (n : Name) (d : Dep)
    (h : d.In (c.implSplit n items)) :
    d.In (c.splitDeps (implDeps n items)) ∨
      ∃ i ∈ items, i.name = n ∧ ∃ x ∈ i.declared, c.Means (.noQ x) d := by
  rw [Ctx.in_implSplit] at h
  obtain ⟨i, hi, hn, h⟩ := h
  rw [Ctx.in_itemDeps] at h
  obtain ⟨q, hq, hd⟩ := h
  have main : ∀ {s : SS} (t : Syn s), q ∈ t.freeD → q ∈ t.freeQ ∨ Plain t.declared q :=
    fun t h => t.freeD_freeQ h
  rw [Ctx.in_splitDeps]
  cases i with
  | decl m t =>
    rcases main t hq with h | ⟨x, hx, rfl⟩
    · exact .inl ⟨q, (mem_implDeps _).2 ⟨_, hi, hn, h⟩, hd⟩
    · exact .inr ⟨_, hi, hn, x, hx, hd⟩
  | stmt m t =>
    rcases main t hq with h | ⟨x, hx, rfl⟩
    · exact .inl ⟨q, (mem_implDeps _).2 ⟨_, hi, hn, h⟩, hd⟩
    · exact .inr ⟨_, hi, hn, x, hx, hd⟩

/-! ## Examples -/

namespace Ex

abbrev nf : Name := .name [102]
abbrev ng : Name := .name [103]
abbrev nx : Name := .name [120]
abbrev ny : Name := .name [121]
abbrev nm : Name := .name [109]
abbrev nT : Name := .name [84]

abbrev vr (n : Name) : Syn .expr := .var (.noQ n)

/-- A function without parameters that returns `e`. -/
abbrev fn (n : Name) (e : Syn .expr) : Syn .decl :=
  .def_ n .nil .posNIL .kwdNIL Option.none (.cons (.ret (.some e)) .nil) .noDec .tNone Option.none

/-- `[v for v in s]`. -/
abbrev comp (v s : Name) : Syn .expr :=
  .listComp (.elem (vr v)) (.compFor (.pVar v Option.none) (vr s) .noComp)

/-- A module with items `f`, `g`, `x`, `T`. -/
abbrev ctx : Ctx := ⟨[nm], [.name [36]], id, [nf, ng, nx, nT]⟩

end Ex

open Ex in
/-- C111 fails for the source of a comprehension: the type checker reads
`[x for x in x]` as it reads `[y for y in x]`, with the item `x` as the source
(Types.hs lines 2506-2512), but the dependency of `f` on `x` is not
collected, neither in one pass nor from the free names. -/
theorem C111_refuted_comp :
    (Dep.loc nx).In (ctx.implSplit nf [.decl nf (fn nf (comp ny nx))]) ∧
    ¬ (Dep.loc nx).In (ctx.implSplit nf [.decl nf (fn nf (comp nx nx))]) ∧
    ¬ (Dep.loc nx).In (ctx.splitDeps (implDeps nf [.decl nf (fn nf (comp nx nx))])) := by
  refine ⟨?_, ?_, ?_⟩ <;> simp only [Dep.In] <;> decide

open Ex in
/-- C111 fails for the types written in patterns: `def f(): x : T = None` does
not depend on `T`. -/
theorem C111_refuted_types :
    ¬ (Dep.loc nT).In (ctx.implSplit nf [.decl nf (.def_ nf .nil .posNIL .kwdNIL Option.none
      (.cons (.assign (.cons (.pVar nx (Option.some (.tCon (.tc (.noQ nT) .nil)))) .nil) .noneE)
        .nil) .noDec .tNone Option.none)]) := by
  simp only [Dep.In]; decide

open Ex in
/-- The two collections differ: `def f(): return f()` depends on itself by its
free names, and does not in one pass. -/
theorem C111_refuted_own :
    (Dep.loc nf).In (ctx.splitDeps (implDeps nf [.decl nf (fn nf (vr nf))])) ∧
    ¬ (Dep.loc nf).In (ctx.implSplit nf [.decl nf (fn nf (vr nf))]) := by
  refine ⟨?_, ?_⟩ <;> simp only [Dep.In] <;> decide

open Ex in
/-- The hypotheses of `C111_occurs_partial` are met by the function `f` that refers to
the item `g` of its module. -/
example : (Dep.loc ng).In (ctx.implSplit nf [.decl nf (fn nf (comp ny ng)), .decl ng (fn ng (vr nx))]) :=
  C111_occurs_partial ctx _ (.decl nf (fn nf (comp ny ng))) (by simp) (.noQ ng)
    (by decide) (by decide) _ (.plain (by decide))

open Ex in
/-- … and to a name of another module. -/
example : (Dep.ext (.gname [ng] nx)).In
    (ctx.implSplit nf [.decl nf (fn nf (.var (.qname [ng] nx)))]) :=
  C111_occurs_partial ctx _ (.decl nf (fn nf (.var (.qname [ng] nx)))) (by simp) (.qname [ng] nx)
    (by decide) (by decide) _ (.other (by simp) (.inr rfl) (by decide) (by decide))

open Ex in
/-- The hypotheses of `C111_reference` are met. -/
example : (Dep.loc ng).In (ctx.splitDeps (implDeps nf [.decl nf (fn nf (comp ny ng))])) ∧
    ∀ i ∈ [TopItem.decl nf (fn nf (comp ny ng))], ∀ x ∈ i.heads, x ∈ ctx.locals := by
  refine ⟨?_, ?_⟩
  · simp only [Dep.In]; decide
  · decide

open Ex in
/-- The hypothesis of `C111_sound` and `C111_extra` is met; here by a group of
two functions under a condition, of which the first calls the second, an extra
dependency if the second is an item of the module too. -/
example : (Dep.loc ng).In (ctx.implSplit nx [.stmt nx (.ifs (.cons (.branch (.bool true)
    (.cons (.decls (.cons (fn nf (vr ng)) (.cons (fn ng (vr nx)) .nil))) .nil)) .nil) .nil)]) := by
  simp only [Dep.In]; decide

end Verif.Hash
