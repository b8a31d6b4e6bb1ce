import Verif.PkgShow.Model
/-!
# C176, C177: the tree of dependencies
-/
namespace Verif.PkgShow

theorem look_some {k : Text} {c : Dep} {pins : List (Text × Dep)} :
    look k pins = some c ↔ ∃ pre post, pins = pre ++ (k, c) :: post ∧ ∀ x ∈ pre, x.1 ≠ k := by
  induction pins with
  | nil => simp [look]
  | cons y l ih =>
    obtain ⟨n, d⟩ := y
    rw [look]
    by_cases e : k = n
    · rw [if_pos e]
      constructor
      · intro h
        have := Option.some.inj h
        subst this; subst e
        exact ⟨[], l, rfl, fun x m => (by cases m)⟩
      · rintro ⟨pre, post, h, hp⟩
        cases pre with
        | nil => rw [(Prod.mk.inj (List.cons.inj h).1).2]
        | cons z pre =>
          have := hp z List.mem_cons_self
          rw [← (List.cons.inj h).1] at this
          exact absurd e.symm this
    · rw [if_neg e, ih]
      constructor
      · rintro ⟨pre, post, h, hp⟩
        refine ⟨(n, d) :: pre, post, by rw [h]; rfl, fun x m => ?_⟩
        rcases List.mem_cons.1 m with rfl | m
        · exact fun h => e h.symm
        · exact hp x m
      · rintro ⟨pre, post, h, hp⟩
        cases pre with
        | nil => exact absurd (Prod.mk.inj (List.cons.inj h).1).1.symm e
        | cons z pre => exact ⟨pre, post, (List.cons.inj h).2, fun x m => hp x (List.mem_cons_of_mem _ m)⟩

theorem look_none {k : Text} {pins : List (Text × Dep)} : look k pins = none ↔ ∀ x ∈ pins, x.1 ≠ k := by
  induction pins with
  | nil => simp [look]
  | cons y l ih =>
    rw [look]
    by_cases e : k = y.1
    · rw [if_pos e]
      exact ⟨fun h => (by cases h), fun h => absurd e.symm (h y List.mem_cons_self)⟩
    · rw [if_neg e, ih]
      exact ⟨fun h x m => (List.mem_cons.1 m).elim (fun q => q ▸ fun h => e h.symm) (h x), fun h x m => h x (List.mem_cons_of_mem _ m)⟩

theorem isHash_iff (d : Dep) : isHash d = true ↔ Archive d := by
  unfold isHash Archive
  rw [← Option.isSome_iff_exists]
  rcases d with ⟨_ | _ | _, h, o⟩ <;> simp

theorem choose_counts (pins : List (Text × Dep)) (name : Text) (dep : Dep) : Counts pins name dep (choose pins name dep).1 := by
  unfold choose Counts
  cases h : look name pins with
  | none => exact .inr ⟨look_none.1 h, rfl⟩
  | some pin =>
    by_cases e : pin = dep
    · simp only [if_pos e]; left; rw [← e]; exact look_some.1 h
    · simp only [if_neg e]; left; exact look_some.1 h

theorem counts_choose {pins : List (Text × Dep)} {name : Text} {dep c : Dep} (h : Counts pins name dep c) : c = (choose pins name dep).1 := by
  unfold choose
  rcases h with h | ⟨h, rfl⟩
  · rw [look_some.2 h]
    by_cases e : c = dep
    · simp only [if_pos e]; exact e
    · simp only [if_neg e]
  · rw [look_none.2 h]

/-- What the override mark says. -/
theorem choose_over (pins : List (Text × Dep)) (name : Text) (dep : Dep) :
    (choose pins name dep).2 = true ↔ (choose pins name dep).1 ≠ dep := by
  unfold choose
  cases h : look name pins with
  | none => simp
  | some pin =>
    by_cases e : pin = dep
    · simp only [if_pos e]; simp
    · simp only [if_neg e]; simp [e]

/-! ## It ends -/

theorem steps_mono {W : World} {pins : List (Text × Dep)} {r r' : Text → Option Out} (h : ∀ d o, r d = some o → r' d = some o)
    {dir : Text} {depth : Nat} {ds : List (Text × Dep)} : ∀ {part : Bool} {o : Out}, steps W pins r dir depth ds part = some o →
    steps W pins r' dir depth ds part = some o := by
  induction ds with
  | nil => intro part o ho; exact ho
  | cons nd ds ih =>
    obtain ⟨name, dep⟩ := nd
    intro part o ho
    rw [steps] at ho ⊢
    cases hr : W.resolve dir name (choose pins name dep).1 with
    | none => rw [hr] at ho; exact ho
    | some base =>
      rw [hr] at ho
      simp only at ho ⊢
      by_cases he : W.exist base = true
      · rw [if_pos he] at ho ⊢
        cases hb : r base with
        | none => rw [hb] at ho; cases ho
        | some q =>
          rw [hb] at ho
          rw [h base q hb]
          simp only at ho ⊢
          by_cases hf : q.failed = true
          · rw [if_pos hf] at ho ⊢; exact ho
          · rw [if_neg hf] at ho ⊢
            obtain ⟨x, hx, rfl⟩ := Option.map_eq_some_iff.1 ho
            rw [ih hx]; rfl
      · rw [if_neg he] at ho ⊢
        by_cases hh : isHash (choose pins name dep).1 = true
        · rw [if_pos hh] at ho ⊢
          obtain ⟨x, hx, rfl⟩ := Option.map_eq_some_iff.1 ho
          rw [ih hx]; rfl
        · rw [if_neg hh] at ho ⊢; exact ho

theorem tree_succ {W : World} {pins : List (Text × Dep)} {n : Nat} : ∀ {depth : Nat} {d : Text} {o : Out}, tree W pins n depth d = some o →
    tree W pins (n + 1) depth d = some o := by
  induction n with
  | zero => intro depth d o h; cases h
  | succ n ih =>
    intro depth d o h
    rw [tree] at h ⊢
    cases hs : W.spec d with
    | none => rw [hs] at h; exact h
    | some deps =>
      rw [hs] at h
      exact steps_mono (fun d' o' h' => ih h') h

theorem tree_mono {W : World} {pins : List (Text × Dep)} {n m : Nat} (hm : n ≤ m) {depth : Nat} {d : Text} {o : Out}
    (h : tree W pins n depth d = some o) : tree W pins m depth d = some o := by
  induction hm with
  | refl => exact h
  | step _ ih => exact tree_succ ih

theorem steps_ends {W : World} {pins : List (Text × Dep)} {dir : Text} {depth : Nat} {ds : List (Text × Dep)}
    (h : ∀ nd ∈ ds, ∀ e, W.resolve dir nd.1 (choose pins nd.1 nd.2).1 = some e → W.exist e = true → ∃ n o, tree W pins n (depth + 1) e = some o) :
    ∃ n, ∀ part, ∃ o, steps W pins (tree W pins n (depth + 1)) dir depth ds part = some o := by
  induction ds with
  | nil => exact ⟨0, fun part => ⟨_, rfl⟩⟩
  | cons nd ds ih =>
    obtain ⟨name, dep⟩ := nd
    obtain ⟨n, hn⟩ := ih (fun x m => h x (List.mem_cons_of_mem _ m))
    have hh := h (name, dep) List.mem_cons_self
    cases hr : W.resolve dir name (choose pins name dep).1 with
    | none =>
      refine ⟨0, fun part => ⟨⟨[], part, true⟩, ?_⟩⟩
      rw [steps, hr]
    | some base =>
      by_cases he : W.exist base = true
      · obtain ⟨k, q, hq⟩ := hh base hr he
        refine ⟨max n k, fun part => ?_⟩
        rw [steps, hr]
        simp only
        rw [if_pos he, tree_mono (Nat.le_max_right n k) hq]
        simp only
        split
        · exact ⟨_, rfl⟩
        · obtain ⟨o, ho⟩ := hn (part || q.part)
          rw [steps_mono (fun d o h => tree_mono (Nat.le_max_left n k) h) ho]
          exact ⟨_, rfl⟩
      · refine ⟨n, fun part => ?_⟩
        rw [steps, hr]
        simp only
        rw [if_neg he]
        split
        · obtain ⟨o, ho⟩ := hn true
          rw [ho]; exact ⟨_, rfl⟩
        · exact ⟨_, rfl⟩

/-- **C176** (partial) `pkg show` ends if no project of the tree depends on itself over others
(there is no endless path of dependencies); missing: projects that do, see `C176_refuted`. -/
theorem C176_partial {W : World} {pins : List (Text × Dep)} {root : Text} (h : Acc (fun e d => Edge W pins d e) root) (depth : Nat) :
    ∃ n o, ∀ m, n ≤ m → tree W pins m depth root = some o := by
  have : ∃ n o, tree W pins n depth root = some o := by
    induction h generalizing depth with
    | intro d _ ih =>
      cases hs : W.spec d with
      | none => exact ⟨1, ⟨[], false, true⟩, by rw [tree, hs]⟩
      | some deps =>
        obtain ⟨n, hn⟩ := steps_ends (W := W) (pins := pins) (dir := d) (depth := depth) (ds := deps) (by
          intro nd m e hr he
          exact ih e ⟨nd.1, nd.2, _, ⟨deps, hs, m, choose_counts _ _ _, hr⟩, he⟩ (depth + 1))
        obtain ⟨o, ho⟩ := hn false
        exact ⟨n + 1, o, by rw [tree, hs]; exact ho⟩
  obtain ⟨n, o, h⟩ := this
  exact ⟨n, o, fun m hm => tree_mono hm h⟩

/-! ## What it shows -/

/-- A line tells the truth about a dependency of a project. -/
structure Tells (W : World) (pins : List (Text × Dep)) (d : Text) (l : Line) : Prop where
  declares : Declares W pins d l.name l.dep l.chosen l.dir
  over : l.over = true ↔ l.chosen ≠ l.dep
  missing : l.missing = true ↔ Archive l.chosen ∧ W.exist l.dir = false

theorem lineOf_true {W : World} {pins : List (Text × Dep)} {d : Text} {deps : List (Text × Dep)} (hs : W.spec d = some deps)
    {name : Text} {dep : Dep} (hm : (name, dep) ∈ deps) {base : Text} (hr : W.resolve d name (choose pins name dep).1 = some base) (depth : Nat) :
    Tells W pins d (lineOf W depth name dep (choose pins name dep) base) :=
  ⟨⟨deps, hs, hm, choose_counts _ _ _, hr⟩, choose_over _ _ _, by rw [← isHash_iff]; simp [lineOf]⟩

/-- What `rec` has to do for its callers. -/
def Good (W : World) (pins : List (Text × Dep)) (rec : Text → Option Out) (depth : Nat) : Prop :=
  ∀ d o, rec d = some o → (∀ l ∈ o.lines, ∃ k e, Path W pins d k e ∧ l.depth = depth + k ∧ Tells W pins e l) ∧
    (o.failed = false → (o.part = true ↔ ∃ l ∈ o.lines, l.missing = true) ∧
      ∀ k e name dep c f, Path W pins d k e → Declares W pins e name dep c f →
        ∃ l ∈ o.lines, l.depth = depth + k ∧ l.name = name ∧ l.dep = dep ∧ l.chosen = c ∧ l.dir = f)

theorem path_head {W : World} {pins : List (Text × Dep)} {d e f : Text} {k : Nat} (h : Edge W pins d e) (r : Path W pins e k f) :
    Path W pins d (k + 1) f := by
  induction r with
  | root => exact .step .root h
  | step _ h2 ih => exact .step ih h2

theorem path_cases {W : World} {pins : List (Text × Dep)} {d f : Text} {k : Nat} (r : Path W pins d k f) :
    (k = 0 ∧ f = d) ∨ ∃ j e, k = j + 1 ∧ Edge W pins d e ∧ Path W pins e j f := by
  induction r with
  | root => exact .inl ⟨rfl, rfl⟩
  | @step k x y _ h ih =>
    right
    rcases ih with ⟨rfl, rfl⟩ | ⟨j, e, rfl, h1, h2⟩
    · exact ⟨0, y, rfl, h, .root⟩
    · exact ⟨j + 1, e, rfl, h1, .step h2 h⟩

/-- The lines of some dependencies of a project. -/
theorem steps_good {W : World} {pins : List (Text × Dep)} {rec : Text → Option Out} {depth : Nat} (hr : Good W pins rec (depth + 1)) {dir : Text}
    {deps : List (Text × Dep)} (hs : W.spec dir = some deps) {ds : List (Text × Dep)} (hd : ∀ nd ∈ ds, nd ∈ deps) :
    ∀ {part : Bool} {o : Out}, steps W pins rec dir depth ds part = some o →
    (∀ l ∈ o.lines, ∃ k e, Path W pins dir k e ∧ l.depth = depth + k ∧ Tells W pins e l) ∧
    (o.failed = false → (o.part = true ↔ part = true ∨ ∃ l ∈ o.lines, l.missing = true) ∧
      ∀ nd ∈ ds, ∀ c f, Counts pins nd.1 nd.2 c → W.resolve dir nd.1 c = some f →
        (∃ l ∈ o.lines, l.depth = depth ∧ l.name = nd.1 ∧ l.dep = nd.2 ∧ l.chosen = c ∧ l.dir = f) ∧
        (W.exist f = true → ∀ k e name dep c' g, Path W pins f k e → Declares W pins e name dep c' g →
          ∃ l ∈ o.lines, l.depth = depth + 1 + k ∧ l.name = name ∧ l.dep = dep ∧ l.chosen = c' ∧ l.dir = g)) := by
  induction ds with
  | nil =>
    intro part o ho
    have := Option.some.inj ho; subst this
    exact ⟨fun l m => (by cases m), fun _ => ⟨by simp, fun nd m => (by cases m)⟩⟩
  | cons nd ds ih =>
    obtain ⟨name, dep⟩ := nd
    intro part o ho
    have hmem := hd _ List.mem_cons_self
    have ih := @ih (fun x m => hd x (List.mem_cons_of_mem _ m))
    rw [steps] at ho
    cases hb : W.resolve dir name (choose pins name dep).1 with
    | none =>
      rw [hb] at ho
      have := Option.some.inj ho; subst this
      exact ⟨fun l m => (by cases m), fun h => (by cases h)⟩
    | some base =>
      rw [hb] at ho
      simp only at ho
      have hl := lineOf_true hs hmem hb depth
      by_cases he : W.exist base = true
      · rw [if_pos he] at ho
        have hedge : Edge W pins dir base := ⟨name, dep, _, hl.declares, he⟩
        have hmiss : (lineOf W depth name dep (choose pins name dep) base).missing = false := by simp [lineOf, he]
        cases hq : rec base with
        | none => rw [hq] at ho; cases ho
        | some q =>
          rw [hq] at ho
          simp only at ho
          obtain ⟨q1, q2⟩ := hr base q hq
          by_cases hf : q.failed = true
          · rw [if_pos hf] at ho
            have := Option.some.inj ho; subst this
            refine ⟨fun l m => ?_, fun h => ?_⟩
            · rcases List.mem_cons.1 (show l ∈ _ :: q.lines from m) with rfl | m
              · exact ⟨0, dir, .root, rfl, hl⟩
              · obtain ⟨k, e, r, hk, t⟩ := q1 l m
                exact ⟨k + 1, e, path_head hedge r, by omega, t⟩
            · exact absurd hf (by rw [show q.failed = false from h]; decide)
          · rw [if_neg hf] at ho
            obtain ⟨x, hx, rfl⟩ := Option.map_eq_some_iff.1 ho
            obtain ⟨x1, x2⟩ := ih hx
            obtain ⟨q3, q4⟩ := q2 (by simpa using hf)
            refine ⟨fun l m => ?_, fun h => ?_⟩
            · rcases List.mem_cons.1 (show l ∈ _ :: (q.lines ++ x.lines) from m) with rfl | m
              · exact ⟨0, dir, .root, rfl, hl⟩
              · rcases List.mem_append.1 m with m | m
                · obtain ⟨k, e, r, hk, t⟩ := q1 l m
                  exact ⟨k + 1, e, path_head hedge r, by omega, t⟩
                · exact x1 l m
            · obtain ⟨x3, x4⟩ := x2 h
              refine ⟨?_, ?_⟩
              · show x.part = true ↔ part = true ∨ ∃ l ∈ _ :: (q.lines ++ x.lines), l.missing = true
                rw [x3, Bool.or_eq_true, q3]
                constructor
                · rintro ((hp | ⟨l, m, e⟩) | ⟨l, m, e⟩)
                  · exact .inl hp
                  · exact .inr ⟨l, List.mem_cons_of_mem _ (List.mem_append_left _ m), e⟩
                  · exact .inr ⟨l, List.mem_cons_of_mem _ (List.mem_append_right _ m), e⟩
                · rintro (hp | ⟨l, m, e⟩)
                  · exact .inl (.inl hp)
                  · rcases List.mem_cons.1 m with rfl | m
                    · rw [hmiss] at e; cases e
                    · rcases List.mem_append.1 m with m | m
                      · exact .inl (.inr ⟨l, m, e⟩)
                      · exact .inr ⟨l, m, e⟩
              · intro nd m c f hc hres
                rcases List.mem_cons.1 m with rfl | m
                · have := counts_choose hc; subst this
                  have e : base = f := by rw [hb] at hres; exact Option.some.inj hres
                  subst e
                  refine ⟨⟨_, List.mem_cons_self, rfl, rfl, rfl, rfl, rfl⟩, fun _ k e n' d' c' g r dcl => ?_⟩
                  obtain ⟨l, lm, le⟩ := q4 k e n' d' c' g r dcl
                  exact ⟨l, List.mem_cons_of_mem _ (List.mem_append_left _ lm), le⟩
                · obtain ⟨⟨l, lm, le⟩, b⟩ := x4 nd m c f hc hres
                  refine ⟨⟨l, List.mem_cons_of_mem _ (List.mem_append_right _ lm), le⟩, fun ex k e n' d' c' g r dcl => ?_⟩
                  obtain ⟨l, lm, le⟩ := b ex k e n' d' c' g r dcl
                  exact ⟨l, List.mem_cons_of_mem _ (List.mem_append_right _ lm), le⟩
      · rw [if_neg he] at ho
        by_cases hh : isHash (choose pins name dep).1 = true
        · rw [if_pos hh] at ho
          have hmiss : (lineOf W depth name dep (choose pins name dep) base).missing = true := by simp [lineOf, he, hh]
          obtain ⟨x, hx, rfl⟩ := Option.map_eq_some_iff.1 ho
          obtain ⟨x1, x2⟩ := ih hx
          refine ⟨fun l m => ?_, fun h => ?_⟩
          · rcases List.mem_cons.1 (show l ∈ _ :: x.lines from m) with rfl | m
            · exact ⟨0, dir, .root, rfl, hl⟩
            · exact x1 l m
          · obtain ⟨x3, x4⟩ := x2 h
            refine ⟨⟨fun _ => .inr ⟨_, List.mem_cons_self, hmiss⟩, fun _ => x3.2 (.inl rfl)⟩, ?_⟩
            intro nd m c f hc hres
            rcases List.mem_cons.1 m with rfl | m
            · have := counts_choose hc; subst this
              have e : base = f := by rw [hb] at hres; exact Option.some.inj hres
              subst e
              exact ⟨⟨_, List.mem_cons_self, rfl, rfl, rfl, rfl, rfl⟩, fun ex => absurd ex he⟩
            · obtain ⟨⟨l, lm, le⟩, b⟩ := x4 nd m c f hc hres
              refine ⟨⟨l, List.mem_cons_of_mem _ lm, le⟩, fun ex k e n' d' c' g r dcl => ?_⟩
              obtain ⟨l, lm, le⟩ := b ex k e n' d' c' g r dcl
              exact ⟨l, List.mem_cons_of_mem _ lm, le⟩
        · rw [if_neg hh] at ho
          have := Option.some.inj ho; subst this
          refine ⟨fun l m => ?_, fun h => by cases h⟩
          rcases List.mem_cons.1 m with rfl | m
          · exact ⟨0, dir, .root, rfl, hl⟩
          · cases m

theorem tree_good (W : World) (pins : List (Text × Dep)) (n : Nat) : ∀ depth, Good W pins (tree W pins n depth) depth := by
  induction n with
  | zero => intro depth d o h; cases h
  | succ n ih =>
    intro depth d o h
    rw [tree] at h
    cases hs : W.spec d with
    | none =>
      rw [hs] at h
      have := Option.some.inj h; subst this
      exact ⟨fun l m => (by cases m), fun h => (by cases h)⟩
    | some deps =>
      rw [hs] at h
      obtain ⟨a, b⟩ := steps_good (ih (depth + 1)) hs (fun _ m => m) h
      refine ⟨a, fun hf => ?_⟩
      obtain ⟨b1, b2⟩ := b hf
      refine ⟨by rw [b1]; simp, ?_⟩
      intro k e name dep c f r dcl
      rcases path_cases r with ⟨rfl, rfl⟩ | ⟨j, x, rfl, ⟨n', d', c', ⟨deps', hs', m', hc', hr'⟩, hx⟩, r'⟩
      · obtain ⟨deps', hs', m, hc, hres⟩ := dcl
        have : deps = deps' := by rw [hs] at hs'; exact Option.some.inj hs'
        subst this
        exact (b2 (name, dep) m c f hc hres).1
      · have : deps = deps' := by rw [hs] at hs'; exact Option.some.inj hs'
        subst this
        obtain ⟨l, m, e1, e2⟩ := (b2 (n', d') m' c' x hc' hr').2 hx j e name dep c f r' dcl
        exact ⟨l, m, by omega, e2⟩

/-- **C177** When `pkg show` ends without an error, it has shown every dependency that a project of
the tree declares, with the dependency that counts, indented by the length of the way to it; every line tells the truth; and the note that
the tree is partial is given exactly if a line says "not fetched". -/
theorem C177 {W : World} {pins : List (Text × Dep)} {n depth : Nat} {root : Text} {o : Out} (h : tree W pins n depth root = some o)
    (hf : o.failed = false) :
    (∀ k e name dep c f, Path W pins root k e → Declares W pins e name dep c f →
      ∃ l ∈ o.lines, l.depth = depth + k ∧ l.name = name ∧ l.dep = dep ∧ l.chosen = c ∧ l.dir = f) ∧
    (∀ l ∈ o.lines, ∃ k e, Path W pins root k e ∧ l.depth = depth + k ∧ Tells W pins e l) ∧
    (o.part = true ↔ ∃ l ∈ o.lines, l.missing = true) := by
  obtain ⟨a, b⟩ := tree_good W pins n depth root o h
  exact ⟨(b hf).2, a, (b hf).1⟩

/-! ## Samples -/

/-- A dependency in a directory. -/
def at' (p : Text) : Dep := ⟨some p, none, []⟩

/-- Project `r` depends on `a` and on the archive `z`, which is not there; `a` depends on `b`. -/
def sample : World where
  spec d := if d = ['r'] then some [(['a'], at' ['a']), (['z'], ⟨none, some ['h'], []⟩)]
    else if d = ['a'] then some [(['b'], at' ['b'])] else some []
  resolve _ n _ := some n
  exist d := d ≠ ['z']

theorem sample_tree : ∃ o, tree sample [] 3 0 ['r'] = some o ∧ o.failed = false ∧ o.part = true ∧ o.lines.length = 3 := by
  refine ⟨_, rfl, rfl, rfl, rfl⟩

example : ∃ o, tree sample [] 3 0 ['r'] = some o ∧ ∃ l ∈ o.lines, l.depth = 1 ∧ l.name = ['b'] ∧ l.dir = ['b'] := by
  obtain ⟨o, h, hf, -⟩ := sample_tree
  obtain ⟨l, m, k, a, -, -, b⟩ := (C177 h hf).1 1 ['a'] ['b'] (at' ['b']) (at' ['b']) ['b']
    (.step .root ⟨['a'], at' ['a'], at' ['a'], ⟨_, rfl, List.mem_cons_self, .inr ⟨fun _ m => (by cases m), rfl⟩, rfl⟩, rfl⟩)
    ⟨_, rfl, List.mem_cons_self, .inr ⟨fun _ m => (by cases m), rfl⟩, rfl⟩
  exact ⟨o, h, l, m, k, a, b⟩

theorem sample_edge {d e : Text} (h : Edge sample [] d e) : (d = ['r'] ∧ e = ['a']) ∨ (d = ['a'] ∧ e = ['b']) := by
  obtain ⟨name, dep, c, ⟨deps, hs, m, -, hr⟩, he⟩ := h
  have hne : name = e := Option.some.inj hr
  subst hne
  simp only [sample] at hs
  split at hs
  · rename_i hd
    have := Option.some.inj hs; subst this
    simp only [List.mem_cons, List.not_mem_nil, or_false, Prod.mk.injEq] at m
    rcases m with m | m
    · exact .inl ⟨hd, m.1⟩
    · rw [m.1] at he; simp [sample] at he
  · split at hs
    · rename_i hd
      have := Option.some.inj hs; subst this
      simp only [List.mem_cons, List.not_mem_nil, or_false, Prod.mk.injEq] at m
      exact .inr ⟨hd, m.1⟩
    · have := Option.some.inj hs; subst this
      cases m

example : ∃ n o, ∀ m, n ≤ m → tree sample [] m 0 ['r'] = some o := by
  refine C176_partial (.intro _ fun a ha => .intro _ fun b hb => .intro _ fun c hc => ?_) 0
  rcases sample_edge ha with ⟨-, rfl⟩ | ⟨h, -⟩
  · rcases sample_edge hb with ⟨h, -⟩ | ⟨-, rfl⟩
    · exact absurd h (by decide)
    · rcases sample_edge hc with ⟨h, -⟩ | ⟨h, -⟩
      · exact absurd h (by decide)
      · exact absurd h (by decide)
  · exact absurd h (by decide)

/-- Projects `a` and `b` that depend on one another. -/
def circle : World where
  spec d := if d = ['a'] then some [(['b'], at' ['b'])] else some [(['a'], at' ['a'])]
  resolve _ n _ := some n
  exist _ := true

theorem steps_none {W : World} {pins : List (Text × Dep)} {rec : Text → Option Out} {dir : Text} {depth : Nat} {name : Text} {dep : Dep}
    {ds : List (Text × Dep)} {part : Bool} {base : Text} (h1 : W.resolve dir name (choose pins name dep).1 = some base)
    (h2 : W.exist base = true) (h3 : rec base = none) : steps W pins rec dir depth ((name, dep) :: ds) part = none := by
  rw [steps, h1]
  simp only
  rw [if_pos h2, h3]

/-- With a circle of projects `pkg show` never ends. -/
theorem C176_refuted : ∃ (W : World) (root : Text), (∀ d, ∃ deps, W.spec d = some deps ∧ deps.length = 1) ∧
    ∀ pins, pins = (W.spec root).getD [] → ∀ n depth, tree W pins n depth root = none := by
  refine ⟨circle, ['a'], fun d => ?_, ?_⟩
  · by_cases h : d = ['a']
    · exact ⟨_, if_pos h, rfl⟩
    · exact ⟨_, if_neg h, rfl⟩
  · intro pins _
    have : ∀ n depth d, tree circle pins n depth d = none := by
      intro n
      induction n with
      | zero => intro depth d; rfl
      | succ n ih =>
        intro depth d
        rw [tree]
        by_cases h : d = ['a']
        · rw [show circle.spec d = some [(['b'], at' ['b'])] from if_pos h]
          exact steps_none rfl rfl (ih _ _)
        · rw [show circle.spec d = some [(['a'], at' ['a'])] from if_neg h]
          exact steps_none rfl rfl (ih _ _)
    exact fun n depth => this n depth _

end Verif.PkgShow
