import Verif.Mro.Env

/-! Lookup of attributes along the resolution order. -/
namespace Verif.Mro
open Verif.Ty

theorem reach_subst {env : Env} (g : GoodEnv env) {us w c} (h : Reach env us w c) :
    ∀ tvs, (∀ u ∈ us, WfCon env tvs u) → ∀ s,
      WfCon env tvs c ∧ Reach env (us.map (substCon s)) w (substCon s c) := by
  induction h with
  | @first u us => intro tvs hw s; exact ⟨hw _ (by simp), .first (u := substCon s u)⟩
  | @other v us u hu =>
    intro tvs hw s
    exact ⟨hw _ (by simp [hu]),
      .other (u := substCon s u) (List.mem_map.mpr ⟨u, hu, rfl⟩)⟩
  | @step us w u i w' c h1 hi h2 ih1 ih2 =>
    intro tvs hw s
    obtain ⟨w1, r1⟩ := ih1 tvs hw s
    obtain ⟨w2, _⟩ := ih2 i.tvs (g _ _ hi).bases s
    obtain ⟨i', hi', hl⟩ := w1.known
    rw [hi] at hi'
    cases hi'
    refine ⟨wf_subst w2 hl w1.vars w1.norm, ?_⟩
    rw [substCon_comp s w2 hl]
    exact .step (u := substCon s u) r1 hi h2

theorem reach_unsubst {env : Env} (g : GoodEnv env) {vs w c'} (h : Reach env vs w c') :
    ∀ us tvs s, vs = us.map (substCon s) → (∀ u ∈ us, WfCon env tvs u) →
      ∃ c, c' = substCon s c ∧ WfCon env tvs c ∧ Reach env us w c := by
  induction h with
  | @first u vs =>
    intro us tvs s hv hw
    cases us with
    | nil => cases hv
    | cons u0 us =>
      cases hv
      exact ⟨u0, rfl, hw _ (by simp), .first⟩
  | @other v vs u hu =>
    intro us tvs s hv hw
    cases us with
    | nil => cases hv
    | cons u0 us =>
      cases hv
      obtain ⟨u1, hu1, rfl⟩ := List.mem_map.mp hu
      exact ⟨u1, rfl, hw _ (by simp [hu1]), .other hu1⟩
  | @step vs w u i w' c h1 hi h2 ih1 _ =>
    intro us tvs s hv hw
    obtain ⟨u0, rfl, wu, r1⟩ := ih1 us tvs s hv hw
    obtain ⟨i', hi', hl⟩ := wu.known
    have : (substCon s u0).name = u0.name := rfl
    rw [this, hi'] at hi
    cases hi
    obtain ⟨w2, _⟩ := reach_subst g h2 _ (g _ _ hi').bases s
    refine ⟨substCon (i.tvs.zip u0.args) c, ?_, wf_subst w2 hl wu.vars wu.norm,
      .step r1 hi' h2⟩
    rw [substCon_comp s w2 hl]
    rfl

theorem scan_some {n : Nat} : ∀ (te : List (Nat × Nat)) (r : Option Nat),
    (scan n r te).isSome = true ↔ r.isSome = true ∨ n ∈ te.map Prod.fst := by
  intro te
  induction te with
  | nil => intro r; simp [scan]
  | cons p te ih =>
    obtain ⟨x, i⟩ := p
    intro r
    simp only [scan, List.map_cons, List.mem_cons]
    by_cases h : x = n
    · rw [if_pos h, ih]; simp [h]
    · rw [if_neg h, ih]
      have : ¬ n = x := fun e => h e.symm
      tauto

theorem declares_iff {env : Env} {n a : Nat} :
    Declares env n a ↔ (findAttrInfoIn a (attrsOf env n)).isSome = true := by
  unfold Declares attrsOf findAttrInfoIn
  rw [scan_some]
  cases h : findInfo env n with
  | none => simp
  | some i => simp

theorem attrGo_none {env : Env} {a : Nat} {es : List Entry} (h : attrGo env a es = none) :
    ∀ e ∈ es, ¬ Declares env e.con.name a := by
  induction es with
  | nil => simp
  | cons e es ih =>
    simp only [attrGo] at h
    cases hf : findAttrInfoIn a (attrsOf env e.con.name) with
    | some i => rw [hf] at h; cases h
    | none =>
      rw [hf] at h
      intro e' he'
      rcases List.mem_cons.mp he' with rfl | he'
      · rw [declares_iff, hf]; simp
      · exact ih h e' he'

theorem attrGo_some {env : Env} {a : Nat} {es : List Entry} {e : Entry} {i : Nat}
    (h : attrGo env a es = some (e, i)) :
    findAttrInfoIn a (attrsOf env e.con.name) = some i ∧
    ∃ pre post, es = pre ++ e :: post ∧ ∀ e' ∈ pre, ¬ Declares env e'.con.name a := by
  induction es with
  | nil => simp [attrGo] at h
  | cons x es ih =>
    simp only [attrGo] at h
    cases hf : findAttrInfoIn a (attrsOf env x.con.name) with
    | some j =>
      rw [hf] at h
      cases h
      exact ⟨hf, [], es, rfl, by simp⟩
    | none =>
      rw [hf] at h
      obtain ⟨h1, pre, post, h2, h3⟩ := ih h
      refine ⟨h1, x :: pre, post, by rw [h2]; rfl, ?_⟩
      intro e' he'
      rcases List.mem_cons.mp he' with rfl | he'
      · rw [declares_iff, hf]; simp
      · exact h3 e' he'

/-- The last binding of a name. -/
theorem scan_last {n i : Nat} : ∀ (te : List (Nat × Nat)) (r : Option Nat),
    scan n r te = some i →
    (r = some i ∧ n ∉ te.map Prod.fst) ∨
    ∃ pre post, te = pre ++ (n, i) :: post ∧ n ∉ post.map Prod.fst := by
  intro te
  induction te with
  | nil => intro r h; left; exact ⟨h, by simp⟩
  | cons p te ih =>
    obtain ⟨x, j⟩ := p
    intro r h
    simp only [scan] at h
    by_cases hx : x = n
    · rw [if_pos hx] at h
      rcases ih _ h with ⟨h1, h2⟩ | ⟨pre, post, h1, h2⟩
      · cases h1
        right
        exact ⟨[], te, by simp [hx], h2⟩
      · right
        exact ⟨(x, j) :: pre, post, by rw [h1]; rfl, h2⟩
    · rw [if_neg hx] at h
      rcases ih _ h with ⟨h1, h2⟩ | ⟨pre, post, h1, h2⟩
      · left
        refine ⟨h1, ?_⟩
        simp only [List.map_cons, List.mem_cons, not_or]
        exact ⟨fun e => hx e.symm, h2⟩
      · right
        exact ⟨(x, j) :: pre, post, by rw [h1]; rfl, h2⟩

theorem nubFrom_append (xs ys : List Nat) : ∀ seen,
    ∃ zs, nubFrom seen (xs ++ ys) = nubFrom seen xs ++ zs := by
  induction xs with
  | nil => intro seen; exact ⟨nubFrom seen ys, rfl⟩
  | cons x xs ih =>
    intro seen
    simp only [List.cons_append, nubFrom]
    by_cases h : x ∈ seen
    · rw [if_pos h, if_pos h]; exact ih seen
    · rw [if_neg h, if_neg h]
      obtain ⟨zs, hz⟩ := ih (x :: seen)
      exact ⟨zs, by rw [hz]; rfl⟩

theorem mem_nubFrom (xs : List Nat) : ∀ seen x, x ∈ nubFrom seen xs ↔ x ∈ xs ∧ x ∉ seen := by
  induction xs with
  | nil => intro seen x; simp [nubFrom]
  | cons y xs ih =>
    intro seen x
    simp only [nubFrom]
    by_cases h : y ∈ seen
    · rw [if_pos h, ih]
      simp only [List.mem_cons]
      constructor
      · rintro ⟨h1, h2⟩; exact ⟨Or.inr h1, h2⟩
      · rintro ⟨rfl | h1, h2⟩
        · exact absurd h h2
        · exact ⟨h1, h2⟩
    · rw [if_neg h]
      simp only [List.mem_cons, ih]
      by_cases e : x = y
      · subst e; simp [h]
      · simp [e]

theorem nodup_nubFrom (xs : List Nat) : ∀ seen, (nubFrom seen xs).Nodup := by
  induction xs with
  | nil => intro seen; simp [nubFrom]
  | cons y xs ih =>
    intro seen
    simp only [nubFrom]
    by_cases h : y ∈ seen
    · rw [if_pos h]; exact ih seen
    · rw [if_neg h, List.nodup_cons]
      refine ⟨?_, ih _⟩
      rw [mem_nubFrom]
      simp

/-- The names of the attributes depend on the types only. -/
theorem aenvDom_cons (env : Env) : ∀ (es es' : List Entry),
    (cons es).map Con.name = (cons es').map Con.name → aenvDom env es = aenvDom env es' := by
  intro es
  induction es with
  | nil =>
    intro es' h
    cases es' with
    | nil => rfl
    | cons e es' => simp [cons] at h
  | cons e es ih =>
    intro es' h
    cases es' with
    | nil => simp [cons] at h
    | cons e' es' =>
      simp only [cons, List.map_cons, List.cons.injEq] at h
      simp only [aenvDom]
      rw [h.1, ih es' h.2]

theorem mem_aenvDom {env : Env} {a : Nat} {es : List Entry} :
    a ∈ aenvDom env es ↔ ∃ e ∈ es, Declares env e.con.name a := by
  induction es with
  | nil => simp [aenvDom]
  | cons e es ih =>
    simp only [aenvDom, List.mem_append, ih, List.mem_cons, exists_eq_or_imp]
    have : a ∈ ((attrsOf env e.con.name).reverse.map Prod.fst) ↔
        Declares env e.con.name a := by
      unfold Declares attrsOf
      cases h : findInfo env e.con.name with
      | none => simp
      | some i => simp
    rw [this]

end Verif.Mro
