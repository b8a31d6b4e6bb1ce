import Verif.Unify.Main

/-!
C83: unification is sound. C84: unification ends, and finds a most general unifier if there
is one.

Type aliases are left out here (`hex`). `Ty.Norm` says that no option of an option occurs,
which is what the smart constructor `tOpt` ensures.
-/
namespace Verif.Unify
open Verif.Ty

/-- All variables of a substitution. -/
def vars (s : Subst) : List Nat := s.flatMap (fun p => p.1 :: Ty.ufree p.2)

theorem inVs_vars (s : Subst) (l : List Nat) : InVs (vars s ++ l) s := by
  intro p hp
  constructor
  · apply List.mem_append_left
    simp only [vars, List.mem_flatMap]
    exact ⟨p, hp, by simp⟩
  · intro v hv
    apply List.mem_append_left
    simp only [vars, List.mem_flatMap]
    exact ⟨p, hp, by simp [hv]⟩

/-- The run of `unify` ends with a good outcome. -/
theorem unify_runs (lvl : Nat → Nat) {ex : Nat → List Ty → Option Ty}
    (hex : ∀ n ts, ex n ts = none) {s : Subst} {t1 t2 : Ty} (hs : Acyclic s)
    (h1 : Ty.Norm t1) (h2 : Ty.Norm t2) :
    ∃ o, Runs lvl ex s t1 t2 o ∧
      Good (vars s ++ (Ty.ufree t1 ++ Ty.ufree t2)) s [(t1, t2)] o := by
  obtain ⟨o, N, hr, hg⟩ := unify_good (lvl := lvl) hex
    (vars s ++ (Ty.ufree t1 ++ Ty.ufree t2))
    (unb (vars s ++ (Ty.ufree t1 ++ Ty.ufree t2)) s + 1) 0 s t1 t2 hs (inVs_vars s _) h1 h2
    (fun v hv => by simp [hv]) (fun v hv => by simp [hv]) (by omega)
  refine ⟨o, ⟨?_, N, hr⟩, hg⟩
  rintro rfl
  exact hg

theorem Runs.unique {lvl : Nat → Nat} {ex : Nat → List Ty → Option Ty} {s : Subst}
    {t1 t2 : Ty} {o o' : Out} (h : Runs lvl ex s t1 t2 o) (h' : Runs lvl ex s t1 t2 o') :
    o = o' := by
  obtain ⟨_, N, hN⟩ := h
  obtain ⟨_, M, hM⟩ := h'
  rw [← hN (max N M) (Nat.le_max_left _ _), ← hM (max N M) (Nat.le_max_right _ _)]

theorem runs_good {lvl : Nat → Nat} {ex : Nat → List Ty → Option Ty}
    (hex : ∀ n ts, ex n ts = none) {s : Subst} {t1 t2 : Ty} (hs : Acyclic s)
    (h1 : Ty.Norm t1) (h2 : Ty.Norm t2) {o : Out} (h : Runs lvl ex s t1 t2 o) :
    Good (vars s ++ (Ty.ufree t1 ++ Ty.ufree t2)) s [(t1, t2)] o := by
  obtain ⟨o', hr, hg⟩ := unify_runs lvl hex hs h1 h2
  rw [h.unique hr]; exact hg

/-- C83, types without wildcards: after a successful unification, substitution ends for
every type, and gives the same type for the two that were unified. Old bindings are kept;
no variable is bound twice, to a type with itself, or to a type with a variable bound
before; only variables of the problem are bound, to types with such variables. -/
theorem C83_sound {lvl : Nat → Nat} {ex : Nat → List Ty → Option Ty}
    (hex : ∀ n ts, ex n ts = none) {s s' : Subst} {t1 t2 : Ty} {ar : Nat → Nat}
    (hs : Acyclic s) (h1 : Ty.Norm t1) (h2 : Ty.Norm t2)
    (hsc : ∀ p ∈ s, Clean ar p.2) (c1 : Clean ar t1) (c2 : Clean ar t2)
    (hr : Runs lvl ex s t1 t2 (.ok s')) :
    (∃ N t, ∀ n, N ≤ n → usubst n s' t1 = some t ∧ usubst n s' t2 = some t) ∧
    (∀ t, Ty.Norm t → ∃ N r, (∀ n, N ≤ n → usubst n s' t = some r) ∧
      ∀ v ∈ Ty.ufree r, v ∉ dom s') ∧
    Acyclic s' ∧
    ∃ d, s' = d ++ s ∧ ∀ p ∈ d, ∀ v ∈ p.1 :: Ty.ufree p.2,
      v ∈ vars s ∨ v ∈ Ty.ufree t1 ∨ v ∈ Ty.ufree t2 := by
  obtain ⟨d, e1, hs', hV, hc, hcl, _⟩ := runs_good hex hs h1 h2 hr
  have hcv : ∀ v, Clean ar (appVar s v) := by
    intro v
    clear * - hsc
    induction s with
    | nil => simp [appVar, Clean]
    | cons p s ih =>
      obtain ⟨w, t⟩ := p
      simp only [appVar]
      apply clean_inst
      · intro u
        unfold single
        by_cases e : u = w
        · rw [if_pos e]; exact hsc (w, t) (by simp)
        · rw [if_neg e]; simp [Clean]
      · exact ih (fun q hq => hsc q (List.mem_cons_of_mem _ hq))
  have hcs1 : Clean ar (app s t1) := clean_inst ar _ hcv t1 c1
  have hcs2 : Clean ar (app s t2) := clean_inst ar _ hcv t2 c2
  have hcd := hcl ar (by
    intro p hp
    rw [List.mem_singleton] at hp
    subst hp
    exact ⟨hcs1, hcs2⟩)
  have heq : app s' t1 = app s' t2 := by
    apply compat_eq (ar := ar) (hc (t1, t2) (by simp))
    · show Clean ar (app s' t1)
      rw [e1, app_append hs h1]
      exact clean_inst ar _ hcd _ hcs1
    · show Clean ar (app s' t2)
      rw [e1, app_append hs h2]
      exact clean_inst ar _ hcd _ hcs2
  refine ⟨?_, ?_, hs', d, e1, ?_⟩
  · obtain ⟨N1, g1⟩ := usubst_ends hs' h1
    obtain ⟨N2, g2⟩ := usubst_ends hs' h2
    refine ⟨N1 + N2, app s' t1, fun n hn => ⟨g1 n (by omega), ?_⟩⟩
    rw [heq]; exact g2 n (by omega)
  · intro t ht
    obtain ⟨N, g⟩ := usubst_ends hs' ht
    exact ⟨N, _, g, fun v hv => app_free hs' hv⟩
  · intro p hp v hv
    have hp' := hV p (by rw [e1]; exact List.mem_append_left _ hp)
    rcases List.mem_cons.mp hv with rfl | hv
    · simpa using hp'.1
    · simpa using hp'.2 v hv

/-- C83 for all types: a wildcard in one type stands for anything in the other, and so do
arguments of a constructor that the other type lacks. -/
theorem C83_wild {lvl : Nat → Nat} {ex : Nat → List Ty → Option Ty}
    (hex : ∀ n ts, ex n ts = none) {s s' : Subst} {t1 t2 : Ty}
    (hs : Acyclic s) (h1 : Ty.Norm t1) (h2 : Ty.Norm t2)
    (hr : Runs lvl ex s t1 t2 (.ok s')) :
    ∃ N r1 r2, (∀ n, N ≤ n → usubst n s' t1 = some r1 ∧ usubst n s' t2 = some r2) ∧
      Compat r1 r2 := by
  obtain ⟨d, e1, hs', hV, hc, hcl, _⟩ := runs_good hex hs h1 h2 hr
  obtain ⟨N1, g1⟩ := usubst_ends hs' h1
  obtain ⟨N2, g2⟩ := usubst_ends hs' h2
  exact ⟨N1 + N2, _, _, fun n hn => ⟨g1 n (by omega), g2 n (by omega)⟩, hc (t1, t2) (by simp)⟩

/-- C84: unification ends, whatever the types. -/
theorem C84_ends (lvl : Nat → Nat) {ex : Nat → List Ty → Option Ty}
    (hex : ∀ n ts, ex n ts = none) {s : Subst} {t1 t2 : Ty} (hs : Acyclic s)
    (h1 : Ty.Norm t1) (h2 : Ty.Norm t2) : ∃ o, Runs lvl ex s t1 t2 o := by
  obtain ⟨o, h, _⟩ := unify_runs lvl hex hs h1 h2
  exact ⟨o, h⟩

/-- C84: if some instance of the two types, without wildcards and without an option of an
option, makes them equal, then unification succeeds, and every such instance of any type is
an instance of what the new substitution makes of the type. -/
theorem C84_general_partial (lvl : Nat → Nat) {ex : Nat → List Ty → Option Ty}
    (hex : ∀ n ts, ex n ts = none) {s : Subst} {t1 t2 : Ty} (hs : Acyclic s)
    (h1 : Ty.Norm t1) (h2 : Ty.Norm t2) {ar : Nat → Nat} {θ : Nat → Ty}
    (hθ : ∀ p ∈ s, inst θ (.uni p.1) = inst θ p.2)
    (c1 : Clean ar (app s t1)) (c2 : Clean ar (app s t2))
    (n1 : NoColl θ (app s t1)) (n2 : NoColl θ (app s t2))
    (he : inst θ t1 = inst θ t2) :
    ∃ s', Runs lvl ex s t1 t2 (.ok s') ∧
      (∀ p ∈ s', inst θ (.uni p.1) = inst θ p.2) ∧
      ∀ t, Ty.Norm t → inst θ (app s' t) = inst θ t := by
  have hfac : ∀ s, (∀ p ∈ s, inst θ (.uni p.1) = inst θ p.2) →
      ∀ v, inst θ (appVar s v) = θ v := by
    intro s
    induction s with
    | nil => intro _ v; simp [appVar, inst]
    | cons p s ih =>
      obtain ⟨w, t⟩ := p
      intro h v
      simp only [appVar]
      rw [inst_inst_same (σ := single w t), ih (fun q hq => h q (List.mem_cons_of_mem _ hq))]
      intro u
      unfold single
      by_cases e : u = w
      · rw [if_pos e, ← h (w, t) (by simp), e]; simp [inst]
      · rw [if_neg e]; simp [inst]
  have happ : ∀ s, (∀ p ∈ s, inst θ (.uni p.1) = inst θ p.2) →
      ∀ t, inst θ (app s t) = inst θ t := fun s h t => inst_inst_same (hfac s h) t
  obtain ⟨o, hr, hg⟩ := unify_runs lvl hex hs h1 h2
  have hsv : Solves ar θ s [(t1, t2)] := by
    intro p hp
    rw [List.mem_singleton] at hp
    subst hp
    refine ⟨⟨c1, n1⟩, ⟨c2, n2⟩, ?_⟩
    show inst θ (app s t1) = inst θ (app s t2)
    rw [happ s hθ, happ s hθ, he]
  cases o with
  | out => exact absurd hg (by simp [Good])
  | fail => exact absurd hsv (hg ar θ)
  | ok s' =>
    obtain ⟨d, e1, hs', hV, hc, hcl, hm⟩ := hg
    have hm := hm ar θ hsv
    have key : ∀ t, Ty.Norm t → inst θ (app s' t) = inst θ t := by
      intro t ht
      rw [e1, app_append hs ht]
      show inst θ (inst (appVar d) _) = _
      rw [inst_inst_same (fun v => (hm v).2), happ s hθ]
    refine ⟨s', hr, ?_, key⟩
    intro p hp
    obtain ⟨pre, t, post, e⟩ := dom_split (s := s') (v := p.1) (by
      unfold dom; exact List.mem_map.mpr ⟨p, hp, rfl⟩)
    have hl : Ty.look p.1 s' = some p.2 := by
      clear * - hs' hp
      induction hs' with
      | nil => cases hp
      | @cons w x s hs a1 a2 a3 a4 ih =>
        simp only [Ty.look]
        rcases List.mem_cons.mp hp with rfl | hp
        · simp
        · rw [if_neg, ih hp]
          intro e
          apply a1
          rw [← e]
          exact List.mem_map.mpr ⟨p, hp, rfl⟩
    have hnorm : Ty.Norm p.2 := by
      clear * - hs' hp
      induction hs' with
      | nil => cases hp
      | @cons w x s hs a1 a2 a3 a4 ih =>
        rcases List.mem_cons.mp hp with rfl | hp
        · exact a4
        · exact ih hp
    have h3 := key (.uni p.1) (by simp [Ty.Norm])
    have h4 := key p.2 hnorm
    have h5 : app s' (.uni p.1) = app s' p.2 := by
      show inst (appVar s') (.uni p.1) = _
      simp only [inst]
      exact look_appVar hs' hl
    rw [← h3, h5, h4]

/-! ### Where the properties do not hold -/

/-- No type aliases. -/
def noAlias : Nat → List Ty → Option Ty := fun _ _ => none

/-- C84 does not hold with options: `a` can be an option of an integer in
`Pair[?a, a]` and `Pair[?int, ?int]`, but unification sets `a` to `int` and fails. -/
theorem C84_refuted_option :
    let t1 := Ty.con 5 [.opt (.uni 0), .uni 0]
    let t2 := Ty.con 5 [.opt (.con 0 []), .opt (.con 0 [])]
    let θ : Nat → Ty := fun _ => .opt (.con 0 [])
    Ty.Norm t1 ∧ Ty.Norm t2 ∧ inst θ t1 = inst θ t2 ∧
      Runs (fun _ => 0) noAlias [] t1 t2 .fail := by
  refine ⟨by simp [Ty.Norm, Ty.Norms, Ty.IsOpt], by simp [Ty.Norm, Ty.Norms, Ty.IsOpt], rfl,
    by simp, 8, ?_⟩
  intro n hn
  obtain ⟨m, rfl⟩ : ∃ m, n = m + 8 := ⟨n - 8, by omega⟩
  rfl

/-- C84: the unifier found for `?a` and `?int` is not the most general one, as `a` can also
be `?int`. -/
theorem C84_refuted_general :
    let t1 := Ty.opt (.uni 0)
    let t2 := Ty.opt (.con 0 [])
    let θ : Nat → Ty := fun _ => .opt (.con 0 [])
    inst θ t1 = inst θ t2 ∧ Runs (fun _ => 0) noAlias [] t1 t2 (.ok [(0, .con 0 [])]) ∧
      inst θ (app [(0, .con 0 [])] (.uni 0)) ≠ inst θ (.uni 0) := by
  refine ⟨rfl, ⟨by simp, 8, ?_⟩, by simp [app, inst, insts, appVar, single]⟩
  intro n hn
  obtain ⟨m, rfl⟩ : ∃ m, n = m + 8 := ⟨n - 8, by omega⟩
  rfl

/-- C83 does not hold if the numbers of arguments differ: the surplus is ignored. -/
theorem C83_refuted_arity :
    let t1 := Ty.con 5 [.con 0 []]
    let t2 := Ty.con 5 [.con 0 [], .con 1 []]
    Runs (fun _ => 0) noAlias [] t1 t2 (.ok []) ∧ t1 ≠ t2 := by
  refine ⟨⟨by simp, 8, ?_⟩, by simp⟩
  intro n hn
  obtain ⟨m, rfl⟩ : ∃ m, n = m + 8 := ⟨n - 8, by omega⟩
  rfl

/-! ### The hypotheses can be met -/

/-- `Dict[a, List[b]]` and `Dict[List[b], a]` under `b := int`. -/
example : ∃ (s s' : Subst) (t1 t2 : Ty) (ar : Nat → Nat),
    Acyclic s ∧ s ≠ [] ∧ Ty.Norm t1 ∧ Ty.Norm t2 ∧ (∀ p ∈ s, Clean ar p.2) ∧
    Clean ar t1 ∧ Clean ar t2 ∧ Runs (fun _ => 0) noAlias s t1 t2 (.ok s') ∧ s' ≠ s := by
  refine ⟨[(1, .con 0 [])], [(0, .con 3 [.con 0 []]), (1, .con 0 [])],
    .con 2 [.uni 0, .con 3 [.uni 1]], .con 2 [.con 3 [.uni 1], .uni 0],
    fun n => if n = 2 then 2 else if n = 3 then 1 else 0, ?_, by simp, ?_, ?_, ?_, ?_, ?_,
    ⟨by simp, 10, ?_⟩, by simp⟩
  · exact .cons .nil (by simp [dom]) (by simp [Ty.ufree, Ty.ufrees])
      (by simp [Ty.ufree, Ty.ufrees]) (by simp [Ty.Norm, Ty.Norms])
  · simp [Ty.Norm, Ty.Norms]
  · simp [Ty.Norm, Ty.Norms]
  · intro p hp
    rw [List.mem_singleton] at hp
    subst hp
    simp [Clean, Cleans]
  · simp [Clean, Cleans]
  · simp [Clean, Cleans]
  · intro n hn
    obtain ⟨m, rfl⟩ : ∃ m, n = m + 10 := ⟨n - 10, by omega⟩
    rfl

/-- A unifier of `Dict[a, ?b]` and `Dict[List[b], ?c]`. -/
example : ∃ (t1 t2 : Ty) (ar : Nat → Nat) (θ : Nat → Ty), Ty.Norm t1 ∧ Ty.Norm t2 ∧
    Clean ar (app [] t1) ∧ Clean ar (app [] t2) ∧ NoColl θ (app [] t1) ∧ NoColl θ (app [] t2) ∧
    inst θ t1 = inst θ t2 ∧ t1 ≠ t2 := by
  refine ⟨.con 2 [.uni 0, .opt (.uni 1)], .con 2 [.con 3 [.uni 1], .opt (.uni 2)],
    fun n => if n = 2 then 2 else if n = 3 then 1 else 0,
    fun v => if v = 0 then .con 3 [.con 0 []] else .con 0 [], ?_, ?_, ?_, ?_, ?_, ?_, ?_,
    by simp⟩
  · simp [Ty.Norm, Ty.Norms, Ty.IsOpt]
  · simp [Ty.Norm, Ty.Norms, Ty.IsOpt]
  · simp [Clean, Cleans, app, inst, insts, appVar, Ty.optOf]
  · simp [Clean, Cleans, app, inst, insts, appVar, Ty.optOf]
  · simp [NoColl, NoColls, app, inst, insts, appVar, Ty.optOf, Ty.IsOpt]
  · simp [NoColl, NoColls, app, inst, insts, appVar, Ty.optOf, Ty.IsOpt]
  · simp [inst, insts]

/-- A successful unification with a wildcard. -/
example : Runs (fun _ => 0) noAlias [] (.con 2 [.wild, .uni 0]) (.con 2 [.uni 1, .con 0 []])
    (.ok [(0, .con 0 [])]) := by
  refine ⟨by simp, 8, ?_⟩
  intro n hn
  obtain ⟨m, rfl⟩ : ∃ m, n = m + 8 := ⟨n - 8, by omega⟩
  rfl

end Verif.Unify
