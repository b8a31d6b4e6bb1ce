import Verif.Unify.Spec

/-! Facts about instantiation and about substitutions without cycles. -/
namespace Verif.Unify
open Verif.Ty

theorem inst_optOf (θ : Nat → Ty) (t : Ty) : inst θ (Ty.optOf t) = Ty.optOf (inst θ t) := by
  by_cases h : Ty.IsOpt t
  · rw [Ty.optOf_of_opt h]
    cases t with
    | opt x =>
      show Ty.optOf (inst θ x) = Ty.optOf (Ty.optOf (inst θ x))
      rw [Ty.optOf_idem]
    | _ => exact absurd h (by simp [Ty.IsOpt])
  · rw [Ty.optOf_of_not h]
    simp only [inst]

theorem insts_eq_map (θ : Nat → Ty) (ts : List Ty) : insts θ ts = ts.map (inst θ) := by
  induction ts with
  | nil => rfl
  | cons t ts ih => simp [insts, ih]

theorem mem_ufrees {v : Nat} {ts : List Ty} :
    v ∈ Ty.ufrees ts ↔ ∃ t ∈ ts, v ∈ Ty.ufree t := by
  induction ts with
  | nil => simp [Ty.ufrees]
  | cons t ts ih => simp [Ty.ufrees, ih]

mutual
theorem inst_comp (θ σ : Nat → Ty) : ∀ t : Ty,
    inst θ (inst σ t) = inst (fun v => inst θ (σ v)) t
  | .uni u => by simp [inst]
  | .var v => by simp [inst]
  | .con n ts => by simp only [inst]; rw [insts_comp θ σ ts]
  | .fn a b c d => by
      simp only [inst]; rw [inst_comp θ σ a, inst_comp θ σ b, inst_comp θ σ c, inst_comp θ σ d]
  | .tup a b => by simp only [inst]; rw [inst_comp θ σ a, inst_comp θ σ b]
  | .opt t => by simp only [inst]; rw [inst_optOf, inst_comp θ σ t]
  | .none_ => by simp [inst]
  | .wild => by simp [inst]
  | .nil k => by simp [inst]
  | .row k n t r => by simp only [inst]; rw [inst_comp θ σ t, inst_comp θ σ r]
  | .star k r => by simp only [inst]; rw [inst_comp θ σ r]
  | .fx x => by simp [inst]
theorem insts_comp (θ σ : Nat → Ty) : ∀ ts : List Ty,
    insts θ (insts σ ts) = insts (fun v => inst θ (σ v)) ts
  | [] => by simp [insts]
  | t :: ts => by simp only [insts]; rw [inst_comp θ σ t, insts_comp θ σ ts]
end

mutual
theorem inst_congr (θ σ : Nat → Ty) : ∀ t : Ty, (∀ v ∈ Ty.ufree t, θ v = σ v) →
    inst θ t = inst σ t
  | .uni u, h => by simpa [inst] using h u (by simp [Ty.ufree])
  | .var v, _ => by simp [inst]
  | .con n ts, h => by
      simp only [Ty.ufree] at h
      simp only [inst]; rw [insts_congr θ σ ts h]
  | .fn a b c d, h => by
      simp only [Ty.ufree, List.mem_append] at h
      simp only [inst]
      rw [inst_congr θ σ a (fun v hv => h v (by tauto)),
        inst_congr θ σ b (fun v hv => h v (by tauto)),
        inst_congr θ σ c (fun v hv => h v (by tauto)),
        inst_congr θ σ d (fun v hv => h v (by tauto))]
  | .tup a b, h => by
      simp only [Ty.ufree, List.mem_append] at h
      simp only [inst]
      rw [inst_congr θ σ a (fun v hv => h v (by tauto)),
        inst_congr θ σ b (fun v hv => h v (by tauto))]
  | .opt t, h => by
      simp only [Ty.ufree] at h
      simp only [inst]; rw [inst_congr θ σ t h]
  | .none_, _ => by simp [inst]
  | .wild, _ => by simp [inst]
  | .nil k, _ => by simp [inst]
  | .row k n t r, h => by
      simp only [Ty.ufree, List.mem_append] at h
      simp only [inst]
      rw [inst_congr θ σ t (fun v hv => h v (by tauto)),
        inst_congr θ σ r (fun v hv => h v (by tauto))]
  | .star k r, h => by
      simp only [Ty.ufree] at h
      simp only [inst]; rw [inst_congr θ σ r h]
  | .fx x, _ => by simp [inst]
theorem insts_congr (θ σ : Nat → Ty) : ∀ ts : List Ty, (∀ v ∈ Ty.ufrees ts, θ v = σ v) →
    insts θ ts = insts σ ts
  | [], _ => by simp [insts]
  | t :: ts, h => by
      simp only [Ty.ufrees, List.mem_append] at h
      simp only [insts]
      rw [inst_congr θ σ t (fun v hv => h v (by tauto)),
        insts_congr θ σ ts (fun v hv => h v (by tauto))]
end

mutual
theorem inst_id : ∀ t : Ty, Ty.Norm t → inst Ty.uni t = t
  | .uni u, _ => by simp [inst]
  | .var v, _ => by simp [inst]
  | .con n ts, h => by
      simp only [Ty.Norm] at h
      simp only [inst]; rw [insts_id ts h]
  | .fn a b c d, h => by
      simp only [Ty.Norm] at h
      simp only [inst]
      rw [inst_id a h.1, inst_id b h.2.1, inst_id c h.2.2.1, inst_id d h.2.2.2]
  | .tup a b, h => by
      simp only [Ty.Norm] at h
      simp only [inst]; rw [inst_id a h.1, inst_id b h.2]
  | .opt t, h => by
      simp only [Ty.Norm] at h
      simp only [inst]; rw [inst_id t h.1, Ty.optOf_of_not h.2]
  | .none_, _ => by simp [inst]
  | .wild, _ => by simp [inst]
  | .nil k, _ => by simp [inst]
  | .row k n t r, h => by
      simp only [Ty.Norm] at h
      simp only [inst]; rw [inst_id t h.1, inst_id r h.2]
  | .star k r, h => by
      simp only [Ty.Norm] at h
      simp only [inst]; rw [inst_id r h]
  | .fx x, _ => by simp [inst]
theorem insts_id : ∀ ts : List Ty, Ty.Norms ts → insts Ty.uni ts = ts
  | [], _ => by simp [insts]
  | t :: ts, h => by
      simp only [Ty.Norms] at h
      simp only [insts]; rw [inst_id t h.1, insts_id ts h.2]
end

/-- A type with none of the variables that `θ` changes stays. -/
theorem inst_fresh {θ : Nat → Ty} {t : Ty} (hn : Ty.Norm t)
    (h : ∀ v ∈ Ty.ufree t, θ v = .uni v) : inst θ t = t := by
  rw [inst_congr θ Ty.uni t h, inst_id t hn]

mutual
theorem ufree_inst (θ : Nat → Ty) : ∀ (t : Ty) (v : Nat), v ∈ Ty.ufree (inst θ t) ↔
    ∃ u ∈ Ty.ufree t, v ∈ Ty.ufree (θ u)
  | .uni u, v => by simp [inst, Ty.ufree]
  | .var _, v => by simp [inst, Ty.ufree]
  | .con n ts, v => by simp only [inst, Ty.ufree]; exact ufrees_insts θ ts v
  | .fn a b c d, v => by
      simp only [inst, Ty.ufree, List.mem_append, ufree_inst θ a v, ufree_inst θ b v,
        ufree_inst θ c v, ufree_inst θ d v, or_and_right, exists_or]
  | .tup a b, v => by
      simp only [inst, Ty.ufree, List.mem_append, ufree_inst θ a v, ufree_inst θ b v,
        or_and_right, exists_or]
  | .opt t, v => by
      simp only [inst, Ty.ufree, Ty.ufree_optOf]; exact ufree_inst θ t v
  | .none_, v => by simp [inst, Ty.ufree]
  | .wild, v => by simp [inst, Ty.ufree]
  | .nil k, v => by simp [inst, Ty.ufree]
  | .row k n t r, v => by
      simp only [inst, Ty.ufree, List.mem_append, ufree_inst θ t v, ufree_inst θ r v,
        or_and_right, exists_or]
  | .star k r, v => by simp only [inst, Ty.ufree]; exact ufree_inst θ r v
  | .fx x, v => by simp [inst, Ty.ufree]
theorem ufrees_insts (θ : Nat → Ty) : ∀ (ts : List Ty) (v : Nat),
    v ∈ Ty.ufrees (insts θ ts) ↔ ∃ u ∈ Ty.ufrees ts, v ∈ Ty.ufree (θ u)
  | [], v => by simp [insts, Ty.ufrees]
  | t :: ts, v => by
      simp only [insts, Ty.ufrees, List.mem_append, ufree_inst θ t v, ufrees_insts θ ts v,
        or_and_right, exists_or]
end

mutual
theorem norm_inst (θ : Nat → Ty) (h : ∀ v, Ty.Norm (θ v)) : ∀ t : Ty, Ty.Norm t →
    Ty.Norm (inst θ t)
  | .uni u, _ => by simpa [inst] using h u
  | .var _, _ => by simp [inst, Ty.Norm]
  | .con n ts, hn => by
      simp only [Ty.Norm] at hn
      simp only [inst, Ty.Norm]; exact norms_insts θ h ts hn
  | .fn a b c d, hn => by
      simp only [Ty.Norm] at hn
      simp only [inst, Ty.Norm]
      exact ⟨norm_inst θ h a hn.1, norm_inst θ h b hn.2.1, norm_inst θ h c hn.2.2.1,
        norm_inst θ h d hn.2.2.2⟩
  | .tup a b, hn => by
      simp only [Ty.Norm] at hn
      simp only [inst, Ty.Norm]
      exact ⟨norm_inst θ h a hn.1, norm_inst θ h b hn.2⟩
  | .opt t, hn => by
      simp only [Ty.Norm] at hn
      simp only [inst]; exact Ty.norm_optOf (norm_inst θ h t hn.1)
  | .none_, _ => by simp [inst, Ty.Norm]
  | .wild, _ => by simp [inst, Ty.Norm]
  | .nil k, _ => by simp [inst, Ty.Norm]
  | .row k n t r, hn => by
      simp only [Ty.Norm] at hn
      simp only [inst, Ty.Norm]
      exact ⟨norm_inst θ h t hn.1, norm_inst θ h r hn.2⟩
  | .star k r, hn => by
      simp only [Ty.Norm] at hn
      simp only [inst, Ty.Norm]; exact norm_inst θ h r hn
  | .fx x, _ => by simp [inst, Ty.Norm]
theorem norms_insts (θ : Nat → Ty) (h : ∀ v, Ty.Norm (θ v)) : ∀ ts : List Ty, Ty.Norms ts →
    Ty.Norms (insts θ ts)
  | [], _ => by simp [insts, Ty.Norms]
  | t :: ts, hn => by
      simp only [Ty.Norms] at hn
      simp only [insts, Ty.Norms]
      exact ⟨norm_inst θ h t hn.1, norms_insts θ h ts hn.2⟩
end

/-! ### Substitutions -/

theorem appVar_fresh {s : Subst} {u : Nat} (h : u ∉ dom s) : appVar s u = .uni u := by
  induction s with
  | nil => rfl
  | cons p s ih =>
    obtain ⟨v, t⟩ := p
    simp only [dom, List.map_cons, List.mem_cons, not_or] at h
    simp only [appVar]
    rw [ih h.2]
    simp [inst, single, h.1]

theorem appVar_append (d s : Subst) (v : Nat) : appVar (d ++ s) v = app d (appVar s v) ∨
    d = [] := by
  induction d with
  | nil => right; rfl
  | cons p d ih =>
    obtain ⟨w, t⟩ := p
    left
    simp only [List.cons_append, appVar, app]
    rcases ih with h | h
    · rw [h, app, inst_comp]
    · subst h
      simp only [List.nil_append]
      have : (fun u => inst (single w t) (appVar [] u)) = single w t := by
        funext u; simp [appVar, inst]
      rw [this]

theorem norm_appVar {s : Subst} (h : Acyclic s) (v : Nat) : Ty.Norm (appVar s v) := by
  induction h with
  | nil => simp [appVar, Ty.Norm]
  | cons hs h1 h2 h3 h4 ih =>
    simp only [appVar]
    apply norm_inst
    · intro u
      unfold single
      split
      · exact h4
      · simp [Ty.Norm]
    · exact ih

theorem norm_app {s : Subst} (h : Acyclic s) {t : Ty} (ht : Ty.Norm t) : Ty.Norm (app s t) :=
  norm_inst _ (norm_appVar h) t ht

theorem app_nil {t : Ty} (ht : Ty.Norm t) : app [] t = t := by
  unfold app
  rw [show appVar [] = Ty.uni from rfl, inst_id t ht]

theorem app_append {d s : Subst} (hs : Acyclic s) {t : Ty} (ht : Ty.Norm t) :
    app (d ++ s) t = app d (app s t) := by
  cases d with
  | nil => rw [List.nil_append, app_nil (norm_app hs ht)]
  | cons p d =>
    have : appVar (p :: d ++ s) = fun v => inst (appVar (p :: d)) (appVar s v) := by
      funext v
      rcases appVar_append (p :: d) s v with h | h
      · exact h
      · cases h
    unfold app
    rw [this, inst_comp]

/-- No bound variable is left after substitution. -/
theorem appVar_free {s : Subst} (h : Acyclic s) :
    ∀ v u, u ∈ Ty.ufree (appVar s v) → u ∉ dom s := by
  induction h with
  | nil => intro v u _; simp [dom]
  | @cons w t s hs h1 h2 h3 h4 ih =>
    intro v u hu
    simp only [appVar] at hu
    rw [ufree_inst] at hu
    obtain ⟨x, hx, hux⟩ := hu
    have hxs := ih v x hx
    unfold single at hux
    simp only [dom, List.map_cons, List.mem_cons, not_or]
    by_cases e : x = w
    · rw [if_pos e] at hux
      refine ⟨?_, h3 u hux⟩
      rintro rfl
      exact h2 hux
    · rw [if_neg e] at hux
      simp only [Ty.ufree, List.mem_singleton] at hux
      subst hux
      exact ⟨e, hxs⟩

theorem app_free {s : Subst} (h : Acyclic s) {t : Ty} {u : Nat}
    (hu : u ∈ Ty.ufree (app s t)) : u ∉ dom s := by
  unfold app at hu
  rw [ufree_inst] at hu
  obtain ⟨x, _, hux⟩ := hu
  exact appVar_free h x u hux

/-- A type without bound variables stays. -/
theorem app_fresh {s : Subst} {t : Ty} (hn : Ty.Norm t)
    (h : ∀ v ∈ Ty.ufree t, v ∉ dom s) : app s t = t :=
  inst_fresh hn (fun v hv => appVar_fresh (h v hv))

theorem app_idem {s : Subst} (h : Acyclic s) {t : Ty} (ht : Ty.Norm t) :
    app s (app s t) = app s t :=
  app_fresh (norm_app h ht) (fun _ hv => app_free h hv)

theorem look_appVar {s : Subst} (h : Acyclic s) {v : Nat} {t : Ty}
    (hl : Ty.look v s = some t) : appVar s v = app s t := by
  induction h with
  | nil => simp [Ty.look] at hl
  | @cons w x s hs h1 h2 h3 h4 ih =>
    simp only [Ty.look] at hl
    by_cases e : v = w
    · rw [if_pos e] at hl
      cases hl
      subst e
      simp only [appVar]
      rw [appVar_fresh h1]
      rw [app_fresh h4]
      · simp [inst, single]
      · intro u hu
        simp only [dom, List.map_cons, List.mem_cons, not_or]
        refine ⟨?_, h3 u hu⟩
        rintro rfl
        exact h2 hu
    · rw [if_neg e] at hl
      simp only [appVar]
      rw [ih hl, app, inst_comp]
      rfl

theorem look_none {s : Subst} {v : Nat} (hl : Ty.look v s = none) : v ∉ dom s := by
  intro h
  obtain ⟨t, ht, _⟩ := Ty.look_mem h
  rw [hl] at ht
  cases ht

/-! ### Termination of `usubst` -/

mutual
theorem mapUni_some (f : Nat → Option Ty) (g : Nat → Ty) : ∀ t : Ty,
    (∀ v ∈ Ty.ufree t, f v = some (g v)) → mapUni f t = some (inst g t)
  | .uni u, h => by simpa [mapUni, inst] using h u (by simp [Ty.ufree])
  | .var v, _ => by simp [mapUni, inst]
  | .con n ts, h => by
      simp only [Ty.ufree] at h
      simp only [mapUni, mapUnis_some f g ts h, inst]
  | .fn a b c d, h => by
      simp only [Ty.ufree, List.mem_append] at h
      simp only [mapUni, inst, mapUni_some f g a (fun v hv => h v (by tauto)),
        mapUni_some f g b (fun v hv => h v (by tauto)),
        mapUni_some f g c (fun v hv => h v (by tauto)),
        mapUni_some f g d (fun v hv => h v (by tauto))]
  | .tup a b, h => by
      simp only [Ty.ufree, List.mem_append] at h
      simp only [mapUni, inst, mapUni_some f g a (fun v hv => h v (by tauto)),
        mapUni_some f g b (fun v hv => h v (by tauto))]
  | .opt t, h => by
      simp only [Ty.ufree] at h
      simp only [mapUni, inst, mapUni_some f g t h]
  | .none_, _ => by simp [mapUni, inst]
  | .wild, _ => by simp [mapUni, inst]
  | .nil k, _ => by simp [mapUni, inst]
  | .row k n t r, h => by
      simp only [Ty.ufree, List.mem_append] at h
      simp only [mapUni, inst, mapUni_some f g t (fun v hv => h v (by tauto)),
        mapUni_some f g r (fun v hv => h v (by tauto))]
  | .star k r, h => by
      simp only [Ty.ufree] at h
      simp only [mapUni, inst, mapUni_some f g r h]
  | .fx x, _ => by simp [mapUni, inst]
theorem mapUnis_some (f : Nat → Option Ty) (g : Nat → Ty) : ∀ ts : List Ty,
    (∀ v ∈ Ty.ufrees ts, f v = some (g v)) → mapUnis f ts = some (insts g ts)
  | [], _ => by simp [mapUnis, insts]
  | t :: ts, h => by
      simp only [Ty.ufrees, List.mem_append] at h
      simp only [mapUnis, insts, mapUni_some f g t (fun v hv => h v (by tauto)),
        mapUnis_some f g ts (fun v hv => h v (by tauto))]
end

theorem uniform {P : Nat → Nat → Prop} (l : List Nat)
    (h : ∀ v ∈ l, ∃ N, ∀ n, N ≤ n → P n v) : ∃ N, ∀ n, N ≤ n → ∀ v ∈ l, P n v := by
  induction l with
  | nil => exact ⟨0, by simp⟩
  | cons x l ih =>
    obtain ⟨N1, h1⟩ := h x (by simp)
    obtain ⟨N2, h2⟩ := ih (fun v hv => h v (List.mem_cons_of_mem _ hv))
    refine ⟨max N1 N2, fun n hn v hv => ?_⟩
    rcases List.mem_cons.mp hv with rfl | hv
    · exact h1 n (Nat.le_trans (Nat.le_max_left _ _) hn)
    · exact h2 n (Nat.le_trans (Nat.le_max_right _ _) hn) v hv

theorem acyclic_suffix {pre post : Subst} {v : Nat} {t : Ty}
    (h : Acyclic (pre ++ (v, t) :: post)) :
    v ∉ dom pre ∧ Acyclic ((v, t) :: post) := by
  induction pre with
  | nil => exact ⟨by simp [dom], h⟩
  | cons p pre ih =>
    cases h with
    | @cons w x _ hs h1 h2 h3 h4 =>
      obtain ⟨i1, i2⟩ := ih hs
      refine ⟨?_, i2⟩
      simp only [dom, List.map_cons, List.mem_cons, not_or]
      refine ⟨?_, i1⟩
      rintro rfl
      apply h1
      simp [dom]

theorem look_split {pre post : Subst} {v : Nat} {t : Ty} (h : v ∉ dom pre) :
    Ty.look v (pre ++ (v, t) :: post) = some t := by
  induction pre with
  | nil => simp [Ty.look]
  | cons p pre ih =>
    obtain ⟨w, x⟩ := p
    simp only [dom, List.map_cons, List.mem_cons, not_or] at h
    simp only [List.cons_append, Ty.look]
    rw [if_neg h.1]
    exact ih h.2

theorem dom_split {s : Subst} {v : Nat} (h : v ∈ dom s) :
    ∃ pre t post, s = pre ++ (v, t) :: post := by
  unfold dom at h
  obtain ⟨p, hp, rfl⟩ := List.mem_map.mp h
  obtain ⟨pre, post, rfl⟩ := List.append_of_mem hp
  exact ⟨pre, p.2, post, rfl⟩

theorem varF_fresh {s : Subst} {v : Nat} (h : v ∉ dom s) (n : Nat) (hn : 1 ≤ n) :
    varF n s v = some (appVar s v) := by
  have hl : Ty.look v s = none := by
    cases hl : Ty.look v s with
    | none => rfl
    | some t =>
      exfalso
      apply h
      exact List.mem_map.mpr ⟨(v, t), Ty.look_some_mem hl, rfl⟩
  cases n with
  | zero => omega
  | succ n => simp only [varF, hl, appVar_fresh h]

theorem varF_ends {s : Subst} (hs : Acyclic s) : ∀ (k : Nat) (pre post : Subst) (v : Nat)
    (t : Ty), s = pre ++ (v, t) :: post → pre.length ≤ k →
    ∃ N, ∀ n, N ≤ n → varF n s v = some (appVar s v) := by
  intro k
  induction k with
  | zero =>
    intro pre post v t he hk
    have hp : pre = [] := List.length_eq_zero_iff.mp (by omega)
    subst hp
    subst he
    refine ⟨2, fun n hn => ?_⟩
    obtain ⟨m, rfl⟩ : ∃ m, n = m + 1 := ⟨n - 1, by omega⟩
    have hl : Ty.look v ([] ++ (v, t) :: post) = some t := look_split (by simp [dom])
    simp only [varF, hl]
    rw [look_appVar hs hl]
    apply mapUni_some
    intro u hu
    apply varF_fresh _ _ (by omega)
    cases hs with
    | cons _ h1 h2 h3 h4 =>
      simp only [List.nil_append, dom, List.map_cons, List.mem_cons, not_or]
      refine ⟨?_, h3 u hu⟩
      rintro rfl
      exact h2 hu
  | succ k ih =>
    intro pre post v t he hk
    have hac : Acyclic (pre ++ (v, t) :: post) := he ▸ hs
    obtain ⟨hv, htl⟩ := acyclic_suffix hac
    have hl : Ty.look v s = some t := by rw [he]; exact look_split hv
    obtain ⟨N, hN⟩ := uniform (P := fun n u => varF n s u = some (appVar s u)) (Ty.ufree t) (by
      intro u hu
      by_cases hd : u ∈ dom s
      · have : u ∈ dom pre := by
          rw [he] at hd
          simp only [dom, List.map_append, List.map_cons, List.mem_append, List.mem_cons] at hd
          rcases hd with hd | rfl | hd
          · exact hd
          · cases htl with
            | cons _ h1 h2 h3 h4 => exact absurd hu h2
          · cases htl with
            | cons _ h1 h2 h3 h4 => exact absurd hd (h3 u hu)
        obtain ⟨pre1, t1, post1, hp⟩ := dom_split this
        refine ih pre1 (post1 ++ (v, t) :: post) u t1 (by rw [he, hp]; simp) ?_
        rw [hp] at hk
        simp only [List.length_append, List.length_cons] at hk
        omega
      · exact ⟨1, fun n hn => varF_fresh hd n hn⟩)
    refine ⟨N + 1, fun n hn => ?_⟩
    obtain ⟨m, rfl⟩ : ∃ m, n = m + 1 := ⟨n - 1, by omega⟩
    simp only [varF, hl]
    rw [look_appVar hs hl]
    exact mapUni_some _ _ _ (fun u hu => hN m (by omega) u hu)

/-- `usubst` ends with the value of the type. -/
theorem usubst_ends {s : Subst} (hs : Acyclic s) {t : Ty} (ht : Ty.Norm t) :
    ∃ N, ∀ n, N ≤ n → usubst n s t = some (app s t) := by
  by_cases h : s = []
  · subst h
    exact ⟨0, fun n _ => by simp [usubst, app_nil ht]⟩
  · obtain ⟨N, hN⟩ := uniform (P := fun n u => varF n s u = some (appVar s u)) (Ty.ufree t) (by
      intro u hu
      by_cases hd : u ∈ dom s
      · obtain ⟨pre, t', post, hp⟩ := dom_split hd
        exact varF_ends hs pre.length pre post u t' hp (Nat.le_refl _)
      · exact ⟨1, fun n hn => varF_fresh hd n hn⟩)
    refine ⟨N, fun n hn => ?_⟩
    unfold usubst
    rw [if_neg h]
    exact mapUni_some _ _ _ (fun u hu => hN n hn u hu)

end Verif.Unify
