import Verif.Ty.Model

/-! Facts about substitution of type variables. -/
namespace Verif.Ty
namespace Ty

/-- The type is an option type. -/
def IsOpt : Ty → Prop
  | opt _ => True
  | _ => False

instance : DecidablePred IsOpt := fun t => by cases t <;> unfold IsOpt <;> infer_instance

mutual
/-- No option type directly under an option type. -/
def Norm : Ty → Prop
  | uni _ => True
  | var _ => True
  | con _ ts => Norms ts
  | fn a b c d => Norm a ∧ Norm b ∧ Norm c ∧ Norm d
  | tup a b => Norm a ∧ Norm b
  | opt t => Norm t ∧ ¬ IsOpt t
  | none_ => True
  | wild => True
  | nil _ => True
  | row _ _ t r => Norm t ∧ Norm r
  | star _ r => Norm r
  | fx _ => True
/-- `Norm` for every element. -/
def Norms : List Ty → Prop
  | [] => True
  | t :: ts => Norm t ∧ Norms ts
end

theorem optOf_idem (t : Ty) : optOf (optOf t) = optOf t := by cases t <;> rfl

theorem optOf_of_not {t : Ty} (h : ¬ IsOpt t) : optOf t = opt t := by
  cases t <;> first | rfl | exact absurd trivial h

theorem optOf_of_opt {t : Ty} (h : IsOpt t) : optOf t = t := by
  cases t <;> first | rfl | exact absurd h (by simp [IsOpt])

theorem isOpt_optOf (t : Ty) : IsOpt (optOf t) := by cases t <;> exact trivial

theorem norm_optOf {t : Ty} (h : Norm t) : Norm (optOf t) := by
  by_cases ho : IsOpt t
  · rw [optOf_of_opt ho]; exact h
  · rw [optOf_of_not ho]
    simp only [Norm]
    exact ⟨h, ho⟩

theorem vfree_optOf (t : Ty) : vfree (optOf t) = vfree t := by cases t <;> rfl

theorem ufree_optOf (t : Ty) : ufree (optOf t) = ufree t := by cases t <;> rfl

theorem vsubst_optOf (s : List (Nat × Ty)) (t : Ty) :
    vsubst s (optOf t) = optOf (vsubst s t) := by
  by_cases h : IsOpt t
  · rw [optOf_of_opt h]
    cases t with
    | opt x =>
      show optOf (vsubst s x) = optOf (optOf (vsubst s x))
      rw [optOf_idem]
    | _ => exact absurd h (by simp [IsOpt])
  · rw [optOf_of_not h]
    rfl

theorem vsubsts_eq_map (s : List (Nat × Ty)) (ts : List Ty) :
    vsubsts s ts = ts.map (vsubst s) := by
  induction ts with
  | nil => rfl
  | cons t ts ih => simp [vsubsts, ih]

theorem mem_vfrees {v : Nat} {ts : List Ty} : v ∈ vfrees ts ↔ ∃ t ∈ ts, v ∈ vfree t := by
  induction ts with
  | nil => simp [vfrees]
  | cons t ts ih => simp [vfrees, ih]

theorem norms_iff {ts : List Ty} : Norms ts ↔ ∀ t ∈ ts, Norm t := by
  induction ts with
  | nil => simp [Norms]
  | cons t ts ih => simp [Norms, ih]

/-- Apply a substitution to the range of another. -/
def rangeSubst (s' s : List (Nat × Ty)) : List (Nat × Ty) :=
  s.map (fun p => (p.1, vsubst s' p.2))

theorem look_rangeSubst (s' s : List (Nat × Ty)) (v : Nat) :
    look v (rangeSubst s' s) = (look v s).map (vsubst s') := by
  induction s with
  | nil => rfl
  | cons p s ih =>
    obtain ⟨w, t⟩ := p
    simp only [rangeSubst, List.map_cons, look] at ih ⊢
    by_cases h : v = w
    · rw [if_pos h, if_pos h]; rfl
    · rw [if_neg h, if_neg h]; exact ih

theorem look_mem {s : List (Nat × Ty)} {v : Nat} (h : v ∈ s.map Prod.fst) :
    ∃ t, look v s = some t ∧ (v, t) ∈ s := by
  induction s with
  | nil => simp at h
  | cons p s ih =>
    obtain ⟨w, t⟩ := p
    simp only [look]
    by_cases e : v = w
    · subst e; exact ⟨t, if_pos rfl, by simp⟩
    · rw [if_neg e]
      have : v ∈ s.map Prod.fst := by
        simp only [List.map_cons, List.mem_cons] at h
        rcases h with h | h
        · exact absurd h e
        · exact h
      obtain ⟨t', h1, h2⟩ := ih this
      exact ⟨t', h1, List.mem_cons_of_mem _ h2⟩

mutual
theorem vsubst_comp (s' s : List (Nat × Ty)) :
    ∀ t : Ty, (∀ v ∈ vfree t, v ∈ s.map Prod.fst) →
      vsubst s' (vsubst s t) = vsubst (rangeSubst s' s) t
  | uni u, _ => rfl
  | var v, h => by
      obtain ⟨t, h1, _⟩ := look_mem (h v (by simp [vfree]))
      simp only [vsubst, substVar, look_rangeSubst, h1, Option.map_some]
  | con n ts, h => by
      simp only [vsubst]
      rw [vsubsts_comp s' s ts (by simpa [vfree] using h)]
  | fn a b c d, h => by
      simp only [vfree, List.mem_append] at h
      simp only [vsubst]
      rw [vsubst_comp s' s a (fun v hv => h v (by tauto)),
        vsubst_comp s' s b (fun v hv => h v (by tauto)),
        vsubst_comp s' s c (fun v hv => h v (by tauto)),
        vsubst_comp s' s d (fun v hv => h v (by tauto))]
  | tup a b, h => by
      simp only [vfree, List.mem_append] at h
      simp only [vsubst]
      rw [vsubst_comp s' s a (fun v hv => h v (by tauto)),
        vsubst_comp s' s b (fun v hv => h v (by tauto))]
  | opt t, h => by
      simp only [vsubst, vsubst_optOf]
      rw [vsubst_comp s' s t (by simpa [vfree] using h)]
  | none_, _ => rfl
  | wild, _ => rfl
  | nil k, _ => rfl
  | row k n t r, h => by
      simp only [vfree, List.mem_append] at h
      simp only [vsubst]
      rw [vsubst_comp s' s t (fun v hv => h v (by tauto)),
        vsubst_comp s' s r (fun v hv => h v (by tauto))]
  | star k r, h => by
      simp only [vsubst]
      rw [vsubst_comp s' s r (by simpa [vfree] using h)]
  | fx f, _ => rfl
theorem vsubsts_comp (s' s : List (Nat × Ty)) :
    ∀ ts : List Ty, (∀ v ∈ vfrees ts, v ∈ s.map Prod.fst) →
      vsubsts s' (vsubsts s ts) = vsubsts (rangeSubst s' s) ts
  | [], _ => rfl
  | t :: ts, h => by
      simp only [vfrees, List.mem_append] at h
      simp only [vsubsts]
      rw [vsubst_comp s' s t (fun v hv => h v (by tauto)),
        vsubsts_comp s' s ts (fun v hv => h v (by tauto))]
end

theorem look_idzip (tvs : List Nat) (v : Nat) :
    substVar (tvs.zip (tvs.map var)) v = var v := by
  have h : ∀ t, look v (tvs.zip (tvs.map var)) = some t → t = var v := by
    induction tvs with
    | nil => simp [look]
    | cons w tvs ih =>
      intro t
      simp only [List.map_cons, List.zip_cons_cons, look]
      by_cases e : v = w
      · rw [if_pos e]; subst e; intro h; exact (Option.some.inj h).symm
      · rw [if_neg e]; exact ih t
  unfold substVar
  cases hl : look v (tvs.zip (tvs.map var)) with
  | none => rfl
  | some t => exact h t hl

mutual
theorem vsubst_id (tvs : List Nat) : ∀ t : Ty, Norm t → vsubst (tvs.zip (tvs.map var)) t = t
  | uni u, _ => rfl
  | var v, h => by simp only [vsubst, look_idzip]
  | con n ts, h => by
      simp only [vsubst]; rw [vsubsts_id tvs ts (by simpa [Norm] using h)]
  | fn a b c d, h => by
      simp only [Norm] at h
      simp only [vsubst]
      rw [vsubst_id tvs a h.1, vsubst_id tvs b h.2.1, vsubst_id tvs c h.2.2.1,
        vsubst_id tvs d h.2.2.2]
  | tup a b, h => by
      simp only [Norm] at h
      simp only [vsubst]
      rw [vsubst_id tvs a h.1, vsubst_id tvs b h.2]
  | opt t, h => by
      simp only [Norm] at h
      simp only [vsubst]
      rw [vsubst_id tvs t h.1, optOf_of_not h.2]
  | none_, _ => rfl
  | wild, _ => rfl
  | nil k, _ => rfl
  | row k n t r, h => by
      simp only [Norm] at h
      simp only [vsubst]
      rw [vsubst_id tvs t h.1, vsubst_id tvs r h.2]
  | star k r, h => by
      simp only [vsubst]; rw [vsubst_id tvs r (by simpa [Norm] using h)]
  | fx f, _ => rfl
theorem vsubsts_id (tvs : List Nat) :
    ∀ ts : List Ty, Norms ts → vsubsts (tvs.zip (tvs.map var)) ts = ts
  | [], _ => rfl
  | t :: ts, h => by
      simp only [Norms] at h
      simp only [vsubsts]
      rw [vsubst_id tvs t h.1, vsubsts_id tvs ts h.2]
end

theorem look_some_mem {s : List (Nat × Ty)} {v : Nat} {t : Ty} (h : look v s = some t) :
    (v, t) ∈ s := by
  induction s with
  | nil => simp [look] at h
  | cons p s ih =>
    obtain ⟨w, x⟩ := p
    simp only [look] at h
    by_cases e : v = w
    · rw [if_pos e] at h; cases h; subst e; simp
    · rw [if_neg e] at h; exact List.mem_cons_of_mem _ (ih h)

mutual
theorem norm_vsubst (s : List (Nat × Ty)) (hs : ∀ p ∈ s, Norm p.2) :
    ∀ t : Ty, Norm t → Norm (vsubst s t)
  | uni u, _ => by simp [vsubst, Norm]
  | var v, _ => by
      simp only [vsubst, substVar]
      cases h : look v s with
      | none => simp [Norm]
      | some t => exact hs _ (look_some_mem h)
  | con n ts, h => by
      simp only [Norm] at h
      simp only [vsubst, Norm]; exact norms_vsubsts s hs ts h
  | fn a b c d, h => by
      simp only [Norm] at h
      simp only [vsubst, Norm]
      exact ⟨norm_vsubst s hs a h.1, norm_vsubst s hs b h.2.1, norm_vsubst s hs c h.2.2.1,
        norm_vsubst s hs d h.2.2.2⟩
  | tup a b, h => by
      simp only [Norm] at h
      simp only [vsubst, Norm]
      exact ⟨norm_vsubst s hs a h.1, norm_vsubst s hs b h.2⟩
  | opt t, h => by
      simp only [Norm] at h
      simp only [vsubst]; exact norm_optOf (norm_vsubst s hs t h.1)
  | none_, _ => by simp [vsubst, Norm]
  | wild, _ => by simp [vsubst, Norm]
  | nil k, _ => by simp [vsubst, Norm]
  | row k n t r, h => by
      simp only [Norm] at h
      simp only [vsubst, Norm]
      exact ⟨norm_vsubst s hs t h.1, norm_vsubst s hs r h.2⟩
  | star k r, h => by
      simp only [Norm] at h
      simp only [vsubst, Norm]; exact norm_vsubst s hs r h
  | fx f, _ => by simp [vsubst, Norm]
theorem norms_vsubsts (s : List (Nat × Ty)) (hs : ∀ p ∈ s, Norm p.2) :
    ∀ ts : List Ty, Norms ts → Norms (vsubsts s ts)
  | [], _ => by simp [vsubsts, Norms]
  | t :: ts, h => by
      simp only [Norms] at h
      simp only [vsubsts, Norms]
      exact ⟨norm_vsubst s hs t h.1, norms_vsubsts s hs ts h.2⟩
end

mutual
theorem vfree_vsubst (s : List (Nat × Ty)) : ∀ t : Ty, (∀ v ∈ vfree t, v ∈ s.map Prod.fst) →
    ∀ v ∈ vfree (vsubst s t), ∃ p ∈ s, v ∈ vfree p.2
  | uni u, _ => by simp [vsubst, vfree]
  | var w, h => by
      obtain ⟨t, h1, h2⟩ := look_mem (h w (by simp [vfree]))
      simp only [vsubst, substVar, h1]
      intro v hv
      exact ⟨_, h2, hv⟩
  | con n ts, h => by
      simp only [vsubst, vfree] at h ⊢; exact vfrees_vsubsts s ts h
  | fn a b c d, h => by
      simp only [vfree, List.mem_append] at h
      simp only [vsubst, vfree, List.mem_append]
      rintro v (((hv | hv) | hv) | hv)
      · exact vfree_vsubst s a (fun v hv => h v (by tauto)) v hv
      · exact vfree_vsubst s b (fun v hv => h v (by tauto)) v hv
      · exact vfree_vsubst s c (fun v hv => h v (by tauto)) v hv
      · exact vfree_vsubst s d (fun v hv => h v (by tauto)) v hv
  | tup a b, h => by
      simp only [vfree, List.mem_append] at h
      simp only [vsubst, vfree, List.mem_append]
      rintro v (hv | hv)
      · exact vfree_vsubst s a (fun v hv => h v (by tauto)) v hv
      · exact vfree_vsubst s b (fun v hv => h v (by tauto)) v hv
  | opt t, h => by
      simp only [vfree] at h
      simp only [vsubst, vfree_optOf]; exact vfree_vsubst s t h
  | none_, _ => by simp [vsubst, vfree]
  | wild, _ => by simp [vsubst, vfree]
  | nil k, _ => by simp [vsubst, vfree]
  | row k n t r, h => by
      simp only [vfree, List.mem_append] at h
      simp only [vsubst, vfree, List.mem_append]
      rintro v (hv | hv)
      · exact vfree_vsubst s t (fun v hv => h v (by tauto)) v hv
      · exact vfree_vsubst s r (fun v hv => h v (by tauto)) v hv
  | star k r, h => by
      simp only [vfree] at h
      simp only [vsubst, vfree]; exact vfree_vsubst s r h
  | fx f, _ => by simp [vsubst, vfree]
theorem vfrees_vsubsts (s : List (Nat × Ty)) :
    ∀ ts : List Ty, (∀ v ∈ vfrees ts, v ∈ s.map Prod.fst) →
    ∀ v ∈ vfrees (vsubsts s ts), ∃ p ∈ s, v ∈ vfree p.2
  | [], _ => by simp [vsubsts, vfrees]
  | t :: ts, h => by
      simp only [vfrees, List.mem_append] at h
      simp only [vsubsts, vfrees, List.mem_append]
      rintro v (hv | hv)
      · exact vfree_vsubst s t (fun v hv => h v (by tauto)) v hv
      · exact vfrees_vsubsts s ts (fun v hv => h v (by tauto)) v hv
end

end Ty
end Verif.Ty
