import Verif.Unify.Inst

/-! The invariant of unification, and its preservation. -/
namespace Verif.Unify
open Verif.Ty

/-! ### Compatible types -/

theorem compat_optOf {a b : Ty} (h : Compat a b) : Compat (Ty.optOf a) (Ty.optOf b) := by
  by_cases ha : Ty.IsOpt a
  · cases a with
    | opt x =>
      by_cases hb : Ty.IsOpt b
      · cases b with
        | opt y => exact h
        | _ => exact absurd hb (by simp [Ty.IsOpt])
      · rw [Ty.optOf_of_not hb, Ty.optOf_of_opt (show Ty.IsOpt (.opt x) from trivial)]
        cases h with
        | wildR => exact .opt .wildR
        | refl => exact absurd trivial hb
        | opt h => exact absurd trivial hb
    | _ => exact absurd ha (by simp [Ty.IsOpt])
  · rw [Ty.optOf_of_not ha]
    by_cases hb : Ty.IsOpt b
    · cases b with
      | opt y =>
        rw [Ty.optOf_of_opt (show Ty.IsOpt (.opt y) from trivial)]
        cases h with
        | wildL => exact .opt .wildL
        | refl => exact absurd trivial ha
        | opt h => exact absurd trivial ha
      | _ => exact absurd hb (by simp [Ty.IsOpt])
    · rw [Ty.optOf_of_not hb]
      exact .opt h

theorem compat_inst (θ : Nat → Ty) {a b : Ty} (h : Compat a b) :
    Compat (inst θ a) (inst θ b) := by
  induction h with
  | wildL => simp only [inst]; exact .wildL
  | wildR => simp only [inst]; exact .wildR
  | refl => exact .refl
  | @con n ts us _ ih =>
    simp only [inst]
    apply Compat.con
    intro p hp
    rw [insts_eq_map, insts_eq_map, List.zip_map, List.mem_map] at hp
    obtain ⟨q, hq, rfl⟩ := hp
    exact ih q hq
  | fn _ _ _ _ h1 h2 h3 h4 => simp only [inst]; exact .fn h1 h2 h3 h4
  | tup _ _ h1 h2 => simp only [inst]; exact .tup h1 h2
  | opt _ h1 => simp only [inst]; exact compat_optOf h1
  | row _ _ h1 h2 => simp only [inst]; exact .row h1 h2
  | star _ h1 => simp only [inst]; exact .star h1

theorem compat_symm {a b : Ty} (h : Compat a b) : Compat b a := by
  induction h with
  | wildL => exact .wildR
  | wildR => exact .wildL
  | refl => exact .refl
  | @con n ts us _ ih =>
    apply Compat.con
    intro p hp
    have : p.swap ∈ ts.zip us := by
      clear * - hp
      induction ts generalizing us with
      | nil => simp at hp
      | cons t ts ih =>
        cases us with
        | nil => simp at hp
        | cons u us =>
          simp only [List.zip_cons_cons, List.mem_cons] at hp ⊢
          rcases hp with rfl | hp
          · exact Or.inl rfl
          · exact Or.inr (ih hp)
    exact ih p.swap this
  | fn _ _ _ _ h1 h2 h3 h4 => exact .fn h1 h2 h3 h4
  | tup _ _ h1 h2 => exact .tup h1 h2
  | opt _ h1 => exact .opt h1
  | row _ _ h1 h2 => exact .row h1 h2
  | star _ h1 => exact .star h1

theorem cleans_iff {ar : Nat → Nat} {ts : List Ty} : Cleans ar ts ↔ ∀ t ∈ ts, Clean ar t := by
  induction ts with
  | nil => simp [Cleans]
  | cons t ts ih => simp [Cleans, ih]

theorem noColls_iff {θ : Nat → Ty} {ts : List Ty} :
    NoColls θ ts ↔ ∀ t ∈ ts, NoColl θ t := by
  induction ts with
  | nil => simp [NoColls]
  | cons t ts ih => simp [NoColls, ih]

/-- Compatible types without wildcards, with the right numbers of arguments, are equal. -/
theorem compat_eq {ar : Nat → Nat} {a b : Ty} (h : Compat a b) :
    Clean ar a → Clean ar b → a = b := by
  induction h with
  | wildL => intro h; simp [Clean] at h
  | wildR => intro _ h; simp [Clean] at h
  | refl => intro _ _; rfl
  | @con n ts us _ ih =>
    intro ha hb
    simp only [Clean] at ha hb
    congr 1
    have h1 := cleans_iff.mp ha.2
    have h2 := cleans_iff.mp hb.2
    have hlen : ts.length = us.length := by rw [ha.1, hb.1]
    clear ha hb
    induction ts generalizing us with
    | nil => cases us with
      | nil => rfl
      | cons u us => simp at hlen
    | cons t ts iht =>
      cases us with
      | nil => simp at hlen
      | cons u us =>
        have hh : t = u := ih (t, u) (by simp) (h1 t (by simp)) (h2 u (by simp))
        rw [hh]
        congr 1
        rename_i hcomp
        apply iht
        · intro p hp; exact hcomp p (by simp [hp])
        · intro p hp ha hb
          exact ih p (by simp [hp]) ha hb
        · intro x hx; exact h1 x (List.mem_cons_of_mem _ hx)
        · intro x hx; exact h2 x (List.mem_cons_of_mem _ hx)
        · simpa using hlen
  | fn _ _ _ _ h1 h2 h3 h4 =>
    intro ha hb
    simp only [Clean] at ha hb
    rw [h1 ha.1 hb.1, h2 ha.2.1 hb.2.1, h3 ha.2.2.1 hb.2.2.1, h4 ha.2.2.2 hb.2.2.2]
  | tup _ _ h1 h2 =>
    intro ha hb
    simp only [Clean] at ha hb
    rw [h1 ha.1 hb.1, h2 ha.2 hb.2]
  | opt _ h1 =>
    intro ha hb
    simp only [Clean] at ha hb
    rw [h1 ha hb]
  | row _ _ h1 h2 =>
    intro ha hb
    simp only [Clean] at ha hb
    rw [h1 ha.1 hb.1, h2 ha.2 hb.2]
  | star _ h1 =>
    intro ha hb
    simp only [Clean] at ha hb
    rw [h1 ha hb]

theorem clean_optOf {ar : Nat → Nat} {t : Ty} : Clean ar (Ty.optOf t) ↔ Clean ar t := by
  by_cases h : Ty.IsOpt t
  · rw [Ty.optOf_of_opt h]
  · rw [Ty.optOf_of_not h]; simp [Clean]

mutual
theorem clean_inst (ar : Nat → Nat) (σ : Nat → Ty) (h : ∀ v, Clean ar (σ v)) :
    ∀ t : Ty, Clean ar t → Clean ar (inst σ t)
  | .uni u, _ => by simpa [inst] using h u
  | .var _, _ => by simp [inst, Clean]
  | .con n ts, hc => by
      simp only [Clean] at hc
      simp only [inst, Clean]
      exact ⟨by rw [insts_eq_map]; simpa using hc.1, cleans_insts ar σ h ts hc.2⟩
  | .fn a b c d, hc => by
      simp only [Clean] at hc
      simp only [inst, Clean]
      exact ⟨clean_inst ar σ h a hc.1, clean_inst ar σ h b hc.2.1, clean_inst ar σ h c hc.2.2.1,
        clean_inst ar σ h d hc.2.2.2⟩
  | .tup a b, hc => by
      simp only [Clean] at hc
      simp only [inst, Clean]
      exact ⟨clean_inst ar σ h a hc.1, clean_inst ar σ h b hc.2⟩
  | .opt t, hc => by
      simp only [Clean] at hc
      simp only [inst]; exact clean_optOf.mpr (clean_inst ar σ h t hc)
  | .none_, _ => by simp [inst, Clean]
  | .wild, hc => by simp [Clean] at hc
  | .nil k, _ => by simp [inst, Clean]
  | .row k n t r, hc => by
      simp only [Clean] at hc
      simp only [inst, Clean]
      exact ⟨clean_inst ar σ h t hc.1, clean_inst ar σ h r hc.2⟩
  | .star k r, hc => by
      simp only [Clean] at hc
      simp only [inst, Clean]; exact clean_inst ar σ h r hc
  | .fx x, _ => by simp [inst, Clean]
theorem cleans_insts (ar : Nat → Nat) (σ : Nat → Ty) (h : ∀ v, Clean ar (σ v)) :
    ∀ ts : List Ty, Cleans ar ts → Cleans ar (insts σ ts)
  | [], _ => by simp [insts, Cleans]
  | t :: ts, hc => by
      simp only [Cleans] at hc
      simp only [insts, Cleans]
      exact ⟨clean_inst ar σ h t hc.1, cleans_insts ar σ h ts hc.2⟩
end

/-- No wildcard, right numbers of arguments, no option of an option under `θ`. -/
def Nice (ar : Nat → Nat) (θ : Nat → Ty) (t : Ty) : Prop := Clean ar t ∧ NoColl θ t

theorem inst_inst_same {θ σ : Nat → Ty} (h : ∀ v, inst θ (σ v) = θ v) (t : Ty) :
    inst θ (inst σ t) = inst θ t := by
  rw [inst_comp]
  congr 1
  funext v
  exact h v

mutual
theorem noColl_inst (θ σ : Nat → Ty) (h1 : ∀ v, NoColl θ (σ v))
    (h2 : ∀ v, inst θ (σ v) = θ v) : ∀ t : Ty, NoColl θ t → NoColl θ (inst σ t)
  | .uni u, _ => by simpa [inst] using h1 u
  | .var _, _ => by simp [inst, NoColl]
  | .con n ts, hc => by
      simp only [NoColl] at hc
      simp only [inst, NoColl]; exact noColls_insts θ σ h1 h2 ts hc
  | .fn a b c d, hc => by
      simp only [NoColl] at hc
      simp only [inst, NoColl]
      exact ⟨noColl_inst θ σ h1 h2 a hc.1, noColl_inst θ σ h1 h2 b hc.2.1,
        noColl_inst θ σ h1 h2 c hc.2.2.1, noColl_inst θ σ h1 h2 d hc.2.2.2⟩
  | .tup a b, hc => by
      simp only [NoColl] at hc
      simp only [inst, NoColl]
      exact ⟨noColl_inst θ σ h1 h2 a hc.1, noColl_inst θ σ h1 h2 b hc.2⟩
  | .opt t, hc => by
      simp only [NoColl] at hc
      have hno : ¬ Ty.IsOpt (inst σ t) := by
        intro ho
        apply hc.2
        rw [← inst_inst_same h2 t]
        cases hx : inst σ t with
        | opt y => simp only [inst]; exact Ty.isOpt_optOf _
        | _ => rw [hx] at ho; exact absurd ho (by simp [Ty.IsOpt])
      simp only [inst]
      rw [Ty.optOf_of_not hno]
      simp only [NoColl]
      refine ⟨noColl_inst θ σ h1 h2 t hc.1, ?_⟩
      rw [inst_inst_same h2 t]
      exact hc.2
  | .none_, _ => by simp [inst, NoColl]
  | .wild, _ => by simp [inst, NoColl]
  | .nil k, _ => by simp [inst, NoColl]
  | .row k n t r, hc => by
      simp only [NoColl] at hc
      simp only [inst, NoColl]
      exact ⟨noColl_inst θ σ h1 h2 t hc.1, noColl_inst θ σ h1 h2 r hc.2⟩
  | .star k r, hc => by
      simp only [NoColl] at hc
      simp only [inst, NoColl]; exact noColl_inst θ σ h1 h2 r hc
  | .fx x, _ => by simp [inst, NoColl]
theorem noColls_insts (θ σ : Nat → Ty) (h1 : ∀ v, NoColl θ (σ v))
    (h2 : ∀ v, inst θ (σ v) = θ v) : ∀ ts : List Ty, NoColls θ ts → NoColls θ (insts σ ts)
  | [], _ => by simp [insts, NoColls]
  | t :: ts, hc => by
      simp only [NoColls] at hc
      simp only [insts, NoColls]
      exact ⟨noColl_inst θ σ h1 h2 t hc.1, noColls_insts θ σ h1 h2 ts hc.2⟩
end

theorem nice_inst {ar : Nat → Nat} {θ σ : Nat → Ty} (h1 : ∀ v, Nice ar θ (σ v))
    (h2 : ∀ v, inst θ (σ v) = θ v) {t : Ty} (h : Nice ar θ t) : Nice ar θ (inst σ t) :=
  ⟨clean_inst ar σ (fun v => (h1 v).1) t h.1, noColl_inst θ σ (fun v => (h1 v).2) h2 t h.2⟩

/-! ### Size -/

mutual
def size : Ty → Nat
  | .uni _ => 1
  | .var _ => 1
  | .con _ ts => 1 + sizes ts
  | .fn a b c d => 1 + size a + size b + size c + size d
  | .tup a b => 1 + size a + size b
  | .opt t => 1 + size t
  | .none_ => 1
  | .wild => 1
  | .nil _ => 1
  | .row _ _ t r => 1 + size t + size r
  | .star _ r => 1 + size r
  | .fx _ => 1
def sizes : List Ty → Nat
  | [] => 0
  | t :: ts => size t + sizes ts
end

theorem size_mem {t : Ty} {ts : List Ty} (h : t ∈ ts) : size t ≤ sizes ts := by
  induction ts with
  | nil => cases h
  | cons x ts ih =>
    simp only [sizes]
    rcases List.mem_cons.mp h with rfl | h
    · omega
    · have := ih h; omega

mutual
theorem occ_size (θ : Nat → Ty) (v : Nat) : ∀ t : Ty, NoColl θ t → v ∈ Ty.ufree t →
    size (θ v) ≤ size (inst θ t) ∧ (t ≠ .uni v → size (θ v) < size (inst θ t))
  | .uni u, _, hv => by
      simp only [Ty.ufree, List.mem_singleton] at hv
      subst hv
      simp [inst]
  | .var _, _, hv => by simp [Ty.ufree] at hv
  | .con n ts, hc, hv => by
      simp only [NoColl] at hc
      simp only [Ty.ufree] at hv
      have := occs_size θ v ts hc hv
      simp only [inst, size]
      omega
  | .fn a b c d, hc, hv => by
      simp only [NoColl] at hc
      simp only [Ty.ufree, List.mem_append] at hv
      simp only [inst, size]
      rcases hv with ((hv | hv) | hv) | hv
      · have := (occ_size θ v a hc.1 hv).1; omega
      · have := (occ_size θ v b hc.2.1 hv).1; omega
      · have := (occ_size θ v c hc.2.2.1 hv).1; omega
      · have := (occ_size θ v d hc.2.2.2 hv).1; omega
  | .tup a b, hc, hv => by
      simp only [NoColl] at hc
      simp only [Ty.ufree, List.mem_append] at hv
      simp only [inst, size]
      rcases hv with hv | hv
      · have := (occ_size θ v a hc.1 hv).1; omega
      · have := (occ_size θ v b hc.2 hv).1; omega
  | .opt t, hc, hv => by
      simp only [NoColl] at hc
      simp only [Ty.ufree] at hv
      simp only [inst]
      rw [Ty.optOf_of_not hc.2]
      simp only [size]
      have := (occ_size θ v t hc.1 hv).1
      omega
  | .none_, _, hv => by simp [Ty.ufree] at hv
  | .wild, _, hv => by simp [Ty.ufree] at hv
  | .nil k, _, hv => by simp [Ty.ufree] at hv
  | .row k n t r, hc, hv => by
      simp only [NoColl] at hc
      simp only [Ty.ufree, List.mem_append] at hv
      simp only [inst, size]
      rcases hv with hv | hv
      · have := (occ_size θ v t hc.1 hv).1; omega
      · have := (occ_size θ v r hc.2 hv).1; omega
  | .star k r, hc, hv => by
      simp only [NoColl] at hc
      simp only [Ty.ufree] at hv
      simp only [inst, size]
      have := (occ_size θ v r hc hv).1; omega
  | .fx x, _, hv => by simp [Ty.ufree] at hv
theorem occs_size (θ : Nat → Ty) (v : Nat) : ∀ ts : List Ty, NoColls θ ts →
    v ∈ Ty.ufrees ts → size (θ v) ≤ sizes (insts θ ts)
  | [], _, hv => by simp [Ty.ufrees] at hv
  | t :: ts, hc, hv => by
      simp only [NoColls] at hc
      simp only [Ty.ufrees, List.mem_append] at hv
      simp only [insts, sizes]
      rcases hv with hv | hv
      · have := (occ_size θ v t hc.1 hv).1; omega
      · have := occs_size θ v ts hc.2 hv; omega
end

/-! ### The number of unbound variables -/

/-- The variables of `V` that are not bound. -/
def unb (V : List Nat) (s : Subst) : Nat := (V.filter (fun v => decide (v ∉ dom s))).length

theorem filter_le {p q : Nat → Bool} (h : ∀ v, q v = true → p v = true) (V : List Nat) :
    (V.filter q).length ≤ (V.filter p).length := by
  induction V with
  | nil => simp
  | cons x V ih =>
    simp only [List.filter_cons]
    by_cases hq : q x = true
    · rw [if_pos hq, if_pos (h x hq)]; simp; exact ih
    · rw [if_neg hq]
      by_cases hp : p x = true
      · rw [if_pos hp]; simp only [List.length_cons]; omega
      · rw [if_neg hp]; exact ih

theorem filter_lt {p q : Nat → Bool} (h : ∀ v, q v = true → p v = true) {V : List Nat} {v : Nat}
    (hv : v ∈ V) (hp : p v = true) (hq : q v = false) :
    (V.filter q).length < (V.filter p).length := by
  induction V with
  | nil => cases hv
  | cons x V ih =>
    simp only [List.filter_cons]
    rcases List.mem_cons.mp hv with rfl | hv
    · rw [if_pos hp, if_neg (by simp [hq])]
      have := filter_le h V
      simp only [List.length_cons]; omega
    · have := ih hv
      by_cases hqx : q x = true
      · rw [if_pos hqx, if_pos (h x hqx)]; simpa using this
      · rw [if_neg hqx]
        by_cases hpx : p x = true
        · rw [if_pos hpx]; simp only [List.length_cons]; omega
        · rw [if_neg hpx]; exact this

/-- All variables of a type are in `V`. -/
def InV (V : List Nat) (t : Ty) : Prop := ∀ v ∈ Ty.ufree t, v ∈ V

/-- All variables of a substitution are in `V`. -/
def InVs (V : List Nat) (s : Subst) : Prop := ∀ p ∈ s, p.1 ∈ V ∧ InV V p.2

theorem acyclic_disjoint {d s : Subst} (h : Acyclic (d ++ s)) : ∀ v ∈ dom d, v ∉ dom s := by
  induction d with
  | nil => intro v hv; simp [dom] at hv
  | cons p d ih =>
    intro v hv
    cases h with
    | @cons w x _ hs h1 h2 h3 h4 =>
      simp only [dom, List.map_cons, List.mem_cons] at hv
      rcases hv with rfl | hv
      · intro hc
        apply h1
        show v ∈ dom (d ++ s)
        simp only [dom, List.map_append, List.mem_append]
        exact Or.inr hc
      · exact ih hs v hv

theorem unb_lt {V : List Nat} {d s : Subst} (h : Acyclic (d ++ s)) (hV : InVs V (d ++ s))
    (hd : d ≠ []) : unb V (d ++ s) < unb V s := by
  cases d with
  | nil => exact absurd rfl hd
  | cons p d =>
    have hdis := acyclic_disjoint h p.1 (by simp [dom])
    refine filter_lt (v := p.1) ?_ ?_ ?_ ?_
    · intro v hv
      simp only [dom, List.cons_append, List.map_cons, List.map_append, List.mem_cons,
        List.mem_append, not_or, decide_eq_true_eq] at hv ⊢
      exact decide_eq_true hv.2.2
    · exact (hV p (by simp)).1
    · simpa using hdis
    · simp [dom]

/-! ### The invariant -/

/-- The pairs are to be unified by `θ`, without wildcards and collapsing options. -/
def Solves (ar : Nat → Nat) (θ : Nat → Ty) (s : Subst) (ps : List (Ty × Ty)) : Prop :=
  ∀ p ∈ ps, Nice ar θ (app s p.1) ∧ Nice ar θ (app s p.2) ∧
    inst θ (app s p.1) = inst θ (app s p.2)

/-- The pairs have no wildcards and the right numbers of arguments. -/
def CleanAll (ar : Nat → Nat) (s : Subst) (ps : List (Ty × Ty)) : Prop :=
  ∀ p ∈ ps, Clean ar (app s p.1) ∧ Clean ar (app s p.2)

/-- What an outcome must satisfy. -/
def Good (V : List Nat) (s : Subst) (ps : List (Ty × Ty)) : Out → Prop
  | .out => False
  | .fail => ∀ ar θ, ¬ Solves ar θ s ps
  | .ok s' => ∃ d, s' = d ++ s ∧ Acyclic s' ∧ InVs V s' ∧
      (∀ p ∈ ps, Compat (app s' p.1) (app s' p.2)) ∧
      (∀ ar, CleanAll ar s ps → ∀ v, Clean ar (appVar d v)) ∧
      ∀ ar θ, Solves ar θ s ps →
        ∀ v, Nice ar θ (appVar d v) ∧ inst θ (appVar d v) = θ v

theorem good_same {V : List Nat} {s : Subst} {ps : List (Ty × Ty)} (hs : Acyclic s)
    (hV : InVs V s) (h : ∀ p ∈ ps, Compat (app s p.1) (app s p.2)) :
    Good V s ps (.ok s) := by
  refine ⟨[], rfl, hs, hV, h, fun ar _ v => by simp [appVar, Clean], ?_⟩
  intro ar θ _ v
  simp [appVar, Nice, Clean, NoColl, inst]

/-- From the parts of two types to the types. -/
theorem good_lift {V : List Nat} {s : Subst} {t1 t2 : Ty} {ps : List (Ty × Ty)} {o : Out}
    (f1 : app s t1 = t1) (f2 : app s t2 = t2)
    (fp : ∀ p ∈ ps, app s p.1 = p.1 ∧ app s p.2 = p.2)
    (ha : ∀ σ : Nat → Ty, (∀ p ∈ ps, Compat (inst σ p.1) (inst σ p.2)) →
      Compat (inst σ t1) (inst σ t2))
    (hb : ∀ ar θ, Nice ar θ t1 → Nice ar θ t2 → inst θ t1 = inst θ t2 →
      ∀ p ∈ ps, Nice ar θ p.1 ∧ Nice ar θ p.2 ∧ inst θ p.1 = inst θ p.2)
    (hcl : ∀ ar, Clean ar t1 → Clean ar t2 → ∀ p ∈ ps, Clean ar p.1 ∧ Clean ar p.2)
    (h : Good V s ps o) : Good V s [(t1, t2)] o := by
  have hsol : ∀ ar θ, Solves ar θ s [(t1, t2)] → Solves ar θ s ps := by
    intro ar θ hsv p hp
    have := hsv (t1, t2) (by simp)
    simp only [f1, f2] at this
    rw [(fp p hp).1, (fp p hp).2]
    exact hb ar θ this.1 this.2.1 this.2.2 p hp
  cases o with
  | out => exact h
  | fail => intro ar θ hsv; exact h ar θ (hsol ar θ hsv)
  | ok s' =>
    obtain ⟨d, h1, h2, h3, h4, h6, h5⟩ := h
    refine ⟨d, h1, h2, h3, ?_, ?_, fun ar θ hsv => h5 ar θ (hsol ar θ hsv)⟩
    · intro p hp
      rw [List.mem_singleton] at hp
      subst hp
      exact ha (appVar s') h4
    · intro ar hc
      refine h6 ar ?_
      intro p hp
      rw [(fp p hp).1, (fp p hp).2]
      have := hc (t1, t2) (by simp)
      simp only [f1, f2] at this
      exact hcl ar this.1 this.2 p hp

/-- Binding a variable. -/
theorem good_bind {V : List Nat} {s : Subst} {v : Nat} {t t1 t2 : Ty} (hs : Acyclic s)
    (hV : InVs V s) (ht : Ty.Norm t) (hfree : ∀ u ∈ Ty.ufree t, u ∉ dom s)
    (hvV : v ∈ V) (htV : InV V t) (hv : v ∉ dom s) (hocc : v ∉ Ty.ufree t)
    (hcase : (t1 = .uni v ∧ t2 = t) ∨ (t1 = t ∧ t2 = .uni v)) :
    Good V s [(t1, t2)] (.ok (usubstitute v t s)) := by
  have hac : Acyclic ((v, t) :: s) := .cons hs hv hocc hfree ht
  have e1 : app ((v, t) :: s) (.uni v) = t := by
    simp only [app, inst, appVar]
    rw [appVar_fresh hv]
    simp [inst, single]
  have e2 : app ((v, t) :: s) t = t := by
    apply app_fresh ht
    intro u hu
    simp only [dom, List.map_cons, List.mem_cons, not_or]
    refine ⟨?_, hfree u hu⟩
    rintro rfl
    exact hocc hu
  have e3 : app s t = t := app_fresh ht hfree
  have e4 : app s (.uni v) = .uni v := by
    simp only [app, inst]; exact appVar_fresh hv
  refine ⟨[(v, t)], rfl, hac, ?_, ?_, ?_, ?_⟩
  · intro p hp
    rcases List.mem_cons.mp hp with rfl | hp
    · exact ⟨hvV, htV⟩
    · exact hV p hp
  · intro p hp
    rw [List.mem_singleton] at hp
    subst hp
    rcases hcase with ⟨rfl, rfl⟩ | ⟨rfl, rfl⟩
    · show Compat (app ((v, t2) :: s) (.uni v)) (app ((v, t2) :: s) t2)
      rw [e1, e2]; exact .refl
    · show Compat (app ((v, t1) :: s) t1) (app ((v, t1) :: s) (.uni v))
      rw [e1, e2]; exact .refl
  · intro ar hc u
    have hc' := hc (t1, t2) (by simp)
    have hone : Clean ar t := by
      rcases hcase with ⟨rfl, rfl⟩ | ⟨rfl, rfl⟩
      · simp only [e3] at hc'; exact hc'.2
      · simp only [e3] at hc'; exact hc'.1
    simp only [appVar, inst, single]
    by_cases e : u = v
    · rw [if_pos e]; exact hone
    · rw [if_neg e]; simp [Clean]
  · intro ar θ hsv u
    have hsv' := hsv (t1, t2) (by simp)
    have hone : Nice ar θ t ∧ inst θ t = θ v := by
      rcases hcase with ⟨rfl, rfl⟩ | ⟨rfl, rfl⟩
      · simp only [e3, e4] at hsv'
        refine ⟨hsv'.2.1, ?_⟩
        rw [← hsv'.2.2]; simp [inst]
      · simp only [e3, e4] at hsv'
        refine ⟨hsv'.1, ?_⟩
        rw [hsv'.2.2]; simp [inst]
    simp only [appVar, inst, single]
    by_cases e : u = v
    · rw [if_pos e, e]; exact hone
    · rw [if_neg e]
      simp [Nice, Clean, NoColl, inst]

/-- The occurs check. -/
theorem good_occurs {V : List Nat} {s : Subst} {v : Nat} {t t1 t2 : Ty}
    (hf : app s t = t) (hfv : app s (.uni v) = .uni v)
    (hocc : v ∈ Ty.ufree t) (hne : t ≠ .uni v)
    (hcase : (t1 = .uni v ∧ t2 = t) ∨ (t1 = t ∧ t2 = .uni v)) :
    Good V s [(t1, t2)] .fail := by
  intro ar θ hsv
  have hsv' := hsv (t1, t2) (by simp)
  have hone : NoColl θ t ∧ inst θ t = θ v := by
    rcases hcase with ⟨rfl, rfl⟩ | ⟨rfl, rfl⟩
    · simp only [hf, hfv] at hsv'
      refine ⟨hsv'.2.1.2, ?_⟩
      rw [← hsv'.2.2]; simp [inst]
    · simp only [hf, hfv] at hsv'
      refine ⟨hsv'.1.2, ?_⟩
      rw [hsv'.2.2]; simp [inst]
  have := (occ_size θ v t hone.1 hocc).2 hne
  rw [hone.2] at this
  omega

/-- The head of a type. -/
def tag : Ty → Nat
  | .uni _ => 0
  | .var _ => 1
  | .con _ _ => 2
  | .fn _ _ _ _ => 3
  | .tup _ _ => 4
  | .opt _ => 5
  | .none_ => 6
  | .wild => 7
  | .nil _ => 8
  | .row _ _ _ _ => 9
  | .star _ _ => 10
  | .fx _ => 11

theorem tag_optOf (t : Ty) : tag (Ty.optOf t) = 5 := by cases t <;> rfl

theorem tag_inst (θ : Nat → Ty) {t : Ty} (h : tag t ≠ 0) : tag (inst θ t) = tag t := by
  cases t with
  | uni u => exact absurd rfl h
  | opt t => simp only [inst]; exact tag_optOf _
  | _ => simp [inst, tag]

theorem good_clash {V : List Nat} {s : Subst} {t1 t2 : Ty}
    (f1 : app s t1 = t1) (f2 : app s t2 = t2)
    (h : ∀ θ, NoColl θ t1 → NoColl θ t2 → inst θ t1 ≠ inst θ t2) :
    Good V s [(t1, t2)] .fail := by
  intro ar θ hsv
  have := hsv (t1, t2) (by simp)
  simp only [f1, f2] at this
  exact h θ this.1.2 this.2.1.2 this.2.2

theorem good_tag {V : List Nat} {s : Subst} {t1 t2 : Ty}
    (f1 : app s t1 = t1) (f2 : app s t2 = t2) (h1 : tag t1 ≠ 0) (h2 : tag t2 ≠ 0)
    (h : tag t1 ≠ tag t2) : Good V s [(t1, t2)] .fail := by
  apply good_clash f1 f2
  intro θ _ _ he
  apply h
  rw [← tag_inst θ h1, ← tag_inst θ h2, he]

end Verif.Unify
