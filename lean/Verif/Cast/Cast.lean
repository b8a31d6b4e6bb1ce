import Verif.Cast.Spec
import Verif.Mro.Props

/-! Facts about `castable`. -/
namespace Verif.Cast
open Verif.Ty Verif.Mro

theorem test_mono {f g : Ty → Bool} (h : ∀ t, f t = true → g t = true) {o : Option Ty}
    (ho : test f o = true) : test g o = true := by
  cases o with
  | none => exact ho
  | some t => exact h t ho

theorem allZip_mono {f g : Ty → Ty → Bool} (h : ∀ t u, f t u = true → g t u = true) :
    ∀ ts us, allZip f ts us = true → allZip g ts us = true
  | [], _, _ => by simp [allZip]
  | _ :: _, [], _ => by simp [allZip]
  | t :: ts, u :: us, ho => by
    simp only [allZip, Bool.and_eq_true] at ho ⊢
    exact ⟨h _ _ ho.1, allZip_mono h ts us ho.2⟩

theorem castStep_mono {E : Env} {f g : Ty → Ty → Bool} (ih : ∀ t u, f t u = true → g t u = true) :
    ∀ t1 t2, castStep E f t1 t2 = true → castStep E g t1 t2 = true := by
  intro t1 t2 h
  cases t1 <;> cases t2 <;> simp only [castStep] at h ⊢ <;>
    first
    | contradiction
    | exact h
    | exact ih _ _ h
    | exact test_mono (fun t ht => ih _ _ ht) h
    | (simp only [Bool.and_eq_true] at h ⊢
       first
       | exact ⟨⟨⟨ih _ _ h.1.1.1, ih _ _ h.1.1.2⟩, ih _ _ h.1.2⟩, ih _ _ h.2⟩
       | exact ⟨⟨h.1.1, ih _ _ h.1.2⟩, ih _ _ h.2⟩
       | exact ⟨h.1, ih _ _ h.2⟩
       | exact ⟨ih _ _ h.1, ih _ _ h.2⟩)
    | (split at h
       · rename_i hx
         try rw [if_pos hx]
         try simp only [hx]
         all_goals first
         | exact h
         | exact ih _ _ h
         | exact allZip_mono ih _ _ h
       · rename_i hx
         try rw [if_neg hx]
         try simp only [hx]
         all_goals first
         | exact h
         | exact ih _ _ h
         | exact test_mono (fun t ht => ih _ _ ht) h
         | (split at h
            · exact h
            · split at h
              · exact ih _ _ h
              · exact test_mono (fun t ht => ih _ _ ht) h))

theorem castable_succ (E : Env) : ∀ n t1 t2, castable E n t1 t2 = true → castable E (n + 1) t1 t2 = true := by
  intro n
  induction n with
  | zero => intro t1 t2 h; simp [castable] at h
  | succ n ih => exact castStep_mono ih

theorem castable_mono {E : Env} {n m : Nat} (h : n ≤ m) {t1 t2 : Ty} (hc : castable E n t1 t2 = true) :
    castable E m t1 t2 = true := by
  induction h with
  | refl => exact hc
  | step _ ih => exact castable_succ E _ _ _ ih

theorem allZip_iff {f : Ty → Ty → Bool} : ∀ {ts us : List Ty}, ts.length = us.length →
    (allZip f ts us = true ↔ List.Forall₂ (fun t u => f t u = true) ts us)
  | [], [], _ => by simp [allZip]
  | t :: ts, u :: us, h => by
    simp only [allZip, Bool.and_eq_true, List.forall₂_cons]
    rw [allZip_iff (by simpa using h)]
  | [], _ :: _, h => by simp at h
  | _ :: _, [], h => by simp at h

/-! ### `Castable`, clause by clause -/

theorem castable_le {E : Env} {t1 t2 : Ty} {n : Nat} (h : castable E n t1 t2 = true) : Castable E t1 t2 := ⟨n, h⟩

/-- Castability unfolds by one step. -/
theorem castable_step {E : Env} {t1 t2 : Ty} :
    Castable E t1 t2 ↔ ∃ n, castStep E (castable E n) t1 t2 = true := by
  constructor
  · rintro ⟨n, h⟩
    cases n with
    | zero => simp [castable] at h
    | succ n => exact ⟨n, h⟩
  · rintro ⟨n, h⟩
    exact ⟨n + 1, h⟩

theorem cast_join {E : Env} {a b c d : Ty} (h1 : Castable E a b) (h2 : Castable E c d) :
    ∃ n, castable E n a b = true ∧ castable E n c d = true := by
  obtain ⟨n, h1⟩ := h1
  obtain ⟨m, h2⟩ := h2
  exact ⟨max n m, castable_mono (Nat.le_max_left _ _) h1, castable_mono (Nat.le_max_right _ _) h2⟩

theorem cast_fn {E : Env} {a b c d a' b' c' d' : Ty} (h1 : Castable E a a') (h2 : Castable E b' b)
    (h3 : Castable E c' c) (h4 : Castable E d d') : Castable E (.fn a b c d) (.fn a' b' c' d') := by
  obtain ⟨n, h1, h2⟩ := cast_join h1 h2
  obtain ⟨m, h3, h4⟩ := cast_join h3 h4
  refine ⟨max n m + 1, ?_⟩
  simp only [castable, castStep, Bool.and_eq_true]
  exact ⟨⟨⟨castable_mono (Nat.le_max_left _ _) h1, castable_mono (Nat.le_max_left _ _) h2⟩,
    castable_mono (Nat.le_max_right _ _) h3⟩, castable_mono (Nat.le_max_right _ _) h4⟩

theorem cast_tup {E : Env} {a b a' b' : Ty} (h1 : Castable E a a') (h2 : Castable E b b') :
    Castable E (.tup a b) (.tup a' b') := by
  obtain ⟨n, h1, h2⟩ := cast_join h1 h2
  refine ⟨n + 1, ?_⟩
  simp only [castable, castStep, Bool.and_eq_true]
  exact ⟨h1, h2⟩

theorem cast_row {E : Env} {k : RKind} {x : Nat} {a b a' b' : Ty} (h1 : Castable E a a') (h2 : Castable E b b') :
    Castable E (.row k x a b) (.row k x a' b') := by
  obtain ⟨n, h1, h2⟩ := cast_join h1 h2
  refine ⟨n + 1, ?_⟩
  simp only [castable, castStep, Bool.and_eq_true, decide_eq_true_eq]
  exact ⟨⟨⟨trivial, trivial⟩, h1⟩, h2⟩

theorem cast_star {E : Env} {k : RKind} {a a' : Ty} (h : Castable E a a') :
    Castable E (.star k a) (.star k a') := by
  obtain ⟨n, h⟩ := h
  exact ⟨n + 1, by simp only [castable, castStep, Bool.and_eq_true, decide_eq_true_eq]; exact ⟨trivial, h⟩⟩

theorem cast_opt {E : Env} {a b : Ty} (h : Castable E a b) : Castable E (.opt a) (.opt b) := by
  obtain ⟨n, h⟩ := h
  exact ⟨n + 1, by simp only [castable, castStep]; exact h⟩

theorem castFX_trans {a b c : FX} (h1 : castFX a b = true) (h2 : castFX b c = true) : castFX a c = true := by
  revert h1 h2
  cases a <;> cases b <;> cases c <;> decide

/-! ### Ancestors -/

mutual
theorem wf_norm {E : Env} : ∀ {t : Ty}, Wf E t → Ty.Norm t
  | .uni _, _ => trivial
  | .wild, _ => trivial
  | .var _, _ => trivial
  | .con _ ts, h => by
    simp only [Wf] at h
    simp only [Ty.Norm]
    exact wfs_norms h.2.2
  | .fn a b c d, h => by
    simp only [Wf] at h
    simp only [Ty.Norm]
    exact ⟨wf_norm h.1, wf_norm h.2.1, wf_norm h.2.2.1, wf_norm h.2.2.2⟩
  | .tup a b, h => by
    simp only [Wf] at h
    simp only [Ty.Norm]
    exact ⟨wf_norm h.1, wf_norm h.2⟩
  | .opt t, h => by
    simp only [Wf] at h
    simp only [Ty.Norm]
    exact ⟨wf_norm h.1, h.2⟩
  | .none_, _ => trivial
  | .nil _, _ => trivial
  | .row _ _ t r, h => by
    simp only [Wf] at h
    simp only [Ty.Norm]
    exact ⟨wf_norm h.1, wf_norm h.2⟩
  | .star _ r, h => by
    simp only [Wf] at h
    simp only [Ty.Norm]
    exact wf_norm h
  | .fx _, _ => trivial
theorem wfs_norms {E : Env} : ∀ {ts : List Ty}, Wfs E ts → Ty.Norms ts
  | [], _ => trivial
  | t :: ts, h => by
    simp only [Wfs] at h
    simp only [Ty.Norms]
    exact ⟨wf_norm h.1, wfs_norms h.2⟩
end

theorem wfs_mem {E : Env} {ts : List Ty} (h : Wfs E ts) : ∀ t ∈ ts, Wf E t := by
  induction ts with
  | nil => intro t ht; simp at ht
  | cons u us ih =>
    simp only [Wfs] at h
    intro t ht
    rcases List.mem_cons.1 ht with rfl | ht
    · exact h.1
    · exact ih h.2 t ht

theorem wf_con {E : Env} {n : Nat} {ts : List Ty} (h : Wf E (.con n ts)) :
    WfCon E.cls (Ty.vfrees ts) ⟨n, ts⟩ := by
  simp only [Wf] at h
  refine ⟨h.2.1, ?_, ?_⟩
  · intro t ht v hv
    exact Ty.mem_vfrees.2 ⟨t, ht, hv⟩
  · exact fun t ht => wf_norm (wfs_mem h.2.2 t ht)

theorem anc_facts {E : Env} (hE : EnvOk E) {n : Nat} {ts : List Ty} (h : Wf E (.con n ts)) :
    (((⟨n, ts⟩ : Con) :: anc E ⟨n, ts⟩).map Con.name).Nodup ∧
    ∀ c ∈ anc E ⟨n, ts⟩, ∀ c' ∈ anc E c, c' ∈ anc E ⟨n, ts⟩ := by
  obtain ⟨es, he, hn, _, _, hs⟩ := C81_ancestors hE.built (wf_con h)
  have ha : anc E ⟨n, ts⟩ = cons es := by simp only [anc, he]; rfl
  rw [ha]
  refine ⟨hn, ?_⟩
  intro c hc c' hc'
  have := hs c hc
  refine this.subset ?_
  unfold orderOf
  unfold anc at hc'
  cases hf : findCon E.cls c with
  | error x => rw [hf] at hc'; simp at hc'
  | ok es' => rw [hf] at hc'; exact List.mem_cons_of_mem _ hc'

theorem find_nodup : ∀ {cs : List Con} {c : Con}, (cs.map Con.name).Nodup →
    (cs.find? (fun c' => c'.name == c.name) = some c ↔ c ∈ cs)
  | [], c, _ => by simp
  | d :: cs, c, h => by
    simp only [List.map_cons, List.nodup_cons] at h
    by_cases hd : d.name = c.name
    · simp only [List.find?_cons, hd, beq_self_eq_true, Option.some.injEq, List.mem_cons]
      constructor
      · rintro rfl; exact Or.inl rfl
      · rintro (rfl | hc)
        · rfl
        · exact absurd (List.mem_map.2 ⟨c, hc, hd.symm⟩) h.1
    · have : (d.name == c.name) = false := by simpa using hd
      simp only [List.find?_cons, this, List.mem_cons]
      rw [find_nodup h.2]
      constructor
      · exact Or.inr
      · rintro (rfl | hc)
        · exact absurd rfl hd
        · exact hc

theorem findAncestor_iff {E : Env} (hE : EnvOk E) {n : Nat} {ts : List Ty} (h : Wf E (.con n ts)) {c : Con} :
    findAncestor E ⟨n, ts⟩ c.name = some c ↔ c ∈ (⟨n, ts⟩ : Con) :: anc E ⟨n, ts⟩ :=
  find_nodup (anc_facts hE h).1

theorem findAncestor_name {E : Env} {c c' : Con} {n : Nat} (h : findAncestor E c n = some c') : c'.name = n := by
  have := List.find?_some h
  simpa using this

/-- Castability between classes. -/
theorem cast_con {E : Env} (hE : EnvOk E) {c1 c2 : Nat} {a1 a2 : List Ty} (h1 : Wf E (.con c1 a1))
    (h2 : Wf E (.con c2 a2)) :
    Castable E (.con c1 a1) (.con c2 a2) ↔
      (c1 = c2 ∧ c1 ∈ E.cov ∧ List.Forall₂ (Castable E) a1 a2) ∨
      (¬ (c1 = c2 ∧ c1 ∈ E.cov) ∧ (⟨c2, a2⟩ : Con) ∈ (⟨c1, a1⟩ : Con) :: anc E ⟨c1, a1⟩) := by
  have hx1 : expand E c1 a1 = none := by simp only [Wf] at h1; simp [expand, h1.1]
  have hx2 : expand E c2 a2 = none := by simp only [Wf] at h2; simp [expand, h2.1]
  rw [castable_step]
  simp only [castStep]
  by_cases hc : c1 = c2 ∧ c1 ∈ E.cov
  · obtain ⟨rfl, hcov⟩ := hc
    have hlen : a1.length = a2.length := by
      simp only [Wf] at h1 h2
      obtain ⟨i, hi, hl⟩ := h1.2.1
      obtain ⟨j, hj, hm⟩ := h2.2.1
      rw [hi] at hj
      cases hj
      omega
    simp only [hcov, and_self, if_true, not_true, false_and, or_false, true_and]
    constructor
    · rintro ⟨n, h⟩
      exact ((allZip_iff hlen).1 h).imp (fun _ _ h => ⟨n, h⟩)
    · intro h
      clear h1 h2 hx1 hx2
      have : ∃ n, List.Forall₂ (fun t u => castable E n t u = true) a1 a2 := by
        induction h with
        | nil => exact ⟨0, .nil⟩
        | cons hab _ ih =>
          obtain ⟨n, hab⟩ := hab
          obtain ⟨m, ih⟩ := ih (by simpa using hlen)
          exact ⟨max n m, .cons (castable_mono (Nat.le_max_left _ _) hab)
            (ih.imp (fun _ _ h => castable_mono (Nat.le_max_right _ _) h))⟩
      obtain ⟨n, hn⟩ := this
      exact ⟨n, (allZip_iff hlen).2 hn⟩
  · simp only [hc, if_false, not_false_eq_true, true_and]
    have hor : ∀ {P : Prop}, (c1 = c2 ∧ c1 ∈ E.cov ∧ P) ∨ ((⟨c2, a2⟩ : Con) ∈ (⟨c1, a1⟩ : Con) :: anc E ⟨c1, a1⟩) ↔
        ((⟨c2, a2⟩ : Con) ∈ (⟨c1, a1⟩ : Con) :: anc E ⟨c1, a1⟩) := by
      intro P
      constructor
      · rintro (h | h)
        · exact absurd ⟨h.1, h.2.1⟩ hc
        · exact h
      · exact Or.inr
    rw [hor, ← findAncestor_iff hE h1]
    cases hf : findAncestor E ⟨c1, a1⟩ c2 with
    | some c' =>
      simp only [decide_eq_true_eq, exists_const, Option.some.injEq]
      have hn := findAncestor_name hf
      obtain ⟨cn, ca⟩ := c'
      simp only at hn
      subst hn
      constructor
      · rintro rfl; rfl
      · intro h; cases h; rfl
    | none => simp [hx1, hx2, test]

end Verif.Cast
