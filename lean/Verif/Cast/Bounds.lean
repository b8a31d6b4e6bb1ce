import Verif.Cast.Classes

/-! `lub` and `glb` of simple types. -/
namespace Verif.Cast
open Verif.Ty Verif.Mro

/-- Neither an option nor `None`. -/
def Base (t : Ty) : Prop := ¬ Ty.IsOpt t ∧ t ≠ .none_

theorem simple_wf {E : Env} : ∀ {t : Ty} {up : Bool}, Simple E up t → Wf E t
  | .uni _, _, h => by simp [Simple] at h
  | .wild, _, h => by simp [Simple] at h
  | .var _, _, _ => by simp [Wf]
  | .con n ts, _, h => by
    simp only [Simple] at h
    obtain ⟨rfl, ha, i, hi, ht, hs⟩ := h
    exact known_wf ⟨ha, i, hi, ht, hs⟩
  | .fn e p k t, _, h => by
    simp only [Simple] at h
    obtain ⟨⟨f, rfl⟩, hp, rfl, ht⟩ := h
    simp only [Wf, true_and]
    exact ⟨simple_wf hp, simple_wf ht⟩
  | .tup p k, _, h => by
    simp only [Simple] at h
    obtain ⟨hp, rfl⟩ := h
    simp only [Wf, and_true]
    exact simple_wf hp
  | .opt t, _, h => by
    simp only [Simple] at h
    simp only [Wf]
    exact ⟨simple_wf h.1, h.2.1⟩
  | .none_, _, _ => by simp [Wf]
  | .nil _, _, _ => by simp [Wf]
  | .row _ _ t r, _, h => by
    simp only [Simple] at h
    simp only [Wf]
    exact ⟨simple_wf h.2.2.1, simple_wf h.2.2.2⟩
  | .star _ r, _, h => by
    simp only [Simple] at h
    simp only [Wf]
    exact simple_wf h
  | .fx _, _, _ => by simp [Wf]

theorem cast_opt_iff {E : Env} {a u : Ty} (hu : Wf E u) :
    Castable E (.opt a) u ↔ ∃ b, u = .opt b ∧ Castable E a b := by
  constructor
  · rintro ⟨n, h⟩
    cases n with
    | zero => simp [castable] at h
    | succ n =>
      obtain ⟨b, rfl, h⟩ := cast_opt_inv hu h
      exact ⟨b, rfl, n, h⟩
  · rintro ⟨b, rfl, h⟩
    exact cast_opt h

theorem cast_into_iff {E : Env} {t b : Ty} (ht : Wf E t) (hv : ¬ IsVar t) (hb : Base t) :
    Castable E t (.opt b) ↔ Castable E t b := by
  constructor
  · rintro ⟨n, h⟩
    cases n with
    | zero => simp [castable] at h
    | succ n =>
      rcases cast_into_opt_inv ht hv hb.1 h with h | h
      · exact absurd h hb.2
      · exact ⟨n, h⟩
  · exact cast_into_opt ht hv hb.1

theorem cast_var_iff {E : Env} (hE : EnvOk E) {v : Nat} {u : Ty} (hu : Wf E u) :
    Castable E (.var v) u ↔ u = .var v ∨ ∃ t, boundTy E v = some t ∧ Castable E t u := by
  constructor
  · rintro ⟨n, h⟩
    cases n with
    | zero => simp [castable] at h
    | succ n =>
      rcases cast_var_inv hu h with h | ⟨t, hb, h⟩
      · exact Or.inl h
      · exact Or.inr ⟨t, hb, n, h⟩
  · rintro (rfl | ⟨t, hb, h⟩)
    · exact ⟨1, by simp [castable, castStep]⟩
    · exact cast_var hE hb hu h

theorem cast_to_var {E : Env} {t : Ty} {v : Nat} (ht : Wf E t) (hv : ¬ IsVar t) : ¬ Castable E t (.var v) := by
  rintro ⟨n, h⟩
  rw [not_cast_var ht hv] at h
  cases h

theorem none_le {E : Env} {u : Ty} (hu : Wf E u) : Castable E .none_ u ↔ u = .none_ ∨ Ty.IsOpt u := by
  constructor
  · rw [castable_step]
    rintro ⟨n, h⟩
    cases u <;> simp [castStep, Ty.IsOpt] at h ⊢
    case wild => simp [Wf] at hu
    case con c a => simp [expand_wf hu, test] at h
  · rintro (rfl | h)
    · exact ⟨1, by simp [castable, castStep]⟩
    · cases u <;> simp only [Ty.IsOpt] at h
      exact ⟨1, by simp [castable, castStep]⟩

theorem le_none {E : Env} {t : Ty} (ht : Wf E t) (hv : ¬ IsVar t) : Castable E t .none_ ↔ t = .none_ := by
  constructor
  · rw [castable_step]
    rintro ⟨n, h⟩
    cases t <;> simp [castStep] at h ⊢
    case wild => simp [Wf] at ht
    case var => exact absurd trivial hv
    case con c a => simp [expand_wf ht, test] at h
  · rintro rfl
    exact ⟨1, by simp [castable, castStep]⟩

/-- It is enough that a bound of proper types is least below types that are not options. -/
theorem least_lift {E : Env} {t1 t2 t : Ty} (h1 : Wf E t1) (h2 : Wf E t2) (ht : Wf E t) (b1 : Base t1) (b2 : Base t2)
    (b : Base t) (v1 : ¬ IsVar t1) (v2 : ¬ IsVar t2) (v : ¬ IsVar t)
    (h : ∀ u, Wf E u → ¬ Ty.IsOpt u → Castable E t1 u → Castable E t2 u → Castable E t u) :
    ∀ u, Wf E u → Castable E t1 u → Castable E t2 u → Castable E t u := by
  intro u hu c1 c2
  by_cases ho : Ty.IsOpt u
  · cases u <;> simp only [Ty.IsOpt] at ho
    rename_i u
    simp only [Wf] at hu
    rw [cast_into_iff ht v b]
    exact h u hu.1 hu.2 ((cast_into_iff h1 v1 b1).1 c1) ((cast_into_iff h2 v2 b2).1 c2)
  · exact h u hu ho c1 c2

/-- It is enough that a bound is greatest above types that are not type variables. -/
theorem greatest_lift {E : Env} (hE : EnvOk E) {t1 t2 t : Ty} (h1 : Wf E t1) (h2 : Wf E t2) (ht : Wf E t)
    (v1 : ¬ IsVar t1) (v2 : ¬ IsVar t2)
    (h : ∀ u, Wf E u → ¬ IsVar u → Castable E u t1 → Castable E u t2 → Castable E u t) :
    ∀ u, Wf E u → Castable E u t1 → Castable E u t2 → Castable E u t := by
  intro u hu c1 c2
  by_cases hv : IsVar u
  · cases u <;> simp only [IsVar] at hv
    rename_i w
    rcases (cast_var_iff hE h1).1 c1 with rfl | ⟨s1, hb1, c1⟩
    · exact absurd trivial v1
    · rcases (cast_var_iff hE h2).1 c2 with rfl | ⟨s2, hb2, c2⟩
      · exact absurd trivial v2
      · rw [hb1] at hb2
        cases hb2
        obtain ⟨hw, c, a, rfl⟩ := bound_wf hE hb1
        exact cast_var hE hb1 ht (h _ hw (by simp [IsVar]) c1 c2)
  · exact h u hu hv c1 c2

/-! ### Classes -/

theorem con_le {E : Env} (hE : EnvOk E) (hP : Plain E) {a : Nat} {u : Ty} (ha : Known E a) (hu : Wf E u)
    (ho : ¬ Ty.IsOpt u) (h : Castable E (.con a []) u) : ∃ b, u = .con b [] ∧ Known E b ∧ b ∈ chain E a := by
  have hc := h
  rw [castable_step] at h
  obtain ⟨n, h⟩ := h
  cases u <;> simp [castStep, expand_wf (known_wf ha), test, Ty.IsOpt] at h ho
  case wild => simp [Wf] at hu
  case con b bs =>
    clear h
    rw [cast_con hE (known_wf ha) hu] at hc
    have hbs : bs = [] := by
      rcases hc with ⟨_, _, h⟩ | ⟨_, h⟩
      · cases h; rfl
      · rw [anc_plain ha] at h
        rcases List.mem_cons.1 h with h | h
        · cases h; rfl
        · exact ancOf_args hP _ h
    subst hbs
    have hm : b ∈ chain E a := by
      rcases hc with ⟨rfl, _⟩ | ⟨_, h⟩
      · exact List.mem_cons_self
      · exact (mem_plain hP ha).1 h
    exact ⟨b, rfl, known_anc hE hP ha hm, hm⟩

theorem hasAncestor_iff {E : Env} {a b : Con} :
    hasAncestor E a b = true ↔ b.name ∈ (ancOf E a.name).map Con.name := by
  simp [hasAncestor]

theorem chain_trans {E : Env} (hE : EnvOk E) (hP : Plain E) {a b c : Nat} (ha : Known E a) (hb : b ∈ chain E a)
    (hc : c ∈ chain E b) : c ∈ chain E a :=
  (chain_suffix hE hP _ (Nat.le_refl _) ha hb).subset hc

theorem head_filter {p : Con → Bool} : ∀ {l : List Con} {c : Con}, (l.filter p).head? = some c →
    ∃ l1 l2, l = l1 ++ c :: l2 ∧ p c = true ∧ ∀ d ∈ l1, p d = false
  | [], c, h => by simp at h
  | d :: l, c, h => by
    by_cases hd : p d = true
    · rw [List.filter_cons_of_pos hd] at h
      cases h
      exact ⟨[], l, rfl, hd, by simp⟩
    · rw [List.filter_cons_of_neg hd] at h
      obtain ⟨l1, l2, rfl, hc, hl⟩ := head_filter h
      refine ⟨d :: l1, l2, rfl, hc, ?_⟩
      intro x hx
      rcases List.mem_cons.1 hx with rfl | hx
      · simpa using hd
      · exact hl x hx

/-- The bound of two classes is an ancestor of both, below all their common ancestors. -/
theorem lubCon_ok {E : Env} (hE : EnvOk E) (hP : Plain E) {a b : Nat} {c : Con} (ha : Known E a) (hb : Known E b)
    (h : lubCon E ⟨a, []⟩ ⟨b, []⟩ = some c) :
    c.args = [] ∧ c.name ∈ chain E a ∧ c.name ∈ chain E b ∧
      ∀ d, d ∈ chain E a → d ∈ chain E b → d ∈ chain E c.name := by
  unfold lubCon at h
  split at h
  · rename_i heq
    cases h
    simp only at heq
    subst heq
    exact ⟨rfl, List.mem_cons_self, List.mem_cons_self, fun d h _ => h⟩
  split at h
  · rename_i hab
    cases h
    rw [hasAncestor_iff] at hab
    exact ⟨rfl, List.mem_cons_of_mem _ hab, List.mem_cons_self, fun d _ h => h⟩
  split at h
  · rename_i hba
    cases h
    rw [hasAncestor_iff] at hba
    exact ⟨rfl, List.mem_cons_self, List.mem_cons_of_mem _ hba, fun d h _ => h⟩
  · rename_i hne hab hba
    unfold commonAncestors at h
    rw [anc_plain ha, anc_plain hb] at h
    have hna : ((⟨a, []⟩ : Con) :: ancOf E a).map Con.name = chain E a := rfl
    have hnb : ((⟨b, []⟩ : Con) :: ancOf E b).map Con.name = chain E b := rfl
    obtain ⟨l1, l2, hl, hc, hmin⟩ := head_filter h
    rw [hnb] at hc
    have hcm : c ∈ (⟨a, []⟩ : Con) :: ancOf E a := by rw [hl]; simp
    have hca : c.name ∈ chain E a := by rw [← hna]; exact List.mem_map.2 ⟨c, hcm, rfl⟩
    have hargs : c.args = [] := by
      rcases List.mem_cons.1 hcm with rfl | h
      · rfl
      · exact ancOf_args hP c h
    refine ⟨hargs, hca, by simpa using hc, ?_⟩
    intro d hda hdb
    have hsplit : chain E a = l1.map Con.name ++ c.name :: l2.map Con.name := by
      rw [← hna, hl]; simp
    have hnd := chain_nodup hE ha
    have hsuf := chain_suffix hE hP _ (Nat.le_refl _) ha hca
    obtain ⟨pre, hpre⟩ := hsuf
    have hpre' : pre ++ c.name :: (ancOf E c.name).map Con.name =
        l1.map Con.name ++ c.name :: l2.map Con.name := by
      rw [← hsplit, ← hpre]; rfl
    have hdm : d ∈ c.name :: l2.map Con.name := by
      rw [hsplit, List.mem_append] at hda
      rcases hda with h | h
      · obtain ⟨x, hx, rfl⟩ := List.mem_map.1 h
        have := hmin x hx
        rw [hnb] at this
        simp only [List.contains_eq_mem, decide_eq_false_iff_not] at this
        exact absurd hdb this
      · exact h
    have hl2 : (ancOf E c.name).map Con.name = l2.map Con.name := by
      rw [hsplit] at hnd
      have hnd' : (pre ++ c.name :: (ancOf E c.name).map Con.name).Nodup := by rw [hpre']; exact hnd
      have hn2 : c.name ∉ pre := by
        intro hx
        exact (List.nodup_append.1 hnd').2.2 _ hx _ List.mem_cons_self rfl
      have hn3 : c.name ∉ (ancOf E c.name).map Con.name :=
        (List.nodup_cons.1 (List.nodup_append.1 hnd').2.1).1
      exact ((List.append_cons_inj_of_notMem hn2 hn3).1 hpre').2.2
    unfold chain
    rw [hl2]
    exact hdm

theorem glbCon_ok {E : Env} {a b : Nat} {c : Con} (h : glbCon E ⟨a, []⟩ ⟨b, []⟩ = some c) :
    (c = ⟨a, []⟩ ∧ b ∈ chain E a) ∨ (c = ⟨b, []⟩ ∧ a ∈ chain E b) := by
  unfold glbCon at h
  split at h
  · rename_i heq
    cases h
    simp only at heq
    subst heq
    exact Or.inl ⟨rfl, List.mem_cons_self⟩
  split at h
  · rename_i hab
    cases h
    exact Or.inl ⟨rfl, List.mem_cons_of_mem _ (hasAncestor_iff.1 hab)⟩
  split at h
  · rename_i hba
    cases h
    exact Or.inr ⟨rfl, List.mem_cons_of_mem _ (hasAncestor_iff.1 hba)⟩
  · cases h

end Verif.Cast
