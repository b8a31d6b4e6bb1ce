import Verif.Cast.Cast

/-! Castability is reflexive and, for well-formed types, transitive. -/
namespace Verif.Cast
open Verif.Ty Verif.Mro

mutual
theorem cast_refl {E : Env} (hE : EnvOk E) : ∀ {t : Ty}, Wf E t → Castable E t t
  | .uni _, h => by simp [Wf] at h
  | .wild, h => by simp [Wf] at h
  | .var v, _ => ⟨1, by simp [castable, castStep]⟩
  | .con c a, h => by
    rw [cast_con hE h h]
    have hw := h
    simp only [Wf] at hw
    by_cases hc : c ∈ E.cov
    · exact Or.inl ⟨rfl, hc, cast_refls hE hw.2.2⟩
    · exact Or.inr ⟨fun h => hc h.2, List.mem_cons_self⟩
  | .fn a b c d, h => by
    simp only [Wf] at h
    exact cast_fn (cast_refl hE h.1) (cast_refl hE h.2.1) (cast_refl hE h.2.2.1) (cast_refl hE h.2.2.2)
  | .tup a b, h => by
    simp only [Wf] at h
    exact cast_tup (cast_refl hE h.1) (cast_refl hE h.2)
  | .opt t, h => by
    simp only [Wf] at h
    exact cast_opt (cast_refl hE h.1)
  | .none_, _ => ⟨1, by simp [castable, castStep]⟩
  | .nil _, _ => ⟨1, by simp [castable, castStep]⟩
  | .row _ _ t r, h => by
    simp only [Wf] at h
    exact cast_row (cast_refl hE h.1) (cast_refl hE h.2)
  | .star _ r, h => by
    simp only [Wf] at h
    exact cast_star (cast_refl hE h)
  | .fx f, _ => ⟨1, by cases f <;> simp [castable, castStep, castFX]⟩
theorem cast_refls {E : Env} (hE : EnvOk E) : ∀ {ts : List Ty}, Wfs E ts → List.Forall₂ (Castable E) ts ts
  | [], _ => .nil
  | t :: ts, h => by
    simp only [Wfs] at h
    exact .cons (cast_refl hE h.1) (cast_refls hE h.2)
end

theorem expand_wf {E : Env} {c : Nat} {a : List Ty} (h : Wf E (.con c a)) : expand E c a = none := by
  simp only [Wf] at h
  simp [expand, h.1]

/-- Nothing but a type variable can be used for a type variable. -/
theorem not_cast_var {E : Env} {n : Nat} {t : Ty} {v : Nat} (ht : Wf E t) (hv : ¬ IsVar t) :
    castable E n t (.var v) = false := by
  cases n with
  | zero => rfl
  | succ n =>
    cases t <;> simp only [castable, castStep]
    case var => exact absurd trivial hv
    case con c a => simp [expand_wf ht, test]
    case wild => simp [Wf] at ht

theorem bound_wf {E : Env} (hE : EnvOk E) {v : Nat} {t : Ty} (h : boundTy E v = some t) :
    Wf E t ∧ ∃ c a, t = .con c a := by
  unfold boundTy at h
  cases hb : E.bound v with
  | none => rw [hb] at h; cases h
  | some c =>
    rw [hb] at h
    cases h
    exact ⟨hE.bounds v c hb, _, _, rfl⟩

/-- A type variable can be used for what its bound can be used for. -/
theorem cast_var {E : Env} (hE : EnvOk E) {v : Nat} {t t2 : Ty} (hb : boundTy E v = some t) (h2 : Wf E t2)
    (h : Castable E t t2) : Castable E (.var v) t2 := by
  obtain ⟨hw, c, a, rfl⟩ := bound_wf hE hb
  obtain ⟨n, h⟩ := h
  refine ⟨n + 1, ?_⟩
  simp only [castable]
  cases t2 <;> simp only [castStep, hb, test]
  all_goals first
    | exact h
    | (rw [expand_wf h2]; exact h)
    | (rw [not_cast_var hw (fun x => x)] at h; cases h)

theorem cast_var_inv {E : Env} {v : Nat} {t2 : Ty} {n : Nat} (h2 : Wf E t2)
    (h : castable E (n + 1) (.var v) t2 = true) :
    t2 = .var v ∨ ∃ t, boundTy E v = some t ∧ castable E n t t2 = true := by
  have key : ∀ {t2 : Ty}, test (fun t1' => castable E n t1' t2) (boundTy E v) = true →
      ∃ t, boundTy E v = some t ∧ castable E n t t2 = true := by
    intro t2 h
    cases hb : boundTy E v with
    | none => rw [hb] at h; cases h
    | some t => rw [hb] at h; exact ⟨t, rfl, h⟩
  simp only [castable] at h
  cases t2 <;> simp only [castStep] at h
  case wild => simp [Wf] at h2
  case con c a => rw [expand_wf h2] at h; exact Or.inr (key h)
  case var w =>
    by_cases hv : v = w
    · subst hv; exact Or.inl rfl
    · rw [if_neg hv] at h; exact Or.inr (key h)
  all_goals exact Or.inr (key h)

theorem cast_opt_inv {E : Env} {a t2 : Ty} {n : Nat} (h2 : Wf E t2)
    (h : castable E (n + 1) (.opt a) t2 = true) : ∃ b, t2 = .opt b ∧ castable E n a b = true := by
  simp only [castable] at h
  cases t2 <;> simp only [castStep] at h
  case wild => simp [Wf] at h2
  case con c a => rw [expand_wf h2] at h; cases h
  case opt b => exact ⟨b, rfl, h⟩
  all_goals cases h

/-- Whatever is not a type variable or an option can be used for an option if it can be used for the
type below the option. -/
theorem cast_into_opt {E : Env} {t b : Ty} (ht : Wf E t) (hv : ¬ IsVar t) (ho : ¬ Ty.IsOpt t)
    (h : Castable E t b) : Castable E t (.opt b) := by
  obtain ⟨n, h⟩ := h
  refine ⟨n + 1, ?_⟩
  simp only [castable]
  cases t <;> simp only [castStep]
  case var => exact absurd trivial hv
  case opt => exact absurd trivial ho
  case con c a => rw [expand_wf ht]; exact h
  all_goals exact h

theorem cast_into_opt_inv {E : Env} {t b : Ty} {n : Nat} (ht : Wf E t) (hv : ¬ IsVar t) (ho : ¬ Ty.IsOpt t)
    (h : castable E (n + 1) t (.opt b) = true) : t = .none_ ∨ castable E n t b = true := by
  simp only [castable] at h
  cases t <;> simp only [castStep] at h
  case var => exact absurd trivial hv
  case opt => exact absurd trivial ho
  case con c a => rw [expand_wf ht] at h; exact Or.inr h
  case none_ => exact Or.inl rfl
  case wild => simp [Wf] at ht
  all_goals exact Or.inr h

theorem cast_con_inv {E : Env} (hE : EnvOk E) {c1 c2 : Nat} {a1 a2 : List Ty} {n : Nat} (h1 : Wf E (.con c1 a1))
    (h2 : Wf E (.con c2 a2)) (h : castable E (n + 1) (.con c1 a1) (.con c2 a2) = true) :
    (c1 = c2 ∧ c1 ∈ E.cov ∧ List.Forall₂ (fun t u => castable E n t u = true) a1 a2) ∨
      (¬ (c1 = c2 ∧ c1 ∈ E.cov) ∧ (⟨c2, a2⟩ : Con) ∈ (⟨c1, a1⟩ : Con) :: anc E ⟨c1, a1⟩) := by
  rcases (cast_con hE h1 h2).1 ⟨_, h⟩ with ⟨rfl, hc, hf⟩ | h'
  · left
    refine ⟨rfl, hc, ?_⟩
    simp only [castable, castStep, hc, and_self, if_true] at h
    exact (allZip_iff hf.length_eq).1 h
  · exact Or.inr h'

theorem anc_args {E : Env} (hE : EnvOk E) (hC : CovOk E) {c : Nat} {a a' : List Ty} (h : Wf E (.con c a))
    (h' : Wf E (.con c a')) (hc : c ∈ E.cov) : anc E ⟨c, a⟩ = anc E ⟨c, a'⟩ := by
  obtain ⟨i, hi, _, gi, hf⟩ := findCon_known (built_good hE.built) (wf_con h)
  obtain ⟨j, hj, _, _, hf'⟩ := findCon_known (built_good hE.built) (wf_con h')
  simp only at hi hj hf hf'
  rw [hi] at hj
  cases hj
  simp only [anc, hf, hf', List.map_map]
  apply List.map_congr_left
  intro e he
  have := hC.const c i hi hc e he
  simp only [Function.comp, substEntry, substCon, this, Ty.vsubsts]

theorem anc_cov {E : Env} (hE : EnvOk E) (hC : CovOk E) {c : Nat} {a : List Ty} (h : Wf E (.con c a)) :
    ∀ c' ∈ anc E ⟨c, a⟩, c'.name ∉ E.cov := by
  obtain ⟨i, hi, _, gi, hf⟩ := findCon_known (built_good hE.built) (wf_con h)
  intro c' hc'
  simp only [anc, hf, List.map_map] at hc'
  obtain ⟨e, he, rfl⟩ := List.mem_map.1 hc'
  exact hC.leaf _ i hi e he

theorem forall2_trans {R S Q : Ty → Ty → Prop} : ∀ {as bs cs : List Ty},
    (∀ a ∈ as, ∀ b ∈ bs, ∀ c ∈ cs, R a b → S b c → Q a c) → List.Forall₂ R as bs → List.Forall₂ S bs cs →
    List.Forall₂ Q as cs
  | [], [], [], _, _, _ => .nil
  | a :: as, b :: bs, c :: cs, h, .cons h1 h2, .cons h3 h4 =>
    .cons (h a List.mem_cons_self b List.mem_cons_self c List.mem_cons_self h1 h3)
      (forall2_trans (fun a ha b hb c hc => h a (List.mem_cons_of_mem _ ha) b (List.mem_cons_of_mem _ hb) c
        (List.mem_cons_of_mem _ hc)) h2 h4)

/-- The transitivity of castability, to given depths. -/
theorem cast_trans_aux {E : Env} (hE : EnvOk E) (hC : CovOk E) : ∀ N n m, n + m ≤ N → ∀ t1 t2 t3, Wf E t1 →
    Wf E t2 → Wf E t3 → castable E n t1 t2 = true → castable E m t2 t3 = true → Castable E t1 t3 := by
  intro N
  induction N with
  | zero =>
    intro n m hN t1 t2 t3 _ _ _ h
    obtain rfl : n = 0 := by omega
    simp [castable] at h
  | succ N ih =>
    intro n m hN t1 t2 t3 w1 w2 w3 h h'
    cases n with
    | zero => simp [castable] at h
    | succ n =>
    cases m with
    | zero => simp [castable] at h'
    | succ m =>
    -- a type variable on the left
    by_cases hv : IsVar t1
    · cases t1 <;> first | exact absurd hv (fun x => x) | skip
      rename_i v
      rcases cast_var_inv w2 h with rfl | ⟨t, hb, ht⟩
      · exact ⟨_, h'⟩
      · exact cast_var hE hb w3 (ih n (m + 1) (by omega) t t2 t3 (bound_wf hE hb).1 w2 w3 ht h')
    -- a type variable in the middle
    by_cases hv2 : IsVar t2
    · cases t2 <;> first | exact absurd hv2 (fun x => x) | skip
      rw [not_cast_var w1 hv] at h
      cases h
    -- an option on the left
    by_cases ho : Ty.IsOpt t1
    · cases t1 <;> first | exact absurd ho (fun x => x) | skip
      rename_i a
      obtain ⟨b, rfl, hb⟩ := cast_opt_inv w2 h
      obtain ⟨c, rfl, hc⟩ := cast_opt_inv w3 h'
      simp only [Wf] at w1 w2 w3
      exact cast_opt (ih n m (by omega) a b c w1.1 w2.1 w3.1 hb hc)
    -- an option in the middle
    by_cases ho2 : Ty.IsOpt t2
    · cases t2 <;> first | exact absurd ho2 (fun x => x) | skip
      rename_i b
      obtain ⟨c, rfl, hc⟩ := cast_opt_inv w3 h'
      rcases cast_into_opt_inv w1 hv ho h with rfl | hb
      · exact ⟨1, by simp [castable, castStep]⟩
      · simp only [Wf] at w2 w3
        exact cast_into_opt w1 hv ho (ih n m (by omega) t1 b c w1 w2.1 w3.1 hb hc)
    -- an option on the right
    by_cases ho3 : Ty.IsOpt t3
    · cases t3 <;> first | exact absurd ho3 (fun x => x) | skip
      rename_i c
      rcases cast_into_opt_inv w2 hv2 ho2 h' with rfl | hc
      · have : t1 = .none_ := by
          simp only [castable] at h
          cases t1 <;> simp only [castStep] at h
          case var => exact absurd trivial hv
          case con => rw [expand_wf w1] at h; cases h
          case wild => simp [Wf] at w1
          all_goals first | rfl | cases h
        subst this
        exact ⟨1, by simp [castable, castStep]⟩
      · simp only [Wf] at w3
        exact cast_into_opt w1 hv ho (ih (n + 1) m (by omega) t1 t2 c w1 w2 w3.1 h hc)
    -- three types of the same form
    cases t1 with
    | uni => simp [Wf] at w1
    | wild => simp [Wf] at w1
    | var => exact absurd trivial hv
    | opt => exact absurd trivial ho
    | con c1 a1 =>
      cases t2 with
      | con c2 a2 =>
        cases t3 with
        | con c3 a3 =>
          have w1' := w1
          have w2' := w2
          have w3' := w3
          simp only [Wf] at w1' w2' w3'
          rcases cast_con_inv hE w1 w2 h with ⟨rfl, hc, hf⟩ | ⟨hn, hm⟩
          · rcases cast_con_inv hE w2 w3 h' with ⟨rfl, _, hf'⟩ | ⟨hn', hm'⟩
            · rw [cast_con hE w1 w3]
              refine Or.inl ⟨rfl, hc, ?_⟩
              exact forall2_trans (fun a ha b hb c hc' h1 h2 => ih n m (by omega) a b c
                (wfs_mem w1'.2.2 a ha) (wfs_mem w2'.2.2 b hb) (wfs_mem w3'.2.2 c hc') h1 h2) hf hf'
            · rw [cast_con hE w1 w3]
              refine Or.inr ⟨hn', ?_⟩
              rcases List.mem_cons.1 hm' with heq | hm'
              · cases heq; exact absurd ⟨rfl, hc⟩ hn'
              · rw [anc_args hE hC w2 w1 hc] at hm'
                exact List.mem_cons_of_mem _ hm'
          · rcases cast_con_inv hE w2 w3 h' with ⟨rfl, hc, _⟩ | ⟨hn', hm'⟩
            · rcases List.mem_cons.1 hm with heq | hm
              · cases heq; exact absurd ⟨rfl, hc⟩ hn
              · exact absurd hc (anc_cov hE hC w1 _ hm)
            · have hm3 : (⟨c3, a3⟩ : Con) ∈ (⟨c1, a1⟩ : Con) :: anc E ⟨c1, a1⟩ := by
                rcases List.mem_cons.1 hm with heq | hm
                · cases heq; exact hm'
                · rcases List.mem_cons.1 hm' with heq | hm'
                  · rw [heq]; exact List.mem_cons_of_mem _ hm
                  · exact List.mem_cons_of_mem _ ((anc_facts hE w1).2 _ hm _ hm')
              by_cases hcc : c1 = c3 ∧ c1 ∈ E.cov
              · obtain ⟨rfl, _⟩ := hcc
                have hnd := (anc_facts hE w1).1
                rcases List.mem_cons.1 hm3 with heq | hm3
                · cases heq; exact cast_refl hE w1
                · simp only [List.map_cons, List.nodup_cons] at hnd
                  exact absurd (List.mem_map.2 ⟨_, hm3, rfl⟩) hnd.1
              · rw [cast_con hE w1 w3]
                exact Or.inr ⟨hcc, hm3⟩
        | opt => exact absurd trivial ho3
        | wild => simp [Wf] at w3
        | _ => simp [castable, castStep, expand_wf w2, test] at h'
      | var => exact absurd trivial hv2
      | opt => exact absurd trivial ho2
      | wild => simp [Wf] at w2
      | _ => simp [castable, castStep, expand_wf w1, test] at h
    | fn e1 p1 k1 r1 =>
      cases t2 with
      | fn e2 p2 k2 r2 =>
        cases t3 with
        | fn e3 p3 k3 r3 =>
          simp only [Wf] at w1 w2 w3
          simp only [castable, castStep, Bool.and_eq_true] at h h'
          exact cast_fn (ih n m (by omega) _ _ _ w1.1 w2.1 w3.1 h.1.1.1 h'.1.1.1)
            (ih m n (by omega) _ _ _ w3.2.1 w2.2.1 w1.2.1 h'.1.1.2 h.1.1.2)
            (ih m n (by omega) _ _ _ w3.2.2.1 w2.2.2.1 w1.2.2.1 h'.1.2 h.1.2)
            (ih n m (by omega) _ _ _ w1.2.2.2 w2.2.2.2 w3.2.2.2 h.2 h'.2)
        | con => simp [castable, castStep, expand_wf w3, test] at h'
        | opt => exact absurd trivial ho3
        | wild => simp [Wf] at w3
        | _ => simp [castable, castStep] at h'
      | con => simp [castable, castStep, expand_wf w2, test] at h
      | var => exact absurd trivial hv2
      | opt => exact absurd trivial ho2
      | wild => simp [Wf] at w2
      | _ => simp [castable, castStep] at h
    | tup p1 k1 =>
      cases t2 with
      | tup p2 k2 =>
        cases t3 with
        | tup p3 k3 =>
          simp only [Wf] at w1 w2 w3
          simp only [castable, castStep, Bool.and_eq_true] at h h'
          exact cast_tup (ih n m (by omega) _ _ _ w1.1 w2.1 w3.1 h.1 h'.1)
            (ih n m (by omega) _ _ _ w1.2 w2.2 w3.2 h.2 h'.2)
        | con => simp [castable, castStep, expand_wf w3, test] at h'
        | opt => exact absurd trivial ho3
        | wild => simp [Wf] at w3
        | _ => simp [castable, castStep] at h'
      | con => simp [castable, castStep, expand_wf w2, test] at h
      | var => exact absurd trivial hv2
      | opt => exact absurd trivial ho2
      | wild => simp [Wf] at w2
      | _ => simp [castable, castStep] at h
    | none_ =>
      cases t2 with
      | none_ => exact ⟨_, h'⟩
      | con => simp [castable, castStep, expand_wf w2, test] at h
      | var => exact absurd trivial hv2
      | opt => exact absurd trivial ho2
      | wild => simp [Wf] at w2
      | _ => simp [castable, castStep] at h
    | nil k =>
      cases t2 with
      | nil k2 =>
        simp only [castable, castStep, decide_eq_true_eq] at h
        subst h
        exact ⟨_, h'⟩
      | con => simp [castable, castStep, expand_wf w2, test] at h
      | var => exact absurd trivial hv2
      | opt => exact absurd trivial ho2
      | wild => simp [Wf] at w2
      | _ => simp [castable, castStep] at h
    | row k1 n1 a1 r1 =>
      cases t2 with
      | row k2 n2 a2 r2 =>
        cases t3 with
        | row k3 n3 a3 r3 =>
          simp only [Wf] at w1 w2 w3
          simp only [castable, castStep, Bool.and_eq_true, decide_eq_true_eq] at h h'
          obtain ⟨⟨⟨rfl, rfl⟩, h1⟩, h2⟩ := h
          obtain ⟨⟨⟨rfl, rfl⟩, h3⟩, h4⟩ := h'
          exact cast_row (ih n m (by omega) _ _ _ w1.1 w2.1 w3.1 h1 h3)
            (ih n m (by omega) _ _ _ w1.2 w2.2 w3.2 h2 h4)
        | con => simp [castable, castStep, expand_wf w3, test] at h'
        | opt => exact absurd trivial ho3
        | wild => simp [Wf] at w3
        | _ => simp [castable, castStep] at h'
      | con => simp [castable, castStep, expand_wf w2, test] at h
      | var => exact absurd trivial hv2
      | opt => exact absurd trivial ho2
      | wild => simp [Wf] at w2
      | _ => simp [castable, castStep] at h
    | star k1 r1 =>
      cases t2 with
      | star k2 r2 =>
        cases t3 with
        | star k3 r3 =>
          simp only [Wf] at w1 w2 w3
          simp only [castable, castStep, Bool.and_eq_true, decide_eq_true_eq] at h h'
          obtain ⟨rfl, h1⟩ := h
          obtain ⟨rfl, h2⟩ := h'
          exact cast_star (ih n m (by omega) _ _ _ w1 w2 w3 h1 h2)
        | con => simp [castable, castStep, expand_wf w3, test] at h'
        | opt => exact absurd trivial ho3
        | wild => simp [Wf] at w3
        | _ => simp [castable, castStep] at h'
      | con => simp [castable, castStep, expand_wf w2, test] at h
      | var => exact absurd trivial hv2
      | opt => exact absurd trivial ho2
      | wild => simp [Wf] at w2
      | _ => simp [castable, castStep] at h
    | fx f1 =>
      cases t2 with
      | fx f2 =>
        cases t3 with
        | fx f3 =>
          simp only [castable, castStep] at h h'
          exact ⟨1, by simp only [castable, castStep]; exact castFX_trans h h'⟩
        | con => simp [castable, castStep, expand_wf w3, test] at h'
        | opt => exact absurd trivial ho3
        | wild => simp [Wf] at w3
        | _ => simp [castable, castStep] at h'
      | con => simp [castable, castStep, expand_wf w2, test] at h
      | var => exact absurd trivial hv2
      | opt => exact absurd trivial ho2
      | wild => simp [Wf] at w2
      | _ => simp [castable, castStep] at h

end Verif.Cast
