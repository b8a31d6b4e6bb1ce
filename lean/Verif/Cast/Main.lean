import Verif.Cast.LubGlb

/-! The induction on the depth of `lub` and `glb`. -/
namespace Verif.Cast
open Verif.Ty Verif.Mro

variable {E : Env}

theorem bound_simple (hP : Plain E) {v : Nat} {t : Ty} (h : boundTy E v = some t) :
    Simple E true t ∧ Base t ∧ ¬ IsVar t := by
  unfold boundTy at h
  cases hb : E.bound v with
  | none => rw [hb] at h; cases h
  | some c =>
    rw [hb] at h
    cases h
    exact ⟨hP.bounds v c hb, ⟨id, Ty.noConfusion⟩, id⟩

theorem lub_nil {n : Nat} {k : RKind} {t : Ty} (h : lub E n (.nil k) (.nil k) = some t) : t = .nil k := by
  cases n with
  | zero => simp [lub] at h
  | succ n => simpa [lub, lubStep, lubRest, eq_comm] using h

theorem glb_nil {n : Nat} {k : RKind} {t : Ty} (h : glb E n (.nil k) (.nil k) = some t) : t = .nil k := by
  cases n with
  | zero => simp [glb] at h
  | succ n => simpa [glb, glbStep, glbRest, eq_comm] using h

theorem isLub_con (hE : EnvOk E) (hP : Plain E) {a b : Nat} {c : Con} (ha : Known E a) (hb : Known E b)
    (h : lubCon E ⟨a, []⟩ ⟨b, []⟩ = some c) :
    Simple E true (conTy c) ∧ IsLub E (.con a []) (.con b []) (conTy c) := by
  obtain ⟨hargs, hca, hcb, hmin⟩ := lubCon_ok hE hP ha hb h
  have hk := known_anc hE hP ha hca
  have heq : conTy c = .con c.name [] := by simp [conTy, hargs]
  rw [heq]
  refine ⟨by simp only [Simple, true_and]; exact hk, (cast_plain hE hP ha hk).2 hca, (cast_plain hE hP hb hk).2 hcb, ?_⟩
  refine least_lift (known_wf ha) (known_wf hb) (known_wf hk) ⟨id, Ty.noConfusion⟩ ⟨id, Ty.noConfusion⟩
    ⟨id, Ty.noConfusion⟩ id id id ?_
  intro u hu ho c1 c2
  obtain ⟨d, rfl, hkd, hd⟩ := con_le hE hP ha hu ho c1
  obtain ⟨_, heq, _, hd'⟩ := con_le hE hP hb hu ho c2
  cases heq
  exact (cast_plain hE hP hk hkd).2 (hmin d hd hd')

theorem isGlb_con (hE : EnvOk E) (hP : Plain E) {a b : Nat} {c : Con} (ha : Known E a) (hb : Known E b)
    (h : glbCon E ⟨a, []⟩ ⟨b, []⟩ = some c) :
    Simple E false (conTy c) ∧ IsGlb E (.con a []) (.con b []) (conTy c) := by
  rcases glbCon_ok h with ⟨rfl, hc⟩ | ⟨rfl, hc⟩
  · exact ⟨by simp only [conTy, Simple, true_and]; exact ha, cast_refl hE (known_wf ha),
      (cast_plain hE hP ha hb).2 hc, fun _ _ h _ => h⟩
  · exact ⟨by simp only [conTy, Simple, true_and]; exact hb, (cast_plain hE hP hb ha).2 hc,
      cast_refl hE (known_wf hb), fun _ _ _ h => h⟩

theorem isLub_fx (f g : FX) : IsLub E (.fx f) (.fx g) (.fx (luFX f g)) := by
  obtain ⟨h1, h2, h3⟩ := luFX_ok f g
  refine ⟨cast_fx h1, cast_fx h2, ?_⟩
  refine least_lift trivial trivial trivial ⟨id, Ty.noConfusion⟩ ⟨id, Ty.noConfusion⟩
    ⟨id, Ty.noConfusion⟩ id id id ?_
  intro u hu ho c1 c2
  obtain ⟨x, rfl, g1⟩ := fx_le hu ho c1
  obtain ⟨_, heq, g2⟩ := fx_le hu ho c2
  cases heq
  exact cast_fx (h3 x g1 g2)

theorem isGlb_fx (hE : EnvOk E) {f g e : FX} (h : glFX f g = some e) : IsGlb E (.fx f) (.fx g) (.fx e) := by
  obtain ⟨h1, h2, h3⟩ := glFX_ok f g e h
  refine ⟨cast_fx h1, cast_fx h2, ?_⟩
  refine greatest_lift hE trivial trivial trivial id id ?_
  intro u hu hv c1 c2
  obtain ⟨x, rfl, g1⟩ := le_fx hu hv c1
  obtain ⟨_, heq, g2⟩ := le_fx hu hv c2
  cases heq
  exact cast_fx (h3 x g1 g2)

/-- Two types of which neither is a type variable, an option or `None`. -/
theorem lubRest_ok (hE : EnvOk E) {rec_ : Ty → Ty → Option Ty} {rows pars : Ty → Ty → Ty → Ty → Option (Ty × Ty)}
    (hr : LubOk E rec_) (hrows : Lub2Ok E rows) (hpars : Glb2Ok E pars) {t1 t2 t : Ty} (h1 : Simple E true t1)
    (h2 : Simple E true t2) (b1 : Base t1) (b2 : Base t2) (hc : ¬ ∃ c a, t1 = .con c a)
    (h : lubRest rec_ rows pars t1 t2 = some t) : Simple E true t ∧ Base t ∧ IsLub E t1 t2 t := by
  have w1 := simple_wf h1
  have w2 := simple_wf h2
  cases t1 <;> cases t2 <;>
    simp only [lubRest, reduceCtorEq, Base, Ty.IsOpt, not_true_eq_false, ne_eq, not_false_eq_true, and_false,
      false_and] at h b1 b2
  case fn.fn e1 p1 k1 s1 e2 p2 k2 s2 =>
    simp only [Simple, Bool.not_true] at h1 h2
    obtain ⟨⟨f1, rfl⟩, hp1, rfl, hs1⟩ := h1
    obtain ⟨⟨f2, rfl⟩, hp2, rfl, hs2⟩ := h2
    simp only [Option.bind_eq_some_iff] at h
    obtain ⟨e, he, ⟨p, k⟩, hpk, s, hs, h⟩ := h
    cases h
    have Re := hr _ _ _ (by simp [Simple]) (by simp [Simple]) he
    have Rp := hpars _ _ _ _ hp1 hp2 hpk
    have Rs := hr _ _ _ hs1 hs2 hs
    obtain ⟨Rp1, rfl, Rp3⟩ := Rp
    have hw : Wf E (.fn e p (.nil .krow) s) := ⟨simple_wf Re.1, simple_wf Rp1, trivial, simple_wf Rs.1⟩
    refine ⟨?_, ⟨id, Ty.noConfusion⟩, isLub_fn w1 w2 hw Re.2.2 Rp3 Rs.2.2 nil_le⟩
    simp only [Simple, Bool.not_true]
    refine ⟨?_, Rp1, trivial, Rs.1⟩
    -- the bound of two effects is an effect
    have he' := (Re.2.2.least (.fx .proc) trivial (cast_fx (by cases f1 <;> rfl)) (cast_fx (by cases f2 <;> rfl)))
    have hb := Re.2.1 ⟨id, Ty.noConfusion⟩ ⟨id, Ty.noConfusion⟩
    obtain ⟨g, hg, _⟩ := fx_le (simple_wf Re.1) hb.1 Re.2.2.left
    exact ⟨g, hg⟩
  case tup.tup p1 k1 p2 k2 =>
    simp only [Simple] at h1 h2
    obtain ⟨hp1, rfl⟩ := h1
    obtain ⟨hp2, rfl⟩ := h2
    simp only [Option.bind_eq_some_iff] at h
    obtain ⟨⟨p, k⟩, hpk, h⟩ := h
    cases h
    obtain ⟨R1, rfl, R3⟩ := hrows _ _ _ _ hp1 hp2 hpk
    refine ⟨by simp only [Simple, and_true]; exact R1, ⟨id, Ty.noConfusion⟩, ?_⟩
    exact isLub_tup (simple_wf hp1) (simple_wf hp2) (simple_wf R1) R3 nil_le
  case fx.fx f g =>
    cases h
    exact ⟨trivial, ⟨id, Ty.noConfusion⟩, isLub_fx f g⟩
  case nil.nil k1 k2 =>
    split at h
    · rename_i heq
      subst heq
      cases h
      exact ⟨h1, ⟨id, Ty.noConfusion⟩, isLub_refl hE w1⟩
    · cases h
  case row.row k1 n1 t1 r1 k2 n2 t2 r2 =>
    split at h
    · rename_i heq
      obtain ⟨rfl, rfl⟩ := heq
      simp only [Option.bind_eq_some_iff] at h
      obtain ⟨t', ht, r', hr', h⟩ := h
      cases h
      simp only [Simple] at h1 h2
      have R1 := hr _ _ _ h1.2.2.1 h2.2.2.1 ht
      have R2 := hr _ _ _ h1.2.2.2 h2.2.2.2 hr'
      refine ⟨by simp only [Simple]; exact ⟨h1.1, h1.2.1, R1.1, R2.1⟩, ⟨id, Ty.noConfusion⟩, ?_⟩
      exact isLub_row w1 w2 ⟨simple_wf R1.1, simple_wf R2.1⟩ R1.2.2 R2.2.2
    · cases h
  case star.star k1 r1 k2 r2 =>
    split at h
    · rename_i heq
      subst heq
      simp only [Option.map_eq_some_iff] at h
      obtain ⟨r', hr', h⟩ := h
      cases h
      simp only [Simple] at h1 h2
      have R := hr _ _ _ h1 h2 hr'
      refine ⟨by simp only [Simple]; exact R.1, ⟨id, Ty.noConfusion⟩, ?_⟩
      exact isLub_star (simple_wf h1) (simple_wf h2) (simple_wf R.1) R.2.2
    · cases h
  all_goals first
    | (exfalso; simpa only [Simple] using h1)
    | (exfalso; simpa only [Simple] using h2)
    | (exact absurd ⟨_, _, rfl⟩ hc)

theorem glbRest_ok (hE : EnvOk E) {rec_ : Ty → Ty → Option Ty} {rows pars : Ty → Ty → Ty → Ty → Option (Ty × Ty)}
    (hr : GlbOk E rec_) (hrows : Glb2Ok E rows) (hpars : Lub2Ok E pars) {t1 t2 t : Ty} (h1 : Simple E false t1)
    (h2 : Simple E false t2) (b1 : Base t1) (b2 : Base t2) (hc : ¬ ∃ c a, t1 = .con c a)
    (h : glbRest rec_ rows pars t1 t2 = some t) :
    Simple E false t ∧ Base t ∧ ¬ IsVar t ∧ IsGlb E t1 t2 t := by
  have w1 := simple_wf h1
  have w2 := simple_wf h2
  cases t1 <;> cases t2 <;>
    simp only [glbRest, reduceCtorEq, Base, Ty.IsOpt, not_true_eq_false, ne_eq, not_false_eq_true, and_false,
      false_and] at h b1 b2
  case fn.fn e1 p1 k1 s1 e2 p2 k2 s2 =>
    simp only [Simple, Bool.not_false] at h1 h2
    obtain ⟨⟨f1, rfl⟩, hp1, rfl, hs1⟩ := h1
    obtain ⟨⟨f2, rfl⟩, hp2, rfl, hs2⟩ := h2
    simp only [Option.bind_eq_some_iff] at h
    obtain ⟨e, he, ⟨p, k⟩, hpk, s, hs, h⟩ := h
    cases h
    have Re := hr _ _ _ (by simp [Simple]) (by simp [Simple]) he
    have Rp := hpars _ _ _ _ hp1 hp2 hpk
    have Rs := hr _ _ _ hs1 hs2 hs
    obtain ⟨Rp1, rfl, Rp3⟩ := Rp
    have hw : Wf E (.fn e p (.nil .krow) s) := ⟨simple_wf Re.1, simple_wf Rp1, trivial, simple_wf Rs.1⟩
    refine ⟨?_, ⟨id, Ty.noConfusion⟩, id, isGlb_fn hE w1 w2 hw Re.2.2.2 Rp3 Rs.2.2.2 nil_le⟩
    simp only [Simple, Bool.not_false]
    refine ⟨?_, Rp1, trivial, Rs.1⟩
    obtain ⟨g, hg, _⟩ := le_fx (simple_wf Re.1) (Re.2.2.1 (fun h => h.1)) Re.2.2.2.left
    exact ⟨g, hg⟩
  case tup.tup p1 k1 p2 k2 =>
    simp only [Simple] at h1 h2
    obtain ⟨hp1, rfl⟩ := h1
    obtain ⟨hp2, rfl⟩ := h2
    simp only [Option.bind_eq_some_iff] at h
    obtain ⟨⟨p, k⟩, hpk, h⟩ := h
    cases h
    obtain ⟨R1, rfl, R3⟩ := hrows _ _ _ _ hp1 hp2 hpk
    refine ⟨by simp only [Simple, and_true]; exact R1, ⟨id, Ty.noConfusion⟩, id, ?_⟩
    exact isGlb_tup hE (simple_wf hp1) (simple_wf hp2) (simple_wf R1) R3 nil_le
  case fx.fx f g =>
    simp only [Option.map_eq_some_iff] at h
    obtain ⟨e, he, h⟩ := h
    cases h
    exact ⟨trivial, ⟨id, Ty.noConfusion⟩, id, isGlb_fx hE he⟩
  case nil.nil k1 k2 =>
    split at h
    · rename_i heq
      subst heq
      cases h
      exact ⟨h1, ⟨id, Ty.noConfusion⟩, id, isGlb_refl hE w1⟩
    · cases h
  case row.row k1 n1 t1 r1 k2 n2 t2 r2 =>
    split at h
    · rename_i heq
      obtain ⟨rfl, rfl⟩ := heq
      simp only [Option.bind_eq_some_iff] at h
      obtain ⟨t', ht, r', hr', h⟩ := h
      cases h
      simp only [Simple] at h1 h2
      have R1 := hr _ _ _ h1.2.2.1 h2.2.2.1 ht
      have R2 := hr _ _ _ h1.2.2.2 h2.2.2.2 hr'
      refine ⟨by simp only [Simple]; exact ⟨h1.1, h1.2.1, R1.1, R2.1⟩, ⟨id, Ty.noConfusion⟩, id, ?_⟩
      exact isGlb_row hE w1 w2 ⟨simple_wf R1.1, simple_wf R2.1⟩ R1.2.2.2 R2.2.2.2
    · cases h
  case star.star k1 r1 k2 r2 =>
    split at h
    · rename_i heq
      subst heq
      simp only [Option.map_eq_some_iff] at h
      obtain ⟨r', hr', h⟩ := h
      cases h
      simp only [Simple] at h1 h2
      have R := hr _ _ _ h1 h2 hr'
      refine ⟨by simp only [Simple]; exact R.1, ⟨id, Ty.noConfusion⟩, id, ?_⟩
      exact isGlb_star hE (simple_wf h1) (simple_wf h2) (simple_wf R.1) R.2.2.2
    · cases h
  all_goals first
    | (exfalso; simpa only [Simple] using h1)
    | (exfalso; simpa only [Simple] using h2)
    | (exact absurd ⟨_, _, rfl⟩ hc)

theorem not_opt_none {t : Ty} (ho : ∀ a, t ≠ .opt a) (hn : t ≠ .none_) : Base t := by
  refine ⟨?_, hn⟩
  cases t <;> simp only [Ty.IsOpt, not_false_eq_true]
  exact absurd rfl (ho _)

theorem lubStep_ok (hE : EnvOk E) (hP : Plain E) {rec_ : Ty → Ty → Option Ty}
    {rows pars : Ty → Ty → Ty → Ty → Option (Ty × Ty)} (hr : LubOk E rec_) (hrows : Lub2Ok E rows)
    (hpars : Glb2Ok E pars) : LubOk E (lubStep E rec_ rows pars) := by
  intro t1 t2 t h1 h2 h
  have w1 := simple_wf h1
  have w2 := simple_wf h2
  by_cases v2 : IsVar t2
  · obtain ⟨v, rfl⟩ : ∃ v, t2 = .var v := by
      cases t2 <;> simp only [IsVar] at v2
      exact ⟨_, rfl⟩
    by_cases heq : t1 = .var v
    · subst heq
      simp only [lubStep, if_true] at h
      cases h
      exact ⟨h1, fun b _ => b, isLub_refl hE w1⟩
    · have hs : (boundTy E v).bind (fun t => rec_ t1 t) = some t := by
        cases t1 <;> simp only [lubStep] at h
        case wild => exact absurd h1 (by simp [Simple])
        case var w => rw [if_neg (fun e => heq (by rw [e]))] at h; exact h
        all_goals exact h
      simp only [Option.bind_eq_some_iff] at hs
      obtain ⟨b, hb, hs⟩ := hs
      obtain ⟨sb, bb, _⟩ := bound_simple hP hb
      obtain ⟨R1, R2, R3⟩ := hr _ _ _ h1 sb hs
      exact ⟨R1, fun b1 _ => R2 b1 bb, (isLub_var hE hb w1 (simple_wf R1) heq R3.symm).symm⟩
  · by_cases v1 : IsVar t1
    · obtain ⟨v, rfl⟩ : ∃ v, t1 = .var v := by
        cases t1 <;> simp only [IsVar] at v1
        exact ⟨_, rfl⟩
      have hs : (boundTy E v).bind (fun t => rec_ t t2) = some t := by
        cases t2 <;> simp only [lubStep] at h
        case wild => exact absurd h2 (by simp [Simple])
        case var w => exact absurd trivial v2
        all_goals exact h
      simp only [Option.bind_eq_some_iff] at hs
      obtain ⟨b, hb, hs⟩ := hs
      obtain ⟨sb, bb, _⟩ := bound_simple hP hb
      obtain ⟨R1, R2, R3⟩ := hr _ _ _ sb h2 hs
      refine ⟨R1, fun _ b2 => R2 bb b2, isLub_var hE hb w2 (simple_wf R1) ?_ R3⟩
      rintro rfl
      exact v2 trivial
    · by_cases hcc : ∃ c a d b, t1 = .con c a ∧ t2 = .con d b
      · obtain ⟨c, a, d, b, rfl, rfl⟩ := hcc
        simp only [Simple] at h1 h2
        obtain ⟨rfl, hk1⟩ := h1
        obtain ⟨rfl, hk2⟩ := h2
        simp only [lubStep, expand_wf w1, expand_wf w2] at h
        cases hl : lubCon E ⟨c, []⟩ ⟨d, []⟩ with
        | none => rw [hl] at h; simp at h
        | some x =>
          rw [hl] at h
          cases h
          obtain ⟨R1, R2⟩ := isLub_con hE hP hk1 hk2 hl
          exact ⟨R1, fun _ _ => ⟨id, Ty.noConfusion⟩, R2⟩
      · have hstep := lubStep_rest (rec_ := rec_) (rows := rows) (pars := pars) w1 w2 v1 v2
          (fun c a d b e1 e2 => hcc ⟨c, a, d, b, e1, e2⟩)
        rw [hstep] at h
        by_cases hn1 : t1 = .none_
        · subst hn1
          by_cases hn2 : t2 = .none_
          · subst hn2
            simp only [lubRest] at h
            cases h
            exact ⟨h1, fun b _ => b, isLub_refl hE w1⟩
          · by_cases ho2 : ∃ a, t2 = .opt a
            · obtain ⟨a, rfl⟩ := ho2
              simp only [lubRest] at h
              cases h
              exact ⟨h2, fun _ b => b, isLub_none_opt hE w2⟩
            · have b2 := not_opt_none (fun a e => ho2 ⟨a, e⟩) hn2
              rw [lubRest_none_left b2, optOf_base b2] at h
              cases h
              refine ⟨?_, fun b _ => absurd rfl b.2, isLub_none hE w2 b2 v2⟩
              simp only [Simple]
              exact ⟨h2, b2.1, b2.2, Bool.noConfusion⟩
        · by_cases hn2 : t2 = .none_
          · subst hn2
            by_cases ho1 : ∃ a, t1 = .opt a
            · obtain ⟨a, rfl⟩ := ho1
              simp only [lubRest] at h
              cases h
              exact ⟨h1, fun b _ => b, (isLub_none_opt hE w1).symm⟩
            · have b1 := not_opt_none (fun a e => ho1 ⟨a, e⟩) hn1
              rw [lubRest_none_right b1, optOf_base b1] at h
              cases h
              refine ⟨?_, fun _ b => absurd rfl b.2, (isLub_none hE w1 b1 v1).symm⟩
              simp only [Simple]
              exact ⟨h1, b1.1, b1.2, Bool.noConfusion⟩
          · by_cases ho1 : ∃ a, t1 = .opt a
            · obtain ⟨a, rfl⟩ := ho1
              simp only [Simple] at h1
              by_cases ho2 : ∃ b, t2 = .opt b
              · obtain ⟨b, rfl⟩ := ho2
                simp only [Simple] at h2
                simp only [lubRest, Option.map_eq_some_iff] at h
                obtain ⟨s, hs, h⟩ := h
                obtain ⟨R1, R2, R3⟩ := hr _ _ _ h1.1 h2.1 hs
                have bs := R2 ⟨h1.2.1, h1.2.2.1⟩ ⟨h2.2.1, h2.2.2.1⟩
                rw [optOf_base bs] at h
                subst h
                refine ⟨?_, fun b _ => absurd trivial b.1, isLub_opts R3⟩
                simp only [Simple]
                exact ⟨R1, bs.1, bs.2, Bool.noConfusion⟩
              · have b2 := not_opt_none (fun a e => ho2 ⟨a, e⟩) hn2
                rw [lubRest_opt_left b2, Option.map_eq_some_iff] at h
                obtain ⟨s, hs, h⟩ := h
                obtain ⟨R1, R2, R3⟩ := hr _ _ _ h1.1 h2 hs
                have bs := R2 ⟨h1.2.1, h1.2.2.1⟩ b2
                rw [optOf_base bs] at h
                subst h
                refine ⟨?_, fun b _ => absurd trivial b.1, isLub_opt w2 b2 v2 R3⟩
                simp only [Simple]
                exact ⟨R1, bs.1, bs.2, Bool.noConfusion⟩
            · have b1 := not_opt_none (fun a e => ho1 ⟨a, e⟩) hn1
              by_cases ho2 : ∃ b, t2 = .opt b
              · obtain ⟨b, rfl⟩ := ho2
                simp only [Simple] at h2
                rw [lubRest_opt_right b1, Option.map_eq_some_iff] at h
                obtain ⟨s, hs, h⟩ := h
                obtain ⟨R1, R2, R3⟩ := hr _ _ _ h1 h2.1 hs
                have bs := R2 b1 ⟨h2.2.1, h2.2.2.1⟩
                rw [optOf_base bs] at h
                subst h
                refine ⟨?_, fun _ b => absurd trivial b.1, (isLub_opt w1 b1 v1 R3.symm).symm⟩
                simp only [Simple]
                exact ⟨R1, bs.1, bs.2, Bool.noConfusion⟩
              · have b2 := not_opt_none (fun a e => ho2 ⟨a, e⟩) hn2
                by_cases hc1 : ∃ c a, t1 = .con c a
                · exfalso
                  obtain ⟨c, a, rfl⟩ := hc1
                  cases t2 <;> simp only [lubRest, reduceCtorEq] at h
                  case opt => exact ho2 ⟨_, rfl⟩
                  case none_ => exact hn2 rfl
                · obtain ⟨R1, R2, R3⟩ := lubRest_ok hE hr hrows hpars h1 h2 b1 b2 hc1 h
                  exact ⟨R1, fun _ _ => R2, R3⟩

theorem glbStep_ok (hE : EnvOk E) (hP : Plain E) {rec_ : Ty → Ty → Option Ty}
    {rows pars : Ty → Ty → Ty → Ty → Option (Ty × Ty)} (hr : GlbOk E rec_) (hrows : Glb2Ok E rows)
    (hpars : Lub2Ok E pars) : GlbOk E (glbStep E rec_ rows pars) := by
  intro t1 t2 t h1 h2 h
  have w1 := simple_wf h1
  have w2 := simple_wf h2
  by_cases v12 : IsVar t1 ∧ IsVar t2
  · obtain ⟨v1, v2⟩ := v12
    cases t1 <;> simp only [IsVar] at v1
    cases t2 <;> simp only [IsVar] at v2
    simp only [glbStep] at h
    split at h
    · rename_i heq
      subst heq
      cases h
      exact ⟨h1, fun b _ => b, fun hn => absurd ⟨trivial, trivial⟩ hn, isGlb_refl hE w1⟩
    · cases h
  · by_cases hcc : ∃ c a d b, t1 = .con c a ∧ t2 = .con d b
    · obtain ⟨c, a, d, b, rfl, rfl⟩ := hcc
      simp only [Simple] at h1 h2
      obtain ⟨rfl, hk1⟩ := h1
      obtain ⟨rfl, hk2⟩ := h2
      simp only [glbStep, expand_wf w1, expand_wf w2] at h
      cases hl : glbCon E ⟨c, []⟩ ⟨d, []⟩ with
      | none => rw [hl] at h; simp at h
      | some x =>
        rw [hl] at h
        cases h
        obtain ⟨R1, R2⟩ := isGlb_con hE hP hk1 hk2 hl
        exact ⟨R1, fun _ _ => ⟨id, Ty.noConfusion⟩, fun _ => id, R2⟩
    · have hstep := glbStep_rest (rec_ := rec_) (rows := rows) (pars := pars) w1 w2 v12
        (fun c a d b e1 e2 => hcc ⟨c, a, d, b, e1, e2⟩)
      rw [hstep] at h
      have hn1 : t1 ≠ .none_ := by rintro rfl; simp [Simple] at h1
      have hn2 : t2 ≠ .none_ := by rintro rfl; simp [Simple] at h2
      by_cases ho1 : ∃ a, t1 = .opt a
      · obtain ⟨a, rfl⟩ := ho1
        simp only [Simple] at h1
        by_cases ho2 : ∃ b, t2 = .opt b
        · obtain ⟨b, rfl⟩ := ho2
          simp only [Simple] at h2
          simp only [glbRest, Option.map_eq_some_iff] at h
          obtain ⟨s, hs, h⟩ := h
          obtain ⟨R1, R2, R3, R4⟩ := hr _ _ _ h1.1 h2.1 hs
          have bs := R2 ⟨h1.2.1, h1.2.2.1⟩ ⟨h2.2.1, h2.2.2.1⟩
          have vs := R3 (fun hv => h1.2.2.2 trivial hv.1)
          rw [optOf_base bs] at h
          subst h
          refine ⟨?_, fun b _ => absurd trivial b.1, fun _ => id,
            isGlb_opts hE w1 w2 ⟨simple_wf R1, bs.1⟩ R4⟩
          simp only [Simple]
          exact ⟨R1, bs.1, bs.2, fun _ => vs⟩
        · have b2 := not_opt_none (fun a e => ho2 ⟨a, e⟩) hn2
          rw [glbRest_opt_left b2] at h
          obtain ⟨R1, R2, R3, R4⟩ := hr _ _ _ h1.1 h2 h
          have bs := R2 ⟨h1.2.1, h1.2.2.1⟩ b2
          have vs := R3 (fun hv => h1.2.2.2 trivial hv.1)
          exact ⟨R1, fun b _ => absurd trivial b.1, fun _ => vs,
            isGlb_opt hE w1 w2 b2 (simple_wf R1) bs vs R4⟩
      · have b1 := not_opt_none (fun a e => ho1 ⟨a, e⟩) hn1
        by_cases ho2 : ∃ b, t2 = .opt b
        · obtain ⟨b, rfl⟩ := ho2
          simp only [Simple] at h2
          rw [glbRest_opt_right b1] at h
          obtain ⟨R1, R2, R3, R4⟩ := hr _ _ _ h1 h2.1 h
          have bs := R2 b1 ⟨h2.2.1, h2.2.2.1⟩
          have vs := R3 (fun hv => h2.2.2.2 trivial hv.2)
          exact ⟨R1, fun _ b => absurd trivial b.1, fun _ => vs,
            (isGlb_opt hE w2 w1 b1 (simple_wf R1) bs vs R4.symm).symm⟩
        · have b2 := not_opt_none (fun a e => ho2 ⟨a, e⟩) hn2
          by_cases hc1 : ∃ c a, t1 = .con c a
          · exfalso
            obtain ⟨c, a, rfl⟩ := hc1
            cases t2 <;> simp only [glbRest, reduceCtorEq] at h
            case opt => exact ho2 ⟨_, rfl⟩
            case none_ => exact hn2 rfl
          · obtain ⟨R1, R2, R3, R4⟩ := glbRest_ok hE hr hrows hpars h1 h2 b1 b2 hc1 h
            exact ⟨R1, fun _ _ => R2, fun _ => R3, R4⟩

/-- `lub2` and `glb2` of rows of which not both begin with a component. -/
theorem lub2Step_ok {n : Nat} (hr : LubOk E (lub E n)) (hrows : Lub2Ok E (lub2 E n)) :
    Lub2Ok E (lub2Step (lub E n) (lub2 E n)) := by
  intro p1 p2 p k h1 h2 h
  by_cases hrr : ∃ a b c d x y z w, p1 = .row a b c d ∧ p2 = .row x y z w
  · obtain ⟨k1, n1, t1, r1, k2, n2, t2, r2, rfl, rfl⟩ := hrr
    have w1 := simple_wf h1
    have w2 := simple_wf h2
    simp only [Simple] at h1 h2
    obtain ⟨rfl, rfl, ht1, hr1⟩ := h1
    obtain ⟨rfl, rfl, ht2, hr2⟩ := h2
    simp only [lub2Step, Option.bind_eq_some_iff] at h
    obtain ⟨t, ht, ⟨r, k'⟩, hrr, h⟩ := h
    cases h
    obtain ⟨R1, _, R3⟩ := hr _ _ _ ht1 ht2 ht
    obtain ⟨S1, rfl, S3⟩ := hrows _ _ _ _ hr1 hr2 hrr
    refine ⟨by simp only [posRow, Simple, true_and]; exact ⟨R1, S1⟩, rfl, ?_⟩
    exact isLub_row w1 w2 ⟨simple_wf R1, simple_wf S1⟩ R3 S3
  · have h' : (lub E n p1 p2).bind (fun p => (lub E n (.nil .krow) (.nil .krow)).bind fun k => some (p, k)) =
        some (p, k) := by
      cases p1 <;> cases p2 <;> simp only [lub2Step] at h
      all_goals first
        | exact h
        | exact absurd ⟨_, _, _, _, _, _, _, _, rfl, rfl⟩ hrr
    simp only [Option.bind_eq_some_iff] at h'
    obtain ⟨q, hq, k', hk, h'⟩ := h'
    cases h'
    obtain ⟨R1, _, R3⟩ := hr _ _ _ h1 h2 hq
    exact ⟨R1, lub_nil hk, R3⟩

theorem glb2Step_ok (hE : EnvOk E) {n : Nat} (hr : GlbOk E (glb E n)) (hrows : Glb2Ok E (glb2 E n)) :
    Glb2Ok E (glb2Step (glb E n) (glb2 E n)) := by
  intro p1 p2 p k h1 h2 h
  by_cases hrr : ∃ a b c d x y z w, p1 = .row a b c d ∧ p2 = .row x y z w
  · obtain ⟨k1, n1, t1, r1, k2, n2, t2, r2, rfl, rfl⟩ := hrr
    have w1 := simple_wf h1
    have w2 := simple_wf h2
    simp only [Simple] at h1 h2
    obtain ⟨rfl, rfl, ht1, hr1⟩ := h1
    obtain ⟨rfl, rfl, ht2, hr2⟩ := h2
    simp only [glb2Step, Option.bind_eq_some_iff] at h
    obtain ⟨t, ht, ⟨r, k'⟩, hrr, h⟩ := h
    cases h
    obtain ⟨R1, _, _, R3⟩ := hr _ _ _ ht1 ht2 ht
    obtain ⟨S1, rfl, S3⟩ := hrows _ _ _ _ hr1 hr2 hrr
    refine ⟨by simp only [posRow, Simple, true_and]; exact ⟨R1, S1⟩, rfl, ?_⟩
    exact isGlb_row hE w1 w2 ⟨simple_wf R1, simple_wf S1⟩ R3 S3
  · have h' : (glb E n p1 p2).bind (fun p => (glb E n (.nil .krow) (.nil .krow)).bind fun k => some (p, k)) =
        some (p, k) := by
      cases p1 <;> cases p2 <;> simp only [glb2Step] at h
      all_goals first
        | exact h
        | exact absurd ⟨_, _, _, _, _, _, _, _, rfl, rfl⟩ hrr
    simp only [Option.bind_eq_some_iff] at h'
    obtain ⟨q, hq, k', hk, h'⟩ := h'
    cases h'
    obtain ⟨R1, _, _, R3⟩ := hr _ _ _ h1 h2 hq
    exact ⟨R1, glb_nil hk, R3⟩

/-- The induction. -/
theorem bounds_ok (hE : EnvOk E) (hP : Plain E) : ∀ n,
    LubOk E (lub E n) ∧ Lub2Ok E (lub2 E n) ∧ GlbOk E (glb E n) ∧ Glb2Ok E (glb2 E n) := by
  intro n
  induction n with
  | zero =>
    refine ⟨?_, ?_, ?_, ?_⟩
    · intro t1 t2 t _ _ h; simp [lub] at h
    · intro p1 p2 p k _ _ h; simp [lub2] at h
    · intro t1 t2 t _ _ h; simp [glb] at h
    · intro p1 p2 p k _ _ h; simp [glb2] at h
  | succ n ih =>
    obtain ⟨h1, h2, h3, h4⟩ := ih
    refine ⟨?_, ?_, ?_, ?_⟩
    · rw [lub]; exact lubStep_ok hE hP h1 h2 h4
    · rw [lub2]; exact lub2Step_ok h1 h2
    · rw [glb]; exact glbStep_ok hE hP h3 h4 h2
    · rw [glb2]; exact glb2Step_ok hE h3 h4

end Verif.Cast
