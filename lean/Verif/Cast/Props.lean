import Verif.Cast.Main

/-!
C104: castability is an order on types. C105: `lub` is a least upper bound. C106: `glb` is a greatest
lower bound.
-/
namespace Verif.Cast
open Verif.Ty Verif.Mro

/-! ### Castability is an order -/

/-- Every type can be used for itself. Partial: not for types with wildcards (for which there is more than
equality) or aliases with the wrong number of arguments. -/
theorem C104_refl_partial {E : Env} (hE : EnvOk E) {t : Ty} (h : Wf E t) : Castable E t t := cast_refl hE h

/-- Castability is transitive. Partial: without aliases and where no class inherits from a covariant
class; both are necessary (`C104_refuted_alias`, `C104_refuted_subclass`). -/
theorem C104_trans_partial {E : Env} (hE : EnvOk E) (hC : CovOk E) {t1 t2 t3 : Ty} (h1 : Wf E t1) (h2 : Wf E t2)
    (h3 : Wf E t3) (h12 : Castable E t1 t2) (h23 : Castable E t2 t3) : Castable E t1 t3 := by
  obtain ⟨n, h12⟩ := h12
  obtain ⟨m, h23⟩ := h23
  exact cast_trans_aux hE hC _ n m (Nat.le_refl _) t1 t2 t3 h1 h2 h3 h12 h23

/-- Two types that can be used for each other are the same. -/
theorem C104_antisymm_partial {E : Env} (hE : EnvOk E) (hC : CovOk E) : ∀ {t1 t2 : Ty}, Wf E t1 → Wf E t2 →
    Castable E t1 t2 → Castable E t2 t1 → t1 = t2 := by
  have aux : ∀ N n m, n + m ≤ N → ∀ t1 t2, Wf E t1 → Wf E t2 → castable E n t1 t2 = true →
      castable E m t2 t1 = true → t1 = t2 := by
    intro N
    induction N with
    | zero =>
      intro n m hN t1 t2 _ _ h
      have : n = 0 := by omega
      subst this
      simp [castable] at h
    | succ N ih =>
      intro n m hN t1 t2 w1 w2 h h'
      cases n with
      | zero => simp [castable] at h
      | succ n =>
      cases m with
      | zero => simp [castable] at h'
      | succ m =>
      have ih' : ∀ t1 t2, Wf E t1 → Wf E t2 → castable E n t1 t2 = true → castable E m t2 t1 = true → t1 = t2 :=
        ih n m (by omega)
      have ih'' : ∀ t1 t2, Wf E t1 → Wf E t2 → castable E m t1 t2 = true → castable E n t2 t1 = true → t1 = t2 :=
        ih m n (by omega)
      by_cases v1 : IsVar t1
      · by_cases v2 : IsVar t2
        · cases t1 <;> simp only [IsVar] at v1
          cases t2 <;> simp only [IsVar] at v2
          rcases cast_var_inv w2 h with h | ⟨t, hb, h⟩
          · exact h.symm
          · obtain ⟨hw, c, a, rfl⟩ := bound_wf hE hb
            rw [not_cast_var hw id] at h
            cases h
        · cases t1 <;> simp only [IsVar] at v1
          rw [not_cast_var w2 v2] at h'
          cases h'
      · by_cases v2 : IsVar t2
        · cases t2 <;> simp only [IsVar] at v2
          rw [not_cast_var w1 v1] at h
          cases h
        · by_cases ho1 : ∃ a, t1 = .opt a
          · obtain ⟨a, rfl⟩ := ho1
            obtain ⟨b, rfl, h⟩ := cast_opt_inv w2 h
            obtain ⟨_, he, h'⟩ := cast_opt_inv w1 h'
            cases he
            simp only [Wf] at w1 w2
            rw [ih' a b w1.1 w2.1 h h']
          · by_cases ho2 : ∃ a, t2 = .opt a
            · obtain ⟨a, rfl⟩ := ho2
              obtain ⟨b, rfl, _⟩ := cast_opt_inv w1 h'
              exact absurd ⟨_, rfl⟩ ho1
            · by_cases hcc : ∃ c a d b, t1 = .con c a ∧ t2 = .con d b
              · obtain ⟨c, a, d, b, rfl, rfl⟩ := hcc
                rcases cast_con_inv hE w1 w2 h with ⟨rfl, hc, hf⟩ | ⟨hnc, hm⟩
                · rcases cast_con_inv hE w2 w1 h' with ⟨_, _, hf'⟩ | ⟨hnc', _⟩
                  · have : a = b := by
                      have wa : ∀ t ∈ a, Wf E t := by simp only [Wf] at w1; exact wfs_mem w1.2.2
                      have wb : ∀ t ∈ b, Wf E t := by simp only [Wf] at w2; exact wfs_mem w2.2.2
                      clear h h' w1 w2 ho1 ho2 v1 v2
                      induction hf with
                      | nil => rfl
                      | @cons x y xs ys hxy _ ihl =>
                        cases hf' with
                        | cons hyx hf' =>
                          rw [ih' x y (wa _ (by simp)) (wb _ (by simp)) hxy hyx,
                            ihl hf' (fun t ht => wa t (by simp [ht])) (fun t ht => wb t (by simp [ht]))]
                    rw [this]
                  · exact absurd ⟨rfl, hc⟩ hnc'
                · rcases List.mem_cons.1 hm with heq | hm
                  · cases heq; rfl
                  · rcases cast_con_inv hE w2 w1 h' with ⟨rfl, hc, _⟩ | ⟨_, hm'⟩
                    · exact absurd ⟨rfl, hc⟩ hnc
                    · rcases List.mem_cons.1 hm' with heq | hm'
                      · cases heq; rfl
                      · exfalso
                        obtain ⟨hnd, htr⟩ := anc_facts hE w1
                        have := htr _ hm _ hm'
                        simp only [List.map_cons, List.nodup_cons] at hnd
                        exact hnd.1 (List.mem_map.2 ⟨_, this, rfl⟩)
              · simp only [castable] at h h'
                cases t1 <;> cases t2 <;>
                  simp only [castStep, Bool.false_eq_true, Bool.and_eq_true, decide_eq_true_eq] at h h'
                case fn.fn a b c d a' b' c' d' =>
                  simp only [Wf] at w1 w2
                  rw [ih' a a' w1.1 w2.1 h.1.1.1 h'.1.1.1, ih' d d' w1.2.2.2 w2.2.2.2 h.2 h'.2,
                    ih'' b b' w1.2.1 w2.2.1 h'.1.1.2 h.1.1.2, ih'' c c' w1.2.2.1 w2.2.2.1 h'.1.2 h.1.2]
                case tup.tup a b a' b' =>
                  simp only [Wf] at w1 w2
                  rw [ih' a a' w1.1 w2.1 h.1 h'.1, ih' b b' w1.2 w2.2 h.2 h'.2]
                case fx.fx f g => revert h h'; cases f <;> cases g <;> decide
                case nil.nil => rw [h]
                case row.row k x a b k' x' a' b' =>
                  simp only [Wf] at w1 w2
                  rw [ih' a a' w1.1 w2.1 h.1.2 h'.1.2, ih' b b' w1.2 w2.2 h.2 h'.2, h.1.1.1, h.1.1.2]
                case star.star k a k' a' =>
                  simp only [Wf] at w1 w2
                  rw [ih' a a' w1 w2 h.2 h'.2, h.1]
                all_goals first
                  | rfl
                  | (exfalso; simp only [Wf] at w1; done)
                  | (exfalso; simp only [Wf] at w2; done)
                  | exact absurd trivial v1
                  | exact absurd trivial v2
                  | exact absurd ⟨_, rfl⟩ ho1
                  | exact absurd ⟨_, rfl⟩ ho2
                  | exact absurd ⟨_, _, _, _, rfl, rfl⟩ hcc
                  | (rw [expand_wf w1] at h; exact absurd h (by simp [test]))
                  | (rw [expand_wf w2] at h; exact absurd h (by simp [test]))
  intro t1 t2 w1 w2 ⟨n, h⟩ ⟨m, h'⟩
  exact aux _ n m (Nat.le_refl _) t1 t2 w1 w2 h h'

/-- A type, and `None`, can be used for the option of the type. Partial: not for type variables
(`C104_refuted_variable`). -/
theorem C104_option_partial {E : Env} (hE : EnvOk E) {t : Ty} (h : Wf E t) (hv : ¬ IsVar t) (ho : ¬ Ty.IsOpt t) :
    Castable E t (.opt t) ∧ Castable E .none_ (.opt t) :=
  ⟨cast_into_opt h hv ho (cast_refl hE h), ⟨1, by simp [castable, castStep]⟩⟩

/-! ### Least upper bounds -/

/-- What `lub` gives is the least type that both types can be used for. Partial: for simple types without
generic classes (`C105_refuted_args`). -/
theorem C105_lub_partial {E : Env} (hE : EnvOk E) (hP : Plain E) {n : Nat} {t1 t2 t : Ty}
    (h1 : Simple E true t1) (h2 : Simple E true t2) (h : lub E n t1 t2 = some t) : IsLub E t1 t2 t :=
  ((bounds_ok hE hP n).1 t1 t2 t h1 h2 h).2.2

/-- What `lubfold` gives is the least type that all types can be used for. -/
theorem C105_fold_partial {E : Env} (hE : EnvOk E) (hC : CovOk E) (hP : Plain E) {n : Nat} {ts : List Ty} {t : Ty}
    (hne : ts ≠ []) (h : ∀ x ∈ ts, Simple E true x) (hf : lubfold E n ts = some t) :
    (∀ x ∈ ts, Castable E x t) ∧ ∀ u, Wf E u → (∀ x ∈ ts, Castable E x u) → Castable E t u := by
  have hfil : ts.filter (· ≠ .wild) = ts := by
    rw [List.filter_eq_self]
    intro x hx
    have := h x hx
    cases x <;> simp [Simple] at this ⊢
  unfold lubfold at hf
  rw [hfil] at hf
  cases ts with
  | nil => exact absurd rfl hne
  | cons s ts =>
    simp only at hf
    have hs := h s (by simp)
    have hts : ∀ x ∈ ts, Simple E true x := fun x hx => h x (by simp [hx])
    clear hfil hne h
    have key : ∀ (ts : List Ty) (s : Ty), Simple E true s → (∀ x ∈ ts, Simple E true x) →
        ts.foldlM (lub E n) s = some t → Wf E t ∧ Castable E s t ∧ (∀ x ∈ ts, Castable E x t) ∧
          ∀ u, Wf E u → Castable E s u → (∀ x ∈ ts, Castable E x u) → Castable E t u := by
      intro ts
      induction ts with
      | nil =>
        intro s hs _ hf
        simp only [List.foldlM_nil, Option.pure_def, Option.some.injEq] at hf
        subst hf
        exact ⟨simple_wf hs, cast_refl hE (simple_wf hs), by simp, fun u _ h _ => h⟩
      | cons x xs ih =>
        intro s hs hxs hf
        simp only [List.foldlM_cons, Option.bind_eq_bind, Option.bind_eq_some_iff] at hf
        obtain ⟨s', hs', hf⟩ := hf
        have hx := hxs x (by simp)
        obtain ⟨R1, _, R3⟩ := (bounds_ok hE hP n).1 s x s' hs hx hs'
        obtain ⟨S1, S2, S3, S4⟩ := ih s' R1 (fun y hy => hxs y (by simp [hy])) hf
        have tr : ∀ {y}, Simple E true y → Castable E y s' → Castable E y t := fun hy hc =>
          C104_trans_partial hE hC (simple_wf hy) (simple_wf R1) S1 hc S2
        refine ⟨S1, tr hs R3.left, ?_, ?_⟩
        · intro y hy
          rcases List.mem_cons.1 hy with rfl | hy
          · exact tr hx R3.right
          · exact S3 y hy
        · intro u hu h1 h2
          exact S4 u hu (R3.least u hu h1 (h2 x (by simp))) (fun y hy => h2 y (by simp [hy]))
    obtain ⟨_, k2, k3, k4⟩ := key ts s hs hts hf
    refine ⟨?_, ?_⟩
    · intro x hx
      rcases List.mem_cons.1 hx with rfl | hx
      · exact k2
      · exact k3 x hx
    · intro u hu hx
      exact k4 u hu (hx s (by simp)) (fun x hx' => hx x (by simp [hx']))

/-- Two classes that can be used for a type have a bound. Partial: not for other types
(`C105_refuted_exists`). -/
theorem C105_exists_partial {E : Env} (hE : EnvOk E) (hP : Plain E) {a b : Nat} {u : Ty} (ha : Simple E true (.con a []))
    (hb : Simple E true (.con b [])) (hu : Wf E u) (h1 : Castable E (.con a []) u) (h2 : Castable E (.con b []) u)
    (n : Nat) : ∃ t, lub E (n + 1) (.con a []) (.con b []) = some t := by
  simp only [Simple, true_and] at ha hb
  have key : ∀ u, Wf E u → ¬ Ty.IsOpt u → Castable E (.con a []) u → Castable E (.con b []) u →
      ∃ c, lubCon E ⟨a, []⟩ ⟨b, []⟩ = some c := by
    intro u hu ho h1 h2
    obtain ⟨d, rfl, _, hd⟩ := con_le hE hP ha hu ho h1
    obtain ⟨_, he, _, hd'⟩ := con_le hE hP hb hu ho h2
    cases he
    unfold lubCon
    split
    · exact ⟨_, rfl⟩
    split
    · exact ⟨_, rfl⟩
    split
    · exact ⟨_, rfl⟩
    · unfold commonAncestors
      rw [anc_plain ha, anc_plain hb]
      have hm : d ∈ ((⟨a, []⟩ : Con) :: ancOf E a).map Con.name := hd
      obtain ⟨c, hc, rfl⟩ := List.mem_map.1 hm
      have hmem : c ∈ ((⟨a, []⟩ : Con) :: ancOf E a).filter
          (fun c => (((⟨b, []⟩ : Con) :: ancOf E b).map Con.name).contains c.name) := by
        refine List.mem_filter.2 ⟨hc, ?_⟩
        rw [List.contains_eq_mem]
        exact decide_eq_true hd'
      generalize ((⟨a, []⟩ : Con) :: ancOf E a).filter
          (fun c => (((⟨b, []⟩ : Con) :: ancOf E b).map Con.name).contains c.name) = l at hmem ⊢
      cases l with
      | nil => simp at hmem
      | cons x l => exact ⟨x, rfl⟩
  have : ∃ c, lubCon E ⟨a, []⟩ ⟨b, []⟩ = some c := by
    by_cases ho : Ty.IsOpt u
    · cases u <;> simp only [Ty.IsOpt] at ho
      simp only [Wf] at hu
      exact key _ hu.1 hu.2 ((cast_into_iff (known_wf ha) id ⟨id, Ty.noConfusion⟩).1 h1)
        ((cast_into_iff (known_wf hb) id ⟨id, Ty.noConfusion⟩).1 h2)
    · exact key u hu ho h1 h2
  obtain ⟨c, hc⟩ := this
  exact ⟨conTy c, by simp [lub, lubStep, hc]⟩

/-! ### Greatest lower bounds -/

/-- What `glb` gives is the greatest type that can be used for both types. Partial: for simple types
without generic classes, `None` and options of type variables (`C106_refuted_none`,
`C106_refuted_variable`). -/
theorem C106_glb_partial {E : Env} (hE : EnvOk E) (hP : Plain E) {n : Nat} {t1 t2 t : Ty}
    (h1 : Simple E false t1) (h2 : Simple E false t2) (h : glb E n t1 t2 = some t) : IsGlb E t1 t2 t :=
  ((bounds_ok hE hP n).2.2.1 t1 t2 t h1 h2 h).2.2.2

/-- What `glbfold` gives is the greatest type that can be used for all types. -/
theorem C106_fold_partial {E : Env} (hE : EnvOk E) (hC : CovOk E) (hP : Plain E) {n : Nat} {ts : List Ty} {t : Ty}
    (hne : ts ≠ []) (h : ∀ x ∈ ts, Simple E false x) (hf : glbfold E n ts = some t) :
    (∀ x ∈ ts, Castable E t x) ∧ ∀ u, Wf E u → (∀ x ∈ ts, Castable E u x) → Castable E u t := by
  have hfil : ts.filter (· ≠ .wild) = ts := by
    rw [List.filter_eq_self]
    intro x hx
    have := h x hx
    cases x <;> simp [Simple] at this ⊢
  unfold glbfold at hf
  rw [hfil] at hf
  cases ts with
  | nil => exact absurd rfl hne
  | cons s ts =>
    simp only at hf
    have hs := h s (by simp)
    have hts : ∀ x ∈ ts, Simple E false x := fun x hx => h x (by simp [hx])
    clear hfil hne h
    have key : ∀ (ts : List Ty) (s : Ty), Simple E false s → (∀ x ∈ ts, Simple E false x) →
        ts.foldlM (glb E n) s = some t → Wf E t ∧ Castable E t s ∧ (∀ x ∈ ts, Castable E t x) ∧
          ∀ u, Wf E u → Castable E u s → (∀ x ∈ ts, Castable E u x) → Castable E u t := by
      intro ts
      induction ts with
      | nil =>
        intro s hs _ hf
        simp only [List.foldlM_nil, Option.pure_def, Option.some.injEq] at hf
        subst hf
        exact ⟨simple_wf hs, cast_refl hE (simple_wf hs), by simp, fun u _ h _ => h⟩
      | cons x xs ih =>
        intro s hs hxs hf
        simp only [List.foldlM_cons, Option.bind_eq_bind, Option.bind_eq_some_iff] at hf
        obtain ⟨s', hs', hf⟩ := hf
        have hx := hxs x (by simp)
        obtain ⟨R1, _, _, R3⟩ := (bounds_ok hE hP n).2.2.1 s x s' hs hx hs'
        obtain ⟨S1, S2, S3, S4⟩ := ih s' R1 (fun y hy => hxs y (by simp [hy])) hf
        have tr : ∀ {y}, Simple E false y → Castable E s' y → Castable E t y := fun hy hc =>
          C104_trans_partial hE hC S1 (simple_wf R1) (simple_wf hy) S2 hc
        refine ⟨S1, tr hs R3.left, ?_, ?_⟩
        · intro y hy
          rcases List.mem_cons.1 hy with rfl | hy
          · exact tr hx R3.right
          · exact S3 y hy
        · intro u hu h1 h2
          exact S4 u hu (R3.greatest u hu h1 (h2 x (by simp))) (fun y hy => h2 y (by simp [hy]))
    obtain ⟨_, k2, k3, k4⟩ := key ts s hs hts hf
    refine ⟨?_, ?_⟩
    · intro x hx
      rcases List.mem_cons.1 hx with rfl | hx
      · exact k2
      · exact k3 x hx
    · intro u hu hx
      exact k4 u hu (hx s (by simp)) (fun x hx' => hx x (by simp [hx']))

/-! ### Sample environments -/

/-- `value`; classes `int` (10) and `str` (11); class `14` and its subclasses `15` and `16`. -/
def cls0 : Mro.Env := [⟨.cls, 0, [], [], [], []⟩]
def cls1 : Mro.Env := ⟨.cls, 10, [], [⟨0, []⟩], [⟨[.left 0], ⟨0, []⟩⟩], []⟩ :: cls0
def cls2 : Mro.Env := ⟨.cls, 11, [], [⟨0, []⟩], [⟨[.left 0], ⟨0, []⟩⟩], []⟩ :: cls1
def cls3 : Mro.Env := ⟨.cls, 14, [], [⟨0, []⟩], [⟨[.left 0], ⟨0, []⟩⟩], []⟩ :: cls2
def cls4 : Mro.Env :=
  ⟨.cls, 15, [], [⟨14, []⟩], [⟨[.left 14], ⟨14, []⟩⟩, ⟨[.left 14, .left 0], ⟨0, []⟩⟩], []⟩ :: cls3
def cls5 : Mro.Env :=
  ⟨.cls, 16, [], [⟨14, []⟩], [⟨[.left 14], ⟨14, []⟩⟩, ⟨[.left 14, .left 0], ⟨0, []⟩⟩], []⟩ :: cls4
/-- And `list` (12), with a parameter. -/
def cls6 : Mro.Env := ⟨.cls, 12, [5], [⟨0, []⟩], [⟨[.left 0], ⟨0, []⟩⟩], []⟩ :: cls5
/-- And class `13` below `list[int]`. -/
def cls7 : Mro.Env := ⟨.cls, 13, [], [⟨12, [.con 10 []]⟩],
  [⟨[.left 12], ⟨12, [.con 10 []]⟩⟩, ⟨[.left 12, .left 0], ⟨0, []⟩⟩], []⟩ :: cls6

theorem builtC6 : Built cls6 := by
  have b0 : Built cls0 := .value .nil rfl rfl
  have b1 : Built cls1 := .cls b0 rfl (by decide) (by simp) ⟨⟨_, rfl, rfl⟩, by simp, by simp⟩
    (show declClass cls0 10 [] [] [] = .ok cls1 by decide +kernel)
  have b2 : Built cls2 := .cls b1 rfl (by decide) (by simp) ⟨⟨_, rfl, rfl⟩, by simp, by simp⟩
    (show declClass cls1 11 [] [] [] = .ok cls2 by decide +kernel)
  have b3 : Built cls3 := .cls b2 rfl (by decide) (by simp) ⟨⟨_, rfl, rfl⟩, by simp, by simp⟩
    (show declClass cls2 14 [] [] [] = .ok cls3 by decide +kernel)
  have b4 : Built cls4 := .cls b3 rfl (by decide) (by
      intro u hu; rw [List.mem_singleton] at hu; subst hu; exact ⟨⟨_, rfl, rfl⟩, by simp, by simp⟩)
    ⟨⟨_, rfl, rfl⟩, by simp, by simp⟩ (show declClass cls3 15 [] [⟨14, []⟩] [] = .ok cls4 by decide +kernel)
  have b5 : Built cls5 := .cls b4 rfl (by decide) (by
      intro u hu; rw [List.mem_singleton] at hu; subst hu; exact ⟨⟨_, rfl, rfl⟩, by simp, by simp⟩)
    ⟨⟨_, rfl, rfl⟩, by simp, by simp⟩ (show declClass cls4 16 [] [⟨14, []⟩] [] = .ok cls5 by decide +kernel)
  exact .cls b5 rfl (by decide) (by simp) ⟨⟨_, rfl, rfl⟩, by simp, by simp⟩
    (show declClass cls5 12 [5] [] [] = .ok cls6 by decide +kernel)

theorem builtC7 : Built cls7 := by
  refine .cls builtC6 rfl (by decide) ?_ ⟨⟨_, rfl, rfl⟩, by simp, by simp⟩
    (show declClass cls6 13 [] [⟨12, [.con 10 []]⟩] [] = .ok cls7 by decide +kernel)
  intro u hu
  rw [List.mem_singleton] at hu
  subst hu
  exact ⟨⟨_, rfl, rfl⟩, by simp [Ty.vfree, Ty.vfrees], by simp [Ty.Norm, Ty.Norms]⟩

/-- The environment with `list` covariant and a type variable 7 bounded by class `14`. -/
def env6 : Env := ⟨cls6, fun _ => none, fun v => if v = 7 then some ⟨14, []⟩ else none, [12]⟩

/-- The environment with a subclass of `list[int]`. -/
def env7 : Env := ⟨cls7, fun _ => none, fun _ => none, [12]⟩

/-- The environment with the alias `20[5] = list[5]`. -/
def env8 : Env := ⟨cls6, fun n => if n = 20 then some ([5], .con 12 [.var 5]) else none, fun _ => none, [12]⟩

theorem ok6 : EnvOk env6 := by
  refine ⟨builtC6, ?_⟩
  intro v c h
  by_cases hv : v = 7
  · simp only [env6, hv, if_true, Option.some.injEq] at h
    subst h
    simp only [conTy, Wf, Wfs, and_true]
    exact ⟨rfl, _, rfl, rfl⟩
  · simp [env6, hv] at h

theorem ok7 : EnvOk env7 := ⟨builtC7, by intro v c h; simp [env7] at h⟩
theorem ok8 : EnvOk env8 := ⟨builtC6, by intro v c h; simp [env8] at h⟩

theorem find_mem : ∀ {env : Mro.Env} {n : Nat} {i : Info}, findInfo env n = some i → i ∈ env ∧ i.name = n
  | [], n, i, h => by simp [findInfo] at h
  | j :: env, n, i, h => by
    unfold findInfo at h
    split at h
    · rename_i hj
      cases h
      exact ⟨by simp, hj⟩
    · exact ⟨List.mem_cons_of_mem _ (find_mem h).1, (find_mem h).2⟩

theorem cov6 : CovOk env6 := by
  have h1 : ∀ i ∈ cls6, ∀ e ∈ i.anc, e.con.name ∉ [12] := by decide +kernel
  have h2 : ∀ i ∈ cls6, i.name ∈ [12] → ∀ e ∈ i.anc, e.con.args = [] := by decide +kernel
  refine ⟨fun n i h => h1 i (find_mem h).1, fun n i h hn => h2 i (find_mem h).1 ?_⟩
  rw [(find_mem h).2]; exact hn

theorem plain6 : Plain env6 := by
  have h1 : ∀ i ∈ cls6, ∀ e ∈ i.anc, e.con.args = [] := by decide +kernel
  refine ⟨fun n i h => h1 i (find_mem h).1, fun _ _ _ => rfl, ?_⟩
  intro v c h
  by_cases hv : v = 7
  · simp only [env6, hv, if_true, Option.some.injEq] at h
    subst h
    simp only [conTy, Simple, true_and]
    exact ⟨rfl, _, rfl, rfl, by decide⟩
  · simp [env6, hv] at h

theorem simple6 (up : Bool) {n : Nat} (h : n ∈ [0, 10, 11, 14, 15, 16]) : Simple env6 up (.con n []) := by
  simp only [Simple, true_and]
  simp only [List.mem_cons, List.not_mem_nil, or_false] at h
  rcases h with rfl | rfl | rfl | rfl | rfl | rfl <;> exact ⟨rfl, _, rfl, rfl, by decide⟩

theorem wf_int6 : Wf env6 (.con 10 []) := simple_wf (simple6 true (by decide))
theorem wf_str6 : Wf env6 (.con 11 []) := simple_wf (simple6 true (by decide))

theorem wf_list {E : Env} (hc : E.cls = cls6 ∨ E.cls = cls7) (ha : E.als 12 = none) {t : Ty} (h : Wf E t) :
    Wf E (.con 12 [t]) := by
  simp only [Wf, Wfs, and_true]
  refine ⟨ha, ?_, h⟩
  rcases hc with hc | hc <;> rw [hc] <;> exact ⟨_, rfl, rfl⟩

/-! ### Refutations -/

/-- A type variable cannot be used for the option of itself: `castable` looks at the bound of the variable
(Env.hs:1115-1116) before it looks into the option (Env.hs:1120). -/
theorem C104_refuted_variable : ∃ (E : Env) (v : Nat), EnvOk E ∧ CovOk E ∧ E.bound v ≠ none ∧
    ¬ Castable E (.var v) (.opt (.var v)) := by
  refine ⟨env6, 7, ok6, cov6, by simp [env6], ?_⟩
  rw [cast_var_iff ok6 (by simp [Wf, Ty.IsOpt])]
  rintro (h | ⟨t, hb, h⟩)
  · cases h
  · obtain ⟨hw, c, a, rfl⟩ := bound_wf ok6 hb
    exact cast_to_var hw id ((cast_into_iff hw id ⟨id, Ty.noConfusion⟩).1 h)

/-- Castability is not transitive with the alias `L[A] = list[A]`: `L[int]` can be used for `list[?int]`,
which can be used for `L[?int]`, but `L[int]` cannot be used for `L[?int]`. -/
theorem C104_refuted_alias : ∃ (E : Env) (t1 t2 t3 : Ty), EnvOk E ∧ CovOk E ∧ Castable E t1 t2 ∧ Castable E t2 t3 ∧
    ¬ Castable E t1 t3 := by
  have hC : CovOk env8 := ⟨cov6.leaf, cov6.const⟩
  refine ⟨env8, .con 20 [.con 10 []], .con 12 [.opt (.con 10 [])], .con 20 [.opt (.con 10 [])], ok8, hC,
    ⟨5, by decide +kernel⟩, ⟨5, by decide +kernel⟩, ?_⟩
  rw [castable_step]
  rintro ⟨n, h⟩
  have hf : findAncestor env8 ⟨20, [.con 10 []]⟩ 20 = some ⟨20, [.con 10 []]⟩ := by decide +kernel
  have hn : ¬ (20 ∈ env8.cov) := by decide
  simp only [castStep, hf, true_and, if_neg hn] at h
  revert h
  decide

/-- Castability is not transitive with a subclass of a covariant class: class `13` inherits from
`list[int]`, which can be used for `list[?int]`, but class `13` cannot. -/
theorem C104_refuted_subclass : ∃ (E : Env) (t1 t2 t3 : Ty), EnvOk E ∧ Wf E t1 ∧ Wf E t2 ∧ Wf E t3 ∧
    Castable E t1 t2 ∧ Castable E t2 t3 ∧ ¬ Castable E t1 t3 := by
  have wi : Wf env7 (.con 10 []) := by simp only [Wf, Wfs, and_true]; exact ⟨rfl, _, rfl, rfl⟩
  refine ⟨env7, .con 13 [], .con 12 [.con 10 []], .con 12 [.opt (.con 10 [])], ok7, ?_,
    wf_list (Or.inr rfl) rfl wi, wf_list (Or.inr rfl) rfl (by simp only [Wf]; exact ⟨by simpa only [Wf] using wi, id⟩),
    ⟨5, by decide +kernel⟩, ⟨5, by decide +kernel⟩, ?_⟩
  · simp only [Wf, Wfs, and_true]
    exact ⟨rfl, _, rfl, rfl⟩
  · rw [castable_step]
    rintro ⟨n, h⟩
    have hf : findAncestor env7 ⟨13, []⟩ 12 = some ⟨12, [.con 10 []]⟩ := by decide +kernel
    have hn : ¬ (13 = 12 ∧ 13 ∈ env7.cov) := by decide
    simp only [castStep, hf, if_neg hn] at h
    revert h
    decide

/-- A wildcard in place of an argument does not stand for the argument when a class is compared with an
ancestor (Env.hs:1076): class `13` can be used for `list[int]` and `list[int]` for `list[_]`, but class
`13` cannot be used for `list[_]`. The solver asks this question in `headcast` (Solver.hs:231). -/
theorem C104_refuted_wildcard : ∃ (E : Env) (t : Ty) (c : Nat) (u : Ty), EnvOk E ∧ Castable E t (.con c [u]) ∧
    Castable E (.con c [u]) (.con c [.wild]) ∧ ¬ Castable E t (.con c [.wild]) := by
  refine ⟨env7, .con 13 [], 12, .con 10 [], ok7, ⟨5, by decide +kernel⟩, ⟨5, by decide +kernel⟩, ?_⟩
  rw [castable_step]
  rintro ⟨n, h⟩
  have hf : findAncestor env7 ⟨13, []⟩ 12 = some ⟨12, [.con 10 []]⟩ := by decide +kernel
  have hn : ¬ (13 = 12 ∧ 13 ∈ env7.cov) := by decide
  simp only [castStep, hf, if_neg hn] at h
  revert h
  decide

/-- `lub` of two instances of a generic class is the first one (Env.hs:1230), which the second cannot be
used for: `lub list[int] list[str] = list[int]`. -/
theorem C105_refuted_args : ∃ (E : Env) (t1 t2 t : Ty), EnvOk E ∧ CovOk E ∧ Wf E t1 ∧ Wf E t2 ∧
    lub E 1 t1 t2 = some t ∧ ¬ Castable E t2 t := by
  refine ⟨env6, .con 12 [.con 10 []], .con 12 [.con 11 []], .con 12 [.con 10 []], ok6, cov6,
    wf_list (Or.inl rfl) rfl wf_int6, wf_list (Or.inl rfl) rfl wf_str6, by decide +kernel, ?_⟩
  rw [cast_con ok6 (wf_list (Or.inl rfl) rfl wf_str6) (wf_list (Or.inl rfl) rfl wf_int6)]
  rintro (⟨_, _, h⟩ | ⟨h, _⟩)
  · cases h with
    | cons h _ =>
      rw [cast_plain ok6 plain6 (simple6 true (n := 11) (by decide)).2 (simple6 true (n := 10) (by decide)).2] at h
      revert h
      decide +kernel
  · exact h (by decide)

/-- The function types from `?int` and from `?str`. -/
def fnOpt (c : Nat) : Ty := .fn (.fx .pure) (.row .prow 0 (.opt (.con c [])) (.nil .prow)) (.nil .krow) (.con 10 [])

theorem simple_fnOpt {c : Nat} (h : c ∈ [0, 10, 11, 14, 15, 16]) : Simple env6 true (fnOpt c) := by
  have h1 := simple6 false h
  have h2 := simple6 true (n := 10) (by decide)
  simp only [fnOpt, Simple, Bool.not_true, true_and, and_true]
  refine ⟨⟨_, rfl⟩, ⟨?_, id, Ty.noConfusion, fun _ => id⟩, ?_⟩
  · simpa only [Simple, true_and] using h1
  · simpa only [Simple, true_and] using h2

theorem glb_int_str : ∀ n, glb env6 n (.con 10 []) (.con 11 []) = none := by
  intro n
  cases n with
  | zero => rfl
  | succ n =>
    have h : glbCon env6 ⟨10, []⟩ ⟨11, []⟩ = none := by decide +kernel
    have h1 : ∀ c, expand env6 c [] = none := fun _ => rfl
    simp [glb, glbStep, h, h1]

theorem glb_opt_int_str : ∀ n, glb env6 n (.opt (.con 10 [])) (.opt (.con 11 [])) = none := by
  intro n
  cases n with
  | zero => rfl
  | succ n => simp [glb, glbStep, glbRest, glb_int_str n]

/-- `lub` finds no bound of the functions that take `?int` and the functions that take `?str`, though both
can be used for functions that take `None`. -/
theorem C105_refuted_exists : ∃ (E : Env) (t1 t2 u : Ty), EnvOk E ∧ CovOk E ∧ Plain E ∧ Simple E true t1 ∧
    Simple E true t2 ∧ Wf E u ∧ Castable E t1 u ∧ Castable E t2 u ∧ ∀ n, lub E n t1 t2 = none := by
  refine ⟨env6, fnOpt 10, fnOpt 11,
    .fn (.fx .pure) (.row .prow 0 .none_ (.nil .prow)) (.nil .krow) (.con 10 []), ok6, cov6, plain6,
    simple_fnOpt (by decide), simple_fnOpt (by decide), ?_, ⟨6, by decide +kernel⟩, ⟨6, by decide +kernel⟩, ?_⟩
  · have := wf_int6
    simp only [Wf] at this ⊢
    simpa using this
  · intro n
    cases n with
    | zero => rfl
    | succ n =>
      have hp : ∀ m, glb2 env6 m (.row .prow 0 (.opt (.con 10 [])) (.nil .prow)) (.nil .krow)
          (.row .prow 0 (.opt (.con 11 [])) (.nil .prow)) (.nil .krow) = none := by
        intro m
        cases m with
        | zero => rfl
        | succ m => simp [glb2, glb2Step, glb_opt_int_str m]
      simp only [lub, fnOpt, lubStep, lubRest, hp n]
      cases lub env6 n (.fx .pure) (.fx .pure) <;> rfl

/-- `glb` of `None` and a class is `None`, which cannot be used for the class (Env.hs:1162). -/
theorem C106_refuted_none : ∃ (E : Env) (t : Ty), EnvOk E ∧ CovOk E ∧ Plain E ∧ Simple E false t ∧
    glb E 1 .none_ t = some .none_ ∧ ¬ Castable E .none_ t := by
  refine ⟨env6, .con 10 [], ok6, cov6, plain6, simple6 false (by decide), by decide +kernel, ?_⟩
  rw [none_le wf_int6]
  rintro (h | h)
  · cases h
  · exact h

/-- `glb` of `?T` and `T` is `T`, which cannot be used for `?T`. -/
theorem C106_refuted_variable : ∃ (E : Env) (v : Nat), EnvOk E ∧ CovOk E ∧ Plain E ∧
    glb E 2 (.opt (.var v)) (.var v) = some (.var v) ∧ ¬ Castable E (.var v) (.opt (.var v)) := by
  refine ⟨env6, 7, ok6, cov6, plain6, by decide +kernel, ?_⟩
  rw [cast_var_iff ok6 (by simp [Wf, Ty.IsOpt])]
  rintro (h | ⟨t, hb, h⟩)
  · cases h
  · obtain ⟨hw, c, a, rfl⟩ := bound_wf ok6 hb
    exact cast_to_var hw id ((cast_into_iff hw id ⟨id, Ty.noConfusion⟩).1 h)

/-- `glb` finds no bound of a type variable and the class that bounds it, though the variable can be used
for both: it has no clause for type variables (Env.hs:1135-1136), as `lub` has (Env.hs:1223-1224). -/
theorem C106_refuted_bound : ∃ (E : Env) (t1 t2 : Ty), EnvOk E ∧ CovOk E ∧ Plain E ∧ Simple E false t1 ∧
    Simple E false t2 ∧ Castable E t1 t2 ∧ ∀ n, glb E n t1 t2 = none := by
  refine ⟨env6, .var 7, .con 14 [], ok6, cov6, plain6, trivial, simple6 false (by decide),
    ⟨5, by decide +kernel⟩, ?_⟩
  intro n
  cases n with
  | zero => rfl
  | succ n => simp [glb, glbStep, glbRest, expand, env6]

/-- `glb` finds no bound of `?int` and `?str`, though `None` can be used for both. -/
theorem C106_refuted_option : ∃ (E : Env) (t1 t2 : Ty), EnvOk E ∧ CovOk E ∧ Plain E ∧ Simple E false t1 ∧
    Simple E false t2 ∧ Castable E .none_ t1 ∧ Castable E .none_ t2 ∧ ∀ n, glb E n t1 t2 = none := by
  have h : ∀ c ∈ [0, 10, 11, 14, 15, 16], Simple env6 false (.opt (.con c [])) := by
    intro c hc
    have := simple6 false hc
    simp only [Simple] at this ⊢
    exact ⟨this, id, Ty.noConfusion, fun _ => id⟩
  exact ⟨env6, .opt (.con 10 []), .opt (.con 11 []), ok6, cov6, plain6, h 10 (by decide), h 11 (by decide),
    ⟨1, by decide +kernel⟩, ⟨1, by decide +kernel⟩, glb_opt_int_str⟩

/-! ### The hypotheses hold in real cases -/

/-- C104: class `15` below `14` below `?14`; lists of them. -/
example : Castable env6 (.con 12 [.con 15 []]) (.con 12 [.con 14 []]) ∧
    Castable env6 (.con 12 [.con 14 []]) (.con 12 [.opt (.con 14 [])]) :=
  ⟨⟨4, by decide +kernel⟩, ⟨4, by decide +kernel⟩⟩
example : EnvOk env6 ∧ CovOk env6 ∧ Wf env6 (.con 12 [.con 15 []]) ∧ ¬ IsVar (.con 12 [.con 15 []]) :=
  ⟨ok6, cov6, wf_list (Or.inl rfl) rfl (simple_wf (simple6 true (by decide))), id⟩

/-- C105 and C106: the classes `15` and `16` are bounded by `14`; functions from `?14` and `?15`. -/
example : lub env6 2 (.con 15 []) (.con 16 []) = some (.con 14 []) := by decide +kernel
example : lub env6 2 (.var 7) (.con 16 []) = some (.con 14 []) := by decide +kernel
example : lub env6 4 (fnOpt 14) (fnOpt 15) = some (fnOpt 15) := by decide +kernel
example : glb env6 4 (fnOpt 15) (fnOpt 16) = some (fnOpt 14) := by decide +kernel
example : lubfold env6 3 [.con 15 [], .none_, .con 16 []] = some (.opt (.con 14 [])) := by decide +kernel
example : glbfold env6 3 [.opt (.con 14 []), .con 14 [], .opt (.con 16 [])] = some (.con 16 []) := by decide +kernel
example : EnvOk env6 ∧ CovOk env6 ∧ Plain env6 ∧ Simple env6 true (fnOpt 14) :=
  ⟨ok6, cov6, plain6, simple_fnOpt (by decide)⟩

end Verif.Cast
