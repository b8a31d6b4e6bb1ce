import Verif.Cast.Bounds

/-! `lub` and `glb` of simple types are bounds, by induction on the depth. -/
namespace Verif.Cast
open Verif.Ty Verif.Mro

/-! ### Structural types -/

theorem fn_le {E : Env} {a b c d u : Ty} (hu : Wf E u) (ho : ¬ Ty.IsOpt u) (h : Castable E (.fn a b c d) u) :
    ∃ a' b' c' d', u = .fn a' b' c' d' ∧ Castable E a a' ∧ Castable E b' b ∧ Castable E c' c ∧ Castable E d d' := by
  rw [castable_step] at h
  obtain ⟨n, h⟩ := h
  cases u <;> simp [castStep, Ty.IsOpt] at h ho
  case wild => simp [Wf] at hu
  case con => simp [expand_wf hu, test] at h
  case fn a' b' c' d' => exact ⟨a', b', c', d', rfl, ⟨n, h.1.1.1⟩, ⟨n, h.1.1.2⟩, ⟨n, h.1.2⟩, ⟨n, h.2⟩⟩

theorem le_fn {E : Env} {a b c d u : Ty} (hu : Wf E u) (hv : ¬ IsVar u) (h : Castable E u (.fn a b c d)) :
    ∃ a' b' c' d', u = .fn a' b' c' d' ∧ Castable E a' a ∧ Castable E b b' ∧ Castable E c c' ∧ Castable E d' d := by
  rw [castable_step] at h
  obtain ⟨n, h⟩ := h
  cases u <;> simp [castStep, IsVar] at h hv
  case wild => simp [Wf] at hu
  case con => simp [expand_wf hu, test] at h
  case fn a' b' c' d' => exact ⟨a', b', c', d', rfl, ⟨n, h.1.1.1⟩, ⟨n, h.1.1.2⟩, ⟨n, h.1.2⟩, ⟨n, h.2⟩⟩

theorem tup_le {E : Env} {a b u : Ty} (hu : Wf E u) (ho : ¬ Ty.IsOpt u) (h : Castable E (.tup a b) u) :
    ∃ a' b', u = .tup a' b' ∧ Castable E a a' ∧ Castable E b b' := by
  rw [castable_step] at h
  obtain ⟨n, h⟩ := h
  cases u <;> simp [castStep, Ty.IsOpt] at h ho
  case wild => simp [Wf] at hu
  case con => simp [expand_wf hu, test] at h
  case tup a' b' => exact ⟨a', b', rfl, ⟨n, h.1⟩, ⟨n, h.2⟩⟩

theorem le_tup {E : Env} {a b u : Ty} (hu : Wf E u) (hv : ¬ IsVar u) (h : Castable E u (.tup a b)) :
    ∃ a' b', u = .tup a' b' ∧ Castable E a' a ∧ Castable E b' b := by
  rw [castable_step] at h
  obtain ⟨n, h⟩ := h
  cases u <;> simp [castStep, IsVar] at h hv
  case wild => simp [Wf] at hu
  case con => simp [expand_wf hu, test] at h
  case tup a' b' => exact ⟨a', b', rfl, ⟨n, h.1⟩, ⟨n, h.2⟩⟩

theorem row_le {E : Env} {k : RKind} {x : Nat} {a b u : Ty} (hu : Wf E u) (ho : ¬ Ty.IsOpt u)
    (h : Castable E (.row k x a b) u) :
    ∃ a' b', u = .row k x a' b' ∧ Castable E a a' ∧ Castable E b b' := by
  rw [castable_step] at h
  obtain ⟨n, h⟩ := h
  cases u <;> simp [castStep, Ty.IsOpt] at h ho
  case wild => simp [Wf] at hu
  case con => simp [expand_wf hu, test] at h
  case row k' x' a' b' =>
    obtain ⟨⟨⟨rfl, rfl⟩, h1⟩, h2⟩ := h
    exact ⟨a', b', rfl, ⟨n, h1⟩, ⟨n, h2⟩⟩

theorem le_row {E : Env} {k : RKind} {x : Nat} {a b u : Ty} (hu : Wf E u) (hv : ¬ IsVar u)
    (h : Castable E u (.row k x a b)) :
    ∃ a' b', u = .row k x a' b' ∧ Castable E a' a ∧ Castable E b' b := by
  rw [castable_step] at h
  obtain ⟨n, h⟩ := h
  cases u <;> simp [castStep, IsVar] at h hv
  case wild => simp [Wf] at hu
  case con => simp [expand_wf hu, test] at h
  case row k' x' a' b' =>
    obtain ⟨⟨⟨rfl, rfl⟩, h1⟩, h2⟩ := h
    exact ⟨a', b', rfl, ⟨n, h1⟩, ⟨n, h2⟩⟩

theorem star_le {E : Env} {k : RKind} {a u : Ty} (hu : Wf E u) (ho : ¬ Ty.IsOpt u)
    (h : Castable E (.star k a) u) : ∃ a', u = .star k a' ∧ Castable E a a' := by
  rw [castable_step] at h
  obtain ⟨n, h⟩ := h
  cases u <;> simp [castStep, Ty.IsOpt] at h ho
  case wild => simp [Wf] at hu
  case con => simp [expand_wf hu, test] at h
  case star k' a' =>
    obtain ⟨rfl, h1⟩ := h
    exact ⟨a', rfl, ⟨n, h1⟩⟩

theorem le_star {E : Env} {k : RKind} {a u : Ty} (hu : Wf E u) (hv : ¬ IsVar u)
    (h : Castable E u (.star k a)) : ∃ a', u = .star k a' ∧ Castable E a' a := by
  rw [castable_step] at h
  obtain ⟨n, h⟩ := h
  cases u <;> simp [castStep, IsVar] at h hv
  case wild => simp [Wf] at hu
  case con => simp [expand_wf hu, test] at h
  case star k' a' =>
    obtain ⟨rfl, h1⟩ := h
    exact ⟨a', rfl, ⟨n, h1⟩⟩

theorem fx_le {E : Env} {f : FX} {u : Ty} (hu : Wf E u) (ho : ¬ Ty.IsOpt u) (h : Castable E (.fx f) u) :
    ∃ g, u = .fx g ∧ castFX f g = true := by
  rw [castable_step] at h
  obtain ⟨n, h⟩ := h
  cases u <;> simp [castStep, Ty.IsOpt] at h ho
  case wild => simp [Wf] at hu
  case con => simp [expand_wf hu, test] at h
  case fx g => exact ⟨g, rfl, h⟩

theorem le_fx {E : Env} {f : FX} {u : Ty} (hu : Wf E u) (hv : ¬ IsVar u) (h : Castable E u (.fx f)) :
    ∃ g, u = .fx g ∧ castFX g f = true := by
  rw [castable_step] at h
  obtain ⟨n, h⟩ := h
  cases u <;> simp [castStep, IsVar] at h hv
  case wild => simp [Wf] at hu
  case con => simp [expand_wf hu, test] at h
  case fx g => exact ⟨g, rfl, h⟩

theorem cast_fx {E : Env} {f g : FX} (h : castFX f g = true) : Castable E (.fx f) (.fx g) :=
  ⟨1, by simpa [castable, castStep] using h⟩

theorem luFX_ok : ∀ f g, castFX f (luFX f g) = true ∧ castFX g (luFX f g) = true ∧
    ∀ h, castFX f h = true → castFX g h = true → castFX (luFX f g) h = true := by
  intro f g
  refine ⟨?_, ?_, ?_⟩
  · cases f <;> cases g <;> rfl
  · cases f <;> cases g <;> rfl
  · intro h; cases f <;> cases g <;> cases h <;> decide

theorem glFX_ok : ∀ f g e, glFX f g = some e → castFX e f = true ∧ castFX e g = true ∧
    ∀ h, castFX h f = true → castFX h g = true → castFX h e = true := by
  intro f g e he
  cases f <;> cases g <;> simp only [glFX, Option.some.injEq, reduceCtorEq] at he <;> subst he <;>
    refine ⟨rfl, rfl, ?_⟩ <;> intro h <;> cases h <;> decide

section
variable {E : Env}

theorem isLub_tup {p1 p2 p : Ty} (w1 : Wf E p1) (w2 : Wf E p2) (w : Wf E p) (h : IsLub E p1 p2 p)
    (hn : Castable E (.nil .krow) (.nil .krow)) :
    IsLub E (.tup p1 (.nil .krow)) (.tup p2 (.nil .krow)) (.tup p (.nil .krow)) := by
  refine ⟨cast_tup h.left hn, cast_tup h.right hn, ?_⟩
  refine least_lift ⟨w1, trivial⟩ ⟨w2, trivial⟩ ⟨w, trivial⟩ ⟨id, Ty.noConfusion⟩ ⟨id, Ty.noConfusion⟩
    ⟨id, Ty.noConfusion⟩ id id id ?_
  intro u hu ho c1 c2
  obtain ⟨a, b, rfl, c1, d1⟩ := tup_le hu ho c1
  obtain ⟨_, _, he, c2, d2⟩ := tup_le hu ho c2
  cases he
  simp only [Wf] at hu
  exact cast_tup (h.least a hu.1 c1 c2) d1

theorem isLub_row {k : RKind} {x : Nat} {t1 t2 t r1 r2 r : Ty} (w1 : Wf E (.row k x t1 r1)) (w2 : Wf E (.row k x t2 r2))
    (w : Wf E (.row k x t r)) (h : IsLub E t1 t2 t) (h' : IsLub E r1 r2 r) :
    IsLub E (.row k x t1 r1) (.row k x t2 r2) (.row k x t r) := by
  refine ⟨cast_row h.left h'.left, cast_row h.right h'.right, ?_⟩
  refine least_lift w1 w2 w ⟨id, Ty.noConfusion⟩ ⟨id, Ty.noConfusion⟩ ⟨id, Ty.noConfusion⟩ id id id ?_
  intro u hu ho c1 c2
  obtain ⟨a, b, rfl, c1, d1⟩ := row_le hu ho c1
  obtain ⟨_, _, he, c2, d2⟩ := row_le hu ho c2
  cases he
  simp only [Wf] at hu
  exact cast_row (h.least a hu.1 c1 c2) (h'.least b hu.2 d1 d2)

theorem isLub_star {k : RKind} {t1 t2 t : Ty} (w1 : Wf E t1) (w2 : Wf E t2) (w : Wf E t) (h : IsLub E t1 t2 t) :
    IsLub E (.star k t1) (.star k t2) (.star k t) := by
  refine ⟨cast_star h.left, cast_star h.right, ?_⟩
  refine least_lift w1 w2 w ⟨id, Ty.noConfusion⟩ ⟨id, Ty.noConfusion⟩ ⟨id, Ty.noConfusion⟩ id id id ?_
  intro u hu ho c1 c2
  obtain ⟨a, rfl, g1⟩ := star_le hu ho c1
  obtain ⟨_, he, g2⟩ := star_le hu ho c2
  cases he
  simp only [Wf] at hu
  exact cast_star (h.least a hu g1 g2)

theorem isLub_fn {e1 e2 e p1 p2 p t1 t2 t : Ty} (w1 : Wf E (.fn e1 p1 (.nil .krow) t1))
    (w2 : Wf E (.fn e2 p2 (.nil .krow) t2)) (w : Wf E (.fn e p (.nil .krow) t)) (he : IsLub E e1 e2 e)
    (hp : IsGlb E p1 p2 p) (ht : IsLub E t1 t2 t) (hn : Castable E (.nil .krow) (.nil .krow)) :
    IsLub E (.fn e1 p1 (.nil .krow) t1) (.fn e2 p2 (.nil .krow) t2) (.fn e p (.nil .krow) t) := by
  refine ⟨cast_fn he.left hp.left hn ht.left, cast_fn he.right hp.right hn ht.right, ?_⟩
  refine least_lift w1 w2 w ⟨id, Ty.noConfusion⟩ ⟨id, Ty.noConfusion⟩ ⟨id, Ty.noConfusion⟩ id id id ?_
  intro u hu ho c1 c2
  obtain ⟨a, b, c, d, rfl, ha1, hb1, hc1, hd1⟩ := fn_le hu ho c1
  obtain ⟨_, _, _, _, heq, ha2, hb2, hc2, hd2⟩ := fn_le hu ho c2
  cases heq
  simp only [Wf] at hu
  exact cast_fn (he.least a hu.1 ha1 ha2) (hp.greatest b hu.2.1 hb1 hb2) hc1 (ht.least d hu.2.2.2 hd1 hd2)

theorem isGlb_tup (hE : EnvOk E) {p1 p2 p : Ty} (w1 : Wf E p1) (w2 : Wf E p2) (w : Wf E p) (h : IsGlb E p1 p2 p)
    (hn : Castable E (.nil .krow) (.nil .krow)) :
    IsGlb E (.tup p1 (.nil .krow)) (.tup p2 (.nil .krow)) (.tup p (.nil .krow)) := by
  refine ⟨cast_tup h.left hn, cast_tup h.right hn, ?_⟩
  refine greatest_lift hE ⟨w1, trivial⟩ ⟨w2, trivial⟩ ⟨w, trivial⟩ id id ?_
  intro u hu hv c1 c2
  obtain ⟨a, b, rfl, c1, d1⟩ := le_tup hu hv c1
  obtain ⟨_, _, he, c2, d2⟩ := le_tup hu hv c2
  cases he
  simp only [Wf] at hu
  exact cast_tup (h.greatest a hu.1 c1 c2) d1

theorem isGlb_row (hE : EnvOk E) {k : RKind} {x : Nat} {t1 t2 t r1 r2 r : Ty} (w1 : Wf E (.row k x t1 r1))
    (w2 : Wf E (.row k x t2 r2)) (w : Wf E (.row k x t r)) (h : IsGlb E t1 t2 t) (h' : IsGlb E r1 r2 r) :
    IsGlb E (.row k x t1 r1) (.row k x t2 r2) (.row k x t r) := by
  refine ⟨cast_row h.left h'.left, cast_row h.right h'.right, ?_⟩
  refine greatest_lift hE w1 w2 w id id ?_
  intro u hu hv c1 c2
  obtain ⟨a, b, rfl, c1, d1⟩ := le_row hu hv c1
  obtain ⟨_, _, he, c2, d2⟩ := le_row hu hv c2
  cases he
  simp only [Wf] at hu
  exact cast_row (h.greatest a hu.1 c1 c2) (h'.greatest b hu.2 d1 d2)

theorem isGlb_star (hE : EnvOk E) {k : RKind} {t1 t2 t : Ty} (w1 : Wf E t1) (w2 : Wf E t2) (w : Wf E t)
    (h : IsGlb E t1 t2 t) : IsGlb E (.star k t1) (.star k t2) (.star k t) := by
  refine ⟨cast_star h.left, cast_star h.right, ?_⟩
  refine greatest_lift hE (t1 := .star k t1) (t2 := .star k t2) (t := .star k t) w1 w2 w id id ?_
  intro u hu hv c1 c2
  obtain ⟨a, rfl, g1⟩ := le_star hu hv c1
  obtain ⟨_, he, g2⟩ := le_star hu hv c2
  cases he
  simp only [Wf] at hu
  exact cast_star (h.greatest a hu g1 g2)

theorem isGlb_fn (hE : EnvOk E) {e1 e2 e p1 p2 p t1 t2 t : Ty} (w1 : Wf E (.fn e1 p1 (.nil .krow) t1))
    (w2 : Wf E (.fn e2 p2 (.nil .krow) t2)) (w : Wf E (.fn e p (.nil .krow) t)) (he : IsGlb E e1 e2 e)
    (hp : IsLub E p1 p2 p) (ht : IsGlb E t1 t2 t) (hn : Castable E (.nil .krow) (.nil .krow)) :
    IsGlb E (.fn e1 p1 (.nil .krow) t1) (.fn e2 p2 (.nil .krow) t2) (.fn e p (.nil .krow) t) := by
  refine ⟨cast_fn he.left hp.left hn ht.left, cast_fn he.right hp.right hn ht.right, ?_⟩
  refine greatest_lift hE w1 w2 w id id ?_
  intro u hu hv c1 c2
  obtain ⟨a, b, c, d, rfl, ha1, hb1, hc1, hd1⟩ := le_fn hu hv c1
  obtain ⟨_, _, _, _, heq, ha2, hb2, hc2, hd2⟩ := le_fn hu hv c2
  cases heq
  simp only [Wf] at hu
  exact cast_fn (he.greatest a hu.1 ha1 ha2) (hp.least b hu.2.1 hb1 hb2) hc1 (ht.greatest d hu.2.2.2 hd1 hd2)

/-! ### The clauses that apply -/

variable {rec_ : Ty → Ty → Option Ty} {rows pars : Ty → Ty → Ty → Ty → Option (Ty × Ty)}

theorem lubStep_rest {t1 t2 : Ty} (h1 : Wf E t1) (h2 : Wf E t2) (v1 : ¬ IsVar t1) (v2 : ¬ IsVar t2)
    (hc : ∀ c a d b, t1 = .con c a → t2 = .con d b → False) :
    lubStep E rec_ rows pars t1 t2 = lubRest rec_ rows pars t1 t2 := by
  cases t1 <;> cases t2 <;> simp only [lubStep, IsVar, not_true_eq_false] at v1 v2 ⊢
  all_goals first
    | exact (hc _ _ _ _ rfl rfl).elim
    | (exfalso; simpa only [Wf] using h1)
    | (exfalso; simpa only [Wf] using h2)
    | rw [expand_wf h1]
    | rw [expand_wf h2]

theorem glbStep_rest {t1 t2 : Ty} (h1 : Wf E t1) (h2 : Wf E t2) (v1 : ¬ (IsVar t1 ∧ IsVar t2))
    (hc : ∀ c a d b, t1 = .con c a → t2 = .con d b → False) :
    glbStep E rec_ rows pars t1 t2 = glbRest rec_ rows pars t1 t2 := by
  cases t1 <;> cases t2 <;> simp only [glbStep, IsVar, and_self, not_true_eq_false] at v1 ⊢
  all_goals first
    | exact (hc _ _ _ _ rfl rfl).elim
    | (exfalso; simpa only [Wf] using h1)
    | (exfalso; simpa only [Wf] using h2)
    | rw [expand_wf h1]
    | rw [expand_wf h2]

theorem lubRest_none_left {t : Ty} (h : Base t) : lubRest rec_ rows pars .none_ t = some (Ty.optOf t) := by
  obtain ⟨ho, hn⟩ := h
  cases t <;> simp [lubRest, Ty.IsOpt] at ho hn ⊢

theorem lubRest_none_right {t : Ty} (h : Base t) : lubRest rec_ rows pars t .none_ = some (Ty.optOf t) := by
  obtain ⟨ho, hn⟩ := h
  cases t <;> simp [lubRest, Ty.IsOpt] at ho hn ⊢

theorem lubRest_opt_left {a t : Ty} (h : Base t) :
    lubRest rec_ rows pars (.opt a) t = (rec_ a t).map Ty.optOf := by
  obtain ⟨ho, hn⟩ := h
  cases t <;> simp [lubRest, Ty.IsOpt] at ho hn ⊢

theorem lubRest_opt_right {a t : Ty} (h : Base t) :
    lubRest rec_ rows pars t (.opt a) = (rec_ t a).map Ty.optOf := by
  obtain ⟨ho, hn⟩ := h
  cases t <;> simp [lubRest, Ty.IsOpt] at ho hn ⊢

theorem glbRest_opt_left {a t : Ty} (h : Base t) : glbRest rec_ rows pars (.opt a) t = rec_ a t := by
  obtain ⟨ho, hn⟩ := h
  cases t <;> simp [glbRest, Ty.IsOpt] at ho hn ⊢

theorem glbRest_opt_right {a t : Ty} (h : Base t) : glbRest rec_ rows pars t (.opt a) = rec_ t a := by
  obtain ⟨ho, hn⟩ := h
  cases t <;> simp [glbRest, Ty.IsOpt] at ho hn ⊢

theorem optOf_base {t : Ty} (h : Base t) : Ty.optOf t = .opt t := by
  obtain ⟨ho, hn⟩ := h
  cases t <;> simp [Ty.optOf, Ty.IsOpt] at ho hn ⊢

/-! ### The induction -/

/-- `lub` to depth `n` gives least upper bounds. -/
def LubOk (E : Env) (f : Ty → Ty → Option Ty) : Prop := ∀ t1 t2 t, Simple E true t1 → Simple E true t2 →
  f t1 t2 = some t → Simple E true t ∧ (Base t1 → Base t2 → Base t) ∧ IsLub E t1 t2 t

/-- `glb` to depth `n` gives greatest lower bounds. -/
def GlbOk (E : Env) (f : Ty → Ty → Option Ty) : Prop := ∀ t1 t2 t, Simple E false t1 → Simple E false t2 →
  f t1 t2 = some t → Simple E false t ∧ (Base t1 → Base t2 → Base t) ∧ (¬ (IsVar t1 ∧ IsVar t2) → ¬ IsVar t) ∧
    IsGlb E t1 t2 t

/-- `lub2` to depth `n`, without keywords. -/
def Lub2Ok (E : Env) (f : Ty → Ty → Ty → Ty → Option (Ty × Ty)) : Prop := ∀ p1 p2 p k, Simple E true p1 →
  Simple E true p2 → f p1 (.nil .krow) p2 (.nil .krow) = some (p, k) →
  Simple E true p ∧ k = .nil .krow ∧ IsLub E p1 p2 p

/-- `glb2` to depth `n`, without keywords. -/
def Glb2Ok (E : Env) (f : Ty → Ty → Ty → Ty → Option (Ty × Ty)) : Prop := ∀ p1 p2 p k, Simple E false p1 →
  Simple E false p2 → f p1 (.nil .krow) p2 (.nil .krow) = some (p, k) →
  Simple E false p ∧ k = .nil .krow ∧ IsGlb E p1 p2 p

theorem nil_le : Castable E (.nil .krow) (.nil .krow) := ⟨1, by simp [castable, castStep]⟩

theorem isLub_refl (hE : EnvOk E) {t : Ty} (h : Wf E t) : IsLub E t t t :=
  ⟨cast_refl hE h, cast_refl hE h, fun _ _ h _ => h⟩

theorem isGlb_refl (hE : EnvOk E) {t : Ty} (h : Wf E t) : IsGlb E t t t :=
  ⟨cast_refl hE h, cast_refl hE h, fun _ _ h _ => h⟩

/-- Replacing a type variable by its bound does not change the least upper bound with another type. -/
theorem isLub_var (hE : EnvOk E) {v : Nat} {b t2 t : Ty} (hb : boundTy E v = some b) (h2 : Wf E t2) (ht : Wf E t)
    (hne : t2 ≠ .var v) (h : IsLub E b t2 t) : IsLub E (.var v) t2 t := by
  refine ⟨cast_var hE hb ht h.left, h.right, ?_⟩
  intro u hu c1 c2
  rcases (cast_var_iff hE hu).1 c1 with rfl | ⟨b', hb', c1⟩
  · exfalso
    by_cases hv : IsVar t2
    · cases t2 <;> simp only [IsVar] at hv
      rename_i w
      rcases (cast_var_iff hE hu).1 c2 with heq | ⟨s, hs, c2⟩
      · exact hne heq.symm
      · obtain ⟨hw, c, a, rfl⟩ := bound_wf hE hs
        exact cast_to_var hw id c2
    · exact cast_to_var h2 hv c2
  · rw [hb] at hb'
    cases hb'
    exact h.least u hu c1 c2

theorem IsLub.symm {t1 t2 t : Ty} (h : IsLub E t1 t2 t) : IsLub E t2 t1 t :=
  ⟨h.right, h.left, fun u hu a b => h.least u hu b a⟩

theorem IsGlb.symm {t1 t2 t : Ty} (h : IsGlb E t1 t2 t) : IsGlb E t2 t1 t :=
  ⟨h.right, h.left, fun u hu a b => h.greatest u hu b a⟩

/-- An option and another type. -/
theorem isLub_opt {a t2 s : Ty} (h2 : Wf E t2) (b2 : Base t2) (v2 : ¬ IsVar t2)
    (h : IsLub E a t2 s) : IsLub E (.opt a) t2 (.opt s) := by
  refine ⟨cast_opt h.left, (cast_into_iff h2 v2 b2).2 h.right, ?_⟩
  intro u hu c1 c2
  obtain ⟨u', rfl, g1⟩ := (cast_opt_iff hu).1 c1
  simp only [Wf] at hu
  exact cast_opt (h.least u' hu.1 g1 ((cast_into_iff h2 v2 b2).1 c2))

theorem isLub_opts {a b s : Ty} (h : IsLub E a b s) : IsLub E (.opt a) (.opt b) (.opt s) := by
  refine ⟨cast_opt h.left, cast_opt h.right, ?_⟩
  intro u hu c1 c2
  obtain ⟨u1, rfl, g1⟩ := (cast_opt_iff hu).1 c1
  obtain ⟨u2, heq, g2⟩ := (cast_opt_iff hu).1 c2
  cases heq
  simp only [Wf] at hu
  exact cast_opt (h.least u1 hu.1 g1 g2)

theorem isLub_none (hE : EnvOk E) {t2 : Ty} (h2 : Wf E t2) (b2 : Base t2) (v2 : ¬ IsVar t2) :
    IsLub E .none_ t2 (.opt t2) := by
  have hw : Wf E (.opt t2) := by simp only [Wf]; exact ⟨h2, b2.1⟩
  refine ⟨(none_le hw).2 (Or.inr trivial), (cast_into_iff h2 v2 b2).2 (cast_refl hE h2), ?_⟩
  intro u hu c1 c2
  rcases (none_le hu).1 c1 with rfl | ho
  · exact absurd ((le_none h2 v2).1 c2) b2.2
  · cases u <;> simp only [Ty.IsOpt] at ho
    exact cast_opt ((cast_into_iff h2 v2 b2).1 c2)

theorem isLub_none_opt {a : Ty} (hE : EnvOk E) (ha : Wf E (.opt a)) : IsLub E .none_ (.opt a) (.opt a) :=
  ⟨(none_le ha).2 (Or.inr trivial), cast_refl hE ha, fun _ _ _ h => h⟩

theorem isGlb_opts (hE : EnvOk E) {a b s : Ty} (ha : Wf E (.opt a)) (hb : Wf E (.opt b)) (hs : Wf E (.opt s))
    (h : IsGlb E a b s) : IsGlb E (.opt a) (.opt b) (.opt s) := by
  refine ⟨cast_opt h.left, cast_opt h.right, ?_⟩
  refine greatest_lift hE ha hb hs id id ?_
  intro u hu hv c1 c2
  by_cases ho : Ty.IsOpt u
  · cases u <;> simp only [Ty.IsOpt] at ho
    obtain ⟨_, h1, c1⟩ := (cast_opt_iff ha).1 c1
    cases h1
    obtain ⟨_, h2, c2⟩ := (cast_opt_iff hb).1 c2
    cases h2
    simp only [Wf] at hu
    exact cast_opt (h.greatest _ hu.1 c1 c2)
  · by_cases hn : u = .none_
    · subst hn
      exact (none_le hs).2 (Or.inr trivial)
    · exact (cast_into_iff hu hv ⟨ho, hn⟩).2 (h.greatest u hu ((cast_into_iff hu hv ⟨ho, hn⟩).1 c1)
        ((cast_into_iff hu hv ⟨ho, hn⟩).1 c2))

theorem isGlb_opt (hE : EnvOk E) {a t2 s : Ty} (ha : Wf E (.opt a)) (h2 : Wf E t2) (b2 : Base t2)
    (hs : Wf E s) (bs : Base s) (vs : ¬ IsVar s) (h : IsGlb E a t2 s) : IsGlb E (.opt a) t2 s := by
  have ha' : Wf E a := by simp only [Wf] at ha; exact ha.1
  refine ⟨(cast_into_iff hs vs bs).2 h.left, h.right, ?_⟩
  intro u hu c1 c2
  refine h.greatest u hu ?_ c2
  -- `u` is below `a`
  by_cases hv : IsVar u
  · cases u <;> simp only [IsVar] at hv
    rcases (cast_var_iff hE ha).1 c1 with heq | ⟨b, hb, c1⟩
    · cases heq
    · obtain ⟨hw, c, x, rfl⟩ := bound_wf hE hb
      exact cast_var hE hb ha' ((cast_into_iff hw id ⟨id, Ty.noConfusion⟩).1 c1)
  · by_cases ho : Ty.IsOpt u
    · cases u <;> simp only [Ty.IsOpt] at ho
      obtain ⟨x, rfl, _⟩ := (cast_opt_iff h2).1 c2
      exact absurd trivial b2.1
    · by_cases hn : u = .none_
      · subst hn
        rcases (none_le h2).1 c2 with rfl | h
        · exact absurd rfl b2.2
        · exact absurd h b2.1
      · exact (cast_into_iff hu hv ⟨ho, hn⟩).1 c1

end

end Verif.Cast
