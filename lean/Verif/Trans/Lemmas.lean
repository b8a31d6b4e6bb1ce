import Verif.Trans.Spec

/-!
# Substitution and reduction of terms without names
-/

namespace Verif.Trans

theorem upr_upr (k : Nat) (f g : Nat → Nat) (i : Nat) :
    upr k f (upr k g i) = upr k (fun j => f (g j)) i := by
  simp only [upr]
  by_cases h : i < k
  · simp [h]
  · simp only [h, if_false]
    rw [if_neg (by omega)]
    simp

namespace Db

theorem ren_congr {s : Srt} (t : Db s) {f g : Nat → Nat} (h : ∀ i, f i = g i) :
    t.ren f = t.ren g := by
  rw [show f = g from funext h]

theorem sub_congr {s : Srt} (t : Db s) {f g : Nat → Db .e} (h : ∀ i, f i = g i) :
    t.sub f = t.sub g := by
  rw [show f = g from funext h]

theorem ren_ren {s : Srt} (t : Db s) (f g : Nat → Nat) :
    (t.ren g).ren f = t.ren fun i => f (g i) := by
  induction t generalizing f g <;> simp only [ren, upr_upr, *]
  all_goals
    first
    | rfl
    | (congr 1; exact ren_congr _ (fun i => upr_upr _ _ _ _))

theorem upr_shift (k : Nat) (f : Nat → Nat) (i : Nat) : upr k f (i + k) = f i + k := by
  rw [upr, if_neg (by omega), Nat.add_sub_cancel]

/-- Substitution after renumbering. -/
theorem sub_ren {s : Srt} (t : Db s) (τ : Nat → Db .e) (f : Nat → Nat) :
    (t.ren f).sub τ = t.sub fun i => τ (f i) := by
  have hup (k : Nat) (f : Nat → Nat) (τ : Nat → Db .e) (i : Nat) :
      up k τ (upr k f i) = up k (fun i => τ (f i)) i := by
    simp only [up, upr]
    by_cases h : i < k
    · simp [h]
    · simp only [h, if_false]
      rw [if_neg (by omega)]
      simp
  induction t generalizing f τ <;> simp only [ren, sub, *]
  all_goals
    first
    | rfl
    | (congr 1; exact sub_congr _ (fun i => hup _ _ _ _))

/-- Renumbering after substitution. -/
theorem ren_sub {s : Srt} (t : Db s) (τ : Nat → Db .e) (f : Nat → Nat) :
    (t.sub τ).ren f = t.sub fun i => (τ i).ren f := by
  have hup (k : Nat) (f : Nat → Nat) (τ : Nat → Db .e) (i : Nat) :
      (up k τ i).ren (upr k f) = up k (fun i => (τ i).ren f) i := by
    simp only [up]
    by_cases h : i < k
    · simp [h, ren, upr]
    · simp only [h, if_false, ren_ren]
      exact ren_congr _ (fun j => upr_shift _ _ _)
  induction t generalizing f τ <;> simp only [ren, sub, *]
  all_goals
    first
    | rfl
    | (congr 1; exact sub_congr _ (fun i => hup _ _ _ _))

theorem up_bvar (k i : Nat) : up k .bvar i = .bvar i := by
  simp only [up, ren]
  split
  · rfl
  · congr 1; omega

theorem sub_bvar {s : Srt} (t : Db s) : t.sub .bvar = t := by
  have hup (k : Nat) : up k .bvar = .bvar := funext (up_bvar k)
  induction t <;> simp only [sub, *]

/-- Moving up and putting in cancel. -/
theorem sub_inst_ren {s : Srt} (t : Db s) (vs : List (Db .e)) :
    (t.ren (· + vs.length)).sub (inst vs) = t := by
  rw [sub_ren]
  conv => rhs; rw [← sub_bvar t]
  exact sub_congr _ (fun i => by simp [inst])

/-! ## Reduction -/

namespace Red

theorem one {s : Srt} {a b : Db s} (h : Step a b) : Red a b := .tail (.refl a) h

theorem trans {s : Srt} {a b c : Db s} (h1 : Red a b) (h2 : Red b c) : Red a c := by
  induction h2 with
  | refl => exact h1
  | tail _ st ih => exact .tail ih st

theorem map {s t : Srt} (F : Db s → Db t) (hF : ∀ {a b}, Step a b → Step (F a) (F b))
    {a b : Db s} (h : Red a b) : Red (F a) (F b) := by
  induction h with
  | refl => exact .refl _
  | tail _ st ih => exact .tail ih (hF st)

theorem lam {k : Nat} {b b' : Db .e} (h : Red b b') : Red (.lam k b) (.lam k b') :=
  map (.lam k) .lam h

theorem call {f f' : Db .e} {as as' : Db .l} (h1 : Red f f') (h2 : Red as as') :
    Red (.call f as) (.call f' as') :=
  (map (.call · as) .callF h1).trans (map (.call f') .callA h2)

theorem node {k : Nat} {as as' : Db .l} (h : Red as as') : Red (.node k as) (.node k as') :=
  map (.node k) .node h

theorem tup {as as' : Db .l} (h : Red as as') : Red (.tup as) (.tup as') := map .tup .tup h

theorem dotI {a a' : Db .e} {i : Nat} (h : Red a a') : Red (.dotI a i) (.dotI a' i) :=
  map (.dotI · i) .dotI h

theorem restI {a a' : Db .e} {i : Nat} (h : Red a a') : Red (.restI a i) (.restI a' i) :=
  map (.restI · i) .restI h

theorem comp {b b' s s' : Db .e} (h1 : Red b b') (h2 : Red s s') :
    Red (.comp b s) (.comp b' s') :=
  (map (.comp · s) .compB h1).trans (map (.comp b') .compS h2)

theorem cons {a a' : Db .e} {as as' : Db .l} (h1 : Red a a') (h2 : Red as as') :
    Red (.cons a as) (.cons a' as') :=
  (map (.cons · as) .consA h1).trans (map (.cons a') .consS h2)

end Red
end Db

/-! ## The meaning of expressions -/

theorem scope_lt {ps : List Nm} {ρ : Nm → Db .e} {x : Nm} (h : x ∈ ps) :
    scope ps ρ x = .bvar (ps.idxOf x) := by simp [scope, h]

theorem scope_ge {ps : List Nm} {ρ : Nm → Db .e} {x : Nm} (h : x ∉ ps) :
    scope ps ρ x = (ρ x).ren (· + ps.length) := by simp [scope, h]

/-- Only the free names matter. -/
theorem Ex.db_congr {s : Srt} (e : Ex s) {ρ ρ' : Nm → Db .e}
    (h : ∀ x ∈ e.free true, ρ x = ρ' x) : e.db ρ = e.db ρ' := by
  induction e generalizing ρ ρ' with
  | var x => exact h x (by simp [free])
  | lam ps b ih =>
    simp only [db]
    congr 1
    refine ih fun x hx => ?_
    by_cases hp : x ∈ ps
    · rw [scope_lt hp, scope_lt hp]
    · rw [scope_ge hp, scope_ge hp, h x (by simp [free, hx, hp])]
  | comp b x s ihb ihs =>
    simp only [db]
    congr 1
    · refine ihb fun y hy => ?_
      by_cases hp : y ∈ [x]
      · rw [scope_lt hp, scope_lt hp]
      · rw [scope_ge hp, scope_ge hp, h y (by simp [free, hy]; simpa using Or.inl hp)]
    · exact ihs fun y hy => h y (by simp [free, hy])
  | nil => rfl
  | call f as ih1 ih2 =>
    simp only [db]
    rw [ih1 fun x hx => h x (by simp [free, hx]), ih2 fun x hx => h x (by simp [free, hx])]
  | cons f as ih1 ih2 =>
    simp only [db]
    rw [ih1 fun x hx => h x (by simp [free, hx]), ih2 fun x hx => h x (by simp [free, hx])]
  | node k as ih => simp only [db]; rw [ih fun x hx => h x (by simp [free, hx])]
  | tup as ih => simp only [db]; rw [ih fun x hx => h x (by simp [free, hx])]
  | dotI a i ih => simp only [db]; rw [ih fun x hx => h x (by simp [free, hx])]
  | restI a i ih => simp only [db]; rw [ih fun x hx => h x (by simp [free, hx])]

theorem scope_sub (ps : List Nm) (ρ : Nm → Db .e) (τ : Nat → Db .e) :
    (fun x => (scope ps ρ x).sub (Db.up ps.length τ)) = scope ps fun x => (ρ x).sub τ := by
  funext x
  by_cases h : x ∈ ps
  · rw [scope_lt h, scope_lt h]
    simp [Db.sub, Db.up, List.idxOf_lt_length_of_mem h]
  · rw [scope_ge h, scope_ge h, Db.sub_ren, Db.ren_sub]
    exact Db.sub_congr _ fun i => by rw [Db.up, if_neg (by omega), Nat.add_sub_cancel]

/-- Substitution commutes with the meaning. -/
theorem Ex.db_sub {s : Srt} (e : Ex s) (ρ : Nm → Db .e) (τ : Nat → Db .e) :
    e.db (fun x => (ρ x).sub τ) = (e.db ρ).sub τ := by
  induction e generalizing ρ τ with
  | lam ps b ih => simp only [db, Db.sub]; rw [← ih, scope_sub]
  | comp b x s ihb ihs =>
    simp only [db, Db.sub]
    rw [ihs, ← ihb]
    exact congrArg (fun f => Db.comp (b.db f) _) (scope_sub [x] ρ τ).symm
  | _ => simp only [db, Db.sub, *]

/-- So does renumbering. -/
theorem Ex.db_ren {s : Srt} (e : Ex s) (ρ : Nm → Db .e) (f : Nat → Nat) :
    e.db (fun x => (ρ x).ren f) = (e.db ρ).ren f := by
  have h {s : Srt} (t : Db s) : t.ren f = t.sub fun i => .bvar (f i) := by
    rw [← Db.sub_ren t .bvar f, Db.sub_bvar]
  simp only [h]
  exact db_sub e ρ _

/-- Putting values in for parameters. -/
theorem Ex.db_inst (e : Ex .e) (ps : List Nm) (ρ : Nm → Db .e) (vs : List (Db .e))
    (hl : vs.length = ps.length) :
    (e.db (scope ps ρ)).sub (Db.inst vs) =
      e.db fun x => if x ∈ ps then Db.inst vs (ps.idxOf x) else ρ x := by
  rw [← db_sub]
  congr 1
  funext x
  by_cases h : x ∈ ps
  · simp [scope, h, Db.sub]
  · simp only [scope, h, if_false]
    rw [← hl, Db.sub_inst_ren]

/-- The meaning of a list of arguments. -/
theorem Ex.db_elems (ρ : Nm → Db .e) : (as : Ex .l) → (as.db ρ).elems = as.elems.map (·.db ρ)
  | .nil => by simp only [db, Db.elems, elems, List.map_nil]
  | .cons a as => by simp only [db, Db.elems, elems, List.map_cons, db_elems ρ as]

theorem Ex.db_ofList (ρ : Nm → Db .e) (as : List (Ex .e)) :
    (Ex.ofList as).db ρ = Db.ofList (as.map (·.db ρ)) := by
  induction as with
  | nil => rfl
  | cons a as ih => simp only [ofList, db, Db.ofList, List.map_cons, ih]

end Verif.Trans
