import Verif.Trans.Sound

/-!
# C112 and C113: simplification keeps the meaning, and the effects
-/

namespace Verif.Trans

/-! ## C112: the result is a reduct -/

/-- C112, where it holds: if the code returns what the repaired code returns, that is a reduct of the
expression with the substitution carried out, whatever the names mean.

Missing: the cases in which the repairs make a difference, see `C112_refuted_*`. -/
theorem C112_reduct_partial {n : Nat} {σ : Sub} {s : Srt} {e e' : Ex s}
    (_ : trans false n σ e = some e') (hr : trans true n σ e = some e') (ρ : Nm → Db .e) :
    Db.Red (e.db (σ.sem ρ)) (e'.db ρ) := trans_good n hr ρ

/-- C112 for the repaired code: four repairs make it hold for all expressions and substitutions. -/
theorem C112_repaired {n : Nat} {σ : Sub} {s : Srt} {e e' : Ex s}
    (h : trans true n σ e = some e') (ρ : Nm → Db .e) :
    Db.Red (e.db (σ.sem ρ)) (e'.db ρ) := trans_good n h ρ

/-- Reduction is not trivial: a name reduces to nothing else. -/
theorem C112_red_cst {x : Nm} {t : Db .e} (h : Db.Red (.cst x) t) : t = .cst x := by
  generalize ha : Db.cst x = a at h
  induction h with
  | refl => rfl
  | tail _ st ih =>
    subst ih
    subst ha
    cases st

/-- Program names for the examples. -/
abbrev x0 : Ex .e := .var (.user 0)
abbrev x1 : Ex .e := .var (.user 1)
abbrev x2 : Ex .e := .var (.user 2)
abbrev x3 : Ex .e := .var (.user 3)
abbrev one : Ex .e := .node 2 .nil
abbrev two : Ex .e := .node 3 .nil
/-- A list of arguments. -/
abbrev args (as : List (Ex .e)) : Ex .l := Ex.ofList as
/-- The sum of two numbers. -/
abbrev add (a b : Ex .e) : Ex .e := .node 0 (args [a, b])

/-- A substitution under a lambda that has to rename its parameter: `x1` for `x0` in
`lambda x1: x0 + x1` is `lambda y1: x1 + y1`. -/
example :
    trans false 9 (Sub.ofPairs [(.user 0, x1)]) (.lam [.user 1] (add x0 x1)) =
      some (.lam [.y 1] (add x1 (.var (.y 1)))) ∧
    trans true 9 (Sub.ofPairs [(.user 0, x1)]) (.lam [.user 1] (add x0 x1)) =
      some (.lam [.y 1] (add x1 (.var (.y 1)))) := by decide +kernel

/-- `(lambda x0: (x0, lambda x1: x0(x1)).1)(x2)` is `x2`. -/
example :
    let e : Ex .e := .call (.lam [.user 0] (.dotI (.tup (args [one,
      .lam [.user 1] (.call x0 (args [x1]))])) 1)) (args [x2])
    trans false 20 Sub.empty e = some x2 ∧ trans true 20 Sub.empty e = some x2 := by decide +kernel

/-- C112 fails: a comprehension captures.  In `(lambda y: sum((lambda x: [x for y in [1, 2]])(y)))(1)`
the inner call becomes `[y for y in [1, 2]]`. -/
theorem C112_refuted_comp : ∃ (e e' : Ex .e), trans false 20 Sub.empty e = some e' ∧
    run 20 e = some (2, []) ∧ run 20 e' = some (3, []) :=
  ⟨.call (.lam [.user 1] (.node 4 (args [.call (.lam [.user 0]
      (.comp x0 (.user 1) (.node 1 (args [one, two])))) (args [x1])]))) (args [one]),
    .node 4 (args [.comp x1 (.user 1) (.node 1 (args [one, two]))]), by decide +kernel,
    by decide +kernel, by decide +kernel⟩

/-- C112 fails: the expression a comprehension draws from is not substituted in.  In
`sum((lambda x: [x for x in x])([1, 2]))` the call becomes `[x for x in x]`, where `x` is unknown. -/
theorem C112_refuted_source : ∃ (e e' : Ex .e), trans false 20 Sub.empty e = some e' ∧
    run 20 e = some (3, []) ∧ ∀ n, run n e' = none := by
  refine ⟨.node 4 (args [.call (.lam [.user 0] (.comp x0 (.user 0) x0))
      (args [.node 1 (args [one, two])])]),
    .node 4 (args [.comp x0 (.user 0) x0]), by decide +kernel, by decide +kernel, fun n => ?_⟩
  match n with
  | 0 => rfl
  | 1 => rfl
  | 2 => rfl
  | 3 => rfl
  | n + 4 => simp [run, args, Ex.ofList, ev, look]

/-- C112 fails: eta-reduction lets a parameter out of its scope.  In
`(lambda f, x: f.0(f, x))((lambda p, q: q,), 1)`, where the selection is one that is not simplified
(an attribute, say), the function becomes `f.0`, where `f` is unknown. -/
theorem C112_refuted_eta : ∃ (e e' : Ex .e), trans false 20 Sub.empty e = some e' ∧
    run 20 e = some (1, []) ∧ ∀ n, run n e' = none := by
  refine ⟨.call (.lam [.user 0, .user 1] (.call (.node 5 (args [x0])) (args [x0, x1])))
      (args [.tup (args [.lam [.user 2, .user 3] x3]), one]),
    .call (.node 5 (args [x0])) (args [.tup (args [.lam [.user 2, .user 3] x3]), one]),
    by decide +kernel, by decide +kernel, fun n => ?_⟩
  match n with
  | 0 => rfl
  | 1 => rfl
  | 2 => rfl
  | 3 => rfl
  | n + 4 => simp [run, args, Ex.ofList, ev, look]

/-- C112 fails: the new name of a parameter captures.  In
`(lambda a, b: (lambda z: lambda a: z(a + b))(lambda x: lambda b: x + a)(1)(2))(1, 1)` the parameter
`a` of the inner lambda becomes `y1`, and then so does `b`, as `y1` does not occur in `x + a`, though
it does in `y1 + b`, which is put in for `x`. -/
theorem C112_refuted_rename : ∃ (e e' : Ex .e), trans false 40 Sub.empty e = some e' ∧
    run 40 e = some (3, []) ∧ run 40 e' = some (4, []) := by
  refine ⟨.call (.lam [.user 0, .user 1] (.call (.call (.call
      (.lam [.user 3] (.lam [.user 0] (.call x3 (args [add x0 x1]))))
      (args [.lam [.user 2] (.lam [.user 1] (add x2 x0))])) (args [one])) (args [two])))
      (args [one, one]), ?_⟩
  exact ⟨add (add two one) one, by decide +kernel, by decide +kernel, by decide +kernel⟩

/-- The repaired code gets all four right. -/
example :
    let e : Ex .e := .call (.lam [.user 0, .user 1] (.call (.call (.call
      (.lam [.user 3] (.lam [.user 0] (.call x3 (args [add x0 x1]))))
      (args [.lam [.user 2] (.lam [.user 1] (add x2 x0))])) (args [one])) (args [two])))
      (args [one, one])
    trans true 40 Sub.empty e = some (add (add one one) one) := by decide +kernel

/-! ## C113: effects -/

/-- No part of the expression can be reduced: no lambda is called, no component is taken from a
tuple, and no lambda passes its parameters on as they are. -/
def Ex.Plain : {s : Srt} → Ex s → Prop
  | _, .var _ => True
  | _, .lam ps b => b.Plain ∧ ∀ f as, b = .call f as → as ≠ Ex.ofList (ps.map .var)
  | _, .call f as => f.Plain ∧ as.Plain ∧ ∀ ps b, f ≠ .lam ps b
  | _, .node _ as => as.Plain
  | _, .tup as => as.Plain
  | _, .dotI a _ => a.Plain ∧ ∀ as, a ≠ .tup as
  | _, .restI a _ => a.Plain ∧ ∀ as, a ≠ .tup as
  | _, .comp b _ s => b.Plain ∧ s.Plain
  | _, .nil => True
  | _, .cons a as => a.Plain ∧ as.Plain

/-- A bound that is enough where nothing is reduced. -/
def Ex.height : {s : Srt} → Ex s → Nat
  | _, .var _ => 1
  | _, .lam _ b => b.height + 1
  | _, .call f as => max f.height as.height + 1
  | _, .node _ as => as.height + 1
  | _, .tup as => as.height + 1
  | _, .dotI a _ => a.height + 1
  | _, .restI a _ => a.height + 1
  | _, .comp b _ s => max b.height s.height + 1
  | _, .nil => 1
  | _, .cons a as => max a.height as.height + 1

theorem lim_empty (ps : List Nm) : Sub.empty.lim ps = Sub.empty := by
  funext x; simp [Sub.lim, Sub.empty]

theorem clashes_empty (ps : List Nm) (b : Ex .e) : clashes false Sub.empty ps b = [] := by
  simp [clashes, lim_empty, Sub.imgFree, Sub.empty]

theorem under_empty (rec : Sub → Ex .e → Option (Ex .e)) (ps : List Nm) (b : Ex .e) :
    under false rec Sub.empty ps b = (rec Sub.empty b).map fun b' => (ps, b') := by
  simp only [under, clashes_empty, renamed, lim_empty]
  have : rename [] = id := rfl
  simp [this, lim_empty]

theorem argsAre_false {ps : List Nm} {as : Ex .l} (h : as ≠ Ex.ofList (ps.map .var)) :
    argsAre ps as = false := by
  cases ha : argsAre ps as with
  | false => rfl
  | true => exact absurd (argsAre_eq ha) h

/-- C113, where nothing can be reduced: the expression stays as it is, so its effects do.

Missing: expressions in which something is reduced, see `C113_refuted_*`. -/
theorem C113_plain_partial {n : Nat} {s : Srt} {e : Ex s} (hp : e.Plain) (hn : e.height ≤ n) :
    trans false n Sub.empty e = some e := by
  induction e generalizing n with
  | var x =>
    match n, hn with
    | n + 1, _ => rfl
  | nil =>
    match n, hn with
    | n + 1, _ => simp only [trans]
  | lam ps b ih =>
    match n, hn with
    | n + 1, hn =>
      simp only [Ex.height, Nat.add_le_add_iff_right] at hn
      simp only [trans, under_empty, ih hp.1 hn, Option.map_some, Option.some.injEq]
      cases b with
      | call f as =>
        simp only [eta, argsAre_false (hp.2 f as rfl), Bool.false_and, Bool.false_eq_true, if_false]
      | _ => rfl
  | call f as ih1 ih2 =>
    match n, hn with
    | n + 1, hn =>
      simp only [Ex.height, Nat.add_le_add_iff_right, Nat.max_le] at hn
      simp only [trans, ih1 hp.1 hn.1, ih2 hp.2.1 hn.2, Option.bind_some]
      cases f with
      | lam ps b => exact absurd rfl (hp.2.2 ps b)
      | _ => rfl
  | node k as ih =>
    match n, hn with
    | n + 1, hn =>
      simp only [Ex.height, Nat.add_le_add_iff_right] at hn
      simp only [trans, ih hp hn, Option.map_some]
  | tup as ih =>
    match n, hn with
    | n + 1, hn =>
      simp only [Ex.height, Nat.add_le_add_iff_right] at hn
      simp only [trans, ih hp hn, Option.map_some]
  | dotI a i ih =>
    match n, hn with
    | n + 1, hn =>
      simp only [Ex.height, Nat.add_le_add_iff_right] at hn
      simp only [trans, ih hp.1 hn, Option.bind_some]
      cases a with
      | tup as => exact absurd rfl (hp.2 as)
      | _ => rfl
  | restI a i ih =>
    match n, hn with
    | n + 1, hn =>
      simp only [Ex.height, Nat.add_le_add_iff_right] at hn
      simp only [trans, ih hp.1 hn, Option.bind_some]
      cases a with
      | tup as => exact absurd rfl (hp.2 as)
      | _ => rfl
  | comp b x s ih1 ih2 =>
    match n, hn with
    | n + 1, hn =>
      simp only [Ex.height, Nat.add_le_add_iff_right, Nat.max_le] at hn
      simp only [trans, transComp, Bool.false_eq_true, if_false, lim_empty, ih1 hp.1 hn.1,
        ih2 hp.2 hn.2, Option.bind_some, Option.map_some]
  | cons a as ih1 ih2 =>
    match n, hn with
    | n + 1, hn =>
      simp only [Ex.height, Nat.add_le_add_iff_right, Nat.max_le] at hn
      simp only [trans, ih1 hp.1 hn.1, ih2 hp.2 hn.2, Option.bind_some, Option.map_some]

/-- A call with effects in its arguments, passed to a name: nothing can be reduced. -/
example : (Ex.lam [.user 0] (.call x1 (args [.node 6 .nil, .dotI x0 1]))).Plain := by
  refine ⟨⟨trivial, ⟨trivial, ⟨trivial, ?_⟩, trivial⟩, ?_⟩, ?_⟩
  · intro as h; cases h
  · intro ps b h; cases h
  · intro f as h; cases h; intro h; cases h

/-- The operations that an expression contains. -/
def Ex.nodes : {s : Srt} → Ex s → List Nat
  | _, .var _ => []
  | _, .lam _ b => b.nodes
  | _, .call f as => f.nodes ++ as.nodes
  | _, .node k as => k :: as.nodes
  | _, .tup as => as.nodes
  | _, .dotI a _ => a.nodes
  | _, .restI a _ => a.nodes
  | _, .comp b _ s => b.nodes ++ s.nodes
  | _, .nil => []
  | _, .cons a as => a.nodes ++ as.nodes

/-- All operations of the expressions put in are among `K`. -/
def Sub.Within (σ : Sub) (K : Nat → Prop) : Prop := ∀ x u, σ x = some u → ∀ k ∈ u.nodes, K k

theorem Sub.Within.lim {σ : Sub} {K : Nat → Prop} (h : σ.Within K) (ps : List Nm) :
    (σ.lim ps).Within K := by
  intro x u hu
  simp only [Sub.lim] at hu
  split at hu
  · cases hu
  · exact h x u hu

theorem renSub_within (s : List (Nm × Nm)) (K : Nat → Prop) : (renSub s).Within K := by
  intro x u hu k hk
  rw [renSub_eq] at hu
  split at hu
  · cases hu
    simp [Ex.nodes] at hk
  · cases hu

theorem pzip_within {fix : Bool} {K : Nat → Prop} {ps : List Nm} {as : Ex .l}
    {s : List (Nm × Ex .e)} (h : pzip fix ps as = some s) (hk : ∀ k ∈ as.nodes, K k) :
    (Sub.ofPairs s).Within K := by
  induction ps generalizing as s with
  | nil =>
    have : s = [] := by
      match as, h with
      | .nil, h => simpa [pzip] using h.symm
      | .cons _ _, h => simp only [pzip] at h; split at h <;> simp_all
    subst this
    intro x u hu
    cases hu
  | cons p ps ih =>
    match as, h with
    | .cons a as, h =>
      simp only [pzip, Option.map_eq_some_iff] at h
      obtain ⟨s', hs', rfl⟩ := h
      simp only [Ex.nodes, List.mem_append] at hk
      intro x u hu
      simp only [Sub.ofPairs] at hu
      split at hu
      · cases hu
        exact fun k hk' => hk k (Or.inl hk')
      · exact ih hs' (fun k hk' => hk k (Or.inr hk')) x u hu
    | .nil, h => simp [pzip] at h

theorem positem_nodes {i : Nat} {as : Ex .l} {r : Ex .e} (h : positem i as = some r) :
    ∀ k ∈ r.nodes, k ∈ as.nodes := by
  induction i generalizing as with
  | zero =>
    match as, h with
    | .cons a as, h =>
      simp only [positem, Option.some.injEq] at h
      subst h
      simp +contextual [Ex.nodes]
    | .nil, h => simp [positem] at h
  | succ i ih =>
    match as, h with
    | .cons a as, h =>
      intro k hk
      simp only [Ex.nodes, List.mem_append]
      exact Or.inr (ih (by simpa [positem] using h) k hk)
    | .nil, h => simp [positem] at h

theorem posrest_nodes {i : Nat} {as r : Ex .l} (h : posrest i as = some r) :
    ∀ k ∈ r.nodes, k ∈ as.nodes := by
  induction i generalizing as r with
  | zero =>
    match as, h with
    | .cons a as, h =>
      simp only [posrest, Option.some.injEq] at h
      subst h
      simp +contextual [Ex.nodes]
    | .nil, h => simp [posrest] at h
  | succ i ih =>
    match as, h with
    | .cons a as, h =>
      simp only [posrest, Option.map_eq_some_iff] at h
      obtain ⟨r', hr', rfl⟩ := h
      intro k hk
      simp only [Ex.nodes, List.mem_append] at hk ⊢
      exact hk.imp id (ih hr' k)
    | .nil, h => simp [posrest] at h

theorem under_within {rec : Sub → Ex .e → Option (Ex .e)} {K : Nat → Prop}
    (hr : ∀ τ b b', rec τ b = some b' → τ.Within K → (∀ k ∈ b.nodes, K k) → ∀ k ∈ b'.nodes, K k)
    {fix : Bool} {σ : Sub} {ps : List Nm} {b : Ex .e} {r : List Nm × Ex .e}
    (h : under fix rec σ ps b = some r) (hσ : σ.Within K) (hb : ∀ k ∈ b.nodes, K k) :
    ∀ k ∈ r.2.nodes, K k := by
  simp only [under, Option.bind_eq_some_iff, Option.map_eq_some_iff] at h
  obtain ⟨b1, h1, b2, h2, rfl⟩ := h
  refine hr _ _ _ h2 ((hσ.lim _).lim _) ?_
  cases hs : clashes fix σ ps b with
  | nil =>
    simp only [hs, renamed, Option.some.injEq] at h1
    exact h1 ▸ hb
  | cons p s =>
    simp only [hs, renamed] at h1
    exact hr _ _ _ h1 (renSub_within _ _) hb

/-- C113, no effect comes from nowhere: every operation in the result is one of the expression or of
the expressions put in. -/
theorem C113_nodes {fix : Bool} {n : Nat} {σ : Sub} {s : Srt} {e e' : Ex s} {K : Nat → Prop}
    (h : trans fix n σ e = some e') (hσ : ∀ x u, σ x = some u → ∀ k ∈ u.nodes, K k)
    (he : ∀ k ∈ e.nodes, K k) : ∀ k ∈ e'.nodes, K k := by
  induction n generalizing σ s with
  | zero => simp [trans] at h
  | succ n ih =>
    have hr : ∀ τ (b b' : Ex .e), trans fix n τ b = some b' → Sub.Within τ K →
        (∀ k ∈ b.nodes, K k) → ∀ k ∈ b'.nodes, K k := fun τ b b' h hτ hb => ih h hτ hb
    cases e with
    | var x =>
      simp only [trans, Option.some.injEq] at h
      subst h
      cases hx : σ x with
      | none => simp [Ex.nodes]
      | some u => simpa using hσ x u hx
    | lam ps b =>
      simp only [trans, Option.map_eq_some_iff] at h
      obtain ⟨r, hu, rfl⟩ := h
      have := under_within hr hu hσ he
      cases hb : r.2 with
      | call f as =>
        rw [hb] at this
        simp only [eta]
        split
        · exact fun k hk => this k (by simp [Ex.nodes, hk])
        · exact this
      | _ => rw [hb] at this; exact this
    | call f as =>
      simp only [trans, Option.bind_eq_some_iff] at h
      obtain ⟨f', hf, as', ha, h⟩ := h
      have h1 := ih hf hσ fun k hk => he k (by simp [Ex.nodes, hk])
      have h2 := ih ha hσ fun k hk => he k (by simp [Ex.nodes, hk])
      have h3 : ∀ k ∈ (Ex.call f' as').nodes, K k := by
        intro k hk
        simp only [Ex.nodes, List.mem_append] at hk
        exact hk.elim (h1 k) (h2 k)
      cases f' with
      | lam ps b =>
        simp only [apply] at h
        cases hz : pzip fix ps as' with
        | none =>
          simp only [hz, Option.some.injEq] at h
          exact h ▸ h3
        | some q =>
          cases q with
          | nil =>
            simp only [hz, Option.some.injEq] at h
            exact h ▸ h1
          | cons p q =>
            simp only [hz] at h
            exact ih h (pzip_within hz h2) h1
      | _ =>
        simp only [apply, Option.some.injEq] at h
        exact h ▸ h3
    | node k as =>
      simp only [trans, Option.map_eq_some_iff] at h
      obtain ⟨as', ha, rfl⟩ := h
      have := ih ha hσ fun k' hk => he k' (by simp [Ex.nodes, hk])
      intro k' hk
      simp only [Ex.nodes, List.mem_cons] at hk
      exact hk.elim (fun e => he k' (by simp [Ex.nodes, e])) (this k')
    | tup as =>
      simp only [trans, Option.map_eq_some_iff] at h
      obtain ⟨as', ha, rfl⟩ := h
      have := ih ha hσ (show ∀ k ∈ as.nodes, K k from he)
      exact this
    | dotI a i =>
      simp only [trans, Option.bind_eq_some_iff] at h
      obtain ⟨a', ha, h⟩ := h
      have := ih ha hσ he
      cases a' with
      | tup as => exact fun k hk => this k (positem_nodes (by simpa [select] using h) k hk)
      | _ =>
        simp only [select, Option.some.injEq] at h
        exact h ▸ this
    | restI a i =>
      simp only [trans, Option.bind_eq_some_iff] at h
      obtain ⟨a', ha, h⟩ := h
      have := ih ha hσ he
      cases a' with
      | tup as =>
        simp only [rest, Option.map_eq_some_iff] at h
        obtain ⟨r, hr', rfl⟩ := h
        exact fun k hk => this k (posrest_nodes hr' k hk)
      | _ =>
        simp only [rest, Option.some.injEq] at h
        exact h ▸ this
    | comp b x s =>
      have hb : ∀ k ∈ b.nodes, K k := fun k hk => he k (by simp [Ex.nodes, hk])
      have hs : ∀ k ∈ s.nodes, K k := fun k hk => he k (by simp [Ex.nodes, hk])
      have fin : ∀ (b' s' : Ex .e) (x' : Nm), (∀ k ∈ b'.nodes, K k) → (∀ k ∈ s'.nodes, K k) →
          ∀ k ∈ (Ex.comp b' x' s').nodes, K k := by
        intro b' s' x' h1 h2 k hk
        simp only [Ex.nodes, List.mem_append] at hk
        exact hk.elim (h1 k) (h2 k)
      simp only [trans, transComp] at h
      split at h
      · simp only [Option.bind_eq_some_iff] at h
        obtain ⟨s', hs', ⟨ps', b'⟩, hu, h⟩ := h
        have h1 := under_within hr hu hσ hb
        have h2 := ih hs' hσ hs
        split at h
        · rename_i heq
          cases heq
          simp only [Option.some.injEq] at h
          exact h ▸ fin _ _ _ h1 h2
        · cases h
      · simp only [Option.bind_eq_some_iff, Option.map_eq_some_iff] at h
        obtain ⟨s', hs', b', hb', rfl⟩ := h
        exact fin _ _ _ (ih hb' (Sub.Within.lim hσ _) hb) (ih hs' (Sub.Within.lim hσ _) hs)
    | nil =>
      simp only [trans, Option.some.injEq] at h
      exact h ▸ he
    | cons a as =>
      simp only [trans, Option.bind_eq_some_iff, Option.map_eq_some_iff] at h
      obtain ⟨a', ha, as', has, rfl⟩ := h
      intro k hk
      simp only [Ex.nodes, List.mem_append] at hk
      exact hk.elim (ih ha hσ (fun k hk => he k (by simp [Ex.nodes, hk])) k)
        (ih has hσ (fun k hk => he k (by simp [Ex.nodes, hk])) k)

/-- Its hypotheses are met by a call that is reduced. -/
example : ∃ e' : Ex .e, trans false 9 Sub.empty (.call (.lam [.user 0] (add x0 one))
    (args [.node 6 .nil])) = some e' ∧ ∀ k ∈ e'.nodes, k ∈ [0, 2, 6] :=
  ⟨add (.node 6 .nil) one, by decide +kernel,
    C113_nodes (fix := false) (n := 9) (σ := Sub.empty)
      (e := .call (.lam [.user 0] (add x0 one)) (args [.node 6 .nil])) (by decide +kernel)
      (fun _ _ h => by cases h) (by decide)⟩

/-- C113 fails: an effect is lost.  `(lambda x: 1)(f())` becomes `1`. -/
theorem C113_refuted_lost : ∃ (e e' : Ex .e), trans false 20 Sub.empty e = some e' ∧
    run 20 e = some (1, [0]) ∧ run 20 e' = some (1, []) :=
  ⟨.call (.lam [.user 0] one) (args [.node 6 .nil]), one, by decide +kernel, by decide +kernel,
    by decide +kernel⟩

/-- C113 fails: an effect takes place twice.  `(lambda x: x + x)(f())` becomes `f() + f()`. -/
theorem C113_refuted_twice : ∃ (e e' : Ex .e), trans false 20 Sub.empty e = some e' ∧
    run 20 e = some (2, [0]) ∧ run 20 e' = some (3, [0, 0]) :=
  ⟨.call (.lam [.user 0] (add x0 x0)) (args [.node 6 .nil]), add (.node 6 .nil) (.node 6 .nil),
    by decide +kernel, by decide +kernel, by decide +kernel⟩

/-- C113 fails: two effects change places.  `(lambda x, y: y + x)(f(), g())` becomes `g() + f()`. -/
theorem C113_refuted_order : ∃ (e e' : Ex .e), trans false 20 Sub.empty e = some e' ∧
    run 20 e = some (3, [0, 1]) ∧ run 20 e' = some (3, [1, 0]) :=
  ⟨.call (.lam [.user 0, .user 1] (add x1 x0)) (args [.node 6 .nil, .node 7 .nil]),
    add (.node 7 .nil) (.node 6 .nil), by decide +kernel, by decide +kernel, by decide +kernel⟩

/-- C113 fails: taking a component drops the effects of the others.  `(f(), 1).1` becomes `1`. -/
theorem C113_refuted_tuple : ∃ (e e' : Ex .e), trans false 20 Sub.empty e = some e' ∧
    run 20 e = some (1, [0]) ∧ run 20 e' = some (1, []) :=
  ⟨.dotI (.tup (args [.node 6 .nil, one])) 1, one, by decide +kernel, by decide +kernel,
    by decide +kernel⟩

end Verif.Trans
