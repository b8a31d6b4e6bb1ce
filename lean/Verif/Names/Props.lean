import Verif.Names.Lemmas

/-! C85: different names have different C identifiers. C86: the identifiers are C
identifiers and no keywords. -/
namespace Verif.Names

theorem cid_complx : cid complx = complx ∧ cid complxM = complxM ∧ cid complex_ = complex_ ∧
    cid complexM = complexM := by decide +kernel

theorem mkCident_inj {s s' r : Txt} (hs : Free s) (hs' : Free s') (h : mkCident s = some r)
    (h' : mkCident s' = some r) : s = s' := by
  have k1 : ∀ {t}, Free t → cid t = complx → t = complx := by
    intro t ht he
    exact cid_inj ht.x (by rintro ⟨p, q, e⟩; have : 88 ∈ complx := by rw [e]; simp
                           simp [complx] at this) (by rw [he, cid_complx.1])
  have k2 : ∀ {t}, Free t → cid t = complxM → t = complxM := by
    intro t ht he
    exact cid_inj ht.x (by rintro ⟨p, q, e⟩; have : 88 ∈ complxM := by rw [e]; simp
                           simp [complxM] at this) (by rw [he, cid_complx.2.1])
  have k3 : ∀ {t}, Free t → cid t ≠ aComplex := by
    intro t ht he
    exact ht.a (has_cid (by omega) (by omega) (by rw [he]; exact ⟨[], _, rfl⟩))
  have k4 : ∀ {t}, Free t → cid t ≠ aComplexM := by
    intro t ht he
    exact ht.a (has_cid (by omega) (by omega) (by rw [he]; exact ⟨[], _, rfl⟩))
  have d1 : complx ≠ complxM := by decide
  have d2 : complx ≠ aComplex := by decide
  have d3 : complx ≠ aComplexM := by decide
  have d4 : complxM ≠ aComplex := by decide
  have d5 : complxM ≠ aComplexM := by decide
  have d6 : aComplex ≠ aComplexM := by decide
  rcases mkCident_cases h with ⟨e, f⟩ | ⟨e, f⟩ | ⟨e, f⟩ | ⟨e, f⟩ | ⟨e0, e1, e2, e3, e4, f⟩ <;>
  rcases mkCident_cases h' with
    ⟨e', f'⟩ | ⟨e', f'⟩ | ⟨e', f'⟩ | ⟨e', f'⟩ | ⟨e0', e1', e2', e3', e4', f'⟩
  · rw [e, e']
  · exact absurd (f.symm.trans f') d1
  · exact absurd (f.symm.trans f') d2
  · exact absurd (f.symm.trans f') d3
  · exact absurd (k1 hs' (f'.symm.trans f)) e3'
  · exact absurd (f'.symm.trans f) d1
  · rw [e, e']
  · exact absurd (f.symm.trans f') d4
  · exact absurd (f.symm.trans f') d5
  · exact absurd (k2 hs' (f'.symm.trans f)) e4'
  · exact absurd (f'.symm.trans f) d2
  · exact absurd (f'.symm.trans f) d4
  · rw [e, e']
  · exact absurd (f.symm.trans f') d6
  · exact absurd (f'.symm.trans f) (k3 hs')
  · exact absurd (f'.symm.trans f) d3
  · exact absurd (f'.symm.trans f) d5
  · exact absurd (f'.symm.trans f) d6
  · rw [e, e']
  · exact absurd (f'.symm.trans f) (k4 hs')
  · exact absurd (k1 hs (f.symm.trans f')) e3
  · exact absurd (k2 hs (f.symm.trans f')) e4
  · exact absurd (f.symm.trans f') (k3 hs)
  · exact absurd (f.symm.trans f') (k4 hs)
  · exact cid_inj hs.x hs'.x (f.symm.trans f')

/-- What is known of the identifier of a plain name before keywords are treated. -/
theorem mkCident_free {s r : Txt} (hs : Free s) (h : mkCident s = some r) :
    ¬ Has 66 r ∧ ¬ Has 81 r ∧ r ≠ [] ∧ r.head? ≠ some 36 ∧
    (Has 65 r → r = aComplex ∨ r = aComplexM) := by
  have hno : ∀ (a : Nat) (t : Txt), a ∉ t → ¬ Has a t := by
    rintro a t ha ⟨p, q, e⟩
    exact ha (by rw [e]; simp)
  rcases mkCident_cases h with ⟨e, f⟩ | ⟨e, f⟩ | ⟨e, f⟩ | ⟨e, f⟩ | ⟨e0, e1, e2, e3, e4, f⟩
  · subst f
    exact ⟨hno _ _ (by decide), hno _ _ (by decide), by decide, by decide,
      fun hh => absurd hh (hno _ _ (by decide))⟩
  · subst f
    exact ⟨hno _ _ (by decide), hno _ _ (by decide), by decide, by decide,
      fun hh => absurd hh (hno _ _ (by decide))⟩
  · subst f
    exact ⟨hno _ _ (by decide), hno _ _ (by decide), by decide, by decide, fun _ => Or.inl rfl⟩
  · subst f
    exact ⟨hno _ _ (by decide), hno _ _ (by decide), by decide, by decide, fun _ => Or.inr rfl⟩
  · subst f
    refine ⟨fun hh => hs.b (has_cid (by omega) (by omega) hh),
      fun hh => hs.q (has_cid (by omega) (by omega) hh), ?_, ?_,
      fun hh => absurd (has_cid (by omega) (by omega) hh) hs.a⟩
    · cases s with
      | nil => exact absurd rfl e0
      | cons c s =>
        simp only [cid]
        by_cases hc : isAlpha c = true
        · rw [if_pos hc]; simp
        · rw [if_neg hc]; simp [hex]
    · cases s with
      | nil => exact absurd rfl e0
      | cons c s =>
        simp only [cid]
        have := hs.d
        by_cases hc : isAlpha c = true
        · rw [if_pos hc]; simpa using this
        · rw [if_neg hc]; simp [hex]

theorem unC_inj {r r' : Txt} (h : unCkeyword r = unCkeyword r')
    (hr : Has 65 r → r = aComplex ∨ r = aComplexM)
    (hr' : Has 65 r' → r' = aComplex ∨ r' = aComplexM) : r = r' := by
  have hkw : complex_ ∉ cKeywords ∧ complexM ∉ cKeywords := by decide
  have key : ∀ {x y : Txt}, x ∈ cKeywords → (Has 65 y → y = aComplex ∨ y = aComplexM) →
      [65, 95] ++ x = y → False := by
    intro x y hx hy e
    rcases hy ⟨[], x, e.symm⟩ with e' | e'
    · rw [e'] at e
      have : x = complex_ := by
        have : ([65, 95] ++ x).drop 2 = aComplex.drop 2 := by rw [e]
        simpa [aComplex, complex_] using this
      exact hkw.1 (this ▸ hx)
    · rw [e'] at e
      have : x = complexM := by
        have : ([65, 95] ++ x).drop 2 = aComplexM.drop 2 := by rw [e]
        simpa [aComplexM, complexM] using this
      exact hkw.2 (this ▸ hx)
  unfold unCkeyword at h
  by_cases h1 : r ∈ cKeywords
  · rw [if_pos h1] at h
    by_cases h2 : r' ∈ cKeywords
    · rw [if_pos h2] at h; simpa using h
    · rw [if_neg h2] at h; exact (key h1 hr' h).elim
  · rw [if_neg h1] at h
    by_cases h2 : r' ∈ cKeywords
    · rw [if_pos h2] at h; exact (key h2 hr h.symm).elim
    · rw [if_neg h2] at h; exact h

theorem genName_cases {n : Name} {r : Txt} (h : genName n = some r) :
    ∃ s, mkCident (nstr n) = some s ∧ r = unCkeyword s := by
  unfold genName at h
  cases hm : mkCident (nstr n) with
  | none => rw [hm] at h; cases h
  | some s => rw [hm] at h; exact ⟨s, rfl, (Option.some.inj h).symm⟩

theorem genName_some {n : Name} (h : nstr n ≠ []) : ∃ r, genName n = some r := by
  obtain ⟨s, hs⟩ := mkCident_some h
  exact ⟨unCkeyword s, by unfold genName; rw [hs]; rfl⟩

theorem genName_inj {n n' : Name} {r : Txt} (hn : Plain n) (hn' : Plain n')
    (h : genName n = some r) (h' : genName n' = some r) : n = n' := by
  obtain ⟨s, hs, e⟩ := genName_cases h
  obtain ⟨s', hs', e'⟩ := genName_cases h'
  have f := nstr_free hn
  have f' := nstr_free hn'
  have := unC_inj (e ▸ e') (mkCident_free f hs).2.2.2.2 (mkCident_free f' hs').2.2.2.2
  subst this
  exact nstr_inj hn hn' (mkCident_inj f f' hs hs')

theorem genName_free {n : Name} {r : Txt} (hn : Plain n) (h : genName n = some r) :
    ¬ Has 66 r ∧ ¬ Has 81 r ∧ r ≠ [] ∧ r.head? ≠ some 36 := by
  obtain ⟨s, hs, rfl⟩ := genName_cases h
  obtain ⟨h1, h2, h3, h4, _⟩ := mkCident_free (nstr_free hn) hs
  unfold unCkeyword
  by_cases hk : s ∈ cKeywords
  · rw [if_pos hk]
    refine ⟨?_, ?_, by simp, by simp⟩
    · intro hh
      simp only [List.cons_append, List.nil_append] at hh
      rw [has_cons, has_cons] at hh
      rcases hh with ⟨e, _⟩ | ⟨e, _⟩ | hh
      · omega
      · omega
      · exact h1 hh
    · intro hh
      simp only [List.cons_append, List.nil_append] at hh
      rw [has_cons, has_cons] at hh
      rcases hh with ⟨e, _⟩ | ⟨e, _⟩ | hh
      · omega
      · omega
      · exact h2 hh
  · rw [if_neg hk]; exact ⟨h1, h2, h3, h4⟩

theorem genParts_cases {m : List Name} {ps : List Txt} (h : genParts m = some ps) :
    (m = [] ∧ ps = []) ∨ ∃ n ns s r, m = n :: ns ∧ ps = s :: r ∧ genName n = some s ∧
      genParts ns = some r := by
  cases m with
  | nil => left; exact ⟨rfl, (Option.some.inj h).symm⟩
  | cons n ns =>
    right
    simp only [genParts] at h
    cases hn : genName n with
    | none => rw [hn] at h; cases h
    | some s =>
      cases hr : genParts ns with
      | none => rw [hn, hr] at h; cases h
      | some r =>
        rw [hn, hr] at h
        exact ⟨n, ns, s, r, rfl, (Option.some.inj h).symm, hn, hr⟩

theorem genParts_some {m : List Name} (h : ∀ n ∈ m, nstr n ≠ []) :
    ∃ ps, genParts m = some ps := by
  induction m with
  | nil => exact ⟨[], rfl⟩
  | cons n m ih =>
    obtain ⟨ps, hp⟩ := ih (fun x hx => h x (List.mem_cons_of_mem _ hx))
    obtain ⟨s, hs⟩ := genName_some (h n (by simp))
    exact ⟨s :: ps, by simp only [genParts]; rw [hs, hp]; rfl⟩

theorem genParts_free {m : List Name} (hm : ∀ n ∈ m, Plain n) : ∀ {ps : List Txt},
    genParts m = some ps → (∀ p ∈ ps, ¬ Has 66 p ∧ ¬ Has 81 p ∧ p ≠ [] ∧ p.head? ≠ some 36) ∧
      (ps = [] → m = []) := by
  induction m with
  | nil =>
    intro ps h
    rcases genParts_cases h with ⟨_, rfl⟩ | ⟨n, ns, s, r, e, _⟩
    · exact ⟨by simp, fun _ => rfl⟩
    · cases e
  | cons x m ih =>
    intro ps h
    rcases genParts_cases h with ⟨e, _⟩ | ⟨n, ns, s, r, e, rfl, h1, h2⟩
    · cases e
    · cases e
      obtain ⟨g, _⟩ := ih (fun y hy => hm y (List.mem_cons_of_mem _ hy)) h2
      refine ⟨?_, by simp⟩
      intro p hp
      rcases List.mem_cons.mp hp with rfl | hp
      · exact genName_free (hm x (by simp)) h1
      · exact g p hp

theorem genParts_inj {m m' : List Name} (hm : ∀ n ∈ m, Plain n) (hm' : ∀ n ∈ m', Plain n)
    {ps : List Txt} (h : genParts m = some ps) (h' : genParts m' = some ps) : m = m' := by
  induction m generalizing m' ps with
  | nil =>
    rcases genParts_cases h with ⟨_, rfl⟩ | ⟨n, ns, s, r, e, _⟩
    · rcases genParts_cases h' with ⟨rfl, _⟩ | ⟨n, ns, s, r, _, e, _⟩
      · rfl
      · cases e
    · cases e
  | cons x m ih =>
    rcases genParts_cases h with ⟨e, _⟩ | ⟨n, ns, s, r, e, rfl, h1, h2⟩
    · cases e
    · cases e
      rcases genParts_cases h' with ⟨_, e⟩ | ⟨n', ns', s', r', rfl, e, h1', h2'⟩
      · cases e
      · cases e
        rw [genName_inj (hm x (by simp)) (hm' n' (by simp)) h1 h1',
          ih (fun y hy => hm y (List.mem_cons_of_mem _ hy))
            (fun y hy => hm' y (List.mem_cons_of_mem _ hy)) h2 h2']

/-- Texts without `Q_`, joined by `Q_` and followed by one more. -/
theorem punct_inj {ps ps' : List Txt} {s s' : Txt} (hp : ∀ p ∈ ps, ¬ Has 81 p)
    (hp' : ∀ p ∈ ps', ¬ Has 81 p) (hs : ¬ Has 81 s) (hs' : ¬ Has 81 s') (hne : ps ≠ [])
    (hne' : ps' ≠ []) (h : punct ps ++ [81, 95] ++ s = punct ps' ++ [81, 95] ++ s') :
    ps = ps' ∧ s = s' := by
  have h95 : ¬ (fun a => a = 81) 95 := by simp
  induction ps generalizing ps' with
  | nil => exact absurd rfl hne
  | cons p ps ih =>
    cases ps' with
    | nil => exact absurd rfl hne'
    | cons p' ps' =>
      have hc : ∀ b, b = 81 → ¬ Has b p := by rintro b rfl; exact hp p (by simp)
      have hc' : ∀ b, b = 81 → ¬ Has b p' := by rintro b rfl; exact hp' p' (by simp)
      cases ps with
      | nil =>
        cases ps' with
        | nil =>
          simp only [punct, List.append_assoc, List.cons_append, List.nil_append] at h
          obtain ⟨e1, _, e2⟩ := cut (M := fun a => a = 81) h95 rfl rfl hc hc' h
          rw [e1, e2]; exact ⟨rfl, rfl⟩
        | cons q ps' =>
          exfalso
          simp only [punct, List.append_assoc, List.cons_append, List.nil_append] at h
          obtain ⟨_, _, e2⟩ := cut (M := fun a => a = 81) h95 rfl rfl hc hc' h
          exact hs (by rw [e2]; exact ⟨_, s', rfl⟩)
      | cons q ps =>
        cases ps' with
        | nil =>
          exfalso
          simp only [punct, List.append_assoc, List.cons_append, List.nil_append] at h
          obtain ⟨_, _, e2⟩ := cut (M := fun a => a = 81) h95 rfl rfl hc hc' h
          exact hs' (by rw [← e2]; exact ⟨_, s, rfl⟩)
        | cons q' ps' =>
          have hu : ∀ (a b : Txt) (l : List Txt),
              punct (a :: b :: l) = a ++ [81, 95] ++ punct (b :: l) := fun _ _ _ => rfl
          rw [hu, hu] at h
          simp only [List.append_assoc, List.cons_append, List.nil_append] at h
          obtain ⟨e1, _, e2⟩ := cut (M := fun a => a = 81) h95 rfl rfl hc hc' h
          obtain ⟨e3, e4⟩ := ih (fun x hx => hp x (List.mem_cons_of_mem _ hx))
            (ps' := q' :: ps') (fun x hx => hp' x (List.mem_cons_of_mem _ hx)) (by simp) (by simp)
            (by simpa using e2)
          rw [e1, e3, e4]; exact ⟨rfl, rfl⟩

theorem genQ_glob {m : List Name} {n : Name} {r : Txt} (h : genQ (.glob m n) = some r) :
    ∃ ps s, genParts m = some ps ∧ mkCident (nstr n) = some s ∧
      r = punct ps ++ [81, 95] ++ s := by
  simp only [genQ] at h
  cases hp : genParts m with
  | none => rw [hp] at h; cases h
  | some ps =>
    cases hs : mkCident (nstr n) with
    | none => rw [hp, hs] at h; cases h
    | some s => rw [hp, hs] at h; exact ⟨ps, s, rfl, rfl, (Option.some.inj h).symm⟩

/-- The identifier of a global name begins with the first part of the module, which is not
empty and is followed by `Q_`. -/
theorem glob_shape {m : List Name} {n : Name} {r : Txt} (hm : ∀ x ∈ m, Plain x) (hne : m ≠ [])
    (h : genQ (.glob m n) = some r) :
    ∃ p t, r = p ++ 81 :: 95 :: t ∧ ¬ Has 66 p ∧ p ≠ [] ∧ p.head? ≠ some 36 := by
  obtain ⟨ps, s, h1, h2, rfl⟩ := genQ_glob h
  obtain ⟨g1, g2⟩ := genParts_free hm h1
  cases ps with
  | nil => exact absurd (g2 rfl) hne
  | cons p ps =>
    obtain ⟨a, b, c, d⟩ := g1 p (by simp)
    cases ps with
    | nil => exact ⟨p, s, by simp [punct], a, c, d⟩
    | cons q ps => exact ⟨p, punct (q :: ps) ++ [81, 95] ++ s, by simp [punct], a, c, d⟩

/-- **C85**, for plain names: no letter that the compiler uses for itself is followed by an
underscore in the names of the program. Every qualified name has an identifier, and
different names have different ones. -/
theorem C85_injective_partial {q q' : QName} (hq : PlainQ q) (hq' : PlainQ q') :
    (∃ r, genQ q = some r) ∧ (genQ q = genQ q' → q = q') := by
  have hsome : ∀ {q}, PlainQ q → ∃ r, genQ q = some r := by
    intro q hq
    cases hq with
    | prim h => exact ⟨_, rfl⟩
    | builtin h => exact ⟨_, rfl⟩
    | glob h1 h2 h3 =>
      obtain ⟨ps, hp⟩ := genParts_some (fun x hx => (nstr_free (h2 x hx)).ne)
      obtain ⟨s, hs⟩ := mkCident_some (nstr_free h3).ne
      exact ⟨_, by simp only [genQ]; rw [hp, hs]; rfl⟩
    | loc h => exact genName_some (nstr_free h).ne
  refine ⟨hsome hq, ?_⟩
  obtain ⟨r, hr⟩ := hsome hq
  intro he
  have hr' : genQ q' = some r := by rw [← he, hr]
  -- what distinguishes the four kinds
  have kb : ∀ {m n t}, (∀ x ∈ m, Plain x) → m ≠ [] →
      genQ (.glob m n) = some (66 :: 95 :: t) → False := by
    intro m n t hm hne h
    obtain ⟨p, t', e, h1, h2, h3⟩ := glob_shape hm hne h
    cases p with
    | nil => exact h2 rfl
    | cons c p =>
      simp only [List.cons_append, List.cons.injEq] at e
      obtain ⟨rfl, e⟩ := e
      cases p with
      | nil => simp at e
      | cons d p =>
        simp only [List.cons_append, List.cons.injEq] at e
        exact h1 ⟨[], p, by simp [← e.1]⟩
  have kp : ∀ {m n t}, (∀ x ∈ m, Plain x) → m ≠ [] →
      genQ (.glob m n) = some (36 :: t) → False := by
    intro m n t hm hne h
    obtain ⟨p, t', e, h1, h2, h3⟩ := glob_shape hm hne h
    cases p with
    | nil => exact h2 rfl
    | cons c p =>
      simp only [List.cons_append, List.cons.injEq] at e
      exact h3 (by simp [← e.1])
  have kl : ∀ {m n l}, (∀ x ∈ m, Plain x) → m ≠ [] → Plain l →
      genQ (.glob m n) = some r → genQ (.loc l) = some r → False := by
    intro m n l hm hne hl h h'
    obtain ⟨p, t', e, _⟩ := glob_shape hm hne h
    have := (genName_free hl h').2.1
    exact this ⟨p, t', e⟩
  cases hq with
  | @prim n h =>
    simp only [genQ, Option.some.injEq] at hr
    cases hq' with
    | @prim n' h' =>
      simp only [genQ, Option.some.injEq] at hr'
      rw [nstr_inj h h' (List.cons.inj (hr.trans hr'.symm)).2]
    | @builtin n' h' =>
      simp only [genQ, Option.some.injEq] at hr'
      have := hr.trans hr'.symm
      simp at this
    | glob h1 h2 h3 => exact (kp h2 h1 (hr ▸ hr')).elim
    | loc h' =>
      have := (genName_free h' hr').2.2.2
      rw [← hr] at this
      simp at this
  | @builtin n h =>
    simp only [genQ, Option.some.injEq] at hr
    cases hq' with
    | @prim n' h' =>
      simp only [genQ, Option.some.injEq] at hr'
      have := hr.trans hr'.symm
      simp at this
    | @builtin n' h' =>
      simp only [genQ, Option.some.injEq] at hr'
      have := hr.trans hr'.symm
      simp only [List.cons_append, List.nil_append, List.cons.injEq, true_and] at this
      rw [nstr_inj h h' this]
    | glob h1 h2 h3 => exact (kb h2 h1 (hr ▸ hr')).elim
    | loc h' =>
      have := (genName_free h' hr').1
      rw [← hr] at this
      exact absurd ⟨[], nstr n, rfl⟩ this
  | @glob m n h1 h2 h3 =>
    cases hq' with
    | prim h' =>
      simp only [genQ, Option.some.injEq] at hr'
      exact (kp h2 h1 (hr' ▸ hr)).elim
    | builtin h' =>
      simp only [genQ, Option.some.injEq] at hr'
      exact (kb h2 h1 (hr' ▸ hr)).elim
    | @glob m' n' h1' h2' h3' =>
      obtain ⟨ps, s, g1, g2, e⟩ := genQ_glob hr
      obtain ⟨ps', s', g1', g2', e'⟩ := genQ_glob hr'
      obtain ⟨f1, f2⟩ := genParts_free h2 g1
      obtain ⟨f1', f2'⟩ := genParts_free h2' g1'
      obtain ⟨e1, e2⟩ := punct_inj (fun p hp => (f1 p hp).2.1) (fun p hp => (f1' p hp).2.1)
        (mkCident_free (nstr_free h3) g2).2.1 (mkCident_free (nstr_free h3') g2').2.1
        (fun hh => h1 (f2 hh)) (fun hh => h1' (f2' hh)) (e.symm.trans e')
      subst e1 e2
      rw [genParts_inj h2 h2' g1 g1',
        nstr_inj h3 h3' (mkCident_inj (nstr_free h3) (nstr_free h3') g2 g2')]
    | loc h' => exact (kl h2 h1 h' hr hr').elim
  | loc h =>
    cases hq' with
    | prim h' =>
      simp only [genQ, Option.some.injEq] at hr'
      have := (genName_free h hr).2.2.2
      rw [← hr'] at this
      simp at this
    | @builtin n' h' =>
      simp only [genQ, Option.some.injEq] at hr'
      have := (genName_free h hr).1
      rw [← hr'] at this
      exact absurd ⟨[], nstr n', rfl⟩ this
    | glob h1 h2 h3 => exact (kl h2 h1 h hr' hr).elim
    | loc h' => rw [genName_inj h h' hr hr']

/-! ### Where C85 does not hold -/

/-- The method `f` of a class `C`, and a function `CD_f` of the same module. -/
theorem C85_refuted_derived :
    genQ (.glob [.name [109]] (.derived (.name [67]) (.name [102]))) =
      genQ (.glob [.name [109]] (.name [67, 68, 95, 102])) := by decide +kernel

/-- `c` in the module `a.b`, and `bQ_c` in the module `a`. -/
theorem C85_refuted_module :
    genQ (.glob [.name [97], .name [98]] (.name [99])) =
      genQ (.glob [.name [97]] (.name [98, 81, 95, 99])) := by decide +kernel

/-- The local variables `int` and `A_int`. -/
theorem C85_refuted_keyword :
    genQ (.loc (.name [105, 110, 116])) = genQ (.loc (.name [65, 95, 105, 110, 116])) := by
  decide +kernel

/-- The local variables `é` and `X_e9_`. -/
theorem C85_refuted_escape :
    genQ (.loc (.name [233])) = genQ (.loc (.name [88, 95, 101, 57, 95])) := by decide +kernel

/-- The local variables `complx` and `A_complex`. -/
theorem C85_refuted_complex :
    genQ (.loc (.name complx)) = genQ (.loc (.name aComplex)) := by decide +kernel

/-- Derived names that associate differently. -/
theorem C85_refuted_nested :
    genQ (.loc (.derived (.derived (.name [97]) (.name [98])) (.name [99]))) =
      genQ (.loc (.derived (.name [97]) (.derived (.name [98]) (.name [99])))) := by
  decide +kernel

/-- Internal names: a number, and a text that begins with it. -/
theorem C85_refuted_number :
    genQ (.loc (.internal .tempvar [49] 0)) = genQ (.loc (.internal .tempvar [] 1)) := by
  decide +kernel

/-! ### C86 -/

/-- The characters of C identifiers. -/
theorem alnum_iff {c : Nat} : isAlphaNum c = true ↔
    (97 ≤ c ∧ c ≤ 122) ∨ (65 ≤ c ∧ c ≤ 90) ∨ c = 95 ∨ c = 36 ∨ (48 ≤ c ∧ c ≤ 57) := by
  simp only [isAlphaNum, isAlpha, Bool.or_eq_true, Bool.and_eq_true, decide_eq_true_eq,
    beq_iff_eq]
  omega

theorem alpha_not_digit {c : Nat} (h : isAlpha c = true) : ¬ (48 ≤ c ∧ c ≤ 57) := by
  simp only [isAlpha, Bool.or_eq_true, Bool.and_eq_true, decide_eq_true_eq, beq_iff_eq] at h
  omega

theorem hex_chars {c x : Nat} (h : x ∈ hex c) : isAlphaNum x = true := by
  simp only [hex, List.mem_append, List.mem_cons, List.not_mem_nil, or_false] at h
  rw [alnum_iff]
  rcases h with (h | h) | h
  · omega
  · have := digits16_range h; omega
  · omega

theorem esc_chars {s : Txt} : ∀ x ∈ esc s, isAlphaNum x = true := by
  induction s with
  | nil => intro x hx; simp [esc] at hx
  | cons c s ih =>
    intro x hx
    simp only [esc] at hx
    by_cases hc : isAlphaNum c = true
    · rw [if_pos hc] at hx
      rcases List.mem_cons.mp hx with rfl | hx
      · exact hc
      · exact ih x hx
    · rw [if_neg hc] at hx
      rcases List.mem_append.mp hx with hx | hx
      · exact hex_chars hx
      · exact ih x hx

theorem cident_of {c : Nat} {s : Txt} (h1 : isAlpha c = true)
    (h2 : ∀ x ∈ s, isAlphaNum x = true) : CIdent (c :: s) := by
  refine ⟨⟨c, s, rfl, alpha_not_digit h1⟩, ?_⟩
  intro x hx
  rw [← alnum_iff]
  rcases List.mem_cons.mp hx with rfl | hx
  · exact alpha_alnum h1
  · exact h2 x hx

theorem mkCident_cident {s r : Txt} (h : mkCident s = some r) : CIdent r := by
  rcases mkCident_cases h with ⟨_, rfl⟩ | ⟨_, rfl⟩ | ⟨_, rfl⟩ | ⟨_, rfl⟩ | ⟨e0, _, _, _, _, rfl⟩
  · exact cident_of (by decide) (by decide)
  · exact cident_of (by decide) (by decide)
  · exact cident_of (by decide) (by decide)
  · exact cident_of (by decide) (by decide)
  · cases s with
    | nil => exact absurd rfl e0
    | cons c s =>
      simp only [cid]
      by_cases hc : isAlpha c = true
      · rw [if_pos hc]; exact cident_of hc esc_chars
      · rw [if_neg hc]
        simp only [hex, List.cons_append, List.nil_append, List.append_assoc]
        apply cident_of (by decide)
        intro x hx
        have : x ∈ hex c ++ esc s := by
          simp only [hex, List.cons_append, List.nil_append, List.append_assoc]
          exact List.mem_cons_of_mem _ hx
        rcases List.mem_append.mp this with h | h
        · exact hex_chars h
        · exact esc_chars x h

theorem cident_append {a b : Txt} (ha : CIdent a)
    (hb : ∀ c ∈ b, isAlphaNum c = true) : CIdent (a ++ b) := by
  obtain ⟨⟨c, r, rfl, hc⟩, h⟩ := ha
  refine ⟨⟨c, r ++ b, rfl, hc⟩, ?_⟩
  intro x hx
  rcases List.mem_append.mp hx with hx | hx
  · exact h x hx
  · exact alnum_iff.mp (hb x hx)

theorem cident_chars {a : Txt} (h : CIdent a) : ∀ c ∈ a, isAlphaNum c = true :=
  fun c hc => alnum_iff.mpr (h.2 c hc)

theorem unC_cident {s : Txt} (h : CIdent s) : CIdent (unCkeyword s) ∧
    unCkeyword s ∉ cKeywords := by
  unfold unCkeyword
  by_cases hk : s ∈ cKeywords
  · rw [if_pos hk]
    refine ⟨cident_of (c := 65) (s := 95 :: s) (by decide) ?_, ?_⟩
    · intro x hx
      rcases List.mem_cons.mp hx with rfl | hx
      · decide
      · exact cident_chars h x hx
    · have hno : ∀ k ∈ cKeywords, k.head? ≠ some 65 := by decide
      intro hh
      exact hno _ hh rfl
  · rw [if_neg hk]; exact ⟨h, hk⟩

theorem punct_cident {ps : List Txt} (hne : ps ≠ []) (h : ∀ p ∈ ps, CIdent p) :
    CIdent (punct ps) := by
  induction ps with
  | nil => exact absurd rfl hne
  | cons p ps ih =>
    cases ps with
    | nil => exact h p (by simp)
    | cons q ps =>
      have := ih (by simp) (fun x hx => h x (List.mem_cons_of_mem _ hx))
      show CIdent (p ++ [81, 95] ++ punct (q :: ps))
      rw [List.append_assoc]
      apply cident_append (h p (by simp))
      intro x hx
      rcases List.mem_append.mp hx with hx | hx
      · have : ∀ x ∈ [81, 95], isAlphaNum x = true := by decide
        exact this x hx
      · exact cident_chars this x hx

theorem genParts_cident : ∀ {m : List Name} {ps : List Txt}, genParts m = some ps →
    ∀ p ∈ ps, CIdent p := by
  intro m
  induction m with
  | nil =>
    intro ps h
    rcases genParts_cases h with ⟨_, rfl⟩ | ⟨n, ns, s, r, e, _⟩
    · simp
    · cases e
  | cons x m ih =>
    intro ps h
    rcases genParts_cases h with ⟨e, _⟩ | ⟨n, ns, s, r, e, rfl, h1, h2⟩
    · cases e
    · cases e
      intro p hp
      rcases List.mem_cons.mp hp with rfl | hp
      · obtain ⟨t, ht, rfl⟩ := genName_cases h1
        exact (unC_cident (mkCident_cident ht)).1
      · exact ih h2 p hp

theorem c23_listed : ∀ k ∈ c23Keywords, k ∈ cKeywords := by decide +kernel

/-- **C86.** Whatever characters names have (but for the empty name): the identifier of a
local name or of a name in a module of a program is a C identifier, and none of the
keywords of C23. -/
theorem C86_identifier {n : Name} (hn : nstr n ≠ []) :
    (∃ r, genQ (.loc n) = some r ∧ CIdent r ∧ r ∉ c23Keywords) ∧
    ∀ m : List Name, (∀ x ∈ m, nstr x ≠ []) →
      ∃ r, genQ (.glob m n) = some r ∧ CIdent r ∧ r ∉ c23Keywords := by
  constructor
  · obtain ⟨r, hr⟩ := genName_some hn
    obtain ⟨s, hs, rfl⟩ := genName_cases hr
    have hc := unC_cident (mkCident_cident hs)
    exact ⟨_, hr, hc.1, fun hh => hc.2 (c23_listed _ hh)⟩
  · intro m hm
    obtain ⟨ps, hp⟩ := genParts_some hm
    obtain ⟨s, hs⟩ := mkCident_some hn
    have hg : genQ (.glob m n) = some (punct ps ++ [81, 95] ++ s) := by
      simp only [genQ]; rw [hp, hs]; rfl
    have htail : ∀ c ∈ [81, 95] ++ s, isAlphaNum c = true := by
      intro x hx
      rcases List.mem_append.mp hx with hx | hx
      · have : ∀ x ∈ [81, 95], isAlphaNum x = true := by decide
        exact this x hx
      · exact cident_chars (mkCident_cident hs) x hx
    refine ⟨_, hg, ?_, ?_⟩
    · cases ps with
      | nil =>
        apply cident_of (c := 81) (s := 95 :: s) (by decide)
        intro x hx
        exact htail x (List.mem_cons_of_mem _ hx)
      | cons p ps =>
        rw [List.append_assoc]
        exact cident_append (punct_cident (by simp) (genParts_cident hp)) htail
    · have hno : ∀ k ∈ c23Keywords, 81 ∉ k := by decide
      intro hh
      exact hno _ hh (by simp)

/-- C86 does not hold for the empty name, which can be written as `""` after a dot or as the
name of an argument: `mkCident` is not defined for it. -/
theorem C86_refuted_empty : genQ (.loc (.name [])) = none ∧
    genQ (.glob [.name [109]] (.name [])) = none := by decide +kernel

/-- C86: `asm`, a keyword of GNU C, is left as it is. -/
theorem C86_refuted_asm : genQ (.loc (.name [97, 115, 109])) = some [97, 115, 109] := by
  decide +kernel

/-! ### The hypotheses can be met -/

/-- The method `__init__` of a class `Foo` in `http.client`, and a local name that is a
keyword. -/
example : PlainQ (.glob [.name [104, 116, 116, 112], .name [99, 108, 105, 101, 110, 116]]
      (.derived (.name [70, 111, 111]) (.name [95, 95, 105, 110, 105, 116, 95, 95]))) ∧
    PlainQ (.loc (.name [105, 110, 116])) ∧
    PlainQ (.loc (.derived (.internal .witness [115, 101, 108, 102] 7) (.internal .globvar [] 0))) := by
  have hno : ∀ s : Txt, (∀ a ∈ marks, a ∉ s) → PlainTxt s := by
    rintro s h a ha ⟨p, q, e⟩
    exact h a ha (by rw [e]; simp)
  refine ⟨.glob (by simp) ?_ (.derived (.atom (.name (by simp) (by simp) (hno _ (by decide))))
      (.name (by simp) (by simp) (hno _ (by decide)))),
    .loc (.atom (.name (by simp) (by simp) (hno _ (by decide)))),
    .loc (.derived (.atom (.internal (hno _ (by decide)) (by simp)))
      (.internal (hno _ (by decide)) (by simp)))⟩
  intro x hx
  simp only [List.mem_cons, List.not_mem_nil, or_false] at hx
  rcases hx with rfl | rfl
  · exact .atom (.name (by simp) (by simp) (hno _ (by decide)))
  · exact .atom (.name (by simp) (by simp) (hno _ (by decide)))

end Verif.Names
