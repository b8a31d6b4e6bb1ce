import Verif.Cps.Lemmas.Main

/-!
The simulation for statements with suites inside.
-/
namespace Verif.Cps
variable {V W : Type}

/-- The context of a compound statement. -/
theorem Ctx.one {P : Prims V} {n : Nat} {Vol : List Nat} {x : Cx V W} {a : Stmt V W} {ss : Suite V W}
    (h : Ctx P n Vol x (readsS (.cons a ss)) (updatesS (.cons a ss)) (sureS (.cons a ss)) (stopsS (.cons a ss))
      (breaksS (.cons a ss)))
    {A : List Nat} {F : List Frame} {tl : Option (Exp V W)} {g : S V W → Fin V W}
    (hb : brkcont F = brkcont x.F) (hc : cntcont F = cntcont x.F) (tlA : ∀ y ∈ tlReads tl, y ∈ A)
    (tlx : stops a = true → ∀ y ∈ tlReads tl, y ∈ x.Lx ∨ (y ∈ A ∧ y ∉ x.L ∧ y ∈ sure a))
    (ns : stops a = true → tl = none → ∀ y ∈ (seqcont F).vars, y ∈ x.Lx ∨ (y ∈ A ∧ y ∉ x.L ∧ y ∈ sure a))
    (kn : stops a = true → tl = none → KOK P n Vol x.j (seqcont F) x.Φ (x.L ++ sure a) x.cs (fun _ => g)) :
    Ctx P n Vol { x with A := A, F := F, tl := tl, r := { x.r with nxt := g } } (reads a) (updates a) (sure a) (stops a)
      (breaks a) := by
  have hbr : breaks a = true → breaksS (.cons a ss) = true := fun e => by rw [breaksS, e]; rfl
  have hu : ∀ y ∈ updates a, y ∈ updatesS (.cons a ss) := fun y hy => by rw [updatesS]; simp [hy]
  exact {
    jn := h.jn
    LΓ := h.LΓ
    ΓL := fun y hy hy' => h.ΓL y hy (hu y hy')
    LxL := h.LxL
    HX := fun y hy hy' => h.HX y hy (hy'.imp (fun h => by rw [readsS]; simp [h]) (hu y))
    hU := fun y hy => h.hU y (hu y hy)
    G := h.G
    tlA := tlA
    tlx := tlx
    ns := ns
    bv := fun e => by dsimp only; rw [hb]; exact h.bv (hbr e)
    cv := by dsimp only; rw [hc]; exact h.cv
    Φn := h.Φn
    kn := kn
    kb := fun e => by dsimp only; rw [hb]; exact h.kb (hbr e)
    kc := by dsimp only; rw [hc]; exact h.kc
    cat := h.cat }

theorem pre_nil {P : Prims V} {n : Nat} (r : R V W) : r.pre (evalS P n .nil) = r := by
  cases r
  simp [R.pre, evalS, R.app]

theorem pre_raise {P : Prims V} {n : Nat} (r : R V W) (tl : Option (Exp V W)) (e : Exp V W) (ss : Suite V W) :
    (r.pre (tlE tl)).pre (evalS P n (.cons (.raise e) ss)) = r.pre (tlE (some e)) := by
  unfold R.pre
  congr 1
  funext s
  rw [evalS, eval]
  simp only [tlE]
  rcases evalE s.σ s.w e with _ | ⟨v, w⟩ | ⟨v, w⟩ <;> rfl

theorem headRaise_some {ss : Suite V W} {tl : Option (Exp V W)} {e : Exp V W} (h : headRaise ss tl = some e) :
    (ss = .nil ∧ tl = some e) ∨ ∃ ss', ss = .cons (.raise e) ss' := by
  unfold headRaise at h
  split at h
  · exact Or.inl ⟨rfl, h⟩
  · cases h
    exact Or.inr ⟨_, rfl⟩
  · cases h

theorem sim_comp {P : Prims V} {n : Nat} {Vol : List Nat} {a : Stmt V W} {ss : Suite V W} (hn : needCont false a = true)
    (hcp : isCompound a = true) (i1 : Sim1 P n Vol a) (ih : SimS P n Vol ss) : SimS P n Vol (.cons a ss) := by
  intro x pd res s ρ t α hw ho hvl h hb hd
  rw [cps_comp hn hcp] at hb ⊢
  simp only [wfS, Bool.and_eq_true] at hw
  rw [ownsS, Bool.and_eq_true] at ho
  have hvl1 : ∀ y ∈ vols a, y ∈ Vol := fun y hy => hvl y (by rw [volsS]; simp [hy])
  have hvl2 : ∀ y ∈ volsS ss, y ∈ Vol := fun y hy => hvl y (by rw [volsS]; simp [hy])
  have hua : ∀ y ∈ updates a, y ∈ updatesS (.cons a ss) := fun y hy => by rw [updatesS]; simp [hy]
  have hsL : ∀ y ∈ sure a, y ∉ x.L := fun y hy => wf_decls a _ x.L hw.1.1 y (sure_sub a y hy).2.2
  rw [needS_cons]
  by_cases hl : isLast ss x.tl = true
  · rw [if_pos hl] at hb ⊢
    obtain ⟨rfl, htl⟩ := isLast_iff hl
    rw [pre_nil, htl]
    have hst : stops a = true → stopsS (.cons a .nil) = true := fun e => by simp [stopsS, e]
    have h1 : Ctx P n Vol { x with A := later x.A (.nil : Suite V W), F := x.F, tl := none, r := { x.r with nxt := x.r.nxt } }
        (reads a) (updates a) (sure a) (stops a) (breaks a) := by
      refine h.one rfl rfl (fun y hy => by simp [tlReads] at hy) (fun _ y hy => by simp [tlReads] at hy) ?_ ?_
      · intro e _ y hy
        have := h.ns (hst e) htl y hy
        simpa [later, readsS, updatesS, sureS] using this
      · intro e _
        have := h.kn (hst e) htl
        simpa [sureS] using this
    refine i1 { x with A := later x.A (.nil : Suite V W), F := x.F, tl := none, r := { x.r with nxt := x.r.nxt } }
      pd res s ρ t α hn (Or.inr rfl) hw.1.1 ho.1 hvl1 h1 ?_ hd
    exact hb.ext Grow.refl (fun _ h => h) (fun _ h => h) hua (fun y hy => Or.inl hy)
  · rw [if_neg hl] at hb ⊢
    by_cases hr : (isIf a && (headRaise ss x.tl).isSome) = true
    · rw [if_pos hr] at hb ⊢
      rw [Bool.and_eq_true] at hr
      obtain ⟨e, he⟩ := Option.isSome_iff_exists.1 hr.2
      rw [he] at hb ⊢
      have h1 : Ctx P n Vol { x with A := later x.A ss, F := x.F, tl := some e, r := { x.r with nxt := x.r.nxt } }
          (reads a) (updates a) (sure a) (stops a) (breaks a) ∧
          (x.r.pre (tlE x.tl)).pre (evalS P n ss) = x.r.pre (tlE (some e)) := by
        rcases headRaise_some he with ⟨rfl, htl⟩ | ⟨ss', rfl⟩
        · have hst : stops a = true → stopsS (.cons a .nil) = true := fun e => by simp [stopsS, e]
          refine ⟨?_, by rw [pre_nil, htl]⟩
          refine h.one rfl rfl ?_ ?_ (fun _ e => by cases e) (fun _ e => by cases e)
          · intro y hy
            have := h.tlA y (by rw [htl]; exact hy)
            simpa [later, readsS, updatesS] using this
          · intro e' y hy
            have := h.tlx (hst e') y (by rw [htl]; exact hy)
            simpa [later, readsS, updatesS, sureS] using this
        · refine ⟨?_, pre_raise x.r x.tl e ss'⟩
          have hrd : ∀ y ∈ e.fv, y ∈ later x.A (.cons (.raise e) ss') := fun y hy => by simp [later, readsS, reads, hy]
          refine h.one rfl rfl hrd ?_ (fun _ e => by cases e) (fun _ e => by cases e)
          intro _ y hy
          have hw2 := hw.1.2
          simp only [wfS, wf, Bool.and_eq_true, sub_iff] at hw2
          rcases List.mem_append.1 (hw2.1.1 y hy) with h' | h'
          · exact Or.inl (h.HX y h' (Or.inl (by simp only [readsS, reads]; simp [show y ∈ e.fv from hy])))
          · exact Or.inr ⟨hrd y hy, hsL y h', h'⟩
      rw [h1.2]
      refine i1 { x with A := later x.A ss, F := x.F, tl := some e, r := { x.r with nxt := x.r.nxt } }
        pd res s ρ t α hn (Or.inl hr.1) hw.1.1 ho.1 hvl1 h1.1 ?_ hd
      exact hb.ext Grow.refl (fun _ h => h) (fun _ h => h) hua (fun y hy => Or.inl hy)
    · rw [if_neg hr] at hb ⊢
      dsimp only at hb ⊢
      have hin := hw.2
      simp only [inScope, Bool.and_eq_true] at hin
      have hin1 : ∀ y ∈ envOf a, y ∈ later x.A ss → y ∈ sure a := by
        intro y hy hl
        have := List.all_eq_true.1 hin.1 y hy
        simpa [hl] using this
      have hin2 : ∀ y ∈ sure a, (falls ss = true → y ∈ x.A → y ∈ readsS ss ∨ y ∈ updatesS ss) ∧
          (y ∈ updatesS ss → y ∈ Vol → y ∈ readsS ss) := by
        intro y hy
        have h2 := hin.2
        have hne : ss.isNil = false := by
          cases hss : ss with
          | cons _ _ => rfl
          | nil =>
            exfalso
            subst hss
            cases htl : x.tl with
            | none => rw [htl] at hl; exact hl rfl
            | some e =>
              rw [htl] at hr
              cases a <;> simp_all [isIf, headRaise, isCompound, sure]
        rw [hn, hcp, hne] at h2
        simp only [Bool.and_self, Bool.not_false, Bool.not_true, Bool.false_or] at h2
        have h3 := List.all_eq_true.1 h2 y hy
        simp only [Bool.and_eq_true, Bool.or_eq_true, Bool.not_eq_true', decide_eq_true_eq, List.mem_append,
          Bool.and_eq_false_iff, decide_eq_false_iff_not] at h3
        refine ⟨fun hf ha => ?_, fun hu hv => ?_⟩
        · rcases h3.1 with h' | h'
          · rcases h' with h' | h'
            · rw [hf] at h'; cases h'
            · exact absurd ha h'
          · exact h'
        · rcases h3.2 with h' | h'
          · rcases h' with h' | h'
            · exact absurd hu h'
            · exact absurd hv h'
          · exact h'
      generalize hnts : seqNts Vol x.Γ x.tl a ss = nts at hb ⊢
      have mem : ∀ y, y ∈ nts ↔ (y ∈ envOf a ∧ (y ∈ readsS ss ∨ y ∈ tlReads x.tl)) ∨
          (y ∈ updatesS ss ∧ y ∉ Vol ∧ (y ∈ x.Γ ∨ y ∈ envOf a)) := fun y => by rw [← hnts, mem_seqNts]
      have hns : ∀ y ∈ nts, y ∈ x.Lx ∨ (y ∈ later x.A ss ∧ y ∉ x.L ∧ y ∈ sure a) := by
        have key : ∀ y ∈ envOf a, y ∈ later x.A ss → y ∈ x.Lx ∨ (y ∈ later x.A ss ∧ y ∉ x.L ∧ y ∈ sure a) :=
          fun y h1 h2 => Or.inr ⟨h2, hsL y (hin1 y h1 h2), hin1 y h1 h2⟩
        intro y hy
        rcases (mem y).1 hy with ⟨h1, h2⟩ | ⟨h1, h2, h3⟩
        · refine key y h1 ?_
          rcases h2 with h2 | h2
          · simp [later, h2]
          · simp [later, h.tlA y h2]
        · rcases h3 with h3 | h3
          · have hu : y ∈ updatesS (.cons a ss) := by rw [updatesS]; simp [h1]
            exact Or.inl (h.HX y (h.ΓL y h3 hu) (Or.inr hu))
          · exact key y h3 (by simp [later, h1])
      have hntL : ∀ y ∈ x.Lx ++ nts, y ∈ x.L ++ sure a := by
        intro y hy
        rcases List.mem_append.1 hy with hy | hy
        · exact List.mem_append_left _ (h.LxL y hy)
        · rcases hns y hy with h' | h'
          · exact List.mem_append_left _ (h.LxL y h')
          · exact List.mem_append_right _ h'.2.2
      have hup : ∀ y ∈ updatesS ss, y ∉ Vol → y ∈ x.Lx ++ nts → y ∈ nts := by
        intro y h1 h2 hy
        rcases List.mem_append.1 hy with hy | hy
        · exact (mem y).2 (Or.inr ⟨h1, h2, Or.inl (h.LΓ y (h.LxL y hy))⟩)
        · exact hy
      have h3 : ∀ y ∈ sure a, (y ∈ readsS ss ∨ y ∈ updatesS ss) ∨ (stopsS ss = true ∧ (y ∈ x.A ∨ y ∈ tlReads x.tl)) →
          y ∈ x.Lx ++ nts := by
        intro y hy h'
        refine List.mem_append_right _ ((mem y).2 ?_)
        have hev := (sure_sub a y hy).1
        have key : y ∈ readsS ss ∨ y ∈ updatesS ss → y ∈ envOf a ∧ (y ∈ readsS ss ∨ y ∈ tlReads x.tl) ∨
            y ∈ updatesS ss ∧ y ∉ Vol ∧ (y ∈ x.Γ ∨ y ∈ envOf a) := by
          rintro (h' | h')
          · exact Or.inl ⟨hev, Or.inl h'⟩
          · by_cases hv : y ∈ Vol
            · exact Or.inl ⟨hev, Or.inl ((hin2 y hy).2 h' hv)⟩
            · exact Or.inr ⟨h', hv, Or.inr hev⟩
        rcases h' with h' | ⟨h', h'' | h''⟩
        · exact key h'
        · exact key ((hin2 y hy).1 (falls_of_stops h') h'')
        · exact Or.inl ⟨hev, Or.inr h''⟩
      rw [step]
      have hb1 := hb.rest (us' := updates a) hua
      have hK : stops a = true → KOK P n Vol x.j (.ref x.c nts)
          (mkFun x.Φ ρ x.c nts (cps Vol (x.Γ ++ envOf a) x.F x.tl pd ss (x.c + 1)).1 :: x.Φ) (x.L ++ sure a) x.cs
          (fun _ s' => (x.r.pre (tlE x.tl)).app (evalS P n ss s')) := by
        intro hst
        refine KOK.mono (KOK.def (j := x.j) ?_) (Nat.le_succ _) (fun _ h => h) List.suffix_rfl
          (fun c hc y hy => List.mem_append_left _ (h.G c hc y hy))
        intro cs' s' ρu t' α' g1 g2 g3 g4 v
        have h1 := ((h.rest hst hw.2 (Lx := x.Lx ++ nts) (fun y hy => List.mem_append_left _ hy) hntL h3).ext
          (f := mkFun x.Φ ρ x.c nts (cps Vol (x.Γ ++ envOf a) x.F x.tl pd ss (x.c + 1)).1) rfl).mono (Nat.le_refl _) g1
        refine ih _ pd v s' _ t' α' hw.1.2 ho.2 hvl2 h1 ?_ g2
        refine hb.enter (fun y hy => List.mem_append.1 hy) ?_ hup g3 g4
        intro y hy hyl
        rcases assigned_cps ss _ _ _ _ _ y hy with h' | h'
        · exact absurd (hntL y hyl) (wfS_decls ss _ _ hw.1.2 y h')
        · exact hup y h'.1 h'.2 hyl
      have h1 := ((h.ext (f := mkFun x.Φ ρ x.c nts (cps Vol (x.Γ ++ envOf a) x.F x.tl pd ss (x.c + 1)).1) rfl).one
        (A := later x.A ss) (F := .seq x.c nts :: x.F) (tl := none)
        (g := fun s' => (x.r.pre (tlE x.tl)).app (evalS P n ss s')) rfl rfl
        (fun y hy => by simp [tlReads] at hy) (fun _ y hy => by simp [tlReads] at hy)
        (fun _ _ y hy => hns y hy) (fun e _ => hK e)).sub (fun _ h => h) (fun _ h => h) (fun e => ⟨e, fun _ h => h⟩)
          (fun e => e) (cps_le (Vol := Vol) ss (x.Γ ++ envOf a) x.F x.tl pd (x.c + 1))
      exact i1 _ pd res s ρ t α hn (Or.inr rfl) hw.1.1 ho.1 hvl1 h1 hb1 hd

theorem sim_ite {P : Prims V} {n : Nat} {Vol : List Nat} {e : Exp V W} {a b : Suite V W} (ia : SimS P n Vol a)
    (ib : SimS P n Vol b) : Sim1 P n Vol (.ite e a b) := by
  intro x pd res s ρ t α hn hif hw ho hvl h hb hd
  rw [cpsOne] at hb ⊢
  dsimp only at hb ⊢
  simp only [wf, Bool.and_eq_true, sub_iff] at hw
  rw [owns, if_pos hn, Bool.and_eq_true] at ho
  have he := evalT_eq hd res (e := e) hw.1.1
    (fun y hy => hb.b y (by simp [freeC, fv_convE, hy]) (h.HX y (hw.1.1 y hy) (Or.inl (by rw [reads]; simp [hy]))))
  dsimp only at he
  rw [step, he, eval, app_onE]
  rcases evalE s.σ s.w e with _ | ⟨v, w⟩ | ⟨v, w⟩
  · trivial
  · dsimp only
    by_cases ht : P.truth v = true
    · rw [if_pos ht, if_pos ht]
      refine ia _ pd res _ ρ _ α hw.1.2 ho.1 (fun y hy => hvl y (by rw [vols]; simp [hy])) (h.sub
        (fun y hy => by rw [reads]; simp [hy]) (fun y hy => by rw [updates]; simp [hy]) ?_
        (fun e => by rw [breaks, e]; rfl) (Nat.le_refl _)) ?_ (hd.setW w)
      · intro e
        refine ⟨by rw [stops, e]; rfl, fun y hy => ?_⟩
        rw [sure] at hy
        exact (sure_branch hy).1 e
      · exact hb.ext Grow.refl (fun y hy => by rw [freeC]; simp [hy]) (fun k hk => by rw [refsC]; simp [hk])
          (fun y hy => by rw [updates]; simp [hy]) (fun y hy => Or.inl hy)
    · rw [if_neg ht, if_neg ht]
      refine ib { x with c := (cps Vol x.Γ x.F x.tl pd a x.c).2 } pd res _ ρ _ α hw.2 ho.2 (fun y hy => hvl y (by rw [vols]; simp [hy])) (h.sub
        (fun y hy => by rw [reads]; simp [hy]) (fun y hy => by rw [updates]; simp [hy]) ?_
        (fun e => by rw [breaks, e]; simp) (cps_le a x.Γ x.F x.tl pd x.c)) ?_ (hd.setW w)
      · intro e
        refine ⟨by rw [stops, e]; simp, fun y hy => ?_⟩
        rw [sure] at hy
        exact (sure_branch hy).2 e
      · exact hb.ext Grow.refl (fun y hy => by rw [freeC]; simp [hy]) (fun k hk => by rw [refsC]; simp [hk])
          (fun y hy => by rw [updates]; simp [hy]) (fun y hy => Or.inl hy)
  · exact h.cat x.cs x.L _ _ α v List.suffix_rfl (hd.c.setW w)

theorem sim_whl {P : Prims V} {n : Nat} {Vol : List Nat} {e : Exp V W} {a b : Suite V W} (ia : SimS P n Vol a)
    (ib : SimS P n Vol b) : Sim1 P n Vol (.whl e a b) := by
  intro x pd res s ρ t α hn hif hw ho hvl h hb hd
  have htl : x.tl = none := hif.resolve_left (by simp [isIf])
  rw [cpsOne] at hb ⊢
  dsimp only at hb ⊢
  simp only [wf, Bool.and_eq_true, sub_iff] at hw
  rw [owns, if_pos hn, Bool.and_eq_true] at ho
  generalize hnts : extraBinds Vol x.Γ (updatesS a ++ updatesS b) = nts at hb ⊢
  have hus : ∀ y, y ∈ updatesS a ++ updatesS b → y ∈ updates (.whl e a b) := fun y hy => by rw [updates]; exact hy
  have hp1 : ∀ y ∈ nts, y ∈ x.Lx := by
    intro y hy
    rw [← hnts, mem_extraBinds] at hy
    exact h.HX y (h.ΓL y hy.2.2 (hus y hy.1)) (Or.inr (hus y hy.1))
  have hp2 : ∀ y ∈ updatesS a ++ updatesS b, y ∉ Vol → y ∈ x.Lx → y ∈ nts := by
    intro y hy hv hl
    rw [← hnts, mem_extraBinds]
    exact ⟨hy, hv, h.LΓ y (h.LxL y hl)⟩
  rw [step]
  generalize hra : cps Vol x.Γ (.loop x.c nts :: x.F) none pd a (x.c + 1) = ra at hb ⊢
  generalize hrb : cps Vol x.Γ x.F none pd b ra.2 = rb at hb ⊢
  have hle : x.c + 1 ≤ ra.2 := by rw [← hra]; exact cps_le ..
  generalize hf : mkFun x.Φ ρ x.c nts (.ite (convE Vol e) ra.1 rb.1) = f at hb ⊢
  have hfn : f.name = x.c := by rw [← hf]; rfl
  have hr : x.r.pre (tlE x.tl) = x.r := by rw [htl, R.pre_none]
  rw [hr, eval]
  have hsure : sure (.whl e a b) = [] := by simp [sure]
  have hns : stops (.whl e a b) = true → ∀ y ∈ (seqcont x.F).vars, y ∈ x.Lx := by
    intro e1 y hy
    rcases h.ns e1 htl y hy with h' | h'
    · exact h'
    · rw [hsure] at h'
      exact absurd h'.2.2 (by simp)
  have hx := h.ext (f := f) hfn
  have hkn : stops (.whl e a b) = true → KOK P n Vol x.j (seqcont x.F) (f :: x.Φ) x.L x.cs (fun _ => x.r.nxt) := by
    intro e1
    have := hx.kn e1 htl
    rw [hsure, List.append_nil] at this
    exact this
  have hdef : ∀ (j : Nat) (g : V → S V W → Fin V W), (∀ cs' s ρu t α, cs' <:+ x.cs →
      DSt Vol x.L s ⟨bindK ρu nts nts f.fvs, t, []⟩ cs' α → (∀ y ∈ nts, (ρu y).isSome = true) →
      (∀ y ∈ f.fvs, (ρu y).isSome = true) → ∀ v,
      Leads P n j (step P n v (.ite (convE Vol e) ra.1 rb.1) (f :: x.Φ) (bindK ρu nts nts f.fvs) t) (g v s)) →
      KOK P n Vol (j + 1) (.ref x.c nts) (f :: x.Φ) x.L x.cs g := by
    intro j g hh
    subst hf
    exact KOK.def hh
  have hent : ∀ (ρu : Nat → Option (TV V)), (∀ y ∈ nts, (ρu y).isSome = true) → (∀ y ∈ f.fvs, (ρu y).isSome = true) →
      Bnd Vol x.Lx (updatesS a ++ updatesS b) (.ite (convE Vol e) ra.1 rb.1) (f :: x.Φ) (bindK ρu nts nts f.fvs) := by
    intro ρu g3 g4
    subst hf
    refine hb.enter (fun y hy => Or.inl hy) ?_ hp2 g3 g4
    intro y hy hyl
    rw [assignedC] at hy
    rcases List.mem_append.1 hy with hy | hy
    · rw [← hra] at hy
      rcases assigned_cps a _ _ _ _ _ y hy with h' | h'
      · exact absurd (h.LxL y hyl) (wfS_decls a _ _ hw.1.2 y h')
      · exact hp2 y (List.mem_append_left _ h'.1) h'.2 hyl
    · rw [← hrb] at hy
      rcases assigned_cps b _ _ _ _ _ y hy with h' | h'
      · exact absurd (h.LxL y hyl) (wfS_decls b _ _ hw.2 y h')
      · exact hp2 y (List.mem_append_right _ h'.1) h'.2 hyl
  have hK : ∀ i, KOK P n Vol (min i x.j) (.ref x.c nts) (f :: x.Φ) x.L x.cs
      (fun _ s' => x.r.app (loop P (fun s => evalE s.σ s.w e) (evalS P n a) (evalS P n b) i s')) := by
    intro i
    induction i with
    | zero =>
      have := hdef 0 (fun _ _ => .stuck) (fun _ _ _ _ _ _ _ _ _ _ => trivial)
      refine ⟨this.ex, ?_⟩
      intro cs' s' ρu t' α' g1 g2 g3 g4 c hc v m hm
      rw [Nat.zero_min] at hm
      rw [Nat.le_zero.1 hm]
      rfl
    | succ i ihi =>
      refine KOK.mono (hdef (min i x.j) _ ?_) (by omega) (fun _ h => h) List.suffix_rfl h.G
      intro cs' s' ρu t' α' g1 g2 g3 g4 v
      have hb2 := hent ρu g3 g4
      have he := evalT_eq g2 v (e := e) hw.1.1
        (fun y hy => hb2.b y (by simp [freeC, fv_convE, hy]) (h.HX y (hw.1.1 y hy) (Or.inl (by rw [reads]; simp [hy]))))
      dsimp only at he
      rw [step, he, loop, app_onE]
      have hjj : min i x.j ≤ x.j := Nat.min_le_right _ _
      rcases evalE s'.σ s'.w e with _ | ⟨u, w⟩ | ⟨u, w⟩
      · trivial
      · dsimp only
        by_cases ht : P.truth u = true
        · rw [if_pos ht, if_pos ht, R.app_again]
          have hc : Ctx P n Vol { x with
              A := [], F := .loop x.c nts :: x.F, tl := none, c := x.c + 1, Φ := f :: x.Φ, cs := cs', j := min i x.j,
              r := x.r.loop (loop P (fun s => evalE s.σ s.w e) (evalS P n a) (evalS P n b) i) } (readsS a) (updatesS a) (sureS a) (stopsS a) (breaksS a) := {
            jn := Nat.le_trans hjj h.jn
            LΓ := h.LΓ
            ΓL := fun y hy hy' => h.ΓL y hy (hus y (List.mem_append_left _ hy'))
            LxL := h.LxL
            HX := fun y hy hy' => h.HX y hy (hy'.imp (fun h => by rw [reads]; simp [h])
              (fun h => hus y (List.mem_append_left _ h)))
            hU := fun y hy hv c hc => h.hU y (hus y (List.mem_append_left _ hy)) hv c (g1.subset hc)
            G := fun c hc => h.G c (g1.subset hc)
            tlA := fun y hy => by simp [tlReads] at hy
            tlx := fun _ y hy => by simp [tlReads] at hy
            ns := fun _ _ y hy => Or.inl (hp1 y hy)
            bv := fun e1 => hns (by rw [stops, e1]; rfl)
            cv := hp1
            Φn := hx.Φn
            kn := fun _ _ => ihi.mono (Nat.le_refl _) (fun y hy => List.mem_append_left _ hy) g1
              (fun c hc => h.G c (g1.subset hc))
            kb := fun e1 => Or.inr ((hkn (by rw [stops, e1]; rfl)).mono hjj (fun _ h => h) g1
              (fun c hc => h.G c (g1.subset hc)))
            kc := Or.inr (ihi.mono (Nat.le_refl _) (fun _ h => h) g1 (fun c hc => h.G c (g1.subset hc)))
            cat := h.cat.mono hjj g1 }
          rw [← hra]
          refine ia _ pd v _ _ _ α' hw.1.2 ho.1 (fun y hy => hvl y (by rw [vols]; simp [hy])) hc ?_ (g2.setW w)
          refine hb2.ext Grow.refl ?_ ?_ (fun y hy => List.mem_append_left _ hy) (fun y hy => Or.inl hy)
          · intro y hy
            rw [freeC]
            rw [hra] at hy
            simp [hy]
          · intro k hk
            rw [refsC]
            rw [hra] at hk
            simp [hk]
        · rw [if_neg ht, if_neg ht]
          have hc : Ctx P n Vol { x with
              A := [], tl := none, c := ra.2, Φ := f :: x.Φ, cs := cs', j := min i x.j } (readsS b) (updatesS b) (sureS b) (stopsS b) (breaksS b) := {
            jn := Nat.le_trans hjj h.jn
            LΓ := h.LΓ
            ΓL := fun y hy hy' => h.ΓL y hy (hus y (List.mem_append_right _ hy'))
            LxL := h.LxL
            HX := fun y hy hy' => h.HX y hy (hy'.imp (fun h => by rw [reads]; simp [h])
              (fun h => hus y (List.mem_append_right _ h)))
            hU := fun y hy hv c hc => h.hU y (hus y (List.mem_append_right _ hy)) hv c (g1.subset hc)
            G := fun c hc => h.G c (g1.subset hc)
            tlA := fun y hy => by simp [tlReads] at hy
            tlx := fun _ y hy => by simp [tlReads] at hy
            ns := fun e1 _ y hy => Or.inl (hns (by rw [stops, e1]; simp) y hy)
            bv := fun e1 => h.bv (by rw [breaks, e1])
            cv := h.cv
            Φn := fun f hf => Nat.lt_of_lt_of_le (hx.Φn f hf) hle
            kn := fun e1 _ => (hkn (by rw [stops, e1]; simp)).mono hjj (fun y hy => List.mem_append_left _ hy) g1
              (fun c hc => h.G c (g1.subset hc))
            kb := fun e1 => (hx.kb (by rw [breaks, e1])).imp_right (fun k => k.mono hjj (fun _ h => h) g1
              (fun c hc => h.G c (g1.subset hc)))
            kc := hx.kc.imp_right (fun k => k.mono hjj (fun _ h => h) g1 (fun c hc => h.G c (g1.subset hc)))
            cat := h.cat.mono hjj g1 }
          rw [← hrb]
          refine ib _ pd v _ _ _ α' hw.2 ho.2 (fun y hy => hvl y (by rw [vols]; simp [hy])) hc ?_ (g2.setW w)
          refine hb2.ext Grow.refl ?_ ?_ (fun y hy => List.mem_append_right _ hy) (fun y hy => Or.inl hy)
          · intro y hy
            rw [freeC]
            rw [hrb] at hy
            simp [hy]
          · intro k hk
            rw [refsC]
            rw [hrb] at hk
            simp [hk]
      · exact (h.cat cs' x.L _ _ α' u g1 (g2.c.setW w)).mono hjj
  have hb1 : Bnd Vol x.Lx (updates (.whl e a b)) (.jump x.c nts) (f :: x.Φ) ρ := by
    subst hf
    exact hb.rest (fun _ h => h)
  have hKn := hK n
  rw [Nat.min_eq_right h.jn] at hKn
  have hv : ∀ y ∈ (KExp.ref x.c nts).vars, (ρ y).isSome = true := fun y hy =>
    hb1.b y (by rw [freeC]; exact hy) (hp1 y hy)
  have hfv : ∀ k ∈ (KExp.ref x.c nts).refs, ∀ y ∈ fvsOf (f :: x.Φ) k, (ρ y).isSome = true := fun k hk =>
    hb1.k k (by rw [refsC]; exact hk)
  obtain ⟨c, hc⟩ := hKn.ex.eval hv hfv
  rw [step, show mkClo (f :: x.Φ) ρ x.c nts = some c from hc]
  exact hKn.go x.cs s ρ t α List.suffix_rfl hd hv hfv c hc _

/-- Within a `try`. -/
theorem Ctx.push {P : Prims V} {n : Nat} {Vol : List Nat} {x : Cx V W} {rs us su : List Nat} {st br : Bool}
    (h : Ctx P n Vol x rs us su st br) {k : CR V W} {g : V → S V W → Fin V W} (hU : ∀ y ∈ us, y ∉ Vol → y ∉ k.G)
    (hG : ∀ y ∈ k.G, y ∈ x.L) (hc : CatsOK P n Vol x.j g (k :: x.cs)) :
    Ctx P n Vol { x with cs := k :: x.cs, r := ⟨clg x.cs.length x.r.nxt, clg x.cs.length x.r.brk, clg x.cs.length x.r.cnt, g⟩ }
      rs us su st br :=
  { h with
    hU := by
      intro y hy hv c hc
      rcases List.mem_cons.1 hc with rfl | hc
      · exact hU y hy hv
      · exact h.hU y hy hv c hc
    G := by
      intro c hc
      rcases List.mem_cons.1 hc with rfl | hc
      · exact hG
      · exact h.G c hc
    kn := fun e e' => (h.kn e e').close
    kb := fun e => (h.kb e).imp (fun h s => by simp [clg, h]) (fun k => k.close)
    kc := h.kc.imp (fun h s => by simp [clg, h]) (fun k => k.close)
    cat := hc }

theorem sim_try {P : Prims V} {n : Nat} {Vol : List Nat} {fin : Bool} {a b : Suite V W} (ia : SimS P n Vol a)
    (ib : SimS P n Vol b) : Sim1 P n Vol (.tryS fin a b) := by
  intro x pd res s ρ t α hn hif hw ho hvl h hb hd
  rw [cpsOne] at hb ⊢
  dsimp only at hb ⊢
  simp only [wf, Bool.and_eq_true] at hw
  rw [owns, if_pos hn, Bool.and_eq_true] at ho
  rw [vols, if_pos hn] at hvl
  have hva : ∀ y ∈ updatesS a, y ∈ Vol := fun y hy => hvl y (by simp [hy])
  have hvl1 : ∀ y ∈ volsS a, y ∈ Vol := fun y hy => hvl y (by simp [hy])
  have hvl2 : ∀ y ∈ volsS b, y ∈ Vol := fun y hy => hvl y (by simp [hy])
  generalize hnts : extraBinds Vol x.Γ (updatesS a ++ updatesS b) = nts at hb ⊢
  have hus : ∀ y, y ∈ updatesS a ++ updatesS b → y ∈ updates (.tryS fin a b) := fun y hy => by rw [updates]; exact hy
  have hp1 : ∀ y ∈ nts, y ∈ x.Lx := by
    intro y hy
    rw [← hnts, mem_extraBinds] at hy
    exact h.HX y (h.ΓL y hy.2.2 (hus y hy.1)) (Or.inr (hus y hy.1))
  have hp2 : ∀ y ∈ updatesS a ++ updatesS b, y ∉ Vol → y ∈ x.Lx → y ∈ nts := by
    intro y hy hv hl
    rw [← hnts, mem_extraBinds]
    exact ⟨hy, hv, h.LΓ y (h.LxL y hl)⟩
  rw [step]
  generalize hra : cps Vol x.Γ x.F x.tl true a (x.c + 1) = ra at hb ⊢
  generalize hrb : cps Vol x.Γ x.F x.tl true b ra.2 = rb at hb ⊢
  have hle : x.c + 1 ≤ ra.2 := by rw [← hra]; exact cps_le ..
  generalize hf : mkFun x.Φ ρ x.c nts (.ite (.arg .res) ra.1 rb.1) = f at hb ⊢
  have hfn : f.name = x.c := by rw [← hf]; rfl
  have hfp : f.ps = nts := by rw [← hf]; rfl
  have hfb : f.body = .ite (.arg .res) ra.1 rb.1 := by rw [← hf]; rfl
  have hb1 : Bnd Vol x.Lx (updates (.tryS fin a b)) (.push (.ref x.c nts)) (f :: x.Φ) ρ := by
    subst hf
    exact hb.rest (fun _ h => h)
  have hv : ∀ y ∈ nts, (ρ y).isSome = true := fun y hy => hb1.b y (by rw [freeC]; exact hy) (hp1 y hy)
  have hfv : ∀ y ∈ f.fvs, (ρ y).isSome = true := by
    have := hb1.k x.c (by simp [refsC, KExp.refs])
    rwa [← hfn, fvsOf_same] at this
  have hent : Bnd Vol x.Lx (updatesS a ++ updatesS b) (.ite (.arg .res) ra.1 rb.1) (f :: x.Φ) (bindK ρ nts nts f.fvs) := by
    subst hf
    refine hb.enter (fun y hy => Or.inl hy) ?_ hp2 hv hfv
    intro y hy hyl
    rw [assignedC] at hy
    rcases List.mem_append.1 hy with hy | hy
    · rw [← hra] at hy
      rcases assigned_cps a _ _ _ _ _ y hy with h' | h'
      · exact absurd (h.LxL y hyl) (wfS_decls a _ _ hw.1 y h')
      · exact hp2 y (List.mem_append_left _ h'.1) h'.2 hyl
    · rw [← hrb] at hy
      rcases assigned_cps b _ _ _ _ _ y hy with h' | h'
      · exact absurd (h.LxL y hyl) (wfS_decls b _ _ hw.2 y h')
      · exact hp2 y (List.mem_append_right _ h'.1) h'.2 hyl
  have hex : KEx (f :: x.Φ) (.ref x.c nts) := ⟨f, f :: x.Φ, by rw [findK, if_pos hfn], by rw [hfp]⟩
  obtain ⟨c0, hc0⟩ := hex.eval (ρ := ρ) hv (by
    intro k hk
    rw [KExp.refs, List.mem_singleton] at hk
    subst hk
    rw [← hfn, fvsOf_same]
    exact hfv)
  have hc1 : c0 = .fn (.ite (.arg .res) ra.1 rb.1) (f :: x.Φ) (bindK ρ nts nts f.fvs) := by
    rw [← hfn, ← hfp] at hc0
    have := evalK_def hc0
    rwa [hfb, hfp] at this
  rw [step, hc0]
  dsimp only
  generalize hρ0 : bindK ρ nts nts f.fvs = ρ0 at hent hc1
  have hagr : Agr Vol x.L s.σ ρ0 α := by rw [← hρ0]; exact Agr.bind hd.a
  have hx := h.ext (f := f) hfn
  have hlen := hd.c.len
  have hlt := hlen.1
  have hbody : Bnd Vol x.Lx (updatesS a) ra.1 (f :: x.Φ) ρ0 :=
    hent.ext Grow.refl (fun y hy => by rw [freeC]; simp [hy]) (fun k hk => by rw [refsC]; simp [hk])
      (fun y hy => List.mem_append_left _ hy) (fun y hy => Or.inl hy)
  have hhand : Bnd Vol x.Lx (updatesS b) rb.1 (f :: x.Φ) ρ0 :=
    hent.ext Grow.refl (fun y hy => by rw [freeC]; simp [hy]) (fun k hk => by rw [refsC]; simp [hk])
      (fun y hy => List.mem_append_right _ hy) (fun y hy => Or.inl hy)
  have hctxa := hx.sub (rs' := readsS a) (us' := updatesS a) (su' := sureS a) (st' := stopsS a) (br' := breaksS a)
    (c := x.c + 1) (fun y hy => by rw [reads]; simp [hy]) (fun y hy => by rw [updates]; simp [hy])
    (fun e => ⟨by rw [stops, e]; rfl, fun y hy => by rw [sure] at hy; exact (sure_branch hy).1 e⟩)
    (fun e => by rw [breaks, e]; rfl) (Nat.le_refl _)
  have hctxb := hx.sub (rs' := readsS b) (us' := updatesS b) (su' := sureS b) (st' := stopsS b) (br' := breaksS b)
    (c := ra.2) (fun y hy => by rw [reads]; simp [hy]) (fun y hy => by rw [updates]; simp [hy])
    (fun e => ⟨by rw [stops, e]; simp, fun y hy => by rw [sure] at hy; exact (sure_branch hy).2 e⟩)
    (fun e => by rw [breaks, e]; simp) hle
  have hcat : CatsOK P n Vol x.j (x.r.body x.cs.length fun s => (x.r.pre (tlE x.tl)).app ((evalS P n b s).close x.cs.length)).exn
      (⟨c0, x.L, s.σ, α⟩ :: x.cs) := by
    intro cs' L' s' t' α' e h1 h2
    have hl := h2.len
    simp only [R.body]
    rcases List.suffix_cons_iff.1 h1 with rfl | h1
    · rw [if_pos (by rw [hl.1]; rfl)]
      have hct := h2.cat
      have hst := h2.stk
      obtain ⟨w', cells', cat'⟩ := t'
      cases cat' with
      | nil => simp at hct
      | cons q cat' =>
        obtain ⟨c', z⟩ := q
        simp only [List.map_cons, List.cons.injEq] at hct
        obtain ⟨rfl, hct⟩ := hct
        refine Leads.throw (c := c') (z := z) (cs := cat') rfl ?_
        refine Leads.of ?_ (hand_close x.r x.cs.length x.tl _)
        rw [hc1]
        refine (Leads.apply ?_).mono (Nat.le_succ _)
        rw [step]
        simp only [evalT, evalA, Option.map_some, P.truth_ff, Bool.false_eq_true, if_false]
        rw [← hrb]
        have hctx := hctxb.push (k := ⟨c', [], s.σ, α⟩) (g := fun e => clg x.cs.length (x.r.exn e))
          (fun y _ _ => by simp) (fun y hy => by simp at hy) h.cat.close
        refine ib { x with c := ra.2, Φ := f :: x.Φ, cs := ⟨c', [], s.σ, α⟩ :: x.cs, r := x.r.hand x.cs.length }
          true P.ff _ ρ0 _ α' hw.2 ho.2 hvl2 hctx (by rw [hrb]; exact hhand) ?_
        have hk : ∀ y ∈ x.L, y ∈ L' ∧ (y ∉ Vol → s'.σ y = s.σ y) ∧ (y ∈ Vol → α' y = α y) :=
          h2.keep _ List.mem_cons_self
        refine ⟨⟨fun y hy => h2.cel y (hk y hy).1, fun y hy hv z hz => h2.inj y (hk y hy).1 hv z (hk z hz).1, h2.w, ?_, ?_, ?_⟩, ?_⟩
        · simp only [List.map_cons, List.nil_append] at hst ⊢
          rw [hst]
          rfl
        · exact List.cons_eq_cons.2 ⟨by rw [hrb]; exact hc1.symm, hct⟩
        · intro k hkm y hy
          rcases List.mem_cons.1 hkm with rfl | hkm
          · simp at hy
          · exact ⟨h.G k hkm y hy, (h2.keep k (List.mem_cons_of_mem _ hkm) y hy).2⟩
        · intro y hy tv htv
          obtain ⟨v, hv1, hv2⟩ := hagr y hy tv htv
          by_cases hyv : y ∈ Vol
          · obtain ⟨u, hu, _⟩ := h2.cel y (hk y hy).1 hyv
            refine ⟨u, hu, ?_⟩
            rw [if_pos hyv] at hv2 ⊢
            rw [(hk y hy).2.2 hyv]
            exact hv2
          · refine ⟨v, by rw [← hv1]; exact (hk y hy).2.1 hyv, ?_⟩
            rw [if_neg hyv] at hv2 ⊢
            exact hv2
    · have hle := h1.length_le
      rw [if_neg (by omega), clg_le (by omega)]
      exact h.cat cs' L' s' t' α' e h1 h2
  rw [eval]
  refine Leads.of ?_ (body_try x.r s.stk.length x.tl _ _)
  rw [hlt]
  rw [hc1]
  refine (Leads.apply ?_).mono (Nat.le_succ _)
  rw [step]
  simp only [evalT, evalA, Option.map_some, P.truth_tt, if_true]
  rw [← hra]
  have hctx := hctxa.push (k := ⟨c0, x.L, s.σ, α⟩) (g := _) (fun y hy hv => absurd (hva y hy) hv) (fun _ h => h) hcat
  refine ia { x with
    c := x.c + 1, Φ := f :: x.Φ, cs := ⟨c0, x.L, s.σ, α⟩ :: x.cs,
    r := x.r.body x.cs.length fun s => (x.r.pre (tlE x.tl)).app ((evalS P n b s).close x.cs.length) }
    true P.tt _ ρ0 _ α hw.1 ho.1 hvl1 hctx (by rw [hra]; exact hbody) ?_
  refine ⟨⟨hd.c.cel, hd.c.inj, hd.c.w, ?_, ?_, ?_⟩, hagr⟩
  · have := hd.c.stk
    simp only [List.map_cons, List.nil_append] at this ⊢
    rw [this]
  · exact List.cons_eq_cons.2 ⟨by rw [hra]; exact hc1.symm, hd.c.cat⟩
  · intro k hkm y hy
    rcases List.mem_cons.1 hkm with rfl | hkm
    · exact ⟨hy, fun _ => rfl, fun _ => rfl⟩
    · exact hd.c.keep k hkm y hy

theorem sim_cons {P : Prims V} {n : Nat} {Vol : List Nat} {a : Stmt V W} {ss : Suite V W}
    (i1 : isCompound a = true → Sim1 P n Vol a) (ih : SimS P n Vol ss) : SimS P n Vol (.cons a ss) := by
  by_cases hn : needCont false a = true
  · by_cases hc : isCompound a = true
    · exact sim_comp hn hc (i1 hc) ih
    · cases a with
      | call c => exact sim_call1 ih
      | declCall x c => exact sim_declCall ih
      | updCall x c => exact sim_updCall ih
      | mutCall f xs c => exact sim_mutCall ih
      | ret e => exact sim_ret
      | retCall c => exact sim_retCall
      | brk => exact sim_brk
      | cnt => exact sim_cnt
      | ite e a b => exact absurd rfl hc
      | whl e a b => exact absurd rfl hc
      | tryS f a b => exact absurd rfl hc
      | _ => simp [needCont] at hn
  · exact sim_simple (by simpa using hn) ih

mutual
theorem sim (P : Prims V) (n : Nat) (Vol : List Nat) : ∀ ss : Suite V W, SimS P n Vol ss
  | .nil => sim_nil
  | .cons a ss => sim_cons (sim1 P n Vol a) (sim P n Vol ss)
theorem sim1 (P : Prims V) (n : Nat) (Vol : List Nat) : ∀ a : Stmt V W, isCompound a = true → Sim1 P n Vol a
  | .ite _ a b, _ => sim_ite (sim P n Vol a) (sim P n Vol b)
  | .whl _ a b, _ => sim_whl (sim P n Vol a) (sim P n Vol b)
  | .tryS _ a b, _ => sim_try (sim P n Vol a) (sim P n Vol b)
  | .exp _, h => by cases h
  | .decl _ _, h => by cases h
  | .upd _ _, h => by cases h
  | .call _, h => by cases h
  | .declCall _ _, h => by cases h
  | .updCall _ _, h => by cases h
  | .mutCall _ _ _, h => by cases h
  | .ret _, h => by cases h
  | .retCall _, h => by cases h
  | .brk, h => by cases h
  | .cnt, h => by cases h
  | .drop, h => by cases h
  | .pop _, h => by cases h
  | .raise _, h => by cases h
end

end Verif.Cps
