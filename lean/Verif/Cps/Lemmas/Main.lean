import Verif.Cps.Lemmas.Sim

/-!
The simulation, by induction on the source.
-/
namespace Verif.Cps
variable {V W : Type}

/-- The converted suite does what the suite does. -/
def SimS (P : Prims V) (n : Nat) (Vol : List Nat) (ss : Suite V W) : Prop :=
  ∀ (x : Cx V W) (pd : Bool) (res : V) (s : S V W) (ρ : Nat → Option (TV V)) (t : T V W) (α : Nat → Nat),
    wfS Vol x.A x.L ss = true → ownsS pd ss = true → (∀ y ∈ volsS ss, y ∈ Vol) →
    Ctx P n Vol x (readsS ss) (updatesS ss) (sureS ss) (stopsS ss) (breaksS ss) →
    Bnd Vol x.Lx (updatesS ss) (cps Vol x.Γ x.F x.tl pd ss x.c).1 x.Φ ρ →
    DSt Vol x.L s ⟨ρ, t, []⟩ x.cs α →
    Leads P n x.j (step P n res (cps Vol x.Γ x.F x.tl pd ss x.c).1 x.Φ ρ t)
      ((x.r.pre (tlE x.tl)).app (evalS P n ss s))

/-- The converted statement does what the statement does. -/
def Sim1 (P : Prims V) (n : Nat) (Vol : List Nat) (a : Stmt V W) : Prop :=
  ∀ (x : Cx V W) (pd : Bool) (res : V) (s : S V W) (ρ : Nat → Option (TV V)) (t : T V W) (α : Nat → Nat),
    needCont false a = true → (isIf a = true ∨ x.tl = none) →
    wf Vol x.A x.L a = true → owns pd a = true → (∀ y ∈ vols a, y ∈ Vol) →
    Ctx P n Vol x (reads a) (updates a) (sure a) (stops a) (breaks a) →
    Bnd Vol x.Lx (updates a) (cpsOne Vol x.Γ x.F x.tl pd a x.c).1 x.Φ ρ →
    DSt Vol x.L s ⟨ρ, t, []⟩ x.cs α →
    Leads P n x.j (step P n res (cpsOne Vol x.Γ x.F x.tl pd a x.c).1 x.Φ ρ t)
      ((x.r.pre (tlE x.tl)).app (eval P n a s))

theorem sim_cont {P : Prims V} {n : Nat} {Vol : List Nat} {j : Nat} {κ : KExp} {Φ : List (KFun V W)} {L : List Nat}
    {cs : List (CR V W)} {g : S V W → Fin V W} {s : S V W} {ρ : Nat → Option (TV V)} {t : T V W} {α : Nat → Nat} {res : V}
    (hK : KOK P n Vol j κ Φ L cs (fun _ => g)) (hd : DSt Vol L s ⟨ρ, t, []⟩ cs α)
    (hv : ∀ y ∈ κ.vars, (ρ y).isSome = true) (hf : ∀ k ∈ κ.refs, ∀ y ∈ fvsOf Φ k, (ρ y).isSome = true) :
    Leads P n j (step P n res (.cont κ none) Φ ρ t) (g s) := by
  obtain ⟨c, hc⟩ := hK.ex.eval hv hf
  rw [step, hc]
  exact hK.go cs s ρ t α List.suffix_rfl hd hv hf c hc _

theorem sim_nil {P : Prims V} {n : Nat} {Vol : List Nat} : SimS P n Vol (.nil : Suite V W) := by
  intro x pd res s ρ t α _ _ _ h hb hd
  rw [cps] at hb ⊢
  rw [evalS]
  have hs : stopsS (.nil : Suite V W) = true := by simp [stopsS]
  rcases htl : x.tl with _ | e
  · rw [htl] at hb
    rw [endCode] at hb ⊢
    refine sim_cont (α := α) (h.kn hs htl) ?_ ?_ ?_
    · rw [sureS, List.append_nil]
      exact hd
    · intro y hy
      refine hb.b y (by rw [freeC]; exact hy) ?_
      rcases h.ns hs htl y hy with h' | ⟨_, _, h'⟩
      · exact h'
      · simp [sureS] at h'
    · intro k hk
      exact hb.k k (by rw [refsC]; exact hk)
  · rw [htl] at hb
    rw [endCode] at hb ⊢
    rw [step, evalD]
    have hx : ∀ y ∈ e.fv, y ∈ x.Lx := by
      intro y hy
      rcases h.tlx hs y (by rw [htl]; exact hy) with h' | ⟨_, _, h'⟩
      · exact h'
      · simp [sureS] at h'
    have he := evalT_eq hd res (e := e) (fun y hy => h.LxL y (hx y hy))
      (fun y hy => hb.b y (by simp [freeC, freeD, fv_convE, hy]) (hx y hy))
    dsimp only at he ⊢
    rw [he]
    show Leads P n x.j _ (x.r.app (tlE (some e) s))
    rw [tlE, app_onE]
    rcases evalE s.σ s.w e with _ | ⟨v, w⟩ | ⟨v, w⟩
    · trivial
    · simp only [onEv, afterD, if_true]
      exact h.cat x.cs x.L _ _ α v List.suffix_rfl (hd.c.setW w)
    · simp only [onEv, afterD, if_true]
      exact h.cat x.cs x.L _ _ α v List.suffix_rfl (hd.c.setW w)

/-- A statement that stays in direct style. -/
theorem sim_simple {P : Prims V} {n : Nat} {Vol : List Nat} {a : Stmt V W} {ss : Suite V W} (hn : needCont false a = false)
    (ih : SimS P n Vol ss) : SimS P n Vol (.cons a ss) := by
  intro x pd res s ρ t α hw ho hvl h hb hd
  rw [cps_simple hn] at hb ⊢
  dsimp only at hb ⊢
  simp only [wfS, Bool.and_eq_true] at hw
  rw [ownsS, Bool.and_eq_true] at ho
  have hback := owns_simple hn ho.1
  rw [step, needS_cons]
  have hp : Pre Vol x.L (reads a) (updates a) s ⟨ρ, t, []⟩ x.cs α pd 0 := by
    refine ⟨hd, rfl, fun _ => rfl, ?_, ?_⟩
    · intro y hy hru
      have hyx : y ∈ x.Lx := h.HX y hy (hru.imp (fun h => by rw [readsS]; simp [h]) (fun h => by rw [updatesS]; simp [h]))
      by_cases hu : y ∈ reads a ∨ (y ∈ updates a ∧ y ∈ Vol)
      · exact hb.b y (by rw [freeC]; exact List.mem_append_left _ (reads_conv a false pd hn y hu)) hyx
      · have hu' : y ∈ updates a ∧ y ∉ Vol := by tauto
        exact hb.u y (by rw [updatesS]; simp [hu'.1]) hu'.2 hyx
    · intro y hy
      exact h.hU y (by rw [updatesS]; simp [hy])
  have hr := dsim P n res a _ x.L pd none 0 s _ x.cs α hw.1.1 (Depth.back_bad hback) hp
  refine Leads.simp hr hback h.cat ?_
  intro s' ρ' t' cs' α' e hg hbd hcs hd'
  have hst := eval_stops P n a _ _ e
  have hsL : ∀ y ∈ sure a, y ∉ x.L := fun y hy => wf_decls a _ x.L hw.1.1 y (sure_sub a y hy).2.2
  have h1 := (h.rest hst hw.2 (Lx := x.Lx ++ sure a) (fun y hy => List.mem_append_left _ hy)
    (fun y hy => (List.mem_append.1 hy).elim (fun hy => List.mem_append_left _ (h.LxL y hy)) (fun hy => List.mem_append_right _ hy))
    (fun y hy _ => List.mem_append_right _ hy)).mono (Nat.le_refl _) hcs
  refine ih _ pd res s' ρ' t' α' hw.1.2 ho.2 (fun y hy => hvl y (by rw [volsS]; simp [hy])) h1 ?_ hd'
  refine hb.ext hg (fun y hy => by rw [freeC]; exact List.mem_append_right _ hy) (fun k hk => by rw [refsC]; exact hk)
    (fun y hy => by rw [updatesS]; simp [hy]) ?_
  intro y hy
  rcases List.mem_append.1 hy with hy | hy
  · exact Or.inl hy
  · exact Or.inr ((hbd y (List.mem_append_right _ hy)).resolve_left (hsL y hy))

/-- The parameters of the continuation after a call, and what its code assigns to. -/
theorem call_ps {P : Prims V} {n : Nat} {Vol : List Nat} {x : Cx V W} {a : Stmt V W} {ss : Suite V W}
    (h : Ctx P n Vol x (readsS (.cons a ss)) (updatesS (.cons a ss)) (sureS (.cons a ss)) (stopsS (.cons a ss))
      (breaksS (.cons a ss))) {us : List Nat} (hus : ∀ y ∈ us, y ∈ updatesS (.cons a ss)) :
    (∀ y ∈ extraBinds Vol x.Γ us, y ∈ x.Lx) ∧ (∀ y ∈ us, y ∉ Vol → y ∈ x.Lx → y ∈ extraBinds Vol x.Γ us) := by
  constructor
  · intro y hy
    rw [mem_extraBinds] at hy
    exact h.HX y (h.ΓL y hy.2.2 (hus y hy.1)) (Or.inr (hus y hy.1))
  · intro y hy hv hl
    rw [mem_extraBinds]
    exact ⟨hy, hv, h.LΓ y (h.LxL y hl)⟩

theorem sim_call1 {P : Prims V} {n : Nat} {Vol : List Nat} {c : Call V W} {ss : Suite V W}
    (ih : SimS P n Vol ss) : SimS P n Vol (.cons (.call c) ss) := by
  intro x pd res s ρ t α hw ho hvl h hb hd
  simp only [wfS, Bool.and_eq_true] at hw
  rw [ownsS, Bool.and_eq_true] at ho
  have hx : ∀ y ∈ c.xs, y ∈ x.L := sub_iff.1 (by simpa [wf] using hw.1.1)
  have hxr : ∀ y ∈ c.xs, y ∈ readsS (.cons (.call c) ss) := fun y hy => by simp [readsS, reads, hy]
  rw [needS_cons, eval]
  rw [cps] at hb ⊢
  by_cases hl : isLast ss x.tl = true
  · rw [if_pos hl] at hb ⊢
    dsimp only at hb ⊢
    obtain ⟨rfl, htl⟩ := isLast_iff hl
    rw [htl, R.pre_none]
    have hs : stopsS (.cons (.call c) .nil : Suite V W) = true := by simp [stopsS, stops]
    have e1 : (contOf c (seqcont x.F)).vars = (seqcont x.F).vars := by unfold contOf; split <;> rfl
    have e2 : (contOf c (seqcont x.F)).refs = (seqcont x.F).refs := by unfold contOf; split <;> rfl
    have hK : KOK P n Vol x.j (contOf c (seqcont x.F)) x.Φ x.L x.cs
        (fun _ s' => (x.r.pre (evalS P n .nil)).app (.nxt s')) := by
      have := h.kn hs htl
      simp only [sureS, sure, List.append_nil] at this
      unfold contOf
      simp only [R.pre, R.app, evalS]
      split
      · exact this
      · exact ⟨this.ex, this.go⟩
    refine sim_last (r := x.r.pre (evalS P n .nil)) (k := fun _ s => .nxt s) h.cat hd hx ?_ hK ?_ ?_
    · exact fun y hy => hb.b y (by simp [freeC, fv_map_cv, hy]) (h.HX y (hx y hy) (Or.inl (hxr y hy)))
    · intro y hy
      refine hb.b y (by rw [freeC]; exact List.mem_append_right _ hy) ?_
      rw [e1] at hy
      rcases h.ns hs htl y hy with h' | ⟨_, _, h'⟩
      · exact h'
      · simp [sureS, sure] at h'
    · intro k hk
      exact hb.k k (by rw [refsC]; exact hk)
  · rw [if_neg hl] at hb ⊢
    dsimp only at hb ⊢
    obtain ⟨hp1, hp2⟩ := call_ps (Vol := Vol) h (us := updatesS ss) (fun y hy => by simp [updatesS, hy])
    refine sim_call (us' := updatesS ss) (k := fun _ s => .nxt s) (r := (x.r.pre (tlE x.tl)).pre (evalS P n ss)) h rfl hb hd hx hxr hp1 ?_ hp2 ?_
    · intro y hy hyl
      rcases assigned_cps ss _ _ _ _ _ y hy with h' | h'
      · have := wfS_decls ss _ _ hw.1.2 y h'
        exact absurd (List.mem_append_left _ (h.LxL y hyl)) this
      · exact hp2 y h'.1 h'.2 hyl
    · intro v s' t' cs' ρ' α' hcs hd' hb'
      have h1 := ((h.rest (by simp [stops]) hw.2 (Lx := x.Lx) (fun y hy => hy)
        (fun y hy => List.mem_append_left _ (h.LxL y hy)) (fun y hy => by simp [sure] at hy)).ext
          (f := mkFun x.Φ ρ x.c (extraBinds Vol x.Γ (updatesS ss)) (cps Vol x.Γ x.F x.tl pd ss (x.c + 1)).1) rfl).mono (Nat.le_refl _) hcs
      have hwf := hw.1.2
      simp only [sure, envOf, List.append_nil] at h1 hwf
      exact ih _ pd v s' ρ' t' α' (by exact hwf) ho.2 (fun y hy => hvl y (by rw [volsS]; simp [hy])) h1 hb' hd'

theorem sim_ret {P : Prims V} {n : Nat} {Vol : List Nat} {e : Exp V W} {ss : Suite V W} :
    SimS P n Vol (.cons (.ret e) ss) := by
  intro x pd res s ρ t α hw ho hvl h hb hd
  simp only [wfS, Bool.and_eq_true] at hw
  have hx : ∀ y ∈ e.fv, y ∈ x.L := sub_iff.1 (by simpa [wf] using hw.1.1)
  rw [needS_cons, eval]
  rw [cps] at hb ⊢
  dsimp only at hb ⊢
  rw [step]
  have he := evalT_eq hd res (e := e) hx
    (fun y hy => hb.b y (by simp [freeC, fv_convE, hy]) (h.HX y (hx y hy) (Or.inl (by simp [readsS, reads, hy]))))
  dsimp only at he
  rw [he, evalK]
  refine Leads.ret hd h.cat ?_
  intro v s' t' hd' hσ
  exact KOK.meth.go (Φ := x.Φ) (Lk := x.L) x.cs s' ρ t' α List.suffix_rfl hd' (fun y hy => by simp [KExp.vars] at hy)
    (fun k hk => by simp [KExp.refs] at hk) _ rfl v

theorem sim_retCall {P : Prims V} {n : Nat} {Vol : List Nat} {c : Call V W} {ss : Suite V W} :
    SimS P n Vol (.cons (.retCall c) ss) := by
  intro x pd res s ρ t α hw ho hvl h hb hd
  simp only [wfS, Bool.and_eq_true] at hw
  have hx : ∀ y ∈ c.xs, y ∈ x.L := sub_iff.1 (by simpa [wf] using hw.1.1)
  rw [needS_cons, eval]
  rw [cps] at hb ⊢
  dsimp only at hb ⊢
  refine sim_last (r := (x.r.pre (tlE x.tl)).pre (evalS P n ss)) (k := fun v s => .ret v s) h.cat hd hx ?_ KOK.meth ?_ ?_
  · exact fun y hy => hb.b y (by simp [freeC, fv_map_cv, hy])
      (h.HX y (hx y hy) (Or.inl (by simp [readsS, reads, hy])))
  · intro y hy; simp [KExp.vars] at hy
  · intro y hy; simp [KExp.refs] at hy

theorem sim_brk {P : Prims V} {n : Nat} {Vol : List Nat} {ss : Suite V W} : SimS P n Vol (.cons .brk ss) := by
  intro x pd res s ρ t α hw ho hvl h hb hd
  rw [needS_cons, eval]
  rw [cps] at hb ⊢
  dsimp only at hb ⊢
  show Leads P n x.j _ (x.r.brk s)
  have hbr : breaksS (.cons .brk ss) = true := by simp [breaksS, breaks]
  rcases h.kb hbr with hs | hK
  · rw [hs]
    trivial
  · exact sim_cont hK hd (fun y hy => hb.b y (by rw [freeC]; exact hy) (h.bv hbr y hy))
      (fun k hk => hb.k k (by rw [refsC]; exact hk))

theorem sim_cnt {P : Prims V} {n : Nat} {Vol : List Nat} {ss : Suite V W} : SimS P n Vol (.cons .cnt ss) := by
  intro x pd res s ρ t α hw ho hvl h hb hd
  rw [needS_cons, eval]
  rw [cps] at hb ⊢
  dsimp only at hb ⊢
  show Leads P n x.j _ (x.r.cnt s)
  rcases h.kc with hs | hK
  · rw [hs]
    trivial
  · exact sim_cont hK hd (fun y hy => hb.b y (by rw [freeC]; exact hy) (h.cv y hy))
      (fun k hk => hb.k k (by rw [refsC]; exact hk))

theorem sim_declCall {P : Prims V} {n : Nat} {Vol : List Nat} {z : Nat} {c : Call V W} {ss : Suite V W}
    (ih : SimS P n Vol ss) : SimS P n Vol (.cons (.declCall z c) ss) := by
  intro x pd res s ρ t α hw ho hvl h hb hd
  simp only [wfS, Bool.and_eq_true] at hw
  rw [ownsS, Bool.and_eq_true] at ho
  have hw1 := hw.1.1
  simp only [wf, Bool.and_eq_true, sub_iff, decide_eq_true_eq] at hw1
  have hx := hw1.1
  have hxr : ∀ y ∈ c.xs, y ∈ readsS (.cons (.declCall z c) ss) := fun y hy => by simp [readsS, reads, hy]
  rw [needS_cons, eval]
  rw [cps] at hb ⊢
  by_cases hl : startsRet z ss = true
  · rw [if_pos hl] at hb ⊢
    dsimp only at hb ⊢
    obtain ⟨ss', rfl⟩ := startsRet_iff hl
    refine sim_last (r := (x.r.pre (tlE x.tl)).pre (evalS P n (.cons (.ret (.var z)) ss')))
      (k := fun v s => .nxt { s with σ := set s.σ z v }) h.cat hd hx ?_ ?_ ?_ ?_
    · exact fun y hy => hb.b y (by simp [freeC, fv_map_cv, hy]) (h.HX y (hx y hy) (Or.inl (hxr y hy)))
    · have : (fun v (s : S V W) => ((x.r.pre (tlE x.tl)).pre (evalS P n (.cons (.ret (.var z)) ss'))).app
          (.nxt { s with σ := set s.σ z v })) = fun v s => .fin v s.w s.stk.length := by
        funext v s
        simp [R.app, R.pre, evalS, eval, evalE, set_same, onE, Out.seq]
      rw [this]
      exact KOK.meth
    · intro y hy; simp [KExp.vars] at hy
    · intro y hy; simp [KExp.refs] at hy
  · rw [if_neg hl] at hb ⊢
    dsimp only at hb ⊢
    obtain ⟨hp1, hp2⟩ := call_ps (Vol := Vol) h (us := updatesS ss) (fun y hy => by simp [updatesS, hy])
    refine sim_call (us' := updatesS ss) (k := fun v s => .nxt { s with σ := set s.σ z v })
      (r := (x.r.pre (tlE x.tl)).pre (evalS P n ss)) h rfl hb hd hx hxr hp1 ?_ hp2 ?_
    · intro y hy hyl
      rw [assignedC, assignedD] at hy
      rcases List.mem_append.1 hy with hy | hy
      · rw [List.mem_singleton.1 hy] at hyl
        exact absurd (h.LxL _ hyl) hw1.2
      · rcases assigned_cps ss _ _ _ _ _ y hy with h' | h'
        · have := wfS_decls ss _ _ hw.1.2 y h'
          exact absurd (List.mem_append_left _ (h.LxL y hyl)) this
        · exact hp2 y h'.1 h'.2 hyl
    · intro v s' t' cs' ρ' α' hcs hd' hb'
      have h1 := ((h.rest (by simp [stops]) hw.2 (Lx := x.Lx ++ [z]) (fun y hy => List.mem_append_left _ hy)
        (fun y hy => (List.mem_append.1 hy).elim (fun hy => List.mem_append_left _ (h.LxL y hy))
          (fun hy => List.mem_append_right _ (by simpa [sure] using hy)))
        (fun y hy _ => List.mem_append_right _ (by simpa [sure] using hy))).ext
          (f := mkFun x.Φ ρ x.c (extraBinds Vol x.Γ (updatesS ss)) (.simp (.decl (decide (z ∈ Vol)) z (.arg .res))
            (cps Vol (x.Γ ++ [z]) x.F x.tl pd ss (x.c + 1)).1)) rfl).mono (Nat.le_refl _) hcs
      have hwf := hw.1.2
      simp only [sure, envOf] at h1 hwf
      rw [step, evalD, evalT, evalA]
      simp only [Option.map_some, onEv, afterD, declare_loc, if_true]
      obtain ⟨α1, hd1⟩ := hd'.declare hw1.2 v
      have hd2 : DSt Vol (x.L ++ [z]) { s' with σ := set s'.σ z v }
          ⟨((⟨ρ', t', []⟩ : D V W).declare (decide (z ∈ Vol)) z v).ρ,
            ((⟨ρ', t', []⟩ : D V W).declare (decide (z ∈ Vol)) z v).t, []⟩ cs' α1 := by
        have e : ((⟨ρ', t', []⟩ : D V W).declare (decide (z ∈ Vol)) z v).loc = [] := declare_loc
        generalize (⟨ρ', t', []⟩ : D V W).declare (decide (z ∈ Vol)) z v = dd at hd1 e ⊢
        obtain ⟨a, b, c⟩ := dd
        dsimp only at e
        subst e
        exact hd1
      refine ih _ pd v _ _ _ α1 (by exact hwf) ho.2 (fun y hy => hvl y (by rw [volsS]; simp [hy])) h1 ?_ hd2
      refine hb'.ext (declare_grow (d := ⟨ρ', t', []⟩)) (fun y hy => by rw [freeC]; exact List.mem_append_right _ hy)
        (fun k hk => by rw [refsC]; exact hk) (fun y hy => hy) ?_
      intro y hy
      rcases List.mem_append.1 hy with hy | hy
      · exact Or.inl hy
      · rw [List.mem_singleton.1 hy]
        refine Or.inr ?_
        unfold D.declare
        split <;> simp [set_same]

theorem sim_updCall {P : Prims V} {n : Nat} {Vol : List Nat} {z : Nat} {c : Call V W} {ss : Suite V W}
    (ih : SimS P n Vol ss) : SimS P n Vol (.cons (.updCall z c) ss) := by
  intro x pd res s ρ t α hw ho hvl h hb hd
  simp only [wfS, Bool.and_eq_true] at hw
  rw [ownsS, Bool.and_eq_true] at ho
  have hw1 := hw.1.1
  simp only [wf, Bool.and_eq_true, sub_iff, decide_eq_true_eq] at hw1
  have hx := hw1.1
  have hxr : ∀ y ∈ c.xs, y ∈ readsS (.cons (.updCall z c) ss) := fun y hy => by simp [readsS, reads, hy]
  rw [needS_cons, eval]
  rw [cps] at hb ⊢
  dsimp only at hb ⊢
  have hzu : z ∈ updatesS (.cons (.updCall z c) ss) := by simp [updatesS, updates]
  have hzl : z ∈ x.Lx := h.HX z hw1.2 (Or.inr hzu)
  obtain ⟨hp1, hp2⟩ := call_ps (Vol := Vol) h (us := z :: updatesS ss) (fun y hy => by simpa [updatesS, updates] using hy)
  refine sim_call (us' := z :: updatesS ss) (k := fun v s => s.update z v)
    (r := (x.r.pre (tlE x.tl)).pre (evalS P n ss)) h rfl hb hd hx hxr hp1 ?_ hp2 ?_
  · intro y hy hyl
    rw [assignedC, assignedD] at hy
    rcases List.mem_append.1 hy with hy | hy
    · by_cases hv : z ∈ Vol
      · simp [hv] at hy
      · simp only [hv, decide_false, Bool.false_eq_true, if_false, List.mem_singleton] at hy
        subst hy
        exact hp2 y (by simp) hv hyl
    · rcases assigned_cps ss _ _ _ _ _ y hy with h' | h'
      · have := wfS_decls ss _ _ hw.1.2 y h'
        exact absurd (List.mem_append_left _ (h.LxL y hyl)) this
      · exact hp2 y (by simp [h'.1]) h'.2 hyl
  · intro v s' t' cs' ρ' α' hcs hd' hb'
    have h1 := ((h.rest (by simp [stops]) hw.2 (Lx := x.Lx) (fun y hy => hy)
      (fun y hy => List.mem_append_left _ (h.LxL y hy)) (fun y hy => by simp [sure] at hy)).ext
        (f := mkFun x.Φ ρ x.c (extraBinds Vol x.Γ (z :: updatesS ss)) (.simp (.upd (decide (z ∈ Vol)) z (.arg .res))
            (cps Vol x.Γ x.F x.tl pd ss (x.c + 1)).1)) rfl).mono (Nat.le_refl _) hcs
    have hwf := hw.1.2
    simp only [sure, envOf, List.append_nil] at h1 hwf
    have hzb : (ρ' z).isSome = true := by
      by_cases hv : z ∈ Vol
      · exact hb'.b z (by simp [freeC, freeD, hv]) hzl
      · exact hb'.u z (by simp) hv hzl
    obtain ⟨e1, d', e2, hd1, hl, hg⟩ := hd'.update hw1.2 hzb (fun hv c hc => h.hU z hzu hv c (hcs.subset hc)) v
    rw [step, evalD, evalT, evalA]
    simp only [Option.map_some, onEv]
    rw [e1]
    obtain ⟨ρ1, t1, l1⟩ := d'
    dsimp only at hl
    subst hl
    simp only [e2, afterD, if_true]
    refine ih _ pd v _ _ _ α' (by exact hwf) ho.2 (fun y hy => hvl y (by rw [volsS]; simp [hy])) h1 ?_ hd1
    exact hb'.ext hg (fun y hy => by rw [freeC]; exact List.mem_append_right _ hy)
      (fun k hk => by rw [refsC]; exact hk) (fun y hy => by simp [hy]) (fun y hy => Or.inl hy)

theorem evalAs_append {ρ : Nat → Option (TV V)} {cells : List V} {res : V} : ∀ {xs : List Arg},
    evalAs ρ cells res (xs ++ [.res]) = (evalAs ρ cells res xs).map (· ++ [res])
  | [] => rfl
  | a :: xs => by
    rw [List.cons_append, evalAs, evalAs, evalAs_append]
    cases evalA ρ cells res a <;> cases evalAs ρ cells res xs <;> rfl

theorem sim_mutCall {P : Prims V} {n : Nat} {Vol : List Nat} {f : List V → W → Ev V W} {xs : List Nat} {c : Call V W}
    {ss : Suite V W} (ih : SimS P n Vol ss) : SimS P n Vol (.cons (.mutCall f xs c) ss) := by
  intro x pd res s ρ t α hw ho hvl h hb hd
  simp only [wfS, Bool.and_eq_true] at hw
  rw [ownsS, Bool.and_eq_true] at ho
  have hw1 := hw.1.1
  simp only [wf, Bool.and_eq_true, sub_iff] at hw1
  have hx := hw1.1
  have hxr : ∀ y ∈ c.xs, y ∈ readsS (.cons (.mutCall f xs c) ss) := fun y hy => by simp [readsS, reads, hy]
  rw [needS_cons, eval]
  rw [cps] at hb ⊢
  dsimp only at hb ⊢
  obtain ⟨hp1, hp2⟩ := call_ps (Vol := Vol) h (us := updatesS ss) (fun y hy => by simp [updatesS, hy])
  refine sim_call (us' := updatesS ss) (k := fun v s => onE s ((rd s.σ xs).map fun vs => f (vs ++ [v]) s.w) fun _ s => .nxt s)
    (r := (x.r.pre (tlE x.tl)).pre (evalS P n ss)) h rfl hb hd hx hxr hp1 ?_ hp2 ?_
  · intro y hy hyl
    rw [assignedC, assignedD, List.nil_append] at hy
    · rcases assigned_cps ss _ _ _ _ _ y hy with h' | h'
      · have := wfS_decls ss _ _ hw.1.2 y h'
        exact absurd (List.mem_append_left _ (h.LxL y hyl)) this
      · exact hp2 y h'.1 h'.2 hyl
    all_goals simp
  · intro v s' t' cs' ρ' α' hcs hd' hb'
    have h1 := ((h.rest (by simp [stops]) hw.2 (Lx := x.Lx) (fun y hy => hy)
      (fun y hy => List.mem_append_left _ (h.LxL y hy)) (fun y hy => by simp [sure] at hy)).ext
        (f := mkFun x.Φ ρ x.c (extraBinds Vol x.Γ (updatesS ss)) (.simp (.exp (.op f (xs.map (cv Vol) ++ [.res])))
            (cps Vol x.Γ x.F x.tl pd ss (x.c + 1)).1)) rfl).mono (Nat.le_refl _) hcs
    have hwf := hw.1.2
    simp only [sure, envOf, List.append_nil] at h1 hwf
    have hxb : ∀ y ∈ xs, (ρ' y).isSome = true := fun y hy =>
      hb'.b y (by
        have : y ∈ (xs.map (cv Vol)).flatMap Arg.fv := by rw [fv_map_cv]; exact hy
        simp only [freeC, freeD, TExp.fv, List.flatMap_append]
        exact List.mem_append_left _ (List.mem_append_left _ this))
        (h.HX y (hw1.2 y hy) (Or.inl (by simp [readsS, reads, hy])))
    have he := evalAs_eq hd' v (xs := xs) hw1.2 hxb
    dsimp only at he
    rw [step, evalD, evalT, evalAs_append]
    dsimp only
    rw [he, ← hd'.c.w, app_onE]
    cases rd s'.σ xs with
    | none => trivial
    | some vs =>
      simp only [Option.map_some]
      rcases f (vs ++ [v]) s'.w with ⟨u, w⟩ | ⟨u, w⟩
      · simp only [onEv, afterD, if_true]
        refine ih _ pd v _ _ _ α' (by exact hwf) ho.2 (fun y hy => hvl y (by rw [volsS]; simp [hy])) h1 ?_ (hd'.setW w)
        exact hb'.ext Grow.refl (fun y hy => by rw [freeC]; exact List.mem_append_right _ hy)
          (fun k hk => by rw [refsC]; exact hk) (fun y hy => hy) (fun y hy => Or.inl hy)
      · simp only [onEv, afterD, if_true]
        exact h.cat cs' x.L _ _ α' u hcs (hd'.c.setW w)

end Verif.Cps
