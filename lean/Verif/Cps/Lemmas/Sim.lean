import Verif.Cps.Lemmas.Ctx

/-!
The converted code does what is left to do in the source.
-/
namespace Verif.Cps
variable {V W : Type}

theorem isLast_iff {ss : Suite V W} {tl : Option (Exp V W)} (h : isLast ss tl = true) : ss = .nil ∧ tl = none := by
  cases ss <;> cases tl <;> simp_all [isLast]

theorem Bnd.ext {Vol Lx Lx' us us' : List Nat} {c c' : Code V W} {Φ : List (KFun V W)} {ρ ρ' : Nat → Option (TV V)}
    (h : Bnd Vol Lx us c Φ ρ) (hg : Grow ρ ρ') (hf : ∀ x ∈ freeC c', x ∈ freeC c) (hr : ∀ k ∈ refsC c', k ∈ refsC c)
    (hu : ∀ x ∈ us', x ∈ us) (hL : ∀ x ∈ Lx', x ∈ Lx ∨ (ρ' x).isSome = true) : Bnd Vol Lx' us' c' Φ ρ' where
  b x hx hl := (hL x hl).elim (fun hl => hg x (h.b x (hf x hx) hl)) id
  k k hk x hx := hg x (h.k k (hr k hk) x hx)
  u x hx hv hl := (hL x hl).elim (fun hl => hg x (h.u x (hu x hx) hv hl)) id

/-- The code after a call. -/
theorem sim_call {P : Prims V} {n : Nat} {Vol : List Nat} {x : Cx V W} {rs us su : List Nat} {st br : Bool}
    {ps : List Nat} {b : Code V W} {c : Call V W} {ρ : Nat → Option (TV V)} {t : T V W} {s : S V W} {α : Nat → Nat}
    {k : V → S V W → Out V W} {r : R V W} {us' : List Nat} {res : V}
    (h : Ctx P n Vol x rs us su st br) (hr : r.exn = x.r.exn)
    (hb : Bnd Vol x.Lx us (.kdef x.c ps b (.call c.f (c.xs.map (cv Vol)) (.ref x.c ps))) x.Φ ρ)
    (hd : DSt Vol x.L s ⟨ρ, t, []⟩ x.cs α) (hx : ∀ y ∈ c.xs, y ∈ x.L) (hxr : ∀ y ∈ c.xs, y ∈ rs)
    (hps : ∀ y ∈ ps, y ∈ x.Lx) (ha : ∀ y ∈ assignedC b, y ∈ x.Lx → y ∈ ps) (hu : ∀ y ∈ us', y ∉ Vol → y ∈ x.Lx → y ∈ ps)
    (go : ∀ v s' t' cs' ρ' α', cs' <:+ x.cs → DSt Vol x.L s' ⟨ρ', t', []⟩ cs' α' →
      Bnd Vol x.Lx us' b (mkFun x.Φ ρ x.c ps b :: x.Φ) ρ' →
      Leads P n x.j (step P n v b (mkFun x.Φ ρ x.c ps b :: x.Φ) ρ' t') (r.app (k v s'))) :
    Leads P n x.j (step P n res (.kdef x.c ps b (.call c.f (c.xs.map (cv Vol)) (.ref x.c ps))) x.Φ ρ t)
      (r.app (onE s (evalCall s.σ s.w c) k)) := by
  rw [step, step]
  have hxb : ∀ y ∈ c.xs, (ρ y).isSome = true := fun y hy =>
    hb.b y (by simp [freeC, fv_map_cv, hy]) (h.HX y (hx y hy) (Or.inl (hxr y hy)))
  have he := evalAs_eq hd res (xs := c.xs) hx hxb
  dsimp only at he
  rw [he, ← hd.c.w]
  have hb' := hb.rest (us' := us) (fun _ h => h)
  have hK : KOK P n Vol (x.j + 1) (.ref x.c ps) (mkFun x.Φ ρ x.c ps b :: x.Φ) x.L x.cs (fun v s' => r.app (k v s')) := by
    refine KOK.def ?_
    intro cs' s' ρu t' α' h1 h2 h3 h4 v
    exact go v s' t' cs' _ α' h1 h2 (hb.enter (fun y hy => Or.inl hy) ha hu h3 h4)
  have hv : ∀ y ∈ (KExp.ref x.c ps).vars, (ρ y).isSome = true := by
    intro y hy
    exact hb'.b y (by rw [freeC]; exact List.mem_append_right _ hy) (hps y hy)
  have hf : ∀ k ∈ (KExp.ref x.c ps).refs, ∀ y ∈ fvsOf (mkFun x.Φ ρ x.c ps b :: x.Φ) k, (ρ y).isSome = true :=
    fun k hk => hb'.k k (by rw [refsC]; exact hk)
  obtain ⟨c', hc'⟩ := hK.ex.eval hv hf
  rw [hc']
  refine Leads.ret hd (hr ▸ h.cat) ?_
  intro v s' t' hd' hσ
  exact (hK.go x.cs s' ρ t' α List.suffix_rfl hd' hv hf c' hc' v).mono (by omega)

theorem needS_cons {P : Prims V} {n : Nat} (r : R V W) (s : Stmt V W) (ss : Suite V W) (st : S V W) :
    r.app (evalS P n (.cons s ss) st) = (r.pre (evalS P n ss)).app (eval P n s st) := by
  rw [evalS, R.app_seq]

/-- The call is in last position. -/
theorem sim_last {P : Prims V} {n : Nat} {Vol : List Nat} {j : Nat} {L : List Nat} {cs : List (CR V W)}
    {c : Call V W} {ρ : Nat → Option (TV V)} {t : T V W} {s : S V W} {α : Nat → Nat} {κ : KExp} {Φ : List (KFun V W)}
    {k : V → S V W → Out V W} {r : R V W} {res : V} (hc : CatsOK P n Vol j r.exn cs)
    (hd : DSt Vol L s ⟨ρ, t, []⟩ cs α) (hx : ∀ y ∈ c.xs, y ∈ L) (hb : ∀ y ∈ c.xs, (ρ y).isSome = true)
    (hK : KOK P n Vol j κ Φ L cs (fun v s => r.app (k v s)))
    (hv : ∀ y ∈ κ.vars, (ρ y).isSome = true) (hf : ∀ k ∈ κ.refs, ∀ y ∈ fvsOf Φ k, (ρ y).isSome = true) :
    Leads P n j (step P n res (.call c.f (c.xs.map (cv Vol)) κ) Φ ρ t) (r.app (onE s (evalCall s.σ s.w c) k)) := by
  rw [step]
  have he := evalAs_eq hd res (xs := c.xs) hx hb
  dsimp only at he
  rw [he, ← hd.c.w]
  obtain ⟨c', hc'⟩ := hK.ex.eval hv hf
  rw [hc']
  refine Leads.ret hd hc ?_
  intro v s' t' hd' hσ
  exact hK.go cs s' ρ t' α List.suffix_rfl hd' hv hf c' hc' v

theorem KOK.meth {P : Prims V} {n : Nat} {Vol : List Nat} {j : Nat} {Φ : List (KFun V W)} {L : List Nat} {cs : List (CR V W)} :
    KOK P n Vol j .meth Φ L cs (fun v s => .fin v s.w s.stk.length) := by
  refine ⟨trivial, ?_⟩
  intro cs' s ρ t α h1 h2 h3 h4 c hc v
  cases hc
  have hl := h2.c.len
  have hw := h2.c.w
  dsimp only at hw
  rw [hw, hl.1, ← hl.2]
  exact Leads.done

theorem startsRet_iff {y : Nat} {ss : Suite V W} (h : startsRet y ss = true) : ∃ ss', ss = .cons (.ret (.var y)) ss' := by
  unfold startsRet at h
  split at h
  · rw [decide_eq_true_eq] at h
    subst h
    exact ⟨_, rfl⟩
  · cases h

end Verif.Cps
