import Verif.Cps.Lemmas.Leads

/-!
The context of a suite that is converted.
-/
namespace Verif.Cps
variable {V W : Type}

/-- `L`: the variables set; `Lx`: those among them that the running continuation has got. -/
structure Cx (V W : Type) where
  A : List Nat
  L : List Nat
  Lx : List Nat
  Γ : List Nat
  F : List Frame
  tl : Option (Exp V W)
  c : Nat
  Φ : List (KFun V W)
  cs : List (CR V W)
  r : R V W
  j : Nat

/-- The conditions on the context of a suite that reads `rs`, assigns to `us`, sets `su` and stops
normally (with `break`) only if `st` (`br`). -/
structure Ctx (P : Prims V) (n : Nat) (Vol : List Nat) (x : Cx V W) (rs us su : List Nat) (st br : Bool) : Prop where
  jn : x.j ≤ n
  LΓ : ∀ y ∈ x.L, y ∈ x.Γ
  ΓL : ∀ y ∈ x.Γ, y ∈ us → y ∈ x.L
  LxL : ∀ y ∈ x.Lx, y ∈ x.L
  HX : ∀ y ∈ x.L, y ∈ rs ∨ y ∈ us → y ∈ x.Lx
  hU : ∀ y ∈ us, y ∉ Vol → ∀ c ∈ x.cs, y ∉ c.G
  G : ∀ c ∈ x.cs, ∀ y ∈ c.G, y ∈ x.L
  tlA : ∀ y ∈ tlReads x.tl, y ∈ x.A
  tlx : st = true → ∀ y ∈ tlReads x.tl, y ∈ x.Lx ∨ (y ∈ x.A ∧ y ∉ x.L ∧ y ∈ su)
  ns : st = true → x.tl = none → ∀ y ∈ (seqcont x.F).vars, y ∈ x.Lx ∨ (y ∈ x.A ∧ y ∉ x.L ∧ y ∈ su)
  bv : br = true → ∀ y ∈ (brkcont x.F).vars, y ∈ x.Lx
  cv : ∀ y ∈ (cntcont x.F).vars, y ∈ x.Lx
  Φn : ∀ f ∈ x.Φ, f.name < x.c
  kn : st = true → x.tl = none → KOK P n Vol x.j (seqcont x.F) x.Φ (x.L ++ su) x.cs (fun _ => x.r.nxt)
  kb : br = true → (∀ s, x.r.brk s = .stuck) ∨ KOK P n Vol x.j (brkcont x.F) x.Φ x.L x.cs (fun _ => x.r.brk)
  kc : (∀ s, x.r.cnt s = .stuck) ∨ KOK P n Vol x.j (cntcont x.F) x.Φ x.L x.cs (fun _ => x.r.cnt)
  cat : CatsOK P n Vol x.j x.r.exn x.cs

theorem CatsOK.mono {P : Prims V} {n : Nat} {Vol : List Nat} {j j' : Nat} {g : V → S V W → Fin V W} {cs cs' : List (CR V W)}
    (h : CatsOK P n Vol j g cs) (hj : j' ≤ j) (hs : cs' <:+ cs) : CatsOK P n Vol j' g cs' :=
  fun cs1 L s t α x h1 h2 => (h cs1 L s t α x (h1.trans hs) h2).mono hj

/-- A branch. -/
theorem Ctx.sub {P : Prims V} {n : Nat} {Vol : List Nat} {x : Cx V W} {rs us su rs' us' su' : List Nat} {st br st' br' : Bool}
    (h : Ctx P n Vol x rs us su st br) (hr : ∀ y ∈ rs', y ∈ rs) (hu : ∀ y ∈ us', y ∈ us)
    (hs : st' = true → st = true ∧ ∀ y ∈ su, y ∈ su') (hb : br' = true → br = true) {c : Nat} (hc : x.c ≤ c) :
    Ctx P n Vol { x with c := c } rs' us' su' st' br' where
  jn := h.jn
  LΓ := h.LΓ
  ΓL y hy hy' := h.ΓL y hy (hu y hy')
  LxL := h.LxL
  HX y hy hy' := h.HX y hy (hy'.imp (hr y) (hu y))
  hU y hy := h.hU y (hu y hy)
  G := h.G
  tlA := h.tlA
  tlx e y hy := (h.tlx (hs e).1 y hy).imp_right fun ⟨h1, h2, h3⟩ => ⟨h1, h2, (hs e).2 y h3⟩
  ns e e' y hy := (h.ns (hs e).1 e' y hy).imp_right fun ⟨h1, h2, h3⟩ => ⟨h1, h2, (hs e).2 y h3⟩
  bv e := h.bv (hb e)
  cv := h.cv
  Φn f hf := Nat.lt_of_lt_of_le (h.Φn f hf) hc
  kn e e' := (h.kn (hs e).1 e').mono (Nat.le_refl _)
    (fun y hy => (List.mem_append.1 hy).elim (fun hy => List.mem_append_left _ hy)
      (fun hy => List.mem_append_right _ ((hs e).2 y hy))) List.suffix_rfl
    (fun c hc y hy => List.mem_append_left _ (h.G c hc y hy))
  kb e := h.kb (hb e)
  kc := h.kc
  cat := h.cat

/-- One more continuation in scope. -/
theorem Ctx.ext {P : Prims V} {n : Nat} {Vol : List Nat} {x : Cx V W} {rs us su : List Nat} {st br : Bool}
    (h : Ctx P n Vol x rs us su st br) {f : KFun V W} (hf : f.name = x.c) :
    Ctx P n Vol { x with c := x.c + 1, Φ := f :: x.Φ } rs us su st br := by
  have hΦ : ∀ f' ∈ x.Φ, f'.name < f.name := fun f' h' => hf ▸ h.Φn f' h'
  exact { h with
    Φn := by
      intro f' h'
      rcases List.mem_cons.1 h' with rfl | h'
      · exact Nat.lt_succ_of_le (Nat.le_of_eq hf)
      · exact Nat.lt_succ_of_lt (h.Φn f' h')
    kn := fun e e' => (h.kn e e').ext hΦ
    kb := fun e => (h.kb e).imp_right (fun k => k.ext hΦ)
    kc := h.kc.imp_right (fun k => k.ext hΦ) }

/-- Fewer activations and catchers. -/
theorem Ctx.mono {P : Prims V} {n : Nat} {Vol : List Nat} {x : Cx V W} {rs us su : List Nat} {st br : Bool}
    (h : Ctx P n Vol x rs us su st br) {j : Nat} (hj : j ≤ x.j) {cs : List (CR V W)} (hcs : cs <:+ x.cs) :
    Ctx P n Vol { x with j := j, cs := cs } rs us su st br :=
  { h with
    jn := Nat.le_trans hj h.jn
    hU := fun y hy hv c hc => h.hU y hy hv c (hcs.subset hc)
    G := fun c hc => h.G c (hcs.subset hc)
    kn := fun e e' => (h.kn e e').mono hj (fun _ h => h) hcs
      (fun c hc y hy => List.mem_append_left _ (h.G c (hcs.subset hc) y hy))
    kb := fun e => (h.kb e).imp_right (fun k => k.mono hj (fun _ h => h) hcs (fun c hc => h.G c (hcs.subset hc)))
    kc := h.kc.imp_right (fun k => k.mono hj (fun _ h => h) hcs (fun c hc => h.G c (hcs.subset hc)))
    cat := h.cat.mono hj hcs }

/-- What follows a statement. -/
theorem Ctx.rest {P : Prims V} {n : Nat} {Vol : List Nat} {x : Cx V W} {s : Stmt V W} {ss : Suite V W}
    (h : Ctx P n Vol x (readsS (.cons s ss)) (updatesS (.cons s ss)) (sureS (.cons s ss)) (stopsS (.cons s ss))
      (breaksS (.cons s ss)))
    (hs : stops s = true) (hin : inScope Vol x.A s ss = true) {Lx : List Nat}
    (h1 : ∀ y ∈ x.Lx, y ∈ Lx) (h2 : ∀ y ∈ Lx, y ∈ x.L ++ sure s)
    (h3 : ∀ y ∈ sure s, (y ∈ readsS ss ∨ y ∈ updatesS ss) ∨ (stopsS ss = true ∧ (y ∈ x.A ∨ y ∈ tlReads x.tl)) → y ∈ Lx) :
    Ctx P n Vol { x with L := x.L ++ sure s, Lx := Lx, Γ := x.Γ ++ envOf s } (readsS ss) (updatesS ss)
      (sureS ss) (stopsS ss) (breaksS ss) := by
  have hst : stopsS ss = true → stopsS (.cons s ss) = true := fun e => by rw [stopsS, hs, e]; rfl
  have hbr : breaksS ss = true → breaksS (.cons s ss) = true := fun e => by rw [breaksS, hs, e]; simp
  have hG : ∀ c ∈ x.cs, ∀ y ∈ c.G, y ∈ x.L ++ sure s := fun c hc y hy => List.mem_append_left _ (h.G c hc y hy)
  simp only [inScope, Bool.and_eq_true] at hin
  have hin1 : ∀ y ∈ envOf s, y ∈ later x.A ss → y ∈ sure s := by
    intro y hy hl
    have := List.all_eq_true.1 hin.1 y hy
    simpa [hl] using this
  have hloc : stopsS ss = true → ∀ y, y ∈ x.A ∨ y ∈ tlReads x.tl →
      y ∈ x.Lx ∨ (y ∈ x.A ∧ y ∉ x.L ∧ y ∈ sureS (.cons s ss)) → y ∈ Lx ∨ (y ∈ x.A ∧ y ∉ x.L ++ sure s ∧ y ∈ sureS ss) := by
    rintro e y hA (hy | ⟨ha, hl, hy⟩)
    · exact Or.inl (h1 y hy)
    · by_cases hys : y ∈ sure s
      · exact Or.inl (h3 y hys (Or.inr ⟨e, hA⟩))
      · refine Or.inr ⟨ha, ?_, ?_⟩
        · simp [hl, hys]
        · rw [sureS] at hy
          exact (List.mem_append.1 hy).resolve_left hys
  exact {
    jn := h.jn
    LΓ := by
      intro y hy
      rcases List.mem_append.1 hy with hy | hy
      · exact List.mem_append_left _ (h.LΓ y hy)
      · exact List.mem_append_right _ (sure_sub s y hy).1
    ΓL := by
      intro y hy hu
      rcases List.mem_append.1 hy with hy | hy
      · exact List.mem_append_left _ (h.ΓL y hy (by rw [updatesS]; simp [hu]))
      · exact List.mem_append_right _ (hin1 y hy (by simp [later, hu]))
    LxL := h2
    HX := by
      intro y hy hru
      rcases List.mem_append.1 hy with hy | hy
      · exact h1 y (h.HX y hy (hru.imp (fun h => by rw [readsS]; simp [h]) (fun h => by rw [updatesS]; simp [h])))
      · exact h3 y hy (Or.inl hru)
    hU := fun y hy => h.hU y (by rw [updatesS]; simp [hy])
    G := hG
    tlA := h.tlA
    tlx := fun e y hy => hloc e y (Or.inr hy) (h.tlx (hst e) y hy)
    ns := by
      intro e e' y hy
      rcases h.ns (hst e) e' y hy with h' | h'
      · exact Or.inl (h1 y h')
      · exact hloc e y (Or.inl h'.1) (Or.inr h')
    bv := fun e y hy => h1 y (h.bv (hbr e) y hy)
    cv := fun y hy => h1 y (h.cv y hy)
    Φn := h.Φn
    kn := by
      intro e e'
      have := h.kn (hst e) e'
      rw [sureS, ← List.append_assoc] at this
      exact this
    kb := fun e => (h.kb (hbr e)).imp_right
      (fun k => k.mono (Nat.le_refl _) (fun y hy => List.mem_append_left _ hy) List.suffix_rfl h.G)
    kc := h.kc.imp_right
      (fun k => k.mono (Nat.le_refl _) (fun y hy => List.mem_append_left _ hy) List.suffix_rfl h.G)
    cat := h.cat }

/-! ### Steps -/

theorem app_onE (r : R V W) (s : S V W) (q : Option (Ev V W)) (k : V → S V W → Out V W) :
    r.app (onE s q k) = match q with
      | some (.ok v w) => r.app (k v { s with w := w })
      | some (.exn y w) => r.exn y { s with w := w }
      | none => .stuck := by
  rcases q with _ | ⟨v, w⟩ | ⟨v, w⟩ <;> rfl

theorem StC.setW {Vol L : List Nat} {s : S V W} {t : T V W} {cs : List (CR V W)} {α : Nat → Nat}
    (h : StC Vol L s t [] cs α) (w : W) : StC Vol L { s with w := w } { t with w := w } [] cs α :=
  ⟨h.cel, h.inj, rfl, h.stk, h.cat, h.keep⟩

/-- A value is passed to a continuation. -/
theorem Leads.ret {P : Prims V} {n : Nat} {Vol : List Nat} {j : Nat} {L : List Nat} {s : S V W} {ρ : Nat → Option (TV V)} {t : T V W}
    {cs : List (CR V W)} {α : Nat → Nat} {r : R V W} {k : V → S V W → Out V W} {c : Clo V W} {q : Option (Ev V W)}
    (hd : DSt Vol L s ⟨ρ, t, []⟩ cs α) (hc : CatsOK P n Vol j r.exn cs)
    (hk : ∀ v s' t', DSt Vol L s' ⟨ρ, t', []⟩ cs α → s'.σ = s.σ → Leads P n j (.apply c v t') (r.app (k v s'))) :
    Leads P n j (retEv t (some c) q) (r.app (onE s q k)) := by
  rw [app_onE]
  rcases q with _ | ⟨v, w⟩ | ⟨v, w⟩
  · trivial
  · exact hk v _ _ (hd.setW w) rfl
  · exact hc cs L _ _ α v List.suffix_rfl (hd.c.setW w)

/-- A statement in direct style. -/
theorem Leads.simp {P : Prims V} {n : Nat} {Vol : List Nat} {j : Nat} {L Ls : List Nat} {cs : List (CR V W)} {pd : Bool}
    {d : Depth} {ρ : Nat → Option (TV V)} {o : Out V W} {q : DOut V W} {r : R V W}
    {k : (Nat → Option (TV V)) → T V W → Next V W}
    (h : Rel Vol L Ls cs pd none 0 d ρ o q) (hd : d.back 0 = true) (hc : CatsOK P n Vol j r.exn cs)
    (hk : ∀ s' ρ' t' cs' α', o = .nxt s' → Grow ρ ρ' → (∀ x ∈ Ls, x ∈ L ∨ (ρ' x).isSome = true) → cs' <:+ cs →
      DSt Vol Ls s' ⟨ρ', t', []⟩ cs' α' → Leads P n j (k ρ' t') (r.app (.nxt s'))) :
    Leads P n j (afterD q k) (r.app o) := by
  cases o <;> cases q <;> simp only [Rel] at h <;> first | exact h.elim | trivial | skip
  · rename_i s' d'
    obtain ⟨h1, h2, h3, hb, cs', α', h4, h5, h6⟩ := h
    have hl := List.eq_nil_of_length_eq_zero (Depth.back_at hd h1)
    obtain ⟨ρ', t', l'⟩ := d'
    dsimp only at hl
    subst hl
    rw [afterD, if_pos rfl]
    exact hk s' ρ' t' cs' α' rfl h3 hb h4 h6
  · cases h.1
  · cases h.1
  · rename_i x s' y d'
    obtain ⟨h1, h2, h3, cs', α', h4, h5, h6⟩ := h
    subst h1
    have hl := List.eq_nil_of_length_eq_zero (Nat.le_zero.1 h2)
    rw [afterD, if_pos hl]
    have := h6.c
    rw [hl] at this
    exact hc cs' L s' d'.t α' x h4 this
  · exact Leads.timeout

theorem owns_simple {pd : Bool} {s : Stmt V W} (h : needCont false s = false) (ho : owns pd s = true) :
    (own pd none 0 s).back 0 = true := by
  cases s <;> simpa [owns, h] using ho

end Verif.Cps
