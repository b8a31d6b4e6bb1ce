import Verif.Cps.Lemmas.Direct

/-!
A statement that stays in direct style does what it did before.
-/
namespace Verif.Cps
variable {V W : Type}

theorem Rel.seq {Vol L L1 Ls rs us : List Nat} {cs : List (CR V W)} {pd : Bool} {lp : Option Nat} {dep : Nat}
    {r1 r : Depth} {s : S V W} {d : D V W} {α : Nat → Nat} {o : Out V W} {q : DOut V W}
    {k : S V W → Out V W} {k' : D V W → DOut V W}
    (hp : Pre Vol L rs us s d cs α pd dep) (h : Rel Vol L L1 cs pd lp dep r1 d.ρ o q)
    (hL : ∀ x ∈ L, x ∈ L1) (hLs : ∀ x ∈ L1, x ∈ Ls) (hle : ∀ e, r1 = .at e → e ≤ dep)
    (hk : ∀ s1 d1 cs1 α1, o = .nxt s1 → r1 = .at d1.loc.length → Pre Vol L1 rs us s1 d1 cs1 α1 pd d1.loc.length →
      Rel Vol L1 Ls cs1 pd lp d1.loc.length r d1.ρ (k s1) (k' d1)) :
    Rel Vol L Ls cs pd lp dep r d.ρ (o.seq k) (q.seq k') := by
  cases o <;> cases q <;> simp only [Rel] at h <;> first | exact h.elim | skip
  · rename_i s1 d1
    obtain ⟨h1, h2, h3, hb, cs', α', h4, h5, h6⟩ := h
    have hp1 : Pre Vol L1 rs us s1 d1 cs' α' pd d1.loc.length :=
      hp.next h6 h4 rfl h2 h3 (fun _ h => h) (fun _ h => h) hb
    have := hk s1 d1 cs' α' rfl h1 hp1
    exact this.weaken hL (fun _ _ => ⟨fun _ h => h, fun x hx => hLs x (hL x hx)⟩) h4 h5 h3 hp.G (hle _ h1) hb
  all_goals first | exact h | trivial

/-- The iterations of a loop. -/
theorem Rel.loop {P : Prims V} {Vol L Lb Le rs us : List Nat} {pd : Bool} {lp : Option Nat} {dep : Nat} {rb re : Depth}
    {res : V} {e : Exp V W} {body els : S V W → Out V W} {body' els' : D V W → DOut V W}
    (hx : ∀ x ∈ e.fv, x ∈ L) (hr : ∀ x ∈ e.fv, x ∈ rs) (hrb : rb.back dep = true) (hre : re.back dep = true)
    (hLb : ∀ x ∈ L, x ∈ Lb) (hLe : ∀ x ∈ L, x ∈ Le)
    (hb : ∀ s d cs α, Pre Vol L rs us s d cs α pd dep → Rel Vol L Lb cs pd (some dep) dep rb d.ρ (body s) (body' d))
    (he : ∀ s d cs α, Pre Vol L rs us s d cs α pd dep → Rel Vol L Le cs pd lp dep re d.ρ (els s) (els' d)) :
    ∀ (i : Nat) (s : S V W) (d : D V W) (cs : List (CR V W)) (α : Nat → Nat), Pre Vol L rs us s d cs α pd dep →
      Rel Vol L L cs pd lp dep (.at dep) d.ρ
        (Verif.Cps.loop P (fun s => evalE s.σ s.w e) body els i s)
        (dloop P (fun d => evalT d.ρ d.t.cells res d.t.w (convE Vol e)) body' els' i d) := by
  intro i
  induction i with
  | zero => intros; trivial
  | succ i ih =>
    intro s d cs α hp
    rw [Verif.Cps.loop, dloop]
    refine Rel.onE hp hx hr ?_
    intro v s' d' hp' hρ
    rw [← hρ]
    have go : ∀ s1 d1, d1.loc.length = dep → (pd = true → d1.loc = []) → Grow d'.ρ d1.ρ →
        (∃ cs' α', cs' <:+ cs ∧ (pd = false → cs' = cs) ∧ DSt Vol L s1 d1 cs' α') →
        Rel Vol L L cs pd lp dep (.at dep) d'.ρ
          (Verif.Cps.loop P (fun s => evalE s.σ s.w e) body els i s1)
          (dloop P (fun d => evalT d.ρ d.t.cells res d.t.w (convE Vol e)) body' els' i d1) := by
      rintro s1 d1 hl hpd hg ⟨cs', α', h4, h5, h6⟩
      have hp1 : Pre Vol L rs us s1 d1 cs' α' pd dep :=
        hp'.next h6 h4 hl hpd hg (fun _ h => h) (fun _ h => h) (fun x hx => Or.inl hx)
      exact (ih s1 d1 cs' α' hp1).weaken (fun _ h => h) (fun _ _ => ⟨fun _ h => h, fun _ h => h⟩) h4 h5 hg hp'.G
        (Nat.le_refl _) (fun x hx => Or.inl hx)
    by_cases ht : P.truth v = true
    · rw [if_pos ht, if_pos ht]
      have h := hb s' d' cs α hp'
      generalize body s' = o at h ⊢
      generalize body' d' = q at h ⊢
      cases o <;> cases q <;> simp only [Rel] at h <;> first | exact h.elim | skip
      · obtain ⟨h1, h2, h3, hbd, cs', α', h4, h5, h6⟩ := h
        exact go _ _ (Depth.back_at hrb h1) h2 h3 ⟨cs', α', h4, h5,
          h6.mono hLb (fun c hc => hp'.G c (h4.subset hc))⟩
      · obtain ⟨h1, h2, h3, h4⟩ := h
        simp only [Option.some.injEq] at h1
        refine ⟨by rw [h1], h2, h3, fun x hx => Or.inl hx, h4⟩
      · obtain ⟨h1, h2, h3, h4⟩ := h
        simp only [Option.some.injEq] at h1
        exact go _ _ h1.symm h2 h3 h4
      · exact h
      all_goals trivial
    · rw [if_neg ht, if_neg ht]
      have h := (he s' d' cs α hp').weaken (fun _ h => h) (Ls := L) (fun _ _ => ⟨hLe, fun _ h => h⟩)
        List.suffix_rfl (fun _ => rfl) Grow.refl hp'.G (Nat.le_refl _) (fun x hx => Or.inl hx)
      exact h.depth (fun d hd => by rw [Depth.back_at hre hd])

theorem suffix_tail {A : Type} {x : A} {l m : List A} (h : x :: l <:+ m) : l <:+ m :=
  (List.suffix_cons x l).trans h

mutual
theorem dsim (P : Prims V) (n : Nat) (res : V) {Vol : List Nat} : ∀ (s : Stmt V W) (A L : List Nat) (pd : Bool)
    (lp : Option Nat) (dep : Nat) (st : S V W) (d : D V W) (cs : List (CR V W)) (α : Nat → Nat), wf Vol A L s = true →
    own pd lp dep s ≠ .bad → Pre Vol L (reads s) (updates s) st d cs α pd dep →
    Rel Vol L (L ++ sure s) cs pd lp dep (own pd lp dep s) d.ρ (eval P n s st) (evalD P n res (conv Vol pd s) d)
  | .exp e, A, L, pd, lp, dep, st, d, cs, α, hwf, ho, hp => by
    rw [wf, sub_iff] at hwf
    rw [eval, conv, evalD, own, show sure (.exp e : Stmt V W) = [] from by simp [sure], List.append_nil]
    refine Rel.onE hp hwf (fun x hx => by rw [reads]; exact hx) ?_
    intro v s' d' hp' hρ
    exact ⟨by rw [hp'.len], hp'.pd, by rw [hρ]; exact Grow.refl, fun x hx => Or.inl hx, cs, α, List.suffix_rfl, fun _ => rfl, hp'.st⟩
  | .decl y e, A, L, pd, lp, dep, st, d, cs, α, hwf, ho, hp => by
    simp only [wf, Bool.and_eq_true, sub_iff, decide_eq_true_eq] at hwf
    rw [eval, conv, evalD, own, sure]
    refine Rel.onE hp hwf.1 (fun x hx => by rw [reads]; exact hx) ?_
    intro v s' d' hp' hρ
    obtain ⟨α', h⟩ := hp'.st.declare hwf.2 v
    refine ⟨by rw [declare_loc, hp'.len], by rw [declare_loc]; exact hp'.pd, by rw [← hρ]; exact declare_grow, ?_, cs, α',
      List.suffix_rfl, fun _ => rfl, h⟩
    intro x hx
    rcases List.mem_append.1 hx with hx | hx
    · exact Or.inl hx
    · rw [List.mem_singleton.1 hx]
      refine Or.inr ?_
      unfold D.declare
      split <;> simp [set_same]
  | .upd y e, A, L, pd, lp, dep, st, d, cs, α, hwf, ho, hp => by
    simp only [wf, Bool.and_eq_true, sub_iff, decide_eq_true_eq] at hwf
    rw [eval, conv, evalD, own, show sure (.upd y e : Stmt V W) = [] from by simp [sure], List.append_nil]
    refine Rel.onE hp hwf.1 (fun x hx => by rw [reads]; exact hx) ?_
    intro v s' d' hp' hρ
    obtain ⟨h1, d'', h2, h3, h4, h5⟩ := hp'.st.update hwf.2 (hp'.bd y hwf.2 (by simp [updates]))
      (hp'.up y (by simp [updates])) v
    rw [h1, h2]
    exact ⟨by rw [h4, hp'.len], by rw [h4]; exact hp'.pd, by rw [← hρ]; exact h5, fun x hx => Or.inl hx, cs, α,
      List.suffix_rfl, fun _ => rfl, h3⟩
  | .ite e a b, A, L, pd, lp, dep, st, d, cs, α, hwf, ho, hp => by
    simp only [wf, Bool.and_eq_true, sub_iff] at hwf
    rw [own] at ho
    obtain ⟨hoa, hob⟩ := Depth.join_bad ho
    rw [eval, conv, evalD, own]
    refine Rel.onE hp hwf.1.1 (fun x hx => by rw [reads]; simp [hx]) ?_
    intro v s' d' hp' hρ
    rw [← hρ]
    by_cases ht : P.truth v = true
    · rw [if_pos ht, if_pos ht]
      have h := dsimS P n res a A L pd lp dep s' d' cs α hwf.1.2 hoa
        (hp'.sub (fun x hx => by rw [reads]; simp [hx]) (fun x hx => by rw [updates]; simp [hx]))
      refine (h.weaken (fun _ h => h) (Ls := L ++ sure (.ite e a b)) ?_ List.suffix_rfl (fun _ => rfl) Grow.refl hp'.G
        (Nat.le_refl _) (fun x hx => Or.inl hx)).depth (fun d hd => Depth.join_left ho hd)
      intro s1 hs1
      refine ⟨fun x hx => ?_, fun x hx => List.mem_append_left _ hx⟩
      rcases List.mem_append.1 hx with hx | hx
      · exact List.mem_append_left _ hx
      · rw [sure] at hx
        exact List.mem_append_right _ ((sure_branch hx).1 (evalS_stops P n a _ _ hs1))
    · rw [if_neg ht, if_neg ht]
      have h := dsimS P n res b A L pd lp dep s' d' cs α hwf.2 hob
        (hp'.sub (fun x hx => by rw [reads]; simp [hx]) (fun x hx => by rw [updates]; simp [hx]))
      refine (h.weaken (fun _ h => h) (Ls := L ++ sure (.ite e a b)) ?_ List.suffix_rfl (fun _ => rfl) Grow.refl hp'.G
        (Nat.le_refl _) (fun x hx => Or.inl hx)).depth (fun d hd => Depth.join_right ho hd)
      intro s1 hs1
      refine ⟨fun x hx => ?_, fun x hx => List.mem_append_left _ hx⟩
      rcases List.mem_append.1 hx with hx | hx
      · exact List.mem_append_left _ hx
      · rw [sure] at hx
        exact List.mem_append_right _ ((sure_branch hx).2 (evalS_stops P n b _ _ hs1))
  | .whl e a b, A, L, pd, lp, dep, st, d, cs, α, hwf, ho, hp => by
    simp only [wf, Bool.and_eq_true, sub_iff] at hwf
    rw [own] at ho ⊢
    by_cases hc : ((ownS pd (some dep) dep a).back dep && (ownS pd lp dep b).back dep) = true
    · rw [if_pos hc]
      rw [Bool.and_eq_true] at hc
      rw [eval, conv, evalD, show sure (.whl e a b : Stmt V W) = [] from by simp [sure], List.append_nil]
      refine Rel.loop hwf.1.1 (fun x hx => by rw [reads]; simp [hx]) hc.1 hc.2
        (fun x hx => List.mem_append_left (sureS a) hx) (fun x hx => List.mem_append_left (sureS b) hx) ?_ ?_ n st d cs α hp
      · intro s d cs α hp
        exact dsimS P n res a [] L pd (some dep) dep s d cs α hwf.1.2 (Depth.back_bad hc.1)
          (hp.sub (fun x hx => by rw [reads]; simp [hx]) (fun x hx => by rw [updates]; simp [hx]))
      · intro s d cs α hp
        exact dsimS P n res b [] L pd lp dep s d cs α hwf.2 (Depth.back_bad hc.2)
          (hp.sub (fun x hx => by rw [reads]; simp [hx]) (fun x hx => by rw [updates]; simp [hx]))
    · rw [if_neg hc] at ho
      exact absurd rfl ho
  | .tryS f a b, A, L, pd, lp, dep, st, d, cs, α, hwf, ho, hp => by
    simp only [wf, Bool.and_eq_true] at hwf
    rw [own] at ho ⊢
    by_cases hc : ((ownS false lp (dep + 1) a).join (ownS false lp (dep + 1) b)).back dep = true
    · simp only [if_pos hc] at ho ⊢
      obtain ⟨hoa, hob⟩ := Depth.join_bad ho
      rw [eval, conv, evalD]
      have hlen := len_close hp.st
      rw [hp.len] at hlen
      rw [hlen, hp.len]
      have hpd : pd = true → dep = 0 := by
        intro e
        rw [← hp.len, hp.pd e]
        rfl
      have hp1 : Pre Vol L (readsS a) (updatesS a) { st with stk := none :: st.stk } { d with loc := none :: d.loc } cs α false
          (dep + 1) := by
        refine ⟨⟨⟨hp.st.c.cel, hp.st.c.inj, hp.st.c.w, ?_, hp.st.c.cat, hp.st.c.keep⟩, hp.st.a⟩, ?_, ?_, ?_, ?_⟩
        · simp only [hp.st.c.stk, List.cons_append]
        · simp only [List.length_cons, hp.len]
        · intro e
          cases e
        · intro x hx hxx
          refine hp.bd x hx (hxx.imp ?_ ?_)
          · intro h; rw [reads]; simp [h]
          · intro h; rw [updates]; simp [h]
        · intro x hx
          exact hp.up x (by rw [updates]; simp [hx])
      have ha := dsimS P n res a A L false lp (dep + 1) _ _ cs α hwf.1 hoa hp1
      have hb := fun s1 d1 α1 => dsimS P n res b A L false lp (dep + 1) s1 d1 cs α1 hwf.2 hob
      have fa : ∀ s1, evalS P n a { st with stk := none :: st.stk } = .nxt s1 →
          (∀ x ∈ L ++ sure (.tryS f a b), x ∈ L ++ sureS a) ∧ ∀ x ∈ L, x ∈ L ++ sure (.tryS f a b) := by
        intro s1 hs1
        refine ⟨fun x hx => ?_, fun x hx => List.mem_append_left _ hx⟩
        rcases List.mem_append.1 hx with hx | hx
        · exact List.mem_append_left _ hx
        · rw [sure] at hx
          exact List.mem_append_right _ ((sure_branch hx).1 (evalS_stops P n a _ _ hs1))
      have fb : ∀ s0 s1, evalS P n b s0 = .nxt s1 →
          (∀ x ∈ L ++ sure (.tryS f a b), x ∈ L ++ sureS b) ∧ ∀ x ∈ L, x ∈ L ++ sure (.tryS f a b) := by
        intro s0 s1 hs1
        refine ⟨fun x hx => ?_, fun x hx => List.mem_append_left _ hx⟩
        rcases List.mem_append.1 hx with hx | hx
        · exact List.mem_append_left _ hx
        · rw [sure] at hx
          exact List.mem_append_right _ ((sure_branch hx).2 (evalS_stops P n b _ _ hs1))
      have ha' := (ha.weaken (fun _ h => h) (Ls := L ++ sure (.tryS f a b)) fa List.suffix_rfl (fun _ => rfl)
        (ρ := d.ρ) Grow.refl hp.G (Nat.le_refl _) (fun x hx => Or.inl hx)).depth (fun d hd => Depth.join_left ho hd)
      generalize evalS P n a { st with stk := none :: st.stk } = o at ha' ⊢
      generalize evalDS P n res (convS Vol false a) { d with loc := none :: d.loc } = q at ha' ⊢
      by_cases hx : ∃ x s1 d1, o = .exn x s1 ∧ q = .exn x d1
      · obtain ⟨x, s1, d1, rfl, rfl⟩ := hx
        obtain ⟨h1, h2, h3, cs', α', h4, h5, h6⟩ := ha'
        have := h5 rfl
        subst this
        have hl1 := len_close h6
        rw [tryOut, dtry]
        by_cases hl : d1.loc.length = dep + 1
        · rw [if_pos (by omega), if_pos hl]
          have hp2 : Pre Vol L (readsS b) (updatesS b) { s1 with stk := some x :: s1.stk.tail }
              { d1 with loc := some x :: d1.loc.tail } cs' α' false (dep + 1) := by
            refine ⟨⟨⟨h6.c.cel, h6.c.inj, h6.c.w, ?_, h6.c.cat, h6.c.keep⟩, h6.a⟩, ?_, ?_, ?_, ?_⟩
            · have := h6.c.stk
              cases hd : d1.loc with
              | nil => rw [hd] at hl; cases hl
              | cons z zs =>
                rw [hd] at this
                simp only [this, List.cons_append, List.tail_cons]
            · simp only [List.length_cons, List.length_tail]
              omega
            · intro e
              cases e
            · intro y hy hyy
              refine h3 y (hp.bd y hy (hyy.imp ?_ ?_))
              · intro h; rw [reads]; simp [h]
              · intro h; rw [updates]; simp [h]
            · intro y hy
              exact hp.up y (by rw [updates]; simp [hy])
          have := ((hb _ _ _ hp2).weaken (fun _ h => h) (Ls := L ++ sure (.tryS f a b)) (fb _) List.suffix_rfl (fun _ => rfl)
            (ρ := d.ρ) h3 hp.G (Nat.le_refl _) (fun x hx => Or.inl hx)).depth (fun d hd => Depth.join_right ho hd)
          exact this.close hpd
        · rw [if_neg (by omega), if_neg hl]
          refine Rel.close (o := .exn x s1) (q := .exn x d1) ?_ hpd
          exact ⟨rfl, h2, h3, cs', α', h4, h5, h6⟩
      · have e1 : tryOut (dep + cs.length) (evalS P n b) o = o.close (dep + cs.length) ∨ o = .stuck ∨
            ∃ x s, o = .exn x s := by
          cases o <;> simp [tryOut]
        have e2 : dtry dep (evalDS P n res (convS Vol false b)) q = q.close dep ∨ ∃ x d, q = .exn x d := by
          cases q <;> simp [dtry]
        rcases e1 with e1 | rfl | ⟨x, s, rfl⟩
        · rcases e2 with e2 | ⟨x, d2, rfl⟩
          · rw [e1, e2]
            exact ha'.close hpd
          · cases o <;> simp only [Rel] at ha' <;> first | exact ha'.elim | skip
            · exact absurd ⟨_, _, _, rfl, by rw [ha'.1]⟩ hx
            · trivial
        · trivial
        · cases q <;> simp only [Rel] at ha' <;> first | exact ha'.elim | skip
          exact absurd ⟨_, _, _, rfl, by rw [ha'.1]⟩ hx
    · simp only [if_neg hc] at ho
      exact absurd rfl ho
  | .drop, A, L, pd, lp, dep, st, d, cs, α, hwf, ho, hp => by
    rw [eval, conv, own, show sure (.drop : Stmt V W) = [] from by simp [sure], List.append_nil]
    rw [own] at ho
    cases pd with
    | true =>
      simp only [if_true] at ho ⊢
      rw [evalD]
      have h1 := hp.st.c.stk
      have h2 := hp.st.c.cat
      have h3 := hp.pd rfl
      rw [h3, List.nil_append] at h1
      cases hcat : d.t.cat with
      | nil =>
        rw [hcat] at h1
        rw [h1]
        trivial
      | cons z zs =>
        rw [hcat] at h1 h2
        cases cs with
        | nil => simp at h2
        | cons c cs =>
          rw [h1]
          simp only [List.map_cons]
          simp only [List.map_cons, List.cons.injEq] at h2
          refine ⟨by rw [hp.len], hp.pd, Grow.refl, fun x hx => Or.inl hx, cs, α, List.suffix_cons _ _, (fun e => by cases e),
            ⟨hp.st.c.cel, hp.st.c.inj, hp.st.c.w, ?_, h2.2, fun c' hc => hp.st.c.keep c' (by simp [hc])⟩, hp.st.a⟩
          simp only [h3, List.nil_append]
    | false =>
      simp only [Bool.false_eq_true, if_false] at ho ⊢
      by_cases h0 : dep = 0
      · rw [if_pos h0] at ho
        exact absurd rfl ho
      · rw [if_neg h0]
        rw [evalD]
        have h1 := hp.st.c.stk
        have h2 := hp.len
        cases hl : d.loc with
        | nil => rw [hl] at h2; exact absurd h2.symm h0
        | cons z zs =>
          rw [hl] at h1 h2
          rw [h1]
          simp only [List.cons_append]
          simp only [List.length_cons] at h2
          exact ⟨by simp; omega, (fun e => by cases e), Grow.refl, fun x hx => Or.inl hx, cs, α, List.suffix_rfl, fun _ => rfl,
            ⟨hp.st.c.cel, hp.st.c.inj, hp.st.c.w, rfl, hp.st.c.cat, hp.st.c.keep⟩, hp.st.a⟩
  | .pop y, A, L, pd, lp, dep, st, d, cs, α, hwf, ho, hp => by
    rw [wf, decide_eq_true_eq] at hwf
    rw [eval, conv, own, sure]
    rw [own] at ho
    have bnd : ∀ (d' : D V W) v x, x ∈ L ++ [y] → x ∈ L ∨ ((d'.declare (decide (y ∈ Vol)) y v).ρ x).isSome = true := by
      intro d' v x hx
      rcases List.mem_append.1 hx with hx | hx
      · exact Or.inl hx
      · rw [List.mem_singleton.1 hx]
        refine Or.inr ?_
        unfold D.declare
        split <;> simp [set_same]
    cases pd with
    | true =>
      simp only [if_true] at ho ⊢
      rw [evalD]
      have h1 := hp.st.c.stk
      have h2 := hp.st.c.cat
      have h3 := hp.pd rfl
      rw [h3, List.nil_append] at h1
      cases hcat : d.t.cat with
      | nil =>
        rw [hcat] at h1
        rw [h1]
        trivial
      | cons z zs =>
        rw [hcat] at h1 h2
        cases cs with
        | nil => simp at h2
        | cons c cs =>
          rw [h1]
          simp only [List.map_cons]
          simp only [List.map_cons, List.cons.injEq] at h2
          obtain ⟨c0, z⟩ := z
          cases z with
          | none => trivial
          | some v =>
            have hst : DSt Vol L { st with stk := zs.map Prod.snd } { d with t := { d.t with cat := zs } } cs α := by
              refine ⟨⟨hp.st.c.cel, hp.st.c.inj, hp.st.c.w, ?_, h2.2, fun c' hc => hp.st.c.keep c' (by simp [hc])⟩, hp.st.a⟩
              simp only [h3, List.nil_append]
            obtain ⟨α', h⟩ := hst.declare hwf v
            exact ⟨by rw [declare_loc, hp.len], by rw [declare_loc]; exact hp.pd,
              declare_grow (d := { d with t := { d.t with cat := zs } }), bnd _ v, cs, α',
              List.suffix_cons _ _, (fun e => by cases e), h⟩
    | false =>
      simp only [Bool.false_eq_true, if_false] at ho ⊢
      by_cases h0 : dep = 0
      · rw [if_pos h0] at ho
        exact absurd rfl ho
      · rw [if_neg h0]
        rw [evalD]
        have h1 := hp.st.c.stk
        have h2 := hp.len
        cases hl : d.loc with
        | nil => rw [hl] at h2; exact absurd h2.symm h0
        | cons z zs =>
          rw [hl] at h1 h2
          rw [h1]
          simp only [List.cons_append]
          simp only [List.length_cons] at h2
          cases z with
          | none => trivial
          | some v =>
            have hst : DSt Vol L { st with stk := zs ++ d.t.cat.map Prod.snd } { d with loc := zs } cs α :=
              ⟨⟨hp.st.c.cel, hp.st.c.inj, hp.st.c.w, rfl, hp.st.c.cat, hp.st.c.keep⟩, hp.st.a⟩
            obtain ⟨α', h⟩ := hst.declare hwf v
            exact ⟨by rw [declare_loc]; simp; omega, (fun e => by cases e),
              declare_grow (d := { d with loc := zs }), bnd _ v, cs, α',
              List.suffix_rfl, fun _ => rfl, h⟩
  | .raise e, A, L, pd, lp, dep, st, d, cs, α, hwf, ho, hp => by
    rw [wf, sub_iff] at hwf
    rw [eval, conv, evalD, own, show sure (.raise e : Stmt V W) = [] from by simp [sure], List.append_nil]
    refine Rel.onE hp hwf (fun x hx => by rw [reads]; exact hx) ?_
    intro v s' d' hp' hρ
    exact ⟨rfl, Nat.le_of_eq hp'.len, by rw [hρ]; exact Grow.refl, cs, α, List.suffix_rfl, fun _ => rfl, hp'.st⟩
  | .brk, A, L, pd, lp, dep, st, d, cs, α, hwf, ho, hp => by
    rw [eval, conv, evalD]
    rw [own] at ho
    by_cases hl : lp = some dep
    · exact ⟨by rw [hp.len]; exact hl, hp.pd, Grow.refl, cs, α, List.suffix_rfl, fun _ => rfl, hp.st⟩
    · rw [if_neg hl] at ho
      exact absurd rfl ho
  | .cnt, A, L, pd, lp, dep, st, d, cs, α, hwf, ho, hp => by
    rw [eval, conv, evalD]
    rw [own] at ho
    by_cases hl : lp = some dep
    · exact ⟨by rw [hp.len]; exact hl, hp.pd, Grow.refl, cs, α, List.suffix_rfl, fun _ => rfl, hp.st⟩
    · rw [if_neg hl] at ho
      exact absurd rfl ho
  | .call _, A, L, pd, lp, dep, st, d, cs, α, hwf, ho, hp => by simp [own] at ho
  | .declCall _ _, A, L, pd, lp, dep, st, d, cs, α, hwf, ho, hp => by simp [own] at ho
  | .updCall _ _, A, L, pd, lp, dep, st, d, cs, α, hwf, ho, hp => by simp [own] at ho
  | .mutCall _ _ _, A, L, pd, lp, dep, st, d, cs, α, hwf, ho, hp => by simp [own] at ho
  | .ret _, A, L, pd, lp, dep, st, d, cs, α, hwf, ho, hp => by simp [own] at ho
  | .retCall _, A, L, pd, lp, dep, st, d, cs, α, hwf, ho, hp => by simp [own] at ho
theorem dsimS (P : Prims V) (n : Nat) (res : V) {Vol : List Nat} : ∀ (ss : Suite V W) (A L : List Nat) (pd : Bool)
    (lp : Option Nat) (dep : Nat) (st : S V W) (d : D V W) (cs : List (CR V W)) (α : Nat → Nat), wfS Vol A L ss = true →
    ownS pd lp dep ss ≠ .bad → Pre Vol L (readsS ss) (updatesS ss) st d cs α pd dep →
    Rel Vol L (L ++ sureS ss) cs pd lp dep (ownS pd lp dep ss) d.ρ (evalS P n ss st) (evalDS P n res (convS Vol pd ss) d)
  | .nil, A, L, pd, lp, dep, st, d, cs, α, hwf, ho, hp => by
    rw [evalS, convS, evalDS, ownS, sureS, List.append_nil]
    exact ⟨by rw [hp.len], hp.pd, Grow.refl, fun x hx => Or.inl hx, cs, α, List.suffix_rfl, fun _ => rfl, hp.st⟩
  | .cons s ss, A, L, pd, lp, dep, st, d, cs, α, hwf, ho, hp => by
    simp only [wfS, Bool.and_eq_true] at hwf
    have hos : own pd lp dep s ≠ .bad := by
      intro e
      rw [ownS, e] at ho
      exact ho rfl
    rw [evalS, convS, evalDS, sureS]
    have h1 := dsim P n res s _ L pd lp dep st d cs α hwf.1.1 hos
      (hp.sub (fun x hx => by rw [readsS]; simp [hx]) (fun x hx => by rw [updatesS]; simp [hx]))
    refine Rel.seq hp h1 (fun x hx => List.mem_append_left _ hx) ?_ (fun e he => own_le s pd lp dep e he) ?_
    · intro x hx
      rw [← List.append_assoc]
      exact List.mem_append_left _ hx
    · intro s1 d1 cs1 α1 e1 e2 hp1
      have e3 : ownS pd lp dep (.cons s ss) = ownS pd lp d1.loc.length ss := by rw [ownS, e2]
      rw [e3] at ho ⊢
      rw [← List.append_assoc]
      exact dsimS P n res ss A _ pd lp _ s1 d1 cs1 α1 hwf.1.2 ho
        (hp1.sub (fun x hx => by rw [readsS]; simp [hx]) (fun x hx => by rw [updatesS]; simp [hx]))
end

end Verif.Cps
