import Verif.Norm.Sim

/-! The simulation, for all statements. -/
namespace Verif.Norm
variable {S E V I : Type}

/-- Catching: what a suite under `$PUSH` ends with. -/
theorem catch_raise (st : List (Option (X E V))) (x : X E V) (s : S) (σ : Nm → Cell E V I)
    (b : T S E V I → TOut S E V I) :
    catchAt st.length (raiseX x ⟨s, σ, none :: st⟩) b = b ⟨s, σ, some x :: st⟩ := by
  simp only [raiseX, catchAt, List.length_cons, if_true]

theorem exit_drop (c : List Mark) (j : J V) (s : S) (σ : Nm → Cell E V I)
    (y : Option (X E V)) (st : List (Option (X E V))) :
    exitOut (.DROP :: c) j ⟨s, σ, y :: st⟩ = exitOut c j ⟨s, σ, st⟩ := rfl

theorem run_pop (n : Nat) (x : Nm) (e : X E V) (s : S) (σ : Nm → Cell E V I)
    (st : List (Option (X E V))) :
    run (I := I) n (.pop x) ⟨s, σ, some e :: st⟩ = .seq ⟨s, upd σ x (.exn e), st⟩ := by
  rw [run]; rfl

theorem run_drop (n : Nat) (y : Option (X E V)) (s : S) (σ : Nm → Cell E V I)
    (st : List (Option (X E V))) :
    run (I := I) n .drop ⟨s, σ, y :: st⟩ = .seq ⟨s, σ, st⟩ := by
  rw [run]

theorem run_reraise (n : Nat) (x : Nat) (e : X E V) (t : T S E V I) (h : t.cells (.int x) = .exn e) :
    runS n (reraise x) t = raiseX e t := by
  rw [reraise, runS_one, run, runRaise, h]

theorem seq_andThen (t : T S E V I) (k : T S E V I → TOut S E V I) : (TOut.seq t).andThen k = k t := rfl

/-! ## while -/

mutual
theorem closed_flow (py : Bool) (stop : E → Bool) (n : Nat) : ∀ (st : Stmt S E V I), closed st = true →
    ∀ s s', eval py stop n st s ≠ .brk s' ∧ eval py stop n st s ≠ .cnt s'
  | .act f, h, s, s' => by rw [eval]; cases f s <;> exact ⟨nofun, nofun⟩
  | .raise f, h, s, s' => by rw [eval]; exact ⟨nofun, nofun⟩
  | .retv f, h, s, s' => by rw [eval]; exact ⟨nofun, nofun⟩
  | .rete f, h, s, s' => by rw [eval]; cases f s <;> exact ⟨nofun, nofun⟩
  | .brk, h, s, s' => by simp [closed] at h
  | .cnt, h, s, s' => by simp [closed] at h
  | .ifs bs els, h, s, s' => by
    simp only [closed, Bool.and_eq_true] at h
    rw [eval]
    exact closedB_flow py stop n bs h.1 _ (fun s s' => closedS_flow py stop n els h.2 s s') s s'
  | .whl c b els, h, s, s' => by
    simp only [closed] at h
    rw [eval]
    have : ∀ m s, whileLoop c (evalS py stop n b) (evalS py stop n els) m s ≠ .brk s' ∧
        whileLoop c (evalS py stop n b) (evalS py stop n els) m s ≠ .cnt s' := by
      intro m
      induction m with
      | zero => intro s; exact ⟨nofun, nofun⟩
      | succ m ih =>
        intro s
        rw [whileLoop]
        cases c s with
        | exc e s => exact ⟨nofun, nofun⟩
        | ok r s =>
          simp only [Ev.andThen]
          cases r with
          | false => exact closedS_flow py stop n els h s s'
          | true =>
            simp only [if_true]
            cases evalS py stop n b s with
            | seq s' => exact ih s'
            | cnt s' => exact ih s'
            | _ => exact ⟨nofun, nofun⟩
    exact this n s
  | .for_ p it nx b els, h, s, s' => by
    simp only [closed] at h
    rw [eval]
    cases it s with
    | exc e s => exact ⟨nofun, nofun⟩
    | ok i s =>
      have : ∀ m s, forLoop py stop p (nx i) (evalS py stop n b) (evalS py stop n els) m s ≠ .brk s' ∧
          forLoop py stop p (nx i) (evalS py stop n b) (evalS py stop n els) m s ≠ .cnt s' := by
        intro m
        induction m with
        | zero => intro s; exact ⟨nofun, nofun⟩
        | succ m ih =>
          intro s
          rw [forLoop]
          cases nx i s with
          | exc e s =>
            simp only
            by_cases hc : stop e = true
            · rw [if_pos hc]; exact closedS_flow py stop n els h s s'
            · rw [if_neg hc]; exact ⟨nofun, nofun⟩
          | ok v s =>
            simp only
            cases (p.bind v s).andThen fun _ s => evalS py stop n b s with
            | seq s' => exact ih s'
            | cnt s' => exact ih s'
            | exc e s =>
              simp only
              by_cases hc : (!py && stop e) = true
              · rw [if_pos hc]; exact closedS_flow py stop n els h s s'
              · rw [if_neg hc]; exact ⟨nofun, nofun⟩
            | _ => exact ⟨nofun, nofun⟩
      exact this n s
  | .try_ b hs els fin, h, s, s' => by
    simp only [closed, Bool.and_eq_true] at h
    rw [eval]
    have hb := closedS_flow py stop n b h.1.1.1 s
    have hg : ∀ s', guarded (evalS py stop n b s) (evalH py stop n hs) (evalS py stop n els) ≠ .brk s' ∧
        guarded (evalS py stop n b s) (evalH py stop n hs) (evalS py stop n els) ≠ .cnt s' := by
      intro s'
      cases e : evalS py stop n b s with
      | seq s1 => exact closedS_flow py stop n els h.1.2 s1 s'
      | exc x s1 => exact closedH_flow py stop n hs h.1.1.2 x s1 s'
      | brk s1 => exact absurd e (hb s1).1
      | cnt s1 => exact absurd e (hb s1).2
      | ret v s1 => exact ⟨nofun, nofun⟩
      | timeout => exact ⟨nofun, nofun⟩
    generalize guarded (evalS py stop n b s) (evalH py stop n hs) (evalS py stop n els) = o at *
    have hf := closedS_flow py stop n fin h.2
    cases o with
    | seq s1 => exact hf s1 s'
    | brk s1 => exact absurd rfl (hg s1).1
    | cnt s1 => exact absurd rfl (hg s1).2
    | ret v s1 =>
      simp only [finish]
      cases e : evalS py stop n fin s1 with
      | brk s2 => exact absurd e (hf s1 s2).1
      | cnt s2 => exact absurd e (hf s1 s2).2
      | _ => exact ⟨nofun, nofun⟩
    | exc e s1 =>
      simp only [finish]
      cases e : evalS py stop n fin s1 with
      | brk s2 => exact absurd e (hf s1 s2).1
      | cnt s2 => exact absurd e (hf s1 s2).2
      | _ => exact ⟨nofun, nofun⟩
    | timeout => exact ⟨nofun, nofun⟩
theorem closedS_flow (py : Bool) (stop : E → Bool) (n : Nat) : ∀ (ss : Suite S E V I), closedS ss = true →
    ∀ s s', evalS py stop n ss s ≠ .brk s' ∧ evalS py stop n ss s ≠ .cnt s'
  | .nil, h, s, s' => by rw [evalS]; exact ⟨nofun, nofun⟩
  | .cons st ss, h, s, s' => by
    simp only [closedS, Bool.and_eq_true] at h
    rw [evalS]
    have hb := closed_flow py stop n st h.1 s
    cases e : eval py stop n st s with
    | seq s1 => exact closedS_flow py stop n ss h.2 s1 s'
    | brk s1 => exact absurd e (hb s1).1
    | cnt s1 => exact absurd e (hb s1).2
    | _ => exact ⟨nofun, nofun⟩
theorem closedB_flow (py : Bool) (stop : E → Bool) (n : Nat) : ∀ (bs : Branches S E V I),
    closedB bs = true → ∀ els : S → Out S E V, (∀ s s', els s ≠ .brk s' ∧ els s ≠ .cnt s') →
    ∀ s s', evalB py stop n bs els s ≠ .brk s' ∧ evalB py stop n bs els s ≠ .cnt s'
  | .nil, h, els, he, s, s' => by rw [evalB]; exact he s s'
  | .cons c b bs, h, els, he, s, s' => by
    simp only [closedB, Bool.and_eq_true] at h
    rw [evalB]
    cases c s with
    | exc e s => exact ⟨nofun, nofun⟩
    | ok r s =>
      simp only [Ev.andThen]
      cases r with
      | true => exact closedS_flow py stop n b h.1 s s'
      | false => exact closedB_flow py stop n bs h.2 els he s s'
theorem closedH_flow (py : Bool) (stop : E → Bool) (n : Nat) : ∀ (hs : Handlers S E V I),
    closedH hs = true → ∀ e s s', evalH py stop n hs e s ≠ .brk s' ∧ evalH py stop n hs e s ≠ .cnt s'
  | .nil, h, e, s, s' => by rw [evalH]; exact ⟨nofun, nofun⟩
  | .cons hd b hs, h, e, s, s' => by
    simp only [closedH, Bool.and_eq_true] at h
    rw [evalH]
    by_cases hc : hd.takes e = true
    · rw [if_pos hc]; exact closedS_flow py stop n b h.1 _ s'
    · rw [if_neg hc]; exact closedH_flow py stop n hs h.2 e s s'
end

theorem sim_while {n : Nat} {ms : List Mark} {lo hi : Nat} {st : List (Option (X E V))}
    {c : S → Ev S E Bool} {b els : S → Out S E V} {tb te : TSuite S E V I}
    (hb : ∀ σ s, Sim (.LOOP :: ms) lo hi σ st (b s) (runS n tb ⟨s, σ, st⟩))
    (he : ∀ σ s, Sim (.LOOP :: ms) lo hi σ st (els s) (runS n te ⟨s, σ, st⟩))
    (hc : ∀ s s', els s ≠ .brk s' ∧ els s ≠ .cnt s') : ∀ m σ s,
    Sim ms lo hi σ st (whileLoop c b els m s)
      (iter m (runS n ((whileTest (.user c) (te.app (exitContext (.LOOP :: ms) .brk))).app tb))
        ⟨s, σ, st⟩) := by
  intro m
  induction m with
  | zero => intro σ s; exact ⟨σ, Agree.refl _ _ _, rfl⟩
  | succ m ih =>
    intro σ s
    rw [iter_succ, whileLoop]
    have hbody : ∀ F, again m F (runS n ((whileTest (.user c)
        (te.app (exitContext (.LOOP :: ms) .brk))).app tb) ⟨s, σ, st⟩) =
        again m F ((runEv (c s) ⟨s, σ, st⟩ fun r t => if r then .seq t else
          (runS n te t).andThen (runS n (exitContext (.LOOP :: ms) .brk))).andThen (runS n tb)) := by
      intro F
      rw [runS_app, whileTest, runS_one, run, runB, runCond]
      congr 3
      funext r t
      cases r with
      | true =>
        simp only [if_true]
        rw [runS_one, run]
        rfl
      | false =>
        simp only [Bool.false_eq_true, if_false]
        rw [runB, runS_app]
    rw [hbody]
    cases c s with
    | exc e s1 =>
      simp only [runEv, Ev.andThen]
      rw [raiseX_andThen, raiseX_again]
      exact ⟨σ, Agree.refl _ _ _, rfl⟩
    | ok r s1 =>
      simp only [runEv, Ev.andThen]
      cases r with
      | true =>
        simp only [if_true, TOut.andThen]
        obtain ⟨σ', ha, hq⟩ := hb σ s1
        rw [hq]
        cases b s1 with
        | seq s2 => exact Sim.after ha (ih σ' s2)
        | cnt s2 => exact Sim.after ha (ih σ' s2)
        | brk s2 => exact ⟨σ', ha, rfl⟩
        | ret v s2 => exact ⟨σ', ha, exitOut_again _ _ _ _ _⟩
        | exc e s2 => exact ⟨σ', ha, raiseX_again _ _ _ _⟩
        | timeout => exact ⟨σ', ha, rfl⟩
      | false =>
        simp only [Bool.false_eq_true, if_false]
        obtain ⟨σ', ha, hq⟩ := he σ s1
        have hce := hc s1
        rw [hq]
        cases e : els s1 with
        | seq s2 =>
          refine ⟨σ', ha, ?_⟩
          simp only [image, TOut.andThen]
          rw [run_exitContext n _ .brk .brk _ trivial]
          rfl
        | brk s2 => exact absurd e (hce s2).1
        | cnt s2 => exact absurd e (hce s2).2
        | ret v s2 =>
          refine ⟨σ', ha, ?_⟩
          simp only [image]
          rw [exitOut_andThen, exitOut_andThen, exitOut_again]
          rfl
        | exc e s2 =>
          refine ⟨σ', ha, ?_⟩
          simp only [image]
          rw [raiseX_andThen, raiseX_andThen, raiseX_again]
        | timeout => exact ⟨σ', ha, rfl⟩

/-! ## for -/

/-- The end of the loop of a `for`, seen from outside the `try` around it. -/
theorem sim_for {n : Nat} {stop : E → Bool} {ms : List Mark} {lo x hi : Nat} {st : List (Option (X E V))}
    {p : Pat S E V} {i : I} {nx : I → S → Ev S E V} {b els : S → Out S E V} {tb te : TSuite S E V I}
    (hx : lo + 2 ≤ x) (hi' : x + 1 ≤ hi)
    (hb : ∀ σ s, Sim (.LOOP :: .DROP :: ms) (lo + 2) x σ (none :: st) (b s) (runS n tb ⟨s, σ, none :: st⟩))
    (he : ∀ σ s, Sim ms (x + 1) hi σ st (els s) (runS n te ⟨s, σ, st⟩)) : ∀ m σ s,
    σ (.int lo) = .iter i →
    Sim ms lo hi σ st (forLoop false stop p (nx i) b els m s)
      (catchAt st.length ((iter m (runS n ((whileTest .tt (exitContext (.LOOP :: .DROP :: ms) .brk)).app
        ((forNext p lo (lo + 1) nx).app tb))) ⟨s, σ, none :: st⟩).andThen (runS n (.cons .drop .nil)))
        (runS n (.cons (.pop (.int x)) (.cons (.ifs (.cons (.isUser (.int x) (isStopX stop)) (mkBody te) .nil)
          (reraise x)) .nil)))) := by
  have hmk : ∀ t, runS n (mkBody te) t = runS n te t := by
    intro t
    cases te with
    | nil => rw [mkBody, runS_one, run, runS]; rfl
    | cons a b => rw [mkBody]; intro h; cases h
  -- the handler
  have hdl : ∀ σ s e, Sim ms lo hi σ st (if stop e then els s else .exc e s)
      (runS n (.cons (.pop (.int x)) (.cons (.ifs (.cons (.isUser (.int x) (isStopX stop)) (mkBody te) .nil)
          (reraise x)) .nil)) ⟨s, σ, some (.user e) :: st⟩) := by
    intro σ s e
    rw [runS, run_pop]
    simp only [TOut.andThen]
    rw [runS_one, run, runB, runCond, runIs]
    simp only [upd_same]
    have hu : Agree lo hi σ (upd σ (.int x) (.exn (.user e))) :=
      (Agree.upd σ (.int x) _).widen (by simp only [Nm.id]; omega) (by simp only [Nm.id]; omega)
    by_cases hs : stop e = true
    · have hs' : isStopX stop (X.user e : X E V) = true := hs
      rw [if_pos hs, if_pos hs', hmk]
      exact Sim.after hu ((he _ s).widen (by omega) (Nat.le_refl _))
    · have hs' : ¬ isStopX stop (X.user e : X E V) = true := hs
      rw [if_neg hs, if_neg hs', runB, run_reraise n x _ _ (upd_same _ _ _)]
      exact ⟨_, hu, rfl⟩
  intro m
  induction m with
  | zero => intro σ s _; exact ⟨σ, Agree.refl _ _ _, rfl⟩
  | succ m ih =>
    intro σ s hσ
    rw [iter_succ, forLoop]
    -- one round
    have hround : runS n ((whileTest .tt (exitContext (.LOOP :: .DROP :: ms) .brk)).app
        ((forNext p lo (lo + 1) nx).app tb)) ⟨s, σ, none :: st⟩ =
        (runS n (forNext p lo (lo + 1) nx) ⟨s, σ, none :: st⟩).andThen (runS n tb) := by
      rw [runS_app, whileTest, runS_one, run, runB, runCond]
      simp only [if_true]
      rw [runS_one, run]
      exact runS_app _ _ _ _
    -- the next element and the target
    have hnext : ∃ σ', Agree (lo + 1) (lo + 2) σ σ' ∧
        runS n (forNext p lo (lo + 1) nx) ⟨s, σ, none :: st⟩ =
        match nx i s with
        | .exc e s => raiseX (.user e) ⟨s, σ', none :: st⟩
        | .ok v s => match p.bind v s with
          | .exc e s => raiseX (.user e) ⟨s, σ', none :: st⟩
          | .ok _ s => .seq ⟨s, σ', none :: st⟩ := by
      cases p with
      | var set =>
        refine ⟨σ, Agree.refl _ _ _, ?_⟩
        rw [forNext, runS_one, run]
        simp only [hσ]
        cases nx i s <;> rfl
      | pat set =>
        rw [forNext, runS, run]
        simp only [hσ]
        cases nx i s with
        | exc e s1 =>
          refine ⟨σ, Agree.refl _ _ _, ?_⟩
          simp only [runEv]
          rw [raiseX_andThen]
        | ok v s1 =>
          refine ⟨upd σ (.int (lo + 1)) (.val v), Agree.upd _ (.int (lo + 1)) _, ?_⟩
          simp only [runEv, set_eq, TOut.andThen]
          rw [runS_one, run]
          simp only [upd_same, Pat.bind]
          cases set v s1 <;> rfl
    obtain ⟨σ1, ha1, hn⟩ := hnext
    have hA1 : Agree lo hi σ σ1 := ha1.widen (by omega) (by omega)
    have hσ1 : σ1 (.int lo) = .iter i := by rw [ha1 (.int lo) (.inl (by simp [Nm.id]))]; exact hσ
    rw [hround, hn]
    cases nx i s with
    | exc e s1 =>
      simp only
      rw [raiseX_andThen, raiseX_again, raiseX_andThen, catch_raise]
      exact Sim.after hA1 (hdl σ1 s1 e)
    | ok v s1 =>
      simp only
      cases p.bind v s1 with
      | exc e s2 =>
        simp only [Ev.andThen]
        rw [raiseX_andThen, raiseX_again, raiseX_andThen, catch_raise]
        exact Sim.after hA1 (hdl σ1 s2 e)
      | ok u s2 =>
        simp only [Ev.andThen]
        rw [seq_andThen]
        obtain ⟨σ2, ha2, hq⟩ := hb σ1 s2
        have hA2 : Agree lo hi σ σ2 := hA1.trans (ha2.widen (by omega) (by omega))
        have hσ2 : σ2 (.int lo) = .iter i := by
          rw [ha2 (.int lo) (.inl (by simp only [Nm.id]; omega))]; exact hσ1
        rw [hq]
        cases b s2 with
        | seq s3 => exact Sim.after hA2 (ih σ2 s3 hσ2)
        | cnt s3 => exact Sim.after hA2 (ih σ2 s3 hσ2)
        | brk s3 =>
          refine ⟨σ2, hA2, ?_⟩
          simp only [image, exitOut, again]
          rw [seq_andThen, runS_one, run_drop]
          rfl
        | ret v s3 =>
          refine ⟨σ2, hA2, ?_⟩
          simp only [image]
          rw [exitOut_again]
          have : exitOut (.LOOP :: .DROP :: ms) (.ret v) (⟨s3, σ2, none :: st⟩ : T S E V I) =
              exitOut ms (.ret v) ⟨s3, σ2, st⟩ := rfl
          rw [this]
          rw [exitOut_andThen]
          exact exitOut_catch _ _ _ _ _ (Nat.le_refl _)
        | exc e s3 =>
          simp only [image]
          rw [raiseX_again]
          rw [raiseX_andThen, catch_raise]
          refine Sim.after hA2 ?_
          simp only [Bool.not_false, Bool.true_and]
          exact hdl σ2 s3 e
        | timeout => exact ⟨σ2, hA2, rfl⟩

/-! ## try -/

theorem guarded_nil (o : Out S E V) (els : S → Out S E V) :
    guarded o (fun e s => .exc e s) els = o.andThen els := by
  cases o <;> rfl

/-- `try` without `finally`. -/
theorem sim_try {n : Nat} {ms : List Mark} {a x c hi : Nat} {st : List (Option (X E V))}
    (hs : Handlers S E V I) {b els : S → Out S E V} {hdl : E → S → Out S E V} {tb te : TSuite S E V I}
    {th : TBranches S E V I} (hax : a ≤ c) (hcx : c ≤ x) (hxh : x + 1 ≤ hi)
    (hn : hs.isNil = true → hdl = fun e s => .exc e s)
    (hb : ∀ σ st s, Sim (tryMarks hs ms) a c σ st (b s) (runS n tb ⟨s, σ, st⟩))
    (he : ∀ σ s, Sim ms c x σ st (els s) (runS n te ⟨s, σ, st⟩))
    (hh : ∀ σ e s, σ (.int x) = .exn (.user e) →
      Sim ms (x + 1) hi σ st (hdl e s) (runB n th (runS n (reraise x)) ⟨s, σ, st⟩)) :
    ∀ σ s, Sim ms a (if hs.isNil then x else hi) σ st (guarded (b s) hdl els)
      (runS n (tryCode hs x tb te th) ⟨s, σ, st⟩) := by
  intro σ s
  unfold tryCode
  cases hnil : hs.isNil with
  | true =>
    simp only [if_true]
    rw [hn hnil, guarded_nil, runS_app]
    have hb' := hb σ st s
    rw [tryMarks, if_pos hnil] at hb'
    exact Sim.andThen hax hcx hb' fun σ' s' => he σ' s'
  | false =>
    simp only [Bool.false_eq_true, if_false]
    rw [runS_one, run]
    simp only
    have hb' := hb σ (none :: st) s
    rw [tryMarks, if_neg (by rw [hnil]; decide)] at hb'
    obtain ⟨σ1, ha, hq⟩ := hb'
    have hA : Agree a hi σ σ1 := ha.widen (Nat.le_refl _) (by omega)
    rw [runS_app, hq]
    cases b s with
    | seq s1 =>
      simp only [image]
      rw [seq_andThen, runS, run_drop, seq_andThen]
      obtain ⟨σ2, ha2, hq2⟩ := he σ1 s1
      refine ⟨σ2, hA.trans (ha2.widen hax (by omega)), ?_⟩
      rw [hq2]
      simp only [guarded]
      cases els s1 with
      | seq s2 => rfl
      | brk s2 => exact exitOut_catch _ _ _ _ _ (Nat.le_refl _)
      | cnt s2 => exact exitOut_catch _ _ _ _ _ (Nat.le_refl _)
      | ret v s2 => exact exitOut_catch _ _ _ _ _ (Nat.le_refl _)
      | exc e s2 => exact raiseX_catch _ _ _ _ (Nat.le_refl _)
      | timeout => rfl
    | brk s1 =>
      refine ⟨σ1, hA, ?_⟩
      simp only [image, exit_drop, guarded]
      rw [exitOut_andThen]
      exact exitOut_catch _ _ _ _ _ (Nat.le_refl _)
    | cnt s1 =>
      refine ⟨σ1, hA, ?_⟩
      simp only [image, exit_drop, guarded]
      rw [exitOut_andThen]
      exact exitOut_catch _ _ _ _ _ (Nat.le_refl _)
    | ret v s1 =>
      refine ⟨σ1, hA, ?_⟩
      simp only [image, exit_drop, guarded]
      rw [exitOut_andThen]
      exact exitOut_catch _ _ _ _ _ (Nat.le_refl _)
    | exc e s1 =>
      simp only [image, guarded]
      rw [raiseX_andThen, catch_raise, runS, run_pop, seq_andThen, runS_one, run]
      refine Sim.after (hA.trans ?_) ((hh _ e s1 (upd_same _ _ _)).widen (by omega) (Nat.le_refl _))
      exact (Agree.upd σ1 (.int x) _).widen (by simp only [Nm.id]; omega) (by simp only [Nm.id]; omega)
    | timeout => exact ⟨σ1, hA, rfl⟩

/-- The control exception an end is turned into by the marks of a `finally`. -/
def Out.x : Out S E V → Option (X E V × S)
  | .seq s => some (.SEQ, s)
  | .brk s => some (.BRK, s)
  | .cnt s => some (.CNT, s)
  | .ret v s => some (.RET v, s)
  | .exc e s => some (.user e, s)
  | .timeout => none

/-- `try … finally`. -/
theorem sim_finally {n : Nat} {ms : List Mark} {a x hi : Nat} {st : List (Option (X E V))}
    {o : S → Out S E V} {fin : S → Out S E V} {tt tf : TSuite S E V I} {ctrl : List Flow}
    (hax : a ≤ x) (hxh : x + 1 ≤ hi)
    (ho : ∀ σ st s, Sim (.FINAL :: ms) a x σ st (o s) (runS n tt ⟨s, σ, st⟩))
    (hc : ∀ s f, (o s).flow = some f → f ∈ ctrl)
    (hf : ∀ σ s, Sim ms (x + 1) hi σ st (fin s) (runS n tf ⟨s, σ, st⟩)) :
    ∀ σ s, Sim ms a hi σ st (finish (o s) fin)
      (runS n (.cons (.ifpush (tt.app (mbseq ctrl))
        (.cons (.pop (.int x)) (tf.app (relays ms x ctrl)))) .nil) ⟨s, σ, st⟩) := by
  intro σ s
  rw [runS_one, run]
  simp only
  -- the handler
  have hdl : ∀ σ s (e : X E V) (g : S → Out S E V), (∀ f, e.flow = some f → f ∈ ctrl) →
      (∀ s (σ : Nm → Cell E V I), image ms st σ (g s) = afterFin st ms e s σ) →
      Sim ms a hi σ st ((fin s).andThen g)
      (runS n (.cons (.pop (.int x)) (tf.app (relays ms x ctrl))) ⟨s, σ, some e :: st⟩) := by
    intro σ s e g hmem hg
    rw [runS, run_pop, seq_andThen, runS_app]
    have hu : Agree a hi σ (upd σ (.int x) (.exn e)) :=
      (Agree.upd σ (.int x) _).widen (by simp only [Nm.id]; omega) (by simp only [Nm.id]; omega)
    obtain ⟨σ1, ha1, hq1⟩ := hf (upd σ (.int x) (.exn e)) s
    have hA1 : Agree a hi σ σ1 := hu.trans (ha1.widen (by omega) (Nat.le_refl _))
    rw [hq1]
    cases fin s with
    | seq s1 =>
      simp only [image]
      rw [seq_andThen]
      have hx : σ1 (.int x) = .exn e := by
        rw [ha1 (.int x) (.inl (by simp [Nm.id]))]; exact upd_same _ _ _
      obtain ⟨σ2, ha2, hq2⟩ := run_relays n ms x ctrl s1 σ1 st e hx hmem
      refine ⟨σ2, hA1.trans (ha2.widen (by omega) (by omega)), ?_⟩
      rw [hq2, ← hg]
      rfl
    | brk s1 => exact ⟨σ1, hA1, exitOut_andThen _ _ _ _⟩
    | cnt s1 => exact ⟨σ1, hA1, exitOut_andThen _ _ _ _⟩
    | ret v s1 => exact ⟨σ1, hA1, exitOut_andThen _ _ _ _⟩
    | exc e s1 => exact ⟨σ1, hA1, raiseX_andThen _ _ _⟩
    | timeout => exact ⟨σ1, hA1, rfl⟩
  obtain ⟨σ1, ha, hq⟩ := ho σ (none :: st) s
  have hA : Agree a hi σ σ1 := ha.widen (Nat.le_refl _) (by omega)
  have hfl := hc s
  rw [runS_app, hq]
  cases e : o s with
  | seq s1 =>
    rw [e] at hfl
    simp only [image]
    have hm : mbseq (S := S) (E := E) (V := V) (I := I) ctrl = .cons (.raise .SEQ) .nil := by
      rw [mbseq, if_pos (by simpa using hfl _ rfl)]
    rw [seq_andThen, hm, runS_one, run, runRaise, catch_raise]
    have h := hdl σ1 s1 .SEQ .seq (fun f hf' => hfl f hf') (fun _ _ => rfl)
    have hs : (fin s1).andThen .seq = fin s1 := by cases fin s1 <;> rfl
    rw [hs] at h
    exact Sim.after hA h
  | brk s1 =>
    rw [e] at hfl
    simp only [image, exitOut]
    rw [raiseX_andThen, catch_raise]
    exact Sim.after hA (hdl σ1 s1 .BRK .brk (fun f hf' => hfl f hf') (fun _ _ => rfl))
  | cnt s1 =>
    rw [e] at hfl
    simp only [image, exitOut]
    rw [raiseX_andThen, catch_raise]
    exact Sim.after hA (hdl σ1 s1 .CNT .cnt (fun f hf' => hfl f hf') (fun _ _ => rfl))
  | ret v s1 =>
    rw [e] at hfl
    simp only [image, exitOut]
    rw [raiseX_andThen, catch_raise]
    exact Sim.after hA (hdl σ1 s1 (.RET v) (.ret v) (fun f hf' => hfl f hf') (fun _ _ => rfl))
  | exc x s1 =>
    simp only [image]
    rw [raiseX_andThen, catch_raise]
    exact Sim.after hA (hdl σ1 s1 (.user x) (.exc x) (fun f hf' => by cases hf') (fun _ _ => rfl))
  | timeout => exact ⟨σ1, hA, rfl⟩

/-! ## All statements -/

mutual
theorem sim (stop : E → Bool) (n : Nat) : ∀ (s : Stmt S E V I), elseOk s = true →
    ∀ ms k σ st s0, Sim ms k (norm stop ms s k).2 σ st (eval false stop n s s0)
      (runS n (norm stop ms s k).1 ⟨s0, σ, st⟩)
  | .act f, h, ms, k, σ, st, s0 => by
    rw [norm, eval]
    simp only
    rw [runS_one, run]
    exact Sim.ev _ fun _ s => ⟨σ, Agree.refl _ _ _, rfl⟩
  | .raise f, h, ms, k, σ, st, s0 => by
    rw [norm, eval]
    simp only
    rw [runS_one, run]
    exact ⟨σ, Agree.refl _ _ _, rfl⟩
  | .retv f, h, ms, k, σ, st, s0 => by
    rw [norm, eval]
    exact ⟨σ, Agree.refl _ _ _, run_exitContext n ms _ (.ret (f s0)) _ rfl⟩
  | .rete f, h, ms, k, σ, st, s0 => by
    rw [norm, eval]
    simp only
    rw [runS, run]
    simp only
    cases f s0 with
    | ok v s1 =>
      refine ⟨upd σ (.int k) (.val v), Agree.upd σ (.int k) _, ?_⟩
      simp only [runEv, set_eq, Ev.andThen, image]
      rw [seq_andThen]
      exact run_exitContext n ms _ (.ret v) _ (by simp only [Leaves, rval, upd_same])
    | exc e s1 =>
      refine ⟨σ, Agree.refl _ _ _, ?_⟩
      simp only [runEv, Ev.andThen, image]
      rw [raiseX_andThen]
  | .brk, h, ms, k, σ, st, s0 => by
    rw [norm, eval]
    exact ⟨σ, Agree.refl _ _ _, run_exitContext n ms .brk .brk _ trivial⟩
  | .cnt, h, ms, k, σ, st, s0 => by
    rw [norm, eval]
    exact ⟨σ, Agree.refl _ _ _, run_exitContext n ms .cnt .cnt _ trivial⟩
  | .ifs bs els, h, ms, k, σ, st, s0 => by
    simp only [elseOk, Bool.and_eq_true] at h
    rw [norm, eval]
    simp only
    rw [runS_one, run]
    exact simB stop n bs h.1 ms k st _ _ _ (normB_le stop ms bs k) (normS_le stop ms els _)
      (fun σ s => simS stop n els h.2 ms _ σ st s) σ s0
  | .whl c b els, h, ms, k, σ, st, s0 => by
    simp only [elseOk, Bool.and_eq_true] at h
    rw [norm, eval]
    simp only
    rw [runS_one, run]
    have h1 := normS_le stop (.LOOP :: ms) els k
    have h2 := normS_le stop (.LOOP :: ms) b (normS stop (.LOOP :: ms) els k).2
    exact sim_while
      (fun σ s => (simS stop n b h.1.2 (.LOOP :: ms) _ σ st s).widen h1 (Nat.le_refl _))
      (fun σ s => (simS stop n els h.2 (.LOOP :: ms) _ σ st s).widen (Nat.le_refl _) h2)
      (fun s s' => closedS_flow false stop n els h.1.1 s s') n σ s0
  | .for_ p it nx b els, h, ms, k, σ, st, s0 => by
    simp only [elseOk, Bool.and_eq_true] at h
    rw [norm, eval]
    simp only
    rw [runS, run]
    simp only
    have h1 := normS_le stop (.LOOP :: .DROP :: ms) b (k + 2)
    have h2 := normS_le stop ms els ((normS stop (.LOOP :: .DROP :: ms) b (k + 2)).2 + 1)
    cases it s0 with
    | exc e s1 =>
      refine ⟨σ, Agree.refl _ _ _, ?_⟩
      simp only [runEv, Ev.andThen, image]
      rw [raiseX_andThen]
    | ok i s1 =>
      simp only [runEv, set_eq, Ev.andThen]
      rw [seq_andThen, runS_one, run]
      simp only
      rw [runS, run]
      refine Sim.after ((Agree.upd σ (.int k) (.iter i)).widen (Nat.le_refl _)
        (by simp only [Nm.id]; omega)) ?_
      exact sim_for h1 (by omega)
        (fun σ s => simS stop n b h.1 (.LOOP :: .DROP :: ms) _ σ (none :: st) s)
        (fun σ s => simS stop n els h.2 ms _ σ st s) n _ s1 (upd_same _ _ _)
  | .try_ b hs els fin, h, ms, k, σ, st, s0 => by
    simp only [elseOk, Bool.and_eq_true] at h
    rw [norm, eval]
    have h1 := normS_le stop (tryMarks hs (finMarks fin ms)) b k
    have h2 := normS_le stop (finMarks fin ms) els (normS stop (tryMarks hs (finMarks fin ms)) b k).2
    have h3 := normH_le stop (finMarks fin ms)
      (normS stop (finMarks fin ms) els (normS stop (tryMarks hs (finMarks fin ms)) b k).2).2 hs
      ((normS stop (finMarks fin ms) els (normS stop (tryMarks hs (finMarks fin ms)) b k).2).2 + 1)
    have hn : hs.isNil = true → evalH false stop n hs = fun e s => .exc e s := by
      cases hs with
      | nil => intro _; funext e s; rw [evalH]
      | cons _ _ _ => intro h; cases h
    have htry : ∀ σ st s, Sim (finMarks fin ms) k _ σ st _ _ := fun σ st s =>
      sim_try (st := st) hs h1 h2 h3 hn
        (fun σ st s => simS stop n b h.1.1.1 (tryMarks hs (finMarks fin ms)) k σ st s)
        (fun σ s => simS stop n els h.1.2 (finMarks fin ms) _ σ st s)
        (fun σ e s hx => simH stop n hs h.1.1.2 (finMarks fin ms) _ _ (Nat.le_refl _) σ st e s hx) σ s
    by_cases hnil : fin.isNil = true
    · rw [if_pos hnil]
      have hm : finMarks fin ms = ms := by rw [finMarks, if_pos hnil]
      have hfin : ∀ o : Out S E V, finish o (evalS false stop n fin) = o := by
        cases fin with
        | cons _ _ => cases hnil
        | nil =>
          intro o
          have : evalS false stop n (.nil : Suite S E V I) = .seq := by funext s; rw [evalS]
          rw [this]
          cases o <;> rfl
      rw [hfin]
      rw [hm] at htry ⊢
      exact htry σ st s0
    · rw [if_neg hnil]
      have hm : finMarks fin ms = .FINAL :: ms := by rw [finMarks, if_neg hnil]
      rw [hm] at htry h1 h2 h3 ⊢
      refine sim_finally ?_ (normS_le stop ms fin _) htry ?_
        (fun σ s => simS stop n fin h.2 ms _ σ st s) σ s0
      · split <;> omega
      · intro s f hf
        rw [mem_nub]
        exact in_guarded (flowsK_sound false stop n b s) (fun e s => flowsH_sound false stop n hs e s)
          (fun s => (flowsK_sound false stop n els s).toIn) f hf
theorem simS (stop : E → Bool) (n : Nat) : ∀ (ss : Suite S E V I), elseOkS ss = true →
    ∀ ms k σ st s0, Sim ms k (normS stop ms ss k).2 σ st (evalS false stop n ss s0)
      (runS n (normS stop ms ss k).1 ⟨s0, σ, st⟩)
  | .nil, h, ms, k, σ, st, s0 => by
    rw [normS, evalS]
    simp only
    rw [runS]
    exact ⟨σ, Agree.refl _ _ _, rfl⟩
  | .cons s ss, h, ms, k, σ, st, s0 => by
    simp only [elseOkS, Bool.and_eq_true] at h
    rw [normS, evalS]
    simp only
    rw [runS_app]
    exact Sim.andThen (norm_le stop ms s k) (normS_le stop ms ss _) (sim stop n s h.1 ms k σ st s0)
      fun σ' s' => simS stop n ss h.2 ms _ σ' st s'
theorem simB (stop : E → Bool) (n : Nat) : ∀ (bs : Branches S E V I), elseOkB bs = true →
    ∀ ms k st (els : S → Out S E V) (te : T S E V I → TOut S E V I) hi,
      k ≤ (normB stop ms bs k).2 → (normB stop ms bs k).2 ≤ hi →
      (∀ σ s, Sim ms (normB stop ms bs k).2 hi σ st (els s) (te ⟨s, σ, st⟩)) →
    ∀ σ s0, Sim ms k hi σ st (evalB false stop n bs els s0)
      (runB n (normB stop ms bs k).1 te ⟨s0, σ, st⟩)
  | .nil, h, ms, k, st, els, te, hi, h1, h2, he, σ, s0 => by
    rw [normB] at he ⊢
    rw [evalB, runB]
    exact he σ s0
  | .cons c b bs, h, ms, k, st, els, te, hi, h1, h2, he, σ, s0 => by
    simp only [elseOkB, Bool.and_eq_true] at h
    rw [normB] at he h2 ⊢
    rw [evalB]
    simp only at he h2 ⊢
    rw [runB, runCond]
    have h4 := normS_le stop ms b k
    have h5 := normB_le stop ms bs (normS stop ms b k).2
    refine Sim.ev _ fun r s => ?_
    cases r with
    | true =>
      simp only [if_true]
      exact (simS stop n b h.1 ms k σ st s).widen (Nat.le_refl _) (Nat.le_trans h5 h2)
    | false =>
      simp only [Bool.false_eq_true, if_false]
      exact (simB stop n bs h.2 ms _ st els te hi h5 h2 he σ s).widen h4 (Nat.le_refl _)
theorem simH (stop : E → Bool) (n : Nat) : ∀ (hs : Handlers S E V I), elseOkH hs = true →
    ∀ ms x k, x + 1 ≤ k → ∀ σ st e s0, σ (.int x) = .exn (.user e) →
    Sim ms k (normH stop ms x hs k).2 σ st (evalH false stop n hs e s0)
      (runB n (normH stop ms x hs k).1 (runS n (reraise x)) ⟨s0, σ, st⟩)
  | .nil, h, ms, x, k, hk, σ, st, e, s0, hx => by
    rw [normH, evalH]
    simp only
    rw [runB, run_reraise n x _ _ hx]
    exact ⟨σ, Agree.refl _ _ _, rfl⟩
  | .cons hd b hs, h, ms, x, k, hk, σ, st, e, s0, hx => by
    simp only [elseOkH, Bool.and_eq_true] at h
    rw [normH, evalH]
    simp only
    have h4 := normS_le stop ms b k
    have h5 := normH_le stop ms x hs (normS stop ms b k).2
    have hcond : ∀ kk : Bool → T S E V I → TOut S E V I, runCond (handleCond x hd) ⟨s0, σ, st⟩ kk =
        kk (hd.takes e) ⟨s0, σ, st⟩ := by
      intro kk
      cases hd <;> simp only [handleCond, runCond, runIs, hx, Head.takes]
    have hbind : runS n (handleBind x hd (normS stop ms b k).1) ⟨s0, σ, st⟩ =
        runS n (normS stop ms b k).1 ⟨hd.enter e s0, σ, st⟩ := by
      cases hd with
      | all => rfl
      | exc c => rfl
      | excAs c bind =>
        rw [handleBind, runS, run]
        simp only [hx]
        rw [seq_andThen]
        rfl
    rw [runB, hcond]
    by_cases hc : hd.takes e = true
    · rw [if_pos hc, if_pos hc, hbind]
      exact (simS stop n b h.1 ms k σ st _).widen (Nat.le_refl _) h5
    · rw [if_neg hc, if_neg hc]
      exact (simH stop n hs h.2 ms x _ (Nat.le_trans hk h4) σ st e s0 hx).widen h4 (Nat.le_refl _)
end

end Verif.Norm
