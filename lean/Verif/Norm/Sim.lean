import Verif.Norm.Flow

/-! Normalized code does what the statement means. -/
namespace Verif.Norm
variable {S E V I : Type}

/-! ## Suites -/

theorem TOut.andThen_assoc (o : TOut S E V I) (f g : T S E V I → TOut S E V I) :
    (o.andThen f).andThen g = o.andThen fun t => (f t).andThen g := by
  cases o <;> rfl

theorem TOut.andThen_seq (o : TOut S E V I) : o.andThen .seq = o := by cases o <;> rfl

theorem runS_app (n : Nat) : ∀ (a b : TSuite S E V I) (t : T S E V I),
    runS n (a.app b) t = (runS n a t).andThen (runS n b)
  | .nil, b, t => by rw [TSuite.app, runS]; rfl
  | .cons s a, b, t => by
    rw [TSuite.app, runS, runS, TOut.andThen_assoc]
    congr 1
    funext t
    exact runS_app n a b t

theorem runS_one (n : Nat) (s : TStmt S E V I) (t : T S E V I) : runS n (.cons s .nil) t = run n s t := by
  rw [runS]
  have : runS n (.nil : TSuite S E V I) = .seq := by funext t; rw [runS]
  rw [this, TOut.andThen_seq]

/-! ## Leaving -/

/-- What is left for: the loop, the round, the function. -/
inductive J (V : Type) where
  | brk
  | cnt
  | ret (v : V)

def J.x : J V → X E V
  | .brk => .BRK
  | .cnt => .CNT
  | .ret v => .RET v

def J.out : J V → T S E V I → TOut S E V I
  | .brk, t => .brk t
  | .cnt, t => .cnt t
  | .ret v, t => .ret v t

/-- The effect of `exitContext`. -/
def exitOut : List Mark → J V → T S E V I → TOut S E V I
  | .DROP :: c, j, t => match t.stack with
    | [] => .stuck
    | _ :: st => exitOut c j { t with stack := st }
  | .FINAL :: _, j, t => raiseX j.x t
  | .LOOP :: c, j, t => match j with
    | .brk => .brk t
    | .cnt => .cnt t
    | .ret v => exitOut c (.ret v) t
  | [], j, t => j.out t

/-- The leaving statement stands for `j` in the state `t`. -/
def Leaves : Leave S V → J V → T S E V I → Prop
  | .brk, .brk, _ => True
  | .cnt, .cnt, _ => True
  | .ret r, .ret v, t => rval r t = some v
  | _, _, _ => False

theorem rval_stack (r : RVal S V) (t : T S E V I) (st : List (Option (X E V))) :
    rval r { t with stack := st } = rval r t := by
  cases r <;> rfl

theorem Leaves.stack {l : Leave S V} {j : J V} {t : T S E V I} (h : Leaves l j t)
    (st : List (Option (X E V))) : Leaves l j { t with stack := st } := by
  cases l <;> cases j <;> first | exact h | (simp only [Leaves, rval_stack] at h ⊢; exact h)

theorem run_exitContext (n : Nat) : ∀ (ms : List Mark) (l : Leave S V) (j : J V) (t : T S E V I),
    Leaves l j t → runS n (exitContext ms l) t = exitOut ms j t
  | [], l, j, t, h => by
    rw [exitContext, runS_one, exitOut]
    cases l <;> cases j <;> first | exact False.elim h | skip
    · rw [Leave.stmt, run]; rfl
    · rw [Leave.stmt, run]; rfl
    · rw [Leave.stmt, run]
      simp only [Leaves] at h
      rw [h]; rfl
  | .DROP :: c, l, j, t, h => by
    rw [exitContext, runS, run, exitOut]
    cases e : t.stack with
    | nil => rfl
    | cons y st =>
      simp only [TOut.andThen]
      exact run_exitContext n c l j _ (h.stack st)
  | .FINAL :: c, l, j, t, h => by
    rw [exitContext, runS_one, exitOut, run]
    cases l <;> cases j <;> first | exact False.elim h | skip
    · rfl
    · rfl
    · simp only [Leaves] at h
      rw [Leave.exn, runRaise, h]; rfl
  | .LOOP :: c, l, j, t, h => by
    cases l <;> cases j <;> first | exact False.elim h | skip
    · simp only [exitContext, exitOut]; rw [runS_one, run]
    · simp only [exitContext, exitOut]; rw [runS_one, run]
    · rw [exitContext, exitOut]
      exact run_exitContext n c _ _ t h

theorem raiseX_andThen (x : X E V) (t : T S E V I) (k : T S E V I → TOut S E V I) :
    (raiseX x t).andThen k = raiseX x t := by
  unfold raiseX
  cases t.stack <;> rfl

theorem exitOut_andThen (k : T S E V I → TOut S E V I) : ∀ (ms : List Mark) (j : J V) (t : T S E V I),
    (exitOut ms j t).andThen k = exitOut ms j t
  | [], j, t => by cases j <;> rfl
  | .DROP :: c, j, t => by
    rw [exitOut]
    cases t.stack with
    | nil => rfl
    | cons y st => exact exitOut_andThen k c j _
  | .FINAL :: c, j, t => raiseX_andThen _ _ _
  | .LOOP :: c, j, t => by
    cases j with
    | brk => rfl
    | cnt => rfl
    | ret v => exact exitOut_andThen k c _ t

theorem raiseX_catch (x : X E V) (t : T S E V I) (b : T S E V I → TOut S E V I) (m : Nat)
    (h : t.stack.length ≤ m) : catchAt m (raiseX x t) b = raiseX x t := by
  unfold raiseX
  cases e : t.stack with
  | nil => rfl
  | cons y st =>
    rw [e] at h
    simp only [List.length_cons] at h
    simp only [catchAt, List.length_cons]
    rw [if_neg (by omega), if_pos (by omega)]

theorem exitOut_catch (b : T S E V I → TOut S E V I) (m : Nat) :
    ∀ (ms : List Mark) (j : J V) (t : T S E V I), t.stack.length ≤ m →
      catchAt m (exitOut ms j t) b = exitOut ms j t
  | [], j, t, h => by cases j <;> rfl
  | .DROP :: c, j, t, h => by
    rw [exitOut]
    cases e : t.stack with
    | nil => rfl
    | cons y st =>
      rw [e] at h
      exact exitOut_catch b m c j _ (by simp only [List.length_cons] at h ⊢; omega)
  | .FINAL :: c, j, t, h => raiseX_catch _ _ _ _ h
  | .LOOP :: c, j, t, h => by
    cases j with
    | brk => rfl
    | cnt => rfl
    | ret v => exact exitOut_catch b m c _ t h

/-- The rest of a loop after one round. -/
def again (n : Nat) (f : T S E V I → TOut S E V I) : TOut S E V I → TOut S E V I
  | .seq t' => iter n f t'
  | .cnt t' => iter n f t'
  | .brk t' => .seq t'
  | o => o

theorem iter_succ (n : Nat) (f : T S E V I → TOut S E V I) (t : T S E V I) :
    iter (n + 1) f t = again n f (f t) := by
  rw [iter]
  cases f t <;> rfl

theorem raiseX_again (n : Nat) (f : T S E V I → TOut S E V I) (x : X E V) (t : T S E V I) :
    again n f (raiseX x t) = raiseX x t := by
  unfold raiseX
  cases t.stack <;> rfl

theorem exitOut_again (n : Nat) (f : T S E V I → TOut S E V I) (v : V) : ∀ (ms : List Mark)
    (t : T S E V I), again n f (exitOut ms (.ret v) t) = exitOut ms (.ret v) t
  | [], t => rfl
  | .DROP :: c, t => by
    rw [exitOut]
    cases e : t.stack with
    | nil => rfl
    | cons y st => exact exitOut_again n f v c _
  | .FINAL :: c, t => raiseX_again _ _ _ _
  | .LOOP :: c, t => exitOut_again n f v c t

/-! ## Variables made by the normalizer -/

/-- Only variables with numbers from `lo` up to `hi` have changed. -/
def Agree (lo hi : Nat) (σ σ' : Nm → Cell E V I) : Prop :=
  ∀ x, x.id < lo ∨ hi ≤ x.id → σ' x = σ x

theorem Agree.refl (lo hi : Nat) (σ : Nm → Cell E V I) : Agree lo hi σ σ := fun _ _ => rfl

theorem Agree.widen {lo hi lo' hi' : Nat} {σ σ' : Nm → Cell E V I} (h : Agree lo hi σ σ')
    (h1 : lo' ≤ lo) (h2 : hi ≤ hi') : Agree lo' hi' σ σ' :=
  fun x hx => h x (by omega)

theorem Agree.trans {lo hi : Nat} {σ σ' σ'' : Nm → Cell E V I} (h : Agree lo hi σ σ')
    (h' : Agree lo hi σ' σ'') : Agree lo hi σ σ'' :=
  fun x hx => (h' x hx).trans (h x hx)

/-- Assignment. -/
def upd (σ : Nm → Cell E V I) (x : Nm) (c : Cell E V I) : Nm → Cell E V I :=
  fun y => if y = x then c else σ y

theorem Agree.upd (σ : Nm → Cell E V I) (x : Nm) (c : Cell E V I) :
    Agree x.id (x.id + 1) σ (upd σ x c) := by
  intro y hy
  unfold Norm.upd
  rw [if_neg]
  intro e
  subst e
  omega

theorem upd_same (σ : Nm → Cell E V I) (x : Nm) (c : Cell E V I) : upd σ x c x = c := if_pos rfl

theorem set_eq (s : S) (σ : Nm → Cell E V I) (st : List (Option (X E V))) (x : Nm) (c : Cell E V I) :
    T.set ⟨s, σ, st⟩ x c = ⟨s, upd σ x c, st⟩ := rfl

/-! ## Ends of suites -/

/-- The end of normalized code that the end of a statement stands for. -/
def image (ms : List Mark) (st : List (Option (X E V))) (σ : Nm → Cell E V I) :
    Out S E V → TOut S E V I
  | .seq s => .seq ⟨s, σ, st⟩
  | .brk s => exitOut ms .brk ⟨s, σ, st⟩
  | .cnt s => exitOut ms .cnt ⟨s, σ, st⟩
  | .ret v s => exitOut ms (.ret v) ⟨s, σ, st⟩
  | .exc e s => raiseX (.user e) ⟨s, σ, st⟩
  | .timeout => .timeout

/-- The code ends as `o` says, and has changed variables from `lo` up to `hi` only. -/
def Sim (ms : List Mark) (lo hi : Nat) (σ : Nm → Cell E V I) (st : List (Option (X E V)))
    (o : Out S E V) (q : TOut S E V I) : Prop :=
  ∃ σ', Agree lo hi σ σ' ∧ q = image ms st σ' o

theorem Sim.widen {ms : List Mark} {lo hi lo' hi' : Nat} {σ : Nm → Cell E V I}
    {st : List (Option (X E V))} {o : Out S E V} {q : TOut S E V I} (h : Sim ms lo hi σ st o q)
    (h1 : lo' ≤ lo) (h2 : hi ≤ hi') : Sim ms lo' hi' σ st o q := by
  obtain ⟨σ', ha, he⟩ := h
  exact ⟨σ', ha.widen h1 h2, he⟩

theorem Sim.after {ms : List Mark} {lo hi : Nat} {σ σ1 : Nm → Cell E V I}
    {st : List (Option (X E V))} {o : Out S E V} {q : TOut S E V I} (ha : Agree lo hi σ σ1)
    (h : Sim ms lo hi σ1 st o q) : Sim ms lo hi σ st o q := by
  obtain ⟨σ', ha', he⟩ := h
  exact ⟨σ', ha.trans ha', he⟩

/-- One thing after the other. -/
theorem Sim.andThen {ms : List Mark} {a b c : Nat} {σ : Nm → Cell E V I} {st : List (Option (X E V))}
    {o : Out S E V} {q : TOut S E V I} {k : S → Out S E V} {tk : T S E V I → TOut S E V I}
    (hab : a ≤ b) (hbc : b ≤ c) (h : Sim ms a b σ st o q)
    (hk : ∀ σ' s, Sim ms b c σ' st (k s) (tk ⟨s, σ', st⟩)) :
    Sim ms a c σ st (o.andThen k) (q.andThen tk) := by
  obtain ⟨σ', ha, he⟩ := h
  subst he
  cases o with
  | seq s => exact Sim.after (ha.widen (Nat.le_refl _) hbc) ((hk σ' s).widen hab (Nat.le_refl _))
  | brk s => exact ⟨σ', ha.widen (Nat.le_refl _) hbc, exitOut_andThen _ _ _ _⟩
  | cnt s => exact ⟨σ', ha.widen (Nat.le_refl _) hbc, exitOut_andThen _ _ _ _⟩
  | ret v s => exact ⟨σ', ha.widen (Nat.le_refl _) hbc, exitOut_andThen _ _ _ _⟩
  | exc e s => exact ⟨σ', ha.widen (Nat.le_refl _) hbc, raiseX_andThen _ _ _⟩
  | timeout => exact ⟨σ', ha.widen (Nat.le_refl _) hbc, rfl⟩

theorem Sim.ev {A : Type} {ms : List Mark} {lo hi : Nat} {σ : Nm → Cell E V I}
    {st : List (Option (X E V))} {s : S} (r : Ev S E A) {k : A → S → Out S E V}
    {tk : A → T S E V I → TOut S E V I} (hk : ∀ a s, Sim ms lo hi σ st (k a s) (tk a ⟨s, σ, st⟩)) :
    Sim ms lo hi σ st (r.andThen k) (runEv r ⟨s, σ, st⟩ tk) := by
  cases r with
  | ok a s => exact hk a s
  | exc e s => exact ⟨σ, Agree.refl _ _ _, rfl⟩

/-! ## The counter -/

mutual
theorem norm_le (stop : E → Bool) : ∀ (ms : List Mark) (s : Stmt S E V I) (k : Nat),
    k ≤ (norm stop ms s k).2
  | _, .act f, k => by rw [norm]; exact Nat.le_refl _
  | _, .raise f, k => by rw [norm]; exact Nat.le_refl _
  | ms, .retv f, k => by rw [norm]; exact Nat.le_refl _
  | ms, .rete f, k => by rw [norm]; exact Nat.le_succ _
  | ms, .brk, k => by rw [norm]; exact Nat.le_refl _
  | ms, .cnt, k => by rw [norm]; exact Nat.le_refl _
  | ms, .ifs bs els, k => by
    rw [norm]
    exact Nat.le_trans (normB_le stop ms bs k) (normS_le stop ms els _)
  | ms, .whl c b els, k => by
    rw [norm]
    exact Nat.le_trans (normS_le stop _ els k) (normS_le stop _ b _)
  | ms, .for_ p it nx b els, k => by
    rw [norm]
    have h1 := normS_le stop (.LOOP :: .DROP :: ms) b (k + 2)
    have h2 := normS_le stop ms els ((normS stop (.LOOP :: .DROP :: ms) b (k + 2)).2 + 1)
    simp only
    omega
  | ms, .try_ b hs els fin, k => by
    rw [norm]
    have h1 := normS_le stop (tryMarks hs (finMarks fin ms)) b k
    have h2 := normS_le stop (finMarks fin ms) els (normS stop (tryMarks hs (finMarks fin ms)) b k).2
    have h3 := normH_le stop (finMarks fin ms)
      (normS stop (finMarks fin ms) els (normS stop (tryMarks hs (finMarks fin ms)) b k).2).2 hs
      ((normS stop (finMarks fin ms) els (normS stop (tryMarks hs (finMarks fin ms)) b k).2).2 + 1)
    generalize (normS stop (finMarks fin ms) els
      (normS stop (tryMarks hs (finMarks fin ms)) b k).2).2 = q at *
    generalize (normS stop (tryMarks hs (finMarks fin ms)) b k).2 = r at *
    generalize (normH stop (finMarks fin ms) q hs (q + 1)).2 = p at *
    have h4 := normS_le stop ms fin ((if hs.isNil = true then q else p) + 1)
    have h5 : k ≤ (if hs.isNil = true then q else p) := by split <;> omega
    split
    · exact h5
    · simp only
      omega
theorem normS_le (stop : E → Bool) : ∀ (ms : List Mark) (ss : Suite S E V I) (k : Nat),
    k ≤ (normS stop ms ss k).2
  | _, .nil, k => by rw [normS]; exact Nat.le_refl _
  | ms, .cons s ss, k => by
    rw [normS]
    exact Nat.le_trans (norm_le stop ms s k) (normS_le stop ms ss _)
theorem normB_le (stop : E → Bool) : ∀ (ms : List Mark) (bs : Branches S E V I) (k : Nat),
    k ≤ (normB stop ms bs k).2
  | _, .nil, k => by rw [normB]; exact Nat.le_refl _
  | ms, .cons c b bs, k => by
    rw [normB]
    exact Nat.le_trans (normS_le stop ms b k) (normB_le stop ms bs _)
theorem normH_le (stop : E → Bool) : ∀ (ms : List Mark) (x : Nat) (hs : Handlers S E V I) (k : Nat),
    k ≤ (normH stop ms x hs k).2
  | _, _, .nil, k => by rw [normH]; exact Nat.le_refl _
  | ms, x, .cons h b hs, k => by
    rw [normH]
    exact Nat.le_trans (normS_le stop ms b k) (normH_le stop ms x hs _)
end

/-! ## Relays -/

theorem mem_nub {f : Flow} : ∀ {l : List Flow}, f ∈ nub l ↔ f ∈ l
  | [] => by simp [nub]
  | g :: l => by
    by_cases e : f = g
    · simp [nub, e]
    · simp [nub, e, mem_nub (l := l)]

/-- The way out a control exception stands for. -/
def X.flow : X E V → Option Flow
  | .user _ => none
  | .SEQ => some .SEQ
  | .BRK => some .BRK
  | .CNT => some .CNT
  | .RET _ => some .RET

theorem relay_cond (ms : List Mark) (x : Nat) (f : Flow) (t : T S E V I) (e : X E V)
    (k : Bool → T S E V I → TOut S E V I) (h : t.cells (.int x) = .exn e) :
    runCond (relay (I := I) ms x f).1 t k = k (decide (e.flow = some f)) t := by
  cases f <;> cases e <;> simp only [relay, runCond, runIs, h] <;> rfl

theorem runB_raise (n : Nat) (ms : List Mark) (x : Nat) (t : T S E V I) (e : X E V)
    (h : t.cells (.int x) = .exn e) : ∀ fs : List Flow,
    (∀ f ∈ fs, e.flow = some f → valid (relay (E := E) (S := S) (V := V) (I := I) ms x f).2 = false) →
    runB n (relayBranches ms x fs) (runS n (reraise x)) t = raiseX e t
  | [], _ => by
    rw [relayBranches, runB, reraise, runS_one, run, runRaise, h]
  | f :: fs, hf => by
    have ih := runB_raise n ms x t e h fs fun f h' => hf f (List.mem_cons_of_mem _ h')
    rw [relayBranches]
    by_cases hv : valid (relay (E := E) (S := S) (V := V) (I := I) ms x f).2 = true
    · simp only [hv, if_true]
      rw [runB, relay_cond ms x f t e _ h]
      by_cases hm : e.flow = some f
      · have := hf f (by simp) hm
        rw [this] at hv
        cases hv
      · rw [decide_eq_false hm]
        exact ih
    · simp only [hv]
      exact ih

theorem runB_relay (n : Nat) (ms : List Mark) (x : Nat) (t : T S E V I) (e : X E V) (f : Flow)
    (h : t.cells (.int x) = .exn e) (he : e.flow = some f)
    (hv : valid (relay (E := E) (S := S) (V := V) (I := I) ms x f).2 = true) : ∀ fs : List Flow, f ∈ fs →
    runB n (relayBranches ms x fs) (runS n (reraise x)) t = runS n (relay ms x f).2 t
  | [], hm => by cases hm
  | g :: fs, hm => by
    rw [relayBranches]
    by_cases hg : g = f
    · subst hg
      simp only [hv, if_true]
      rw [runB, relay_cond ms x g t e _ h, decide_eq_true he]
      rfl
    · have ih := runB_relay n ms x t e f h he hv fs (by
        cases hm with
        | head => exact absurd rfl hg
        | tail _ h => exact h)
      by_cases hv' : valid (relay (E := E) (S := S) (V := V) (I := I) ms x g).2 = true
      · simp only [hv', if_true]
        rw [runB, relay_cond ms x g t e _ h, decide_eq_false (by rw [he]; simpa using fun h => hg h.symm)]
        exact ih
      · simp only [hv']
        exact ih

theorem run_iff (n : Nat) (bs : TBranches S E V I) (els : TSuite S E V I) (t : T S E V I) :
    runS n (iff bs els) t = runB n bs (runS n els) t := by
  cases bs with
  | nil => rw [iff, runB]
  | cons c b bs => rw [iff, runS_one, run]; intro h; cases h

theorem exitContext_cons : ∀ (ms : List Mark) (l : Leave S V),
    ∃ (s : TStmt S E V I) (ss : TSuite S E V I), exitContext ms l = .cons s ss ∧ ∀ x y, s ≠ .downcast x y
  | [], l => ⟨_, _, rfl, by cases l <;> intro x y h <;> cases h⟩
  | .DROP :: c, l => ⟨_, _, rfl, by intro x y h; cases h⟩
  | .FINAL :: c, l => ⟨_, _, rfl, by intro x y h; cases h⟩
  | .LOOP :: c, .brk => ⟨_, _, rfl, by intro x y h; cases h⟩
  | .LOOP :: c, .cnt => ⟨_, _, rfl, by intro x y h; cases h⟩
  | .LOOP :: c, .ret r => exitContext_cons c (.ret r)

theorem valid_drop (s : TStmt S E V I) (ss : TSuite S E V I) :
    valid (.cons .drop (.cons s ss)) = true := by
  cases ss <;> rfl

theorem valid_downcast (ms : List Mark) (l : Leave S V) (x y : Nm)
    (h : valid (.cons (.downcast x y) (exitContext (E := E) (I := I) ms l)) = false) :
    valid (exitContext (E := E) (I := I) ms l) = false := by
  obtain ⟨s, ss, he, _⟩ := exitContext_cons (E := E) (I := I) ms l
  rw [he] at h ⊢
  cases ss with
  | nil => exact h
  | cons a b => simp [valid] at h

/-- A relay is not valid only if it raises the exception again. -/
theorem exit_of_not_valid (l : Leave S V) (j : J V) (t : T S E V I) : ∀ ms : List Mark,
    valid (exitContext (E := E) (I := I) ms l) = false → Leaves l j t →
    exitOut ms j t = raiseX j.x t
  | [], h, _ => by
    cases l <;> simp [exitContext, valid, Leave.stmt, TStmt.isExpr] at h
  | .DROP :: c, h, _ => by
    obtain ⟨s, ss, he, _⟩ := exitContext_cons (E := E) (I := I) c l
    rw [exitContext, he, valid_drop] at h
    cases h
  | .FINAL :: c, _, _ => rfl
  | .LOOP :: c, h, hl => by
    cases l <;> cases j <;> first | exact False.elim hl | skip
    · simp [exitContext, valid, TStmt.isExpr] at h
    · simp [exitContext, valid, TStmt.isExpr] at h
    · exact exit_of_not_valid _ _ t c h hl

/-- The end that a control exception stands for. -/
def afterFin (st : List (Option (X E V))) (ms : List Mark) (e : X E V) (s : S) (σ : Nm → Cell E V I) :
    TOut S E V I :=
  match e with
  | .user e => raiseX (.user e) ⟨s, σ, st⟩
  | .SEQ => .seq ⟨s, σ, st⟩
  | .BRK => exitOut ms .brk ⟨s, σ, st⟩
  | .CNT => exitOut ms .cnt ⟨s, σ, st⟩
  | .RET v => exitOut ms (.ret v) ⟨s, σ, st⟩

theorem run_relays (n : Nat) (ms : List Mark) (x : Nat) (ctrl : List Flow) (s : S)
    (σ : Nm → Cell E V I) (st : List (Option (X E V))) (e : X E V) (h : σ (.int x) = .exn e)
    (hc : ∀ f, e.flow = some f → f ∈ ctrl) :
    ∃ σ', Agree x (x + 1) σ σ' ∧ runS n (relays ms x ctrl) ⟨s, σ, st⟩ = afterFin st ms e s σ' := by
  have h' : (T.mk s σ st).cells (.int x) = .exn e := h
  have hr : runS n (relays ms x ctrl) ⟨s, σ, st⟩ =
      runB n (relayBranches ms x ctrl) (runS n (reraise x)) ⟨s, σ, st⟩ := run_iff _ _ _ _
  rw [hr]
  have again' : ∀ f, e.flow = some f → valid (relay (E := E) (S := S) (V := V) (I := I) ms x f).2 = false →
      runB n (relayBranches ms x ctrl) (runS n (reraise x)) ⟨s, σ, st⟩ = raiseX e ⟨s, σ, st⟩ := by
    intro f hf hv
    refine runB_raise n ms x _ e h' ctrl fun g _ hg => ?_
    rw [hf] at hg
    cases hg
    exact hv
  cases e with
  | user e =>
    exact ⟨σ, Agree.refl _ _ _, runB_raise n ms x _ _ h' ctrl fun f _ hf => by cases hf⟩
  | SEQ =>
    refine ⟨σ, Agree.refl _ _ _, ?_⟩
    rw [runB_relay n ms x _ _ .SEQ h' rfl rfl ctrl (hc _ rfl)]
    rw [relay, runS_one, run]
    rfl
  | BRK =>
    refine ⟨σ, Agree.refl _ _ _, ?_⟩
    cases hv : valid (relay (E := E) (S := S) (V := V) (I := I) ms x .BRK).2 with
    | true =>
      rw [runB_relay n ms x _ _ .BRK h' rfl hv ctrl (hc _ rfl)]
      exact run_exitContext n ms .brk .brk _ trivial
    | false =>
      rw [again' .BRK rfl hv]
      exact (exit_of_not_valid .brk .brk _ ms hv trivial).symm
  | CNT =>
    refine ⟨σ, Agree.refl _ _ _, ?_⟩
    cases hv : valid (relay (E := E) (S := S) (V := V) (I := I) ms x .CNT).2 with
    | true =>
      rw [runB_relay n ms x _ _ .CNT h' rfl hv ctrl (hc _ rfl)]
      exact run_exitContext n ms .cnt .cnt _ trivial
    | false =>
      rw [again' .CNT rfl hv]
      exact (exit_of_not_valid .cnt .cnt _ ms hv trivial).symm
  | RET v =>
    have hd : Leaves (.ret (.attr (.der x)) : Leave S V) (.ret v)
        (T.mk s (upd σ (.der x) (.exn (.RET v))) st : T S E V I) := by
      simp only [Leaves, rval, upd_same]
    cases hv : valid (relay (E := E) (S := S) (V := V) (I := I) ms x .RET).2 with
    | true =>
      refine ⟨upd σ (.der x) (.exn (.RET v)), Agree.upd σ (.der x) _, ?_⟩
      rw [runB_relay n ms x _ _ .RET h' rfl hv ctrl (hc _ rfl)]
      rw [relay, runS, run, set_eq]
      simp only [TOut.andThen, h]
      exact run_exitContext n ms _ _ _ hd
    | false =>
      refine ⟨σ, Agree.refl _ _ _, ?_⟩
      rw [again' .RET rfl hv]
      have hv2 := valid_downcast ms _ _ _ hv
      have h3 : ∀ t : T S E V I, exitOut ms (.ret v) t = raiseX (.RET v) t := by
        intro t
        clear hd again' hr hc h' h hv
        revert hv2
        induction ms generalizing t with
        | nil => intro h; simp [exitContext, valid, Leave.stmt, TStmt.isExpr] at h
        | cons m c ih =>
          intro h
          cases m with
          | DROP =>
            obtain ⟨a, b, he, _⟩ := exitContext_cons (E := E) (I := I) c (.ret (.attr (.der x)) : Leave S V)
            rw [exitContext, he, valid_drop] at h
            cases h
          | FINAL => rfl
          | LOOP => exact ih t h
      exact (h3 _).symm

end Verif.Norm
