import Verif.Norm.Main

/-! Loops whose bodies do not raise StopIteration, generated `break`s, and generated names. -/
namespace Verif.Norm
variable {S E V I : Type}

/-! ## StopIteration -/

mutual
theorem eval_py (stop : E → Bool) (n : Nat) : ∀ (s : Stmt S E V I), NoStop stop s →
    ∀ s0, eval true stop n s s0 = eval false stop n s s0
  | .act f, h, s0 => by rw [eval, eval]
  | .raise f, h, s0 => by rw [eval, eval]
  | .retv f, h, s0 => by rw [eval, eval]
  | .rete f, h, s0 => by rw [eval, eval]
  | .brk, h, s0 => by rw [eval, eval]
  | .cnt, h, s0 => by rw [eval, eval]
  | .ifs bs els, h, s0 => by
    simp only [NoStop] at h
    have he : evalS true stop n els = evalS false stop n els := funext (evalS_py stop n els h.2)
    rw [eval, eval, he]
    exact evalB_py stop n bs h.1 _ s0
  | .whl c b els, h, s0 => by
    simp only [NoStop] at h
    have hb : evalS true stop n b = evalS false stop n b := funext (evalS_py stop n b h.1)
    have he : evalS true stop n els = evalS false stop n els := funext (evalS_py stop n els h.2)
    rw [eval, eval, hb, he]
  | .for_ p it nx b els, h, s0 => by
    simp only [NoStop] at h
    have hb : evalS true stop n b = evalS false stop n b := funext (evalS_py stop n b h.2.2.1)
    have he : evalS true stop n els = evalS false stop n els := funext (evalS_py stop n els h.2.2.2)
    have hraise := h.2.1 n
    rw [hb] at hraise
    have hp := h.1
    rw [eval, eval, hb, he]
    congr 1
    funext i s
    generalize hm : n = m
    have key : ∀ m s, forLoop true stop p (nx i) (evalS false stop n b) (evalS false stop n els) m s =
        forLoop false stop p (nx i) (evalS false stop n b) (evalS false stop n els) m s := by
      intro m
      induction m with
      | zero => intro s; rfl
      | succ m ih =>
        intro s
        rw [forLoop, forLoop]
        cases nx i s with
        | exc e s => rfl
        | ok v s =>
          simp only
          have hall : ∀ e s', (p.bind v s).andThen (fun _ s => evalS false stop n b s) = .exc e s' →
              stop e = false := by
            intro e s' he
            cases hq : p.bind v s with
            | ok u s1 =>
              rw [hq] at he
              exact hraise s1 e s' he
            | exc e1 s1 =>
              rw [hq] at he
              simp only [Ev.andThen] at he
              injection he with h1 h2
              rw [← h1]
              exact hp v s e1 s1 hq
          cases hq : (p.bind v s).andThen (fun _ s => evalS false stop n b s) with
          | seq s' => exact ih s'
          | cnt s' => exact ih s'
          | brk s' => rfl
          | ret v s' => rfl
          | timeout => rfl
          | exc e s' =>
            simp only
            rw [hall e s' hq]
            rfl
    subst hm
    exact key n s
  | .try_ b hs els fin, h, s0 => by
    simp only [NoStop] at h
    have hb : evalS true stop n b = evalS false stop n b := funext (evalS_py stop n b h.1)
    have he : evalS true stop n els = evalS false stop n els := funext (evalS_py stop n els h.2.2.1)
    have hf : evalS true stop n fin = evalS false stop n fin := funext (evalS_py stop n fin h.2.2.2)
    have hh : evalH true stop n hs = evalH false stop n hs :=
      funext fun e => funext fun s => evalH_py stop n hs h.2.1 e s
    rw [eval, eval, hb, he, hf, hh]
theorem evalS_py (stop : E → Bool) (n : Nat) : ∀ (ss : Suite S E V I), NoStopS stop ss →
    ∀ s0, evalS true stop n ss s0 = evalS false stop n ss s0
  | .nil, h, s0 => by rw [evalS, evalS]
  | .cons s ss, h, s0 => by
    simp only [NoStopS] at h
    have he : evalS true stop n ss = evalS false stop n ss := funext (evalS_py stop n ss h.2)
    rw [evalS, evalS, he, eval_py stop n s h.1 s0]
theorem evalB_py (stop : E → Bool) (n : Nat) : ∀ (bs : Branches S E V I), NoStopB stop bs →
    ∀ els s0, evalB true stop n bs els s0 = evalB false stop n bs els s0
  | .nil, h, els, s0 => by rw [evalB, evalB]
  | .cons c b bs, h, els, s0 => by
    simp only [NoStopB] at h
    have hb : evalS true stop n b = evalS false stop n b := funext (evalS_py stop n b h.1)
    have hr : evalB true stop n bs els = evalB false stop n bs els := funext (evalB_py stop n bs h.2 els)
    rw [evalB, evalB, hb, hr]
theorem evalH_py (stop : E → Bool) (n : Nat) : ∀ (hs : Handlers S E V I), NoStopH stop hs →
    ∀ e s0, evalH true stop n hs e s0 = evalH false stop n hs e s0
  | .nil, h, e, s0 => by rw [evalH, evalH]
  | .cons hd b hs, h, e, s0 => by
    simp only [NoStopH] at h
    have hb : evalS true stop n b = evalS false stop n b := funext (evalS_py stop n b h.1)
    rw [evalH, evalH, hb, evalH_py stop n hs h.2 e s0]
end

/-! ## Generated `break` and `continue` -/

theorem inLoopS_app (l : Bool) : ∀ a b : TSuite S E V I,
    inLoopS l (a.app b) = (inLoopS l a && inLoopS l b)
  | .nil, b => by rw [TSuite.app, inLoopS, Bool.true_and]
  | .cons s a, b => by rw [TSuite.app, inLoopS, inLoopS, inLoopS_app l a b, Bool.and_assoc]

theorem inLoopS_one (l : Bool) (s : TStmt S E V I) : inLoopS l (.cons s .nil) = inLoop l s := by
  rw [inLoopS, inLoopS, Bool.and_true]

theorem inLoop_ret (l : Bool) (r : RVal S V) : ∀ ms : List Mark,
    inLoopS l (exitContext (E := E) (I := I) ms (.ret r)) = true
  | [] => by rw [exitContext, inLoopS_one, Leave.stmt, inLoop] <;> nofun
  | .DROP :: c => by rw [exitContext, inLoopS, inLoop_ret l r c]; rfl
  | .FINAL :: c => by rw [exitContext, inLoopS_one]; rfl
  | .LOOP :: c => inLoop_ret l r c

/-- `break` and `continue` may be generated here. -/
def MayLeave (E I S V : Type) (l : Bool) (ms : List Mark) : Prop :=
  inLoopS l (exitContext (E := E) (I := I) (S := S) (V := V) ms .brk) = true ∧
  inLoopS l (exitContext (E := E) (I := I) (S := S) (V := V) ms .cnt) = true

theorem MayLeave.drop {l : Bool} {ms : List Mark} (h : MayLeave E I S V l ms) :
    MayLeave E I S V l (.DROP :: ms) := by
  constructor
  · rw [exitContext, inLoopS, h.1]; rfl
  · rw [exitContext, inLoopS, h.2]; rfl

theorem MayLeave.final {l : Bool} {ms : List Mark} : MayLeave E I S V l (.FINAL :: ms) := ⟨rfl, rfl⟩

theorem MayLeave.loop {ms : List Mark} : MayLeave E I S V true (.LOOP :: ms) := ⟨rfl, rfl⟩

theorem not_mem_diff {f : Flow} {l m : List Flow} (h : f ∉ l) : f ∉ l.diff m := fun h' =>
  h (List.diff_subset _ _ h')

theorem not_mem_brkseq {f : Flow} {l : List Flow} (hf : f = .BRK ∨ f = .CNT) (h : l.count f ≤ 1) :
    f ∉ brkseq l := by
  have hne : f ≠ .SEQ := by rcases hf with rfl | rfl <;> decide
  intro hm
  have hc : 0 < (brkseq l).count f := List.count_pos_iff.2 hm
  unfold brkseq at hc
  rw [List.diff_cons, List.diff_cons, List.diff_nil, List.count_erase, List.count_erase] at hc
  have h2 : List.count f (if l.contains .BRK then .SEQ :: l else l) = l.count f := by
    split
    · rw [List.count_cons_of_ne]
      exact fun e => hne e.symm
    · rfl
  rw [h2] at hc
  rcases hf with rfl | rfl
  · simp at hc; omega
  · simp at hc; omega

/-- Neither `break` nor `continue`. -/
def NoBC (fs : List Flow) : Prop := Flow.BRK ∉ fs ∧ Flow.CNT ∉ fs

theorem NoBC.app {a b : List Flow} (ha : NoBC a) (hb : NoBC b) : NoBC (a ++ b) := by
  constructor
  · intro h; exact (List.mem_append.1 h).elim ha.1 hb.1
  · intro h; exact (List.mem_append.1 h).elim ha.2 hb.2

theorem NoBC.seq {a b : List Flow} (ha : NoBC a) (hb : NoBC b) : NoBC (flowSeq a b) := by
  unfold flowSeq
  split
  · exact NoBC.app ⟨not_mem_diff ha.1, not_mem_diff ha.2⟩ hb
  · exact ha

theorem NoBC.one_seq : NoBC [.SEQ] := ⟨by decide, by decide⟩

mutual
theorem noBC (s : Stmt S E V I) (hc : closed s = true) (ho : once s = true) : NoBC (flows s) := by
  match s with
  | .act f => rw [flows]; exact ⟨by decide, by decide⟩
  | .raise f => rw [flows]; exact ⟨by decide, by decide⟩
  | .retv f => rw [flows]; exact ⟨by decide, by decide⟩
  | .rete f => rw [flows]; exact ⟨by decide, by decide⟩
  | .brk => simp [closed] at hc
  | .cnt => simp [closed] at hc
  | .ifs bs els =>
    simp only [closed, once, Bool.and_eq_true] at hc ho
    rw [flows]
    exact NoBC.app (noBCB bs hc.1 ho.1) (noBCK els hc.2 ho.2 NoBC.one_seq)
  | .whl c b els =>
    simp only [closed, once, Bool.and_eq_true, decide_eq_true_eq] at hc ho
    rw [flows]
    exact NoBC.app ⟨not_mem_brkseq (.inl rfl) ho.1.1.1, not_mem_brkseq (.inr rfl) ho.1.1.2⟩
      (noBCK els hc ho.2 NoBC.one_seq)
  | .for_ p it nx b els =>
    simp only [closed, once, Bool.and_eq_true, decide_eq_true_eq] at hc ho
    rw [flows]
    exact NoBC.app ⟨not_mem_brkseq (.inl rfl) ho.1.1.1, not_mem_brkseq (.inr rfl) ho.1.1.2⟩
      (noBCK els hc ho.2 NoBC.one_seq)
  | .try_ b hs els fin =>
    simp only [closed, once, Bool.and_eq_true] at hc ho
    have hf := noBCK fin hc.2 ho.2 NoBC.one_seq
    rw [flows]
    exact NoBC.app (NoBC.app (noBCK b hc.1.1.1 ho.1.1.1 (noBCK els hc.1.2 ho.1.2 NoBC.one_seq))
      (noBCH hs hc.1.1.2 ho.1.1.2)) ⟨not_mem_diff hf.1, not_mem_diff hf.2⟩
theorem noBCK (ss : Suite S E V I) (hc : closedS ss = true) (ho : onceS ss = true) {g : List Flow}
    (hg : NoBC g) : NoBC (flowsK ss g) := by
  match ss with
  | .nil => rw [flowsK]; exact hg
  | .cons s ss =>
    simp only [closedS, onceS, Bool.and_eq_true] at hc ho
    rw [flowsK]
    exact NoBC.seq (noBC s hc.1 ho.1) (noBCK ss hc.2 ho.2 hg)
theorem noBCB (bs : Branches S E V I) (hc : closedB bs = true) (ho : onceB bs = true) :
    NoBC (flowsB bs) := by
  match bs with
  | .nil => rw [flowsB]; exact ⟨nofun, nofun⟩
  | .cons c b bs =>
    simp only [closedB, onceB, Bool.and_eq_true] at hc ho
    rw [flowsB]
    exact NoBC.app (noBCK b hc.1 ho.1 NoBC.one_seq) (noBCB bs hc.2 ho.2)
theorem noBCH (hs : Handlers S E V I) (hc : closedH hs = true) (ho : onceH hs = true) :
    NoBC (flowsH hs) := by
  match hs with
  | .nil => rw [flowsH]; exact ⟨nofun, nofun⟩
  | .cons c b hs =>
    simp only [closedH, onceH, Bool.and_eq_true] at hc ho
    rw [flowsH]
    exact NoBC.app (noBCK b hc.1 ho.1 NoBC.one_seq) (noBCH hs hc.2 ho.2)
end

theorem inLoop_relay (l : Bool) (ms : List Mark) (x : Nat) (f : Flow)
    (h : MayLeave E I S V l ms ∨ (f ≠ .BRK ∧ f ≠ .CNT)) :
    inLoopS l (relay (E := E) (I := I) (S := S) (V := V) ms x f).2 = true := by
  cases f with
  | SEQ => rfl
  | BRK => rcases h with h | h; exacts [h.1, absurd rfl h.1]
  | CNT => rcases h with h | h; exacts [h.2, absurd rfl h.2]
  | RET => simp only [relay]; rw [inLoopS, inLoop_ret]; rfl

theorem inLoop_relays (l : Bool) (ms : List Mark) (x : Nat) (fs : List Flow)
    (h : MayLeave E I S V l ms ∨ NoBC fs) :
    inLoopS l (relays (E := E) (I := I) (S := S) (V := V) ms x fs) = true := by
  have hb : ∀ fs, (MayLeave E I S V l ms ∨ NoBC fs) →
      inLoopB l (relayBranches (E := E) (I := I) (S := S) (V := V) ms x fs) = true := by
    intro fs
    induction fs with
    | nil => intro _; rfl
    | cons f fs ih =>
      intro h
      have h1 := inLoop_relay l ms x f (h.imp id fun h => ⟨fun e => h.1 (by simp [e]), fun e => h.2 (by simp [e])⟩)
      have h2 := ih (h.imp id fun h => ⟨fun e => h.1 (List.mem_cons_of_mem _ e),
        fun e => h.2 (List.mem_cons_of_mem _ e)⟩)
      rw [relayBranches]
      split
      · rw [inLoopB, h1, h2]; rfl
      · exact h2
  have hbb := hb fs h
  unfold relays
  cases hr : relayBranches (E := E) (I := I) (S := S) (V := V) ms x fs with
  | nil => rfl
  | cons c b bs =>
    rw [hr] at hbb
    rw [iff, inLoopS_one, inLoop, hbb]
    · rfl
    · intro h; cases h

theorem inLoop_mbseq (l : Bool) (fs : List Flow) :
    inLoopS l (mbseq (E := E) (I := I) (S := S) (V := V) fs) = true := by
  unfold mbseq
  split <;> rfl

mutual
theorem inLoop_norm (stop : E → Bool) (l : Bool) (ms : List Mark) (s : Stmt S E V I) (k : Nat)
    (ho : once s = true) (h : MayLeave E I S V l ms ∨ closed s = true) :
    inLoopS l (norm stop ms s k).1 = true := by
  match s with
  | .act f => rw [norm]; rfl
  | .raise f => rw [norm]; rfl
  | .retv f => rw [norm]; exact inLoop_ret l _ ms
  | .rete f => rw [norm]; simp only; rw [inLoopS, inLoop_ret]; rfl
  | .brk =>
    rw [norm]
    rcases h with h | h
    · exact h.1
    · simp [closed] at h
  | .cnt =>
    rw [norm]
    rcases h with h | h
    · exact h.2
    · simp [closed] at h
  | .ifs bs els =>
    simp only [once, closed, Bool.and_eq_true] at ho h
    rw [norm]
    simp only
    rw [inLoopS_one, inLoop, inLoop_normB stop l ms bs k ho.1 (h.imp id And.left),
      inLoop_normS stop l ms els _ ho.2 (h.imp id And.right)]
    rfl
  | .whl c b els =>
    simp only [once, Bool.and_eq_true] at ho
    rw [norm]
    simp only
    rw [inLoopS_one, inLoop, inLoopS_app, inLoop_normS stop true _ b _ ho.1.2 (.inl MayLeave.loop),
      whileTest, inLoopS_one, inLoop, inLoopS_app,
      inLoop_normS stop true _ els _ ho.2 (.inl MayLeave.loop)]
    rfl
  | .for_ p it nx b els =>
    simp only [once, closed, Bool.and_eq_true] at ho h
    rw [norm]
    simp only
    have hn : inLoopS true (forNext (E := E) (I := I) p k (k + 1) nx) = true := by cases p <;> rfl
    have hels := inLoop_normS stop l ms els ((normS stop (.LOOP :: .DROP :: ms) b (k + 2)).2 + 1) ho.2 h
    have hmk : ∀ te : TSuite S E V I, inLoopS l te = true → inLoopS l (mkBody te) = true := by
      intro te h
      cases te with
      | nil => rfl
      | cons a b => exact h
    rw [inLoopS, inLoopS_one, inLoop, inLoop, inLoopS, inLoop, inLoopS_app, inLoopS_app,
      inLoop_normS stop true _ b _ ho.1.2 (.inl MayLeave.loop), hn, inLoopS_one, inLoopS, inLoop,
      inLoopS_one, inLoop, inLoopB, hmk _ hels]
    all_goals first | rfl | nofun
  | .try_ b hs els fin =>
    simp only [once, closed, Bool.and_eq_true] at ho h
    have hm : ∀ {p : Prop}, (MayLeave E I S V l ms ∨ p) → MayLeave E I S V l (finMarks fin ms) ∨ p := by
      intro p h
      unfold finMarks
      split
      · exact h
      · exact .inl MayLeave.final
    have ht : ∀ {p : Prop} {m : List Mark}, (MayLeave E I S V l m ∨ p) →
        MayLeave E I S V l (tryMarks hs m) ∨ p := by
      intro p m h
      unfold tryMarks
      split
      · exact h
      · exact h.imp MayLeave.drop id
    have h1 := inLoop_normS stop l _ b k ho.1.1.1 (ht (hm (h.imp id fun h => h.1.1.1)))
    have h2 := inLoop_normS stop l _ els (normS stop (tryMarks hs (finMarks fin ms)) b k).2 ho.1.2
      (hm (h.imp id fun h => h.1.2))
    have h3 := fun x y => inLoop_normH stop l _ x hs y ho.1.1.2 (hm (h.imp id fun h => h.1.1.2))
    have htry : ∀ x (a b : TSuite S E V I) (c : TBranches S E V I), inLoopS l a = true →
        inLoopS l b = true → inLoopB l c = true → inLoopS l (tryCode hs x a b c) = true := by
      intro x a b c ha hb hc
      unfold tryCode
      split
      · rw [inLoopS_app, ha, hb]; rfl
      · rw [inLoopS_one, inLoop, inLoopS_app, ha, inLoopS, hb, inLoopS, inLoopS_one, inLoop, hc]
        all_goals first | rfl | nofun
    rw [norm]
    split
    · exact htry _ _ _ _ h1 h2 (h3 _ _)
    · have h4 := fun y => inLoop_normS stop l ms fin y ho.2 (h.imp id fun h => h.2)
      simp only
      rw [inLoopS_one, inLoop, inLoopS_app, htry _ _ _ _ h1 h2 (h3 _ _), inLoop_mbseq, inLoopS,
        inLoopS_app, h4, inLoop_relays]
      · rfl
      · refine h.imp id fun h => ?_
        have := NoBC.app (noBCK b h.1.1.1 ho.1.1.1 (noBCK els h.1.2 ho.1.2 NoBC.one_seq))
          (noBCH hs h.1.1.2 ho.1.1.2)
        exact ⟨fun e => this.1 (mem_nub.1 e), fun e => this.2 (mem_nub.1 e)⟩
theorem inLoop_normS (stop : E → Bool) (l : Bool) (ms : List Mark) (ss : Suite S E V I) (k : Nat)
    (ho : onceS ss = true) (h : MayLeave E I S V l ms ∨ closedS ss = true) :
    inLoopS l (normS stop ms ss k).1 = true := by
  match ss with
  | .nil => rw [normS]; rfl
  | .cons s ss =>
    simp only [onceS, closedS, Bool.and_eq_true] at ho h
    rw [normS]
    simp only
    rw [inLoopS_app, inLoop_norm stop l ms s k ho.1 (h.imp id And.left),
      inLoop_normS stop l ms ss _ ho.2 (h.imp id And.right)]
    rfl
theorem inLoop_normB (stop : E → Bool) (l : Bool) (ms : List Mark) (bs : Branches S E V I) (k : Nat)
    (ho : onceB bs = true) (h : MayLeave E I S V l ms ∨ closedB bs = true) :
    inLoopB l (normB stop ms bs k).1 = true := by
  match bs with
  | .nil => rw [normB]; rfl
  | .cons c b bs =>
    simp only [onceB, closedB, Bool.and_eq_true] at ho h
    rw [normB]
    simp only
    rw [inLoopB, inLoop_normS stop l ms b k ho.1 (h.imp id And.left),
      inLoop_normB stop l ms bs _ ho.2 (h.imp id And.right)]
    rfl
theorem inLoop_normH (stop : E → Bool) (l : Bool) (ms : List Mark) (x : Nat) (hs : Handlers S E V I)
    (k : Nat) (ho : onceH hs = true) (h : MayLeave E I S V l ms ∨ closedH hs = true) :
    inLoopB l (normH stop ms x hs k).1 = true := by
  match hs with
  | .nil => rw [normH]; rfl
  | .cons hd b hs =>
    simp only [onceH, closedH, Bool.and_eq_true] at ho h
    rw [normH]
    simp only
    have h1 := inLoop_normS stop l ms b k ho.1 (h.imp id And.left)
    have hbind : inLoopS l (handleBind x hd (normS stop ms b k).1) = true := by
      cases hd with
      | all => exact h1
      | exc c => exact h1
      | excAs c bd => rw [handleBind, inLoopS, h1]; rfl
    rw [inLoopB, hbind, inLoop_normH stop l ms x hs _ ho.2 (h.imp id And.right)]
    rfl
end

/-! ## Generated names -/

/-- Different names, with numbers from `lo` up to `hi`. -/
def Fresh (lo hi : Nat) (l : List Nm) : Prop := l.Nodup ∧ ∀ x ∈ l, lo ≤ x.id ∧ x.id < hi

theorem Fresh.nil (lo hi : Nat) : Fresh lo hi [] := ⟨List.nodup_nil, nofun⟩

theorem Fresh.widen {a b a' b' : Nat} {l : List Nm} (h : Fresh a b l) (ha : a' ≤ a) (hb : b ≤ b') :
    Fresh a' b' l := ⟨h.1, fun x hx => by have := h.2 x hx; omega⟩

theorem Fresh.app {a b c : Nat} {l m : List Nm} (h : Fresh a b l) (h' : Fresh b c m) (hab : a ≤ b)
    (hbc : b ≤ c) : Fresh a c (l ++ m) := by
  refine ⟨List.nodup_append.2 ⟨h.1, h'.1, ?_⟩, ?_⟩
  · intro x hx y hy e
    subst e
    have h1 := h.2 x hx
    have h2 := h'.2 x hy
    omega
  · intro x hx
    rcases List.mem_append.1 hx with hx | hx
    · have := h.2 x hx; omega
    · have := h'.2 x hx; omega

theorem Fresh.one (k : Nat) : Fresh k (k + 1) [.int k] := by
  refine ⟨by simp, ?_⟩
  intro x hx
  rw [List.mem_singleton] at hx
  subst hx
  exact ⟨Nat.le_refl _, Nat.lt_succ_self _⟩

theorem assignedS_app : ∀ a b : TSuite S E V I, assignedS (a.app b) = assignedS a ++ assignedS b
  | .nil, b => by rw [TSuite.app, assignedS]; rfl
  | .cons s a, b => by rw [TSuite.app, assignedS, assignedS, assignedS_app a b, List.append_assoc]

theorem assignedS_one (s : TStmt S E V I) : assignedS (.cons s .nil) = assigned s := by
  rw [assignedS, assignedS, List.append_nil]

theorem assigned_exit : ∀ (ms : List Mark) (l : Leave S V),
    assignedS (exitContext (E := E) (I := I) ms l) = []
  | [], l => by cases l <;> rfl
  | .DROP :: c, l => by rw [exitContext, assignedS, assigned_exit c l]; rfl
  | .FINAL :: c, l => rfl
  | .LOOP :: c, .brk => rfl
  | .LOOP :: c, .cnt => rfl
  | .LOOP :: c, .ret r => assigned_exit c (.ret r)

theorem nub_nodup : ∀ l : List Flow, (nub l).Nodup
  | [] => List.nodup_nil
  | f :: l => by
    rw [nub, List.nodup_cons]
    exact ⟨by simp, (nub_nodup l).filter _⟩

theorem assigned_relays (ms : List Mark) (x : Nat) (l : List Flow) (hl : l.Nodup) :
    assignedS (relays (E := E) (I := I) (S := S) (V := V) ms x l) = [] ∨
    assignedS (relays (E := E) (I := I) (S := S) (V := V) ms x l) = [.der x] := by
  have hb : ∀ l : List Flow, l.Nodup →
      (assignedB (relayBranches (E := E) (I := I) (S := S) (V := V) ms x l) = [] ∨
        (.RET ∈ l ∧ assignedB (relayBranches (E := E) (I := I) (S := S) (V := V) ms x l) = [.der x])) := by
    intro l
    induction l with
    | nil => intro _; exact .inl rfl
    | cons f l ih =>
      intro hn
      rw [List.nodup_cons] at hn
      rw [relayBranches]
      by_cases hv : valid (relay (E := E) (I := I) (S := S) (V := V) ms x f).2 = true
      · rw [if_pos hv, assignedB]
        by_cases hf : f = .RET
        · subst hf
          have h0 : assignedB (relayBranches (E := E) (I := I) (S := S) (V := V) ms x l) = [] := by
            rcases ih hn.2 with h | h
            · exact h
            · exact absurd h.1 hn.1
          refine .inr ⟨by simp, ?_⟩
          rw [h0, relay]
          simp only
          rw [assignedS, assigned_exit]
          rfl
        · have h1 : assignedS (relay (E := E) (I := I) (S := S) (V := V) ms x f).2 = [] := by
            cases f with
            | SEQ => rfl
            | BRK => exact assigned_exit ms .brk
            | CNT => exact assigned_exit ms .cnt
            | RET => exact absurd rfl hf
          rw [h1, List.nil_append]
          exact (ih hn.2).imp id fun h => ⟨List.mem_cons_of_mem _ h.1, h.2⟩
      · rw [if_neg hv]
        exact (ih hn.2).imp id fun h => ⟨List.mem_cons_of_mem _ h.1, h.2⟩
  have hbb := hb l hl
  unfold relays
  cases hr : relayBranches (E := E) (I := I) (S := S) (V := V) ms x l with
  | nil => exact .inl rfl
  | cons c b bs =>
    rw [hr] at hbb
    rw [iff, assignedS_one, assigned]
    · have : assignedS (.cons (.raise (.nm (.int x))) .nil : TSuite S E V I) = [] := rfl
      rw [this, List.append_nil]
      exact hbb.imp id And.right
    · intro h; cases h

theorem assigned_mbseq (l : List Flow) : assignedS (mbseq (E := E) (I := I) (S := S) (V := V) l) = [] := by
  unfold mbseq
  split <;> rfl

mutual
theorem fresh_norm (stop : E → Bool) (ms : List Mark) (s : Stmt S E V I) (k : Nat) :
    Fresh k (norm stop ms s k).2 (assignedS (norm stop ms s k).1) := by
  match s with
  | .act f => rw [norm]; exact Fresh.nil _ _
  | .raise f => rw [norm]; exact Fresh.nil _ _
  | .retv f => rw [norm]; simp only; rw [assigned_exit]; exact Fresh.nil _ _
  | .rete f => rw [norm]; simp only; rw [assignedS, assigned_exit, assigned]; exact Fresh.one k
  | .brk => rw [norm]; simp only; rw [assigned_exit]; exact Fresh.nil _ _
  | .cnt => rw [norm]; simp only; rw [assigned_exit]; exact Fresh.nil _ _
  | .ifs bs els =>
    rw [norm]
    simp only
    rw [assignedS_one, assigned]
    exact Fresh.app (fresh_normB stop ms bs k) (fresh_normS stop ms els _) (normB_le stop ms bs k)
      (normS_le stop ms els _)
  | .whl c b els =>
    rw [norm]
    simp only
    have : assignedB (.cons (.user c) (.cons (.act fun s => .ok () s) .nil) .nil : TBranches S E V I) = [] := rfl
    rw [assignedS_one, assigned, assignedS_app, whileTest, assignedS_one, assigned, assignedS_app,
      assigned_exit, List.append_nil, this, List.nil_append]
    exact Fresh.app (fresh_normS stop _ els k) (fresh_normS stop _ b _) (normS_le stop _ els k)
      (normS_le stop _ b _)
  | .for_ p it nx b els =>
    have h1 := normS_le stop (.LOOP :: .DROP :: ms) b (k + 2)
    have h2 := normS_le stop ms els ((normS stop (.LOOP :: .DROP :: ms) b (k + 2)).2 + 1)
    have f1 := fresh_normS stop (.LOOP :: .DROP :: ms) b (k + 2)
    have f2 := fresh_normS stop ms els ((normS stop (.LOOP :: .DROP :: ms) b (k + 2)).2 + 1)
    rw [norm]
    simp only
    generalize normS stop ms els ((normS stop (.LOOP :: .DROP :: ms) b (k + 2)).2 + 1) = q at *
    generalize normS stop (.LOOP :: .DROP :: ms) b (k + 2) = r at *
    have hn : Fresh (k + 1) (k + 2) (assignedS (forNext (E := E) (I := I) p k (k + 1) nx)) := by
      cases p with
      | var s => exact Fresh.nil _ _
      | pat s => exact Fresh.one (k + 1)
    have hmk : ∀ te : TSuite S E V I, assignedS (mkBody te) = assignedS te := by
      intro te
      cases te with
      | nil => rfl
      | cons a b => rfl
    have hw : assignedS (whileTest (.tt : TCond S E V) (exitContext (.LOOP :: .DROP :: ms) .brk) :
      TSuite S E V I) = [] := rfl
    have hr : assignedS (reraise r.2 : TSuite S E V I) = [] := rfl
    have hd : assigned (.drop : TStmt S E V I) = [] := rfl
    rw [assignedS, assignedS_one, assigned, assigned, assignedS, assignedS_one, assigned, assignedS_app,
      assignedS_app, hw, hd, List.append_nil, List.nil_append, assignedS, assigned, assignedS_one, assigned,
      assignedB, assignedB, hr, hmk, List.append_nil, List.append_nil]
    refine Fresh.app (Fresh.one k) (b := k + 1) ?_ (by omega) (by omega)
    refine Fresh.app (b := r.2) (Fresh.app hn f1 (by omega) h1) ?_ (by omega) (by omega)
    exact Fresh.app (Fresh.one r.2) f2 (by omega) (by omega)
  | .try_ b hs els fin =>
    have h1 := normS_le stop (tryMarks hs (finMarks fin ms)) b k
    have h2 := normS_le stop (finMarks fin ms) els (normS stop (tryMarks hs (finMarks fin ms)) b k).2
    have f1 := fresh_normS stop (tryMarks hs (finMarks fin ms)) b k
    have f2 := fresh_normS stop (finMarks fin ms) els (normS stop (tryMarks hs (finMarks fin ms)) b k).2
    have h3 := normH_le stop (finMarks fin ms)
      (normS stop (finMarks fin ms) els (normS stop (tryMarks hs (finMarks fin ms)) b k).2).2 hs
      ((normS stop (finMarks fin ms) els (normS stop (tryMarks hs (finMarks fin ms)) b k).2).2 + 1)
    have f3 := fresh_normH stop (finMarks fin ms)
      (normS stop (finMarks fin ms) els (normS stop (tryMarks hs (finMarks fin ms)) b k).2).2 hs
      ((normS stop (finMarks fin ms) els (normS stop (tryMarks hs (finMarks fin ms)) b k).2).2 + 1)
    rw [norm]
    generalize hp : normH stop (finMarks fin ms)
      (normS stop (finMarks fin ms) els (normS stop (tryMarks hs (finMarks fin ms)) b k).2).2 hs
      ((normS stop (finMarks fin ms) els (normS stop (tryMarks hs (finMarks fin ms)) b k).2).2 + 1) = p at *
    generalize normS stop (finMarks fin ms) els (normS stop (tryMarks hs (finMarks fin ms)) b k).2 = q at *
    generalize normS stop (tryMarks hs (finMarks fin ms)) b k = r at *
    have htry : Fresh k (if hs.isNil = true then q.2 else p.2)
        (assignedS (tryCode hs q.2 r.1 q.1 p.1)) := by
      unfold tryCode
      split
      · rw [assignedS_app]
        exact Fresh.app f1 f2 h1 h2
      · have hd : assigned (.drop : TStmt S E V I) = [] := rfl
        have hr : assignedS (reraise q.2 : TSuite S E V I) = [] := rfl
        rw [assignedS_one, assigned, assignedS_app, assignedS, hd, List.nil_append, assignedS, assigned,
          assignedS_one, assigned, hr, List.append_nil]
        refine Fresh.app (b := q.2) (Fresh.app f1 f2 h1 h2) ?_ (by omega) (by omega)
        exact Fresh.app (Fresh.one q.2) f3 (by omega) (by omega)
    have hk : k ≤ (if hs.isNil = true then q.2 else p.2) := by split <;> omega
    generalize (if hs.isNil = true then q.2 else p.2) = k1 at *
    split
    · exact htry
    · have f4 := fresh_normS stop ms fin (k1 + 1)
      have h4 := normS_le stop ms fin (k1 + 1)
      simp only
      generalize normS stop ms fin (k1 + 1) = f at *
      rw [assignedS_one, assigned, assignedS_app, assigned_mbseq, List.append_nil, assignedS, assigned,
        assignedS_app]
      refine Fresh.app htry ?_ hk (by omega)
      rcases assigned_relays (E := E) (I := I) (S := S) (V := V) ms k1
        (nub (flowsK b (flowsK els [.SEQ]) ++ flowsH hs)) (nub_nodup _) with hr | hr
      · rw [hr, List.append_nil]
        exact Fresh.app (Fresh.one k1) f4 (by omega) (by omega)
      · rw [hr]
        refine ⟨?_, ?_⟩
        · have hf := (Fresh.app (Fresh.one k1) f4 (by omega) (by omega)).1
          rw [← List.append_assoc, List.nodup_append]
          refine ⟨hf, by simp, ?_⟩
          intro a ha b hb e
          rw [List.mem_singleton] at hb
          subst hb
          subst e
          rcases List.mem_append.1 ha with ha | ha
          · rw [List.mem_singleton] at ha
            cases ha
          · have := f4.2 _ ha
            simp only [Nm.id] at this
            omega
        · intro x hx
          rw [← List.append_assoc] at hx
          rcases List.mem_append.1 hx with hx | hx
          · have := (Fresh.app (Fresh.one k1) f4 (by omega) (by omega)).2 x hx
            omega
          · rw [List.mem_singleton] at hx
            subst hx
            simp only [Nm.id]
            omega
theorem fresh_normS (stop : E → Bool) (ms : List Mark) (ss : Suite S E V I) (k : Nat) :
    Fresh k (normS stop ms ss k).2 (assignedS (normS stop ms ss k).1) := by
  match ss with
  | .nil => rw [normS]; exact Fresh.nil _ _
  | .cons s ss =>
    rw [normS]
    simp only
    rw [assignedS_app]
    exact Fresh.app (fresh_norm stop ms s k) (fresh_normS stop ms ss _) (norm_le stop ms s k)
      (normS_le stop ms ss _)
theorem fresh_normB (stop : E → Bool) (ms : List Mark) (bs : Branches S E V I) (k : Nat) :
    Fresh k (normB stop ms bs k).2 (assignedB (normB stop ms bs k).1) := by
  match bs with
  | .nil => rw [normB]; exact Fresh.nil _ _
  | .cons c b bs =>
    rw [normB]
    simp only
    rw [assignedB]
    exact Fresh.app (fresh_normS stop ms b k) (fresh_normB stop ms bs _) (normS_le stop ms b k)
      (normB_le stop ms bs _)
theorem fresh_normH (stop : E → Bool) (ms : List Mark) (x : Nat) (hs : Handlers S E V I) (k : Nat) :
    Fresh k (normH stop ms x hs k).2 (assignedB (normH stop ms x hs k).1) := by
  match hs with
  | .nil => rw [normH]; exact Fresh.nil _ _
  | .cons hd b hs =>
    rw [normH]
    simp only
    have hbind : assignedS (handleBind x hd (normS stop ms b k).1) = assignedS (normS stop ms b k).1 := by
      cases hd with
      | all => rfl
      | exc c => rfl
      | excAs c bd => rfl
    rw [assignedB, hbind]
    exact Fresh.app (fresh_normS stop ms b k) (fresh_normH stop ms x hs _) (normS_le stop ms b k)
      (normH_le stop ms x hs _)
end

end Verif.Norm
