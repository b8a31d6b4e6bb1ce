import Verif.Norm.Spec

/-! The control flow analysis covers the ways out of every statement. -/
namespace Verif.Norm
variable {S E V I : Type}

theorem mem_diff {f : Flow} {l m : List Flow} (h : f ∈ l) (h' : f ∉ m) : f ∈ l.diff m :=
  List.mem_diff_of_mem h h'

theorem mem_brkseq {f : Flow} {l : List Flow} (h : f ∈ l) (h1 : f ≠ .BRK) (h2 : f ≠ .CNT) :
    f ∈ brkseq l := by
  unfold brkseq
  refine mem_diff ?_ (by simp [h1, h2])
  split
  · exact List.mem_cons_of_mem _ h
  · exact h

theorem seq_mem_brkseq {l : List Flow} (h : .BRK ∈ l) : .SEQ ∈ brkseq l := by
  unfold brkseq
  rw [if_pos (by simpa using h)]
  exact mem_diff (by simp) (by decide)

theorem mem_flowSeq_left {f : Flow} {a b : List Flow} (h : f ∈ a) (hf : f ≠ .SEQ) :
    f ∈ flowSeq a b := by
  unfold flowSeq
  split
  · exact List.mem_append.2 (.inl (mem_diff h (by simp [hf])))
  · exact h

theorem mem_flowSeq_right {f : Flow} {a b : List Flow} (h : .SEQ ∈ a) (hf : f ∈ b) :
    f ∈ flowSeq a b := by
  unfold flowSeq
  rw [if_pos (by simpa using h)]
  exact List.mem_append.2 (.inr hf)

/-- The statement `o.flow ∈ fs`, if there is a flow. -/
def In (o : Out S E V) (fs : List Flow) : Prop := ∀ f, o.flow = some f → f ∈ fs

theorem In.mono {o : Out S E V} {a b : List Flow} (h : In o a) (hab : ∀ f ∈ a, f ∈ b) : In o b :=
  fun f hf => hab f (h f hf)

theorem In.exc {e : E} {s : S} {fs : List Flow} : In (.exc e s : Out S E V) fs := by
  intro f hf; cases hf

theorem In.timeout {fs : List Flow} : In (.timeout : Out S E V) fs := by
  intro f hf; cases hf

theorem in_ev {A : Type} {r : Ev S E A} {k : A → S → Out S E V} {fs : List Flow}
    (h : ∀ a s, In (k a s) fs) : In (r.andThen k) fs := by
  cases r with
  | ok a s => exact h a s
  | exc e s => exact In.exc

theorem in_while {c : S → Ev S E Bool} {b els : S → Out S E V} {fb fe : List Flow}
    (hb : ∀ s, In (b s) fb) (he : ∀ s, In (els s) fe) :
    ∀ m s, In (whileLoop c b els m s) (brkseq fb ++ fe)
  | 0, s => In.timeout
  | m + 1, s => by
    simp only [whileLoop]
    refine in_ev fun r s => ?_
    cases r with
    | false => exact (he s).mono fun f hf => List.mem_append.2 (.inr hf)
    | true =>
      have h := hb s
      simp only [if_true]
      cases e : b s with
      | seq s' => exact in_while hb he m s'
      | cnt s' => exact in_while hb he m s'
      | brk s' =>
        rw [e] at h
        intro f hf
        cases hf
        exact List.mem_append.2 (.inl (seq_mem_brkseq (h _ rfl)))
      | ret v s' =>
        rw [e] at h
        intro f hf
        cases hf
        exact List.mem_append.2 (.inl (mem_brkseq (h _ rfl) (by decide) (by decide)))
      | exc e s' => exact In.exc
      | timeout => exact In.timeout

theorem in_for {py : Bool} {stop : E → Bool} {p : Pat S E V} {nx : S → Ev S E V} {b els : S → Out S E V}
    {fb fe : List Flow} (hb : ∀ s, In (b s) fb) (he : ∀ s, In (els s) fe) :
    ∀ m s, In (forLoop py stop p nx b els m s) (brkseq fb ++ fe)
  | 0, s => In.timeout
  | m + 1, s => by
    have hels : ∀ s, In (els s) (brkseq fb ++ fe) :=
      fun s => (he s).mono fun f hf => List.mem_append.2 (.inr hf)
    simp only [forLoop]
    cases nx s with
    | exc e s =>
      simp only
      split
      · exact hels s
      · exact In.exc
    | ok v s =>
      have h : In ((p.bind v s).andThen fun _ s => b s) fb := in_ev fun _ s => hb s
      simp only
      cases e : (p.bind v s).andThen fun _ s => b s with
      | seq s' => exact in_for hb he m s'
      | cnt s' => exact in_for hb he m s'
      | brk s' =>
        rw [e] at h
        intro f hf
        cases hf
        exact List.mem_append.2 (.inl (seq_mem_brkseq (h _ rfl)))
      | ret v s' =>
        rw [e] at h
        intro f hf
        cases hf
        exact List.mem_append.2 (.inl (mem_brkseq (h _ rfl) (by decide) (by decide)))
      | exc e s' =>
        simp only
        split
        · exact hels s'
        · exact In.exc
      | timeout => exact In.timeout

theorem in_finish {o : Out S E V} {fin : S → Out S E V} {a b : List Flow} (ho : In o a)
    (hf : ∀ s, In (fin s) b) : In (finish o fin) (a ++ b.diff [.SEQ]) := by
  have key : ∀ (s : S) (k : S → Out S E V), (∀ s', In (k s') a) →
      In ((fin s).andThen k) (a ++ b.diff [.SEQ]) := by
    intro s k hk
    have h := hf s
    cases e : fin s with
    | seq s' => exact (hk s').mono fun f hf => List.mem_append.2 (.inl hf)
    | exc e s' => exact In.exc
    | timeout => exact In.timeout
    | brk s' =>
      rw [e] at h
      intro f hf; cases hf
      exact List.mem_append.2 (.inr (mem_diff (h _ rfl) (by decide)))
    | cnt s' =>
      rw [e] at h
      intro f hf; cases hf
      exact List.mem_append.2 (.inr (mem_diff (h _ rfl) (by decide)))
    | ret v s' =>
      rw [e] at h
      intro f hf; cases hf
      exact List.mem_append.2 (.inr (mem_diff (h _ rfl) (by decide)))
  cases o with
  | seq s =>
    have h := key s .seq (fun s' f hf => by cases hf; exact ho _ rfl)
    have : (fin s).andThen .seq = fin s := by cases fin s <;> rfl
    rw [this] at h
    exact h
  | brk s => exact key s .brk fun s' f hf => by cases hf; exact ho _ rfl
  | cnt s => exact key s .cnt fun s' f hf => by cases hf; exact ho _ rfl
  | ret v s => exact key s (.ret v) fun s' f hf => by cases hf; exact ho _ rfl
  | exc e s => exact key s (.exc e) fun s' => In.exc
  | timeout => exact In.timeout

/-- A suite followed by more. -/
def InK (o : Out S E V) (ss : Suite S E V I) : Prop :=
  ∀ g : List Flow, (∀ f, o.flow = some f → f ≠ .SEQ → f ∈ flowsK ss g) ∧
    (o.flow = some .SEQ → ∀ f ∈ g, f ∈ flowsK ss g)

theorem InK.toIn {o : Out S E V} {ss : Suite S E V I} (h : InK o ss) : In o (flowsK ss [.SEQ]) := by
  intro f hf
  by_cases e : f = .SEQ
  · subst e
    exact (h [.SEQ]).2 hf _ (by simp)
  · exact (h [.SEQ]).1 f hf e

theorem in_guarded {o : Out S E V} {b els : Suite S E V I} {hdl : E → S → Out S E V}
    {el : S → Out S E V} {fh : List Flow} (ho : InK o b) (hh : ∀ e s, In (hdl e s) fh)
    (he : ∀ s, In (el s) (flowsK els [.SEQ])) :
    In (guarded o hdl el) (flowsK b (flowsK els [.SEQ]) ++ fh) := by
  cases o with
  | seq s =>
    exact (he s).mono fun f hf => List.mem_append.2 (.inl ((ho _).2 rfl f hf))
  | exc e s => exact (hh e s).mono fun f hf => List.mem_append.2 (.inr hf)
  | timeout => exact In.timeout
  | brk s => intro f hf; cases hf; exact List.mem_append.2 (.inl ((ho _).1 _ rfl (by decide)))
  | cnt s => intro f hf; cases hf; exact List.mem_append.2 (.inl ((ho _).1 _ rfl (by decide)))
  | ret v s => intro f hf; cases hf; exact List.mem_append.2 (.inl ((ho _).1 _ rfl (by decide)))

mutual
theorem flows_sound (py : Bool) (stop : E → Bool) (n : Nat) :
    ∀ (st : Stmt S E V I) (s : S), In (eval py stop n st s) (flows st)
  | .act f, s => by
    rw [eval, flows]
    exact in_ev fun a s f hf => by cases hf; simp
  | .raise f, s => by rw [eval]; exact In.exc
  | .retv f, s => by rw [eval, flows]; intro f hf; cases hf; simp
  | .rete f, s => by
    rw [eval, flows]
    exact in_ev fun a s f hf => by cases hf; simp
  | .brk, s => by rw [eval, flows]; intro f hf; cases hf; simp
  | .cnt, s => by rw [eval, flows]; intro f hf; cases hf; simp
  | .ifs bs els, s => by
    rw [eval, flows]
    exact flowsB_sound py stop n bs (fun s => (flowsK_sound py stop n els s).toIn) s
  | .whl c b els, s => by
    rw [eval, flows]
    exact in_while (fun s => (flowsK_sound py stop n b s).toIn)
      (fun s => (flowsK_sound py stop n els s).toIn) n s
  | .for_ p it nx b els, s => by
    rw [eval, flows]
    exact in_ev fun i s => in_for (fun s => (flowsK_sound py stop n b s).toIn)
      (fun s => (flowsK_sound py stop n els s).toIn) n s
  | .try_ b hs els fin, s => by
    rw [eval, flows]
    exact in_finish (in_guarded (flowsK_sound py stop n b s) (fun e s => flowsH_sound py stop n hs e s)
      (fun s => (flowsK_sound py stop n els s).toIn))
      (fun s => (flowsK_sound py stop n fin s).toIn)
theorem flowsK_sound (py : Bool) (stop : E → Bool) (n : Nat) :
    ∀ (ss : Suite S E V I) (s : S), InK (evalS py stop n ss s) ss
  | .nil, s => by
    intro g
    rw [evalS, flowsK]
    exact ⟨fun f hf hs => by cases hf; exact absurd rfl hs, fun _ f hf => hf⟩
  | .cons st ss, s => by
    intro g
    have h := flows_sound py stop n st s
    rw [evalS, flowsK]
    cases e : eval py stop n st s with
    | seq s' =>
      rw [e] at h
      have h2 := flowsK_sound py stop n ss s' g
      have hq : .SEQ ∈ flows st := h _ rfl
      exact ⟨fun f hf hne => mem_flowSeq_right hq (h2.1 f hf hne),
        fun hs f hf => mem_flowSeq_right hq (h2.2 hs f hf)⟩
    | exc e s' => exact ⟨(fun f hf => by cases hf), (fun hf => by cases hf)⟩
    | timeout => exact ⟨(fun f hf => by cases hf), (fun hf => by cases hf)⟩
    | brk s' =>
      rw [e] at h
      exact ⟨fun f hf hne => mem_flowSeq_left (h f hf) hne, fun hf => by cases hf⟩
    | cnt s' =>
      rw [e] at h
      exact ⟨fun f hf hne => mem_flowSeq_left (h f hf) hne, fun hf => by cases hf⟩
    | ret v s' =>
      rw [e] at h
      exact ⟨fun f hf hne => mem_flowSeq_left (h f hf) hne, fun hf => by cases hf⟩
theorem flowsB_sound (py : Bool) (stop : E → Bool) (n : Nat) :
    ∀ (bs : Branches S E V I) {els : S → Out S E V} {fe : List Flow}, (∀ s, In (els s) fe) →
      ∀ s, In (evalB py stop n bs els s) (flowsB bs ++ fe)
  | .nil, els, fe, he, s => by rw [evalB, flowsB]; exact he s
  | .cons c b bs, els, fe, he, s => by
    rw [evalB, flowsB]
    refine in_ev fun r s => ?_
    cases r with
    | true =>
      refine (flowsK_sound py stop n b s).toIn.mono fun f hf => ?_
      exact List.mem_append.2 (.inl (List.mem_append.2 (.inl hf)))
    | false =>
      refine (flowsB_sound py stop n bs he s).mono fun f hf => ?_
      rw [List.append_assoc]
      exact List.mem_append.2 (.inr hf)
theorem flowsH_sound (py : Bool) (stop : E → Bool) (n : Nat) :
    ∀ (hs : Handlers S E V I) (e : E) (s : S), In (evalH py stop n hs e s) (flowsH hs)
  | .nil, e, s => by rw [evalH]; exact In.exc
  | .cons h b hs, e, s => by
    rw [evalH, flowsH]
    by_cases hc : h.takes e = true
    · rw [if_pos hc]
      exact (flowsK_sound py stop n b _).toIn.mono fun f hf => List.mem_append.2 (.inl hf)
    · rw [if_neg hc]
      exact (flowsH_sound py stop n hs e s).mono fun f hf => List.mem_append.2 (.inr hf)
end

end Verif.Norm
