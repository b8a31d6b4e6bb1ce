import Verif.Norm.Py

/-! C96 to C100. -/
namespace Verif.Norm
variable {S E V I : Type}

/-! ## Samples

The state is a number, exceptions and values are numbers, and 0 is StopIteration. -/

abbrev SStmt := Stmt Nat Nat Nat Nat
abbrev SSuite := Suite Nat Nat Nat Nat

def sstop (e : Nat) : Bool := e == 0
def sadd (k : Nat) : SStmt := .act fun s => .ok () (s + k)
def one (s : SStmt) : SSuite := .cons s .nil
def two (s s' : SStmt) : SSuite := .cons s (one s')
def slt (k : Nat) (s : Nat) : Ev Nat Nat Bool := .ok (decide (s < k)) s
def st0 : T Nat Nat Nat Nat := ⟨0, fun _ => .undef, [none]⟩

/-- The state in which a run of normalized code has ended normally, and the depth of the stack. -/
def TOut.done : TOut S E V I → Option (S × Nat)
  | .seq t => some (t.s, t.stack.length)
  | _ => none

/-! ## C96: normalized code does what the statements mean -/

/-- The end of the run, from the simulation. -/
theorem same_of_sim {ms : List Mark} {lo hi : Nat} {σ : Nm → Cell E V I} {st : List (Option (X E V))}
    {o : Out S E V} {q : TOut S E V I} (hms : ms = []) (hst : st ≠ []) (h : Sim ms lo hi σ st o q) :
    Same st o q := by
  subst hms
  obtain ⟨σ', _, rfl⟩ := h
  cases o with
  | seq s => exact ⟨rfl, rfl⟩
  | brk s => exact ⟨rfl, rfl⟩
  | cnt s => exact ⟨rfl, rfl⟩
  | ret v s => exact ⟨rfl, rfl, rfl⟩
  | exc e s =>
    cases st with
    | nil => exact absurd rfl hst
    | cons y st => exact ⟨rfl, rfl⟩
  | timeout => trivial

/-- The body of a function with `if`, `while`, `for`, `try`, `except`, `else`, `finally`, `break`,
`continue`, `return` and `raise`, nested in any way, ends after normalization as it must: the same
way, with the same state and value, and with the stack of jump buffers it began with; and it does so
after the same number of rounds of each loop. Missing: `break` and `continue` that stand in the `else`
suite of a `while` (`elseOkS`), and bodies of `for` that raise StopIteration (`NoStopS`): both refuted
below. -/
theorem C96_normalized_partial (stop : E → Bool) (ss : Suite S E V I) (he : elseOkS ss = true)
    (hs : NoStopS stop ss) (n : Nat) (t : T S E V I) (ht : t.stack ≠ []) :
    Same t.stack (evalS true stop n ss t.s) (runBody stop n ss t) := by
  rw [evalS_py stop n ss hs]
  exact same_of_sim rfl ht (simS stop n ss he [] 0 t.cells t.stack t.s)

/-- The same without a condition on `for`, if a StopIteration raised by the body of a `for` is meant to
end the loop. -/
theorem C96_acton_for_partial (stop : E → Bool) (ss : Suite S E V I) (he : elseOkS ss = true)
    (n : Nat) (t : T S E V I) (ht : t.stack ≠ []) :
    Same t.stack (evalS false stop n ss t.s) (runBody stop n ss t) :=
  same_of_sim rfl ht (simS stop n ss he [] 0 t.cells t.stack t.s)

/-- `while s < 5: try: s += 1; if s < 3: continue; return s; except …: pass; finally: s += 10`, then a
`for` with a body that adds. -/
def sampleBody : SSuite :=
  two (.whl (slt 5) (one (.try_ (.cons (sadd 1) (two (.ifs (.cons (slt 3) (one .cnt) .nil) .nil)
      (.rete fun s => .ok s s)))
      (.cons .all (one (sadd 0)) .nil) .nil (one (sadd 10)))) .nil)
    (.for_ (.var fun v s => s + v) (fun s => .ok s s) (fun _ s => if s < 40 then .ok 3 s else .exc 0 s)
      (one (sadd 7)) (one (sadd 100)))

theorem sample_NoStop : NoStopS sstop sampleBody := by
  simp only [sampleBody, two, one, NoStopS, NoStop, NoStopB, NoStopH, sadd, Pat.bind, and_true,
    true_and]
  refine ⟨fun v s e s' h => ?_, fun n s e s' h => ?_⟩
  · cases h
  · simp only [evalS, eval, Ev.andThen, Out.andThen] at h
    cases h

example : elseOkS sampleBody = true ∧ NoStopS sstop sampleBody ∧ st0.stack ≠ [] ∧
    evalS true sstop 9 sampleBody 0 = .seq 141 ∧ (runBody sstop 9 sampleBody st0).done = some (141, 1) :=
  ⟨rfl, sample_NoStop, List.cons_ne_nil _ _, by decide +kernel, by decide +kernel⟩

/-- `while s < 2: { while False: pass else: break }; s += 1`: the `break` belongs to the outer loop, and
ends the inner one. -/
def elseBreak : SSuite :=
  one (.whl (slt 2) (two (.whl (slt 0) .nil (one .brk)) (sadd 1)) .nil)

theorem C96_refuted_while_else :
    evalS true sstop 5 elseBreak 0 = .seq 0 ∧ (runBody sstop 5 elseBreak st0).done = some (2, 1) :=
  ⟨rfl, rfl⟩

/-- `for x in …: raise StopIteration else: s += 100`: the exception of the body is lost, and the `else`
suite runs. -/
def bodyStop : SSuite :=
  one (.for_ (.var fun v s => s + v) (fun s => .ok s s) (fun _ s => .ok 1 s)
    (one (.raise fun s => (0, s))) (one (sadd 100)))

theorem C96_refuted_for_stop :
    evalS true sstop 5 bodyStop 0 = .exc 0 1 ∧ (runBody sstop 5 bodyStop st0).done = some (101, 1) :=
  ⟨rfl, rfl⟩

/-! ## C97: the stack of jump buffers -/

/-- Whatever the body does, the stack of jump buffers is afterwards what it was, no assertion of the
run-time system fails, no buffer of a suite that was left is jumped to, and no control exception gets
out. Missing: `break` and `continue` in the `else` suite of a `while` (refuted below). -/
theorem C97_balanced_partial (stop : E → Bool) (ss : Suite S E V I) (he : elseOkS ss = true) (n : Nat)
    (t : T S E V I) (ht : t.stack ≠ []) : Balanced t.stack (runBody stop n ss t) := by
  have h := C96_acton_for_partial stop ss he n t ht
  revert h
  cases evalS false stop n ss t.s <;> cases runBody stop n ss t <;> intro h <;>
    first
      | exact False.elim h
      | exact h.2
      | exact h.2.2
      | exact ⟨_, h.2⟩
      | trivial

example : elseOkS sampleBody = true ∧ elseOkS bodyStop = true := ⟨rfl, rfl⟩

/-- `while s < 1: s += 1; try: { while False: return 0 else: break } finally: s += 10`: the `finally`
suite does not run, and a jump buffer is left behind. -/
def elseStale : SSuite :=
  one (.whl (slt 1) (two (sadd 1) (.try_ (one (.whl (slt 0) (one (.retv fun _ => 0)) (one .brk)))
    .nil .nil (one (sadd 10)))) .nil)

theorem C97_refuted_while_else :
    evalS true sstop 5 elseStale 0 = .seq 11 ∧ (runBody sstop 5 elseStale st0).done = some (1, 2) ∧
    ¬ Balanced [none] (runBody sstop 5 elseStale st0) := by
  refine ⟨rfl, rfl, ?_⟩
  intro h
  have h1 : (runBody sstop 5 elseStale st0).done = some (1, 2) := rfl
  cases e : runBody sstop 5 elseStale st0 with
  | seq t =>
    rw [e] at h h1
    simp only [TOut.done, Option.some.injEq, Prod.mk.injEq] at h1
    have h' : t.stack = [none] := h
    rw [h'] at h1
    simp at h1
  | _ => rw [e] at h1; cases h1

/-! ## C98: the control flow analysis -/

/-- Every way a suite can end, other than by an exception, is among its `flows`, whatever its
expressions do. -/
theorem C98_flows (py : Bool) (stop : E → Bool) (ss : Suite S E V I) (n : Nat) (s : S) (f : Flow)
    (h : (evalS py stop n ss s).flow = some f) : f ∈ flowsS ss :=
  (flowsK_sound py stop n ss s).toIn f h

example : (evalS true sstop 9 sampleBody 0).flow = some .SEQ ∧ flowsS sampleBody = [.RET, .SEQ, .SEQ, .SEQ] := by
  decide +kernel

/-! ## C99: generated `break` and `continue` -/

/-- If every `break` and `continue` of a function stands in a loop, then so does each of the normalized
function. Missing: loops in which the analysis finds more than one `break` or `continue` (refuted
below). -/
theorem C99_in_loop_partial (stop : E → Bool) (ss : Suite S E V I) (hc : closedS ss = true)
    (ho : onceS ss = true) : inLoopS false (normS stop [] ss 0).1 = true :=
  inLoop_normS stop false [] ss 0 ho (.inr hc)

example : closedS sampleBody = true ∧ onceS sampleBody = true ∧
    inLoopS false (normS sstop [] sampleBody 0).1 = true := ⟨rfl, rfl, rfl⟩

/-- `try: { while s < 9: { if s < 1: break }; { if s < 2: break } } finally: s += 1`: the analysis removes one
`break` of two from the flows of the loop, and the relay of the other is a `break` outside any loop. -/
def twoBreaks : SSuite :=
  one (.try_ (one (.whl (slt 9) (two (.ifs (.cons (slt 1) (one .brk) .nil) .nil)
    (.ifs (.cons (slt 2) (one .brk) .nil) .nil)) .nil)) .nil .nil (one (sadd 1)))

theorem C99_refuted_two_breaks :
    closedS twoBreaks = true ∧ inLoopS false (normS sstop [] twoBreaks 0).1 = false := ⟨rfl, rfl⟩

/-- Two `continue`s do the same. -/
def twoConts : SSuite :=
  one (.try_ (one (.whl (slt 9) (two (.ifs (.cons (slt 1) (one .cnt) .nil) .nil)
    (.ifs (.cons (slt 2) (one .cnt) .nil) .nil)) .nil)) .nil .nil (one (sadd 1)))

theorem C99_refuted_two_continues :
    closedS twoConts = true ∧ inLoopS false (normS sstop [] twoConts 0).1 = false := ⟨rfl, rfl⟩

/-! ## C100: generated names -/

/-- No two statements of a normalized function assign to the same generated variable. -/
theorem C100_names (stop : E → Bool) (ss : Suite S E V I) (k : Nat) :
    (assignedS (normS stop [] ss k).1).Nodup ∧
    ∀ x ∈ assignedS (normS stop [] ss k).1, k ≤ x.id ∧ x.id < (normS stop [] ss k).2 :=
  fresh_normS stop [] ss k

example : (assignedS (normS sstop [] sampleBody 0).1).length = 6 := rfl

end Verif.Norm
