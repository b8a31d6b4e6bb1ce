import Verif.Common
import Mathlib.Tactic.ByContra
/-!
# Model of the pausing of all workers (base/rts/rts.c:250-365) and C55

Workers `0 .. n`. Each section under `sync_pause_lock` — up to its release or to a wait on the condition — is a step;
the steps of the threads interleave freely. Simplifications:

* Everything a worker does outside of `maybe_sync_pause` and `acton_sync_pause_begin` (actors, callbacks, the poll) is the
  position `out`.
* A wait ends at any time: it is bounded to 10 ms (rts.c:270-281), so broadcasts need no model.
* `rts_exit` is set at any time, without the lock, and never reset. It is read once for each test of a loop; a setting
  between the end of the loop, rts.c:305, and the test at 308 is taken to come before the former.
* The number of a worker is at most `num_wthreads`, so the tests of `wctx` succeed.
-/
namespace Verif.Sched.Pause
open Verif

inductive PPc where
  /-- Not in one of the functions. -/
  | out
  /-- In the loop of `acton_sync_pause_begin`, rts.c:305. -/
  | waiting
  /-- `acton_sync_pause_begin` returned 0, and the worker did not call `acton_sync_pause_end` since. -/
  | owns
  /-- In the loop of `maybe_sync_pause`, rts.c:351. -/
  | parked
  deriving DecidableEq

structure PSt where
  /-- `sync_pause_requested`. -/
  req : Bool
  /-- `sync_pause_owner`; `none` is -1. -/
  owner : Option Nat
  /-- `sync_pause_parked_count`. -/
  cnt : Nat
  /-- `sync_pause_parked`. -/
  flag : Nat → Bool
  /-- `sync_pause_workers_are_started`. -/
  started : Bool
  /-- `rts_exit`. -/
  exit : Bool
  pc : Nat → PPc

def pset (f : Nat → PPc) (w : Nat) (p : PPc) : Nat → PPc := fun v => if v = w then p else f v
def fset (f : Nat → Bool) (w : Nat) : Nat → Bool := fun v => if v = w then true else f v

/-- rts.c:252-257. -/
def init : PSt := ⟨false, none, 0, fun _ => false, false, false, fun _ => .out⟩

inductive PAct where
  | start | exit | begin | endp | maybe | wait
  deriving DecidableEq

/-- The end of a request: rts.c:309-311, 334-336. -/
def PSt.clear (s : PSt) : PSt := { s with req := false, owner := none, cnt := 0 }

/-- The loop of `acton_sync_pause_begin` and what follows it, rts.c:305-318. -/
def beginLoop (n w : Nat) (s : PSt) : PSt :=
  if s.cnt < n ∧ s.exit = false then { s with pc := pset s.pc w .waiting }
  else if s.exit then { s.clear with pc := pset s.pc w .out }
  else { s with pc := pset s.pc w .owns }

/-- The loop of `maybe_sync_pause`, rts.c:351-358, up to the wait or the end. -/
def maybeLoop (w : Nat) (s : PSt) : PSt :=
  if s.req = true ∧ some w ≠ s.owner ∧ s.exit = false then
    if s.flag w then { s with pc := pset s.pc w .parked }
    else { s with flag := fset s.flag w, cnt := s.cnt + 1, pc := pset s.pc w .parked }
  else { s with pc := pset s.pc w (if s.pc w = .owns then .owns else .out) }

/-- `acton_sync_pause_begin`, rts.c:282-319: refused, or up to the first wait. `sync_pause_clear_parked`, rts.c:259-263,
clears the flags of the workers `0 .. n`. -/
def beginCall (n w : Nat) (s : PSt) : PSt :=
  if s.started = false ∨ s.req = true then s
  else if s.exit then s
  else beginLoop n w { s with req := true, owner := some w, cnt := 0, flag := fun v => if v ≤ n then false else s.flag v }

/-- What `acton_sync_pause_begin` returns, if it does not wait: -1 (refused) or 0. -/
def beginRefused (s : PSt) : Bool := !s.started || s.req || s.exit

/-- `acton_sync_pause_end`, rts.c:321-339. -/
def endCall (w : Nat) (s : PSt) : PSt :=
  if s.req = false ∨ s.owner ≠ some w then s
  else { s.clear with pc := pset s.pc w .out }

/-- A step of worker `w`. -/
def pstep (n w : Nat) (x : PAct) (s : PSt) : Option PSt :=
  if n < w then none else
  match x, s.pc w with
  | .start, _ => some { s with started := true }
  | .exit, _ => some { s with exit := true }
  | .begin, .out => some (beginCall n w s)
  | .begin, .owns => some (beginCall n w s)
  | .endp, .out => some (endCall w s)
  | .endp, .owns => some (endCall w s)
  | .maybe, .out => some (maybeLoop w s)
  | .maybe, .owns => some (maybeLoop w s)
  | .wait, .waiting => some (beginLoop n w s)
  | .wait, .parked => some (maybeLoop w s)
  | _, _ => none

def prun (n : Nat) : List (Nat × PAct) → PSt → Option PSt
  | [], s => some s
  | x :: xs, s => (pstep n x.1 x.2 s).bind (prun n xs)

def PReach (n : Nat) (s : PSt) : Prop := ∃ xs, prun n xs init = some s

/-- The number of flags set among the first `m` workers. -/
def flags (f : Nat → Bool) : Nat → Nat
  | 0 => 0
  | m + 1 => flags f m + (if f m then 1 else 0)

theorem flags_le (f : Nat → Bool) (m : Nat) : flags f m ≤ m := by
  induction m with
  | zero => exact Nat.le_refl 0
  | succ m ih => simp only [flags]; split <;> omega

theorem flags_zero {f : Nat → Bool} {m : Nat} (h : ∀ i, i < m → f i = false) : flags f m = 0 := by
  induction m with
  | zero => rfl
  | succ m ih => simp [flags, ih (fun i hi => h i (by omega)), h m (by omega)]

theorem flags_fset {f : Nat → Bool} {m w : Nat} (hw : f w = false) :
    flags (fset f w) m = flags f m + (if w < m then 1 else 0) := by
  induction m with
  | zero => rfl
  | succ m ih =>
    simp only [flags, ih]
    by_cases e : m = w
    · subst e; simp [fset, hw]
    · have : fset f w m = f m := by simp [fset, e]
      rw [this]
      by_cases h : w < m
      · rw [if_pos h, if_pos (show w < m + 1 by omega)]; omega
      · rw [if_neg h, if_neg (show ¬ w < m + 1 by omega)]; omega

/-- Enough flags, and one worker without: all others have theirs. -/
theorem flags_full {f : Nat → Bool} {m o : Nat} (ho : o < m) (hf : f o = false) (h : m ≤ flags f m + 1) :
    ∀ v, v < m → v ≠ o → f v = true := by
  induction m with
  | zero => omega
  | succ m ih =>
    intro v hv hne
    simp only [flags] at h
    by_cases e : m = o
    · subst e
      rw [hf] at h
      have all : ∀ k, k ≤ flags f k → ∀ v, v < k → f v = true := by
        intro k
        induction k with
        | zero => intro _ v hv; omega
        | succ k ihk =>
          intro hk v hv
          simp only [flags] at hk
          have := flags_le f k
          by_cases hb : f k = true
          · by_cases ev : v = k
            · rw [ev]; exact hb
            · rw [if_pos hb] at hk; exact ihk (by omega) v (by omega)
          · rw [if_neg hb] at hk; omega
      exact all m (by simpa using h) v (by omega)
    · have := flags_le f m
      by_cases hb : f m = true
      · by_cases ev : v = m
        · rw [ev]; exact hb
        · rw [if_pos hb] at h; exact ih (by omega) (by omega) v (by omega) hne
      · rw [if_neg hb] at h
        -- then all the others would be set, also that of `o`
        exfalso
        have lt : ∀ k, o < k → flags f k + 1 ≤ k := by
          intro k
          induction k with
          | zero => omega
          | succ k ihk =>
            intro hk
            simp only [flags]
            by_cases e : k = o
            · rw [e, hf]; have := flags_le f o; simp; omega
            · have := ihk (by omega); split <;> omega
        have := lt m (by omega)
        omega

structure PInv (n : Nat) (s : PSt) : Prop where
  free : s.req = false → s.owner = none ∧ ∀ w, s.pc w ≠ .waiting ∧ s.pc w ≠ .owns
  held : s.req = true → ∃ o, o ≤ n ∧ s.owner = some o ∧ (s.pc o = .waiting ∨ s.pc o = .owns) ∧ s.flag o = false ∧
    ∀ w, w ≠ o → s.pc w ≠ .waiting ∧ s.pc w ≠ .owns
  count : s.req = true → s.cnt = flags s.flag (n + 1)
  park : s.req = true → ∀ w, w ≤ n → s.flag w = true → s.pc w = .parked ∨ s.exit = true
  full : ∀ w, s.pc w = .owns → n ≤ s.cnt

theorem pset_same (f : Nat → PPc) (w : Nat) (p : PPc) : pset f w p w = p := by simp [pset]
theorem pset_other (f : Nat → PPc) {w v : Nat} (p : PPc) (h : v ≠ w) : pset f w p v = f v := by simp [pset, h]

theorem beginLoop_inv {n w : Nat} {s : PSt} (hw : w ≤ n) (hr : s.req = true) (ho : s.owner = some w) (hf : s.flag w = false)
    (hpw : s.pc w ≠ .parked)
    (hother : ∀ v, v ≠ w → s.pc v ≠ .waiting ∧ s.pc v ≠ .owns) (hc : s.cnt = flags s.flag (n + 1))
    (hp : ∀ v, v ≤ n → s.flag v = true → s.pc v = .parked ∨ s.exit = true) : PInv n (beginLoop n w s) := by
  have keep : ∀ p, (p = PPc.waiting ∨ (p = .owns ∧ n ≤ s.cnt)) → PInv n { s with pc := pset s.pc w p } := by
    intro p hpp
    refine ⟨fun h => ?_, fun _ => ⟨w, hw, ho, ?_, hf, ?_⟩, fun _ => hc, ?_, ?_⟩
    · rw [hr] at h; cases h
    · show pset s.pc w p w = _ ∨ pset s.pc w p w = _
      rw [pset_same]; exact hpp.imp id And.left
    · intro v hv
      show pset s.pc w p v ≠ _ ∧ pset s.pc w p v ≠ _
      rw [pset_other _ _ hv]; exact hother v hv
    · intro _ v hvn hfl
      show pset s.pc w p v = _ ∨ _
      by_cases e : v = w
      · subst e; rw [hf] at hfl; cases hfl
      · rw [pset_other _ _ e]; exact hp v hvn hfl
    · intro v hv
      have hv : pset s.pc w p v = .owns := hv
      by_cases e : v = w
      · subst e
        rw [pset_same] at hv
        rcases hpp with h | h
        · rw [hv] at h; cases h
        · exact h.2
      · rw [pset_other _ _ e] at hv
        exact absurd hv (hother v e).2
  unfold beginLoop
  by_cases h1 : s.cnt < n ∧ s.exit = false
  · rw [if_pos h1]; exact keep .waiting (.inl rfl)
  · rw [if_neg h1]
    by_cases h2 : s.exit = true
    · rw [if_pos h2]
      refine ⟨fun _ => ⟨rfl, ?_⟩, fun h => (by cases h), fun h => (by cases h), fun h => (by cases h), ?_⟩
      · intro v
        show pset s.pc w .out v ≠ _ ∧ pset s.pc w .out v ≠ _
        by_cases e : v = w
        · subst e; rw [pset_same]; simp
        · rw [pset_other _ _ e]; exact hother v e
      · intro v hv
        have hv : pset s.pc w .out v = .owns := hv
        by_cases e : v = w
        · subst e; rw [pset_same] at hv; cases hv
        · rw [pset_other _ _ e] at hv; exact absurd hv (hother v e).2
    · rw [if_neg h2]
      refine keep .owns (.inr ⟨rfl, ?_⟩)
      have h3 : s.exit = false := by simpa using h2
      by_contra h4
      exact h1 ⟨by omega, h3⟩

theorem maybeLoop_inv {n w : Nat} {s : PSt} (hw : w ≤ n) (h : PInv n s) (hp : s.pc w ≠ .waiting) : PInv n (maybeLoop w s) := by
  unfold maybeLoop
  by_cases h1 : s.req = true ∧ some w ≠ s.owner ∧ s.exit = false
  · rw [if_pos h1]
    obtain ⟨o, hon, hoo, hpo, hfo, hoth⟩ := h.held h1.1
    have how : o ≠ w := fun e => h1.2.1 (by rw [hoo, e])
    have pcs : ∀ v, v ≠ o → pset s.pc w .parked v ≠ .waiting ∧ pset s.pc w .parked v ≠ .owns := by
      intro v hv
      by_cases e : v = w
      · subst e; rw [pset_same]; simp
      · rw [pset_other _ _ e]; exact hoth v hv
    have pco : pset s.pc w .parked o = .waiting ∨ pset s.pc w .parked o = .owns := by
      rw [pset_other _ _ how]; exact hpo
    have own : ∀ v, pset s.pc w .parked v = .owns → s.pc v = .owns := by
      intro v hv
      by_cases e : v = w
      · subst e; rw [pset_same] at hv; cases hv
      · rwa [pset_other _ _ e] at hv
    by_cases h2 : s.flag w = true
    · rw [if_pos h2]
      refine ⟨fun hr => ?_, fun _ => ⟨o, hon, hoo, pco, hfo, pcs⟩, fun _ => h.count h1.1, ?_, fun v hv => h.full v (own v hv)⟩
      · rw [h1.1] at hr; cases hr
      · intro _ v hvn hfl
        show pset s.pc w .parked v = _ ∨ _
        by_cases e : v = w
        · subst e; rw [pset_same]; exact .inl rfl
        · rw [pset_other _ _ e]; exact h.park h1.1 v hvn hfl
    · rw [if_neg h2]
      have h2 : s.flag w = false := by simpa using h2
      refine ⟨fun hr => ?_, fun _ => ⟨o, hon, hoo, pco, ?_, pcs⟩, fun _ => ?_, ?_, fun v hv => ?_⟩
      · rw [h1.1] at hr; cases hr
      · simp [fset, how, hfo]
      · show s.cnt + 1 = flags (fset s.flag w) (n + 1)
        rw [flags_fset h2, if_pos (by omega), h.count h1.1]
      · intro _ v hvn hfl
        show pset s.pc w .parked v = _ ∨ _
        by_cases e : v = w
        · subst e; rw [pset_same]; exact .inl rfl
        · rw [pset_other _ _ e]
          exact h.park h1.1 v hvn (by simpa [fset, e] using hfl)
      · have := h.full v (own v hv)
        show n ≤ s.cnt + 1
        omega
  · rw [if_neg h1]
    generalize hq : (if s.pc w = .owns then PPc.owns else .out) = q
    have pcs : ∀ v, (pset s.pc w q v = .owns ↔ s.pc v = .owns) ∧ (pset s.pc w q v = .waiting ↔ s.pc v = .waiting) := by
      intro v
      by_cases e : v = w
      · subst e; rw [pset_same, ← hq]
        by_cases e2 : s.pc v = .owns
        · simp [e2]
        · simp [e2, hp]
      · rw [pset_other _ _ e]; exact ⟨Iff.rfl, Iff.rfl⟩
    refine ⟨fun hr => ⟨(h.free hr).1, fun v => ?_⟩, fun hr => ?_, h.count, fun hr v hvn hfl => ?_, fun v hv => h.full v ((pcs v).1.1 hv)⟩
    · exact ⟨fun e => ((h.free hr).2 v).1 ((pcs v).2.1 e), fun e => ((h.free hr).2 v).2 ((pcs v).1.1 e)⟩
    · obtain ⟨o, hon, hoo, hpo, hfo, hoth⟩ := h.held hr
      exact ⟨o, hon, hoo, hpo.imp (pcs o).2.2 (pcs o).1.2, hfo, fun v hv =>
        ⟨fun e => (hoth v hv).1 ((pcs v).2.1 e), fun e => (hoth v hv).2 ((pcs v).1.1 e)⟩⟩
    · have hex : s.exit = true ∨ some w = s.owner := by
        by_contra hc
        rw [not_or] at hc
        exact h1 ⟨hr, hc.2, by simpa using hc.1⟩
      by_cases e : v = w
      · rcases hex with hex | hex
        · exact .inr hex
        · obtain ⟨o, hon, hoo, hpo, hfo, hoth⟩ := h.held hr
          rw [hoo] at hex
          injection hex with hex
          rw [e, hex, hfo] at hfl; cases hfl
      · show pset s.pc w q v = _ ∨ _
        rw [pset_other _ _ e]; exact h.park hr v hvn hfl

theorem begin_inv {n w : Nat} {s : PSt} (hw : w ≤ n) (h : PInv n s) (hp : s.pc w ≠ .parked) : PInv n (beginCall n w s) := by
  unfold beginCall
  by_cases h1 : s.started = false ∨ s.req = true
  · rw [if_pos h1]; exact h
  · rw [if_neg h1]
    by_cases h2 : s.exit = true
    · rw [if_pos h2]; exact h
    · rw [if_neg h2]
      have hr : s.req = false := by
        rw [not_or] at h1; simpa using h1.2
      refine beginLoop_inv hw rfl rfl (by simp [hw]) hp (fun v _ => (h.free hr).2 v) ?_ ?_
      · exact (flags_zero (fun i hi => by simp; omega)).symm
      · intro v hv hf
        simp [hv] at hf

theorem end_inv {n w : Nat} {s : PSt} (h : PInv n s) : PInv n (endCall w s) := by
  unfold endCall
  by_cases h1 : s.req = false ∨ s.owner ≠ some w
  · rw [if_pos h1]; exact h
  · rw [if_neg h1]
    rw [not_or] at h1
    have hr : s.req = true := by simpa using h1.1
    have how : s.owner = some w := by simpa using h1.2
    obtain ⟨o, hon, hoo, hpo, hfo, hoth⟩ := h.held hr
    have : o = w := by rw [hoo] at how; exact Option.some.inj how
    subst this
    have pcs : ∀ v, pset s.pc o .out v ≠ .waiting ∧ pset s.pc o .out v ≠ .owns := by
      intro v
      by_cases e : v = o
      · subst e; rw [pset_same]; simp
      · rw [pset_other _ _ e]; exact hoth v e
    exact ⟨fun _ => ⟨rfl, pcs⟩, fun h => (by cases h), fun h => (by cases h), fun h => (by cases h),
      fun v hv => absurd hv (pcs v).2⟩

theorem pstep_inv {n w : Nat} {x : PAct} {s s' : PSt} (h : PInv n s) (e : pstep n w x s = some s') : PInv n s' := by
  unfold pstep at e
  by_cases hw : n < w
  · rw [if_pos hw] at e; cases e
  rw [if_neg hw] at e
  have hwn : w ≤ n := by omega
  split at e
  · injection e with e; subst e; exact ⟨h.free, h.held, h.count, h.park, h.full⟩
  · injection e with e; subst e; exact ⟨h.free, h.held, h.count, fun _ _ _ _ => .inr rfl, h.full⟩
  · rename_i hp
    injection e with e; subst e; exact begin_inv hwn h (by rw [hp]; simp)
  · rename_i hp
    injection e with e; subst e; exact begin_inv hwn h (by rw [hp]; simp)
  · injection e with e; subst e; exact end_inv h
  · injection e with e; subst e; exact end_inv h
  · rename_i hp
    injection e with e; subst e; exact maybeLoop_inv hwn h (by rw [hp]; simp)
  · rename_i hp
    injection e with e; subst e; exact maybeLoop_inv hwn h (by rw [hp]; simp)
  · rename_i hp
    injection e with e; subst e
    have hr : s.req = true := by
      cases hr : s.req with
      | true => rfl
      | false => exact absurd hp ((h.free hr).2 w).1
    obtain ⟨o, hon, hoo, hpo, hfo, hoth⟩ := h.held hr
    have : o = w := by
      by_contra hc
      exact (hoth w (fun e => hc e.symm)).1 hp
    subst this
    exact beginLoop_inv hwn hr hoo hfo (by rw [hp]; simp) hoth (h.count hr) (h.park hr)
  · rename_i hp
    injection e with e; subst e; exact maybeLoop_inv hwn h (by rw [hp]; simp)
  · cases e

theorem preach_inv {n : Nat} {s : PSt} (h : PReach n s) : PInv n s := by
  obtain ⟨xs, e⟩ := h
  have h0 : PInv n init :=
    ⟨fun _ => ⟨rfl, fun w => ⟨(by simp [init]), (by simp [init])⟩⟩, fun h => (by cases h), fun h => (by cases h),
      fun h => (by cases h), fun w h => (by cases h)⟩
  revert e
  generalize init = t at h0
  intro e
  induction xs generalizing t with
  | nil => injection e with e; subst e; exact h0
  | cons x xs ih =>
    simp only [prun, Option.bind_eq_some_iff] at e
    obtain ⟨s1, e1, e2⟩ := e
    exact ih s1 (pstep_inv h0 e1) e2

/-- C55: while a worker owns the pause — its `acton_sync_pause_begin` returned 0, and it did not call
`acton_sync_pause_end` — and the program does not end, every other worker is parked. -/
theorem C55_exclusion {n : Nat} {s : PSt} (h : PReach n s) {w : Nat} (ho : s.pc w = .owns) (hx : s.exit = false) :
    ∀ v, v ≤ n → v ≠ w → s.pc v = .parked := by
  have inv := preach_inv h
  have hr : s.req = true := by
    cases hr : s.req with
    | true => rfl
    | false => exact absurd ho ((inv.free hr).2 w).2
  obtain ⟨o, hon, hoo, hpo, hfo, hoth⟩ := inv.held hr
  have : o = w := by
    by_contra hc
    exact (hoth w (fun e => hc e.symm)).2 ho
  subst this
  have hfull := inv.full o ho
  rw [inv.count hr] at hfull
  intro v hv hne
  have := flags_full (m := n + 1) (o := o) (by omega) hfo (by omega) v (by omega) hne
  rcases inv.park hr v hv this with h1 | h1
  · exact h1
  · rw [hx] at h1; cases h1

/-- C55: at most one worker owns the pause or waits for it. -/
theorem C55_single {n : Nat} {s : PSt} (h : PReach n s) {v w : Nat} (hv : s.pc v = .owns ∨ s.pc v = .waiting)
    (hw : s.pc w = .owns ∨ s.pc w = .waiting) : v = w := by
  have inv := preach_inv h
  have key : ∀ v, (s.pc v = .owns ∨ s.pc v = .waiting) → s.owner = some v := by
    intro v hv
    cases hr : s.req with
    | false => rcases hv with hv | hv
               · exact absurd hv ((inv.free hr).2 v).2
               · exact absurd hv ((inv.free hr).2 v).1
    | true =>
      obtain ⟨o, hon, hoo, hpo, hfo, hoth⟩ := inv.held hr
      by_cases e : v = o
      · rw [e]; exact hoo
      · rcases hv with hv | hv
        · exact absurd hv (hoth v e).2
        · exact absurd hv (hoth v e).1
  have := (key v hv).symm.trans (key w hw)
  exact Option.some.inj this

/-- C55: when no worker owns the pause or waits for it, a parked worker leaves at its next look. -/
theorem C55_release {n : Nat} {s : PSt} (h : PReach n s) (hno : ∀ v, v ≤ n → s.pc v ≠ .owns ∧ s.pc v ≠ .waiting) {w : Nat}
    (hw : w ≤ n) (hp : s.pc w = .parked) : ∃ s', pstep n w .wait s = some s' ∧ s'.pc w = .out := by
  have inv := preach_inv h
  have hr : s.req = false := by
    cases hr : s.req with
    | false => rfl
    | true =>
      obtain ⟨o, hon, hoo, hpo, hfo, hoth⟩ := inv.held hr
      rcases hpo with hpo | hpo
      · exact absurd hpo (hno o hon).2
      · exact absurd hpo (hno o hon).1
  refine ⟨maybeLoop w s, ?_, ?_⟩
  · unfold pstep
    rw [if_neg (show ¬ n < w by omega), hp]
  · unfold maybeLoop
    rw [if_neg (by rw [hr]; simp)]
    simp [pset_same, hp]

/-- C55: `acton_sync_pause_end` of a worker that owns the pause ends it, that of another one changes nothing. -/
theorem C55_end {n : Nat} {s : PSt} (h : PReach n s) {w : Nat} (hw : w ≤ n) :
    (s.pc w = .owns → ∃ s', pstep n w .endp s = some s' ∧ s'.req = false ∧ s'.pc w = .out) ∧
    (s.pc w = .out → pstep n w .endp s = some s) := by
  have inv := preach_inv h
  constructor
  · intro ho
    have hr : s.req = true := by
      cases hr : s.req with
      | true => rfl
      | false => exact absurd ho ((inv.free hr).2 w).2
    obtain ⟨o, hon, hoo, hpo, hfo, hoth⟩ := inv.held hr
    have : o = w := by
      by_contra hc
      exact (hoth w (fun e => hc e.symm)).2 ho
    subst this
    refine ⟨endCall o s, ?_, ?_⟩
    · unfold pstep
      rw [if_neg (show ¬ n < o by omega), ho]
    · unfold endCall
      rw [if_neg (by rw [hr, hoo]; simp)]
      exact ⟨rfl, pset_same _ _ _⟩
  · intro ho
    unfold pstep
    rw [if_neg (show ¬ n < w by omega), ho]
    show some (endCall w s) = some s
    unfold endCall
    rw [if_pos]
    cases hr : s.req with
    | false => exact .inl rfl
    | true =>
      right
      obtain ⟨o, hon, hoo, hpo, hfo, hoth⟩ := inv.held hr
      rw [hoo]
      intro e
      have : o = w := Option.some.inj e
      subst this
      rw [ho] at hpo
      rcases hpo with hpo | hpo <;> cases hpo

/-- C55: a second request is refused while one is there. -/
theorem C55_nested {n : Nat} {s : PSt} (h : PReach n s) {v w : Nat} (hv : s.pc v = .owns ∨ s.pc v = .waiting) (hw : w ≤ n)
    (hp : s.pc w = .out ∨ s.pc w = .owns) : pstep n w .begin s = some s ∧ beginRefused s = true := by
  have inv := preach_inv h
  have hr : s.req = true := by
    cases hr : s.req with
    | true => rfl
    | false => rcases hv with hv | hv
               · exact absurd hv ((inv.free hr).2 v).2
               · exact absurd hv ((inv.free hr).2 v).1
  refine ⟨?_, by simp [beginRefused, hr]⟩
  have : beginCall n w s = s := by
    unfold beginCall
    rw [if_pos (.inr hr)]
  unfold pstep
  rw [if_neg (show ¬ n < w by omega)]
  rcases hp with hp | hp <;> rw [hp] <;> simp only [this]

/-- C55: if all other workers come to `maybe_sync_pause` and the program does not end, the waiting worker gets the pause. -/
theorem C55_granted {n : Nat} {s : PSt} (h : PReach n s) {w : Nat} (hp : s.pc w = .waiting) (hx : s.exit = false)
    (hall : ∀ v, v ≤ n → v ≠ w → s.flag v = true) (hw : w ≤ n) :
    ∃ s', pstep n w .wait s = some s' ∧ s'.pc w = .owns := by
  have inv := preach_inv h
  have hr : s.req = true := by
    cases hr : s.req with
    | true => rfl
    | false => exact absurd hp ((inv.free hr).2 w).1
  have hc : n ≤ s.cnt := by
    rw [inv.count hr]
    have low : ∀ m, m ≤ n + 1 → m ≤ flags s.flag m + (if w < m then 1 else 0) := by
      intro m
      induction m with
      | zero => intro _; omega
      | succ m ih =>
        intro hm
        have := ih (by omega)
        simp only [flags]
        by_cases e : m = w
        · subst e
          rw [if_neg (show ¬ m < m by omega)] at this
          rw [if_pos (show m < m + 1 by omega)]; omega
        · rw [if_pos (hall m (by omega) e)]
          by_cases h : w < m
          · rw [if_pos h] at this; rw [if_pos (show w < m + 1 by omega)]; omega
          · rw [if_neg h] at this; rw [if_neg (show ¬ w < m + 1 by omega)]; omega
    have := low (n + 1) (Nat.le_refl _)
    rw [if_pos (show w < n + 1 by omega)] at this
    omega
  refine ⟨beginLoop n w s, ?_, ?_⟩
  · unfold pstep
    rw [if_neg (show ¬ n < w by omega), hp]
  · unfold beginLoop
    rw [if_neg (by omega), if_neg (by rw [hx]; simp)]
    exact pset_same _ _ _

/-- A reachable state in which worker 1 of 0, 1, 2 owns the pause, after worker 2 had it. -/
example : ∃ s, PReach 2 s ∧ s.pc 1 = .owns ∧ s.exit = false := by
  let xs : List (Nat × PAct) := [(0, .start), (2, .begin), (0, .maybe), (1, .maybe), (2, .wait), (2, .endp), (1, .wait),
    (1, .begin), (2, .maybe), (1, .wait), (0, .wait), (1, .wait)]
  have e : (prun 2 xs init).isSome = true := by decide +kernel
  obtain ⟨s, hs⟩ := Option.isSome_iff_exists.1 e
  have k : (prun 2 xs init).map (fun s => (s.pc 1, s.exit)) = some (.owns, false) := by decide +kernel
  rw [hs] at k
  simp only [Option.map_some, Option.some.injEq, Prod.mk.injEq] at k
  exact ⟨s, ⟨xs, hs⟩, k.1, k.2⟩

/-- Hypotheses of `C55_granted` and, for worker 0 there, of `C55_release` after the end. -/
example : ∃ s, PReach 2 s ∧ s.pc 1 = .waiting ∧ s.exit = false ∧ ∀ v, v ≤ 2 → v ≠ 1 → s.flag v = true := by
  let xs : List (Nat × PAct) := [(0, .start), (1, .begin), (0, .maybe), (2, .maybe)]
  have e : (prun 2 xs init).isSome = true := by decide +kernel
  obtain ⟨s, hs⟩ := Option.isSome_iff_exists.1 e
  have k : (prun 2 xs init).map (fun s => (s.pc 1, s.exit, s.flag 0, s.flag 2)) = some (.waiting, false, true, true) := by
    decide +kernel
  rw [hs] at k
  simp only [Option.map_some, Option.some.injEq, Prod.mk.injEq] at k
  refine ⟨s, ⟨xs, hs⟩, k.1, k.2.1, ?_⟩
  intro v hv hne
  have : v = 0 ∨ v = 2 := by omega
  rcases this with rfl | rfl
  · exact k.2.2.1
  · exact k.2.2.2

example : ∃ s, PReach 2 s ∧ (∀ v, v ≤ 2 → s.pc v ≠ .owns ∧ s.pc v ≠ .waiting) ∧ s.pc 0 = .parked := by
  let xs : List (Nat × PAct) := [(0, .start), (1, .begin), (0, .maybe), (2, .maybe), (1, .wait), (1, .endp)]
  have e : (prun 2 xs init).isSome = true := by decide +kernel
  obtain ⟨s, hs⟩ := Option.isSome_iff_exists.1 e
  have k : (prun 2 xs init).map (fun s => (s.pc 0, s.pc 1, s.pc 2)) = some (.parked, .out, .parked) := by decide +kernel
  rw [hs] at k
  simp only [Option.map_some, Option.some.injEq, Prod.mk.injEq] at k
  refine ⟨s, ⟨xs, hs⟩, ?_, k.1⟩
  intro v hv
  have : v = 0 ∨ v = 1 ∨ v = 2 := by omega
  rcases this with rfl | rfl | rfl
  · rw [k.1]; simp
  · rw [k.2.1]; simp
  · rw [k.2.2]; simp

end Verif.Sched.Pause
