import Verif.Rts.Steps
/-!
# Preservation of the invariant, step by step (continued)
-/
namespace Verif.Rts
open Verif Function

variable {s : State} {ml : MLoc → List Nat} {al : ALoc → List Nat}

/-- `ADD_waiting` to a message that is not frozen. -/
theorem core_addWait (h : Core s ml al) {w a m x : Nat} (hw : s.wk w = .addWait a m x) (hx : ¬ s.frozen x) :
    Core (((s.setActor a { s.actors a with next := (s.msgs x).waiting, waitsfor := some x }).setMsg x
      { s.msgs x with waiting := some a }).setWk w (.flush a m .added)) ml
      (update (update al (.own w) []) (.waiting x) (a :: al (.waiting x))) := by
  have ho : owner (s.wk w) = some a := by rw [hw]; rfl
  have hc : curOf (s.wk w) = some (a, m) := by rw [hw]; rfl
  have hrdy : al (.rdy w) = [] := by rw [h.rdy, hw]; rfl
  have hwake : al (.wake w) = [] := h.wake_nil (by rw [hw]; rfl)
  have hown : al (.own w) = [a] := by rw [h.own, ho]; rfl
  have hhead := h.cur w a m hc
  have hlt : x < s.nmsg := by
    by_contra hn
    exact hx (h.fresh x (by omega))
  have hfree : ∀ l, l ≠ .own w → a ∉ al l := by
    intro l hl hm
    exact hl (h.A.disj _ _ a hm (by rw [hown]; simp))
  refine core_step h w ?_ ?_ ?_ ?_ ?_ ?_ ?_ ?_ ?_ ?_ ?_ ?_ ?_ ?_ ?_ ?_ ?_ ?_ ?_ ?_ ?_ ?_ ?_ ?_ ?_ ?_ ?_ ?_ ?_ ?_
  case refine_7 =>
    exact h.M.congr (by head_auto) (fun y => by simp [nxM, State.setMsg, State.setActor, State.setWk]) (fun _ => rfl)
  case refine_8 =>
    obtain ⟨A1, A2⟩ := h.A.pop hown (nx' := nxA s) (by simp)
    have A3 := A1.push (l := .waiting x) A2 (nx' := nxA (s.setActor a { s.actors a with next := (s.msgs x).waiting, waitsfor := some x }))
      (by intro y hy; simp [nxA, State.setActor, upd_ne _ hy])
      (by simp [nxA, State.setActor, headA])
    refine A3.congr (by head_auto) (fun y => rfl) (fun l => ?_)
    simp
  case refine_13 =>
    intro a'
    rw [ex_move (by simp) (by intro y; simp [hown]), h.live]
  case refine_25 =>
    intro b y hb
    simp only [State.setMsg, State.setActor, State.setWk]
    by_cases e : b = a
    · subst e
      by_cases e2 : y = x
      · simp [e2]
      · simp [Function.update_apply, e2] at hb
        exact absurd hb (hfree _ (by simp))
    · rw [upd_ne _ e]
      apply h.wait
      by_cases e2 : y = x
      · subst e2; simpa [e] using hb
      · simpa [Function.update_apply, e2] using hb
  case refine_26 =>
    intro b w' _ hb
    have : b ≠ a := by rintro rfl; exact hfree _ (by simp) hb
    simp only [State.setMsg, State.setActor, State.setWk, upd_ne _ this]
  case refine_28 =>
    intro b hb
    by_cases e : b = a
    · subst e; exact .inl ⟨x, by simp⟩
    · simp only [State.setMsg, State.setActor, State.setWk, upd_ne _ e] at hb
      rcases h.nowait b hb with ⟨y, hy⟩ | ⟨w', hy⟩
      · left
        by_cases e2 : y = x
        · subst e2; exact ⟨y, by simp [hy]⟩
        · exact ⟨y, by simpa [Function.update_apply, e2] using hy⟩
      · exact .inr ⟨w', by simpa [Function.update_apply] using hy⟩
  case refine_23 =>
    intro y hy
    have hy' : s.frozen y := by simpa [State.frozen, State.setMsg, State.setActor, State.setWk] using hy
    have : y ≠ x := by rintro rfl; exact hx hy'
    simpa [Function.update_apply, this] using h.frzW y hy'
  case refine_21 =>
    intro y _ hy
    left
    simpa [State.frozen, State.setMsg, State.setActor, State.setWk] using hy
  all_goals clear hfree
  all_goals try core_auto h

/-- The phase of the loop of `FLUSH_outgoing_local` with the remaining list `p`. -/
def contPh (a m : Nat) : Option Nat → After → Phase
  | some x, k => .loop a m x k
  | none, .done mark v => .freeze a m mark v
  | none, .added => .idle
  | none, .frozen x => .resume a m x

theorem contFlush_eq (s : State) (w a m : Nat) (p : Option Nat) (k : After) :
    contFlush s w a m p k = s.setWk w (contPh a m p k) := by
  cases p <;> cases k <;> rfl

theorem owner_contPh (a m : Nat) (p : Option Nat) (k : After) :
    owner (contPh a m p k) = if k = .added then none else some a := by
  cases p <;> cases k <;> simp [contPh, owner]

theorem poster_contPh {a m : Nat} {p : Option Nat} {k : After} {b : Nat} (h : poster (contPh a m p k) = some b) :
    k = .added ∧ b = a := by
  cases p <;> cases k <;> simp_all [contPh, poster]

theorem curOf_contPh {a m : Nat} {p : Option Nat} {k : After} {q : Nat × Nat} (h : curOf (contPh a m p k) = some q) :
    q = (a, m) := by
  cases p <;> cases k <;> simp_all [contPh, curOf]

@[simp] theorem frozenOf_contPh (a m : Nat) (p : Option Nat) (k : After) : frozenOf (contPh a m p k) = none := by
  cases p <;> cases k <;> rfl

@[simp] theorem rdys_contPh (a m : Nat) (p : Option Nat) (k : After) : rdys (contPh a m p k) = [] := by
  cases p <;> cases k <;> rfl

@[simp] theorem flPtr_contPh (a m : Nat) (p : Option Nat) (k : After) : flPtr (contPh a m p k) = p := by
  cases p <;> cases k <;> rfl

@[simp] theorem wakePtr_contPh (a m : Nat) (p : Option Nat) (k : After) : wakePtr (contPh a m p k) = none := by
  cases p <;> cases k <;> rfl

@[simp] theorem heldPtr_contPh (a m : Nat) (p : Option Nat) (k : After) : heldPtr (contPh a m p k) = none := by
  cases p <;> cases k <;> rfl

theorem markOk_contPh {a m : Nat} {p : Option Nat} {k : After} (h : markOk (.flush a m k)) : markOk (contPh a m p k) := by
  cases p <;> cases k <;> simp_all [contPh, markOk]

/-- The start of `FLUSH_outgoing_local`. -/
theorem core_flush (h : Core s ml al) {w a m : Nat} {k : After} (hw : s.wk w = .flush a m k) :
    Core (contFlush (s.setActor a { s.actors a with outgoing := none }) w a m (s.actors a).outgoing k)
      (update (update ml (.out a) []) (.fl w) (ml (.out a))) al := by
  rw [contFlush_eq]
  have ho : owner (s.wk w) = if k = .added then none else some a := by rw [hw]; rfl
  have hp : poster (s.wk w) = if k = .added then some a else none := by rw [hw]; rfl
  have hc : curOf (s.wk w) = some (a, m) := by rw [hw]; rfl
  have hf : frozenOf (s.wk w) = none := by rw [hw]; rfl
  have hrdy : al (.rdy w) = [] := by rw [h.rdy, hw]; rfl
  have hwake : al (.wake w) = [] := h.wake_nil (by rw [hw]; rfl)
  have hown : al (.own w) = (if k = .added then none else some a).toList := by rw [h.own, ho]
  have hhead := h.cur w a m hc
  have hfl : ml (.fl w) = [] := by
    have := h.headM_eq (.fl w)
    simp only [headM, hw, flPtr] at this
    exact List.head?_eq_none_iff.1 this.symm
  have hmk := h.mark w
  rw [hw] at hmk
  have hmk' := markOk_contPh (p := (s.actors a).outgoing) hmk
  have ho' := owner_contPh a m (s.actors a).outgoing k
  refine core_step h w ?_ ?_ ?_ ?_ ?_ ?_ ?_ ?_ ?_ ?_ ?_ ?_ ?_ ?_ ?_ ?_ ?_ ?_ ?_ ?_ ?_ ?_ ?_ ?_ ?_ ?_ ?_ ?_ ?_ ?_
  case refine_7 =>
    refine (h.M.move (l := .out a) (l' := .fl w) id).congr (by head_auto)
      (fun y => by simp [nxM, State.setMsg, State.setActor, State.setWk]) (fun _ => rfl)
  case refine_8 =>
    exact h.A.congr (by head_auto) (fun y => by simp [nxA, State.setMsg, State.setActor, State.setWk]) (fun _ => rfl)
  case refine_15 =>
    intro l y hy
    have : ∃ l, y ∈ update (update ml (.out a) []) (.fl w) (ml (.out a)) l := ⟨l, hy⟩
    rw [ex_move (by simp) (by intro y; simp [hfl])] at this
    obtain ⟨l', h1⟩ := this
    exact h.mlt l' y h1
  case refine_20 =>
    intro y l hy _
    have : ∃ l, y ∈ update (update ml (.out a) []) (.fl w) (ml (.out a)) l := ⟨l, hy⟩
    rw [ex_move (by simp) (by intro y; simp [hfl])] at this
    exact this
  case refine_17 =>
    intro a' m' hcc
    simp only [State.setActor, State.setWk, upd_self] at hcc
    have := curOf_contPh hcc
    simp only [Prod.mk.injEq] at this
    obtain ⟨rfl, rfl⟩ := this
    simpa using hhead
  case refine_18 =>
    intro b hb
    simp only [State.setActor, State.setWk, upd_self] at hb
    obtain ⟨rfl, rfl⟩ := poster_contPh hb
    left; rw [hp]; rfl
  case refine_19 =>
    intro b hb
    left
    rw [ho, ← ho']
    simpa [State.setActor, State.setWk, upd_self] using hb
  all_goals clear hmk
  all_goals try core_auto h

end Verif.Rts
