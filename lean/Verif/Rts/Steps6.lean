import Verif.Rts.Steps5
/-!
# Preservation of the invariant: new messages and the timer queue
-/
namespace Verif.Rts
open Verif Function

variable {s : State} {ml : MLoc → List Nat} {al : ALoc → List Nat}

/-- A new message is in no list. -/
theorem Core.fresh_free (h : Core s ml al) : Free ml s.nmsg := by
  intro l hl
  have := h.mlt l _ hl
  omega

/-- `PUSH_outgoing` of a new message. -/
theorem core_push (h : Core s ml al) {w a m rcv cont v : Nat} {b : Int} (hw : s.wk w = .run a m) (hc : 2 ≤ cont) :
    Core (pushOutgoing (newMsg s rcv cont b v) a s.nmsg) (update ml (.out a) (s.nmsg :: ml (.out a))) al := by
  have hM : LL linkedM (nxM (pushOutgoing (newMsg s rcv cont b v) a s.nmsg))
      (update (headM s) (.out a) (some s.nmsg)) (update ml (.out a) (s.nmsg :: ml (.out a))) :=
    h.M.push h.fresh_free (by
      intro y hy
      simp [pushOutgoing, newMsg, nxM, State.setNext, State.setMsg, State.setActor, upd_ne _ hy]) (by
      simp [pushOutgoing, newMsg, nxM, State.setNext, State.setMsg, State.setActor, headM])
  have hne : ∀ m, m < s.nmsg → m ≠ s.nmsg := fun m h => by omega
  refine core_mmove h (w := w) ?_ ?_ ?_ (hM.congr ?_ (fun _ => rfl) (fun _ => rfl)) ?_ ?_ ?_ ?_ ?_ ?_ ?_ ?_ ?_ ?_ ?_ ?_ ?_ ?_ ?_ ?_ ?_
  · intro w' _; rfl
  · intro x
    simp only [pushOutgoing, newMsg, State.setNext, State.setMsg, State.setActor, upd]
    split
    · rename_i e; subst e; rfl
    · rfl
  · rfl
  · intro l _
    cases l with
    | out a' =>
      by_cases e : a' = a
      · subst e; simp [headM, pushOutgoing, State.setActor]
      · simp [headM, pushOutgoing, newMsg, State.setNext, State.setMsg, State.setActor, upd_ne _ e, Function.update_apply, e]
    | _ => simp [headM, pushOutgoing, newMsg, State.setNext, State.setMsg, State.setActor, Function.update_apply]
  · intro a'; simp
  · simp [pushOutgoing, newMsg, State.setNext, State.setMsg, State.setActor]
  · intro m hm; simp [pushOutgoing, newMsg, State.setNext, State.setMsg, State.setActor, upd_ne _ (hne m hm)]
  · intro m hm; simp [pushOutgoing, newMsg, State.setNext, State.setMsg, State.setActor, upd_ne _ (hne m hm)]
  · intro m hm
    have : m ≠ s.nmsg := by
      simp only [pushOutgoing, newMsg, State.setNext, State.setMsg, State.setActor] at hm; omega
    simp [pushOutgoing, newMsg, State.setNext, State.setMsg, State.setActor, upd_ne _ this]
  · intro m
    by_cases e : m = s.nmsg
    · subst e
      have : (s.msgs s.nmsg).waiting = none := by
        have h1 := h.frzW s.nmsg (h.fresh _ (Nat.le_refl _))
        have h2 := (h.A.chain (.waiting s.nmsg) trivial).head
        rw [h1] at h2
        exact h2
      simp [pushOutgoing, newMsg, State.setNext, State.setMsg, State.setActor, this]
    · simp [pushOutgoing, newMsg, State.setNext, State.setMsg, State.setActor, upd_ne _ e]
  · intro l m hm
    have hn : (pushOutgoing (newMsg s rcv cont b v) a s.nmsg).nmsg = s.nmsg + 1 := rfl
    rw [hn]
    by_cases e : l = .out a
    · subst e
      rw [update_self, List.mem_cons] at hm
      rcases hm with hm | hm
      · omega
      · have := h.mlt _ _ hm; omega
    · rw [update_of_ne e] at hm
      have := h.mlt _ _ hm; omega
  · intro m l hm hf
    by_cases e : l = .out a
    · subst e
      rw [update_self, List.mem_cons] at hm
      rcases hm with hm | hm
      · subst hm
        simp only [State.frozen, pushOutgoing, newMsg, State.setNext, State.setMsg, State.setActor, upd_self, MARK_RESULT, MARK_EXCEPTION] at hf
        omega
      · exact ⟨_, hm⟩
    · rw [update_of_ne e] at hm
      exact ⟨_, hm⟩
  · rw [hw]; rfl
  · rw [hw]; rfl
  · rfl
  · intro a ha; exact ha
  · intro q hq; exact hq
  · show frozenOf (s.wk w) = none; rw [hw]; rfl
  · show rdys (s.wk w) = []; rw [hw]; rfl
  · show wakePtr (s.wk w) = none; rw [hw]; rfl
  · show markOk (s.wk w); rw [hw]; trivial

/-- A call by the event loop. -/
theorem core_ext (h : Core s ml al) {w rcv cont v : Nat} {b : Int} (hw : s.wk w = .idle) (hc : 2 ≤ cont) :
    Core ((enqMsg (newMsg s rcv cont b v) s.nmsg rcv).1.setWk w
        (if (enqMsg (newMsg s rcv cont b v) s.nmsg rcv).2 then .rdy rcv .idle else .idle))
      (update ml (.mq rcv) (ml (.mq rcv) ++ [s.nmsg])) (enqAl ml al w rcv) := by
  have hne : ∀ m, m < s.nmsg → m ≠ s.nmsg := fun m h => by omega
  have hM : LL linkedM (nxM (newMsg s rcv cont b v)) (headM s) ml := by
    refine ⟨fun l hl => chain_congr (fun y hy => ?_) (h.M.chain l hl), h.M.nodup, h.M.disj⟩
    have := hne y (h.mlt _ _ hy)
    simp [newMsg, nxM, State.setMsg, upd_ne _ this]
  refine core_enq h rfl rfl rfl hM h.fresh_free (fun _ => rfl) ?_ ?_ ?_ ?_ ?_ ?_ ?_ ?_ ?_ ?_ ?_ ?_ ?_ ?_ ?_ ?_ ?_ ?_ ?_
  · intro l
    cases l with
    | fl w' =>
      simp only [headM, newMsg, State.setMsg, State.setWk]
      by_cases e : w' = w
      · subst e; simp [hw]
      · simp [upd_ne _ e]
    | held w' =>
      simp only [headM, newMsg, State.setMsg, State.setWk]
      by_cases e : w' = w
      · subst e; simp [hw]
      · simp [upd_ne _ e]
    | _ => rfl
  · simp [newMsg, State.setMsg]
  · simp [newMsg, State.setMsg]
  · simp [newMsg, State.setMsg]
  · simp only [newMsg, State.setMsg, State.frozen, upd_self, MARK_RESULT, MARK_EXCEPTION]; omega
  · intro m hm; simp [newMsg, State.setMsg, upd_ne _ (hne m hm)]
  · intro m hm; simp [newMsg, State.setMsg, upd_ne _ (hne m hm)]
  · intro m hm
    have : m ≠ s.nmsg := by simp only [newMsg] at hm; omega
    simp [newMsg, State.setMsg, upd_ne _ this]
  · intro m
    by_cases e : m = s.nmsg
    · subst e
      have : (s.msgs s.nmsg).waiting = none := by
        have h1 := h.frzW s.nmsg (h.fresh _ (Nat.le_refl _))
        have h2 := (h.A.chain (.waiting s.nmsg) trivial).head
        rw [h1] at h2
        exact h2
      simp [newMsg, State.setMsg, this]
    · simp [newMsg, State.setMsg, upd_ne _ e]
  · intro l m hm; exact ⟨l, hm⟩
  all_goals simp [hw, owner, poster, curOf, frozenOf, rdys, wakePtr, markOk]

/-- The message taken from the timer queue goes to its actor. -/
theorem core_timed (h : Core s ml al) {w x : Nat} (hw : s.wk w = .timed x) (hl : (ml (.held w)).length ≤ 1) :
    ml (.held w) = [x] ∧
    Core ((enqMsg s x (s.msgs x).to).1.setWk w (if (enqMsg s x (s.msgs x).to).2 then .rdy (s.msgs x).to .idle else .idle))
      (update (update ml (.held w) []) (.mq (s.msgs x).to) (ml (.mq (s.msgs x).to) ++ [x])) (enqAl ml al w (s.msgs x).to) := by
  have hch := h.chainM (.held w)
  simp only [headM, hw, heldPtr] at hch
  obtain ⟨t, ht, hct⟩ := chain_some hch
  have hx : x ∈ ml (.held w) := by rw [ht]; simp
  have htn : t = [] := by
    rw [ht] at hl
    exact List.length_eq_zero_iff.1 (by simp at hl; simpa using hl)
  subst htn
  refine ⟨ht, ?_⟩
  obtain ⟨M1, M2⟩ := h.M.pop ht (nx' := nxM s) (by simp)
  refine core_enq h rfl rfl rfl M1 M2 (fun _ => by simp) ?_ ?_ ?_ ?_ ?_ ?_ ?_ ?_ ?_ ?_ ?_ ?_ ?_ ?_ ?_ ?_ ?_ ?_ ?_
  · intro l
    cases l with
    | fl w' =>
      simp only [headM, State.setWk, Function.update_apply]
      by_cases e : w' = w
      · subst e; simp [hw, flPtr]
      · simp [upd_ne _ e]
    | held w' =>
      simp only [headM, State.setWk, Function.update_apply]
      by_cases e : w' = w
      · subst e; simp only [if_true, upd_self, heldPtr]; exact hct.head
      · simp [upd_ne _ e, e]
    | _ => simp [headM, State.setWk]
  · exact Nat.le_refl _
  · exact h.mlt _ _ hx
  · rfl
  · exact h.not_frozen hx (by simp)
  · intro m _; rfl
  · intro m _; rfl
  · intro m _; rfl
  · intro m; rfl
  · intro l m hm
    by_cases e : l = .held w
    · subst e; simp at hm
    · rw [update_of_ne e] at hm; exact ⟨_, hm⟩
  all_goals simp [hw, owner, poster, curOf, frozenOf, rdys, wakePtr, markOk]

/-- `DEQ_timed`. -/
theorem core_timer (h : Core s ml al) {w x : Nat} {t : List Nat} (hw : s.wk w = .idle) (hx : ml .timer = x :: t) :
    s.timerQ = some x ∧ (s.msgs x).next = t.head? ∧
    Core ({ s.setNext x none with timerQ := (s.msgs x).next }.setWk w (.timed x))
      (update (update ml .timer t) (.held w) [x]) al := by
  have hch := h.chainM .timer
  rw [hx] at hch
  have hnx : (s.msgs x).next = t.head? := hch.2.head
  refine ⟨hch.1, hnx, ?_⟩
  obtain ⟨M1, M2⟩ := h.M.pop hx (nx' := nxM (s.setNext x none)) (by
    intro y hy; simp [nxM, State.setNext, State.setMsg, upd_ne _ hy])
  have hheld : ml (.held w) = [] := by
    have := h.headM_eq (.held w)
    simp only [headM, hw, heldPtr] at this
    exact List.head?_eq_none_iff.1 this.symm
  have M3 := M1.push (l := .held w) M2 (nx' := nxM (s.setNext x none)) (by simp) (by
    rw [update_of_ne (by simp)]
    simp [nxM, State.setNext, State.setMsg, headM, hw, heldPtr])
  rw [update_of_ne (by simp), hheld] at M3
  have hxm : x ∈ ml .timer := by rw [hx]; simp
  refine core_mmove h (w := w) ?_ ?_ ?_ (M3.congr ?_ (fun _ => rfl) (fun _ => rfl)) ?_ ?_ ?_ ?_ ?_ ?_ ?_ ?_ ?_ ?_ ?_ ?_ ?_ ?_ ?_ ?_ ?_
  · intro w' e; simp [State.setWk, State.setNext, State.setMsg, upd_ne _ e]
  · intro x; rfl
  · rfl
  · intro l _
    cases l with
    | timer => simp [headM, State.setWk, nxM]
    | fl w' =>
      simp only [headM, State.setWk, State.setNext, State.setMsg, Function.update_apply]
      by_cases e : w' = w
      · subst e; simp [hw, flPtr]
      · simp [upd_ne _ e]
    | held w' =>
      simp only [headM, State.setWk, State.setNext, State.setMsg, Function.update_apply]
      by_cases e : w' = w
      · subst e; simp [heldPtr]
      · simp [upd_ne _ e, e]
    | _ => simp [headM, State.setWk, State.setNext, State.setMsg]
  · intro a'; simp
  · exact Nat.le_refl _
  · intro m _; simp [State.setWk, State.setNext, State.setMsg]
  · intro m _; simp [State.setWk, State.setNext, State.setMsg]
  · intro m _; simp [State.setWk, State.setNext, State.setMsg]
  · intro m; simp [State.setWk, State.setNext, State.setMsg]
  · intro l m hm
    show m < s.nmsg
    by_cases e : l = .held w
    · subst e; simp at hm; subst hm; exact h.mlt _ _ hxm
    · rw [update_of_ne e] at hm
      by_cases e2 : l = .timer
      · subst e2; simp at hm; exact h.mlt .timer m (by rw [hx]; simp [hm])
      · rw [update_of_ne e2] at hm; exact h.mlt _ _ hm
  · intro m l hm _
    by_cases e : l = .held w
    · subst e; simp at hm; subst hm; exact ⟨_, hxm⟩
    · rw [update_of_ne e] at hm
      by_cases e2 : l = .timer
      · subst e2; simp at hm; exact ⟨.timer, by rw [hx]; simp [hm]⟩
      · rw [update_of_ne e2] at hm; exact ⟨_, hm⟩
  all_goals simp [State.setWk, hw, owner, poster, curOf, frozenOf, rdys, wakePtr, markOk]

end Verif.Rts
