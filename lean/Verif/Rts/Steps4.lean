import Verif.Rts.Steps3
/-!
# Preservation of the invariant, step by step (continued)
-/
namespace Verif.Rts
open Verif Function

variable {s : State} {ml : MLoc → List Nat} {al : ALoc → List Nat}

/-- Messages move between lists other than the queues of the actors. -/
theorem core_mmove (h : Core s ml al) {w : Nat} {s' : State} {ml' : MLoc → List Nat}
    (e1 : ∀ w', w' ≠ w → s'.wk w' = s.wk w')
    (e2 : ∀ a, s'.actors a = { s.actors a with outgoing := (s'.actors a).outgoing }) (e3 : s'.rqs = s.rqs)
    (hM : LL linkedM (nxM s') (headM s') ml') (hmq : ∀ a, ml' (.mq a) = ml (.mq a)) (hn : s.nmsg ≤ s'.nmsg)
    (hto : ∀ m, m < s.nmsg → (s'.msgs m).to = (s.msgs m).to)
    (hcont : ∀ m, m < s.nmsg → (s'.msgs m).cont = (s.msgs m).cont)
    (hcont' : ∀ m, s'.nmsg ≤ m → (s'.msgs m).cont = (s.msgs m).cont)
    (hwait : ∀ m, (s'.msgs m).waiting = (s.msgs m).waiting)
    (hmlt : ∀ l m, m ∈ ml' l → m < s'.nmsg)
    (hsub : ∀ m l, m ∈ ml' l → s'.frozen m → ∃ l', m ∈ ml l')
    (hf : frozenOf (s.wk w) = none) (hr : rdys (s.wk w) = [])
    (ho : owner (s'.wk w) = owner (s.wk w)) (hp : ∀ a, poster (s'.wk w) = some a → poster (s.wk w) = some a)
    (hc : ∀ q, curOf (s'.wk w) = some q → curOf (s.wk w) = some q)
    (hfP : frozenOf (s'.wk w) = none) (hrP : rdys (s'.wk w) = []) (hwP : wakePtr (s'.wk w) = none)
    (hmk : markOk (s'.wk w)) : Core s' ml' al := by
  have g1 : ∀ a, (s'.actors a).next = (s.actors a).next := fun a => by rw [e2 a]
  have g2 : ∀ a, (s'.actors a).tail = (s.actors a).tail := fun a => by rw [e2 a]
  have g3 : ∀ a, (s'.actors a).waitsfor = (s.actors a).waitsfor := fun a => by rw [e2 a]
  have g4 : ∀ a, (s'.actors a).catcher = (s.actors a).catcher := fun a => by rw [e2 a]
  have hrdy : al (.rdy w) = [] := by rw [h.rdy, hr]
  have hwake : al (.wake w) = [] := h.wake_nil hf
  have hwp := h.wakePtr_none hf
  have hfz : ∀ m, m < s.nmsg → (s'.frozen m ↔ s.frozen m) := by
    intro m hm
    simp only [State.frozen, hcont m hm]
  refine core_step h w e1 (fun _ _ => ⟨rfl, rfl, rfl⟩) hn hto (fun m hm => (hfz m hm).2) hcont' hM ?_ ?_ ?_ ?_ ?_ ?_ ?_ hmlt ?_ ?_ ?_ ?_
    hsub ?_ ?_ ?_ ?_ ?_ ?_ ?_ ?_ hmk ?_
  · refine h.A.congr ?_ g1 (fun _ => rfl)
    intro l hl
    cases l with
    | ready i => simp [headA, e3]
    | waiting m => simp [headA, hwait]
    | wake w' =>
      simp only [headA]
      by_cases e : w' = w
      · subst e; rw [hwP, hwp]
      · rw [e1 w' e]
    | own _ => rfl
    | rdy _ => rfl
  · intro a; rw [g2, h.mtail, hmq]
  · intro i; rw [e3]; exact h.rtail i
  · rw [ho]; exact h.own w
  · rw [hrdy, hrP]
  · intro a; rw [h.live, hmq]
  · intro a m hm hm'; rw [hmq] at hm; exact absurd hm hm'
  · intro a m hm _; rw [hmq]; exact hm
  · intro a m hm; rw [hmq]; exact h.cur w a m (hc _ hm)
  · intro a ha; exact .inl (hp a ha)
  · intro a ha; rw [ho] at ha; exact .inl ha
  · intro m hm hfm; exact .inl ((hfz m hm).1 hfm)
  · intro a m hm; rw [hf] at hm; cases hm
  · intro m hm
    by_cases hlt : m < s.nmsg
    · exact h.frzW m ((hfz m hlt).1 hm)
    · exact h.frzW m (h.fresh m (by omega))
  · intro a m hm; rw [hfP] at hm; cases hm
  · intro a x ha; rw [g3]; exact h.wait a x ha
  · intro b w' _ _; exact g3 b
  · intro b hb; rw [hwake] at hb; simp at hb
  · intro a ha; rw [g3] at ha; exact h.nowait a ha
  · intro a c hc'; rw [g4] at hc'; exact h.catch_ a c hc'

/-- The loop of `ENQ_timed`. -/
theorem timedLoop_spec (msgs : Nat → Msg) (b : Int) : ∀ (f : Nat) (l : List Nat) (x : Nat),
    Chain (fun m => (msgs m).next) (msgs x).next l → l.length < f →
    ∃ A B y, l = A ++ B ∧ timedLoop msgs b f x = .ok y ∧ (x :: A).getLast? = some y ∧
      (∀ z ∈ A, (msgs z).baseline ≤ b) ∧ ∀ z, B.head? = some z → b < (msgs z).baseline := by
  intro f
  induction f with
  | zero => intro l x _ hl; omega
  | succ f ih =>
    intro l x hc hl
    cases l with
    | nil =>
      have : (msgs x).next = none := hc
      exact ⟨[], [], x, rfl, by simp only [timedLoop, this], rfl, by simp, by simp⟩
    | cons y t =>
      have hn : (msgs x).next = some y := hc.1
      by_cases hb : (msgs y).baseline ≤ b
      · obtain ⟨A, B, z, h1, h2, h3, h4, h5⟩ := ih t y hc.2 (by simp at hl; omega)
        refine ⟨y :: A, B, z, by rw [h1]; rfl, ?_, ?_, ?_, h5⟩
        · simp only [timedLoop, hn, if_pos hb, h2]
        · rw [List.getLast?_cons_cons]; exact h3
        · intro u hu
          rw [List.mem_cons] at hu
          rcases hu with rfl | hu
          · exact hb
          · exact h4 u hu
      · refine ⟨[], y :: t, x, rfl, ?_, rfl, by simp, ?_⟩
        · simp only [timedLoop, hn, if_neg hb]
        · intro z hz
          simp at hz
          subst hz
          omega

/-- `ENQ_timed` on the lists. -/
theorem enqTimed_LL {x : Nat} {hd : MLoc → Option Nat} (hM : LL linkedM (nxM s) hd ml) (hf : Free ml x)
    (hq : hd .timer = s.timerQ) (hlt : ∀ y ∈ ml .timer, y < s.nmsg) :
    ∃ s' A B, enqTimed s x = .ok s' ∧ ml .timer = A ++ B ∧
      (∀ z ∈ A, (s.msgs z).baseline ≤ (s.msgs x).baseline) ∧
      (∀ z, B.head? = some z → (s.msgs x).baseline < (s.msgs z).baseline) ∧
      LL linkedM (nxM s') (update hd .timer s'.timerQ) (update ml .timer (A ++ x :: B)) ∧
      s'.actors = s.actors ∧ s'.wk = s.wk ∧ s'.rqs = s.rqs ∧ s'.nmsg = s.nmsg ∧ s'.log = s.log ∧
      ∀ m, s'.msgs m = { s.msgs m with next := (s'.msgs m).next } := by
  have hc := hM.chain .timer trivial
  rw [hq] at hc
  have hlen : (ml .timer).length ≤ s.nmsg := by
    have := (List.Nodup.subperm (hM.nodup .timer) (l₂ := List.range s.nmsg) (by
      intro x hx; rw [List.mem_range]; exact hlt x hx)).length_le
    simpa using this
  have hmsgs : ∀ (p : Option Nat) (m : Nat), upd s.msgs x { s.msgs x with next := p } m =
      { s.msgs m with next := (upd s.msgs x { s.msgs x with next := p } m).next } := by
    intro p m
    simp only [upd]
    split
    · rename_i e; subst e; rfl
    · rfl
  cases ht : s.timerQ with
  | none =>
    rw [ht] at hc
    have hnil := chain_nil hc
    refine ⟨{ s.setNext x none with timerQ := some x }, [], [], by simp only [enqTimed, ht], hnil, by simp, by simp,
      ?_, rfl, rfl, rfl, rfl, rfl, hmsgs none⟩
    have := hM.push (l := .timer) (nx' := nxM (s.setNext x none)) hf
      (by intro y hy; simp [nxM, State.setNext, State.setMsg, upd_ne _ hy])
      (by simp [nxM, State.setNext, State.setMsg, hq, ht])
    rw [hnil] at this
    exact this
  | some y =>
    rw [ht] at hc
    obtain ⟨t, hl, hct⟩ := chain_some hc
    by_cases hb : (s.msgs y).baseline ≤ (s.msgs x).baseline
    · obtain ⟨A, B, z, h1, h2, h3, h4, h5⟩ := timedLoop_spec s.msgs (s.msgs x).baseline (s.nmsg + 1) t y hct
        (by rw [hl] at hlen; simp at hlen; omega)
      have hz : z ∈ ml .timer := by
        have := List.mem_of_getLast? h3
        rw [hl, h1]
        rw [List.mem_cons] at this ⊢
        rw [List.mem_append]
        tauto
      have hzx : z ≠ x := by rintro rfl; exact hf _ hz
      refine ⟨(s.setNext z (some x)).setNext x (s.msgs z).next, y :: A, B, ?_, by rw [hl, h1]; rfl, ?_, h5, ?_,
        rfl, rfl, rfl, rfl, rfl, ?_⟩
      · simp only [enqTimed, ht, if_pos hb, h2, Res.ok_bind]; rfl
      · intro u hu
        rw [List.mem_cons] at hu
        rcases hu with rfl | hu
        · exact hb
        · exact h4 u hu
      · have := hM.insert (l := .timer) (nx' := nxM ((s.setNext z (some x)).setNext x (s.msgs z).next)) hf
          (A := y :: A) (B := B) (by rw [hl, h1]; rfl) h3
          (by intro u hu1 hu2; simp [nxM, State.setNext, State.setMsg, upd_ne _ hu1, upd_ne _ hu2])
          (by simp [nxM, State.setNext, State.setMsg])
          (by simp [nxM, State.setNext, State.setMsg, upd_ne _ hzx])
        rw [hq] at this
        exact this
      · intro m
        simp only [State.setNext, State.setMsg, upd]
        split
        · rename_i e; subst e; simp [hzx.symm]
        · split
          · rename_i e; subst e; rfl
          · rfl
    · refine ⟨{ s.setNext x (some y) with timerQ := some x }, [], ml .timer, by simp only [enqTimed, ht, if_neg hb], rfl, by simp,
        ?_, ?_, rfl, rfl, rfl, rfl, rfl, hmsgs (some y)⟩
      · intro z hz
        rw [hl] at hz
        simp at hz
        subst hz
        omega
      · exact hM.push (l := .timer) (nx' := nxM (s.setNext x (some y))) hf
          (by intro y hy; simp [nxM, State.setNext, State.setMsg, upd_ne _ hy])
          (by simp [nxM, State.setNext, State.setMsg, hq, ht])

/-- One round of the loop of `FLUSH_outgoing_local`: the message and the list that remains. -/
theorem Core.fl_cons (h : Core s ml al) {w a m x : Nat} {k : After} (hw : s.wk w = .loop a m x k) :
    ∃ t, ml (.fl w) = x :: t ∧ (s.msgs x).next = t.head? := by
  have hc := h.chainM (.fl w)
  simp only [headM, hw, flPtr] at hc
  obtain ⟨t, h1, h2⟩ := chain_some hc
  exact ⟨t, h1, h2.head⟩

theorem markOk_loop {a m x : Nat} {k : After} (h : markOk (.loop a m x k)) : markOk (.flush a m k) := by
  cases k <;> exact h

theorem flushOne_eq (h : Core s ml al) {w a m x : Nat} {k : After} (hw : s.wk w = .loop a m x k) :
    flushOne s w a m x k =
      if (s.msgs x).baseline = (s.msgs m).baseline then
        .ok ((enqMsg (s.setNext x none) x (s.msgs x).to).1.setWk w
          (if (enqMsg (s.setNext x none) x (s.msgs x).to).2 then .rdy (s.msgs x).to (contPh a m (s.msgs x).next k)
            else contPh a m (s.msgs x).next k))
      else do
        let s' ← enqTimed (s.setNext x none) x
        return (s'.emit (.queued x (s.msgs x).baseline)).setWk w (contPh a m (s.msgs x).next k) := by
  have hcur : (s.actors a).msg = some m := by
    have := h.cur w a m (by rw [hw]; rfl)
    rw [← this]; exact h.headM_eq (.mq a)
  have e1 : ((s.setNext x none).msgs x).baseline = (s.msgs x).baseline := by simp [State.setNext, State.setMsg]
  have e2 : ((s.setNext x none).msgs m).baseline = (s.msgs m).baseline := by simp [State.setNext, State.setMsg]
  have e3 : ((s.setNext x none).msgs x).to = (s.msgs x).to := by simp [State.setNext, State.setMsg]
  have e4 : ((s.setNext x none).actors a).msg = some m := hcur
  simp only [flushOne, e4, e1, e2, e3]
  split
  · congr 1
    simp only [contFlush_eq, thenReady]
    split
    · simp only [State.setWk, upd_self]
      congr 1
      funext w'
      simp only [upd]
      split <;> rfl
    · rfl
  · simp only [contFlush_eq]

/-- A message to an actor is flushed. -/
theorem core_loop_now (h : Core s ml al) {w a m x : Nat} {k : After} (hw : s.wk w = .loop a m x k) {t : List Nat}
    (ht : ml (.fl w) = x :: t) :
    Core ((enqMsg (s.setNext x none) x (s.msgs x).to).1.setWk w
        (if (enqMsg (s.setNext x none) x (s.msgs x).to).2 then .rdy (s.msgs x).to (contPh a m (s.msgs x).next k)
          else contPh a m (s.msgs x).next k))
      (update (update ml (.fl w) t) (.mq (s.msgs x).to) (ml (.mq (s.msgs x).to) ++ [x])) (enqAl ml al w (s.msgs x).to) := by
  obtain ⟨M1, M2⟩ := h.M.pop ht (nx' := nxM (s.setNext x none)) (by
    intro y hy; simp [nxM, State.setNext, State.setMsg, upd_ne _ hy])
  have hx : x ∈ ml (.fl w) := by rw [ht]; simp
  have hmk := h.mark w
  rw [hw] at hmk
  refine core_enq h (s0 := s.setNext x none) (hd0 := update (headM s) (.fl w) (nxM s x)) rfl rfl rfl M1 M2 ?_ ?_
    (Nat.le_refl _) (h.mlt _ _ hx) ?_ ?_ ?_ ?_ ?_ ?_ ?_ (by rw [hw]; rfl) (by rw [hw]; rfl) ?_ ?_ ?_ (by simp) (by simp) (by simp) ?_
  · intro a'; simp
  · intro l
    cases l with
    | mq a => simp [headM, State.setWk, State.setNext, State.setMsg]
    | out a => simp [headM, State.setWk, State.setNext, State.setMsg]
    | fl w' =>
      simp only [headM, State.setWk, State.setNext, State.setMsg]
      by_cases e : w' = w
      · subst e; simp [nxM]
      · simp [Function.update_apply, e, upd_ne _ e, headM]
    | timer => simp [headM, State.setWk, State.setNext, State.setMsg]
    | held w' =>
      simp only [headM, State.setWk, State.setNext, State.setMsg]
      by_cases e : w' = w
      · subst e; simp [headM, hw, heldPtr]
      · simp [Function.update_apply, upd_ne _ e, headM]
  · simp [State.setNext, State.setMsg]
  · have := h.not_frozen hx (by simp)
    simpa [State.frozen, State.setNext, State.setMsg] using this
  · intro y _; simp [State.setNext, State.setMsg]
  · intro y _; simp [State.setNext, State.setMsg]
  · intro y _; simp [State.setNext, State.setMsg]
  · intro y; simp [State.setNext, State.setMsg]
  · intro l y hy
    by_cases e : l = .fl w
    · subst e; rw [update_self] at hy; exact ⟨_, by rw [ht]; simp [hy]⟩
    · rw [update_of_ne e] at hy; exact ⟨_, hy⟩
  · rw [owner_contPh, hw]; rfl
  · intro b hb
    obtain ⟨rfl, rfl⟩ := poster_contPh hb
    rw [hw]; rfl
  · intro q hq; rw [curOf_contPh hq, hw]; rfl
  · exact markOk_contPh (markOk_loop hmk)

/-- A message is flushed to the timer queue. -/
theorem core_loop_timed (h : Core s ml al) {w a m x : Nat} {k : After} (hw : s.wk w = .loop a m x k) {t : List Nat}
    (ht : ml (.fl w) = x :: t) :
    ∃ s' A B, enqTimed (s.setNext x none) x = .ok s' ∧ ml .timer = A ++ B ∧
      (∀ z ∈ A, (s.msgs z).baseline ≤ (s.msgs x).baseline) ∧
      (∀ z, B.head? = some z → (s.msgs x).baseline < (s.msgs z).baseline) ∧
      Core (s'.setWk w (contPh a m (s.msgs x).next k)) (update (update ml (.fl w) t) .timer (A ++ x :: B)) al ∧
      s'.actors = s.actors ∧ s'.wk = s.wk ∧ s'.rqs = s.rqs ∧ s'.nmsg = s.nmsg ∧ s'.log = s.log ∧
      ∀ m, s'.msgs m = { s.msgs m with next := (s'.msgs m).next } := by
  obtain ⟨M1, M2⟩ := h.M.pop ht (nx' := nxM (s.setNext x none)) (by
    intro y hy; simp [nxM, State.setNext, State.setMsg, upd_ne _ hy])
  have hx : x ∈ ml (.fl w) := by rw [ht]; simp
  have hmk := h.mark w
  rw [hw] at hmk
  obtain ⟨s', A, B, h1, h2, h3, h4, h5, f1, f2, f3, f4, f5, f6⟩ := enqTimed_LL (x := x) (s := s.setNext x none) M1 M2
    (by rw [update_of_ne (by simp)]; rfl) (by intro y hy; rw [update_of_ne (by simp)] at hy; exact h.mlt _ _ hy)
  have hb : ∀ z, ((s.setNext x none).msgs z).baseline = (s.msgs z).baseline := fun z => by simp [State.setNext, State.setMsg]
  simp only [hb] at h3 h4
  rw [update_of_ne (by simp)] at h2
  have f6' : ∀ m, s'.msgs m = { s.msgs m with next := (s'.msgs m).next } := by
    intro y
    rw [f6 y]
    simp only [State.setNext, State.setMsg, upd]
    split
    · rename_i e; subst e; rfl
    · rfl
  refine ⟨s', A, B, h1, h2, h3, h4, ?_, f1, f2, f3, f4, f5, f6'⟩
  have g1 : ∀ m, (s'.msgs m).to = (s.msgs m).to := fun m => by rw [f6' m]
  have g2 : ∀ m, (s'.msgs m).cont = (s.msgs m).cont := fun m => by rw [f6' m]
  have g3 : ∀ m, (s'.msgs m).waiting = (s.msgs m).waiting := fun m => by rw [f6' m]
  have hmem : ∀ l y, y ∈ update (update ml (.fl w) t) .timer (A ++ x :: B) l → ∃ l', y ∈ ml l' := by
    intro l y hy
    by_cases e : l = .timer
    · subst e
      rw [update_self, List.mem_append, List.mem_cons] at hy
      rcases hy with hy | rfl | hy
      · exact ⟨.timer, by rw [h2]; simp [hy]⟩
      · exact ⟨_, hx⟩
      · exact ⟨.timer, by rw [h2]; simp [hy]⟩
    · rw [update_of_ne e] at hy
      by_cases e2 : l = .fl w
      · subst e2; rw [update_self] at hy; exact ⟨_, by rw [ht]; simp [hy]⟩
      · rw [update_of_ne e2] at hy; exact ⟨_, hy⟩
  refine core_mmove h (w := w) ?_ ?_ f3 ?_ ?_ (by simp only [State.setWk, f4]; exact Nat.le_refl _) ?_ ?_ ?_ ?_ ?_ ?_ (by rw [hw]; rfl) (by rw [hw]; rfl)
    ?_ ?_ ?_ ?_ ?_ ?_ ?_
  · intro w' hw'; simp only [State.setWk, upd_ne _ hw', f2, State.setNext, State.setMsg]
  · intro a'; simp only [State.setWk, f1]; rfl
  · refine h5.congr ?_ (fun _ => rfl) (fun _ => rfl)
    intro l _
    cases l with
    | mq a => simp [headM, State.setWk, State.setNext, State.setMsg, f1]
    | out a => simp [headM, State.setWk, State.setNext, State.setMsg, f1]
    | fl w' =>
      simp only [headM, State.setWk, State.setNext, State.setMsg, f2]
      by_cases e : w' = w
      · subst e; simp [nxM]
      · simp [Function.update_apply, e, upd_ne _ e, headM]
    | timer => simp [headM, State.setWk, State.setNext, State.setMsg]
    | held w' =>
      simp only [headM, State.setWk, State.setNext, State.setMsg, f2]
      by_cases e : w' = w
      · subst e; simp [headM, hw, heldPtr]
      · simp [Function.update_apply, upd_ne _ e, headM]
  · intro a'; simp
  · intro y _; simp only [State.setWk, g1]
  · intro y _; simp only [State.setWk, g2]
  · intro y _; simp only [State.setWk, g2]
  · intro y; simp only [State.setWk, g3]
  · intro l y hy
    obtain ⟨l', h6⟩ := hmem l y hy
    simp only [State.setWk, f4]
    exact h.mlt _ _ h6
  · intro y l hy _; exact hmem l y hy
  · simp only [State.setWk, upd_self, owner_contPh, hw]; rfl
  · intro b hb
    simp only [State.setWk, upd_self] at hb
    obtain ⟨rfl, rfl⟩ := poster_contPh hb
    rw [hw]; rfl
  · intro q hq
    simp only [State.setWk, upd_self] at hq
    rw [curOf_contPh hq, hw]; rfl
  · simp [State.setWk]
  · simp [State.setWk]
  · simp [State.setWk]
  · simp only [State.setWk, upd_self]; exact markOk_contPh (markOk_loop hmk)

end Verif.Rts
