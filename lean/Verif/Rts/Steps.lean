import Verif.Rts.Inv
import Mathlib.Data.List.Perm.Subperm
/-!
# Preservation of the invariant, step by step
-/
namespace Verif.Rts
open Verif Function

variable {s : State} {ml : MLoc → List Nat} {al : ALoc → List Nat}

theorem Core.not_frozen (h : Core s ml al) {l : MLoc} {m : Nat} (hm : m ∈ ml l) (hl : ∀ a, l ≠ .mq a) :
    ¬ s.frozen m := by
  intro hf
  obtain ⟨w, a, h1⟩ := h.frz m l hm hf
  have := List.mem_of_head? (h.cur w a m (cur_of_frozenOf h1).1)
  exact hl a (h.M.disj _ _ m hm this)

/-- The continuation of the head message of the queue is started. -/
theorem core_got (h : Core s ml al) {w a : Nat} (hw : s.wk w = .got a) :
    ∃ m, (s.actors a).msg = some m ∧ (ml (.mq a)).head? = some m ∧ ¬ s.frozen m ∧
      ∀ e, Core ((s.emit e).setWk w (.run a m)) ml al := by
  have ho : owner (s.wk w) = some a := by rw [hw]; rfl
  have hne : ml (.mq a) ≠ [] := (h.live a).1 ⟨_, h.mem_own.2 ho⟩
  obtain ⟨m, t, hm⟩ := List.exists_cons_of_ne_nil hne
  have hh : (ml (.mq a)).head? = some m := by rw [hm]; rfl
  have hmsg : (s.actors a).msg = some m := by rw [← hh]; exact h.headM_eq (.mq a)
  refine ⟨m, hmsg, hh, ?_, ?_⟩
  · intro hf
    have := h.head_frozen ho hh hf
    rw [hw] at this
    cases this
  · intro e
    have hrdy : al (.rdy w) = [] := by rw [h.rdy, hw]; rfl
    have hwake : al (.wake w) = [] := h.wake_nil (by rw [hw]; rfl)
    have hown : al (.own w) = [a] := by rw [h.own, hw]; rfl
    refine core_step h w ?_ ?_ ?_ ?_ ?_ ?_ ?_ ?_ ?_ ?_ ?_ ?_ ?_ ?_ ?_ ?_ ?_ ?_ ?_ ?_ ?_ ?_ ?_ ?_ ?_ ?_ ?_ ?_ ?_ ?_
    all_goals try core_auto h
    · exact h.M.congr (by head_auto) (fun _ => rfl) (fun _ => rfl)
    · exact h.A.congr (by head_auto) (fun _ => rfl) (fun _ => rfl)

theorem core_log (h : Core s ml al) (e : List Event) : Core { s with log := e } ml al := by
  cases h
  constructor <;> assumption

theorem upd_same {β : Type} (f : Nat → β) (a : Nat) : upd f a (f a) = f := by
  funext b
  simp only [upd]
  split
  · rename_i e; rw [e]
  · rfl

/-- The handled message gets a continuation that is no mark. -/
theorem frozen_write (h : Core s ml al) {w a m c v : Nat} (ho : owner (s.wk w) = some a)
    (hc : curOf (s.wk w) = some (a, m)) (hf : frozenOf (s.wk w) = none) (hcv : 2 ≤ c ∨ c = (s.msgs m).cont)
    {s' : State} (hs : s'.msgs = upd s.msgs m { s.msgs m with cont := c, value := v }) (m' : Nat) :
    s'.frozen m' ↔ s.frozen m' := by
  have hnf : ¬ s.frozen m := by
    intro hf'
    rw [h.head_frozen ho (h.cur w a m hc) hf'] at hf
    cases hf
  have hnf2 : ¬ (c = MARK_RESULT ∨ c = MARK_EXCEPTION) := by
    rcases hcv with h1 | h1
    · simp only [MARK_RESULT, MARK_EXCEPTION]; omega
    · rw [h1]; exact hnf
  simp only [State.frozen, hs]
  by_cases e : m' = m
  · subst e
    simp only [upd_self]
    exact ⟨fun h => absurd h hnf2, fun h => absurd h hnf⟩
  · simp only [upd_ne _ e]

theorem no_poster {P : Phase} {a : Nat} (h : owner P = some a) : poster P = none := by
  cases hp : poster P with
  | none => rfl
  | some b => exact (owner_poster h hp).elim

theorem Core.wakePtr_none (h : Core s ml al) {w : Nat} (hw : frozenOf (s.wk w) = none) : wakePtr (s.wk w) = none := by
  have := (h.A.chain (.wake w) trivial).head
  rw [h.wake_nil hw] at this
  exact this

/-- The worker only changes its phase, and the actor, except for the links, and the message that it handles. -/
theorem core_phase (h : Core s ml al) {w a m c v : Nat} {P : Phase} {af : Nat} {ca : List (Nat × Nat)} (ho : owner (s.wk w) = some a)
    (hc : curOf (s.wk w) = some (a, m)) (hP : owner P = some a) (hcP : curOf P = some (a, m))
    (hf : frozenOf (s.wk w) = none) (hfP : frozenOf P = none) (hr : rdys (s.wk w) = []) (hrP : rdys P = [])
    (hfl : flPtr P = flPtr (s.wk w)) (hhe : heldPtr P = heldPtr (s.wk w)) (hwk : wakePtr P = none) (hmk : markOk P)
    (hcv : 2 ≤ c ∨ c = (s.msgs m).cont) (hca : ∀ d ∈ ca, 2 ≤ d.1) :
    Core (((s.setActor a { s.actors a with affinity := af, catcher := ca }).setMsg m
      { s.msgs m with cont := c, value := v }).setWk w P) ml al := by
  have hrdy : al (.rdy w) = [] := by rw [h.rdy, hr]
  have hwake : al (.wake w) = [] := h.wake_nil hf
  have hown : al (.own w) = [a] := by rw [h.own, ho]; rfl
  have hhead := h.cur w a m hc
  have hpP := no_poster hP
  have hwp := h.wakePtr_none hf
  have hlt := h.mlt _ _ (List.mem_of_head? hhead)
  have hfz := frozen_write h ho hc hf hcv (v := v) (s' := (((s.setActor a { s.actors a with affinity := af, catcher := ca }).setMsg m
      { s.msgs m with cont := c, value := v }).setWk w P)) rfl
  refine core_step h w ?_ ?_ ?_ ?_ ?_ ?_ ?_ ?_ ?_ ?_ ?_ ?_ ?_ ?_ ?_ ?_ ?_ ?_ ?_ ?_ ?_ ?_ ?_ ?_ ?_ ?_ ?_ ?_ ?_ ?_
  case refine_5 => intro m' _; exact (hfz m').2
  case refine_21 => intro m' _ hf; exact .inl ((hfz m').1 hf)
  case refine_23 => intro m' hf; exact h.frzW m' ((hfz m').1 hf)
  case refine_20 => intro m' l hm _; exact ⟨l, hm⟩
  case refine_6 =>
    intro m' hm'
    have : m' ≠ m := by rintro rfl; simp only [State.setMsg, State.setActor, State.setWk] at hm'; omega
    simp only [State.setMsg, State.setActor, State.setWk, upd_ne _ this]
  all_goals clear hfz
  case refine_30 =>
    intro a' d hd
    simp only [State.setMsg, State.setActor, State.setWk] at hd
    by_cases e : a' = a
    · subst e; simp only [upd_self] at hd; exact hca d hd
    · simp only [upd_ne _ e] at hd; exact h.catch_ a' d hd
  all_goals try core_auto h
  · exact h.M.congr (by head_auto) (fun x => by simp [nxM, State.setMsg, State.setActor, State.setWk]) (fun _ => rfl)
  · refine h.A.congr (by head_auto) (fun y => by simp [nxA, State.setMsg, State.setActor, State.setWk]) (fun _ => rfl)

/-- The worker is about to make the actor that it handles ready. -/
theorem core_rdy (h : Core s ml al) {w a m c v : Nat} {ca : List (Nat × Nat)} (ho : owner (s.wk w) = some a)
    (hc : curOf (s.wk w) = some (a, m)) (hf : frozenOf (s.wk w) = none) (hr : rdys (s.wk w) = [])
    (hfl : flPtr (s.wk w) = none) (hhe : heldPtr (s.wk w) = none)
    (hcv : 2 ≤ c ∨ c = (s.msgs m).cont) (hca : ∀ d ∈ ca, 2 ≤ d.1) :
    Core (((s.setActor a { s.actors a with catcher := ca }).setMsg m
      { s.msgs m with cont := c, value := v }).setWk w (.rdy a .idle)) ml (update (update al (.own w) []) (.rdy w) [a]) := by
  have hrdy : al (.rdy w) = [] := by rw [h.rdy, hr]
  have hwake : al (.wake w) = [] := h.wake_nil hf
  have hown : al (.own w) = [a] := by rw [h.own, ho]; rfl
  have hhead := h.cur w a m hc
  have hwp := h.wakePtr_none hf
  have hlt := h.mlt _ _ (List.mem_of_head? hhead)
  have hfz := frozen_write h ho hc hf hcv (v := v) (s' := (((s.setActor a { s.actors a with catcher := ca }).setMsg m
      { s.msgs m with cont := c, value := v }).setWk w (.rdy a .idle))) rfl
  refine core_step h w ?_ ?_ ?_ ?_ ?_ ?_ ?_ ?_ ?_ ?_ ?_ ?_ ?_ ?_ ?_ ?_ ?_ ?_ ?_ ?_ ?_ ?_ ?_ ?_ ?_ ?_ ?_ ?_ ?_ ?_
  case refine_5 => intro m' _; exact (hfz m').2
  case refine_21 => intro m' _ hf; exact .inl ((hfz m').1 hf)
  case refine_23 => intro m' hf; simpa using h.frzW m' ((hfz m').1 hf)
  case refine_20 => intro m' l hm _; exact ⟨l, hm⟩
  case refine_6 =>
    intro m' hm'
    have : m' ≠ m := by rintro rfl; simp only [State.setMsg, State.setActor, State.setWk] at hm'; omega
    simp only [State.setMsg, State.setActor, State.setWk, upd_ne _ this]
  all_goals clear hfz
  case refine_30 =>
    intro a' d hd
    simp only [State.setMsg, State.setActor, State.setWk] at hd
    by_cases e : a' = a
    · subst e; simp only [upd_self] at hd; exact hca d hd
    · simp only [upd_ne _ e] at hd; exact h.catch_ a' d hd
  case refine_8 =>
    obtain ⟨A1, A2⟩ := h.A.pop hown (nx' := nxA s) (by simp)
    refine (A1.put (l := .rdy w) A2 id none).congr (by head_auto)
      (fun y => by simp [nxA, State.setMsg, State.setActor, State.setWk]) (fun _ => rfl)
  case refine_7 =>
    exact h.M.congr (by head_auto) (fun x => by simp [nxM, State.setMsg, State.setActor, State.setWk]) (fun _ => rfl)
  case refine_13 =>
    intro a'
    rw [ex_move (by simp) (by intro x; simp [hrdy, hown]), h.live]
  all_goals try core_auto h

/-- `reverse_outgoing_queue`, then a new phase. -/
theorem core_rev (h : Core s ml al) {w a m : Nat} {P : Phase} (ho : owner (s.wk w) = some a)
    (hc : curOf (s.wk w) = some (a, m)) (hP : owner P = some a) (hcP : curOf P = some (a, m))
    (hf : frozenOf (s.wk w) = none) (hfP : frozenOf P = none) (hr : rdys (s.wk w) = []) (hrP : rdys P = [])
    (hfl : flPtr P = flPtr (s.wk w)) (hhe : heldPtr P = heldPtr (s.wk w)) (hwk : wakePtr P = none) (hmk : markOk P) :
    ∃ s', reverseOutgoing s a = .ok s' ∧ Core (s'.setWk w P) (update ml (.out a) (ml (.out a)).reverse) al ∧
      (∀ x, s'.msgs x = { s.msgs x with next := (s'.msgs x).next }) ∧ s'.nmsg = s.nmsg ∧ s'.log = s.log ∧ s'.wk = s.wk ∧
      s'.timerQ = s.timerQ ∧
      (∀ x, s'.actors x = { s.actors x with outgoing := (s'.actors x).outgoing }) := by
  have hrdy : al (.rdy w) = [] := by rw [h.rdy, hr]
  have hwake : al (.wake w) = [] := h.wake_nil hf
  have hown : al (.own w) = [a] := by rw [h.own, ho]; rfl
  have hpP := no_poster hP
  have hwp := h.wakePtr_none hf
  have hnd := h.M.nodup (.out a)
  have hhead := h.cur w a m hc
  have hlen : (ml (.out a)).length ≤ s.nmsg := by
    have := (List.Nodup.subperm hnd (l₂ := List.range s.nmsg) (by
      intro x hx; rw [List.mem_range]; exact h.mlt _ _ hx)).length_le
    simpa using this
  obtain ⟨msgs', q, e1, e2, e3, e4⟩ := reverseLoop_spec s.nmsg (ml (.out a)) s.msgs (s.actors a).outgoing [] none
    (h.chainM (.out a)) rfl hnd (by simp) hlen
  rw [List.append_nil] at e2
  refine ⟨{ s with msgs := msgs' }.setActor a { s.actors a with outgoing := q },
    by simp only [reverseOutgoing, e1, Res.ok_bind]; rfl, ?_, e4, rfl, rfl, rfl, rfl, ?_⟩
  · have hm1 : ∀ x, (msgs' x).to = (s.msgs x).to := fun x => by rw [e4 x]
    have hm2 : ∀ x, (msgs' x).cont = (s.msgs x).cont := fun x => by rw [e4 x]
    have hm3 : ∀ x, (msgs' x).waiting = (s.msgs x).waiting := fun x => by rw [e4 x]
    have M1 := h.M.set (nx' := fun x => (msgs' x).next) (.out a) (ml (.out a)).reverse q (List.nodup_reverse.2 hnd)
      (by intro x hx; left; simpa using hx)
      (by
        intro l' x hne hx
        have : x ∉ ml (.out a) := fun hx' => hne (h.M.disj _ _ x hx hx')
        simp only [nxM]
        rw [e3 x this])
      (fun _ => e2)
    clear e1 e2 e3 e4 hlen hnd
    refine core_step h w ?_ ?_ ?_ ?_ ?_ ?_ ?_ ?_ ?_ ?_ ?_ ?_ ?_ ?_ ?_ ?_ ?_ ?_ ?_ ?_ ?_ ?_ ?_ ?_ ?_ ?_ ?_ ?_ ?_ ?_
    case refine_7 =>
      exact M1.congr (by head_auto) (fun x => by simp [nxM, State.setMsg, State.setActor, State.setWk]) (fun _ => rfl)
    case refine_8 =>
      exact h.A.congr (by head_auto) (fun x => by simp [nxA, State.setMsg, State.setActor, State.setWk]) (fun _ => rfl)
    case refine_15 =>
      intro l x hx
      by_cases e : l = .out a
      · subst e; simp at hx; exact h.mlt _ _ hx
      · rw [update_of_ne e] at hx; exact h.mlt _ _ hx
    case refine_20 =>
      intro x l hx _
      by_cases e : l = .out a
      · subst e; simp at hx; exact ⟨_, hx⟩
      · rw [update_of_ne e] at hx; exact ⟨_, hx⟩
    case refine_23 =>
      intro x hx
      apply h.frzW
      simp only [State.frozen, State.setActor, State.setWk, hm2] at hx ⊢
      exact hx
    all_goals clear M1
    all_goals try core_auto h
  · intro x
    simp only [State.setActor, upd]
    split
    · rename_i e; subst e; rfl
    · rfl

end Verif.Rts
