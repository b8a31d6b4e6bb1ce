import Verif.Rts.Steps2
/-!
# Preservation of the invariant, step by step (continued)
-/
namespace Verif.Rts
open Verif Function

variable {s : State} {ml : MLoc → List Nat} {al : ALoc → List Nat}

/-- What `ENQ_msg` does not change. -/
theorem enqMsg_frame (s : State) (x b : Nat) :
    (enqMsg s x b).1.wk = s.wk ∧ (enqMsg s x b).1.rqs = s.rqs ∧ (enqMsg s x b).1.timerQ = s.timerQ ∧
    (enqMsg s x b).1.nmsg = s.nmsg ∧ (enqMsg s x b).1.log = s.log ∧
    (∀ m, (enqMsg s x b).1.msgs m = { s.msgs m with next := ((enqMsg s x b).1.msgs m).next }) ∧
    (∀ a, (enqMsg s x b).1.actors a = { s.actors a with msg := ((enqMsg s x b).1.actors a).msg, tail := ((enqMsg s x b).1.actors a).tail }) ∧
    (∀ a, a ≠ b → (enqMsg s x b).1.actors a = s.actors a) ∧ ((enqMsg s x b).1.actors b).tail = some x ∧
    ((enqMsg s x b).1.actors b).msg = if (s.actors b).tail = none then some x else (s.actors b).msg := by
  cases ht : (s.actors b).tail with
  | none =>
    simp only [enqMsg, State.setNext, State.setMsg, ht]
    refine ⟨rfl, rfl, rfl, rfl, rfl, ?_, ?_, ?_, by simp [State.setActor], by simp [State.setActor]⟩
    · intro m; simp only [State.setActor, upd]; split <;> simp_all
    · intro a; simp only [State.setActor, upd]; split <;> simp_all
    · intro a ha; simp [State.setActor, upd, ha]
  | some t =>
    simp only [enqMsg, State.setNext, State.setMsg, ht]
    refine ⟨rfl, rfl, rfl, rfl, rfl, ?_, ?_, ?_, by simp [State.setActor], by simp [State.setActor]⟩
    · intro m; simp only [State.setActor, upd]; split <;> (try split) <;> simp_all
    · intro a; simp only [State.setActor, upd]; split <;> simp_all
    · intro a ha; simp [State.setActor, upd, ha]

/-- `ENQ_msg` on the lists. -/
theorem enqMsg_LL {x b : Nat} {hd : MLoc → Option Nat} (hM : LL linkedM (nxM s) hd ml) (hf : Free ml x)
    (htail : (s.actors b).tail = (ml (.mq b)).getLast?) (hmsg : hd (.mq b) = (s.actors b).msg) :
    LL linkedM (nxM (enqMsg s x b).1) (update hd (.mq b) (((enqMsg s x b).1.actors b).msg))
      (update ml (.mq b) (ml (.mq b) ++ [x])) ∧ (enqMsg s x b).2 = decide (ml (.mq b) = []) := by
  cases ht : (s.actors b).tail with
  | none =>
    rw [ht] at htail
    have hnil := List.getLast?_eq_none_iff.1 htail.symm
    simp only [enqMsg, State.setNext, State.setMsg, ht]
    refine ⟨hM.append hf ?_ ?_ ?_ ?_ trivial, by simp [hnil]⟩
    · intro y hy _; simp [nxM, State.setActor, upd_ne _ hy]
    · simp [nxM, State.setActor]
    · intro t h1; rw [hnil] at h1; simp at h1
    · simp [State.setActor, hnil]
  | some t =>
    rw [ht] at htail
    have hne : ml (.mq b) ≠ [] := by intro e; rw [e] at htail; simp at htail
    have htm : t ∈ ml (.mq b) := List.mem_of_getLast? htail.symm
    have htx : t ≠ x := by rintro rfl; exact hf _ htm
    simp only [enqMsg, State.setNext, State.setMsg, ht]
    refine ⟨hM.append hf ?_ ?_ ?_ ?_ trivial, by simp [hne]⟩
    · intro y hy hyt
      have : y ≠ t := by rintro rfl; exact hyt htail.symm
      simp [nxM, State.setActor, upd_ne _ hy, upd_ne _ this]
    · simp [nxM, State.setActor, upd_ne _ htx.symm]
    · intro t' h1
      rw [← htail] at h1
      cases h1
      simp [nxM, State.setActor]
    · simp [State.setActor, hne, hmsg]

/-- The lists after `ENQ_msg` and `ENQ_ready` still to be done. -/
def enqAl (ml : MLoc → List Nat) (al : ALoc → List Nat) (w b : Nat) : ALoc → List Nat :=
  if ml (.mq b) = [] then update al (.rdy w) [b] else al

/-- A message `x`, in no list of `ml0`, goes to the queue of `b`; then phase `P`. -/
theorem core_enq (h : Core s ml al) {w x b : Nat} {s0 : State} {ml0 : MLoc → List Nat} {hd0 : MLoc → Option Nat}
    {P : Phase} (e1 : s0.wk = s.wk) (e2 : s0.actors = s.actors) (e3 : s0.rqs = s.rqs)
    (hM : LL linkedM (nxM s0) hd0 ml0) (hF : Free ml0 x) (hmq : ∀ a, ml0 (.mq a) = ml (.mq a))
    (hhd : ∀ l, hd0 l = headM (s0.setWk w P) l) (hn : s.nmsg ≤ s0.nmsg) (hxn : x < s0.nmsg)
    (hxto : (s0.msgs x).to = b) (hxnf : ¬ s0.frozen x)
    (hto : ∀ m, m < s.nmsg → (s0.msgs m).to = (s.msgs m).to)
    (hcont : ∀ m, m < s.nmsg → (s0.msgs m).cont = (s.msgs m).cont)
    (hcont' : ∀ m, s0.nmsg ≤ m → (s0.msgs m).cont = (s.msgs m).cont)
    (hwait : ∀ m, (s0.msgs m).waiting = (s.msgs m).waiting)
    (hsub : ∀ l m, m ∈ ml0 l → ∃ l', m ∈ ml l')
    (hf : frozenOf (s.wk w) = none) (hr : rdys (s.wk w) = [])
    (ho : owner P = owner (s.wk w)) (hp : ∀ a, poster P = some a → poster (s.wk w) = some a)
    (hc : ∀ q, curOf P = some q → curOf (s.wk w) = some q)
    (hfP : frozenOf P = none) (hrP : rdys P = []) (hwP : wakePtr P = none) (hmk : markOk P) :
    Core ((enqMsg s0 x b).1.setWk w (if (enqMsg s0 x b).2 then .rdy b P else P))
      (update ml0 (.mq b) (ml (.mq b) ++ [x])) (enqAl ml al w b) := by
  obtain ⟨f1, f2, f3, f4, f5, f6, f7, f8, f9, f10⟩ := enqMsg_frame s0 x b
  have hml : ml0 (.mq b) = ml (.mq b) := hmq b
  obtain ⟨M1, M2⟩ := enqMsg_LL (s := s0) hM hF (by rw [e2, hml]; exact h.mtail b)
    (by rw [hhd]; rfl)
  rw [hml] at M1 M2
  generalize hs1 : (enqMsg s0 x b).1 = s1 at *
  generalize hb1 : (enqMsg s0 x b).2 = r1 at *
  have g1 : ∀ m, (s1.msgs m).to = (s0.msgs m).to := fun m => by rw [f6 m]
  have g2 : ∀ m, (s1.msgs m).cont = (s0.msgs m).cont := fun m => by rw [f6 m]
  have g3 : ∀ m, (s1.msgs m).waiting = (s0.msgs m).waiting := fun m => by rw [f6 m]
  have g4 : ∀ a, (s1.actors a).next = (s.actors a).next := fun a => by rw [f7 a, e2]
  have g5 : ∀ a, (s1.actors a).outgoing = (s.actors a).outgoing := fun a => by rw [f7 a, e2]
  have g6 : ∀ a, (s1.actors a).waitsfor = (s.actors a).waitsfor := fun a => by rw [f7 a, e2]
  have g7 : ∀ a, (s1.actors a).catcher = (s.actors a).catcher := fun a => by rw [f7 a, e2]
  have hrdy : al (.rdy w) = [] := by rw [h.rdy, hr]
  have hwake : al (.wake w) = [] := h.wake_nil hf
  have hwp := h.wakePtr_none hf
  have hfz : ∀ m, m < s.nmsg → ((s1.setWk w (if r1 then .rdy b P else P)).frozen m ↔ s.frozen m) := by
    intro m hm
    simp only [State.frozen, State.setWk, g2, hcont m hm]
  have hQ : ∀ f : Phase → Option Nat, (∀ b k, f (.rdy b k) = f k) → f (if r1 then .rdy b P else P) = f P := by
    intro f hf'; split <;> simp [hf']
  have hQo : owner (if r1 then .rdy b P else P) = owner P := hQ owner (fun _ _ => rfl)
  have hQp : poster (if r1 then .rdy b P else P) = poster P := hQ poster (fun _ _ => rfl)
  have hQf : flPtr (if r1 then .rdy b P else P) = flPtr P := hQ flPtr (fun _ _ => rfl)
  have hQw : wakePtr (if r1 then .rdy b P else P) = wakePtr P := hQ wakePtr (fun _ _ => rfl)
  have hQh : heldPtr (if r1 then .rdy b P else P) = heldPtr P := hQ heldPtr (fun _ _ => rfl)
  have hQc : curOf (if r1 then .rdy b P else P) = curOf P := by split <;> rfl
  have hQz : frozenOf (if r1 then .rdy b P else P) = frozenOf P := by split <;> rfl
  have hQm : markOk (if r1 then .rdy b P else P) := by split <;> exact hmk
  have hmem : ∀ l m, m ∈ update ml0 (.mq b) (ml (.mq b) ++ [x]) l → m = x ∨ ∃ l', m ∈ ml l' := by
    intro l m hm
    by_cases e : l = .mq b
    · subst e
      rw [update_self, List.mem_append] at hm
      rcases hm with hm | hm
      · exact .inr ⟨_, hm⟩
      · left; simpa using hm
    · rw [update_of_ne e] at hm
      exact .inr (hsub l m hm)
  have hx : ∀ l, (∃ w, l = ALoc.rdy w) ∨ enqAl ml al w b l = al l := by
    intro l
    unfold enqAl
    split
    · by_cases e : l = .rdy w
      · exact .inl ⟨w, e⟩
      · right; rw [update_of_ne e]
    · exact .inr rfl
  have hfreeb : ml (.mq b) = [] → ∀ l, b ∉ al l := by
    intro hm l hl
    exact (h.live b).1 ⟨l, hl⟩ hm
  refine core_step h w ?_ ?_ ?_ ?_ ?_ ?_ ?_ ?_ ?_ ?_ ?_ ?_ ?_ ?_ ?_ ?_ ?_ ?_ ?_ ?_ ?_ ?_ ?_ ?_ ?_ ?_ ?_ ?_ ?_ ?_
  case refine_1 => intro w' hw'; simp only [State.setWk, upd_ne _ hw', f1, e1]
  case refine_2 =>
    intro w' hw'
    unfold enqAl
    split <;> simp [Function.update_apply, hw']
  case refine_3 => simp only [State.setWk, f4]; exact hn
  case refine_4 => intro m hm; simp only [State.setWk, g1]; exact hto m hm
  case refine_5 => intro m hm; exact (hfz m hm).2
  case refine_6 => intro m hm; simp only [State.setWk, f4] at hm; simp only [State.setWk, g2]; exact hcont' m hm
  case refine_7 =>
    refine M1.congr ?_ (fun _ => rfl) (fun _ => rfl)
    intro l _
    by_cases e : l = .mq b
    · subst e; simp [headM, State.setWk]
    · rw [update_of_ne e, hhd]
      cases l with
      | mq a =>
        have : a ≠ b := by rintro rfl; exact e rfl
        simp [headM, State.setWk, f8 a this]
      | out a => simp [headM, State.setWk, g5, e2]
      | fl w' =>
        simp only [headM, State.setWk, f1]
        by_cases e : w' = w
        · subst e; simp [hQf]
        · simp [upd_ne _ e]
      | timer => simp [headM, State.setWk, f3]
      | held w' =>
        simp only [headM, State.setWk, f1]
        by_cases e : w' = w
        · subst e; simp [hQh]
        · simp [upd_ne _ e]
  case refine_8 =>
    have hhA : ∀ l, linkedA l → headA (s1.setWk w (if r1 then .rdy b P else P)) l = headA s l := by
      intro l _
      cases l with
      | ready i => simp [headA, State.setWk, f2, e3]
      | waiting m => simp [headA, State.setWk, g3, hwait]
      | wake w' =>
        simp only [headA, State.setWk, f1, e1]
        by_cases e : w' = w
        · subst e; simp [hQw, hwP, hwp]
        · simp [upd_ne _ e]
      | own _ => rfl
      | rdy _ => rfl
    unfold enqAl
    by_cases hm : ml (.mq b) = []
    · rw [if_pos hm]
      refine (h.A.put (l := .rdy w) (x := b) (hfreeb hm) id none).congr ?_ (fun y => by simp [nxA, State.setWk, g4]) (fun _ => rfl)
      intro l hl
      rw [hhA l hl]
      by_cases e : l = .rdy w
      · subst e; exact hl.elim
      · rw [update_of_ne e]
    · rw [if_neg hm]
      exact h.A.congr hhA (fun y => by simp [nxA, State.setWk, g4]) (fun _ => rfl)
  case refine_9 =>
    intro a
    simp only [State.setWk]
    by_cases e : a = b
    · subst e; simp [f9]
    · rw [f8 a e, e2, h.mtail]
      simp [Function.update_apply, e, hmq]
  case refine_10 =>
    intro i
    simp only [State.setWk, f2, e3, h.rtail]
    rcases hx (.ready i) with ⟨_, h1⟩ | h1
    · cases h1
    · rw [h1]
  case refine_11 =>
    simp only [State.setWk, upd_self, hQo, ho, ← h.own]
    rcases hx (.own w) with ⟨_, h1⟩ | h1
    · cases h1
    · rw [h1]
  case refine_12 =>
    simp only [State.setWk, upd_self, M2]
    unfold enqAl
    by_cases e : ml (.mq b) = []
    · simp [e, rdys, hrP]
    · simp [e, hrP, hrdy]
  case refine_13 =>
    intro a
    by_cases e : ml (.mq b) = []
    · unfold enqAl
      rw [if_pos e]
      by_cases ea : a = b
      · subst ea
        simp only [update_self]
        exact ⟨fun _ => by simp, fun _ => ⟨.rdy w, by simp⟩⟩
      · rw [show update ml0 (.mq b) (ml (.mq b) ++ [x]) (.mq a) = ml (.mq a) by simp [Function.update_apply, ea, hmq], ← h.live a]
        constructor
        · rintro ⟨l, hl⟩
          by_cases e2 : l = .rdy w
          · subst e2; simp [ea] at hl
          · rw [update_of_ne e2] at hl; exact ⟨l, hl⟩
        · rintro ⟨l, hl⟩
          have e2 : l ≠ .rdy w := by rintro rfl; rw [hrdy] at hl; simp at hl
          exact ⟨l, by rw [update_of_ne e2]; exact hl⟩
    · unfold enqAl
      rw [if_neg e, h.live a]
      by_cases ea : a = b
      · subst ea; simp [e]
      · simp [Function.update_apply, ea, hmq]
  case refine_14 =>
    intro a m hm hm'
    simp only [State.setWk, g1]
    by_cases e : a = b
    · subst e
      rw [update_self, List.mem_append] at hm
      rcases hm with hm | hm
      · exact absurd hm hm'
      · simp at hm; subst hm; exact hxto
    · rw [update_of_ne (by simpa using e), hmq] at hm
      exact absurd hm hm'
  case refine_15 =>
    intro l m hm
    simp only [State.setWk, f4]
    rcases hmem l m hm with rfl | ⟨l', h1⟩
    · exact hxn
    · have := h.mlt _ _ h1; omega
  case refine_16 =>
    intro a m hm _
    by_cases e : a = b
    · subst e; simp [hm]
    · simp [Function.update_apply, e, hmq, hm]
  case refine_17 =>
    intro a m hm
    simp only [State.setWk, upd_self, hQc] at hm
    have := h.cur w a m (hc _ hm)
    by_cases e : a = b
    · subst e; simp [this]
    · simp [Function.update_apply, e, hmq, this]
  case refine_18 => intro a ha; simp only [State.setWk, upd_self, hQp] at ha; exact .inl (hp a ha)
  case refine_19 => intro a ha; simp only [State.setWk, upd_self, hQo, ho] at ha; exact .inl ha
  case refine_20 =>
    intro m l hm hfm
    rcases hmem l m hm with rfl | h1
    · simp only [State.frozen, State.setWk, g2] at hfm; exact absurd hfm hxnf
    · exact h1
  case refine_21 => intro m hm hfm; exact .inl ((hfz m hm).1 hfm)
  case refine_22 => intro a m hm; rw [hf] at hm; cases hm
  case refine_23 =>
    intro m hm
    rcases hx (.waiting m) with ⟨_, h1⟩ | h1
    · cases h1
    · rw [h1]
      by_cases hlt : m < s.nmsg
      · exact h.frzW m ((hfz m hlt).1 hm)
      · exact h.frzW m (h.fresh m (by omega))
  case refine_24 => intro a m hm; simp only [State.setWk, upd_self, hQz, hfP] at hm; cases hm
  case refine_25 =>
    intro a y ha
    simp only [State.setWk, g6]
    rcases hx (.waiting y) with ⟨_, h1⟩ | h1
    · cases h1
    · rw [h1] at ha; exact h.wait a y ha
  case refine_26 => intro b' w' _ _; simp only [State.setWk, g6]
  case refine_27 =>
    intro b' hb'
    rcases hx (.wake w) with ⟨_, h1⟩ | h1
    · cases h1
    · rw [h1, hwake] at hb'; simp at hb'
  case refine_28 =>
    intro a ha
    simp only [State.setWk, g6] at ha
    rcases h.nowait a ha with ⟨y, hy⟩ | ⟨y, hy⟩
    · rcases hx (.waiting y) with ⟨_, h1⟩ | h1
      · cases h1
      · exact .inl ⟨y, by rw [h1]; exact hy⟩
    · rcases hx (.wake y) with ⟨_, h1⟩ | h1
      · cases h1
      · exact .inr ⟨y, by rw [h1]; exact hy⟩
  case refine_29 => simp only [State.setWk, upd_self]; exact hQm
  case refine_30 => intro a c hc'; simp only [State.setWk, g7] at hc'; exact h.catch_ a c hc'

end Verif.Rts
