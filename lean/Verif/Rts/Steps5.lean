import Verif.Rts.Steps4
/-!
# Preservation of the invariant, step by step (end)
-/
namespace Verif.Rts
open Verif Function

variable {s : State} {ml : MLoc → List Nat} {al : ALoc → List Nat}

/-- The phase of the loop over the waiting actors. -/
def wakePh (a m mark v : Nat) : Option Nat → Phase
  | none => .deq a m
  | some b => .wake a m mark v b

theorem contWake_eq (s : State) (w a m mark v : Nat) (b : Option Nat) :
    contWake s w a m mark v b = s.setWk w (wakePh a m mark v b) := by cases b <;> rfl

section
variable (a m mark v : Nat) (b : Option Nat)
@[simp] theorem owner_wakePh : owner (wakePh a m mark v b) = some a := by cases b <;> rfl
@[simp] theorem poster_wakePh : poster (wakePh a m mark v b) = none := by cases b <;> rfl
@[simp] theorem curOf_wakePh : curOf (wakePh a m mark v b) = some (a, m) := by cases b <;> rfl
@[simp] theorem frozenOf_wakePh : frozenOf (wakePh a m mark v b) = some (a, m) := by cases b <;> rfl
@[simp] theorem rdys_wakePh : rdys (wakePh a m mark v b) = [] := by cases b <;> rfl
@[simp] theorem flPtr_wakePh : flPtr (wakePh a m mark v b) = none := by cases b <;> rfl
@[simp] theorem heldPtr_wakePh : heldPtr (wakePh a m mark v b) = none := by cases b <;> rfl
@[simp] theorem wakePtr_wakePh : wakePtr (wakePh a m mark v b) = b := by cases b <;> rfl
theorem markOk_wakePh (h : mark = MARK_RESULT ∨ mark = MARK_EXCEPTION) : markOk (wakePh a m mark v b) := by
  cases b
  · trivial
  · exact h
end

/-- `FREEZE_waiting`. -/
theorem core_freeze (h : Core s ml al) {w a m mark v : Nat} (hw : s.wk w = .freeze a m mark v) :
    Core ((s.setMsg m { s.msgs m with value := v, cont := mark, waiting := none }).setWk w
        (wakePh a m mark v (s.msgs m).waiting)) ml
      (update (update al (.waiting m) []) (.wake w) (al (.waiting m))) := by
  have ho : owner (s.wk w) = some a := by rw [hw]; rfl
  have hc : curOf (s.wk w) = some (a, m) := by rw [hw]; rfl
  have hf : frozenOf (s.wk w) = none := by rw [hw]; rfl
  have hrdy : al (.rdy w) = [] := by rw [h.rdy, hw]; rfl
  have hwake : al (.wake w) = [] := h.wake_nil hf
  have hown : al (.own w) = [a] := by rw [h.own, ho]; rfl
  have hhead := h.cur w a m hc
  have hmk : mark = MARK_RESULT ∨ mark = MARK_EXCEPTION := by have := h.mark w; rw [hw] at this; exact this
  have hmk' := markOk_wakePh a m mark v (s.msgs m).waiting hmk
  have hlt := h.mlt _ _ (List.mem_of_head? hhead)
  have hnf : ¬ s.frozen m := by
    intro hf'
    rw [h.head_frozen ho hhead hf'] at hf
    cases hf
  refine core_step h w ?_ ?_ ?_ ?_ ?_ ?_ ?_ ?_ ?_ ?_ ?_ ?_ ?_ ?_ ?_ ?_ ?_ ?_ ?_ ?_ ?_ ?_ ?_ ?_ ?_ ?_ ?_ ?_ ?_ ?_
  case refine_7 =>
    exact h.M.congr (by head_auto) (fun y => by simp [nxM, State.setMsg, State.setActor, State.setWk]) (fun _ => rfl)
  case refine_8 =>
    exact (h.A.move (l := .waiting m) (l' := .wake w) id).congr (by head_auto)
      (fun y => rfl) (fun _ => rfl)
  case refine_13 =>
    intro a'
    rw [ex_move (by simp) (by intro y; simp [hwake]), h.live]
  case refine_5 =>
    intro y _ hy
    have : y ≠ m := by rintro rfl; exact hnf hy
    simpa [State.frozen, State.setMsg, State.setWk, upd_ne _ this] using hy
  case refine_6 =>
    intro y hy
    have : y ≠ m := by rintro rfl; simp only [State.setMsg, State.setWk] at hy; omega
    simp only [State.setMsg, State.setWk, upd_ne _ this]
  case refine_21 =>
    intro y _ hy
    by_cases e : y = m
    · subst e; right; exact ⟨a, by simp [State.setWk]⟩
    · left; simpa [State.frozen, State.setMsg, State.setWk, upd_ne _ e] using hy
  case refine_23 =>
    intro y hy
    by_cases e : y = m
    · subst e; simp
    · simp [Function.update_apply, e]
      apply h.frzW
      simpa [State.frozen, State.setMsg, State.setWk, upd_ne _ e] using hy
  case refine_24 =>
    intro a' y hy
    simp only [State.setMsg, State.setWk, upd_self, frozenOf_wakePh] at hy
    cases hy
    simpa [State.frozen, State.setMsg, State.setWk] using hmk
  case refine_25 =>
    intro b y hb
    by_cases e : y = m
    · subst e; simp at hb
    · simp [Function.update_apply, e] at hb
      exact h.wait b y hb
  case refine_27 =>
    intro b hb
    simp at hb
    exact ⟨a, m, by simp [State.setWk], h.wait b m hb⟩
  case refine_28 =>
    intro b hb
    rcases h.nowait b hb with ⟨y, hy⟩ | ⟨w', hy⟩
    · by_cases e : y = m
      · subst e; exact .inr ⟨w, by simpa using hy⟩
      · exact .inl ⟨y, by simpa [Function.update_apply, e] using hy⟩
    · by_cases e : w' = w
      · subst e; rw [hwake] at hy; simp at hy
      · exact .inr ⟨w', by simpa [Function.update_apply, e] using hy⟩
  all_goals try core_auto h

/-- The head message of an actor that no worker handles is not frozen. -/
theorem Core.head_not_frozen (h : Core s ml al) {b x : Nat} {l : ALoc} (hl : b ∈ al l) (hno : ∀ w, l ≠ .own w)
    (hm : (ml (.mq b)).head? = some x) : ¬ s.frozen x := by
  intro hf
  have hm' := List.mem_of_head? hm
  obtain ⟨w, a, h1⟩ := h.frz x _ hm' hf
  have h2 := cur_of_frozenOf h1
  have e := h.M.disj _ _ x hm' (List.mem_of_head? (h.cur w a x h2.1))
  simp at e
  subst e
  exact hno w (h.A.disj _ _ _ hl (h.mem_own.2 h2.2.1))

/-- One round of the loop over the waiting actors. -/
theorem core_wake (h : Core s ml al) {w a m mark v b : Nat} (hw : s.wk w = .wake a m mark v b) :
    ∃ t x, al (.wake w) = b :: t ∧ (ml (.mq b)).head? = some x ∧ (s.actors b).msg = some x ∧ ¬ s.frozen x ∧
      (s.actors b).waitsfor = some m ∧
      ∀ c, (c = (s.msgs x).cont ∨ 2 ≤ c) →
      Core (((s.setMsg x { s.msgs x with value := v, cont := c }).setActor b { s.actors b with waitsfor := none }).setWk w
        (.rdy b (wakePh a m mark v (s.actors b).next))) ml (update (update al (.wake w) t) (.rdy w) [b]) := by
  have ho : owner (s.wk w) = some a := by rw [hw]; rfl
  have hc : curOf (s.wk w) = some (a, m) := by rw [hw]; rfl
  have hf : frozenOf (s.wk w) = some (a, m) := by rw [hw]; rfl
  have hrdy : al (.rdy w) = [] := by rw [h.rdy, hw]; rfl
  have hown : al (.own w) = [a] := by rw [h.own, ho]; rfl
  have hfm := h.frzO w a m hf
  have hch := h.A.chain (.wake w) trivial
  simp only [headA, hw, wakePtr] at hch
  obtain ⟨t, ht, hct⟩ := chain_some hch
  have hb : b ∈ al (.wake w) := by rw [ht]; simp
  have hne := (h.live b).1 ⟨_, hb⟩
  obtain ⟨x, u, hu⟩ := List.exists_cons_of_ne_nil hne
  have hhx : (ml (.mq b)).head? = some x := by rw [hu]; rfl
  have hnf := h.head_not_frozen hb (by simp) hhx
  have hhead := h.cur w a m hc
  have hmk : mark = MARK_RESULT ∨ mark = MARK_EXCEPTION := by have := h.mark w; rw [hw] at this; exact this
  have hmk' := markOk_wakePh a m mark v (s.actors b).next hmk
  have hlt := h.mlt _ _ (List.mem_of_head? hhx)
  obtain ⟨a', m', h1, h2⟩ := h.waitk b w hb
  rw [hf] at h1
  cases h1
  refine ⟨t, x, ht, hhx, by rw [← hhx]; exact h.headM_eq (.mq b), hnf, h2, ?_⟩
  intro c hcv
  have hnf2 : ¬ (c = MARK_RESULT ∨ c = MARK_EXCEPTION) := by
    rcases hcv with h1 | h1
    · rw [h1]; exact hnf
    · simp only [MARK_RESULT, MARK_EXCEPTION]; omega
  have hfz : ∀ y, (((s.setMsg x { s.msgs x with value := v, cont := c }).setActor b { s.actors b with waitsfor := none }).setWk w
        (.rdy b (wakePh a m mark v (s.actors b).next))).frozen y ↔ s.frozen y := by
    intro y
    by_cases e : y = x
    · subst e
      simp only [State.frozen, State.setMsg, State.setActor, State.setWk, upd_self]
      exact ⟨fun h => absurd h hnf2, fun h => absurd h hnf⟩
    · simp only [State.frozen, State.setMsg, State.setActor, State.setWk, upd_ne _ e]
  have hfree : ∀ l, l ≠ .wake w → b ∉ al l := by
    intro l hl hm
    exact hl (h.A.disj _ _ b hm hb)
  have hbt : b ∉ t := by
    have := h.A.nodup (.wake w)
    rw [ht, List.nodup_cons] at this
    exact this.1
  have hnx := hct.head
  refine core_step h w ?_ ?_ ?_ ?_ ?_ ?_ ?_ ?_ ?_ ?_ ?_ ?_ ?_ ?_ ?_ ?_ ?_ ?_ ?_ ?_ ?_ ?_ ?_ ?_ ?_ ?_ ?_ ?_ ?_ ?_
  case refine_5 => intro y _ hy; exact (hfz y).2 hy
  case refine_6 =>
    intro y hy
    have : y ≠ x := by rintro rfl; simp only [State.setMsg, State.setActor, State.setWk] at hy; omega
    simp only [State.setMsg, State.setActor, State.setWk, upd_ne _ this]
  case refine_20 => intro y l hy _; exact ⟨l, hy⟩
  case refine_21 => intro y _ hy; exact .inl ((hfz y).1 hy)
  case refine_23 => intro y hy; simpa using h.frzW y ((hfz y).1 hy)
  case refine_24 =>
    intro a' y hy
    simp only [State.setMsg, State.setActor, State.setWk, upd_self, frozenOf, frozenOf_wakePh] at hy
    cases hy
    exact (hfz m).2 hfm
  case refine_7 =>
    exact h.M.congr (by clear hfz; head_auto) (fun y => by simp [nxM, State.setMsg, State.setActor, State.setWk]) (fun _ => rfl)
  case refine_8 =>
    obtain ⟨A1, A2⟩ := h.A.pop ht (nx' := nxA s) (by simp)
    refine (A1.put (l := .rdy w) A2 id none).congr (by clear hfz A1 A2; head_auto)
      (fun y => by simp [nxA, State.setMsg, State.setActor, State.setWk]) (fun _ => rfl)
  case refine_13 =>
    intro a'
    rw [ex_move (by simp) (by intro y; simp [hrdy, ht, or_comm]), h.live]
  case refine_25 =>
    intro b' y hb'
    simp only [Function.update_apply, reduceCtorEq, if_false] at hb'
    have : b' ≠ b := by rintro rfl; exact hfree _ (by simp) hb'
    simp only [State.setMsg, State.setActor, State.setWk, upd_ne _ this]
    exact h.wait b' y hb'
  case refine_26 =>
    intro b' w' hw' hb'
    have : b' ≠ b := by rintro rfl; exact hfree _ (by simpa using hw') hb'
    simp only [State.setMsg, State.setActor, State.setWk, upd_ne _ this]
  case refine_27 =>
    intro b' hb'
    simp only [Function.update_apply, reduceCtorEq, if_false, if_true] at hb'
    have : b' ≠ b := by rintro rfl; exact hbt hb'
    obtain ⟨a'', m'', h3, h4⟩ := h.waitk b' w (by rw [ht]; simp [hb'])
    rw [hf] at h3
    cases h3
    refine ⟨a, m, by simp [State.setWk, frozenOf], ?_⟩
    simp only [State.setMsg, State.setActor, State.setWk, upd_ne _ this]
    exact h4
  case refine_28 =>
    intro b' hb'
    by_cases e : b' = b
    · subst e; simp [State.setMsg, State.setActor, State.setWk] at hb'
    · simp only [State.setMsg, State.setActor, State.setWk, upd_ne _ e] at hb'
      rcases h.nowait b' hb' with ⟨y, hy⟩ | ⟨w', hy⟩
      · exact .inl ⟨y, by simpa [Function.update_apply] using hy⟩
      · right
        by_cases e2 : w' = w
        · subst e2
          rw [ht, List.mem_cons] at hy
          exact ⟨w', by simpa [Function.update_apply] using hy.resolve_left e⟩
        · exact ⟨w', by simpa [Function.update_apply, e2] using hy⟩
  all_goals clear hfz hfree hbt hnf2
  all_goals try core_auto h

/-- `DEQ_msg`. -/
theorem core_deq (h : Core s ml al) {w a m : Nat} (hw : s.wk w = .deq a m) :
    ∃ t, ml (.mq a) = m :: t ∧ (deqMsg s a).2 = decide (t ≠ []) ∧
      (deqMsg s a).1 = (s.setNext m none).setActor a { s.actors a with
        msg := t.head?, tail := if t.head? = none then none else (s.actors a).tail } ∧
      Core ((deqMsg s a).1.setWk w (if (deqMsg s a).2 then .rdy a .idle else .idle)) (update ml (.mq a) t)
        (update (update al (.own w) []) (.rdy w) (if t = [] then [] else [a])) := by
  have ho : owner (s.wk w) = some a := by rw [hw]; rfl
  have hc : curOf (s.wk w) = some (a, m) := by rw [hw]; rfl
  have hf : frozenOf (s.wk w) = some (a, m) := by rw [hw]; rfl
  have hrdy : al (.rdy w) = [] := by rw [h.rdy, hw]; rfl
  have hown : al (.own w) = [a] := by rw [h.own, ho]; rfl
  have hhead := h.cur w a m hc
  have hfree : ∀ l, l ≠ .own w → a ∉ al l := by
    intro l hl hm
    exact hl (h.A.disj _ _ a hm (by rw [hown]; simp))
  have hwk : al (.wake w) = [] := by
    have := h.A.chain (.wake w) trivial
    simp only [headA, hw, wakePtr] at this
    exact chain_nil this
  obtain ⟨t, ht⟩ : ∃ t, ml (.mq a) = m :: t := by
    cases hq : ml (.mq a) with
    | nil => rw [hq] at hhead; simp at hhead
    | cons y t => rw [hq] at hhead; simp at hhead; exact ⟨t, by rw [hhead]⟩
  have hch := h.chainM (.mq a)
  rw [ht] at hch
  have hmsg : (s.actors a).msg = some m := hch.1
  have hnx : (s.msgs m).next = t.head? := hch.2.head
  have hd1 : (deqMsg s a).1 = (s.setNext m none).setActor a { s.actors a with
        msg := t.head?, tail := if t.head? = none then none else (s.actors a).tail } := by
    simp only [deqMsg, hmsg, hnx]
    rfl
  have hd2 : (deqMsg s a).2 = decide (t ≠ []) := by
    simp only [deqMsg, hmsg, hnx]
    cases t <;> simp
  refine ⟨t, ht, hd2, hd1, ?_⟩
  rw [hd1, hd2]
  obtain ⟨M1, M2⟩ := h.M.pop ht (nx' := nxM (s.setNext m none)) (by
    intro y hy; simp [nxM, State.setNext, State.setMsg, upd_ne _ hy])
  have hph : owner (if decide (t ≠ []) = true then Phase.rdy a .idle else .idle) = none ∧
      poster (if decide (t ≠ []) = true then Phase.rdy a .idle else .idle) = none ∧
      curOf (if decide (t ≠ []) = true then Phase.rdy a .idle else .idle) = none ∧
      frozenOf (if decide (t ≠ []) = true then Phase.rdy a .idle else .idle) = none ∧
      rdys (if decide (t ≠ []) = true then Phase.rdy a .idle else .idle) = (if t = [] then [] else [a]) ∧
      flPtr (if decide (t ≠ []) = true then Phase.rdy a .idle else .idle) = none ∧
      wakePtr (if decide (t ≠ []) = true then Phase.rdy a .idle else .idle) = none ∧
      heldPtr (if decide (t ≠ []) = true then Phase.rdy a .idle else .idle) = none ∧
      markOk (if decide (t ≠ []) = true then Phase.rdy a .idle else .idle) := by
    cases t <;> simp [owner, poster, curOf, frozenOf, rdys, flPtr, wakePtr, heldPtr, markOk]
  obtain ⟨p1, p2, p3, p4, p5, p6, p7, p8, p9⟩ := hph
  generalize (if decide (t ≠ []) = true then Phase.rdy a .idle else .idle) = P at *
  refine core_step h w ?_ ?_ ?_ ?_ ?_ ?_ ?_ ?_ ?_ ?_ ?_ ?_ ?_ ?_ ?_ ?_ ?_ ?_ ?_ ?_ ?_ ?_ ?_ ?_ ?_ ?_ ?_ ?_ ?_ ?_
  case refine_7 =>
    refine M1.congr ?_ (fun y => by simp [nxM, State.setNext, State.setMsg, State.setActor, State.setWk]) (fun _ => rfl)
    intro l _
    cases l with
    | mq a' =>
      by_cases e : a' = a
      · subst e; simp [headM, State.setNext, State.setMsg, State.setActor, State.setWk, nxM, hnx]
      · simp [headM, State.setNext, State.setMsg, State.setActor, State.setWk, Function.update_apply, e, upd_ne _ e]
    | out a' => simp [headM, State.setNext, State.setMsg, State.setActor, State.setWk, Function.update_apply]
    | timer => simp [headM, State.setNext, State.setMsg, State.setActor, State.setWk, Function.update_apply]
    | fl w' =>
      simp only [headM, State.setNext, State.setMsg, State.setActor, State.setWk, Function.update_apply, reduceCtorEq, if_false]
      by_cases e : w' = w
      · subst e; simp [p6, hw, flPtr]
      · simp [upd_ne _ e]
    | held w' =>
      simp only [headM, State.setNext, State.setMsg, State.setActor, State.setWk, Function.update_apply, reduceCtorEq, if_false]
      by_cases e : w' = w
      · subst e; simp [p8, hw, heldPtr]
      · simp [upd_ne _ e]
  case refine_8 =>
    obtain ⟨A1, A2⟩ := h.A.pop hown (nx' := nxA s) (by simp)
    have hcg : ∀ l, linkedA l → headA (((s.setNext m none).setActor a { s.actors a with
        msg := t.head?, tail := if t.head? = none then none else (s.actors a).tail }).setWk w P) l = headA s l := by
      intro l hl
      cases l with
      | ready i => rfl
      | waiting y => simp [headA, State.setNext, State.setMsg, State.setActor, State.setWk]
      | wake w' =>
        simp only [headA, State.setNext, State.setMsg, State.setActor, State.setWk]
        by_cases e : w' = w
        · subst e; simp [p7, hw, wakePtr]
        · simp [upd_ne _ e]
      | own _ => rfl
      | rdy _ => rfl
    have A3 : LL linkedA (nxA s) (update (update (headA s) (.own w) (nxA s a)) (.rdy w) none)
        (update (update al (.own w) []) (.rdy w) (if t = [] then [] else [a])) := by
      refine A1.set _ _ _ ?_ ?_ (fun _ _ _ _ => rfl) (fun hl => hl.elim)
      · split <;> simp
      · intro y hy
        split at hy
        · simp at hy
        · simp at hy; subst hy; exact .inr A2
    refine A3.congr ?_ (fun y => by simp [nxA, State.setNext, State.setMsg, State.setActor, State.setWk]) (fun _ => rfl)
    intro l hl
    rw [hcg l hl, update_of_ne (by rintro rfl; exact hl), update_of_ne (by rintro rfl; exact hl)]
  case refine_9 =>
    intro a'
    by_cases e : a' = a
    · subst e
      have := h.mtail a'
      rw [ht] at this
      simp only [State.setNext, State.setMsg, State.setActor, State.setWk, upd_self, update_self, this]
      cases t <;> simp
    · simp [State.setNext, State.setMsg, State.setActor, State.setWk, upd_ne _ e, Function.update_apply, e, h.mtail]
  case refine_13 =>
    intro a'
    by_cases e : a' = a
    · subst e
      rw [update_self]
      constructor
      · rintro ⟨l, hl⟩
        rintro rfl
        by_cases e1 : l = .rdy w
        · subst e1; simp at hl
        · rw [update_of_ne e1] at hl
          by_cases e2 : l = .own w
          · subst e2; simp at hl
          · rw [update_of_ne e2] at hl; exact hfree l e2 hl
      · intro hne
        exact ⟨.rdy w, by simp [hne]⟩
    · rw [update_of_ne (by simpa using e), ← h.live a']
      constructor
      · rintro ⟨l, hl⟩
        by_cases e1 : l = .rdy w
        · subst e1; rw [update_self] at hl; split at hl <;> simp at hl; exact absurd hl e
        · rw [update_of_ne e1] at hl
          by_cases e2 : l = .own w
          · subst e2; simp at hl
          · rw [update_of_ne e2] at hl; exact ⟨l, hl⟩
      · rintro ⟨l, hl⟩
        refine ⟨l, ?_⟩
        rw [update_of_ne (by rintro rfl; rw [hrdy] at hl; simp at hl), update_of_ne (by
          rintro rfl; rw [hown] at hl; simp at hl; exact e hl)]
        exact hl
  case refine_14 =>
    intro a' y hy hy'
    by_cases e : a' = a
    · subst e; rw [update_self] at hy; exact absurd (by rw [ht]; simp [hy]) hy'
    · rw [update_of_ne (by simpa using e)] at hy; exact absurd hy hy'
  case refine_15 =>
    intro l y hy
    by_cases e : l = .mq a
    · subst e; rw [update_self] at hy; exact h.mlt (.mq a) y (by rw [ht]; simp [hy])
    · rw [update_of_ne e] at hy; exact h.mlt _ _ hy
  case refine_20 =>
    intro y l hy _
    by_cases e : l = .mq a
    · subst e; rw [update_self] at hy; exact ⟨.mq a, by rw [ht]; simp [hy]⟩
    · rw [update_of_ne e] at hy; exact ⟨_, hy⟩
  case refine_16 =>
    intro a' y hy hno
    have : a' ≠ a := by rintro rfl; exact hno ho
    rw [update_of_ne (by simpa using this)]
    exact hy
  case refine_21 =>
    intro y _ hy
    left
    simpa [State.frozen, State.setNext, State.setMsg, State.setActor, State.setWk] using hy
  case refine_22 =>
    intro a' y hy
    rw [hf] at hy
    cases hy
    exact .inr M2
  case refine_25 =>
    intro b y hb
    simp only [State.setNext, State.setMsg, State.setActor, State.setWk, upd_Actor_waitsfor]
    exact h.wait b y (by simpa [Function.update_apply] using hb)
  case refine_26 =>
    intro b w' _ _
    simp [State.setNext, State.setMsg, State.setActor, State.setWk]
  case refine_27 =>
    intro b hb
    simp [Function.update_apply, hwk] at hb
  case refine_28 =>
    intro b hb
    simp only [State.setNext, State.setMsg, State.setActor, State.setWk, upd_Actor_waitsfor] at hb
    rcases h.nowait b hb with ⟨y, hy⟩ | ⟨y, hy⟩
    · exact .inl ⟨y, by simpa [Function.update_apply] using hy⟩
    · exact .inr ⟨y, by simpa [Function.update_apply] using hy⟩
  case refine_11 => simp [State.setWk, p1]
  case refine_12 => simp [State.setWk, p5]
  case refine_29 => simp only [State.setWk, upd_self]; exact p9
  all_goals clear M1 M2 hfree hd1 hd2 p9
  all_goals try core_auto h

/-- `ENQ_ready`. -/
theorem core_ready (h : Core s ml al) {w b : Nat} {k : Phase} (hw : s.wk w = .rdy b k) :
    ∃ s', enqReady s b = .ok s' ∧
      Core (s'.setWk w k) ml (update (update al (.rdy w) (rdys k)) (.ready (s.actors b).affinity)
        (al (.ready (s.actors b).affinity) ++ [b])) ∧
      s'.msgs = s.msgs ∧ s'.nmsg = s.nmsg ∧ s'.wk = s.wk ∧ s'.log = s.log ∧ s'.timerQ = s.timerQ ∧
      ∀ a, s'.actors a = { s.actors a with next := (s'.actors a).next } := by
  have hrdy : al (.rdy w) = b :: rdys k := by rw [h.rdy, hw]; rfl
  have hb : b ∈ al (.rdy w) := by rw [hrdy]; simp
  have hwf : (s.actors b).waitsfor = none := h.ready_nowait hb (by simp) (by simp)
  have hmk : markOk k := by have := h.mark w; rw [hw] at this; exact this
  generalize hi : (s.actors b).affinity = i
  obtain ⟨A1, A2⟩ := h.A.pop hrdy (nx' := nxA s) (by simp)
  -- the state after `ENQ_ready`
  have hex : ∃ s', enqReady s b = .ok s' ∧ s'.msgs = s.msgs ∧ s'.nmsg = s.nmsg ∧ s'.wk = s.wk ∧ s'.log = s.log ∧ s'.timerQ = s.timerQ ∧
      (∀ a, s'.actors a = { s.actors a with next := (s'.actors a).next }) ∧
      LL linkedA (nxA s') (update (update (headA s) (.rdy w) (nxA s b)) (.ready i) (s'.rqs i).head)
        (update (update al (.rdy w) (rdys k)) (.ready i) (al (.ready i) ++ [b])) ∧
      (s'.rqs i).tail = some b ∧ ∀ j, j ≠ i → s'.rqs j = s.rqs j := by
    have htl := h.rtail i
    cases htt : (s.rqs i).tail with
    | none =>
      rw [htt] at htl
      have hnil := List.getLast?_eq_none_iff.1 htl.symm
      refine ⟨(s.setRq i ⟨some b, some b⟩).setActor b { s.actors b with next := none }, ?_, rfl, rfl, rfl, rfl, rfl, ?_, ?_, ?_, ?_⟩
      · simp [enqReady, hwf, hi, htt, State.setActor, State.setRq]
      · intro a; simp only [State.setActor, upd]; split
        · rename_i e; subst e; rfl
        · rfl
      · have := A1.append (l := .ready i) (x := b) (p := some b) (nx' := nxA ((s.setRq i ⟨some b, some b⟩).setActor b { s.actors b with next := none })) A2
          (by intro y hy _; simp [nxA, State.setActor, State.setRq, upd_ne _ hy])
          (by simp [nxA, State.setActor])
          (by intro u hu; simp [hnil] at hu)
          (by simp [hnil]) trivial
        simpa [State.setActor, State.setRq] using this
      · simp [State.setActor, State.setRq]
      · intro j hj; simp [State.setActor, State.setRq, upd_ne _ hj]
    | some u =>
      rw [htt] at htl
      have hne : al (.ready i) ≠ [] := by intro e; rw [e] at htl; simp at htl
      have hum : u ∈ al (.ready i) := List.mem_of_getLast? htl.symm
      have hub : u ≠ b := by
        rintro rfl
        have := h.A.disj _ _ u hum hb
        cases this
      refine ⟨((s.setActor u { s.actors u with next := some b }).setRq i ⟨(s.rqs i).head, some b⟩).setActor b
        { s.actors b with next := none }, ?_, rfl, rfl, rfl, rfl, rfl, ?_, ?_, ?_, ?_⟩
      · simp [enqReady, hwf, hi, htt, State.setActor, State.setRq, upd_ne _ hub.symm]
      · intro a; simp only [State.setActor, State.setRq, upd]; split
        · rename_i e; subst e; rfl
        · split
          · rename_i e; subst e; rfl
          · rfl
      · have := A1.append (l := .ready i) (x := b) (p := (s.rqs i).head) (nx' := nxA (((s.setActor u { s.actors u with next := some b }).setRq i ⟨(s.rqs i).head, some b⟩).setActor b
          { s.actors b with next := none })) A2
          (by
            intro y hy hyl
            rw [update_of_ne (by simp)] at hyl
            have : y ≠ u := by rintro rfl; exact hyl htl.symm
            simp [nxA, State.setActor, State.setRq, upd_ne _ hy, upd_ne _ this])
          (by simp [nxA, State.setActor])
          (by
            intro y hy
            rw [update_of_ne (by simp), ← htl] at hy
            cases hy
            simp [nxA, State.setActor, State.setRq, upd_ne _ hub])
          (by simp [hne, headA]) trivial
        simpa [State.setActor, State.setRq] using this
      · simp [State.setActor, State.setRq]
      · intro j hj; simp [State.setActor, State.setRq, upd_ne _ hj]
  obtain ⟨s', h1, e1, e2, e3, e4, e5, e6, A3, e7, e8⟩ := hex
  refine ⟨s', h1, ?_, e1, e2, e3, e4, e5, e6⟩
  have g1 : ∀ a, (s'.actors a).msg = (s.actors a).msg := fun a => by rw [e6 a]
  have g2 : ∀ a, (s'.actors a).tail = (s.actors a).tail := fun a => by rw [e6 a]
  have g3 : ∀ a, (s'.actors a).outgoing = (s.actors a).outgoing := fun a => by rw [e6 a]
  have g4 : ∀ a, (s'.actors a).waitsfor = (s.actors a).waitsfor := fun a => by rw [e6 a]
  have g5 : ∀ a, (s'.actors a).catcher = (s.actors a).catcher := fun a => by rw [e6 a]
  have k1 : owner (s.wk w) = owner k := by rw [hw]; rfl
  have k2 : poster (s.wk w) = poster k := by rw [hw]; rfl
  have k3 : curOf (s.wk w) = curOf k := by rw [hw]; rfl
  have k4 : frozenOf (s.wk w) = frozenOf k := by rw [hw]; rfl
  have k5 : flPtr (s.wk w) = flPtr k := by rw [hw]; rfl
  have k6 : wakePtr (s.wk w) = wakePtr k := by rw [hw]; rfl
  have k7 : heldPtr (s.wk w) = heldPtr k := by rw [hw]; rfl
  have hfz : ∀ y, (s'.setWk w k).frozen y ↔ s.frozen y := by
    intro y; simp only [State.frozen, State.setWk, e1]
  refine core_step h w ?_ ?_ ?_ ?_ ?_ ?_ ?_ ?_ ?_ ?_ ?_ ?_ ?_ ?_ ?_ ?_ ?_ ?_ ?_ ?_ ?_ ?_ ?_ ?_ ?_ ?_ ?_ ?_ ?_ ?_
  case refine_1 => intro w' hw'; simp only [State.setWk, upd_ne _ hw', e3]
  case refine_2 => intro w' hw'; simp [Function.update_apply, hw']
  case refine_3 => simp [State.setWk, e2]
  case refine_4 => intro m _; simp [State.setWk, e1]
  case refine_5 => intro m _; exact (hfz m).2
  case refine_6 => intro m _; simp [State.setWk, e1]
  case refine_7 =>
    refine h.M.congr ?_ (fun y => by simp [nxM, State.setWk, e1]) (fun _ => rfl)
    intro l _
    cases l with
    | mq a => simp [headM, State.setWk, g1]
    | out a => simp [headM, State.setWk, g3]
    | timer => simp [headM, State.setWk, e5]
    | fl w' =>
      simp only [headM, State.setWk, e3]
      by_cases e : w' = w
      · subst e; simp [k5]
      · simp [upd_ne _ e]
    | held w' =>
      simp only [headM, State.setWk, e3]
      by_cases e : w' = w
      · subst e; simp [k7]
      · simp [upd_ne _ e]
  case refine_8 =>
    refine A3.congr ?_ (fun _ => rfl) (fun _ => rfl)
    intro l hl
    cases l with
    | ready j =>
      by_cases e : j = i
      · subst e; simp [headA, State.setWk]
      · simp [headA, State.setWk, Function.update_apply, e, e8 j e]
    | waiting m => simp [headA, State.setWk, e1]
    | wake w' =>
      simp only [headA, State.setWk, Function.update_apply, reduceCtorEq, if_false, e3]
      by_cases e : w' = w
      · subst e; simp [k6]
      · simp [upd_ne _ e]
    | own _ => exact hl.elim
    | rdy _ => exact hl.elim
  case refine_9 => intro a; simp only [State.setWk, g2]; exact h.mtail a
  case refine_10 =>
    intro j
    by_cases e : j = i
    · subst e; simp [State.setWk, e7]
    · simp [State.setWk, e8 j e, Function.update_apply, e, h.rtail]
  case refine_11 => simp [State.setWk, Function.update_apply, h.own, k1]
  case refine_12 => simp [State.setWk, Function.update_apply]
  case refine_13 =>
    intro a
    rw [ex_move (by simp) (by intro y; simp [hrdy]; tauto), h.live]
  case refine_14 => intro a m h1 h2; exact absurd h1 h2
  case refine_15 => intro l m hm; simp only [State.setWk, e2]; exact h.mlt l m hm
  case refine_16 => intro a m hm _; exact hm
  case refine_17 => intro a m hm; simp only [State.setWk, upd_self, ← k3] at hm; exact h.cur w a m hm
  case refine_18 => intro a ha; simp only [State.setWk, upd_self, ← k2] at ha; exact .inl ha
  case refine_19 => intro a ha; simp only [State.setWk, upd_self, ← k1] at ha; exact .inl ha
  case refine_20 => intro m l hm _; exact ⟨l, hm⟩
  case refine_21 => intro m _ hm; exact .inl ((hfz m).1 hm)
  case refine_22 => intro a m hm; left; simp only [State.setWk, upd_self, ← k4]; exact hm
  case refine_23 => intro m hm; simpa [Function.update_apply] using h.frzW m ((hfz m).1 hm)
  case refine_24 => intro a m hm; simp only [State.setWk, upd_self, ← k4] at hm; exact (hfz m).2 (h.frzO w a m hm)
  case refine_25 =>
    intro a m hm
    simp only [State.setWk, g4]
    exact h.wait a m (by simpa [Function.update_apply] using hm)
  case refine_26 => intro a w' _ _; simp only [State.setWk, g4]
  case refine_27 =>
    intro a ha
    simp only [State.setWk, g4, upd_self, ← k4]
    exact h.waitk a w (by simpa [Function.update_apply] using ha)
  case refine_28 =>
    intro a ha
    simp only [State.setWk, g4] at ha
    rcases h.nowait a ha with ⟨y, hy⟩ | ⟨y, hy⟩
    · exact .inl ⟨y, by simpa [Function.update_apply] using hy⟩
    · exact .inr ⟨y, by simpa [Function.update_apply] using hy⟩
  case refine_29 => simp only [State.setWk, upd_self]; exact hmk
  case refine_30 => intro a c hc; simp only [State.setWk, g5] at hc; exact h.catch_ a c hc

end Verif.Rts
