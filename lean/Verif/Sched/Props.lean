import Verif.Sched.Model
import Mathlib.Tactic.ByContra
/-! # C52 to C54: waking of workers -/
namespace Verif.Sched
open Verif

/-- The states that some run reaches from the start. -/
def Reach (n : Nat) (s : St) : Prop := ∃ q xs, run n xs (init q) = some s

/-- A return to a callback that is not followed by a check. -/
def Ret.sleepy : Ret → Bool
  | .again _ chk => !chk
  | .cb chk => !chk
  | _ => false

/-- Positions from which a worker looks in the shared queue before it sleeps, if this is not empty. -/
def Pc.looks : Pc → Bool
  | .poll => false
  | .cb chk => chk
  | .wake _ k => !k.sleepy
  | .scan _ k => !k.sleepy
  | _ => true

/-- Positions from which a worker looks in its own queue before it sleeps. -/
def Pc.looksOwn : Pc → Bool
  | .shr => false
  | .shrPop => false
  | p => p.looks

/-- Positions in which the state is `WT_Working`. -/
def Pc.working : Pc → Bool
  | .work _ => true
  | .wake _ (.work _) => true
  | .scan _ (.work _) => true
  | _ => false

/-- A thread is about to wake someone for queue `i`. -/
def Pc.wakes (i : Nat) : Pc → Bool
  | .wake j _ => decide (j = i)
  | .scan j _ => decide (i = shared ∧ j = 1)
  | _ => false

/-- The state tells who runs an actor; to each actor that is ready somebody comes. -/
structure Inv (n : Nat) (s : St) : Prop where
  idle : ∀ w, s.idle w = !(s.pc w).working
  shr : s.q shared ≠ [] → (∃ j, 1 ≤ j ∧ j ≤ n ∧ (s.pending j = true ∨ (s.pc j).looks = true)) ∨ ∃ t, t ≤ n ∧ (s.pc t).wakes shared = true
  own : ∀ i, i ≤ n → s.q i ≠ [] → s.pending i = true ∨ (s.pc i).looksOwn = true ∨ ∃ t, t ≤ n ∧ (s.pc t).wakes i = true

theorem init_inv {n : Nat} (hn : 1 ≤ n) (q : Nat → List Nat) : Inv n (init q) :=
  ⟨fun _ => rfl, fun _ => .inl ⟨1, by omega, hn, .inl rfl⟩, fun _ _ _ => .inl rfl⟩

theorem upd_same {β : Type} (f : Nat → β) (a : Nat) (v : β) : upd f a v a = v := by simp [upd]
theorem upd_other {β : Type} (f : Nat → β) {a b : Nat} (v : β) (h : b ≠ a) : upd f a v b = f b := by simp [upd, h]

theorem shr_step {n : Nat} {s s' : St} (h : Inv n s) {w : Nat} {p : Pc} (hpc : s'.pc = upd s.pc w p) (hw : w ≤ n)
    (hq : s'.q shared ≠ [] → s.q shared ≠ [] ∨ p.wakes shared = true ∨ (1 ≤ w ∧ p.looks = true))
    (hpend : ∀ j, s.pending j = true → s'.pending j = true ∨ (j = w ∧ p.looks = true))
    (hlook : 1 ≤ w → (s.pc w).looks = true → s'.q shared ≠ [] → p.looks = true ∨ s'.pending w = true)
    (hwake : (s.pc w).wakes shared = true → s'.q shared ≠ [] → p.wakes shared = true ∨
      ∃ j, 1 ≤ j ∧ j ≤ n ∧ (s'.pending j = true ∨ (upd s.pc w p j).looks = true)) :
    s'.q shared ≠ [] → (∃ j, 1 ≤ j ∧ j ≤ n ∧ (s'.pending j = true ∨ (s'.pc j).looks = true)) ∨
      ∃ t, t ≤ n ∧ (s'.pc t).wakes shared = true := by
  intro hne
  have wk : p.wakes shared = true → ∃ t, t ≤ n ∧ (s'.pc t).wakes shared = true := fun e =>
    ⟨w, hw, by rw [hpc, upd_same]; exact e⟩
  have lk : 1 ≤ w → p.looks = true → ∃ j, 1 ≤ j ∧ j ≤ n ∧ (s'.pending j = true ∨ (s'.pc j).looks = true) := fun e1 e2 =>
    ⟨w, e1, hw, .inr (by rw [hpc, upd_same]; exact e2)⟩
  rcases hq hne with h1 | h1 | ⟨h1, h2⟩
  · rcases h.shr h1 with ⟨j, j1, jn, hj⟩ | ⟨t, tn, ht⟩
    · rcases hj with hj | hj
      · rcases hpend j hj with h2 | ⟨h2, h3⟩
        · exact .inl ⟨j, j1, jn, .inl h2⟩
        · subst h2; exact .inl (lk j1 h3)
      · by_cases e : j = w
        · subst e
          rcases hlook j1 hj hne with h2 | h2
          · exact .inl (lk j1 h2)
          · exact .inl ⟨j, j1, jn, .inl h2⟩
        · exact .inl ⟨j, j1, jn, .inr (by rw [hpc, upd_other _ _ e]; exact hj)⟩
    · by_cases e : t = w
      · subst e
        rcases hwake ht hne with h2 | h2
        · exact .inr (wk h2)
        · rw [hpc]; exact .inl h2
      · exact .inr ⟨t, tn, by rw [hpc, upd_other _ _ e]; exact ht⟩
  · exact .inr (wk h1)
  · exact .inl (lk h1 h2)

theorem own_step {n : Nat} {s s' : St} (h : Inv n s) {w : Nat} {p : Pc} (hpc : s'.pc = upd s.pc w p) (hw : w ≤ n) {i : Nat}
    (hi : i ≤ n)
    (hq : s'.q i ≠ [] → s.q i ≠ [] ∨ p.wakes i = true ∨ (i = w ∧ p.looksOwn = true))
    (hpend : s.pending i = true → s'.pending i = true ∨ (i = w ∧ p.looksOwn = true))
    (hlook : i = w → (s.pc w).looksOwn = true → s'.q i ≠ [] → p.looksOwn = true ∨ s'.pending w = true)
    (hwake : (s.pc w).wakes i = true → s'.q i ≠ [] → p.wakes i = true ∨ s'.pending i = true) :
    s'.q i ≠ [] → s'.pending i = true ∨ (s'.pc i).looksOwn = true ∨ ∃ t, t ≤ n ∧ (s'.pc t).wakes i = true := by
  intro hne
  have wk : p.wakes i = true → ∃ t, t ≤ n ∧ (s'.pc t).wakes i = true := fun e =>
    ⟨w, hw, by rw [hpc, upd_same]; exact e⟩
  have lk : i = w → p.looksOwn = true → (s'.pc i).looksOwn = true := fun e1 e2 => by
    rw [hpc, e1, upd_same]; exact e2
  rcases hq hne with h1 | h1 | ⟨h1, h2⟩
  · rcases h.own i hi h1 with hj | hj | ⟨t, tn, ht⟩
    · rcases hpend hj with h2 | ⟨h2, h3⟩
      · exact .inl h2
      · exact .inr (.inl (lk h2 h3))
    · by_cases e : i = w
      · rcases hlook e (by rw [← e]; exact hj) hne with h2 | h2
        · exact .inr (.inl (lk e h2))
        · rw [← e] at h2; exact .inl h2
      · exact .inr (.inl (by rw [hpc, upd_other _ _ e]; exact hj))
    · by_cases e : t = w
      · subst e
        rcases hwake ht hne with h2 | h2
        · exact .inr (.inr (wk h2))
        · exact .inl h2
      · exact .inr (.inr ⟨t, tn, by rw [hpc, upd_other _ _ e]; exact ht⟩)
  · exact .inr (.inr (wk h1))
  · exact .inr (.inl (lk h1 h2))

theorem idle_step {n : Nat} {s s' : St} (h : Inv n s) {w : Nat} {p : Pc} (hpc : s'.pc = upd s.pc w p) {b : Bool}
    (hid : s'.idle = upd s.idle w b) (hb : b = !p.working) : ∀ v, s'.idle v = !(s'.pc v).working := by
  intro v
  rw [hpc, hid]
  by_cases e : v = w
  · subst e; rw [upd_same, upd_same]; exact hb
  · rw [upd_other _ _ e, upd_other _ _ e]; exact h.idle v

theorem idle_keep {n : Nat} {s s' : St} (h : Inv n s) {w : Nat} {p : Pc} (hpc : s'.pc = upd s.pc w p)
    (hid : s'.idle = s.idle) (hb : (s.pc w).working = p.working) : ∀ v, s'.idle v = !(s'.pc v).working := by
  intro v
  rw [hpc, hid]
  by_cases e : v = w
  · subst e; rw [upd_same, ← hb]; exact h.idle v
  · rw [upd_other _ _ e]; exact h.idle v

/-- Everything at once. -/
theorem inv_step {n : Nat} {s s' : St} (h : Inv n s) {w : Nat} (p : Pc) (hpc : s'.pc = upd s.pc w p) (hw : w ≤ n)
    (hid : ∀ v, s'.idle v = !(s'.pc v).working)
    (sq : s'.q shared ≠ [] → s.q shared ≠ [] ∨ p.wakes shared = true ∨ (1 ≤ w ∧ p.looks = true))
    (sl : 1 ≤ w → (s.pc w).looks = true → s'.q shared ≠ [] → p.looks = true ∨ s'.pending w = true)
    (sw : (s.pc w).wakes shared = true → s'.q shared ≠ [] → p.wakes shared = true ∨
      ∃ j, 1 ≤ j ∧ j ≤ n ∧ (s'.pending j = true ∨ (upd s.pc w p j).looks = true))
    (pend : ∀ j, s.pending j = true → s'.pending j = true ∨ (j = w ∧ p.looks = true ∧ p.looksOwn = true))
    (oq : ∀ i, i ≤ n → s'.q i ≠ [] → s.q i ≠ [] ∨ p.wakes i = true ∨ (i = w ∧ p.looksOwn = true))
    (ol : (s.pc w).looksOwn = true → s'.q w ≠ [] → p.looksOwn = true ∨ s'.pending w = true)
    (ow : ∀ i, i ≤ n → (s.pc w).wakes i = true → s'.q i ≠ [] → p.wakes i = true ∨ s'.pending i = true) : Inv n s' where
  idle := hid
  shr := shr_step h hpc hw sq (fun j hj => (pend j hj).imp id (fun x => ⟨x.1, x.2.1⟩)) sl sw
  own i hi := own_step h hpc hw hi (oq i hi) (fun hj => (pend i hj).imp id (fun x => ⟨x.1, x.2.2⟩))
    (fun e h1 h2 => ol h1 (by rw [← e]; exact h2)) (ow i hi)

theorem push_q (s : St) (i a j : Nat) : (s.push i a).q j ≠ [] → s.q j ≠ [] ∨ j = i := by
  intro h
  by_cases e : j = i
  · exact .inr e
  · left; simpa [St.push, upd, e] using h

theorem pop_q (s : St) (i j : Nat) : (s.pop i).q j ≠ [] → s.q j ≠ [] := by
  intro h hc
  apply h
  by_cases e : j = i
  · subst e; simp [St.pop, upd, hc]
  · simpa [St.pop, upd, e] using hc

theorem working_looks {p : Pc} (h : p.working = true) : p.looks = true := by
  cases p with
  | wake i k => cases k <;> simp_all [Pc.working, Pc.looks, Ret.sleepy]
  | scan i k => cases k <;> simp_all [Pc.working, Pc.looks, Ret.sleepy]
  | _ => simp_all [Pc.working, Pc.looks]

theorem ret_looks (k : Ret) : (ret k).looks = !k.sleepy := by cases k <;> simp [ret, Pc.looks, Ret.sleepy]
theorem ret_looksOwn (k : Ret) : (ret k).looksOwn = !k.sleepy := by
  cases k <;> simp [ret, Pc.looksOwn, Pc.looks, Ret.sleepy]
theorem ret_working (i : Nat) (k : Ret) : (ret k).working = (Pc.wake i k).working ∧ (ret k).working = (Pc.scan i k).working := by
  cases k <;> simp [ret, Pc.working]

theorem step_inv {n : Nat} (hn : 1 ≤ n) (hs : n < shared) {w : Nat} {x : Act} {s s' : St} (h : Inv n s)
    (e : step n w x s = some s') : Inv n s' := by
  unfold step at e
  by_cases hw : n < w
  · rw [if_pos hw] at e; cases e
  rw [if_neg hw] at e
  have hwn : w ≤ n := by omega
  have hws : w ≠ shared := by omega
  split at e
  · -- poll, go
    rename_i hp
    split at e
    · injection e with e; subst e
      refine inv_step h (.cb true) rfl hwn (idle_keep h (p := .cb true) rfl rfl (by rw [hp]; rfl)) .inl ?_ ?_ ?_ (fun _ _ => .inl) ?_ ?_
      · simp [Pc.looks]
      · simp [hp, Pc.wakes]
      · intro j hj
        by_cases ej : j = w
        · exact .inr ⟨ej, rfl, rfl⟩
        · left; simpa [St.setPc, upd, ej] using hj
      · simp [Pc.looksOwn, Pc.looks]
      · simp [hp, Pc.wakes]
    · cases e
  · -- poll, event
    rename_i chk hp
    injection e with e; subst e
    refine inv_step h (.cb chk) rfl hwn (idle_keep h (p := .cb chk) rfl rfl (by rw [hp]; rfl)) .inl ?_ ?_ (fun _ => .inl)
      (fun _ _ => .inl) ?_ ?_
    · simp [hp, Pc.looks]
    · simp [hp, Pc.wakes]
    · simp [hp, Pc.looksOwn, Pc.looks]
    · simp [hp, Pc.wakes]
  · -- cb, go
    rename_i chk hp
    injection e with e; subst e
    refine inv_step h (if chk then .top else .poll) rfl hwn (idle_keep h (p := if chk then .top else .poll) rfl rfl
      (by rw [hp]; cases chk <;> rfl)) .inl ?_ ?_ (fun _ => .inl) (fun _ _ => .inl) ?_ ?_
    · cases chk <;> simp [hp, Pc.looks]
    · simp [hp, Pc.wakes]
    · cases chk <;> simp [hp, Pc.looksOwn, Pc.looks]
    · simp [hp, Pc.wakes]
  · -- cb, enq
    rename_i chk a i hp
    split at e
    · injection e with e; subst e
      have hk : (if w = i then Ret.cb chk else .again i chk).sleepy = !chk := by split <;> rfl
      refine inv_step h (.wake i (if w = i then .cb chk else .again i chk)) rfl hwn
        (idle_keep h (p := .wake i (if w = i then .cb chk else .again i chk)) rfl rfl
        (by rw [hp]; split <;> rfl)) ?_ ?_ ?_ (fun _ => .inl) ?_ ?_ ?_
      · intro hq
        rcases push_q s i a _ hq with h1 | h1
        · exact .inl h1
        · exact .inr (.inl (by simp [Pc.wakes, h1]))
      · intro _ h1 _
        left; simpa [hp, Pc.looks, hk] using h1
      · simp [hp, Pc.wakes]
      · intro j _ hq
        rcases push_q s i a _ hq with h1 | h1
        · exact .inl h1
        · exact .inr (.inl (by simp [Pc.wakes, h1]))
      · intro h1 _
        left; simpa [hp, Pc.looksOwn, Pc.looks, hk] using h1
      · simp [hp, Pc.wakes]
    · cases e
  · -- top, go
    rename_i hp
    injection e with e; subst e
    have hwk : (if s.q w = [] then afterOwn w else Pc.own).working = false := by
      unfold afterOwn; split
      · split <;> rfl
      · rfl
    refine inv_step h (if s.q w = [] then afterOwn w else .own) rfl hwn (idle_keep h
      (p := if s.q w = [] then afterOwn w else .own) rfl rfl (by rw [hp, hwk]; rfl)) .inl ?_ ?_ (fun _ => .inl) (fun _ _ => .inl) ?_ ?_
    · intro h1 _ _
      left
      unfold afterOwn
      rw [if_neg (show ¬ w = 0 by omega)]
      split <;> rfl
    · simp [hp, Pc.wakes]
    · intro _ h1
      left
      rw [if_neg (by exact h1)]
      rfl
    · simp [hp, Pc.wakes]
  · -- own, go
    rename_i hp
    split at e
    · rename_i a r hq
      injection e with e; subst e
      refine inv_step h (.wake shared (.run a)) rfl hwn (idle_keep h (p := .wake shared (.run a)) rfl rfl (by rw [hp]; rfl))
        (fun hq => .inl (pop_q s w _ hq)) ?_ ?_ (fun _ => .inl) (fun _ _ hq => .inl (pop_q s w _ hq)) ?_ ?_
      · simp [Pc.looks, Ret.sleepy]
      · simp [hp, Pc.wakes]
      · simp [Pc.looksOwn, Pc.looks, Ret.sleepy]
      · simp [hp, Pc.wakes]
    · rename_i hq
      injection e with e; subst e
      have hwk : (afterOwn w).working = false := by
        unfold afterOwn; split <;> rfl
      refine inv_step h (afterOwn w) rfl hwn (idle_keep h (p := afterOwn w) rfl rfl (by rw [hp, hwk]; rfl))
        (fun hq => .inl (pop_q s w _ hq)) ?_ ?_ (fun _ => .inl) (fun _ _ hq => .inl (pop_q s w _ hq)) ?_ ?_
      · intro h1 _ _
        left
        unfold afterOwn
        rw [if_neg (show ¬ w = 0 by omega)]
        rfl
      · simp [hp, Pc.wakes]
      · intro _ h1
        exact absurd hq (pop_q s w _ h1)
      · simp [hp, Pc.wakes]
  · -- shr, go
    rename_i hp
    injection e with e; subst e
    refine inv_step h (if s.q shared = [] then .poll else .shrPop) rfl hwn (idle_keep h
      (p := if s.q shared = [] then .poll else .shrPop) rfl rfl (by rw [hp]; split <;> rfl)) .inl ?_ ?_ (fun _ => .inl)
      (fun _ _ => .inl) ?_ ?_
    · intro _ _ h1
      left
      rw [if_neg (by exact h1)]
      rfl
    · simp [hp, Pc.wakes]
    · simp [hp, Pc.looksOwn]
    · simp [hp, Pc.wakes]
  · -- shrPop, go
    rename_i hp
    split at e
    · rename_i a r hq
      injection e with e; subst e
      refine inv_step h (.wake shared (.run a)) rfl hwn (idle_keep h (p := .wake shared (.run a)) rfl rfl (by rw [hp]; rfl))
        (fun hq => .inl (pop_q s shared _ hq)) ?_ ?_ (fun _ => .inl) (fun _ _ hq => .inl (pop_q s shared _ hq)) ?_ ?_
      · simp [Pc.looks, Ret.sleepy]
      · simp [hp, Pc.wakes]
      · simp [Pc.looksOwn, Pc.looks, Ret.sleepy]
      · simp [hp, Pc.wakes]
    · rename_i hq
      injection e with e; subst e
      refine inv_step h .poll rfl hwn (idle_keep h (p := .poll) rfl rfl (by rw [hp]; rfl))
        (fun hq => .inl (pop_q s shared _ hq)) ?_ ?_ (fun _ => .inl) (fun _ _ hq => .inl (pop_q s shared _ hq)) ?_ ?_
      · intro _ _ h1
        exact absurd hq (pop_q s shared _ h1)
      · simp [hp, Pc.wakes]
      · simp [hp, Pc.looksOwn]
      · simp [hp, Pc.wakes]
  · -- wake, go
    rename_i i k hp
    have hwk := (ret_working i k).1
    split at e
    · rename_i hq
      injection e with e; subst e
      refine inv_step h (ret k) rfl hwn (idle_keep h (p := ret k) rfl rfl (by rw [hp, hwk])) .inl ?_ ?_ (fun _ => .inl)
        (fun _ _ => .inl) ?_ ?_
      · intro _ h1 _
        rw [hp] at h1
        left; rw [ret_looks]; exact h1
      · intro h1 h2
        simp only [hp, Pc.wakes, decide_eq_true_iff] at h1
        exact absurd hq (by rw [h1]; exact h2)
      · intro h1 _
        rw [hp] at h1
        left; rw [ret_looksOwn]; exact h1
      · intro j _ h1 h2
        simp only [hp, Pc.wakes, decide_eq_true_iff] at h1
        exact absurd hq (by rw [h1]; exact h2)
    · split at e
      · rename_i hi
        injection e with e; subst e
        refine inv_step h (.scan 1 k) rfl hwn (idle_keep h (p := .scan 1 k) rfl rfl
          (by rw [hp, ← hwk]; exact (ret_working 1 k).2)) .inl ?_ ?_ (fun _ => .inl) (fun _ _ => .inl) ?_ ?_
        · intro _ h1 _
          rw [hp] at h1
          left; exact h1
        · intro _ _
          left; simp [Pc.wakes]
        · intro h1 _
          rw [hp] at h1
          left; exact h1
        · intro j hj h1
          simp only [hp, Pc.wakes, decide_eq_true_iff] at h1
          omega
      · rename_i hi
        injection e with e; subst e
        refine inv_step h (ret k) rfl hwn (idle_keep h (p := ret k) rfl rfl (by rw [hp, hwk])) .inl ?_ ?_ ?_
          (fun _ _ => .inl) ?_ ?_
        · intro _ h1 _
          rw [hp] at h1
          left; rw [ret_looks]; exact h1
        · intro h1 h2
          simp only [hp, Pc.wakes, decide_eq_true_iff] at h1
          exact absurd h1 hi
        · intro j hj
          left
          by_cases ej : j = i
          · subst ej; exact upd_same _ _ _
          · show upd s.pending i true j = true
            rw [upd_other _ _ ej]; exact hj
        · intro h1 _
          rw [hp] at h1
          left; rw [ret_looksOwn]; exact h1
        · intro j _ h1 h2
          simp only [hp, Pc.wakes, decide_eq_true_iff] at h1
          subst h1
          right; exact upd_same _ _ _
  · -- scan, go
    rename_i j k hp
    have hwk := (ret_working j k).2
    split at e
    · rename_i hj
      injection e with e; subst e
      refine inv_step h (ret k) rfl hwn (idle_keep h (p := ret k) rfl rfl (by rw [hp, hwk])) .inl ?_ ?_ (fun _ => .inl)
        (fun _ _ => .inl) ?_ ?_
      · intro _ h1 _
        rw [hp] at h1
        left; rw [ret_looks]; exact h1
      · intro h1 h2
        simp only [hp, Pc.wakes, decide_eq_true_iff] at h1
        omega
      · intro h1 _
        rw [hp] at h1
        left; rw [ret_looksOwn]; exact h1
      · intro i hi h1
        simp only [hp, Pc.wakes, decide_eq_true_iff] at h1
        omega
    · rename_i hjn
      split at e
      · injection e with e; subst e
        refine inv_step h (ret k) rfl hwn (idle_keep h (p := ret k) rfl rfl (by rw [hp, hwk])) .inl ?_ ?_ ?_
          (fun _ _ => .inl) ?_ ?_
        · intro _ h1 _
          rw [hp] at h1
          left; rw [ret_looks]; exact h1
        · intro h1 h2
          simp only [hp, Pc.wakes, decide_eq_true_iff] at h1
          exact .inr ⟨j, by omega, by omega, .inl (upd_same _ _ _)⟩
        · intro i hi
          left
          by_cases ej : i = j
          · subst ej; exact upd_same _ _ _
          · show upd s.pending j true i = true
            rw [upd_other _ _ ej]; exact hi
        · intro h1 _
          rw [hp] at h1
          left; rw [ret_looksOwn]; exact h1
        · intro i hi h1
          simp only [hp, Pc.wakes, decide_eq_true_iff] at h1
          omega
      · rename_i hid
        injection e with e; subst e
        refine inv_step h (.scan (j + 1) k) rfl hwn (idle_keep h (p := .scan (j + 1) k) rfl rfl
          (by rw [hp, ← hwk]; exact (ret_working (j + 1) k).2)) .inl ?_ ?_ (fun _ => .inl) (fun _ _ => .inl) ?_ ?_
        · intro _ h1 _
          rw [hp] at h1
          left; exact h1
        · intro h1 h2
          simp only [hp, Pc.wakes, decide_eq_true_iff] at h1
          right
          refine ⟨j, by omega, by omega, .inr ?_⟩
          have := h.idle j
          have hwork : (s.pc j).working = true := by
            cases hx : (s.pc j).working
            · rw [hx] at this; simp [this] at hid
            · rfl
          have hl := working_looks hwork
          by_cases ej : j = w
          · rw [ej, upd_same]
            rw [ej, hp] at hl
            exact hl
          · rw [upd_other _ _ ej]; exact hl
        · intro h1 _
          rw [hp] at h1
          left; exact h1
        · intro i hi h1
          simp only [hp, Pc.wakes, decide_eq_true_iff] at h1
          omega
  · -- start, go
    rename_i a hp
    injection e with e; subst e
    refine inv_step h (.work a) rfl hwn (idle_step h (p := .work a) (b := false) rfl rfl rfl) .inl ?_ ?_ (fun _ => .inl)
      (fun _ _ => .inl) ?_ ?_
    · simp [Pc.looks]
    · simp [hp, Pc.wakes]
    · simp [Pc.looksOwn, Pc.looks]
    · simp [hp, Pc.wakes]
  · -- work, enq
    rename_i a b i hp
    split at e
    · injection e with e; subst e
      refine inv_step h (if w = i then .work a else .wake i (.work a)) rfl hwn
        (idle_keep h (p := if w = i then .work a else .wake i (.work a)) rfl rfl
        (by rw [hp]; split <;> rfl)) ?_ ?_ ?_ (fun _ => .inl) ?_ ?_ ?_
      · intro hq
        rcases push_q s i b _ hq with h1 | h1
        · exact .inl h1
        · exact .inr (.inl (by rw [if_neg (by omega)]; simp [Pc.wakes, h1]))
      · intro _ _ _
        left; split <;> rfl
      · simp [hp, Pc.wakes]
      · intro j _ hq
        rcases push_q s i b _ hq with h1 | h1
        · exact .inl h1
        · by_cases ew : w = i
          · exact .inr (.inr ⟨by omega, by rw [if_pos ew]; rfl⟩)
          · exact .inr (.inl (by rw [if_neg ew]; simp [Pc.wakes, h1]))
      · intro _ _
        left; split <;> rfl
      · simp [hp, Pc.wakes]
    · cases e
  · -- work, stop
    rename_i a hp
    injection e with e; subst e
    refine inv_step h .fin rfl hwn (idle_step h (p := .fin) (b := true) rfl rfl rfl) .inl ?_ ?_ (fun _ => .inl)
      (fun _ _ => .inl) ?_ ?_
    · simp [Pc.looks]
    · simp [hp, Pc.wakes]
    · simp [Pc.looksOwn, Pc.looks]
    · simp [hp, Pc.wakes]
  · -- fin, go
    rename_i hp
    injection e with e; subst e
    refine inv_step h .top rfl hwn (idle_keep h (p := .top) rfl rfl (by rw [hp]; rfl)) .inl ?_ ?_ (fun _ => .inl)
      (fun _ _ => .inl) ?_ ?_
    · simp [Pc.looks]
    · simp [hp, Pc.wakes]
    · simp [Pc.looksOwn, Pc.looks]
    · simp [hp, Pc.wakes]
  · -- fin, yield
    rename_i hp
    injection e with e; subst e
    refine inv_step h .poll rfl hwn (idle_keep h (p := .poll) rfl rfl (by rw [hp]; rfl)) .inl ?_ ?_ ?_
      (fun _ _ => .inl) ?_ ?_
    · intro _ _ _
      right; exact upd_same _ _ _
    · simp [hp, Pc.wakes]
    · intro i hi
      left
      by_cases ej : i = w
      · subst ej; exact upd_same _ _ _
      · show upd s.pending w true i = true
        rw [upd_other _ _ ej]; exact hi
    · intro _ _
      right; exact upd_same _ _ _
    · simp [hp, Pc.wakes]
  · cases e

theorem run_inv {n : Nat} (hn : 1 ≤ n) (hs : n < shared) {xs : List (Nat × Act)} {s s' : St} (h : Inv n s)
    (e : run n xs s = some s') : Inv n s' := by
  induction xs generalizing s with
  | nil => injection e with e; subst e; exact h
  | cons x xs ih =>
    simp only [run, Option.bind_eq_some_iff] at e
    obtain ⟨s1, e1, e2⟩ := e
    exact ih (step_inv hn hs h e1) e2

/-- A worker sleeps: it is in the poll of its event loop, and was not sent an event. -/
def Asleep (s : St) (w : Nat) : Prop := s.pc w = .poll ∧ s.pending w = false

/-- A thread is in the course of `wake_wt`. -/
def Waking (p : Pc) : Prop := (∃ i k, p = .wake i k) ∨ (∃ j k, p = .scan j k)

/-- C52: an actor in the queue of a worker: the worker is not asleep, or a thread is about to wake it. -/
theorem C52_own {n : Nat} (hn : 1 ≤ n) (hs : n < shared) {s : St} (h : Reach n s) {i : Nat} (hi : i ≤ n)
    (ha : Asleep s i) (hw : ∀ t, t ≤ n → ¬ Waking (s.pc t)) : s.q i = [] := by
  obtain ⟨q, xs, e⟩ := h
  have inv := run_inv hn hs (init_inv hn q) e
  by_contra hc
  rcases inv.own i hi hc with h1 | h1 | ⟨t, tn, h1⟩
  · rw [ha.2] at h1; cases h1
  · rw [ha.1] at h1; cases h1
  · apply hw t tn
    cases hp : s.pc t with
    | wake i k => exact .inl ⟨i, k, rfl⟩
    | scan i k => exact .inr ⟨i, k, rfl⟩
    | _ => rw [hp] at h1; cases h1

/-- C52: an actor in the shared queue: not all workers that serve it are asleep, or a thread is about to wake one. -/
theorem C52_shared {n : Nat} (hn : 1 ≤ n) (hs : n < shared) {s : St} (h : Reach n s)
    (ha : ∀ i, 1 ≤ i → i ≤ n → Asleep s i) (hw : ∀ t, t ≤ n → ¬ Waking (s.pc t)) : s.q shared = [] := by
  obtain ⟨q, xs, e⟩ := h
  have inv := run_inv hn hs (init_inv hn q) e
  by_contra hc
  rcases inv.shr hc with ⟨j, j1, jn, h1 | h1⟩ | ⟨t, tn, h1⟩
  · rw [(ha j j1 jn).2] at h1; cases h1
  · rw [(ha j j1 jn).1] at h1; cases h1
  · apply hw t tn
    cases hp : s.pc t with
    | wake i k => exact .inl ⟨i, k, rfl⟩
    | scan i k => exact .inr ⟨i, k, rfl⟩
    | _ => rw [hp] at h1; cases h1

/-- C52: if all threads are asleep, no actor is ready. -/
theorem C52_quiescent {n : Nat} (hn : 1 ≤ n) (hs : n < shared) {s : St} (h : Reach n s) (ha : ∀ i, i ≤ n → Asleep s i) :
    s.q shared = [] ∧ ∀ i, i ≤ n → s.q i = [] := by
  have hw : ∀ t, t ≤ n → ¬ Waking (s.pc t) := by
    rintro t tn (⟨i, k, e⟩ | ⟨i, k, e⟩) <;> rw [(ha t tn).1] at e <;> cases e
  exact ⟨C52_shared hn hs h (fun i _ hi => ha i hi) hw, fun i hi => C52_own hn hs h hi (ha i hi) hw⟩

/-- C54, spec: the counter of a queue is its length. -/
def Counts (s : St) (i : Nat) : Prop := s.count i = (s.q i).length % 2 ^ 64

theorem push_counts {s : St} {i a j : Nat} (h : Counts s j) : Counts (s.push i a) j := by
  unfold Counts St.push at *
  by_cases e : j = i
  · subst e
    simp only [upd_same, List.length_append, List.length_cons, List.length_nil]
    omega
  · simp only [upd_other _ _ e]; exact h

theorem pop_counts {s : St} {i j : Nat} (h : Counts s j) (hne : j = i → s.q i ≠ []) : Counts (s.pop i) j := by
  unfold Counts St.pop at *
  by_cases e : j = i
  · subst e
    simp only [upd_same, List.length_tail]
    have : 0 < (s.q j).length := List.length_pos_iff.2 (hne rfl)
    omega
  · simp only [upd_other _ _ e]; exact h

/-- The queues that only one worker serves: their own ones, and the shared one if there is one worker. -/
structure CInv (n : Nat) (s : St) : Prop where
  own : ∀ w, s.pc w = .own → s.q w ≠ []
  shr : n = 1 → s.pc 1 = .shrPop → s.q shared ≠ []
  z : s.pc 0 ≠ .shr ∧ s.pc 0 ≠ .shrPop
  cnt : ∀ i, (i ≠ shared ∨ n = 1) → Counts s i

theorem cinv_step {n : Nat} {s s' : St} (h : CInv n s) {w : Nat} {p : Pc} (hpc : s'.pc = upd s.pc w p)
    (hk : ∀ i, s.q i ≠ [] → (i = w ∧ p ≠ .own) ∨ (i = shared ∧ (n = 1 → w = 1 ∧ p ≠ .shrPop)) ∨ s'.q i ≠ [])
    (hsw : w ≠ shared) (hso : s.pc shared ≠ .own)
    (ho : p = .own → s'.q w ≠ []) (hsh : p = .shrPop → s'.q shared ≠ []) (hz : w = 0 → p ≠ .shr ∧ p ≠ .shrPop)
    (hc : ∀ i, (i ≠ shared ∨ n = 1) → Counts s' i) : CInv n s' := by
  refine ⟨?_, ?_, ?_, hc⟩
  · intro v hv
    rw [hpc] at hv
    by_cases ev : v = w
    · subst ev; rw [upd_same] at hv; exact ho hv
    · rw [upd_other _ _ ev] at hv
      rcases hk v (h.own v hv) with h1 | h1 | h1
      · exact absurd h1.1 ev
      · rw [h1.1] at hv; exact absurd hv hso
      · exact h1
  · intro hn hv
    rw [hpc] at hv
    by_cases ev : 1 = w
    · subst ev; rw [upd_same] at hv; exact hsh hv
    · rw [upd_other _ _ ev] at hv
      rcases hk _ (h.shr hn hv) with h1 | h1 | h1
      · exact absurd h1.1.symm hsw
      · exact absurd (h1.2 hn).1.symm ev
      · exact h1
  · rw [hpc]
    by_cases ev : 0 = w
    · subst ev; rw [upd_same]; exact hz rfl
    · rw [upd_other _ _ ev]; exact h.z

theorem push_ne {s : St} {i a j : Nat} (h : s.q j ≠ []) : (s.push i a).q j ≠ [] := by
  unfold St.push
  by_cases e : j = i
  · subst e; simp [upd_same]
  · simpa only [upd_other _ _ e] using h

theorem pop_ne {s : St} {i j : Nat} (e : j ≠ i) (h : s.q j ≠ []) : (s.pop i).q j ≠ [] := by
  unfold St.pop
  simpa only [upd_other _ _ e] using h

theorem ret_plain (k : Ret) : ret k ≠ .own ∧ ret k ≠ .shr ∧ ret k ≠ .shrPop := by
  cases k <;> simp [ret]

/-- A step that takes nothing out of a queue and goes to a position from which no pop follows. -/
theorem cinv_plain {n : Nat} {s s' : St} (h : CInv n s) {w : Nat} {p : Pc} (hpc : s'.pc = upd s.pc w p)
    (hk : ∀ i, s.q i ≠ [] → s'.q i ≠ []) (hsw : w ≠ shared) (hso : s.pc shared ≠ .own)
    (hp : p ≠ .own ∧ p ≠ .shr ∧ p ≠ .shrPop) (hc : ∀ i, (i ≠ shared ∨ n = 1) → Counts s' i) : CInv n s' :=
  cinv_step h hpc (fun i hi => .inr (.inr (hk i hi))) hsw hso (fun e => absurd e hp.1) (fun e => absurd e hp.2.2)
    (fun _ => hp.2) hc

theorem step_pc_other {n w v : Nat} {x : Act} {s s' : St} (e : step n w x s = some s') (hv : v ≠ w) : s'.pc v = s.pc v := by
  unfold step at e
  by_cases hw : n < w
  · rw [if_pos hw] at e; cases e
  · rw [if_neg hw] at e
    split at e
    all_goals first
      | (injection e with e; subst e; exact upd_other _ _ hv)
      | (split at e <;> first
          | (injection e with e; subst e; exact upd_other _ _ hv)
          | (split at e <;> (injection e with e; subst e; exact upd_other _ _ hv))
          | cases e)
      | cases e

theorem step_cinv {n : Nat} (hs : n < shared) {w : Nat} {x : Act} {s s' : St} (h : CInv n s) (hso : s.pc shared ≠ .own)
    (e : step n w x s = some s') : CInv n s' := by
  unfold step at e
  by_cases hw : n < w
  · rw [if_pos hw] at e; cases e
  rw [if_neg hw] at e
  have hsw : w ≠ shared := by omega
  split at e
  · split at e
    · injection e with e; subst e
      exact cinv_plain h rfl (fun _ => id) hsw hso (by simp) h.cnt
    · cases e
  · injection e with e; subst e
    exact cinv_plain h rfl (fun _ => id) hsw hso (by simp) h.cnt
  · rename_i chk _
    injection e with e; subst e
    exact cinv_plain h rfl (fun _ => id) hsw hso (by cases chk <;> simp) h.cnt
  · split at e
    · injection e with e; subst e
      exact cinv_plain h rfl (fun _ => push_ne) hsw hso (by simp) (fun i hi => push_counts (h.cnt i hi))
    · cases e
  · injection e with e; subst e
    refine cinv_step h rfl (fun i hi => .inr (.inr hi)) hsw hso ?_ ?_ ?_ h.cnt
    · intro hp
      by_cases hq : s.q w = []
      · rw [if_pos hq] at hp; unfold afterOwn at hp; split at hp <;> cases hp
      · exact hq
    · intro hp
      by_cases hq : s.q w = []
      · rw [if_pos hq] at hp; unfold afterOwn at hp; split at hp <;> cases hp
      · rw [if_neg hq] at hp; cases hp
    · intro hz
      unfold afterOwn
      rw [if_pos hz]; split <;> simp
  · rename_i hp
    have hq := h.own w hp
    split at e
    · injection e with e; subst e
      refine cinv_step h rfl (fun i hi => ?_) hsw hso (fun hp => by cases hp) (fun hp => by cases hp) (fun _ => by simp)
        (fun i hi => pop_counts (h.cnt i hi) (fun _ => hq))
      by_cases ei : i = w
      · exact .inl ⟨ei, by simp⟩
      · exact .inr (.inr (pop_ne ei hi))
    · rename_i hqe
      exact absurd hqe hq
  · rename_i hp
    injection e with e; subst e
    refine cinv_step h rfl (fun i hi => .inr (.inr hi)) hsw hso ?_ ?_ ?_ h.cnt
    · intro hp; split at hp <;> cases hp
    · intro hp
      by_cases hq : s.q shared = []
      · rw [if_pos hq] at hp; cases hp
      · exact hq
    · intro hz
      rw [hz] at hp
      exact absurd hp h.z.1
  · rename_i hp
    have hw0 : w ≠ 0 := fun hz => by rw [hz] at hp; exact h.z.2 hp
    have hw1 : n = 1 → w = 1 := fun hn => by omega
    have hq : n = 1 → s.q shared ≠ [] := fun hn => h.shr hn (by rw [← hw1 hn]; exact hp)
    have hk : ∀ p : Pc, p ≠ .shrPop → ∀ i, s.q i ≠ [] →
        (i = w ∧ p ≠ .own) ∨ (i = shared ∧ (n = 1 → w = 1 ∧ p ≠ .shrPop)) ∨ (s.pop shared).q i ≠ [] := by
      intro p hp' i hi
      by_cases ei : i = shared
      · exact .inr (.inl ⟨ei, fun hn => ⟨hw1 hn, hp'⟩⟩)
      · exact .inr (.inr (pop_ne ei hi))
    have hcnt : ∀ i, (i ≠ shared ∨ n = 1) → Counts (s.pop shared) i := by
      intro i hi
      refine pop_counts (h.cnt i hi) (fun ei => ?_)
      rcases hi with hi | hi
      · exact absurd ei hi
      · exact hq hi
    split at e
    · injection e with e; subst e
      exact cinv_step h rfl (hk _ (by simp)) hsw hso (fun hp => by cases hp) (fun hp => by cases hp) (fun _ => by simp) hcnt
    · injection e with e; subst e
      exact cinv_step h rfl (hk _ (by simp)) hsw hso (fun hp => by cases hp) (fun hp => by cases hp) (fun _ => by simp) hcnt
  · rename_i i k _
    split at e
    · injection e with e; subst e
      exact cinv_plain h rfl (fun _ => id) hsw hso (ret_plain k) h.cnt
    · split at e
      · injection e with e; subst e
        exact cinv_plain h rfl (fun _ => id) hsw hso (by simp) h.cnt
      · injection e with e; subst e
        exact cinv_plain h rfl (fun _ => id) hsw hso (ret_plain k) h.cnt
  · rename_i i k _
    split at e
    · injection e with e; subst e
      exact cinv_plain h rfl (fun _ => id) hsw hso (ret_plain k) h.cnt
    · split at e
      · injection e with e; subst e
        exact cinv_plain h rfl (fun _ => id) hsw hso (ret_plain k) h.cnt
      · injection e with e; subst e
        exact cinv_plain h rfl (fun _ => id) hsw hso (by simp) h.cnt
  · injection e with e; subst e
    exact cinv_plain h rfl (fun _ => id) hsw hso (by simp) h.cnt
  · split at e
    · injection e with e; subst e
      exact cinv_plain h rfl (fun _ => push_ne) hsw hso (by split <;> simp) (fun i hi => push_counts (h.cnt i hi))
    · cases e
  · injection e with e; subst e
    exact cinv_plain h rfl (fun _ => id) hsw hso (by simp) h.cnt
  · injection e with e; subst e
    exact cinv_plain h rfl (fun _ => id) hsw hso (by simp) h.cnt
  · injection e with e; subst e
    exact cinv_plain h rfl (fun _ => id) hsw hso (by simp) h.cnt
  · cases e

theorem run_cinv {n : Nat} (hs : n < shared) {xs : List (Nat × Act)} {s s' : St} (h : CInv n s)
    (hso : s.pc shared ≠ .own) (e : run n xs s = some s') : CInv n s' := by
  induction xs generalizing s with
  | nil => injection e with e; subst e; exact h
  | cons x xs ih =>
    simp only [run, Option.bind_eq_some_iff] at e
    obtain ⟨s1, e1, e2⟩ := e
    have hw : ¬ n < x.1 := fun hw => by simp [step, hw] at e1
    exact ih (step_cinv hs h hso e1) (by rw [step_pc_other e1 (by omega)]; exact hso) e2

theorem reach_cinv {n : Nat} (hs : n < shared) {s : St} (h : Reach n s) : CInv n s := by
  obtain ⟨q, xs, e⟩ := h
  exact run_cinv (s := init q) hs ⟨fun _ e => (by cases e), fun _ e => (by cases e), ⟨by simp [init], by simp [init]⟩, fun _ _ => rfl⟩
    (by simp [init]) e

/-- C54: the counter of the queue of a worker, which `stats_to_json` reports as `qlen`, is its length. -/
theorem C54_own {n : Nat} (hs : n < shared) {s : St} (h : Reach n s) {i : Nat} (hi : i ≤ n) :
    s.count i = (s.q i).length % 2 ^ 64 := (reach_cinv hs h).cnt i (.inl (by omega))

/-- C54: so is that of the shared queue if there is one worker. -/
theorem C54_single {s : St} (h : Reach 1 s) : s.count shared = (s.q shared).length % 2 ^ 64 :=
  (reach_cinv (by decide) h).cnt shared (.inr rfl)

/-- The actors of the examples wait in the shared queue. -/
def exq (l : List Nat) : Nat → List Nat := fun i => if i = shared then l else []

/-- C54: two workers see the one actor of the shared queue; the second takes nothing, and counts down. -/
theorem C54_refuted_shared : ∃ s, Reach 2 s ∧ s.q shared = [] ∧ s.count shared = 2 ^ 64 - 1 := by
  let xs : List (Nat × Act) := [(1, .go), (1, .go), (1, .go), (2, .go), (2, .go), (2, .go), (1, .go), (2, .go), (1, .go), (2, .go)]
  have e : (run 2 xs (init (exq [7]))).isSome = true := by decide +kernel
  obtain ⟨s, hs⟩ := Option.isSome_iff_exists.1 e
  refine ⟨s, ⟨exq [7], xs, hs⟩, ?_, ?_⟩
  · have : (run 2 xs (init (exq [7]))).map (fun s => s.q shared) = some [] := by decide +kernel
    rw [hs] at this; exact Option.some.inj this
  · have : (run 2 xs (init (exq [7]))).map (fun s => s.count shared) = some (2 ^ 64 - 1) := by decide +kernel
    rw [hs] at this; exact Option.some.inj this

/-- The steps of `wake_wt` for the shared queue, if no other thread interferes. -/
theorem scan_run {n w j m : Nat} (hw : w ≤ n) (hj : j ≤ n) (k : Ret) {s : St} (hid : s.idle j = true)
    (hb : ∀ i, m ≤ i → i < j → s.idle i = false) (d : Nat) (hd : m + d = j) :
    run n (List.replicate (d + 1) (w, .go)) (s.setPc w (.scan m k)) = some ((s.send j).setPc w (ret k)) := by
  have ss : ∀ (t : St) p p', (t.setPc w p).setPc w p' = t.setPc w p' := by
    intro t p p'
    simp only [St.setPc, St.mk.injEq, true_and]
    funext v; unfold upd; split <;> rfl
  have hnw : ¬ n < w := by omega
  have hm : ¬ n < m := by omega
  induction d generalizing m with
  | zero =>
    have : m = j := by omega
    subst this
    simp only [List.replicate, run, step, if_neg hnw]
    have hp : (s.setPc w (.scan m k)).pc w = .scan m k := upd_same _ _ _
    rw [hp]
    simp only [if_neg hm]
    rw [if_pos (by exact hid)]
    show Option.bind (some (((s.setPc w (.scan m k)).send m).setPc w (ret k))) some = _
    simp only [Option.bind_some, Option.some.injEq]
    exact ss (s.send m) _ _
  | succ d ih =>
    rw [List.replicate_succ]
    simp only [run, step, if_neg hnw]
    have hp : (s.setPc w (.scan m k)).pc w = .scan m k := upd_same _ _ _
    rw [hp]
    simp only [if_neg hm]
    rw [if_neg (by show ¬ s.idle m = true; rw [hb m (Nat.le_refl m) (by omega)]; simp)]
    rw [Option.bind_some, ss]
    exact ih (fun i h1 h2 => hb i (by omega) h2) (by omega) (by omega)

/-- C53, where it holds: a `wake_wt(SHARED_RQ)` that no other thread interferes with wakes the first worker that is idle.
Missing: the worker may have been woken before and not yet have become `WT_Working`, see `C53_refuted`. -/
theorem C53_wake_partial {n w j : Nat} (hw : w ≤ n) (h1 : 1 ≤ j) (hj : j ≤ n) (k : Ret) {s : St} (hp : s.pc w = .wake shared k)
    (hq : s.q shared ≠ []) (hid : s.idle j = true) (hb : ∀ i, 1 ≤ i → i < j → s.idle i = false) :
    ∃ s', run n (List.replicate (j + 1) (w, .go)) s = some s' ∧ s'.pending j = true ∧ s'.pc w = ret k ∧ s'.q = s.q := by
  refine ⟨(s.send j).setPc w (ret k), ?_, upd_same _ _ _, upd_same _ _ _, rfl⟩
  have hnw : ¬ n < w := by omega
  rw [List.replicate_succ]
  simp only [run, step, if_neg hnw, hp, if_neg hq]
  rw [if_pos trivial, Option.bind_some]
  have := scan_run hw hj k hid hb (j - 1) (by omega)
  rwa [show j - 1 + 1 = j by omega] at this

/-- C53, refuted: two actors were made ready while the workers slept, by a callback of the main thread. Both events went
to worker 1, which now runs the first actor and sleeps not; worker 2 sleeps, the second actor waits, and nobody is about
to wake worker 2 (worker 1's own `wake_wt` before it became `WT_Working` went to itself). -/
theorem C53_refuted : ∃ s, Reach 2 s ∧ s.q shared = [8] ∧ Asleep s 2 ∧ (∃ a, s.pc 1 = .work a) ∧
    ∀ t, t ≤ 2 → ¬ Waking (s.pc t) := by
  let xs : List (Nat × Act) := [(1, .go), (1, .go), (1, .go), (1, .go), (2, .go), (2, .go), (2, .go), (2, .go),
    (0, .event true), (0, .enq 7 shared), (0, .go), (0, .go), (0, .go), (0, .go), (0, .enq 8 shared), (0, .go), (0, .go),
    (0, .go), (0, .go), (0, .go), (0, .go),
    (1, .go), (1, .go), (1, .go), (1, .go), (1, .go), (1, .go), (1, .go), (1, .go)]
  have e : (run 2 xs (init (exq []))).isSome = true := by decide +kernel
  obtain ⟨s, hs⟩ := Option.isSome_iff_exists.1 e
  have k : (run 2 xs (init (exq []))).map (fun s => (s.q shared, s.pending 2, s.pc 0, s.pc 1, s.pc 2)) =
    some ([8], false, .poll, .work 7, .poll) := by decide +kernel
  rw [hs] at k
  simp only [Option.map_some, Option.some.injEq, Prod.mk.injEq] at k
  obtain ⟨k1, k2, k3, k4, k5⟩ := k
  refine ⟨s, ⟨exq [], xs, hs⟩, k1, ⟨k5, k2⟩, ⟨7, k4⟩, ?_⟩
  intro t ht
  have : t = 0 ∨ t = 1 ∨ t = 2 := by omega
  rcases this with rfl | rfl | rfl <;> rintro (⟨i, k, e⟩ | ⟨i, k, e⟩) <;> simp [k3, k4, k5] at e

/-- A reachable state in which all threads sleep: hypotheses of `C52_quiescent`, after actor 7 made actor 8 ready on the
queue of worker 2 and both ran. -/
example : ∃ s, Reach 2 s ∧ ∀ i, i ≤ 2 → Asleep s i := by
  let xs : List (Nat × Act) := [(0, .go), (0, .go), (0, .go),
    (2, .go), (2, .go), (2, .go), (2, .go), (2, .go), (2, .go), (2, .go), (2, .enq 8 2), (2, .stop), (2, .go), (2, .go), (2, .go),
    (2, .go), (2, .go), (2, .stop), (2, .go), (2, .go), (2, .go), (1, .go), (1, .go), (1, .go), (1, .go)]
  have e : (run 2 xs (init (exq [7]))).isSome = true := by decide +kernel
  obtain ⟨s, hs⟩ := Option.isSome_iff_exists.1 e
  have k : (run 2 xs (init (exq [7]))).map (fun s => ((s.pending 0, s.pending 1, s.pending 2), s.pc 0, s.pc 1, s.pc 2)) =
    some ((false, false, false), .poll, .poll, .poll) := by decide +kernel
  rw [hs] at k
  simp only [Option.map_some, Option.some.injEq, Prod.mk.injEq] at k
  obtain ⟨⟨k1, k2, k3⟩, k4, k5, k6⟩ := k
  refine ⟨s, ⟨exq [7], xs, hs⟩, ?_⟩
  intro t ht
  have : t = 0 ∨ t = 1 ∨ t = 2 := by omega
  rcases this with rfl | rfl | rfl
  · exact ⟨k4, k1⟩
  · exact ⟨k5, k2⟩
  · exact ⟨k6, k3⟩

/-- Hypotheses of `C53_wake_partial`: worker 1 works, worker 2 is the first idle one. -/
example : ∃ s : St, s.pc 0 = .wake shared (.cb true) ∧ s.q shared ≠ [] ∧ s.idle 2 = true ∧
    ∀ i, 1 ≤ i → i < 2 → s.idle i = false :=
  ⟨⟨exq [7], fun _ => 0, fun i => i != 1, fun _ => false, fun _ => .wake shared (.cb true)⟩, rfl, by decide, by decide,
    fun i h1 h2 => by have : i = 1 := by omega
                      subst this; rfl⟩

end Verif.Sched
