import Verif.Rts.Ord2
/-!
# The order of messages: all steps
-/
namespace Verif.Rts
open Verif Function

/-- The actor whose messages a worker is flushing; whose outgoing messages are already reversed; whose
outgoing messages are all flushed. -/
def flOf : Phase → Option Nat
  | .loop a _ _ _ => some a
  | .rdy _ k => flOf k
  | _ => none

def revOf : Phase → Option Nat
  | .addWait a _ _ => some a
  | .flush a _ _ => some a
  | .rdy _ k => revOf k
  | _ => none

def endOf : Phase → Option Nat
  | .resume a _ _ => some a
  | .freeze a _ _ _ => some a
  | .wake a _ _ _ _ => some a
  | .deq a _ => some a
  | .rdy _ k => endOf k
  | _ => none

/-- The worker handles the actor. -/
def Handles (p : Phase) (a : Nat) : Prop := owner p = some a ∨ poster p = some a

theorem handles_of : ∀ {p : Phase} {a : Nat}, flOf p = some a ∨ revOf p = some a ∨ endOf p = some a → Handles p a := by
  intro p
  induction p with
  | rdy b k ih => intro a h; exact ih h
  | flush a m k =>
    intro b h
    simp only [flOf, revOf, endOf, reduceCtorEq, false_or, or_false, Option.some.injEq] at h
    subst h
    simp only [Handles, owner, poster]
    split <;> simp
  | loop a m p k =>
    intro b h
    simp only [flOf, revOf, endOf, reduceCtorEq, or_false, Option.some.injEq] at h
    subst h
    simp only [Handles, owner, poster]
    split <;> simp
  | _ => intro b h; simp_all [flOf, revOf, endOf, Handles, owner, poster]

theorem handles_unique {p : Phase} {a b : Nat} (h1 : Handles p a) (h2 : Handles p b) : a = b := by
  rcases h1 with h1 | h1 <;> rcases h2 with h2 | h2
  · rw [h1] at h2; simpa using h2
  · exact (owner_poster h1 h2).elim
  · exact (owner_poster h2 h1).elim
  · rw [h1] at h2; simpa using h2

theorem VI.handles (h : VI v) {w w' a : Nat} (h1 : Handles (v.wk w) a) (h2 : Handles (v.wk w') a) : w = w' := by
  rcases h1 with h1 | h1 <;> rcases h2 with h2 | h2
  · have := h.Adisj (.own w) (.own w') a (by rw [h.own, h1]; simp) (by rw [h.own, h2]; simp)
    simpa using this
  · exact ((h.post w' a h2).1 w h1).elim
  · exact ((h.post w a h1).1 w' h2).elim
  · exact ((h.post w a h1).2 w' h2).symm

/-- The messages sent but not yet posted, in order of sending. -/
structure OrdP (v : V) (pd : Nat → List Nat) : Prop where
  fl : ∀ w a, flOf (v.wk w) = some a → pd a = v.ml (.fl w) ∧ v.ml (.out a) = []
  rev : ∀ w a, revOf (v.wk w) = some a → pd a = v.ml (.out a)
  free : ∀ a, (∀ w, flOf (v.wk w) ≠ some a ∧ revOf (v.wk w) ≠ some a) → pd a = (v.ml (.out a)).reverse
  end_ : ∀ w a, endOf (v.wk w) = some a → pd a = []
  stuck : ∀ a, pd a ≠ [] → (∃ w, poster (v.wk w) = some a) ∨ v.wf a = none

variable {v v' : V} {pd pd' : Nat → List Nat}

/-- A step of a worker that handles an actor. -/
theorem ordP_step (h : OrdP v pd) (hv : VI v) {w a : Nat} (ha : Handles (v.wk w) a)
    (hwk : ∀ w', w' ≠ w → v'.wk w' = v.wk w') (hfl : ∀ w', w' ≠ w → v'.ml (.fl w') = v.ml (.fl w'))
    (hout : ∀ b, b ≠ a → v'.ml (.out b) = v.ml (.out b)) (hpd : ∀ b, b ≠ a → pd' b = pd b)
    (hwf : ∀ b, b ≠ a → v'.wf b = v.wf b ∨ v'.wf b = none)
    (hcur : ∀ b, flOf (v'.wk w) = some b ∨ revOf (v'.wk w) = some b ∨ endOf (v'.wk w) = some b → b = a)
    (k1 : flOf (v'.wk w) = some a → pd' a = v'.ml (.fl w) ∧ v'.ml (.out a) = [])
    (k2 : revOf (v'.wk w) = some a → pd' a = v'.ml (.out a))
    (k3 : flOf (v'.wk w) = none → revOf (v'.wk w) = none → pd' a = (v'.ml (.out a)).reverse)
    (k4 : endOf (v'.wk w) = some a → pd' a = [])
    (k5 : pd' a ≠ [] → poster (v'.wk w) = some a ∨ v'.wf a = none) : OrdP v' pd' := by
  have key : ∀ w' b, w' ≠ w → Handles (v.wk w') b → b ≠ a := by
    intro w' b hne hb
    rintro rfl
    exact hne (hv.handles hb ha)
  constructor
  · intro w' b hb
    by_cases e : w' = w
    · subst e
      have := hcur b (.inl hb)
      subst this
      exact k1 hb
    · rw [hwk w' e] at hb
      have hne := key w' b e (handles_of (.inl hb))
      rw [hpd b hne, hfl w' e, hout b hne]
      exact h.fl w' b hb
  · intro w' b hb
    by_cases e : w' = w
    · subst e
      have := hcur b (.inr (.inl hb))
      subst this
      exact k2 hb
    · rw [hwk w' e] at hb
      have hne := key w' b e (handles_of (.inr (.inl hb)))
      rw [hpd b hne, hout b hne]
      exact h.rev w' b hb
  · intro b hb
    by_cases e : b = a
    · subst e
      refine k3 ?_ ?_
      · cases h1 : flOf (v'.wk w) with
        | none => rfl
        | some c => rw [hcur c (.inl h1)] at h1; exact absurd h1 (hb w).1
      · cases h1 : revOf (v'.wk w) with
        | none => rfl
        | some c => rw [hcur c (.inr (.inl h1))] at h1; exact absurd h1 (hb w).2
    · rw [hpd b e, hout b e]
      apply h.free
      intro w'
      by_cases ew : w' = w
      · subst ew
        constructor
        · intro h1; exact e (handles_unique (handles_of (.inl h1)) ha)
        · intro h1; exact e (handles_unique (handles_of (.inr (.inl h1))) ha)
      · rw [← hwk w' ew]; exact hb w'
  · intro w' b hb
    by_cases e : w' = w
    · subst e
      have := hcur b (.inr (.inr hb))
      subst this
      exact k4 hb
    · rw [hwk w' e] at hb
      have hne := key w' b e (handles_of (.inr (.inr hb)))
      rw [hpd b hne]
      exact h.end_ w' b hb
  · intro b hb
    by_cases e : b = a
    · subst e
      rcases k5 hb with h1 | h1
      · exact .inl ⟨w, h1⟩
      · exact .inr h1
    · rw [hpd b e] at hb
      rcases h.stuck b hb with ⟨w', h1⟩ | h1
      · left
        refine ⟨w', ?_⟩
        have : w' ≠ w := by rintro rfl; exact e (handles_unique (.inr h1) ha)
        rw [hwk w' this]; exact h1
      · right
        rcases hwf b e with h2 | h2
        · rw [h2]; exact h1
        · exact h2

/-- A step of a worker that handles no actor, or only starts to. -/
theorem ordP_idle (h : OrdP v pd) {w : Nat} (h0 : ∀ b, flOf (v.wk w) ≠ some b ∧ revOf (v.wk w) ≠ some b ∧ poster (v.wk w) ≠ some b)
    (hwk : ∀ w', w' ≠ w → v'.wk w' = v.wk w') (hfl : ∀ w', w' ≠ w → v'.ml (.fl w') = v.ml (.fl w'))
    (hout : ∀ b, v'.ml (.out b) = v.ml (.out b)) (hwf : ∀ b, v'.wf b = v.wf b)
    (h1 : ∀ b, flOf (v'.wk w) ≠ some b ∧ revOf (v'.wk w) ≠ some b ∧ endOf (v'.wk w) ≠ some b) : OrdP v' pd := by
  constructor
  · intro w' b hb
    have e : w' ≠ w := by rintro rfl; exact (h1 b).1 hb
    rw [hwk w' e] at hb
    rw [hfl w' e, hout b]; exact h.fl w' b hb
  · intro w' b hb
    have e : w' ≠ w := by rintro rfl; exact (h1 b).2.1 hb
    rw [hwk w' e] at hb
    rw [hout b]; exact h.rev w' b hb
  · intro b hb
    rw [hout b]
    apply h.free
    intro w'
    by_cases e : w' = w
    · subst e; exact ⟨(h0 b).1, (h0 b).2.1⟩
    · rw [← hwk w' e]; exact hb w'
  · intro w' b hb
    have e : w' ≠ w := by rintro rfl; exact (h1 b).2.2 hb
    rw [hwk w' e] at hb
    exact h.end_ w' b hb
  · intro b hb
    rw [hwf b]
    rcases h.stuck b hb with ⟨w', h2⟩ | h2
    · left
      have e : w' ≠ w := by rintro rfl; exact (h0 b).2.2 h2
      exact ⟨w', by rw [hwk w' e]; exact h2⟩
    · exact .inr h2

/-- The record for the ran messages: they come in order. -/
def RanOrd (log : List Event) : Prop :=
  ∀ L1 L2 r m c x, log = L1 ++ .ran r m c x :: L2 → m ∉ finishedBy L1 r ∧
    ∀ a, m ∈ sends L1 a r → (finishedBy L1 r).filter (· ∈ sends L1 a r) ++ [m] <+: sends L1 a r

def VOrdL (v : V) (pd : Nat → List Nat) : Prop :=
  OrdL (fun a => v.ml (.mq a)) (v.ml .timer) (fun w => v.ml (.held w)) pd v.log (fun m => (v.att m).dst)
    (fun m => (v.att m).base) v.nmsg

def Ord (v : V) : Prop := ∃ pd, OrdP v pd ∧ VOrdL v pd ∧ RanOrd v.log

theorem ranOrd_snoc {log : List Event} (h : RanOrd log) {e : Event}
    (he : ∀ r m c x, e = .ran r m c x → m ∉ finishedBy log r ∧
      ∀ a, m ∈ sends log a r → (finishedBy log r).filter (· ∈ sends log a r) ++ [m] <+: sends log a r) : RanOrd (log ++ [e]) := by
  intro L1 L2 r m c x hL
  rcases snoc_split hL with ⟨rfl, h2, -⟩ | ⟨L3, rfl, h2⟩
  · exact he r m c x h2
  · exact h L1 L3 r m c x h2

theorem ranOrd_other {log : List Event} (h : RanOrd log) {e : Event} (he : ∀ r m c x, e ≠ .ran r m c x) : RanOrd (log ++ [e]) :=
  ranOrd_snoc h (fun r m c x h1 => absurd h1 (he r m c x))

/-- The messages not yet posted are in lists. -/
theorem OrdP.sub (h : OrdP v pd) {a m : Nat} (hm : m ∈ pd a) : m ∈ v.ml (.out a) ∨ ∃ w, m ∈ v.ml (.fl w) := by
  by_cases h1 : ∃ w, flOf (v.wk w) = some a
  · obtain ⟨w, hw⟩ := h1
    rw [(h.fl w a hw).1] at hm
    exact .inr ⟨w, hm⟩
  · by_cases h2 : ∃ w, revOf (v.wk w) = some a
    · obtain ⟨w, hw⟩ := h2
      rw [h.rev w a hw] at hm
      exact .inl hm
    · rw [h.free a (fun w => ⟨fun h3 => h1 ⟨w, h3⟩, fun h3 => h2 ⟨w, h3⟩⟩)] at hm
      exact .inl (by simpa using hm)

end Verif.Rts
