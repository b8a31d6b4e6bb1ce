import Verif.Skiplist.Inv
/-!
# Skip list: linking and unlinking a node
-/
namespace Verif.Skiplist
open Verif

variable {K V : Type}

/-- A node changed only in its links. -/
def SameBut (n n' : Node K V) : Prop := n'.key = n.key ∧ n'.val = n.val ∧ n'.forward.length = n.forward.length

theorem SameBut.refl (n : Node K V) : SameBut n n := ⟨rfl, rfl, rfl⟩
theorem SameBut.trans {a b c : Node K V} (h : SameBut a b) (g : SameBut b c) : SameBut a c :=
  ⟨g.1.trans h.1, g.2.1.trans h.2.1, g.2.2.trans h.2.2⟩

/-- Two heaps with the same nodes but for their links. -/
def SameHeap (h h' : Nat → Option (Node K V)) : Prop :=
  ∀ a, (h a = none ∧ h' a = none) ∨ ∃ n n', h a = some n ∧ h' a = some n' ∧ SameBut n n'

theorem SameHeap.refl (h : Nat → Option (Node K V)) : SameHeap h h := by
  intro a
  cases e : h a with
  | none => exact .inl ⟨rfl, rfl⟩
  | some n => exact .inr ⟨n, n, rfl, rfl, .refl n⟩

theorem SameHeap.trans {a b c : Nat → Option (Node K V)} (h : SameHeap a b) (g : SameHeap b c) : SameHeap a c := by
  intro x
  rcases h x with ⟨h1, h2⟩ | ⟨n, n', h1, h2, h3⟩
  · rcases g x with ⟨g1, g2⟩ | ⟨m, m', g1, g2, g3⟩
    · exact .inl ⟨h1, g2⟩
    · rw [h2] at g1; cases g1
  · rcases g x with ⟨g1, g2⟩ | ⟨m, m', g1, g2, g3⟩
    · rw [h2] at g1; cases g1
    · rw [h2] at g1; cases g1
      exact .inr ⟨n, m', h1, g2, h3.trans g3⟩

theorem SameHeap.ht {h h' : Nat → Option (Node K V)} (g : SameHeap h h') (a : Nat) : ht h' a = ht h a := by
  unfold Skiplist.ht
  rcases g a with ⟨h1, h2⟩ | ⟨n, n', h1, h2, h3⟩
  · rw [h1, h2]
  · rw [h1, h2]; exact h3.2.2

theorem SameHeap.entry {h h' : Nat → Option (Node K V)} (g : SameHeap h h') (a : Nat) :
    entry h' a = entry h a := by
  unfold Skiplist.entry
  rcases g a with ⟨h1, h2⟩ | ⟨n, n', h1, h2, h3⟩
  · rw [h1, h2]
  · rw [h1, h2]; simp only; rw [h3.1, h3.2.1]

theorem fwd_ok {h : Nat → Option (Node K V)} {x i : Nat} (hi : i < ht h x) : ∃ p, fwd h x i = .ok p := by
  unfold ht at hi
  unfold fwd
  split at hi
  · omega
  · next n hn =>
    rw [hn]
    simp only
    rw [List.getElem?_eq_getElem hi]
    exact ⟨_, rfl⟩

theorem setFwd_spec {h : Nat → Option (Node K V)} {x i : Nat} (hi : i < ht h x) (p : Option Nat) :
    ∃ h', setFwd h x i p = .ok h' ∧ SameHeap h h' ∧
      (∀ a j, fwd h' a j = if a = x ∧ j = i then .ok p else fwd h a j) := by
  unfold ht at hi
  unfold setFwd
  split at hi
  · omega
  · next n hn =>
    rw [hn]
    simp only
    rw [if_pos hi]
    refine ⟨_, rfl, ?_, ?_⟩
    · intro a
      unfold upd
      by_cases ha : a = x
      · subst ha
        rw [if_pos rfl]
        exact .inr ⟨n, _, hn, rfl, rfl, rfl, by simp⟩
      · rw [if_neg ha]
        exact SameHeap.refl h a
    · intro a j
      unfold fwd upd
      by_cases ha : a = x
      · subst ha
        rw [if_pos rfl, hn]
        simp only
        by_cases hj : j = i
        · subst hj
          rw [if_pos (by simp), List.getElem?_set_self hi]
        · rw [if_neg (by tauto), List.getElem?_set_ne (by omega)]
      · rw [if_neg ha, if_neg (by tauto)]

/-- Effect of linking `z`. -/
theorem linkLoop_spec (z : Nat) : ∀ (us : List Nat) (h : Nat → Option (Node K V)) (i : Nat),
    (∀ j u, us[j]? = some u → u ≠ z ∧ i + j < ht h u) → i + us.length ≤ ht h z →
    ∃ h', linkLoop z h us i = .ok h' ∧ SameHeap h h' ∧
      (∀ a j, a ≠ z → fwd h' a j = if i ≤ j ∧ us[j - i]? = some a then .ok (some z) else fwd h a j) ∧
      (∀ j, fwd h' z j = match (if i ≤ j then us[j - i]? else none) with
        | some u => fwd h u j
        | none => fwd h z j) := by
  intro us
  induction us with
  | nil =>
    intro h i _ _
    refine ⟨h, rfl, .refl h, ?_, ?_⟩
    · intro a j _; simp
    · intro j; simp
  | cons u us ih =>
    intro h i hu hz
    obtain ⟨huz, hui⟩ := hu 0 u rfl
    simp only [Nat.add_zero] at hui
    obtain ⟨p, hp⟩ := fwd_ok hui
    have hzi : i < ht h z := by simp at hz; omega
    obtain ⟨h1, e1, s1, f1⟩ := setFwd_spec hzi p
    obtain ⟨h2, e2, s2, f2⟩ := setFwd_spec (h := h1) (x := u) (i := i) (by rw [s1.ht]; exact hui) (some z)
    have s12 := s1.trans s2
    have f12 : ∀ a j, j ≠ i → fwd h2 a j = fwd h a j := by
      intro a j hj
      rw [f2, if_neg (by omega), f1, if_neg (by omega)]
    obtain ⟨h3, e3, s3, f3, f4⟩ := ih h2 (i + 1)
      (by
        intro j v hv
        have := hu (j + 1) v (by simpa using hv)
        rw [s12.ht]
        exact ⟨this.1, by omega⟩)
      (by rw [s12.ht]; simp at hz; omega)
    refine ⟨h3, ?_, s12.trans s3, ?_, ?_⟩
    · rw [linkLoop, hp, Res.ok_bind, e1, Res.ok_bind, e2, Res.ok_bind, e3]
    · intro a j ha
      rw [f3 a j ha]
      by_cases hj : j = i
      · subst hj
        rw [if_neg (by omega), f2, Nat.sub_self, List.getElem?_cons_zero]
        by_cases hau : a = u
        · subst hau; simp
        · rw [if_neg (by tauto), f1, if_neg (by tauto), if_neg]
          rintro ⟨_, h⟩; injection h with h; exact hau h.symm
      · by_cases hij : i + 1 ≤ j
        · rw [f12 a j hj]
          have : (u :: us)[j - i]? = us[j - (i + 1)]? := by
            rw [show j - i = (j - (i + 1)) + 1 by omega, List.getElem?_cons_succ]
          rw [this]
          by_cases hc : us[j - (i + 1)]? = some a
          · rw [if_pos ⟨hij, hc⟩, if_pos ⟨by omega, hc⟩]
          · rw [if_neg (by tauto), if_neg (by tauto)]
        · rw [if_neg (by omega), if_neg (by omega), f12 a j hj]
    · intro j
      rw [f4 j]
      by_cases hj : j = i
      · subst hj
        rw [if_neg (by omega), if_pos (by omega), Nat.sub_self, List.getElem?_cons_zero]
        simp only
        rw [f2, if_neg (by tauto), f1, if_pos ⟨rfl, rfl⟩, hp]
      · by_cases hij : i + 1 ≤ j
        · have : (u :: us)[j - i]? = us[j - (i + 1)]? := by
            rw [show j - i = (j - (i + 1)) + 1 by omega, List.getElem?_cons_succ]
          rw [if_pos hij, if_pos (by omega), this]
          cases hv : us[j - (i + 1)]? with
          | none => simp only; rw [f12 _ j hj]
          | some v => simp only; rw [f12 _ j hj]
        · rw [if_neg (by omega), if_neg (by omega)]
          simp only
          rw [f12 _ j hj]

/-- Effect of unlinking `x`: the first `k` predecessors lead to `x`, the next one does not. -/
theorem unlinkLoop_spec (x : Nat) : ∀ (us : List Nat) (h : Nat → Option (Node K V)) (i : Nat),
    (∀ j u, us[j]? = some u → u ≠ x ∧ i + j < ht h u) →
    (∀ j u, us[j]? = some u → (fwd h u (i + j) = .ok (some x) ↔ i + j < ht h x)) →
    ∃ h', unlinkLoop x h us i = .ok h' ∧ SameHeap h h' ∧
      (∀ a j, fwd h' a j = if i ≤ j ∧ us[j - i]? = some a ∧ j < ht h x then fwd h x j else fwd h a j) := by
  intro us
  induction us with
  | nil =>
    intro h i _ _
    exact ⟨h, rfl, .refl h, fun a j => by simp⟩
  | cons u us ih =>
    intro h i hu hf
    obtain ⟨hux, hui⟩ := hu 0 u rfl
    have hf0 := hf 0 u rfl
    simp only [Nat.add_zero] at hui hf0
    obtain ⟨p, hp⟩ := fwd_ok hui
    rw [unlinkLoop, hp, Res.ok_bind]
    rw [hp] at hf0
    by_cases hpx : p = some x
    · subst hpx
      have hxi := hf0.1 rfl
      obtain ⟨q, hq⟩ := fwd_ok hxi
      obtain ⟨h1, e1, s1, f1⟩ := setFwd_spec hui q
      have f11 : ∀ a j, j ≠ i → fwd h1 a j = fwd h a j := by
        intro a j hj
        rw [f1, if_neg (by omega)]
      obtain ⟨h2, e2, s2, f2⟩ := ih h1 (i + 1)
        (by
          intro j v hv
          have := hu (j + 1) v (by simpa using hv)
          rw [s1.ht]
          exact ⟨this.1, by omega⟩)
        (by
          intro j v hv
          have := hf (j + 1) v (by simpa using hv)
          rw [s1.ht, f1, if_neg (by omega)]
          rw [show i + 1 + j = i + (j + 1) by omega]
          exact this)
      refine ⟨h2, ?_, s1.trans s2, ?_⟩
      · rw [if_neg (by simp), hq, Res.ok_bind, e1, Res.ok_bind, e2]
      · intro a j
        rw [f2, s1.ht]
        by_cases hj : j = i
        · subst hj
          rw [if_neg (by omega), f1, Nat.sub_self, List.getElem?_cons_zero]
          by_cases hau : a = u
          · subst hau
            rw [if_pos ⟨rfl, rfl⟩, if_pos ⟨by omega, rfl, hxi⟩, hq]
          · rw [if_neg (by tauto), if_neg]
            rintro ⟨_, h, _⟩; injection h with h; exact hau h.symm
        · by_cases hij : i + 1 ≤ j
          · have : (u :: us)[j - i]? = us[j - (i + 1)]? := by
              rw [show j - i = (j - (i + 1)) + 1 by omega, List.getElem?_cons_succ]
            rw [this, f11 _ j hj, f11 _ j hj]
            by_cases hc : us[j - (i + 1)]? = some a ∧ j < ht h x
            · rw [if_pos ⟨hij, hc⟩, if_pos ⟨by omega, hc⟩]
            · rw [if_neg (by tauto), if_neg (by tauto)]
          · rw [if_neg (by omega), if_neg (by omega), f11 _ j hj]
    · rw [if_pos hpx]
      have hxi : ¬ i < ht h x := by
        intro c
        have := hf0.2 c
        injection this with this
        exact hpx this
      refine ⟨h, rfl, .refl h, ?_⟩
      intro a j
      by_cases hc : i ≤ j ∧ (u :: us)[j - i]? = some a ∧ j < ht h x
      · omega
      · rw [if_neg hc]

end Verif.Skiplist
