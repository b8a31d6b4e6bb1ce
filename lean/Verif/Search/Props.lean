import Verif.Search.Lemmas
/-!
# C09, byte level: the search functions find the leftmost and rightmost occurrence
-/
namespace Verif.Search
open Verif

/-- The forward search delivers the first occurrence or -1, stays within both buffers and
terminates, for all texts and patterns with together fewer than 2^31 bytes. -/
theorem C09_bmh_partial (t p : List Nat) (hmax : (t.length : Int) + p.length < 2^31) :
    ∃ r, bmh t p = .ok r ∧ IsFirst t p r := by
  unfold bmh
  by_cases h : p.length > t.length
  · rw [if_pos h]
    exact ⟨-1, rfl, Or.inr ⟨rfl, fun j hj => by have := hj.1; omega⟩⟩
  · rw [if_neg h]
    have := bmhLoop_spec t p (by omega) hmax (t.length + 2) 0 (by omega) (by omega)
      (fun j hj => absurd hj (Nat.not_lt_zero _))
    simpa using this

/-- The backward search delivers the last occurrence or -1, for all texts a string can hold. -/
theorem C09_rbmh (t p : List Nat) (hmax : (t.length : Int) < 2^31) :
    ∃ r, rbmh t p = .ok r ∧ IsLast t p r := by
  unfold rbmh
  by_cases h : p.length > t.length
  · rw [if_pos h]
    exact ⟨-1, rfl, Or.inr ⟨rfl, fun j hj => by have := hj.1; omega⟩⟩
  · rw [if_neg h]
    exact rbmhLoop_spec t p hmax (t.length + 2) _ (by omega) (by omega) (by omega)
      (fun j hj ho => by have := ho.1; omega)

theorem skipTab_absent (p : List Nat) (c : Nat) (h : c ∉ p) : ∀ n, skipTab p n c = p.length := by
  intro n
  induction n with
  | zero => rfl
  | succ n ih =>
    unfold skipTab
    rw [if_neg, ih]
    intro he
    exact h (List.mem_of_getElem? he)

theorem huge_ub (N : Nat) (hN : N = 1073741824) (t p : List Nat) (l1 : t.length = N + 1) (l2 : p.length = N + 1)
    (g1 : ∀ i : Nat, (h : i < t.length) → t[i] = 97) (g2 : ∀ i : Nat, (h : i < p.length) → p[i] = 98)
    (habs : 97 ∉ p) : bmh t p = .ub := by
  have c1 : cmpBack t p (N + 1) (N : Int) = .ok none := by
    unfold cmpBack
    rw [getB_ok (by omega), Res.ok_bind, getB_ok (by omega), Res.ok_bind, g1, g2]
    rfl
  have c2 : ∀ k : Int, k < 0 → cmpBack t p (N + 1) k = .ub := by
    intro k hk
    unfold cmpBack getB
    rw [if_pos hk]; rfl
  have c3 : bmhLoop t p (N + 2) (-2147483647) = .ub := by
    unfold bmhLoop
    rw [if_pos (by omega), l2, c2 _ (by omega)]; rfl
  have c4 : wrap32 ((N : Int) + (N + 1 : Nat)) = -2147483647 := by
    rw [show (N : Int) + (N + 1 : Nat) = 2147483649 by omega]; decide
  unfold bmh
  rw [if_neg (by omega), l1, l2, show (((N + 1 : Nat) : Int) - 1) = (N : Int) by omega]
  unfold bmhLoop
  rw [if_pos (by omega), l2, c1, Res.ok_bind]
  simp only
  rw [getB_ok (by omega), Res.ok_bind, g1, skipTab_absent p 97 habs, l2, c4, c3]

/-- For very long strings the position overflows `int` and the search reads before the start
of the text (2^30 + 1 bytes `b` searched for in as many bytes `a`). -/
theorem C09_refuted_huge : ∃ t p : List Nat, t.length < 2^31 ∧ p.length < 2^31 ∧
    (∀ b ∈ t, b < 256) ∧ (∀ b ∈ p, b < 256) ∧ bmh t p = .ub := by
  obtain ⟨N, hN⟩ : ∃ N : Nat, N = 1073741824 := ⟨_, rfl⟩
  refine ⟨List.replicate (N + 1) 97, List.replicate (N + 1) 98, ?_, ?_, ?_, ?_, ?_⟩
  · rw [List.length_replicate]; omega
  · rw [List.length_replicate]; omega
  · intro b hb; rw [List.eq_of_mem_replicate hb]; omega
  · intro b hb; rw [List.eq_of_mem_replicate hb]; omega
  · apply huge_ub N hN
    · rw [List.length_replicate]
    · rw [List.length_replicate]
    · intro i h; rw [List.getElem_replicate]
    · intro i h; rw [List.getElem_replicate]
    · intro h; have := List.eq_of_mem_replicate h; omega

example : bmh [97, 98, 97, 98, 99] [97, 98, 99] = .ok 2 := by decide
example : rbmh [97, 98, 97, 98, 99] [97, 98] = .ok 2 := by decide
example : bmh [97] [98] = .ok (-1) := by decide

end Verif.Search
