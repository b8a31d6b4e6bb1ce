import Verif.Big.Model
import Mathlib.Tactic.Ring
import Mathlib.Tactic.Linarith
import Mathlib.Algebra.Order.Ring.Nat
import Mathlib.Algebra.Order.Ring.Int
/-!
# Words
-/
namespace Verif.Big
open Verif

theorem B_pos : 0 < B := by unfold B; decide

theorem Bpow_pos (k : Nat) : 0 < B ^ k := Nat.pow_pos B_pos

theorem B_pow (k : Nat) : B ^ k = 2 ^ (64 * k) := by
  unfold B
  rw [Nat.pow_mul]

theorem words_lt {n : Nat → Nat} : ∀ {k : Nat}, (∀ i, i < k → n i < B) → words n k < B ^ k
  | 0, _ => by simp [words]
  | k + 1, h => by
    have ih := words_lt (n := n) (k := k) (fun i hi => h i (by omega))
    have hk := h k (by omega)
    have : n k * B ^ k + B ^ k ≤ B * B ^ k := by
      rw [← Nat.succ_mul]
      exact Nat.mul_le_mul_right _ hk
    rw [Nat.pow_succ, Nat.mul_comm]
    simp only [words]
    omega

theorem words_congr {n m : Nat → Nat} : ∀ {k : Nat}, (∀ i, i < k → n i = m i) → words n k = words m k
  | 0, _ => rfl
  | k + 1, h => by
    simp only [words]
    rw [words_congr (k := k) (fun i hi => h i (by omega)), h k (by omega)]

theorem words_zero {n : Nat → Nat} {k : Nat} (h : ∀ i, i < k → n i = 0) : words n k = 0 := by
  induction k with
  | zero => rfl
  | succ k ih =>
    simp only [words]
    rw [ih (fun i hi => h i (by omega)), h k (by omega)]
    simp

theorem words_add (n : Nat → Nat) (j : Nat) : ∀ k, words n (j + k) = words n j + words (fun i => n (i + j)) k * B ^ j
  | 0 => by simp [words]
  | k + 1 => by
    have ih := words_add n j k
    have e : j + (k + 1) = (j + k) + 1 := by omega
    rw [e]
    simp only [words]
    rw [ih, Nat.add_comm j k, Nat.pow_add]
    ring

theorem words_digits (v : Nat) : ∀ k, words (fun i => v / B ^ i % B) k = v % B ^ k
  | 0 => by simp [words, Nat.mod_one]
  | k + 1 => by
    simp only [words]
    rw [words_digits v k, Nat.pow_succ, Nat.mod_mul]
    ring

/-- The words above a position are a quotient. -/
theorem words_div {n : Nat → Nat} {j k : Nat} (h : ∀ i, i < j → n i < B) :
    words n (j + k) / B ^ j = words (fun i => n (i + j)) k := by
  rw [words_add, Nat.add_mul_div_right _ _ (Bpow_pos j), Nat.div_eq_of_lt (words_lt h), Nat.zero_add]

theorem words_top {n : Nat → Nat} {k : Nat} (h : ∀ i, i < k → n i < B) (hw : B ^ k ≤ words n (k + 1)) : n k ≠ 0 := by
  intro h0
  have := words_lt h
  simp only [words, h0, Nat.zero_mul, Nat.add_zero] at hw
  omega

theorem words_ge {n : Nat → Nat} {k : Nat} (h : n k ≠ 0) : B ^ k ≤ words n (k + 1) := by
  have : 1 * B ^ k ≤ n k * B ^ k := Nat.mul_le_mul_right _ (by omega)
  simp only [words]
  omega

/-- Words above which all are zero. -/
theorem words_trim {n : Nat → Nat} {t m : Nat} (h : t ≤ m) (h0 : ∀ i, t ≤ i → i < m → n i = 0) : words n m = words n t := by
  obtain ⟨k, rfl⟩ : ∃ k, m = t + k := ⟨m - t, by omega⟩
  rw [words_add, words_zero (k := k) (fun i hi => h0 (i + t) (by omega) (by omega))]
  simp

/-- The number with given words in two's complement. -/
def compVal (n : Nat → Nat) (m : Nat) (neg : Bool) : Int := (words n m : Int) - (if neg then (B ^ m : Nat) else 0 : Nat)

theorem two_spec (src dst : Nat → Nat) : ∀ (k : Nat), (∀ i, i < k → src i < B) →
    (∀ i, i < k → (twoLoop src k dst).1 i < B) ∧ (∀ i, k ≤ i → (twoLoop src k dst).1 i = dst i) ∧
    (((twoLoop src k dst).2 = 1 ∧ words src k = 0 ∧ words (twoLoop src k dst).1 k = 0) ∨
     ((twoLoop src k dst).2 = 0 ∧ words src k + words (twoLoop src k dst).1 k = B ^ k))
  | 0, _ => by
    refine ⟨fun i hi => by omega, fun i _ => rfl, .inl ⟨rfl, rfl, rfl⟩⟩
  | k + 1, h => by
    obtain ⟨h1, h2, h3⟩ := two_spec src dst k (fun i hi => h i (by omega))
    have hk := h k (by omega)
    have hB := B_pos
    generalize hr : twoLoop src k dst = r at h1 h2 h3
    have hw : ∀ w, words (fun j => if j = k then w else r.1 j) k = words r.1 k := by
      intro w
      exact words_congr (fun i hi => if_neg (by omega))
    by_cases hc : B - 1 - src k < B - 1 ∨ r.2 = 0
    · have e : twoLoop src (k + 1) dst = (fun j => if j = k then (B - 1 - src k + r.2) % B else r.1 j, 0) := by
        simp only [twoLoop, hr]
        rw [if_pos hc]
      rw [e]
      have hlt : B - 1 - src k + r.2 < B := by
        rcases h3 with ⟨h3, _⟩ | ⟨h3, _⟩ <;> omega
      refine ⟨?_, ?_, .inr ⟨rfl, ?_⟩⟩
      · intro i hi
        show (if i = k then _ else r.1 i) < B
        by_cases hik : i = k
        · rw [if_pos hik]; exact Nat.mod_lt _ hB
        · rw [if_neg hik]; exact h1 i (by omega)
      · intro i hi
        show (if i = k then _ else r.1 i) = _
        rw [if_neg (by omega)]
        exact h2 i (by omega)
      · show words src (k + 1) + words (fun j => if j = k then (B - 1 - src k + r.2) % B else r.1 j) (k + 1) = B ^ (k + 1)
        rw [Nat.mod_eq_of_lt hlt]
        simp only [words]
        rw [hw, if_pos trivial]
        rcases h3 with ⟨a1, a2, a3⟩ | ⟨a1, a2⟩
        · rw [a2, a3, a1]
          have : src k + (B - 1 - src k + 1) = B := by omega
          calc 0 + src k * B ^ k + (0 + (B - 1 - src k + 1) * B ^ k) = (src k + (B - 1 - src k + 1)) * B ^ k := by ring
            _ = B ^ (k + 1) := by rw [this, Nat.pow_succ, Nat.mul_comm]
        · rw [a1]
          have : src k + (B - 1 - src k + 0) + 1 = B := by omega
          calc words src k + src k * B ^ k + (words r.1 k + (B - 1 - src k + 0) * B ^ k)
              = (words src k + words r.1 k) + (src k + (B - 1 - src k + 0)) * B ^ k := by ring
            _ = (src k + (B - 1 - src k + 0) + 1) * B ^ k := by rw [a2]; ring
            _ = B ^ (k + 1) := by rw [this, Nat.pow_succ, Nat.mul_comm]
    · have e : twoLoop src (k + 1) dst = (fun j => if j = k then 0 else r.1 j, r.2) := by
        simp only [twoLoop, hr]
        rw [if_neg hc]
      have hs0 : src k = 0 := by omega
      have hr1 : r.2 ≠ 0 := by omega
      rw [e]
      refine ⟨?_, ?_, .inl ?_⟩
      · intro i hi
        show (if i = k then 0 else r.1 i) < B
        by_cases hik : i = k
        · rw [if_pos hik]; exact hB
        · rw [if_neg hik]; exact h1 i (by omega)
      · intro i hi
        show (if i = k then 0 else r.1 i) = _
        rw [if_neg (by omega)]
        exact h2 i (by omega)
      · rcases h3 with ⟨a1, a2, a3⟩ | ⟨a1, a2⟩
        · refine ⟨a1, ?_, ?_⟩
          · simp [words, a2, hs0]
          · show words (fun j => if j = k then 0 else r.1 j) (k + 1) = 0
            simp only [words]
            rw [hw, a3, if_pos trivial]
            simp
        · exact absurd a1 hr1

theorem twocompl_spec {src dst : Nat → Nat} {k : Nat} (h : ∀ i, i < k → src i < B) (h0 : 0 < words src k) :
    (∀ i, i < k → twocompl dst src k i < B) ∧ words src k + words (twocompl dst src k) k = B ^ k := by
  obtain ⟨h1, _, h3⟩ := two_spec src dst k h
  refine ⟨h1, ?_⟩
  rcases h3 with ⟨_, h3, _⟩ | ⟨_, h3⟩
  · omega
  · exact h3

/-! ### Bits -/

/-- Bit `k` of a number in two's complement with infinitely many bits. -/
def bit (x : Int) (k : Nat) : Bool := decide (x / 2 ^ k % 2 = 1)

theorem bit_nat (x k : Nat) : bit (x : Int) k = x.testBit k := by
  rw [Nat.testBit_eq_decide_div_mod_eq]
  unfold bit
  have : ((x : Int) / 2 ^ k % 2) = ((x / 2 ^ k % 2 : Nat) : Int) := by push_cast; rfl
  rw [this]
  norm_cast

/-- A number is determined by its bits. -/
theorem bit_ext {x y : Int} (h : ∀ k, bit x k = bit y k) : x = y := by
  have key : ∀ k, x % 2 ^ k = y % 2 ^ k := by
    intro k
    induction k with
    | zero => simp [Int.emod_one]
    | succ k ih =>
      have hb := h k
      unfold bit at hb
      have hp : (0 : Int) < 2 ^ k := by positivity
      have ex : ∀ z : Int, z % 2 ^ (k + 1) = z % 2 ^ k + 2 ^ k * (z / 2 ^ k % 2) := by
        intro z
        rw [pow_succ]
        have hz1 := Int.emod_add_mul_ediv z (2 ^ k)
        have hz2 := Int.emod_add_mul_ediv (z / 2 ^ k) 2
        have hz3 := Int.emod_nonneg z (ne_of_gt hp)
        have hz4 := Int.emod_lt_of_pos z hp
        have hz5 := Int.emod_two_eq (z / 2 ^ k)
        have e : z = (z % 2 ^ k + 2 ^ k * (z / 2 ^ k % 2)) + 2 ^ k * 2 * (z / 2 ^ k / 2) := by
          calc z = z % 2 ^ k + 2 ^ k * (z / 2 ^ k) := hz1.symm
            _ = z % 2 ^ k + 2 ^ k * (z / 2 ^ k % 2 + 2 * (z / 2 ^ k / 2)) := by rw [hz2]
            _ = _ := by ring
        conv_lhs => rw [e]
        rw [Int.add_mul_emod_self_left]
        apply Int.emod_eq_of_lt
        · rcases hz5 with h | h <;> rw [h] <;> omega
        · rcases hz5 with h | h <;> rw [h] <;> omega
      rw [ex, ex, ih]
      have : x / 2 ^ k % 2 = y / 2 ^ k % 2 := by
        have h1 := Int.emod_two_eq (x / 2 ^ k)
        have h2 := Int.emod_two_eq (y / 2 ^ k)
        simp only [decide_eq_decide] at hb
        omega
      rw [this]
  obtain ⟨k, hk⟩ : ∃ k : Nat, (x - y).natAbs < 2 ^ k := ⟨_, Nat.lt_two_pow_self⟩
  have hd : ((2 : Int) ^ k) ∣ x - y := by
    have := key k
    exact Int.dvd_of_emod_eq_zero (by rw [Int.sub_emod, this]; simp)
  by_contra hne
  have h0 : x - y ≠ 0 := by omega
  have := Int.natAbs_dvd_natAbs.mpr hd
  have := Nat.le_of_dvd (by omega) this
  rw [Int.natAbs_pow] at this
  simp at this
  omega

/-- The bits of words. -/
theorem words_testBit {n : Nat → Nat} {m : Nat} (h : ∀ i, i < m → n i < B) {k : Nat} (hk : k < 64 * m) :
    (words n m).testBit k = (n (k / 64)).testBit (k % 64) := by
  have hj : k / 64 < m := by omega
  obtain ⟨d, hd⟩ : ∃ d, m = k / 64 + (d + 1) := ⟨m - k / 64 - 1, by omega⟩
  rw [Nat.testBit_eq_decide_div_mod_eq, Nat.testBit_eq_decide_div_mod_eq]
  have e : 2 ^ k = B ^ (k / 64) * 2 ^ (k % 64) := by
    rw [B_pow, ← Nat.pow_add]
    congr 1
    omega
  have h1 : words n m / 2 ^ k = words (fun i => n (i + k / 64)) (d + 1) / 2 ^ (k % 64) := by
    rw [e, ← Nat.div_div_eq_div_mul, hd, words_div (fun i hi => h i (by omega))]
  have h2 : words (fun i => n (i + k / 64)) (d + 1) = n (k / 64) + words (fun i => n (i + 1 + k / 64)) d * B := by
    rw [Nat.add_comm d 1, words_add]
    simp [words]
  rw [h1, h2]
  have e2 : B = 2 ^ (k % 64) * (2 * 2 ^ (63 - k % 64)) := by
    unfold B
    rw [← Nat.pow_succ', ← Nat.pow_add]
    congr 1
    omega
  generalize words (fun i => n (i + 1 + k / 64)) d = w
  have e3 : n (k / 64) + w * B = n (k / 64) + 2 ^ (k % 64) * (2 * (w * 2 ^ (63 - k % 64))) := by
    rw [e2]; ring
  rw [e3, Nat.add_mul_div_left _ _ (Nat.pow_pos (by decide)), Nat.add_mul_mod_self_left]

theorem bit_comp {n : Nat → Nat} {m : Nat} (h : ∀ i, i < m → n i < B) (neg : Bool) (k : Nat) :
    bit (compVal n m neg) k = if k < 64 * m then (n (k / 64)).testBit (k % 64) else neg := by
  have hlt := words_lt h
  by_cases hk : k < 64 * m
  · rw [if_pos hk, ← words_testBit h hk, ← bit_nat]
    cases neg with
    | false => simp [compVal]
    | true =>
      have e : ((B ^ m : Nat) : Int) = 2 ^ k * (2 * 2 ^ (64 * m - k - 1)) := by
        rw [B_pow]
        push_cast
        rw [← pow_succ', ← pow_add]
        congr 1
        omega
      have : (words n m : Int) - (B ^ m : Nat) = words n m + 2 ^ k * (2 * (-2 ^ (64 * m - k - 1))) := by rw [e]; ring
      unfold bit
      show decide (((words n m : Int) - (B ^ m : Nat)) / 2 ^ k % 2 = 1) = _
      rw [this, Int.add_mul_ediv_left _ _ (by positivity), Int.add_mul_emod_self_left]
  · rw [if_neg hk]
    have hp : B ^ m ≤ 2 ^ k := by
      rw [B_pow]
      exact Nat.pow_le_pow_right (by decide) (by omega)
    have hp' : ((B ^ m : Nat) : Int) ≤ 2 ^ k := by exact_mod_cast hp
    have hlt' : (words n m : Int) < (B ^ m : Nat) := by exact_mod_cast hlt
    have h0 : (0 : Int) ≤ words n m := Int.natCast_nonneg _
    unfold bit compVal
    cases neg with
    | false =>
      simp only [Bool.false_eq_true, if_false, Nat.cast_zero, sub_zero]
      rw [Int.ediv_eq_zero_of_lt h0 (by omega)]
      decide
    | true =>
      have : ((words n m : Int) - (B ^ m : Nat)) / 2 ^ k = -1 := by
        have hpos : (0 : Int) < 2 ^ k := by positivity
        rw [Int.ediv_eq_iff_of_pos hpos]; constructor <;> linarith
      simp only [if_true]
      rw [this]
      decide

end Verif.Big
