import Mathlib.Tactic.Ring
import Mathlib.Data.Fintype.EquivFin
import Mathlib.Algebra.Ring.Parity
import Mathlib.Data.Nat.ModEq
import Mathlib.Tactic.Positivity
import Mathlib.Tactic.NormNum
/-!
# The probe sequence of the hash tables

`i ↦ 5*i + perturb + 1 (mod 2^k)` with `perturb` shifted right by 5 in every step. Once
`perturb` is 0 the sequence is a linear congruential generator of full period.
-/
namespace Verif.Dict

/-- One step of the probe loop (dict.c:59-60, 123-124, 173-174, 190-191): `perturb >>= 5`,
then `i = mask & (i*5 + perturb + 1)`. The C arithmetic is modulo 2^64; since the table size is a
power of two not above 2^63 the final `& mask` absorbs the wrap-around, so the model calculates
modulo `size` directly. -/
def pstep (size : Nat) (s : Nat × Nat) : Nat × Nat :=
  ((s.1 * 5 + s.2 / 32 + 1) % size, s.2 / 32)

/-- State after `n` steps, from the starting state `(hash & mask, hash)`. -/
def pstate (size h : Nat) : Nat → Nat × Nat
  | 0 => (h % size, h)
  | n + 1 => pstep size (pstate size h n)

/-- The slot looked at in step `n`. -/
def slot (size h n : Nat) : Nat := (pstate size h n).1

theorem slot_lt {size h : Nat} (hs : 0 < size) (n : Nat) : slot size h n < size := by
  unfold slot
  cases n with
  | zero => exact Nat.mod_lt _ hs
  | succ n => exact Nat.mod_lt _ hs

/-- `1 + 5 + ... + 5^(n-1)`. -/
def geo : Nat → Nat
  | 0 => 0
  | n + 1 => 5 * geo n + 1

theorem geo_succ (n : Nat) : geo (n + 1) = 5 * geo n + 1 := rfl

theorem coprime_pow2 {k q : Nat} (h : q % 2 = 1) : Nat.Coprime (2 ^ k) q := by
  apply Nat.Coprime.pow_left
  rw [Nat.coprime_iff_gcd_eq_one, Nat.gcd_rec, h]; rfl

theorem geo_eq (n : Nat) : 4 * geo n + 1 = 5 ^ n := by
  induction n with
  | zero => rfl
  | succ n ih => rw [pow_succ, ← ih, geo_succ]; ring

theorem geo_double (n : Nat) : geo (2 * n) = geo n * (5 ^ n + 1) := by
  have h1 := geo_eq (2 * n)
  have h2 := geo_eq n
  have : 4 * geo (2 * n) = 4 * (geo n * (5 ^ n + 1)) := by
    have e : 5 ^ (2 * n) = 5 ^ n * 5 ^ n := by rw [two_mul, pow_add]
    have : 4 * geo (2 * n) + 1 = 4 * (geo n * (5 ^ n + 1)) + 1 := by
      rw [h1, e]
      calc 5 ^ n * 5 ^ n = (4 * geo n + 1) * 5 ^ n := by rw [h2]
        _ = 4 * geo n * 5 ^ n + 5 ^ n := by ring
        _ = 4 * geo n * 5 ^ n + (4 * geo n + 1) := by rw [h2]
        _ = _ := by ring
    omega
  omega

theorem geo_mod2 (n : Nat) : geo n % 2 = n % 2 := by
  induction n with
  | zero => rfl
  | succ n ih => unfold geo; omega

theorem pow5_mod4 (n : Nat) : 5 ^ n % 4 = 1 := by
  have := geo_eq n; omega

/-- `2^k` divides `geo n` exactly when it divides `n`. -/
theorem geo_dvd (k : Nat) : ∀ n, 2 ^ k ∣ geo n ↔ 2 ^ k ∣ n := by
  induction k with
  | zero => intro n; simp
  | succ k ih =>
    intro n
    rcases Nat.even_or_odd' n with ⟨m, rfl | rfl⟩
    · rw [geo_double, pow_succ]
      have h4 := pow5_mod4 m
      obtain ⟨q, hq⟩ : ∃ q, 5 ^ m + 1 = 2 * (2 * q + 1) := ⟨(5 ^ m + 1) / 4, by omega⟩
      rw [hq]
      constructor
      · intro h
        rw [show geo m * (2 * (2 * q + 1)) = (geo m * (2 * q + 1)) * 2 by ring] at h
        have h' := Nat.dvd_of_mul_dvd_mul_right (by omega) h
        have hc : Nat.Coprime (2 ^ k) (2 * q + 1) := coprime_pow2 (by omega)
        have := (ih m).1 (hc.dvd_of_dvd_mul_right h')
        rw [mul_comm 2 m]
        exact Nat.mul_dvd_mul_right this 2
      · intro h
        rw [mul_comm 2 m] at h
        have := (ih m).2 (Nat.dvd_of_mul_dvd_mul_right (by omega) h)
        rw [show geo m * (2 * (2 * q + 1)) = (geo m * 2) * (2 * q + 1) by ring]
        exact Dvd.dvd.mul_right (Nat.mul_dvd_mul_right this 2) _
    · have e := geo_mod2 (2 * m + 1)
      constructor
      · intro h
        have : 2 ∣ geo (2 * m + 1) := dvd_trans (by rw [pow_succ]; exact Nat.dvd_mul_left _ _) h
        omega
      · intro h
        have : 2 ∣ 2 * m + 1 := dvd_trans (by rw [pow_succ]; exact Nat.dvd_mul_left _ _) h
        omega

theorem pstate_perturb (size h n : Nat) : (pstate size h n).2 = h / 32 ^ n := by
  induction n with
  | zero => simp [pstate]
  | succ n ih =>
    show (pstate size h n).2 / 32 = _
    rw [ih, Nat.div_div_eq_div_mul, pow_succ]

/-- After 13 steps the perturbation is used up, and the slots follow the closed form. -/
theorem slot_late {size h : Nat} (hh : h < 2 ^ 64) (m : Nat) :
    slot size h (13 + m) = (slot size h 13 * 5 ^ m + geo m) % size := by
  induction m with
  | zero =>
    show (pstep size (pstate size h 12)).1 = ((pstep size (pstate size h 12)).1 * 1 + 0) % size
    simp [pstep]
  | succ m ih =>
    have hp : (pstate size h (13 + m)).2 = 0 := by
      rw [pstate_perturb]
      apply Nat.div_eq_of_lt
      calc h < 2 ^ 64 := hh
        _ ≤ 32 ^ 13 := by norm_num
        _ ≤ 32 ^ (13 + m) := Nat.pow_le_pow_right (by omega) (by omega)
    show (pstep size (pstate size h (13 + m))).1 = _
    unfold pstep
    rw [hp]
    show (slot size h (13 + m) * 5 + 0 / 32 + 1) % size = _
    rw [ih, Nat.zero_div, Nat.add_zero, Nat.add_mod, Nat.mul_mod, Nat.mod_mod, ← Nat.mul_mod, ← Nat.add_mod]
    congr 1
    rw [pow_succ, geo_succ]
    ring

/-- Late slots of one period are distinct. -/
theorem slot_inj {k h : Nat} (hh : h < 2 ^ 64) {m m' : Nat} (hm : m < m') (hm' : m' < 2 ^ k)
    (e : slot (2 ^ k) h (13 + m) = slot (2 ^ k) h (13 + m')) : False := by
  rw [slot_late hh, slot_late hh] at e
  obtain ⟨d, rfl⟩ : ∃ d, m' = m + d := ⟨m' - m, by omega⟩
  have hgeo : ∀ d, geo (m + d) = geo m + 5 ^ m * geo d := by
    intro d
    have h1 := geo_eq (m + d)
    have h2 := geo_eq m
    have h3 := geo_eq d
    have : 4 * geo (m + d) + 1 = 4 * (geo m + 5 ^ m * geo d) + 1 := by
      rw [h1, pow_add, ← h3]
      calc 5 ^ m * (4 * geo d + 1) = 4 * (5 ^ m * geo d) + 5 ^ m := by ring
        _ = 4 * (5 ^ m * geo d) + (4 * geo m + 1) := by rw [h2]
        _ = _ := by ring
    omega
  have h3 := geo_eq d
  generalize slot (2 ^ k) h 13 = s at e
  have e2 : s * 5 ^ (m + d) + geo (m + d) = (s * 5 ^ m + geo m) + 5 ^ m * (4 * s + 1) * geo d := by
    rw [hgeo, pow_add, ← h3]; ring
  rw [e2] at e
  have hdvd : 2 ^ k ∣ 5 ^ m * (4 * s + 1) * geo d := by
    have := (Nat.modEq_iff_dvd' (Nat.le_add_right (s * 5 ^ m + geo m) _)).1 e
    rwa [Nat.add_sub_cancel_left] at this
  have hc : Nat.Coprime (2 ^ k) (5 ^ m * (4 * s + 1)) := by
    apply coprime_pow2
    have h5 := pow5_mod4 m
    rw [Nat.mul_mod, show 5 ^ m % 2 = 1 by omega, show (4 * s + 1) % 2 = 1 by omega]
  have h4 := (geo_dvd k d).1 (hc.dvd_of_dvd_mul_left hdvd)
  have := Nat.le_of_dvd (by omega) h4
  omega

/-- The probe sequence visits every slot within `13 + size` steps. -/
theorem slot_cover {k h : Nat} (hh : h < 2 ^ 64) {s : Nat} (hs : s < 2 ^ k) :
    ∃ n, n < 13 + 2 ^ k ∧ slot (2 ^ k) h n = s := by
  let f : Fin (2 ^ k) → Fin (2 ^ k) := fun m => ⟨slot (2 ^ k) h (13 + m), slot_lt (by positivity) _⟩
  have hinj : Function.Injective f := by
    intro a b hab
    have e : slot (2 ^ k) h (13 + a) = slot (2 ^ k) h (13 + b) := congrArg Fin.val hab
    rcases Nat.lt_trichotomy a.val b.val with hlt | heq | hgt
    · exact absurd (slot_inj hh hlt b.isLt e) id
    · exact Fin.ext heq
    · exact absurd (slot_inj hh hgt a.isLt e.symm) id
  have hsurj := Finite.injective_iff_surjective.1 hinj
  obtain ⟨m, hm⟩ := hsurj ⟨s, hs⟩
  exact ⟨13 + m, by omega, congrArg Fin.val hm⟩

end Verif.Dict
