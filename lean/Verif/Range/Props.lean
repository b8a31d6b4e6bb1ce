import Verif.Range.Model
import Verif.Slice.Lemmas
/-!
# C02: `range()` enumerates the arithmetic progression

Full statement (`RangeSpec`): for all ints `start`, `stop`, `step ≠ 0`, call number
`k` delivers `start + k*step` as long as this is before `stop`, and raises
`StopIteration` otherwise; step 0 raises `ValueError`.

The code violates it: if `stop` lies on the wrong side of `start` at a distance
smaller than `|step|`, one element is produced (`C02_refuted`), and if
`stop - start` does not fit 64 bits the range is wrong (`C02_refuted_overflow`).
-/
namespace Verif.Range
open Verif

/-- `v` is before `stop` in the direction of `step`. -/
def Before (v stop step : Int) : Prop := if step > 0 then v < stop else stop < v

instance (v stop step : Int) : Decidable (Before v stop step) := by unfold Before; infer_instance

/-- What iterating `range(start, stop, step)` has to deliver on call number `k`. -/
def expected (start stop step : Int) (k : Nat) : Res Int :=
  if Before (start + k * step) stop step then .ok (start + k * step) else .raise .stopIteration

/-- Iterating an object constructed by `range(start, stop, step)` behaves as specified on the
first `n` calls. -/
def RangeSpec (start stop step : Int) (n : Nat) : Prop :=
  if step = 0 then init start (some stop) (some step) = .raise .valueError
  else ∃ s, init start (some stop) (some step) = .ok s ∧
    ∀ k < n, call s k = expected start stop step k

theorem wrap64_add_left (a b : Int) : wrap64 (wrap64 a + b) = wrap64 (a + b) := by
  unfold wrap64; simp

theorem after_yield (s : State) (hr : InI64 s.remaining) : ∀ k : Nat, (k : Int) ≤ max 0 s.remaining →
    after s k = ⟨if k = 0 then s.nxt else wrap64 (s.nxt + k * s.step), s.step, s.remaining - k⟩ := by
  intro k
  induction k with
  | zero => intro _; simp [after]
  | succ k ih =>
    intro hk
    push_cast at hk
    have h1 := ih (by omega)
    unfold after next
    rw [h1]
    simp only
    rw [if_neg (by omega)]
    simp only [State.mk.injEq]
    refine ⟨?_, trivial, ?_⟩
    · simp only [Nat.add_eq_zero_iff, one_ne_zero, and_false, if_false]
      by_cases hk0 : k = 0
      · subst hk0; simp
      · rw [if_neg hk0, wrap64_add_left]; congr 1; push_cast; rw [Int.add_mul]; omega
    · rw [wrap64_of_in]
      · push_cast; omega
      · unfold InI64 at *; omega

theorem after_done (s : State) (hr : InI64 s.remaining) (h0 : s.remaining ≤ 0) : ∀ k : Nat,
    -2^63 ≤ s.remaining - k → (after s k).remaining = s.remaining - k := by
  intro k
  induction k with
  | zero => intro _; simp [after]
  | succ k ih =>
    intro hk
    push_cast at hk
    have h1 := ih (by omega)
    unfold after next
    simp only
    rw [if_pos (by omega)]
    simp only [h1]
    rw [wrap64_of_in]
    · push_cast; omega
    · unfold InI64 at *; omega

theorem after_add (s : State) (a b : Nat) : after s (a + b) = after (after s a) b := by
  induction b with
  | zero => rfl
  | succ b ih => show (next (after s (a + b))).2 = _; rw [ih]; rfl

theorem tdiv_bound {r st : Int} (_ : st ≠ 0) : -(r.natAbs : Int) ≤ r.tdiv st ∧ r.tdiv st ≤ (r.natAbs : Int) := by
  have := Int.natAbs_tdiv_le_natAbs r st
  omega

theorem tmod_one (r : Int) : r.tmod 1 = 0 ∧ r.tmod (-1) = 0 := by
  constructor
  · simp
  · simp

/-- The stop bound lies on the wrong side of start, closer than one step. -/
def WrongSide (start stop step : Int) : Prop :=
  if step > 0 then stop < start ∧ start - stop < step else start < stop ∧ stop - start < -step

instance (a b c : Int) : Decidable (WrongSide a b c) := by unfold WrongSide; infer_instance

/-- C02, partial. Missing: `WrongSide` arguments and arguments whose difference does not fit in
64 bits, where the code is wrong (refuted below); and more than 2^63 calls of `next` on an
exhausted range (the counter would wrap around). -/
theorem C02_range_partial (start stop step : Int) (n : Nat)
    (h1 : InI64 start) (_h2 : InI64 stop) (h3 : InI64 step)
    (hd : InI64 (stop - start)) (htrap : stop - start ≠ -2^63)
    (hw : ¬ WrongSide start stop step)
    (hn : (n : Int) + (stop - start).natAbs ≤ 2^63 ∨ (n : Int) ≤ 2^63 ∧ Before start stop step) :
    RangeSpec start stop step n := by
  unfold RangeSpec
  split
  · rename_i h; subst h; simp [init]
  rename_i hs0
  have hinit : init start (some stop) (some step) = .ok ⟨wrap64 (start - step), step,
      (stop - start).tdiv step + (if (stop - start).tmod step ≠ 0 then 1 else 0)⟩ := by
    unfold init
    simp only [Option.getD_some, wrap64_of_in hd]
    rw [if_neg hs0, if_neg (by omega)]
  refine ⟨_, hinit, ?_⟩
  generalize hrem : (stop - start).tdiv step + (if (stop - start).tmod step ≠ 0 then (1:Int) else 0) = rem
  -- number of elements
  have hcount : ∀ k : Int, 0 ≤ k → (k < rem ↔ Before (start + k * step) stop step) := by
    intro k hk
    unfold Before
    by_cases hp : step > 0
    · rw [if_pos hp]
      by_cases hd0 : 0 < stop - start
      · subst hrem; rw [Slice.ceil_lt hd0 hp]; omega
      · have hk' : 0 ≤ k * step := Int.mul_nonneg hk (by omega)
        have : rem ≤ 0 := by
          have e : (stop - start) = -(start - stop) := by omega
          rw [e, Int.neg_tdiv, Int.neg_tmod] at hrem
          have h5 : start - stop = 0 ∨ step ≤ start - stop := by
            unfold WrongSide at hw; rw [if_pos hp] at hw; omega
          rcases h5 with h5 | h5
          · rw [h5] at hrem; simp at hrem; omega
          · have : 1 ≤ (start - stop).tdiv step := by
              rw [Int.tdiv_eq_ediv_of_nonneg (by omega)]
              exact (Int.le_ediv_iff_mul_le hp).2 (by omega)
            split at hrem <;> omega
        omega
    · rw [if_neg hp]
      have hp' : 0 < -step := by omega
      rw [Slice.ceil_neg] at hrem
      by_cases hd0 : 0 < start - stop
      · subst hrem; rw [Slice.ceil_lt hd0 hp', Int.mul_neg]; omega
      · have hk' : k * step ≤ 0 := Int.mul_nonpos_of_nonneg_of_nonpos hk (by omega)
        have : rem ≤ 0 := by
          have e : (start - stop) = -(stop - start) := by omega
          rw [e, Int.neg_tdiv, Int.neg_tmod] at hrem
          have h5 : stop - start = 0 ∨ -step ≤ stop - start := by
            unfold WrongSide at hw; rw [if_neg hp] at hw; omega
          rcases h5 with h5 | h5
          · rw [h5] at hrem; simp at hrem; omega
          · have : 1 ≤ (stop - start).tdiv (-step) := by
              rw [Int.tdiv_eq_ediv_of_nonneg (by omega)]
              exact (Int.le_ediv_iff_mul_le hp').2 (by omega)
            split at hrem <;> omega
        omega
  have hrabs : -((stop - start).natAbs : Int) ≤ rem ∧ rem ≤ (stop - start).natAbs := by
    have := tdiv_bound (r := stop - start) hs0
    by_cases hr0 : 0 < rem
    · have hb := (hcount (rem - 1) (by omega)).1 (by omega)
      unfold Before at hb
      split at hb
      · have : (rem - 1) * 1 ≤ (rem - 1) * step := Int.mul_le_mul_of_nonneg_left (by omega) (by omega)
        omega
      · have : (rem - 1) * step ≤ (rem - 1) * (-1) := Int.mul_le_mul_of_nonneg_left (by omega) (by omega)
        omega
    · split at hrem <;> omega
  have hrI : InI64 rem := by unfold InI64 at *; omega
  intro k hk
  set s0 : State := ⟨wrap64 (start - step), step, rem⟩ with hs0def
  by_cases hlt : (k:Int) < rem
  · have hB := (hcount k (by omega)).1 hlt
    have := after_yield s0 hrI k (by simp only [s0]; omega)
    unfold call next
    rw [this]
    simp only [s0]
    rw [if_neg (by omega)]
    unfold expected
    rw [if_pos hB]
    have : InI64 (start + k * step) := by
      unfold Before at hB; unfold InI64 at *
      split at hB
      · have : 0 ≤ (k:Int) * step := Int.mul_nonneg (by omega) (by omega)
        omega
      · have : (k:Int) * step ≤ 0 := Int.mul_nonpos_of_nonneg_of_nonpos (by omega) (by omega)
        omega
    split
    · rename_i hk0; subst hk0
      rw [wrap64_add_left, Int.sub_add_cancel, wrap64_of_in h1]; simp
    · rw [wrap64_add_left, Int.add_assoc, wrap64_add_left]
      rw [show start - step + (k * step + step) = start + k * step by omega, wrap64_of_in this]
  · have hB : ¬ Before (start + k * step) stop step := fun h => hlt ((hcount k (by omega)).2 h)
    unfold expected
    rw [if_neg hB]
    have hrem0 : (after s0 k).remaining ≤ 0 := by
      by_cases hr0 : rem ≤ 0
      · have := after_done s0 hrI hr0 k (by
          simp only [s0]
          rcases hn with hn | hn
          · omega
          · have := (hcount 0 (by omega)).2 (by simpa using hn.2)
            omega)
        rw [this]; simp only [s0]; omega
      · have e : k = rem.toNat + (k - rem.toNat) := by omega
        have h6 := after_yield s0 hrI rem.toNat (by simp only [s0]; omega)
        have h7 : (after s0 rem.toNat).remaining = 0 := by rw [h6]; simp only [s0]; omega
        rw [e, after_add]
        have := after_done (after s0 rem.toNat) (by rw [h7]; decide) (by omega) (k - rem.toNat) (by
          rw [h7]; rcases hn with hn | hn <;> omega)
        rw [this, h7]; omega
    unfold call next
    simp only [if_pos hrem0]

/-- `range(1, 0, 2)` yields 1, although nothing lies between. -/
theorem C02_refuted : ¬ RangeSpec 1 0 2 1 := by
  rintro ⟨s, h1, h2⟩
  have e : init 1 (some 0) (some 2) = .ok ⟨-1, 2, 1⟩ := by decide
  rw [e] at h1; cases h1
  have := h2 0 (by decide)
  revert this; decide

/-- `range(-2^62, 2^62, 1)` yields nothing although it denotes 2^63 elements. -/
theorem C02_refuted_overflow : ¬ RangeSpec (-2^62) (2^62) 1 1 := by
  rintro ⟨s, h1, h2⟩
  have e : init (-2^62) (some (2^62)) (some 1) = .ok ⟨-2^62 - 1, 1, -2^63⟩ := by decide
  rw [e] at h1; cases h1
  have := h2 0 (by decide)
  revert this; decide

/-- `range(0, -2^63, -1)` traps (division `INT64_MIN / -1`). -/
theorem C02_refuted_trap : init 0 (some (-2^63)) (some (-1)) = .ub := by decide

/-- The one-argument form is `range(0, n)`. -/
theorem C02_one_argument (n : Int) : init n none none = init 0 (some n) (some 1) := rfl

/-- The hypotheses are met by ordinary ranges, ascending and descending, and by empty ones. -/
example : (¬ WrongSide 3 20 5) ∧ ¬ WrongSide 20 3 (-5) ∧ ¬ WrongSide 5 0 1 ∧
    ((10:Nat):Int) + ((20:Int) - 3).natAbs ≤ 2^63 := by decide
example : (List.range 5).map (fun k => (expected 3 20 5 k)) =
    [.ok 3, .ok 8, .ok 13, .ok 18, .raise .stopIteration] := by decide

end Verif.Range
