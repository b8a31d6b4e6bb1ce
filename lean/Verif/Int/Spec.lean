import Verif.Int.Model
/-!
# Specification of integer arithmetic
-/
namespace Verif.IntT

/-- `q` and `r` are quotient and remainder as documented: `r` has the sign of the divisor. -/
def IsFloorDiv (a b q r : Int) : Prop :=
  a = q * b + r ∧ (0 < b → 0 ≤ r ∧ r < b) ∧ (b < 0 → b < r ∧ r ≤ 0)

/-- The integers that a type can hold. -/
def Holds (t : Ty) (x : Int) : Prop :=
  if t.signed then -(2 ^ (t.bits - 1) : Int) ≤ x ∧ x < 2 ^ (t.bits - 1) else 0 ≤ x ∧ x < 2 ^ t.bits

instance (t : Ty) (x : Int) : Decidable (Holds t x) := by unfold Holds; infer_instance

/-- `x` is the value of the type that is congruent to `y` modulo the size of the type. -/
def IsWrap (t : Ty) (x y : Int) : Prop := (2 ^ t.bits : Int) ∣ (x - y) ∧ Holds t x

/-- `n` multiplied with itself `k` times. -/
def nfold (a : Int) : Nat → Int
  | 0 => 1
  | k + 1 => nfold a k * a

/-- `r` is a multiple of `m` at least as close to `n` as any other one. -/
def IsNearest (n m r : Int) : Prop := m ∣ r ∧ ∀ x, m ∣ x → (n - r).natAbs ≤ (n - x).natAbs

/-- The integer types of the model. -/
def IsTy (t : Ty) : Prop := t ∈ [i8, i16, i32, i64, u8, u16, u32, u64]

instance (t : Ty) : Decidable (IsTy t) := by unfold IsTy; infer_instance

end Verif.IntT
