import Verif.Int.Spec
import Mathlib.Tactic.Ring
import Mathlib.Tactic.Linarith
/-!
# C32: integer arithmetic
-/
namespace Verif.IntT
open Verif

/-! ### Conversion -/

theorem wrap_dvd (t : Ty) (x : Int) : (2 ^ t.bits : Int) ∣ (t.wrap x - x) := by
  unfold Ty.wrap
  split
  · have := Int.dvd_bmod_sub_self (x := x) (m := 2 ^ t.bits)
    simpa using this
  · exact Int.dvd_of_emod_eq_zero (by simp [Int.emod_emod_of_dvd, Int.sub_emod])

theorem wrap_congr {t : Ty} {x y : Int} (h : (2 ^ t.bits : Int) ∣ (x - y)) : t.wrap x = t.wrap y := by
  have e : x % 2 ^ t.bits = y % 2 ^ t.bits := Int.emod_eq_emod_iff_emod_sub_eq_zero.2 (Int.emod_eq_zero_of_dvd h)
  unfold Ty.wrap
  split
  · rw [← Int.emod_bmod, ← Int.emod_bmod (x := y)]
    push_cast
    rw [e]
  · exact e

theorem wrap_wrap (t : Ty) (x : Int) : t.wrap (t.wrap x) = t.wrap x := wrap_congr (wrap_dvd t x)

theorem In_wrap (t : Ty) (x : Int) : t.In (t.wrap x) := wrap_wrap t x

theorem In_iff {t : Ty} (ht : IsTy t) (x : Int) : t.In x ↔ Holds t x := by
  unfold IsTy at ht
  simp only [List.mem_cons, List.not_mem_nil, or_false] at ht
  rcases ht with h | h | h | h | h | h | h | h <;> subst h <;>
    simp only [Ty.In, Ty.wrap, Holds, i8, i16, i32, i64, u8, u16, u32, u64, if_true, Bool.false_eq_true,
      if_false, Int.bmod] <;> norm_num <;> (try split) <;> omega

theorem wrap_isWrap {t : Ty} (ht : IsTy t) (x : Int) : IsWrap t (t.wrap x) x :=
  ⟨wrap_dvd t x, (In_iff ht _).1 (In_wrap t x)⟩

theorem wrap64_eq (x : Int) : wrap64 x = i64.wrap x := rfl

theorem dvd_trans_sub {m x y z : Int} (h1 : m ∣ x - y) (h2 : m ∣ y - z) : m ∣ x - z := by
  have := Int.dvd_add h1 h2
  rwa [show x - y + (y - z) = x - z by ring] at this

theorem dvd_mul_left_sub {m x y : Int} (a : Int) (h : m ∣ x - y) : m ∣ a * x - a * y := by
  rw [← mul_sub]; exact Dvd.dvd.mul_left h a

theorem dvd_symm_sub {m x y : Int} (h : m ∣ x - y) : m ∣ y - x := by
  rw [← neg_sub]; exact (Int.dvd_neg).2 h

theorem dvd_pow_sub {m x y : Int} (h : m ∣ x - y) (k : Nat) : m ∣ x ^ k - y ^ k := by
  induction k with
  | zero => simp
  | succ k ih =>
    have := Int.dvd_add (Dvd.dvd.mul_left ih x) (Dvd.dvd.mul_left h (y ^ k))
    rwa [show x * (x ^ k - y ^ k) + y ^ k * (x - y) = x ^ (k + 1) - y ^ (k + 1) by ring] at this

/-! ### Power -/

theorem pow_step (a : Int) (n : Nat) : a ^ n = (if n % 2 = 0 then 1 else a) * (a * a) ^ (n / 2) := by
  conv => lhs; rw [← Nat.mod_add_div n 2]
  rw [pow_add, pow_mul, pow_two]
  rcases Nat.mod_two_eq_zero_or_one n with h | h <;> rw [h] <;> simp

theorem powT_spec {t : Ty} (h1 : t.In 1) : ∀ (f : Nat) (a e : Int), t.In a → e.natAbs < 2 ^ f →
    powT t (f + 1) a e = .ok (t.wrap (a ^ e.natAbs)) := by
  intro f
  induction f with
  | zero =>
    intro a e ha he
    have : e = 0 := by simpa using he
    subst this
    simp only [powT, if_true, Int.natAbs_zero, pow_zero]
    rw [show t.wrap 1 = 1 from h1]
  | succ f ih =>
    intro a e ha he
    rw [powT]
    split
    · next h => subst h; simp only [Int.natAbs_zero, pow_zero]; rw [show t.wrap 1 = 1 from h1]
    split
    · next h => subst h; simp only [Int.natAbs_one, pow_one]; rw [show t.wrap a = a from ha]
    have hk : (e.tdiv 2).natAbs = e.natAbs / 2 := by
      rw [Int.natAbs_tdiv]; rfl
    have hr : powT t (f + 1) (t.wrap (a * a)) (e.tdiv 2) =
        .ok (t.wrap ((a * a) ^ (e.natAbs / 2))) := by
      rw [ih _ _ (In_wrap t _) (by rw [hk, Nat.div_lt_iff_lt_mul (by omega)]; rw [pow_succ] at he; exact he), hk]
      rw [wrap_congr (dvd_pow_sub (wrap_dvd t (a * a)) _)]
    have hm : e.tmod 2 = 0 ↔ e.natAbs % 2 = 0 := by
      have : (e.tmod 2).natAbs = e.natAbs % 2 := Int.natAbs_tmod e 2
      omega
    rw [hr]
    rw [pow_step a e.natAbs]
    split
    · next h => rw [if_pos (hm.1 h), one_mul]
    · next h =>
      rw [if_neg (fun c => h (hm.2 c))]
      simp only [Res.ok_bind, Res.pure_eq]
      rw [wrap_congr (dvd_mul_left_sub a (wrap_dvd t _))]

theorem nfold_eq (a : Int) (k : Nat) : nfold a k = a ^ k := by
  induction k with
  | zero => simp [nfold]
  | succ k ih => rw [nfold, ih, pow_succ]

theorem In_one {t : Ty} (ht : IsTy t) : t.In 1 := by
  rw [In_iff ht]
  unfold IsTy at ht
  simp only [List.mem_cons, List.not_mem_nil, or_false] at ht
  rcases ht with h | h | h | h | h | h | h | h <;> subst h <;> decide

theorem In_abs {t : Ty} (ht : IsTy t) {e : Int} (h : t.In e) : e.natAbs < 2 ^ 64 := by
  rw [In_iff ht] at h
  unfold IsTy at ht
  simp only [List.mem_cons, List.not_mem_nil, or_false] at ht
  rcases ht with h | h | h | h | h | h | h | h <;> subst h <;>
    simp [Holds, i8, i16, i32, i64, u8, u16, u32, u64] at h <;> omega

theorem intPow_eq {a e : Int} (ha : i64.In a) (he : i64.In e) :
    intPow a e = .ok (i64.wrap (a ^ e.natAbs)) :=
  powT_spec (In_one (by decide : IsTy i64)) 64 a e ha (In_abs (by decide) he)

/-- For the signed integer types `a ** n` is the `n`-fold product, wrapped around. -/
theorem C32_pow {t : Ty} (ht : IsTy t) {a n : Int} (ha : Holds t a) (hn : Holds t n)
    (h0 : 0 ≤ n) : ∃ r, pow t a n = .ok r ∧ IsWrap t r (nfold a n.toNat) := by
  refine ⟨t.wrap (a ^ n.natAbs), ?_, ?_⟩
  · unfold pow
    rw [if_neg (by omega)]
    exact powT_spec (In_one ht) 64 a n ((In_iff ht a).2 ha) (In_abs ht ((In_iff ht n).2 hn))
  · rw [nfold_eq, show n.natAbs = n.toNat by omega]
    exact wrap_isWrap ht _

example : IsTy i64 ∧ Holds i64 (-3) ∧ Holds i64 50 ∧ pow i64 (-3) 50 = .ok 6048575297968530377 := by
  decide +kernel

/-- A negative exponent of a boxed integer is an error. -/
theorem C32_pow_negative (t : Ty) (a : Int) {n : Int} (h : n < 0) : pow t a n = .raise .valueError := by
  unfold pow; rw [if_pos h]

/-- Unboxed `int`: the same product. -/
theorem C32_pow_unboxed {a n : Int} (ha : Holds i64 a) (hn : Holds i64 n) (h0 : 0 ≤ n) :
    ∃ r, intPow a n = .ok r ∧ IsWrap i64 r (nfold a n.toNat) := by
  have := C32_pow (t := i64) (by decide) ha hn h0
  unfold pow at this
  rwa [if_neg (by omega)] at this

example : Holds i64 3 ∧ Holds i64 41 := by decide

/-- A negative exponent of an unboxed integer is no error: the sign is ignored. -/
theorem C32_refuted_negative_exponent : intPow 2 (-1) = .ok 2 ∧ intPow 3 (-2) = .ok 9 := by
  decide +kernel

theorem wrap32_dvd (x : Int) : (2 ^ 32 : Int) ∣ (wrap32 x - x) := wrap_dvd i32 x
theorem wrap64_dvd (x : Int) : (2 ^ 64 : Int) ∣ (wrap64 x - x) := wrap_dvd i64 x

theorem pow2_dvd {k l : Nat} (h : k ≤ l) : (2 ^ k : Int) ∣ 2 ^ l := pow_dvd_pow 2 h

theorem i64_of_32 {x : Int} (h : InI32 x) : i64.In x := by
  rw [In_iff (by decide)]; unfold InI32 at h; simp [Holds, i64]; omega

theorem uSquare_spec {t : Ty} (hb : t.bits ≤ 64) (a : Int) :
    i64.In (uSquare t a) ∧ (2 ^ t.bits : Int) ∣ uSquare t a - a * a := by
  unfold uSquare
  split
  · next h =>
    exact ⟨i64_of_32 (wrap32_in _), Dvd.dvd.trans (pow2_dvd (by omega)) (wrap32_dvd _)⟩
  · refine ⟨In_wrap i64 _, ?_⟩
    refine dvd_trans_sub (Dvd.dvd.trans (pow2_dvd hb) (wrap64_dvd _)) ?_
    exact Int.dvd_of_emod_eq_zero (by simp [Int.sub_emod])

/-- The unsigned integer types, unboxed. -/
theorem C32_upow {t : Ty} (ht : IsTy t) (hu : t.signed = false) {a n : Int} (ha : Holds t a)
    (hn : Holds t n) : ∃ r, uPow t a n = .ok r ∧ IsWrap t r (nfold a n.toNat) := by
  have hbits : t.bits ≤ 64 := by
    unfold IsTy at ht
    simp only [List.mem_cons, List.not_mem_nil, or_false] at ht
    rcases ht with h | h | h | h | h | h | h | h <;> subst h <;> decide
  have hn' : 0 ≤ n ∧ n < 2 ^ t.bits := by simpa [Holds, hu] using hn
  have hn64 : n < 2 ^ 64 := lt_of_lt_of_le hn'.2 (pow_le_pow_right₀ (by norm_num) hbits)
  refine ⟨t.wrap (a ^ n.toNat), ?_, by rw [nfold_eq]; exact wrap_isWrap ht _⟩
  unfold uPow
  split
  · next h => subst h; simp only [Int.toNat_zero, pow_zero]; rw [show t.wrap 1 = 1 from In_one ht]
  split
  · next h =>
    subst h
    rw [show (1 : Int).toNat = 1 from rfl, pow_one, show t.wrap a = a from (In_iff ht a).2 ha]
  obtain ⟨hs1, hs2⟩ := uSquare_spec hbits a
  have hr := intPow_eq (e := n / 2) hs1 (by
    rw [In_iff (by decide)]; simp [Holds, i64]; omega)
  have hk : (n / 2).natAbs = n.toNat / 2 := by omega
  rw [hk] at hr
  have hd : (2 ^ t.bits : Int) ∣ i64.wrap (uSquare t a ^ (n.toNat / 2)) - (a * a) ^ (n.toNat / 2) :=
    dvd_trans_sub (Dvd.dvd.trans (pow2_dvd hbits) (wrap_dvd i64 _)) (dvd_pow_sub hs2 _)
  rw [hr, pow_step a n.toNat]
  split
  · next h =>
    rw [if_pos (by omega), one_mul]
    simp only [Res.ok_bind, Res.pure_eq]
    rw [wrap_congr hd]
  · next h =>
    rw [if_neg (by omega)]
    simp only [Res.ok_bind, Res.pure_eq]
    rw [wrap_congr (dvd_mul_left_sub a hd)]

example : IsTy u64 ∧ u64.signed = false ∧ Holds u64 3 ∧ Holds u64 (2 ^ 64 - 1) ∧
    uPow u64 3 (2 ^ 64 - 1) = .ok 12297829382473034411 := by decide +kernel

/-- The unsigned integer types, boxed. Missing: exponents of `u64` from `2^63` on. -/
theorem C32_upow_boxed_partial {t : Ty} (ht : IsTy t) (hu : t.signed = false) {a n : Int}
    (ha : Holds t a) (hn : Holds t n) (hn63 : n < 2 ^ 63) :
    ∃ r, uPowBoxed t a n = .ok r ∧ IsWrap t r (nfold a n.toNat) := by
  have hbits : t.bits ≤ 64 := by
    unfold IsTy at ht
    simp only [List.mem_cons, List.not_mem_nil, or_false] at ht
    rcases ht with h | h | h | h | h | h | h | h <;> subst h <;> decide
  have hn' : 0 ≤ n ∧ n < 2 ^ t.bits := by simpa [Holds, hu] using hn
  refine ⟨t.wrap (a ^ n.toNat), ?_, by rw [nfold_eq]; exact wrap_isWrap ht _⟩
  unfold uPowBoxed
  rw [wrap64_of_in (n := n) ⟨by omega, hn63⟩]
  rw [wrap64_eq a, intPow_eq (In_wrap i64 a) (by rw [In_iff (by decide)]; simp [Holds, i64]; omega)]
  simp only [Res.ok_bind, Res.pure_eq]
  rw [show n.natAbs = n.toNat by omega]
  congr 1
  exact wrap_congr (dvd_trans_sub (Dvd.dvd.trans (pow2_dvd hbits) (wrap_dvd i64 _))
    (Dvd.dvd.trans (pow2_dvd hbits) (dvd_pow_sub (wrap64_dvd a) _)))

example : IsTy u8 ∧ Holds u8 7 ∧ Holds u8 255 ∧ uPowBoxed u8 7 255 = .ok 183 := by decide +kernel

/-- The exponent of a boxed `u64` is converted to `long`: `3 ** (2**64 - 1)` gives `3`. -/
theorem C32_refuted_upow_boxed : Holds u64 3 ∧ Holds u64 (2 ^ 64 - 1) ∧
    uPowBoxed u64 3 (2 ^ 64 - 1) = .ok 3 ∧
    ¬ IsWrap u64 3 (nfold 3 ((2 ^ 64 - 1 : Int).toNat)) := by
  refine ⟨by decide, by decide, by decide +kernel, ?_⟩
  intro h
  obtain ⟨r, h1, h2⟩ := C32_upow (t := u64) (by decide) rfl (a := 3) (n := 2 ^ 64 - 1) (by decide) (by decide)
  rw [show uPow u64 3 (2 ^ 64 - 1) = .ok 12297829382473034411 by decide +kernel] at h1
  cases h1
  have := dvd_trans_sub h.1 (dvd_symm_sub h2.1)
  revert this
  decide +kernel

/-! ### Division -/

/-- The one quotient of a signed type that does not fit. -/
def DivOverflow (t : Ty) (a b : Int) : Prop := t.signed ∧ a = -(2 ^ (t.bits - 1) : Int) ∧ b = -1

theorem tdiv_cases (a b : Int) (hb : b ≠ 0) :
    a = a.tdiv b * b + a.tmod b ∧ (a.tmod b).natAbs < b.natAbs ∧ (0 ≤ a → 0 ≤ a.tmod b) ∧
      (a ≤ 0 → a.tmod b ≤ 0) ∧ (a.tdiv b).natAbs ≤ a.natAbs ∧
      (b ≠ 1 → b ≠ -1 → (a.tdiv b).natAbs ≤ a.natAbs / 2) := by
  refine ⟨?_, ?_, ?_, ?_, ?_, ?_⟩
  · have := Int.mul_tdiv_add_tmod a b
    linarith [mul_comm b (a.tdiv b)]
  · rw [Int.natAbs_tmod]; exact Nat.mod_lt _ (by omega)
  · exact fun h => Int.tmod_nonneg b h
  · intro h
    have := Int.tmod_nonneg (a := -a) b (by omega)
    rw [Int.neg_tmod] at this
    omega
  · rw [Int.natAbs_tdiv]; exact Nat.div_le_self _ _
  · intro h1 h2
    rw [Int.natAbs_tdiv]
    exact Nat.div_le_div_left (by omega) (by omega)

theorem holds_quot {t : Ty} (ht : IsTy t) {a b : Int} (ha : Holds t a) (hb : Holds t b) (h0 : b ≠ 0)
    (ho : ¬ DivOverflow t a b) : Holds t (a.tdiv b) ∧ Holds t (a.tmod b) := by
  obtain ⟨h1, h2, h3, h4, h5, h6⟩ := tdiv_cases a b h0
  have e1 : b = 1 → a.tdiv b = a := by intro h; subst h; exact Int.tdiv_one a
  have e2 : b = -1 → a.tdiv b = -a := by
    intro h; subst h; rw [Int.tdiv_neg, Int.tdiv_one]
  have h7 : t.signed = false → 0 ≤ a.tdiv b := by
    intro h; simp [Holds, h] at ha hb; exact Int.tdiv_nonneg ha.1 hb.1
  generalize a.tdiv b = q at *
  generalize a.tmod b = r at *
  clear h1
  unfold IsTy at ht
  simp only [List.mem_cons, List.not_mem_nil, or_false] at ht
  rcases ht with h | h | h | h | h | h | h | h <;> subst h <;>
    simp only [Holds, DivOverflow, i8, i16, i32, i64, u8, u16, u32, u64, if_true, Bool.false_eq_true,
      if_false, true_and, false_and, not_false_eq_true, reduceCtorEq, forall_const, forall_false] at * <;>
    norm_num at * <;> omega

theorem holds_arith {t : Ty} (ht : IsTy t) {x : Int} (h : Holds t x) : t.arith.wrap x = x := by
  change t.arith.In x
  unfold IsTy at ht
  simp only [List.mem_cons, List.not_mem_nil, or_false] at ht
  rcases ht with h' | h' | h' | h' | h' | h' | h' | h' <;> subst h' <;>
    (refine (In_iff (by decide) x).2 ?_; revert h; simp [Holds, Ty.arith, i8, i16, i32, i64, u8, u16, u32, u64]) <;>
    omega

/-- Division rounds to zero, and the four operations agree. -/
theorem C32_div_trunc {t : Ty} (ht : IsTy t) {a b : Int} (ha : Holds t a) (hb : Holds t b)
    (h0 : b ≠ 0) (ho : ¬ DivOverflow t a b) :
    ∃ q r, floordiv t a b = .ok q ∧ mod t a b = .ok r ∧ modUnboxed t a b = .ok r ∧
      divmod t a b = .ok (q, r) ∧ a = q * b + r ∧ r.natAbs < b.natAbs ∧ (0 ≤ a → 0 ≤ r) ∧ (a ≤ 0 → r ≤ 0) := by
  obtain ⟨hq, hr⟩ := holds_quot ht ha hb h0 ho
  obtain ⟨h1, h2, h3, h4, _, _⟩ := tdiv_cases a b h0
  have hd : divOk t a b = true := by
    unfold divOk; simp [h0, holds_arith ht hq]
  have wq : t.wrap (a.tdiv b) = a.tdiv b := (In_iff ht _).2 hq
  have wr : t.wrap (a.tmod b) = a.tmod b := (In_iff ht _).2 hr
  have hm : mod t a b = .ok (a.tmod b) := by unfold mod; rw [if_pos hd, wr]
  refine ⟨a.tdiv b, a.tmod b, ?_, hm, ?_, ?_, h1, h2, h3, h4⟩
  · unfold floordiv; rw [if_neg h0, if_pos hd, wq]
  · unfold modUnboxed; rw [if_neg h0, hm]
  · unfold divmod; rw [if_pos hd, wq, wr]

example : IsTy i64 ∧ Holds i64 (-7) ∧ Holds i64 2 ∧ (2 : Int) ≠ 0 ∧ ¬ DivOverflow i64 (-7) 2 := by
  refine ⟨by decide, by decide, by decide, by decide, ?_⟩; unfold DivOverflow; decide

/-- Operands of the same sign, or without remainder. Missing: the other operands, where the
remainder has the wrong sign (`C32_refuted_mod_sign`), and `INT_MIN // -1` (`C32_refuted_min`). -/
theorem C32_div_partial {t : Ty} (ht : IsTy t) {a b : Int} (ha : Holds t a) (hb : Holds t b)
    (h0 : b ≠ 0) (ho : ¬ DivOverflow t a b) (hs : (0 ≤ a ∧ 0 < b) ∨ (a ≤ 0 ∧ b < 0) ∨ b ∣ a) :
    ∃ q r, floordiv t a b = .ok q ∧ mod t a b = .ok r ∧ modUnboxed t a b = .ok r ∧
      divmod t a b = .ok (q, r) ∧ IsFloorDiv a b q r := by
  obtain ⟨q, r, h1, h2, h3, h4, h5, h6, h7, h8⟩ := C32_div_trunc ht ha hb h0 ho
  refine ⟨q, r, h1, h2, h3, h4, h5, ?_⟩
  rcases hs with hs | hs | hs
  · omega
  · omega
  · have : b ∣ r := by
      have : r = a - q * b := by omega
      rw [this]; exact Int.dvd_sub hs (Dvd.intro_left q rfl)
    have : r = 0 := Int.eq_zero_of_dvd_of_natAbs_lt_natAbs this h6
    omega

example : IsTy i32 ∧ Holds i32 (-7) ∧ Holds i32 (-2) ∧ (-2 : Int) ≠ 0 ∧ ¬ DivOverflow i32 (-7) (-2) ∧
    ((0 ≤ (-7 : Int) ∧ 0 < (-2 : Int)) ∨ ((-7 : Int) ≤ 0 ∧ (-2 : Int) < 0) ∨ (-2 : Int) ∣ -7) := by
  unfold DivOverflow; decide

/-- The unsigned integer types. -/
theorem C32_div_unsigned {t : Ty} (ht : IsTy t) (hu : t.signed = false) {a b : Int} (ha : Holds t a)
    (hb : Holds t b) (h0 : b ≠ 0) :
    ∃ q r, floordiv t a b = .ok q ∧ mod t a b = .ok r ∧ modUnboxed t a b = .ok r ∧
      divmod t a b = .ok (q, r) ∧ IsFloorDiv a b q r := by
  refine C32_div_partial ht ha hb h0 (by unfold DivOverflow; simp [hu]) ?_
  simp [Holds, hu] at ha hb
  omega

example : IsTy u16 ∧ u16.signed = false ∧ Holds u16 65535 ∧ Holds u16 7 ∧ (7 : Int) ≠ 0 := by decide

/-- Division by zero, where it is tested. -/
theorem C32_div_zero (t : Ty) (a : Int) :
    floordiv t a 0 = .raise .zeroDivision ∧ modUnboxed t a 0 = .raise .zeroDivision := ⟨rfl, rfl⟩

/-- `%` and `divmod` of boxed integers do not test for zero. -/
theorem C32_refuted_mod_zero (t : Ty) (a : Int) : mod t a 0 = .ub ∧ divmod t a 0 = .ub := ⟨rfl, rfl⟩

/-- `-7 // 2 == -3` and `-7 % 2 == -1`: the remainder has the sign of the dividend. -/
theorem C32_refuted_mod_sign : floordiv i64 (-7) 2 = .ok (-3) ∧ mod i64 (-7) 2 = .ok (-1) ∧
    modUnboxed i64 (-7) 2 = .ok (-1) ∧ ∀ q, ¬ IsFloorDiv (-7) 2 q (-1) := by
  refine ⟨by decide +kernel, by decide +kernel, by decide +kernel, ?_⟩
  intro q h
  have := h.2.1 (by decide)
  omega

/-- For all operands of different sign with a remainder, the sign of the result of `%` is wrong. -/
theorem C32_refuted_mod_sign_general {t : Ty} (ht : IsTy t) {a b : Int} (ha : Holds t a)
    (hb : Holds t b) (h0 : (a < 0 ∧ 0 < b) ∨ (0 < a ∧ b < 0)) (hd : ¬ b ∣ a)
    (ho : ¬ DivOverflow t a b) :
    ∃ r, mod t a b = .ok r ∧ modUnboxed t a b = .ok r ∧ ∀ q, ¬ IsFloorDiv a b q r := by
  obtain ⟨q, r, h1, h2, h3, h4, h5, h6, h7, h8⟩ := C32_div_trunc ht ha hb (by omega) ho
  refine ⟨r, h2, h3, ?_⟩
  intro q' h
  obtain ⟨g1, g2, g3⟩ := h
  have hr : r ≠ 0 := by
    intro hr; subst hr; exact hd ⟨q, by rw [h5]; ring⟩
  rcases h0 with h | h
  · have := g2 h.2; have := h8 (by omega); omega
  · have := g3 h.2; have := h7 (by omega); omega

example : IsTy i8 ∧ Holds i8 (-7) ∧ Holds i8 2 ∧ (((-7 : Int) < 0 ∧ (0 : Int) < 2) ∨ ((0 : Int) < -7 ∧ (2 : Int) < 0)) ∧
    ¬ (2 : Int) ∣ -7 ∧ ¬ DivOverflow i8 (-7) 2 := by unfold DivOverflow; decide

/-- The least `int` divided by `-1` traps; for `i8` and `i16` the quotient wraps. -/
theorem C32_refuted_min : floordiv i64 (-2 ^ 63) (-1) = .ub ∧ mod i64 (-2 ^ 63) (-1) = .ub ∧
    floordiv i32 (-2 ^ 31) (-1) = .ub ∧ floordiv i16 (-2 ^ 15) (-1) = .ok (-2 ^ 15) := by
  decide +kernel

/-! ### Rounding (C38) -/

theorem pow10_bounds {k : Nat} (h1 : 1 ≤ k) (h2 : k ≤ 18) : 10 ≤ (10 : Int) ^ k ∧ (10 : Int) ^ k ≤ 10 ^ 18 ∧
    (2 : Int) ∣ 10 ^ k := by
  refine ⟨?_, pow_le_pow_right₀ (by norm_num) h2, ?_⟩
  · calc (10 : Int) = 10 ^ 1 := by norm_num
      _ ≤ 10 ^ k := pow_le_pow_right₀ (by norm_num) h1
  · exact dvd_pow (by norm_num) (by omega)

theorem nearest_of {n m q r : Int} (hm : 0 < m) (hn : n = q * m + r) (hr : 0 ≤ r) (hrm : r < m) :
    IsNearest n m ((if r * 2 > m then q + 1 else q) * m) := by
  refine ⟨Dvd.intro_left _ rfl, ?_⟩
  rintro x ⟨c, rfl⟩
  have hx : m * c = q * m + m * (c - q) := by ring
  rcases lt_or_ge c (q + 1) with h | h
  · have : m * (c - q) ≤ 0 := mul_nonpos_of_nonneg_of_nonpos hm.le (by omega)
    split
    · have : (q + 1) * m = q * m + m := by ring
      generalize q * m = z at *; generalize m * (c - q) = y at *; generalize m * c = w at *; omega
    · generalize q * m = z at *; generalize m * (c - q) = y at *; generalize m * c = w at *; omega
  · have : m ≤ m * (c - q) := by nlinarith
    split
    · have : (q + 1) * m = q * m + m := by ring
      generalize q * m = z at *; generalize m * (c - q) = y at *; generalize m * c = w at *; omega
    · generalize q * m = z at *; generalize m * (c - q) = y at *; generalize m * c = w at *; omega

theorem roundNonneg_spec {n : Int} {k : Nat} (h0 : 0 ≤ n) (hn : InI64 n) (hk : 1 ≤ k) (hk' : k ≤ 18)
    (hb : n + 10 ^ k < 2 ^ 63) :
    ∃ r, roundNonneg n (-k) = .ok r ∧ IsNearest n (10 ^ k) r ∧ 0 ≤ r ∧ r < 2 ^ 63 := by
  obtain ⟨p1, p2, p3⟩ := pow10_bounds hk hk'
  have hp : intPow 10 (wrap64 (-(-(k : Int)))) = .ok (10 ^ k) := by
    rw [neg_neg, wrap64_of_in ⟨by omega, by omega⟩, intPow_eq (by rw [In_iff (by decide)]; decide)
      (by rw [In_iff (by decide)]; simp [Holds, i64]; omega)]
    rw [Int.natAbs_natCast, ← wrap64_eq, wrap64_of_in]
    refine ⟨?_, ?_⟩ <;> omega
  unfold roundNonneg
  rw [if_neg (by omega), hp]
  generalize hm : (10 : Int) ^ k = m at *
  have hm0 : 0 < m := by omega
  obtain ⟨d1, d2, d3, d4, d5, d6⟩ := tdiv_cases n m (by omega)
  have q0 : 0 ≤ n.tdiv m := Int.tdiv_nonneg h0 hm0.le
  have hd : divOk i64 n m = true := by
    unfold divOk
    have : i64.arith.wrap (n.tdiv m) = n.tdiv m := by
      rw [show i64.arith = i64 from rfl, ← wrap64_eq, wrap64_of_in]
      refine ⟨by omega, ?_⟩
      unfold InI64 at hn; omega
    simp [this]; omega
  simp only [Res.ok_bind, hd, if_true, Res.pure_eq]
  rw [wrap64_of_in (n := n.tmod m * 2) ⟨by have := d3 h0; omega, by have := d3 h0; omega⟩]
  have key := nearest_of hm0 d1 (d3 h0) (by have := d3 h0; omega)
  have rng : 0 ≤ (if n.tmod m * 2 > m then n.tdiv m + 1 else n.tdiv m) * m ∧
      (if n.tmod m * 2 > m then n.tdiv m + 1 else n.tdiv m) * m < 2 ^ 63 := by
    have z0 : 0 ≤ n.tdiv m * m := mul_nonneg q0 hm0.le
    split
    · rw [show (n.tdiv m + 1) * m = n.tdiv m * m + m by ring]
      have := d3 h0
      omega
    · have := d3 h0
      omega
  refine ⟨_, rfl, ?_, ?_⟩
  · rw [wrap64_of_in ⟨by omega, by omega⟩]; exact key
  · rw [wrap64_of_in ⟨by omega, by omega⟩]; exact rng

/-- `round(n, p)` for `p ≥ 0` is `n`. Missing: the least `int` (`C38_refuted_min`). -/
theorem C38_round_nonneg_partial {n p : Int} (hn : InI64 n) (hmin : n ≠ -2 ^ 63) (hp : 0 ≤ p) :
    round n p = .ok n := by
  unfold round
  split
  · next h =>
    have : InI64 (-n) := by unfold InI64 at *; omega
    rw [wrap64_of_in this, if_neg (by omega)]
    unfold roundNonneg
    rw [if_pos hp]
    simp only [Res.ok_bind, Res.pure_eq, neg_neg]
    rw [wrap64_of_in hn]
  · unfold roundNonneg; rw [if_pos hp]

example : InI64 (-5) ∧ (-5 : Int) ≠ -2 ^ 63 ∧ (0 : Int) ≤ 0 := by decide

/-- `round(n, -k)` is a multiple of `10**k` nearest to `n`. Missing: `k > 18`, where the power does
not fit (`C38_refuted_power`), and numbers so large that the result may not fit. -/
theorem C38_round_partial {n : Int} {k : Nat} (hk : 1 ≤ k) (hk' : k ≤ 18)
    (hb : (n.natAbs : Int) + 10 ^ k < 2 ^ 63) :
    ∃ r, round n (-k) = .ok r ∧ IsNearest n (10 ^ k) r := by
  have p1 := (pow10_bounds hk hk').1
  unfold round
  split
  · next h =>
    have : InI64 (-n) := by unfold InI64; omega
    rw [wrap64_of_in this, if_neg (by omega)]
    obtain ⟨r, e, ⟨⟨c, hc⟩, hr⟩, r0, r1⟩ := roundNonneg_spec (n := -n) (by omega) this hk hk' (by omega)
    rw [e]
    refine ⟨-r, ?_, ?_, ?_⟩
    · simp only [Res.ok_bind, Res.pure_eq]
      rw [wrap64_of_in]; unfold InI64; omega
    · exact ⟨-c, by rw [hc]; ring⟩
    · intro x hx
      have := hr (-x) ((Int.dvd_neg).2 hx)
      omega
  · obtain ⟨r, e, hr, _⟩ := roundNonneg_spec (n := n) (by omega) (by unfold InI64; omega) hk hk' (by omega)
    exact ⟨r, e, hr⟩

example : (1 : Nat) ≤ 2 ∧ 2 ≤ 18 ∧ (((-12350 : Int).natAbs : Int) + 10 ^ 2 < 2 ^ 63) ∧
    round (-12350) (-2) = .ok (-12300) ∧ round 12351 (-2) = .ok 12400 := by decide +kernel

/-- The least `int`: rounding calls itself without end. -/
theorem C38_refuted_min (p : Int) : round (-2 ^ 63) p = .diverge := by
  unfold round
  rw [if_pos (by norm_num), if_pos (by decide)]

/-- `10**64` is zero as an `int`, and `10**19` is negative. -/
theorem C38_refuted_power : round 1 (-64) = .ub ∧ round 1 (-19) = .ok (-8446744073709551616) ∧
    ¬ IsNearest 1 (10 ^ 19) (-8446744073709551616) := by
  refine ⟨by decide +kernel, by decide +kernel, ?_⟩
  intro h
  have := h.1
  revert this
  decide

end Verif.IntT
