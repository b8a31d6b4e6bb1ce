import Verif.Unbox.Refine
/-!
# Properties of arithmetic on unboxed numbers: C127, C128, C129
-/
namespace Verif.Unbox
open Verif.IntT

/-! ## C127: every operand is evaluated once -/

/-- The code generated for an expression does what the expression may do: every operand is evaluated
once, and then the operator is applied as the method of the boxed type does it. Missing: effects in
the operands of `//` and `%` (`C127_refuted_twice`, `C127_refuted_value`, `C127_refuted_check`,
`C127_refuted_skipped`), `//` on `i8` and `i16` where the quotient may not fit
(`C128_refuted_narrow`), and powers whose exponent may be negative (`C128_refuted_pow`). -/
theorem C127_once_partial {S} {W : World S} {e : Expr} (h : Typed W e) (hs : Safe W e) (s : S) :
    Refines (ceval W (compile e) s) (eval W e s) := refines h hs s

/-- A program for the examples: the state is a counter. The variable `0` is `7`, the variable `1` is
`1` until the counter moves and `0` then. The function `0` counts and returns `1`, the function `1`
counts and returns the new count, the function `2` counts and returns `1` at first and `0` later, the
function `3` returns `5` without an effect. -/
def counter : World Nat where
  get x s := if x = 0 then 7 else if s = 0 then 1 else 0
  set _ _ s := s
  call f s :=
    if f = 0 then (.ok 1, s + 1)
    else if f = 1 then (.ok (Int.bmod (s + 1) 128), s + 1)
    else if f = 2 then (.ok (if s = 0 then 1 else 0), s + 1)
    else (.ok 5, s)

/-- `f() // 3 + x % g()`. -/
def sample : Expr :=
  .bin i64 .add (.bin i64 .fdiv (.call i64 0) (.lit i64 3)) (.bin i64 .mod (.var i64 0) (.call i64 3))

example : Typed counter sample ∧ Safe counter sample ∧ ceval counter (compile sample) 0 ≠ [] := by
  refine ⟨?_, ?_, by decide +kernel⟩
  · refine ⟨⟨⟨by decide, ?_⟩, ⟨by decide, by decide⟩, rfl, rfl⟩, ⟨⟨by decide, ?_⟩, ⟨by decide, ?_⟩, rfl, rfl⟩, rfl, rfl⟩
    · intro s v s' h
      simp only [counter, if_pos, Prod.mk.injEq, Res.ok.injEq] at h
      rw [← h.1]; decide
    · intro s; simp only [counter, if_pos]; decide
    · intro s v s' h
      simp [counter] at h
      rw [← h.1]; decide
  · refine ⟨⟨trivial, trivial, fun _ => .inr ?_, fun _ => .inl (by decide), by simp⟩,
      ⟨trivial, trivial, fun _ => .inl ⟨trivial, ?_⟩, by simp, by simp⟩, by simp, by simp, by simp⟩
    · show (3 : Int) ≠ 0; decide
    · intro s; exact ⟨5, by simp [counter]⟩

/-- The divisor is evaluated twice: `10 // f()` calls `f` two times. -/
theorem C127_refuted_twice : let e : Expr := .bin i64 .fdiv (.lit i64 10) (.call i64 0)
    Typed counter e ∧ (∀ o ∈ eval counter e 0, o = (.ok 10, 1)) ∧
    (∀ o ∈ ceval counter (compile e) 0, o = (.ok 10, 2)) ∧ ceval counter (compile e) 0 ≠ [] := by
  refine ⟨⟨⟨by decide, by decide⟩, ⟨by decide, ?_⟩, rfl, rfl⟩, by decide +kernel, by decide +kernel, by decide +kernel⟩
  intro s v s' h
  simp only [counter, if_pos, Prod.mk.injEq, Res.ok.injEq] at h
  rw [← h.1]; decide

/-- The second call may give another number: `10 // next()` with the numbers 1, 2, … is 5. If the
second number is zero, the test has been passed already and the division traps. -/
theorem C127_refuted_value :
    (let e : Expr := .bin i64 .fdiv (.lit i64 10) (.call i64 1);
      (∀ o ∈ eval counter e 0, o.1 = .ok 10) ∧ ∀ o ∈ ceval counter (compile e) 0, o.1 = .ok 5) ∧
    (let e : Expr := .bin i64 .mod (.lit i64 10) (.call i64 2);
      (∀ o ∈ eval counter e 0, o.1 = .ok 0) ∧ ∀ o ∈ ceval counter (compile e) 0, o.1 = .ub) := by
  decide +kernel

/-- The divisor is tested before the dividend is evaluated: if `f()` sets the variable `x` to zero,
`f() // x` may trap, while the methods would raise an exception or use the old value. -/
theorem C127_refuted_check : let e : Expr := .bin i64 .fdiv (.call i64 0) (.var i64 1)
    (∀ o ∈ eval counter e 0, o.1 = .ok 1 ∨ o.1 = .raise .zeroDivision) ∧
    ∃ o ∈ ceval counter (compile e) 0, o.1 = .ub := by
  decide +kernel

/-- If the divisor is zero the dividend is not evaluated at all: its effects are lost. -/
theorem C127_refuted_skipped : let e : Expr := .bin i64 .fdiv (.call i64 0) (.lit i64 0)
    (∀ o ∈ eval counter e 0, o = (.raise .zeroDivision, 1)) ∧
    ∀ o ∈ ceval counter (compile e) 0, o = (.raise .zeroDivision, 0) := by
  decide +kernel

/-- `1 // (1 // … (1 // f()))` with `n` divisions. -/
def nest : Nat → Expr
  | 0 => .call i64 0
  | n + 1 => .bin i64 .fdiv (.lit i64 1) (nest n)

theorem nest_typed : ∀ n, Typed counter (nest n) ∧ (nest n).ty = i64
  | 0 => by
    refine ⟨⟨by decide, ?_⟩, rfl⟩
    intro s v s' h
    simp only [counter, if_pos, Prod.mk.injEq, Res.ok.injEq] at h
    rw [← h.1]; decide
  | n + 1 => by
    obtain ⟨h1, h2⟩ := nest_typed n
    exact ⟨⟨⟨by decide, by decide⟩, h1, rfl, by rw [h2]; rfl⟩, rfl⟩

/-- The number of calls doubles with every division: in `1 // (1 // … (1 // f()))` with `n` divisions
`f` is called `2 ^ n` times. -/
theorem C127_refuted_exponential (n s : Nat) :
    Typed counter (nest n) ∧ (∀ o ∈ eval counter (nest n) s, o = (.ok 1, s + 1)) ∧
    ceval counter (compile (nest n)) s ≠ [] ∧
    ∀ o ∈ ceval counter (compile (nest n)) s, o = (.ok 1, s + 2 ^ n) := by
  refine ⟨(nest_typed n).1, ?_, ?_⟩
  · induction n generalizing s with
    | zero => simp [nest, eval, counter]
    | succ n ih =>
      intro o ho
      simp only [nest] at ho
      rw [eval_bin] at ho
      rcases mem_both.1 ho with ⟨x, s1, hx, h⟩ | ⟨hx, hno⟩ | ⟨y, s1, hy, h⟩ | ⟨hy, hno⟩
      · simp only [eval, List.mem_singleton, Prod.mk.injEq, Res.ok.injEq] at hx
        obtain ⟨rfl, rfl⟩ := hx
        rcases h with ⟨y, s2, hy, hk⟩ | ⟨hy, hno⟩
        · have h1 := ih _ _ hy; simp only [Prod.mk.injEq, Res.ok.injEq] at h1
          obtain ⟨rfl, rfl⟩ := h1
          rw [List.mem_singleton] at hk
          rw [hk]; simp only [Prod.mk.injEq, and_true]; decide +kernel
        · rw [ih _ _ hy] at hno; exact absurd rfl (hno 1)
      · simp only [eval, List.mem_singleton] at hx; rw [hx] at hno; exact absurd rfl (hno 1)
      · have h1 := ih _ _ hy; simp only [Prod.mk.injEq, Res.ok.injEq] at h1
        obtain ⟨rfl, rfl⟩ := h1
        rcases h with ⟨x, s2, hx, hk⟩ | ⟨hx, hno⟩
        · simp only [eval, List.mem_singleton, Prod.mk.injEq, Res.ok.injEq] at hx
          obtain ⟨rfl, rfl⟩ := hx
          rw [List.mem_singleton] at hk
          rw [hk]; simp only [Prod.mk.injEq, and_true]; decide +kernel
        · simp only [eval, List.mem_singleton] at hx; rw [hx] at hno; exact absurd rfl (hno 1)
      · rw [ih _ _ hy] at hno; exact absurd rfl (hno 1)
  · have key : ∀ n s, ceval counter (compile (nest n)) s ≠ [] ∧
        ∀ o ∈ ceval counter (compile (nest n)) s, o = (.ok 1, s + 2 ^ n) := by
      intro n
      induction n with
      | zero => intro s; simp [nest, compile, boxing, unbox, gen, ceval, counter]
      | succ n ih =>
        intro s
        have hc : compile (nest (n + 1)) = .floordiv i64 (.lit 1) (compile (nest n)) := by
          rw [nest, compile_bin (W := counter) (t := i64) (a := .lit i64 1) ⟨by decide, by decide⟩ rfl]; rfl
        rw [hc]
        simp only [ceval]
        obtain ⟨h0, h1⟩ := ih s
        obtain ⟨h2, h3⟩ := ih (s + 2 ^ n)
        obtain ⟨p, hp⟩ := List.exists_mem_of_ne_nil _ h0
        obtain ⟨q, hq⟩ := List.exists_mem_of_ne_nil _ h2
        have hp' := h1 p hp; subst hp'
        have hq' := h3 q hq; subst hq'
        constructor
        · refine List.ne_nil_of_mem (a := (.ok 1, s + 2 ^ n + 2 ^ n)) (mem_andThen.2 (.inl ⟨1, _, hp, ?_⟩))
          rw [if_neg (by decide), if_neg (by decide)]
          refine mem_both.2 (.inl ⟨1, _, List.mem_singleton.2 rfl, .inl ⟨1, _, hq, ?_⟩⟩)
          rw [List.mem_singleton]; simp only [Prod.mk.injEq, and_true]; decide +kernel
        · intro o ho
          have he : s + 2 ^ (n + 1) = s + 2 ^ n + 2 ^ n := by rw [pow_succ]; omega
          rw [he]
          rcases mem_andThen.1 ho with ⟨z, s1, hz, hk⟩ | ⟨hz, hno⟩
          · have h4 := h1 _ hz; simp only [Prod.mk.injEq, Res.ok.injEq] at h4
            obtain ⟨rfl, rfl⟩ := h4
            rw [if_neg (by decide), if_neg (by decide)] at hk
            rcases mem_both.1 hk with ⟨x, s1, hx, h⟩ | ⟨hx, hno⟩ | ⟨y, s1, hy, h⟩ | ⟨hy, hno⟩
            · simp only [List.mem_singleton, Prod.mk.injEq, Res.ok.injEq] at hx
              obtain ⟨rfl, rfl⟩ := hx
              rcases h with ⟨y, s2, hy, hk⟩ | ⟨hy, hno⟩
              · have h1 := h3 _ hy; simp only [Prod.mk.injEq, Res.ok.injEq] at h1
                obtain ⟨rfl, rfl⟩ := h1
                rw [List.mem_singleton] at hk
                rw [hk]; simp only [Prod.mk.injEq, and_true]; decide +kernel
              · rw [h3 _ hy] at hno; exact absurd rfl (hno 1)
            · simp only [List.mem_singleton] at hx; rw [hx] at hno; exact absurd rfl (hno 1)
            · have h1 := h3 _ hy; simp only [Prod.mk.injEq, Res.ok.injEq] at h1
              obtain ⟨rfl, rfl⟩ := h1
              rcases h with ⟨x, s2, hx, hk⟩ | ⟨hx, hno⟩
              · simp only [List.mem_singleton, Prod.mk.injEq, Res.ok.injEq] at hx
                obtain ⟨rfl, rfl⟩ := hx
                rw [List.mem_singleton] at hk
                rw [hk]; simp only [Prod.mk.injEq, and_true]; decide +kernel
              · simp only [List.mem_singleton] at hx; rw [hx] at hno; exact absurd rfl (hno 1)
            · rw [h3 _ hy] at hno; exact absurd rfl (hno 1)
          · rw [h1 _ hz] at hno; exact absurd rfl (hno 1)
    exact key n s

/-! ## C128: an operator on unboxed numbers is the operator on boxed numbers -/

/-- Two variables. -/
def pair : World (Int × Int) where
  get x s := if x = 0 then s.1 else s.2
  set x v s := if x = 0 then (v, s.2) else (s.1, v)
  call _ s := (.ok 0, s)

/-- The code generated for an operator between two variables. -/
def code (t : Ty) (o : BinOp) : C :=
  compile (.bin t o (.var t 0) (.var (if o = .shl ∨ o = .shr then i64 else t) 1))

/-- An operator between two variables gives what the method of the boxed type gives. Missing: `%` by
zero except on `u1` (`C128_refuted_mod`), powers with a negative exponent or, for `u64`, with an
exponent from `2^63` on (`C128_refuted_pow`), and the quotient of `i8` and `i16` that does not fit
(`C128_refuted_narrow`). -/
theorem C128_method_partial {t : Ty} (ht : IsNum t) (o : BinOp) {x y : Int} (hx : Fits t x) (hy : Fits t y)
    (hm : o = .mod → y ≠ 0 ∨ t = u1) (hf : o = .fdiv → (t ≠ i8 ∧ t ≠ i16) ∨ y ≠ -1)
    (hp : o = .pow → (t.signed = false ∧ t ≠ u64) ∨ (0 ≤ y ∧ y < 2 ^ 63)) :
    ceval pair (code t o) (x, y) ≠ [] ∧
    ∀ p ∈ ceval pair (code t o) (x, y), p = (method t o x y, (x, y)) := by
  have hc : code t o = genBin t o (.var 0) (.var 1) := by
    unfold code compile
    show genBin _ _ _ _ = _
    rfl
  rw [hc]
  by_cases h1 : o = .pow
  · subst h1
    have hg : genBin t .pow (.var 0) (.var 1) = .pow t (.var 0) (.var 1) := by
      unfold genBin; rw [if_neg (by simp [u1Ops])]
    rw [hg, ← powC_eq ht hx hy (hp rfl)]
    simp [ceval, both, andThen, pair]
  by_cases h2 : o = .fdiv
  · subst h2
    have hg : genBin t .fdiv (.var 0) (.var 1) = .floordiv t (.var 0) (.var 1) := by
      unfold genBin; rw [if_neg (by simp [u1Ops])]
    rw [hg]
    by_cases h0 : y = 0
    · subst h0
      simp [ceval, andThen, pair, method, IntT.floordiv]
    · by_cases hu : t = u1
      · subst hu
        rw [fdiv_u1 hx hy h0]
        simp [ceval, andThen, pair, h0]
      · rw [← fdiv_eq ht hx hy h0 (hf rfl)]
        simp [ceval, both, andThen, pair, h0, hu]
  by_cases h3 : o = .mod
  · subst h3
    have hg : genBin t .mod (.var 0) (.var 1) = .modm t (.var 0) (.var 1) := by
      unfold genBin; rw [if_neg (by simp [u1Ops])]
    rw [hg]
    by_cases h0 : y = 0
    · subst h0
      rcases hm rfl with h | h
      · exact absurd rfl h
      · subst h
        simp [ceval, andThen, pair, method, modUnboxed]
    · by_cases hu : t = u1
      · subst hu
        rw [← mod_u1 hx h0]
        simp [ceval, both, andThen, pair, h0]
      · rw [← mod_eq ht hx h0]
        simp [ceval, both, andThen, pair, h0, hu]
  rw [ceval_plain pair t h1 h3 h2, method_plain h1 h3 h2]
  simp [ceval, both, andThen, pair]

example : IsNum i8 ∧ Fits i8 (-128) ∧ Fits i8 3 ∧ ceval pair (code i8 .fdiv) (-128, 3) ≠ [] ∧
    method i8 .fdiv (-128) 3 = .ok (-42) := by decide +kernel

/-- Sum, difference and product are exact modulo the size of the type. -/
theorem C128_ring {t : Ty} (ht : IsNum t) {x y : Int} (hx : Fits t x) (hy : Fits t y) :
    ∀ q ∈ [(BinOp.add, x + y), (BinOp.sub, x - y), (BinOp.mul, x * y)], ∃ r,
      (∀ p ∈ ceval pair (code t q.1) (x, y), p = (.ok r, (x, y))) ∧
      (2 ^ t.bits : Int) ∣ r - q.2 ∧ Fits t r := by
  have hd : ∀ z, (2 ^ t.bits : Int) ∣ t.wrap (t.arith.wrap z) - z := by
    intro z
    refine dvd_trans_sub (wrap_dvd t _) (Dvd.dvd.trans (pow2_dvd ?_) (wrap_dvd t.arith z))
    unfold Ty.arith
    split
    · next h => show t.bits ≤ 32; omega
    · exact Nat.le_refl _
  intro q hq
  simp only [List.mem_cons, List.not_mem_nil, or_false] at hq
  rcases hq with rfl | rfl | rfl
  · exact ⟨t.wrap (t.arith.wrap (x + y)),
      (C128_method_partial ht .add hx hy (by simp) (by simp) (by simp)).2, hd _, fits_wrap ht _⟩
  · exact ⟨t.wrap (t.arith.wrap (x - y)),
      (C128_method_partial ht .sub hx hy (by simp) (by simp) (by simp)).2, hd _, fits_wrap ht _⟩
  · exact ⟨t.wrap (t.arith.wrap (x * y)),
      (C128_method_partial ht .mul hx hy (by simp) (by simp) (by simp)).2, hd _, fits_wrap ht _⟩

example : IsNum u16 ∧ Fits u16 65535 ∧ (∀ p ∈ ceval pair (code u16 .mul) (65535, 65535), p.1 = .ok 1) := by
  decide +kernel

theorem testBit_int (z : Int) (i : Nat) : z.testBit i = decide (z / 2 ^ i % 2 = 1) := by
  cases z with
  | ofNat n =>
    show Nat.testBit n i = _
    rw [Nat.testBit_eq_decide_div_mod_eq]
    congr 1
    apply propext
    have : ((n / 2 ^ i % 2 : Nat) : Int) = (Int.ofNat n) / 2 ^ i % 2 := by push_cast; rfl
    omega
  | negSucc n =>
    show (!Nat.testBit n i) = _
    rw [Nat.testBit_eq_decide_div_mod_eq, ← decide_not]
    congr 1
    apply propext
    have h1 : (Int.negSucc n) / 2 ^ i = -(((n / 2 ^ i : Nat) : Int) + 1) := by
      rw [Int.negSucc_ediv _ (by positivity)]
      push_cast; rfl
    rw [h1]
    have : ((n / 2 ^ i : Nat) : Int) % 2 = ((n / 2 ^ i % 2 : Nat) : Int) := by push_cast; rfl
    omega

/-- The bits below the width depend on the number modulo the size of the type only. -/
theorem testBit_of_dvd {b i : Nat} (hi : i < b) {r z : Int} (h : (2 ^ b : Int) ∣ r - z) :
    r.testBit i = z.testBit i := by
  obtain ⟨k, hk⟩ := h
  obtain ⟨j, rfl⟩ : ∃ j, b = i + (j + 1) := ⟨b - i - 1, by omega⟩
  have hr : r = z + (2 ^ i) * (2 * (2 ^ j * k)) := by
    have : (2 ^ (i + (j + 1)) : Int) * k = 2 ^ i * (2 * (2 ^ j * k)) := by ring
    omega
  rw [testBit_int, testBit_int, hr, Int.add_mul_ediv_left _ _ (by positivity)]
  congr 1
  apply propext
  omega

/-- The bits of `|`, `^` and `&` are those of the operands, combined. -/
theorem C128_bits {t : Ty} (ht : IsNum t) {x y : Int} (hx : Fits t x) (hy : Fits t y) :
    ∀ q ∈ [(BinOp.bor, or), (BinOp.bxor, Bool.xor), (BinOp.band, and)], ∃ r,
      (∀ p ∈ ceval pair (code t q.1) (x, y), p = (.ok r, (x, y))) ∧ Fits t r ∧
      ∀ i < t.bits, r.testBit i = q.2 (x.testBit i) (y.testBit i) := by
  intro q hq
  simp only [List.mem_cons, List.not_mem_nil, or_false] at hq
  rcases hq with rfl | rfl | rfl
  · refine ⟨t.wrap (Int.lor x y), (C128_method_partial ht .bor hx hy (by simp) (by simp) (by simp)).2,
      fits_wrap ht _, fun i hi => ?_⟩
    rw [testBit_of_dvd hi (wrap_dvd t _), Int.testBit_lor]
  · refine ⟨t.wrap (Int.xor x y), (C128_method_partial ht .bxor hx hy (by simp) (by simp) (by simp)).2,
      fits_wrap ht _, fun i hi => ?_⟩
    rw [testBit_of_dvd hi (wrap_dvd t _), Int.testBit_lxor]
  · refine ⟨t.wrap (Int.land x y), (C128_method_partial ht .band hx hy (by simp) (by simp) (by simp)).2,
      fits_wrap ht _, fun i hi => ?_⟩
    rw [testBit_of_dvd hi (wrap_dvd t _), Int.testBit_land]

example : IsNum i16 ∧ Fits i16 (-3) ∧ Fits i16 9 ∧ (∀ p ∈ ceval pair (code i16 .bxor) (-3, 9), p.1 = .ok (-12)) := by
  decide +kernel

/-- Shifts by less than the width of the type are multiplication by a power of two, modulo the size of
the type, and division by one, rounded down. -/
theorem C128_shift {t : Ty} (ht : IsNum t) {x y : Int} (hx : Fits t x) (hy : Fits t y) (h0 : 0 ≤ y)
    (h1 : y < t.bits) :
    (∃ r, (∀ p ∈ ceval pair (code t .shl) (x, y), p = (.ok r, (x, y))) ∧ Fits t r ∧
      (2 ^ t.bits : Int) ∣ r - x * 2 ^ y.toNat) ∧
    ∀ p ∈ ceval pair (code t .shr) (x, y), p = (.ok (x / 2 ^ y.toNat), (x, y)) := by
  have hb : y < t.arith.bits := by
    unfold Ty.arith
    split
    · show y < (32 : Nat); omega
    · exact h1
  constructor
  · refine ⟨t.wrap (t.arith.wrap (x * 2 ^ y.toNat)), ?_, fits_wrap ht _, ?_⟩
    · have h := (C128_method_partial ht .shl hx hy (by simp) (by simp) (by simp)).2
      have e : method t .shl x y = .ok (t.wrap (t.arith.wrap (x * 2 ^ y.toNat))) := by
        rw [method_plain (by simp) (by simp) (by simp)]
        simp only [cop]
        rw [if_pos ⟨h0, hb⟩]; rfl
      rw [e] at h; exact h
    · refine dvd_trans_sub (wrap_dvd t _) (Dvd.dvd.trans (pow2_dvd ?_) (wrap_dvd t.arith _))
      unfold Ty.arith
      split
      · next h => show t.bits ≤ 32; omega
      · exact Nat.le_refl _
  · have h := (C128_method_partial ht .shr hx hy (by simp) (by simp) (by simp)).2
    have hp : (1 : Int) ≤ 2 ^ y.toNat := Int.add_one_le_iff.2 (Int.pow_pos (by decide))
    have hf : Fits t (x / 2 ^ y.toNat) := by
      refine fits_between ht hx (fun hx0 => ⟨Int.ediv_nonneg hx0 (by omega), Int.ediv_le_self _ hx0⟩)
        (fun hx0 => ⟨?_, Int.ediv_nonpos_of_nonpos_of_neg hx0 (by omega)⟩)
      rw [Int.le_ediv_iff_mul_le (by omega)]
      nlinarith
    have e : method t .shr x y = .ok (x / 2 ^ y.toNat) := by
      rw [method_plain (by simp) (by simp) (by simp)]
      simp only [cop]
      rw [if_pos ⟨h0, hb⟩]
      show Res.ok (t.wrap _) = _
      rw [wrap_of_fits ht hf]
    rw [e] at h; exact h

example : IsNum i8 ∧ Fits i8 (-77) ∧ Fits i8 3 ∧
    (∀ p ∈ ceval pair (code i8 .shr) (-77, 3), p.1 = .ok (-10)) ∧
    ∀ p ∈ ceval pair (code i8 .shl) (-77, 3), p.1 = .ok (-104) := by decide +kernel

/-- Quotient and remainder are those of division rounded towards zero, and a zero divisor is refused,
wherever the quotient fits. -/
theorem C128_div {t : Ty} (ht : IsNum t) {x y : Int} (hx : Fits t x) (hy : Fits t y) (h : y ≠ -1) :
    (y ≠ 0 → ∃ q r, (∀ p ∈ ceval pair (code t .fdiv) (x, y), p = (.ok q, (x, y))) ∧
      (∀ p ∈ ceval pair (code t .mod) (x, y), p = (.ok r, (x, y))) ∧
      x = y * q + r ∧ r.natAbs < y.natAbs ∧ (0 ≤ x → 0 ≤ r) ∧ (x ≤ 0 → r ≤ 0)) ∧
    (y = 0 → (∀ p ∈ ceval pair (code t .fdiv) (x, y), p.1 = .raise .zeroDivision) ∧
      ∀ p ∈ ceval pair (code t .mod) (x, y), p.1 = .raise .zeroDivision) := by
  have hcf : code t .fdiv = .floordiv t (.var 0) (.var 1) := by
    show genBin _ _ _ _ = _
    simp only [genBin]; rw [if_neg (by simp [u1Ops])]; rfl
  have hcm : code t .mod = .modm t (.var 0) (.var 1) := by
    show genBin _ _ _ _ = _
    simp only [genBin]; rw [if_neg (by simp [u1Ops])]; rfl
  rw [hcf, hcm]
  constructor
  · intro h0
    have hq : Fits t (x.tdiv y) := by
      rcases isTy_or ht with hT | hT
      · exact (holds_quot hT hx hy h0 (fun ho => h ho.2.2)).1
      · subst hT
        have : y = 1 := by simp [Fits, u1] at hy; omega
        subst this
        simpa using hx
    have hd : divOk t x y = true := by
      simp only [divOk, Bool.and_eq_true, decide_eq_true_eq]
      refine ⟨h0, ?_⟩
      unfold Ty.arith
      split
      · next hlt =>
        refine wrap_of_fits (t := i32) (by decide) ?_
        rcases isNum_cases ht with h' | h' | h' | h' | h' | h' | h' | h' | h' <;> subst h' <;>
          simp [Fits, i8, i16, i32, i64, u8, u16, u32, u64, u1] at hq hlt ⊢ <;> omega
      · exact wrap_of_fits ht hq
    refine ⟨x.tdiv y, x.tmod y, ?_, ?_, (Int.mul_tdiv_add_tmod x y).symm, ?_, ?_, ?_⟩
    · by_cases hu : t = u1
      · subst hu
        have : y = 1 := by simp [Fits, u1] at hy; omega
        subst this
        simp [ceval, andThen, pair]
      · simp [ceval, both, andThen, pair, h0, hu, cop, hd]
    · by_cases hu : t = u1
      · subst hu
        have : y = 1 := by simp [Fits, u1] at hy; omega
        subst this
        simp [ceval, both, andThen, pair, cop, hd, convert, Ty.wrap]
      · simp [ceval, both, andThen, pair, h0, hu, cop, hd]
    · rw [Int.natAbs_tmod]; exact Nat.mod_lt _ (by omega)
    · intro hx0; exact ((tmod_between x y).1 hx0).1
    · intro hx0; exact ((tmod_between x y).2 hx0).2
  · rintro rfl
    simp [ceval, andThen, pair]

example : IsNum i32 ∧ Fits i32 (-7) ∧ Fits i32 2 ∧
    (∀ p ∈ ceval pair (code i32 .fdiv) (-7, 2), p.1 = .ok (-3)) ∧
    ∀ p ∈ ceval pair (code i32 .mod) (-7, 2), p.1 = .ok (-1) := by decide +kernel

/-- The unary operators, modulo the size of the type. -/
theorem C128_un {t : Ty} (ht : IsNum t) {x : Int} (hx : Fits t x) (y : Int) :
    ∀ q ∈ [(UnOp.pos, x), (UnOp.neg, -x), (UnOp.inv, -1 - x)], ∃ r,
      ceval pair (compile (.un t q.1 (.var t 0))) (x, y) = [(.ok r, (x, y))] ∧
      (2 ^ t.bits : Int) ∣ r - q.2 ∧ Fits t r := by
  have hd : ∀ z, (2 ^ t.bits : Int) ∣ t.wrap (t.arith.wrap z) - z := by
    intro z
    refine dvd_trans_sub (wrap_dvd t _) (Dvd.dvd.trans (pow2_dvd ?_) (wrap_dvd t.arith z))
    unfold Ty.arith
    split
    · next h => show t.bits ≤ 32; omega
    · exact Nat.le_refl _
  have hg : ∀ o, compile (.un t o (.var t 0)) = genUn t o (.var 0) := fun o => rfl
  have e : -1 - x = -x - 1 := by omega
  intro q hq
  simp only [List.mem_cons, List.not_mem_nil, or_false] at hq
  by_cases hu : t = u1
  · rcases hq with rfl | rfl | rfl
    · refine ⟨x, ?_, by simp, hx⟩
      rw [hg]; simp [genUn, hu, ceval, pair]
    · refine ⟨t.wrap (t.arith.wrap (-x)), ?_, hd _, fits_wrap ht _⟩
      rw [hg]; simp [genUn, hu, ceval, pair, andThen, cun]
    · refine ⟨t.wrap (t.arith.wrap (-x - 1)), ?_, by rw [e]; exact hd _, fits_wrap ht _⟩
      rw [hg]; simp [genUn, hu, ceval, pair, andThen, cun]
  · rcases hq with rfl | rfl | rfl
    · refine ⟨t.wrap x, ?_, wrap_dvd t x, fits_wrap ht _⟩
      rw [hg]; simp [genUn, hu, ceval, pair, andThen]
    · refine ⟨t.wrap (t.arith.wrap (-x)), ?_, hd _, fits_wrap ht _⟩
      rw [hg]; simp [genUn, hu, ceval, pair, andThen, cun]
    · refine ⟨t.wrap (t.arith.wrap (-x - 1)), ?_, by rw [e]; exact hd _, fits_wrap ht _⟩
      rw [hg]; simp [genUn, hu, ceval, pair, andThen, cun]

example : IsNum i8 ∧ Fits i8 (-128) ∧
    ceval pair (compile (.un i8 .neg (.var i8 0))) (-128, 0) = [(.ok (-128), (-128, 0))] := by decide +kernel

/-- A remainder by zero: an exception for unboxed numbers, a trap in the method. -/
theorem C128_refuted_mod {t : Ty} (h : t ≠ u1) (x : Int) :
    method t .mod x 0 = .ub ∧
    ∀ p ∈ ceval pair (code t .mod) (x, 0), p = (.raise .zeroDivision, (x, 0)) := by
  constructor
  · simp only [method]; rw [if_neg h]; rfl
  · have hc : code t .mod = .modm t (.var 0) (.var 1) := by
      show genBin _ _ _ _ = _
      simp only [genBin]; rw [if_neg (by simp [u1Ops])]; rfl
    rw [hc]
    simp [ceval, andThen, pair]

/-- A negative exponent: an exception in the method, `2` for the unboxed `2 ** -1`. And
`u64(3) ** (2^64 - 1)` is `3` in the method. -/
theorem C128_refuted_pow :
    (method i64 .pow 2 (-1) = .raise .valueError ∧
      ∀ p ∈ ceval pair (code i64 .pow) (2, -1), p.1 = .ok 2) ∧
    (method u64 .pow 3 (2 ^ 64 - 1) = .ok 3 ∧
      ∀ p ∈ ceval pair (code u64 .pow) (3, 2 ^ 64 - 1), p.1 = .ok 12297829382473034411) := by
  decide +kernel

/-- The quotient of two unboxed numbers is not converted to their type: `-128 // -1` of type `i8` is
`128`, so that `-128 // -1 // 2` is `64`, where the methods give `-128` and `-64`. -/
theorem C128_refuted_narrow :
    (method i8 .fdiv (-128) (-1) = .ok (-128) ∧
      ∀ p ∈ ceval pair (code i8 .fdiv) (-128, -1), p.1 = .ok 128) ∧
    (let e : Expr := .bin i8 .fdiv (.bin i8 .fdiv (.var i8 0) (.var i8 1)) (.lit i8 2);
      (∀ p ∈ eval pair e (-128, -1), p.1 = .ok (-64)) ∧
      ∀ p ∈ ceval pair (compile e) (-128, -1), p.1 = .ok 64) := by
  decide +kernel

/-! ## C129: `x op= e` does what `x = x op e` does -/

theorem exec_both {S} (W : World S) (t : Ty) (x : Nat) (o : BinOp) (e : Expr) (s : S) :
    exec W t x o e s = both (fun s => [(.ok (W.get x s), s)]) (eval W e)
      (fun v y s1 => andThen [(method t o v y, s1)] fun v s1 => [(.ok v, W.set x v s1)]) s := by
  rw [exec_eq, eval_bin, andThen_both]
  rfl

/-- An assignment `x = c` where `c` is the code of `x op e`. -/
theorem assign_refines {S} {W : World S} {t : Ty} {x : Nat} {o : BinOp} {e : Expr}
    (h : Typed W (.bin t o (.var t x) e)) (hs : Safe W (.bin t o (.var t x) e)) (s : S) :
    Refines (cexec W (.assign x t (genBin t o (.var x) (compile e))) s) (exec W t x o e s) := by
  have hc := compile_bin (W := W) (t := t) (o := o) (b := e) (a := .var t x) h.1 rfl
  have hr := refines h hs s
  rw [hc] at hr
  rw [exec_eq]
  simp only [cexec, store]
  refine andThen_refines hr ?_
  intro v s1 hv
  have hf : Fits t v := eval_fits h hv
  rw [wrap_of_fits h.1.1 hf]
  exact refines_of_eq rfl

/-- An augmented assignment to an unboxed variable does what the assignment of the operator does.
Missing: `^=` (`C129_refuted_xor`), `**=` except on `u1` (`C129_refuted_pow`) and `//=` by an
expression other than a literal, except on `u1` (`C129_refuted_zero`). -/
theorem C129_aug_partial {S} {W : World S} {t : Ty} {x : Nat} {o : BinOp} {e : Expr}
    (h : Typed W (.bin t o (.var t x) e)) (hs : Safe W e) (hx : o ≠ .bxor)
    (hp : o = .pow → t = u1) (hf : o = .fdiv → t = u1 ∨ IsLit (· ≠ 0) e)
    (hu : t = u1 → Safe W (.bin t o (.var t x) e)) :
    ∃ st, genAug t x o e = some st ∧ ∀ s, Refines (cexec W st s) (exec W t x o e s) := by
  have ht : IsNum t := h.1.1
  have ho : oper o = some o := by cases o <;> first | rfl | exact absurd rfl hx
  by_cases h1 : t = u1
  · subst h1
    refine ⟨.assign x u1 (genBin u1 o (.var x) (compile e)), ?_, assign_refines h (hu rfl)⟩
    unfold genAug
    rw [ho]
    simp only [if_pos, compile_eq]
    cases o <;> rfl
  · have hp : o ≠ .pow := fun ho => h1 (hp ho)
    refine ⟨.aug x t o (compile e), ?_, ?_⟩
    · unfold genAug
      rw [ho]
      simp only [if_neg h1, compile_eq]
    · intro s
      rw [exec_both]
      simp only [cexec, store]
      rw [andThen_both]
      have key : ∀ v y s1 s2, (Res.ok y, s1) ∈ eval W e s2 → convert t (cop t o v y) = method t o v y := by
        intro v y s1 s2 hy
        by_cases h2 : o = .fdiv
        · subst h2
          obtain ⟨t', n, rfl, hn⟩ := isLit_of ((hf rfl).resolve_left h1)
          simp only [eval, List.mem_singleton, Prod.mk.injEq, Res.ok.injEq] at hy
          rw [hy.1]
          simp only [cop, method, IntT.floordiv]
          rw [if_neg hn]
          split <;> rfl
        by_cases h3 : o = .mod
        · subst h3
          simp only [cop, method, IntT.mod]
          rw [if_neg h1]
          split <;> rfl
        rw [method_plain hp h3 h2]
      have fin : ∀ v y s1 s2 s3, (Res.ok y, s1) ∈ eval W e s2 →
          Refines (andThen [(cop t o v y, s3)] fun v s1 => [(.ok (t.wrap v), W.set x (t.wrap v) s1)])
            (andThen [(method t o v y, s3)] fun v s1 => [(.ok v, W.set x v s1)]) := by
        intro v y s1 s2 s3 hy
        rw [← key v y s1 s2 hy]
        cases cop t o v y <;> exact refines_of_eq rfl
      refine both_refines (fun s => refines_of_eq rfl) (refines h.2.1 hs) ?_ ?_
      · intro v s1 y s2 _ hy; exact fin v y s2 s1 s2 hy
      · intro y s1 v s2 hy _; exact fin v y s1 s s2 hy

/-- The variable `0` of `pair`, as a number of a type. -/
def cell : World Int where
  get _ s := Int.bmod s 256
  set _ v _ := v
  call _ s := (.ok 0, s)

theorem bmod_fits (s : Int) : Fits i64 (Int.bmod s 256) := by
  have h1 := Int.le_bmod (x := s) (m := 256) (by decide)
  have h2 := Int.bmod_lt (x := s) (m := 256) (by decide)
  simp [Fits, i64]
  omega

example : let e : Expr := .bin i64 .add (.var i64 0) (.lit i64 1)
    Typed cell (.bin i64 .mul (.var i64 0) e) ∧ Safe cell e ∧
    genAug i64 0 .mul e = some (.aug 0 i64 .mul (compile e)) := by
  refine ⟨⟨⟨by decide, fun s => bmod_fits s⟩, ⟨⟨by decide, fun s => bmod_fits s⟩, ⟨by decide, by decide⟩, rfl, rfl⟩, rfl, rfl⟩,
    ⟨trivial, trivial, by simp, by simp, by simp⟩, by decide +kernel⟩

/-- An augmented assignment to an attribute that holds a boxed number is the assignment of the
operator. Missing: `^=`, and what is missing in `C127_once_partial`. -/
theorem C129_boxed_partial {S} {W : World S} {t : Ty} {x : Nat} {o : BinOp} {e : Expr}
    (h : Typed W (.bin t o (.var t x) e)) (hs : Safe W (.bin t o (.var t x) e)) (hx : o ≠ .bxor) :
    ∃ st, genAugBoxed t x o e = some st ∧ ∀ s, Refines (cexec W st s) (exec W t x o e s) := by
  have ho : oper o = some o := by cases o <;> first | rfl | exact absurd rfl hx
  refine ⟨.assign x t (genBin t o (.var x) (compile e)), ?_, assign_refines h hs⟩
  unfold genAugBoxed
  rw [ho]
  simp only [compile_eq]

example : let e : Expr := .bin i64 .fdiv (.var i64 0) (.var i64 0)
    Typed cell e ∧ Safe cell e ∧ BinOp.fdiv ≠ .bxor := by
  exact ⟨⟨⟨by decide, fun s => bmod_fits s⟩, ⟨by decide, fun s => bmod_fits s⟩, rfl, rfl⟩,
    ⟨trivial, trivial, fun _ => .inl ⟨trivial, trivial⟩, fun _ => .inl (by decide), by simp⟩, by decide⟩

/-- `x //= 0` traps instead of raising the exception that `x = x // 0` raises, and `x %= 0` traps
where `x = x % 0` on unboxed numbers raises an exception. -/
theorem C129_refuted_zero {S} (W : World S) {t : Ty} (h : t ≠ u1) (x : Nat) (s : S) :
    (genAug t x .fdiv (.lit t 0) = some (.aug x t .fdiv (.lit 0)) ∧
      (∀ p ∈ cexec W (.aug x t .fdiv (.lit 0)) s, p = (.ub, s)) ∧
      ∀ p ∈ exec W t x .fdiv (.lit t 0) s, p = (.raise .zeroDivision, s)) ∧
    (genAug t x .mod (.lit t 0) = some (.aug x t .mod (.lit 0)) ∧
      (∀ p ∈ cexec W (.aug x t .mod (.lit 0)) s, p = (.ub, s)) ∧
      ∀ p ∈ ceval W (compile (.bin t .mod (.var t x) (.lit t 0))) s, p = (.raise .zeroDivision, s)) := by
  refine ⟨⟨?_, ?_, ?_⟩, ?_, ?_, ?_⟩
  · simp [genAug, oper, h, boxing, unbox, gen]
  · simp [cexec, store, both, andThen, ceval, cop, divOk]
  · simp [exec, eval, method, IntT.floordiv]
  · simp [genAug, oper, h, boxing, unbox, gen]
  · simp [cexec, store, both, andThen, ceval, cop, divOk]
  · have hc : compile (.bin t .mod (.var t x) (.lit t 0)) = .modm t (.var x) (.lit 0) := by
      show genBin _ _ _ _ = _
      simp only [genBin]; rw [if_neg (by simp [u1Ops])]; rfl
    rw [hc]
    simp [ceval, andThen]

/-- There is no C code for `x **= e`. -/
theorem C129_refuted_pow {t : Ty} (h : t ≠ u1) (x : Nat) (e : Expr) : genAug t x .pow e = none := by
  simp [genAug, oper, h]

/-- The compiler stops at `x ^= e`. -/
theorem C129_refuted_xor (t : Ty) (x : Nat) (e : Expr) :
    genAug t x .bxor e = none ∧ genAugBoxed t x .bxor e = none := by
  simp [genAug, genAugBoxed, oper]

end Verif.Unbox
