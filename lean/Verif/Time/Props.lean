import Verif.Time.Model
import Verif.Common
/-!
# C35, C39: arithmetic of instants and durations
-/
namespace Verif.Time
open Verif Verif.IntT

/-! ### Specification -/

/-- The number of attoseconds. -/
def value (t : T) : Int := t.second * 10 ^ 18 + t.attosecond

/-- A normalised time whose seconds are an `int`. -/
structure Norm (t : T) : Prop where
  sec : InI64 t.second
  lo : 0 ≤ t.attosecond
  hi : t.attosecond < 10 ^ 18

/-- The attoseconds that can be represented. -/
def InRange (v : Int) : Prop := -2 ^ 63 * 10 ^ 18 ≤ v ∧ v < 2 ^ 63 * 10 ^ 18

/-! ### Arithmetic -/

theorem pow18 : intPow 10 18 = .ok (10 ^ 18) := by decide +kernel
theorem pow15 : intPow 10 15 = .ok (10 ^ 15) := by decide +kernel
theorem pow12 : intPow 10 12 = .ok (10 ^ 12) := by decide +kernel
theorem pow9 : intPow 10 9 = .ok (10 ^ 9) := by decide +kernel

theorem wrap_i64 (x : Int) : i64.wrap x = wrap64 x := rfl

theorem wrap64_add_wrap (x y : Int) : wrap64 (wrap64 x + y) = wrap64 (x + y) := by
  unfold wrap64; exact Int.bmod_add_bmod ..

theorem wrap64_mul_wrap (x y : Int) : wrap64 (wrap64 x * y) = wrap64 (x * y) := by
  unfold wrap64; exact Int.bmod_mul_bmod ..

theorem wrap64_sub_wrap (x y : Int) : wrap64 (wrap64 x - y) = wrap64 (x - y) := by
  rw [Int.sub_eq_add_neg, wrap64_add_wrap, ← Int.sub_eq_add_neg]

theorem wrap64_add_wrap' (x y : Int) : wrap64 (x + wrap64 y) = wrap64 (x + y) := by
  rw [Int.add_comm, wrap64_add_wrap, Int.add_comm]

theorem wrap64_sub_wrap' (x y : Int) : wrap64 (x - wrap64 y) = wrap64 (x - y) := by
  unfold wrap64; exact Int.sub_bmod_bmod ..

theorem tdiv_bounds {a b : Int} (ha : InI64 a) (hb : 0 < b) : InI64 (a.tdiv b) ∧ InI64 (a.tmod b) ∧
    (0 ≤ a → a.tdiv b = a / b ∧ a.tmod b = a % b) ∧ a = a.tdiv b * b + a.tmod b := by
  have h1 := Int.natAbs_tdiv_le_natAbs a b
  have h2 : (a.tmod b).natAbs ≤ a.natAbs := by rw [Int.natAbs_tmod]; exact Nat.mod_le _ _
  have h3 := Int.tdiv_mul_add_tmod a b
  refine ⟨?_, ?_, fun h => ⟨Int.tdiv_eq_ediv_of_nonneg h, Int.tmod_eq_emod_of_nonneg h⟩, h3.symm⟩
  · unfold InI64 at *
    rcases Int.lt_or_le a 0 with h | h
    · have : a.tdiv b ≤ 0 := by
        have := Int.tdiv_nonneg (by omega : 0 ≤ -a) (by omega : 0 ≤ b)
        rw [Int.neg_tdiv] at this
        omega
      omega
    · have := Int.tdiv_nonneg h (by omega : 0 ≤ b)
      omega
  · unfold InI64 at *
    rcases Int.lt_or_le a 0 with h | h
    · have : a.tmod b ≤ 0 := by
        have := Int.tmod_nonneg b (by omega : 0 ≤ -a)
        rw [Int.neg_tmod] at this
        omega
      omega
    · have := Int.tmod_nonneg b h
      omega

theorem floordiv_pos {a b : Int} (ha : InI64 a) (hb : 0 < b) : floordiv i64 a b = .ok (a.tdiv b) := by
  have h := tdiv_bounds ha hb
  unfold floordiv divOk
  rw [if_neg (by omega), show i64.arith = i64 from rfl, wrap_i64, wrap64_of_in h.1]
  simp; omega

theorem mod_pos {a b : Int} (ha : InI64 a) (hb : 0 < b) : modUnboxed i64 a b = .ok (a.tmod b) := by
  have h := tdiv_bounds ha hb
  unfold modUnboxed mod divOk
  rw [if_neg (by omega), show i64.arith = i64 from rfl, wrap_i64, wrap_i64, wrap64_of_in h.1, wrap64_of_in h.2.1]
  simp; omega

theorem add_eq {t d : T} (ht : Norm t) (hd : Norm d) : add t d =
    .ok ⟨wrap64 (t.second + d.second + (t.attosecond + d.attosecond) / 10 ^ 18), (t.attosecond + d.attosecond) % 10 ^ 18⟩ := by
  have h1 := ht.lo; have h2 := ht.hi; have h3 := hd.lo; have h4 := hd.hi
  have hi : InI64 (t.attosecond + d.attosecond) := by unfold InI64; omega
  have hb := (tdiv_bounds hi (b := 10 ^ 18) (by decide)).2.2.1 (by omega)
  unfold add
  simp only [wrap64_of_in hi, pow18, Res.ok_bind, floordiv_pos hi (b := 10 ^ 18) (by decide), mod_pos hi (b := 10 ^ 18) (by decide), hb,
    wrap64_add_wrap, Res.pure_eq]

theorem sub_eq {t d : T} (ht : Norm t) (hd : Norm d) : sub t d =
    .ok ⟨wrap64 (t.second - d.second + (t.attosecond - d.attosecond) / 10 ^ 18), (t.attosecond - d.attosecond) % 10 ^ 18⟩ := by
  have h1 := ht.lo; have h2 := ht.hi; have h3 := hd.lo; have h4 := hd.hi
  have hi : InI64 (t.attosecond - d.attosecond) := by unfold InI64; omega
  unfold sub borrow
  rw [wrap64_of_in hi]
  by_cases h : t.attosecond - d.attosecond < 0
  · rw [if_pos h, pow18, Res.ok_bind, wrap64_of_in (n := t.attosecond - d.attosecond + 10 ^ 18) (by unfold InI64; omega),
      wrap64_sub_wrap]
    have e1 : (t.attosecond - d.attosecond) / 10 ^ 18 = -1 := by omega
    have e2 : (t.attosecond - d.attosecond) % 10 ^ 18 = t.attosecond - d.attosecond + 10 ^ 18 := by omega
    rw [e1, e2]; rfl
  · rw [if_neg h]
    have e1 : (t.attosecond - d.attosecond) / 10 ^ 18 = 0 := by omega
    have e2 : (t.attosecond - d.attosecond) % 10 ^ 18 = t.attosecond - d.attosecond := by omega
    rw [e1, e2, Int.add_zero]

theorem in_of_wrap {x : Int} (h : -2 ^ 63 ≤ x ∧ x < 2 ^ 63) : wrap64 x = x := wrap64_of_in h

/-- `t + d` is the exact sum, normalised, unless it is out of range. -/
theorem C35_add {t d : T} (ht : Norm t) (hd : Norm d) (hr : InRange (value t + value d)) :
    ∃ r, add t d = .ok r ∧ Norm r ∧ value r = value t + value d := by
  refine ⟨_, add_eq ht hd, ⟨wrap64_in _, ?_, ?_⟩, ?_⟩
  · simp only; omega
  · simp only; omega
  · unfold InRange value at *
    simp only
    rw [in_of_wrap (by omega)]
    omega

/-- `t - d` is the exact difference, normalised, unless it is out of range. -/
theorem C35_sub {t d : T} (ht : Norm t) (hd : Norm d) (hr : InRange (value t - value d)) :
    ∃ r, sub t d = .ok r ∧ Norm r ∧ value r = value t - value d := by
  refine ⟨_, sub_eq ht hd, ⟨wrap64_in _, ?_, ?_⟩, ?_⟩
  · simp only; omega
  · simp only; omega
  · unfold InRange value at *
    simp only
    rw [in_of_wrap (by omega)]
    omega

/-- `t.since(u)` is the exact difference, normalised, unless it is out of range. -/
theorem C35_since {t u : T} (ht : Norm t) (hu : Norm u) (hr : InRange (value t - value u)) :
    ∃ r, since t u = .ok r ∧ Norm r ∧ value r = value t - value u := C35_sub ht hu hr

example : Norm ⟨5, 6 * 10 ^ 17⟩ ∧ Norm ⟨-3, 7 * 10 ^ 17⟩ ∧ InRange (value ⟨5, 6 * 10 ^ 17⟩ + value ⟨-3, 7 * 10 ^ 17⟩) ∧
    InRange (value ⟨5, 6 * 10 ^ 17⟩ - value ⟨-3, 7 * 10 ^ 17⟩) ∧
    add ⟨5, 6 * 10 ^ 17⟩ ⟨-3, 7 * 10 ^ 17⟩ = .ok ⟨3, 3 * 10 ^ 17⟩ ∧ sub ⟨5, 6 * 10 ^ 17⟩ ⟨-3, 7 * 10 ^ 17⟩ = .ok ⟨7, 9 * 10 ^ 17⟩ :=
  ⟨⟨by decide, by decide, by decide⟩, ⟨by decide, by decide, by decide⟩, by unfold InRange; decide, by unfold InRange; decide,
    by decide +kernel, by decide +kernel⟩

theorem wrap64_add_sub {x : Int} (h : InI64 x) (y : Int) : wrap64 (wrap64 (x + y) - y) = x := by
  rw [wrap64_sub_wrap, Int.add_sub_cancel, wrap64_of_in h]

theorem T.ext' {t u : T} (h1 : t.second = u.second) (h2 : t.attosecond = u.attosecond) : t = u := by
  cases t; cases u; simp_all

/-- `(t + d) - d == t` and `(t - d) + d == t`, even if the intermediate result is out of range. -/
theorem C35_add_sub {t d : T} (ht : Norm t) (hd : Norm d) :
    (do let r ← add t d; sub r d) = .ok t ∧ (do let r ← sub t d; add r d) = .ok t := by
  have h1 := ht.lo; have h2 := ht.hi; have h3 := hd.lo; have h4 := hd.hi
  constructor
  · rw [add_eq ht hd, Res.ok_bind, sub_eq ⟨wrap64_in _, by simp only; omega, by simp only; omega⟩ hd]
    congr 1
    refine T.ext' ?_ ?_
    · simp only
      rw [Int.sub_eq_add_neg, Int.add_assoc, wrap64_add_wrap]
      refine Eq.trans (congrArg wrap64 ?_) (wrap64_of_in ht.sec)
      omega
    · simp only; omega
  · rw [sub_eq ht hd, Res.ok_bind, add_eq ⟨wrap64_in _, by simp only; omega, by simp only; omega⟩ hd]
    congr 1
    refine T.ext' ?_ ?_
    · simp only
      rw [Int.add_assoc, wrap64_add_wrap]
      refine Eq.trans (congrArg wrap64 ?_) (wrap64_of_in ht.sec)
      omega
    · simp only; omega

/-- `u + t.since(u) == t`. -/
theorem C35_since_add {t u : T} (ht : Norm t) (hu : Norm u) : (do let d ← since t u; add u d) = .ok t := by
  have h1 := ht.lo; have h2 := ht.hi; have h3 := hu.lo; have h4 := hu.hi
  rw [show since t u = sub t u from rfl, sub_eq ht hu, Res.ok_bind,
    add_eq hu ⟨wrap64_in _, by simp only; omega, by simp only; omega⟩]
  congr 1
  refine T.ext' ?_ ?_
  · simp only
    rw [Int.add_comm u.second, Int.add_assoc, wrap64_add_wrap]
    refine Eq.trans (congrArg wrap64 ?_) (wrap64_of_in ht.sec)
    omega
  · simp only; omega

example : Norm ⟨2 ^ 63 - 1, 10 ^ 18 - 1⟩ ∧ Norm ⟨1, 1⟩ ∧ ¬ InRange (value ⟨2 ^ 63 - 1, 10 ^ 18 - 1⟩ + value ⟨1, 1⟩) :=
  ⟨⟨by decide, by decide, by decide⟩, ⟨by decide, by decide, by decide⟩, by unfold InRange; decide⟩

/-- The comparisons are those of the number of attoseconds. -/
theorem C35_order {t u : T} (ht : Norm t) (hu : Norm u) :
    (eq t u = true ↔ value t = value u) ∧ (ne t u = true ↔ value t ≠ value u) ∧ (lt t u = true ↔ value t < value u) ∧
    (le t u = true ↔ value t ≤ value u) ∧ (gt t u = true ↔ value t > value u) ∧ (ge t u = true ↔ value t ≥ value u) := by
  have h1 := ht.lo; have h2 := ht.hi; have h3 := hu.lo; have h4 := hu.hi
  have he : ∀ {t u : T}, Norm t → Norm u → (eq t u = true ↔ value t = value u) := by
    intro t u ht hu
    have h1 := ht.lo; have h2 := ht.hi; have h3 := hu.lo; have h4 := hu.hi
    unfold eq value
    simp only [Bool.and_eq_true, decide_eq_true_eq]
    omega
  have hl : ∀ {t u : T}, Norm t → Norm u → (lt t u = true ↔ value t < value u) := by
    intro t u ht hu
    have h1 := ht.lo; have h2 := ht.hi; have h3 := hu.lo; have h4 := hu.hi
    unfold lt value
    simp only [Bool.or_eq_true, Bool.and_eq_true, decide_eq_true_eq]
    omega
  refine ⟨he ht hu, ?_, hl ht hu, ?_, hl hu ht, ?_⟩
  · unfold ne
    rw [Bool.not_eq_true', ← Bool.not_eq_true, he ht hu]
  · unfold le
    rw [Bool.or_eq_true, hl ht hu, he ht hu]; omega
  · unfold ge le
    rw [Bool.or_eq_true, hl hu ht, he hu ht]; omega

/-- `unix_s`, `unix_ms`, `unix_us` and `unix_ns` round the time down, unless the result is out of range. -/
theorem C35_unix {t : T} (ht : Norm t) :
    unixS t = .ok (value t / 10 ^ 18) ∧ (InI64 (value t / 10 ^ 15) → unixMs t = .ok (value t / 10 ^ 15)) ∧
    (InI64 (value t / 10 ^ 12) → unixUs t = .ok (value t / 10 ^ 12)) ∧ (InI64 (value t / 10 ^ 9) → unixNs t = .ok (value t / 10 ^ 9)) := by
  have h1 := ht.lo; have h2 := ht.hi
  have hi : InI64 t.attosecond := by unfold InI64; omega
  refine ⟨?_, ?_, ?_, ?_⟩
  · unfold unixS value; congr 1; omega
  · intro h
    unfold unixMs unixScaled
    rw [pow15, Res.ok_bind, floordiv_pos hi (by decide), Res.ok_bind, wrap64_add_wrap,
      ((tdiv_bounds hi (b := 10 ^ 15) (by decide)).2.2.1 h1).1]
    have e : t.second * 1000 + t.attosecond / 10 ^ 15 = value t / 10 ^ 15 := by unfold value; omega
    rw [e, wrap64_of_in h]; rfl
  · intro h
    unfold unixUs unixScaled
    rw [pow12, Res.ok_bind, floordiv_pos hi (by decide), Res.ok_bind, wrap64_add_wrap,
      ((tdiv_bounds hi (b := 10 ^ 12) (by decide)).2.2.1 h1).1]
    have e : t.second * 1000000 + t.attosecond / 10 ^ 12 = value t / 10 ^ 12 := by unfold value; omega
    rw [e, wrap64_of_in h]; rfl
  · intro h
    unfold unixNs unixScaled
    rw [pow9, Res.ok_bind, floordiv_pos hi (by decide), Res.ok_bind, wrap64_add_wrap,
      ((tdiv_bounds hi (b := 10 ^ 9) (by decide)).2.2.1 h1).1]
    have e : t.second * 1000000000 + t.attosecond / 10 ^ 9 = value t / 10 ^ 9 := by unfold value; omega
    rw [e, wrap64_of_in h]; rfl

example : Norm ⟨-1, 5 * 10 ^ 17⟩ ∧ InI64 (value ⟨-1, 5 * 10 ^ 17⟩ / 10 ^ 9) ∧ unixMs ⟨-1, 5 * 10 ^ 17⟩ = .ok (-500) :=
  ⟨⟨by decide, by decide, by decide⟩, by decide, by decide +kernel⟩

/-- The sum wraps around: the last second plus one second is the first second. -/
theorem C35_refuted_overflow : Norm ⟨2 ^ 63 - 1, 0⟩ ∧ Norm ⟨1, 0⟩ ∧ add ⟨2 ^ 63 - 1, 0⟩ ⟨1, 0⟩ = .ok ⟨-2 ^ 63, 0⟩ ∧
    lt ⟨-2 ^ 63, 0⟩ ⟨2 ^ 63 - 1, 0⟩ = true :=
  ⟨⟨by decide, by decide, by decide⟩, ⟨by decide, by decide, by decide⟩, by decide +kernel, by decide⟩

/-- `from_parts` does not normalise: the difference has negative attoseconds and compares wrongly. -/
theorem C35_refuted_from_parts : ∃ d r, d = fromParts 0 0 0 0 0 (2 * 10 ^ 18) ∧ sub ⟨5, 0⟩ d = .ok r ∧ r = ⟨4, -10 ^ 18⟩ ∧
    value r = value ⟨3, 0⟩ ∧ eq r ⟨3, 0⟩ = false :=
  ⟨_, _, rfl, by decide +kernel, rfl, by decide, by decide⟩

/-! ### The parts of a duration (C39) -/

/-- `from_parts` adds up its parts. -/
theorem C39_from_parts {w d h m s a : Int} (hr : InI64 (w * 604800 + d * 86400 + h * 3600 + m * 60 + s)) :
    fromParts w d h m s a = ⟨w * 604800 + d * 86400 + h * 3600 + m * 60 + s, a⟩ := by
  unfold fromParts
  simp only [wrap64_mul_wrap, wrap64_add_wrap, wrap64_add_wrap']
  congr 1
  refine Eq.trans (congrArg wrap64 ?_) (wrap64_of_in hr)
  omega

example : InI64 (3 * 604800 + 2 * 86400 + 23 * 3600 + 59 * 60 + 1) := by decide

/-- The numbers that `str_human` prints add up to the duration, none of them reaches the next unit, and
all have the sign of the seconds. -/
theorem C39_str_human {d : T} (hd : Norm d) : ∃ p, strHuman d = .ok p ∧
    p.weeks * 604800 + p.days * 86400 + p.hours * 3600 + p.minutes * 60 + p.seconds = d.second ∧ p.ns = d.attosecond / 10 ^ 9 ∧
    (0 ≤ d.second → 0 ≤ p.weeks ∧ (0 ≤ p.days ∧ p.days < 7) ∧ (0 ≤ p.hours ∧ p.hours < 24) ∧ (0 ≤ p.minutes ∧ p.minutes < 60) ∧
      (0 ≤ p.seconds ∧ p.seconds < 60)) ∧
    (d.second ≤ 0 → p.weeks ≤ 0 ∧ (-7 < p.days ∧ p.days ≤ 0) ∧ (-24 < p.hours ∧ p.hours ≤ 0) ∧ (-60 < p.minutes ∧ p.minutes ≤ 0) ∧
      (-60 < p.seconds ∧ p.seconds ≤ 0)) := by
  have h1 := hd.lo; have h2 := hd.hi; have hs := hd.sec
  have hi : InI64 d.attosecond := by unfold InI64; omega
  have m1 := (tdiv_bounds hs (b := 7 * 24 * 60 * 60) (by decide)).2.1
  have m2 := (tdiv_bounds hs (b := 24 * 60 * 60) (by decide)).2.1
  have m3 := (tdiv_bounds hs (b := 60 * 60) (by decide)).2.1
  unfold strHuman
  simp only [floordiv_pos hs (b := 7 * 24 * 60 * 60) (by decide), mod_pos hs (b := 7 * 24 * 60 * 60) (by decide),
    floordiv_pos m1 (b := 24 * 60 * 60) (by decide), mod_pos hs (b := 24 * 60 * 60) (by decide), floordiv_pos m2 (b := 60 * 60) (by decide),
    mod_pos hs (b := 60 * 60) (by decide), floordiv_pos m3 (b := 60) (by decide), mod_pos hs (b := 60) (by decide), pow9,
    floordiv_pos hi (b := 10 ^ 9) (by decide), Res.ok_bind, Res.pure_eq]
  refine ⟨_, rfl, ?_⟩
  simp only
  rw [((tdiv_bounds hi (b := 10 ^ 9) (by decide)).2.2.1 h1).1]
  rcases Int.le_total 0 d.second with h | h
  · have e : ∀ b, d.second.tdiv b = d.second / b := fun b => Int.tdiv_eq_ediv_of_nonneg h
    have f : ∀ b, d.second.tmod b = d.second % b := fun b => Int.tmod_eq_emod_of_nonneg h
    simp only [e, f]
    have g : ∀ b c : Int, 0 < c → (d.second % c).tdiv b = d.second % c / b := fun b c hc =>
      Int.tdiv_eq_ediv_of_nonneg (Int.emod_nonneg _ (by omega))
    rw [g _ _ (by decide), g _ _ (by decide), g _ _ (by decide)]
    simp only [Int.reduceMul]
    refine ⟨?_, trivial, fun _ => ?_, fun _ => ?_⟩ <;> omega
  · obtain ⟨n, hn⟩ : ∃ n, d.second = -n := ⟨-d.second, by omega⟩
    rw [hn]
    have hn0 : 0 ≤ n := by omega
    have e : ∀ b, (-n).tdiv b = -(n / b) := fun b => by rw [Int.neg_tdiv, Int.tdiv_eq_ediv_of_nonneg hn0]
    have f : ∀ b, (-n).tmod b = -(n % b) := fun b => by rw [Int.neg_tmod, Int.tmod_eq_emod_of_nonneg hn0]
    simp only [e, f]
    have g : ∀ b c : Int, 0 < c → (-(n % c)).tdiv b = -(n % c / b) := fun b c hc => by
      rw [Int.neg_tdiv, Int.tdiv_eq_ediv_of_nonneg (Int.emod_nonneg _ (by omega))]
    rw [g _ _ (by decide), g _ _ (by decide), g _ _ (by decide)]
    simp only [Int.reduceMul]
    refine ⟨?_, trivial, fun _ => ?_, fun _ => ?_⟩ <;> omega

example : strHuman ⟨694861, 10 ^ 9⟩ = .ok ⟨1, 1, 1, 1, 1, 1⟩ := by decide +kernel

/-- The text of a negative duration has the wrong value: -1.5 s is "0w 0d 0h 0m -2s 500000000ns". -/
theorem C39_refuted_negative : ∃ p, strHuman ⟨-2, 5 * 10 ^ 17⟩ = .ok p ∧ p = ⟨0, 0, 0, 0, -2, 500000000⟩ ∧
    value ⟨-2, 5 * 10 ^ 17⟩ = -15 * 10 ^ 17 ∧ p.seconds * 10 ^ 18 - p.ns * 10 ^ 9 ≠ value ⟨-2, 5 * 10 ^ 17⟩ :=
  ⟨_, by decide +kernel, rfl, by decide, by decide⟩

end Verif.Time
