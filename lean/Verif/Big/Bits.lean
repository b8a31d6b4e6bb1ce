import Verif.Big.Lemmas
/-!
# Bitwise operations of `bigint`
-/
namespace Verif.Big
open Verif

/-- `t` is the number of words up to the most significant one that is not zero, among those from `lo` to `m`. -/
def TopFrom (n : Nat → Nat) (lo m t : Nat) : Prop :=
  (t = 0 ∧ ∀ i, lo ≤ i → i < m → n i = 0) ∨ (lo < t ∧ t ≤ m ∧ n (t - 1) ≠ 0 ∧ ∀ i, t ≤ i → i < m → n i = 0)

theorem fill_spec {alloc lo m : Nat} {f : Nat → Nat} (hm : m ≤ alloc) : ∀ (hi : Nat) (s : (Nat → Nat) × Nat), lo ≤ hi →
    hi ≤ m → TopFrom s.1 hi m s.2 → ∃ r, fill alloc f lo hi s = .ok r ∧ (∀ i, lo ≤ i → i < hi → r.1 i = f i) ∧
      (∀ i, ¬ (lo ≤ i ∧ i < hi) → r.1 i = s.1 i) ∧ TopFrom r.1 lo m r.2
  | 0, s, hl, hh, ht => by
    obtain rfl : lo = 0 := by omega
    exact ⟨s, rfl, fun i _ hi => by omega, fun i _ => rfl, ht⟩
  | hi + 1, s, hl, hh, ht => by
    by_cases hlo : hi < lo
    · obtain rfl : lo = hi + 1 := by omega
      exact ⟨s, by simp only [fill]; rw [if_pos hlo], fun i h1 h2 => by omega, fun i _ => rfl, ht⟩
    · have htop : TopFrom (fun j => if j = hi then f hi else s.1 j) hi m (if s.2 = 0 ∧ f hi ≠ 0 then hi + 1 else s.2) := by
        rcases ht with ⟨h0, hz⟩ | ⟨h1, h2, h3, h4⟩
        · by_cases hf : f hi = 0
          · rw [if_neg (by simp [hf])]
            refine .inl ⟨h0, fun i hi1 hi2 => ?_⟩
            show (if i = hi then _ else _) = 0
            by_cases hc : i = hi
            · rw [if_pos hc]; exact hf
            · rw [if_neg hc]; exact hz i (by omega) hi2
          · rw [if_pos ⟨h0, hf⟩]
            refine .inr ⟨by omega, hh, ?_, fun i hi1 hi2 => ?_⟩
            · show (if hi + 1 - 1 = hi then _ else _) ≠ 0
              rw [if_pos (by omega)]; exact hf
            · show (if i = hi then _ else _) = 0
              rw [if_neg (by omega)]; exact hz i (by omega) hi2
        · have hne : ¬ (s.2 = 0 ∧ f hi ≠ 0) := by omega
          rw [if_neg hne]
          refine .inr ⟨by omega, h2, ?_, fun i hi1 hi2 => ?_⟩
          · show (if s.2 - 1 = hi then _ else _) ≠ 0
            rw [if_neg (by omega)]; exact h3
          · show (if i = hi then _ else _) = 0
            rw [if_neg (by omega)]; exact h4 i hi1 hi2
      obtain ⟨r, e, r1, r2, r3⟩ := fill_spec (lo := lo) (f := f) hm hi (fun j => if j = hi then f hi else s.1 j, if s.2 = 0 ∧ f hi ≠ 0 then hi + 1 else s.2)
        (by omega) (by omega) htop
      refine ⟨r, ?_, ?_, ?_, r3⟩
      · simp only [fill, wr]
        rw [if_neg hlo, if_pos (by omega), Res.ok_bind]
        exact e
      · intro i hi1 hi2
        by_cases hc : i = hi
        · rw [hc, r2 hi (by omega)]
          exact if_pos rfl
        · exact r1 i hi1 (by omega)
      · intro i hi1
        rw [r2 i (by omega)]
        exact if_neg (by omega)

/-- The result of the common end. -/
theorem finish_spec {R : Nat → Nat} {m t alloc : Nat} (rneg : Bool) (hR : ∀ i, i < m → R i < B) (ht : TopFrom R 0 m t)
    (hm : m ≤ alloc) :
    (rneg = false → (finish alloc rneg (R, t)).val = compVal R m rneg ∧ (finish alloc rneg (R, t)).Ok) ∧
    (rneg = true → 0 < m →
      ((finish alloc rneg (R, t)).val = compVal R m rneg ↔ ((B ^ (m - 1) : Nat) : Int) - (B ^ m : Nat) ≤ compVal R m rneg) ∧
      ((finish alloc rneg (R, t)).val = compVal R m rneg →
        ((finish alloc rneg (R, t)).Ok ↔ compVal R m rneg ≤ -((B ^ (m - 1) : Nat) : Int)))) := by
  have htm : t ≤ m := by rcases ht with ⟨h, _⟩ | ⟨_, h, _⟩ <;> omega
  have htr : words R m = words R t := by
    refine words_trim htm (fun i h1 h2 => ?_)
    rcases ht with ⟨h, h'⟩ | ⟨_, _, _, h⟩
    · exact h' i (by omega) h2
    · exact h i h1 h2
  refine ⟨?_, ?_⟩
  · rintro rfl
    have e : finish alloc false (R, t) = ⟨t, alloc, R⟩ := rfl
    rw [e]
    refine ⟨?_, ?_, ?_, ?_⟩
    · unfold Z.val compVal
      rw [if_neg (by simp)]
      simp [htr]
    · intro i hi
      exact hR i (by simp at hi; omega)
    · intro h0
      rcases ht with ⟨h, _⟩ | ⟨_, _, h, _⟩
      · simp [h] at h0
      · simpa using h
    · simp; omega
  · rintro rfl hm0
    have e : finish alloc true (R, t) = ⟨-(t : Int), alloc, twocompl R R t⟩ := rfl
    have hlt : words R m < B ^ m := words_lt hR
    have hx : compVal R m true = (words R m : Int) - (B ^ m : Nat) := rfl
    have hv : (finish alloc true (R, t)).val = if t = 0 then 0 else (words R m : Int) - (B ^ t : Nat) := by
      rw [e]
      unfold Z.val
      simp only [Int.natAbs_neg, Int.natAbs_natCast]
      by_cases h0 : t = 0
      · subst h0; simp [words]
      · rw [if_pos (by omega), if_neg h0]
        have hpos : 0 < words R t := by
          rcases ht with ⟨h, _⟩ | ⟨_, _, h, _⟩
          · exact absurd h h0
          · have := words_ge (n := R) (k := t - 1) h
            rw [show t - 1 + 1 = t by omega] at this
            have := Bpow_pos (t - 1)
            omega
        have := (twocompl_spec (dst := R) (k := t) (fun i hi => hR i (by omega)) hpos).2
        rw [htr]
        omega
    have hiff : (finish alloc true (R, t)).val = compVal R m true ↔ t = m := by
      rw [hv, hx]
      by_cases h0 : t = 0
      · rw [if_pos h0]
        constructor
        · intro h; omega
        · intro h; omega
      · rw [if_neg h0]
        constructor
        · intro h
          have h' : B ^ t = B ^ m := by omega
          rw [B_pow, B_pow] at h'
          have := Nat.pow_right_injective (Nat.le_refl 2) h'
          omega
        · rintro rfl; rfl
    have htop : t = m ↔ ((B ^ (m - 1) : Nat) : Int) - (B ^ m : Nat) ≤ compVal R m true := by
      rw [hx]
      constructor
      · intro h
        rcases ht with ⟨h', _⟩ | ⟨_, _, h', _⟩
        · omega
        · have := words_ge (n := R) (k := t - 1) h'
          rw [show t - 1 + 1 = t by omega, h] at this
          omega
      · intro h
        have h1 : B ^ (m - 1) ≤ words R m := by omega
        by_contra hne
        have h2 : words R t < B ^ t := words_lt (fun i hi => hR i (by omega))
        have h3 : B ^ t ≤ B ^ (m - 1) := Nat.pow_le_pow_right B_pos (by omega)
        omega
    refine ⟨hiff.trans htop, fun hval => ?_⟩
    have htm' := hiff.mp hval
    subst htm'
    have hpos : 0 < words R t := by
      have := htop.mp rfl
      have := Bpow_pos (t - 1)
      omega
    obtain ⟨c1, c2⟩ := twocompl_spec (dst := R) (k := t) hR hpos
    rw [e, hx]
    constructor
    · intro hok
      have h1 := hok.top (by simp; omega)
      simp only [Int.natAbs_neg, Int.natAbs_natCast] at h1
      have := words_ge h1
      rw [show t - 1 + 1 = t by omega] at this
      omega
    · intro h
      refine ⟨?_, ?_, ?_⟩
      · intro i hi
        exact c1 i (by simpa using hi)
      · intro _
        simp only [Int.natAbs_neg, Int.natAbs_natCast]
        refine words_top (fun i hi => c1 i (by omega)) ?_
        rw [show t - 1 + 1 = t by omega]
        omega
      · simpa using hm

/-! ### Operands -/

/-- An operand in two's complement. -/
structure OpdOk (x : Opd) (v : Int) : Prop where
  lt : ∀ i, i < x.size → x.n i < B
  val : compVal x.n x.size x.neg = v
  pos : 0 < x.size

theorem opd_ok (g : Nat → Nat) {a : Z} (h : a.Ok) (h0 : a.size ≠ 0) : OpdOk (opd g a) a.val := by
  have hpos : 0 < words a.n a.size.natAbs := by
    have := words_ge (h.top h0)
    rw [show a.size.natAbs - 1 + 1 = a.size.natAbs by omega] at this
    have := Bpow_pos (a.size.natAbs - 1)
    omega
  by_cases hn : a.size < 0
  · obtain ⟨c1, c2⟩ := twocompl_spec (dst := g) h.lt hpos
    refine ⟨?_, ?_, ?_⟩
    · intro i hi
      show compl g a i < B
      unfold compl
      rw [if_pos hn]
      exact c1 i hi
    · show compVal (compl g a) a.size.natAbs (decide (a.size < 0)) = _
      unfold compl Z.val compVal
      rw [if_pos hn, if_pos hn]
      simp only [hn, decide_true, if_true]
      omega
    · show 0 < a.size.natAbs
      omega
  · refine ⟨?_, ?_, ?_⟩
    · intro i hi
      show compl g a i < B
      unfold compl
      rw [if_neg hn]
      exact h.lt i hi
    · show compVal (compl g a) a.size.natAbs (decide (a.size < 0)) = _
      unfold compl Z.val compVal
      rw [if_neg hn, if_neg hn]
      simp [hn]
    · show 0 < a.size.natAbs
      omega

theorem opd_bit {x : Opd} {v : Int} (h : OpdOk x v) (k : Nat) :
    bit v k = if k < 64 * x.size then (x.n (k / 64)).testBit (k % 64) else x.neg := by
  rw [← h.val, bit_comp h.lt]

/-- What the loops of an operation give: the words of a number with the bits `f`. -/
def Fills (r : Res ((Nat → Nat) × Nat)) (m : Nat) (rneg : Bool) (f : Nat → Bool) : Prop :=
  ∃ s, r = .ok s ∧ (∀ i, i < m → s.1 i < B) ∧ TopFrom s.1 0 m s.2 ∧ ∀ k, bit (compVal s.1 m rneg) k = f k

theorem and_lt {x y : Nat} (h : x < B) : x &&& y < B := Nat.lt_of_le_of_lt Nat.and_le_left h

theorem or_lt {x y : Nat} (hx : x < B) (hy : y < B) : x ||| y < B := Nat.or_lt_two_pow hx hy

theorem xor_lt {x y : Nat} (hx : x < B) (hy : y < B) : x ^^^ y < B := Nat.xor_lt_two_pow hx hy

theorem andFill_spec (g : Nat → Nat) {x y : Opd} {v w : Int} (hx : OpdOk x v) (hy : OpdOk y w) (hs : y.size ≤ x.size) :
    Fills (andFill g x y) (andLen x y) (x.neg && y.neg) (fun k => bit v k && bit w k) := by
  unfold andFill fillIf andLen Fills
  cases hn : y.neg with
  | true =>
    simp only [if_true]
    obtain ⟨s, e, s1, s2, s3⟩ := fill_spec (f := x.n) (Nat.le_refl x.size) x.size (g, 0) hs (Nat.le_refl _)
      (.inl ⟨rfl, fun i h1 h2 => by omega⟩)
    obtain ⟨s', e', t1, t2, t3⟩ := fill_spec (f := fun i => x.n i &&& y.n i) (Nat.le_refl x.size) y.size s (Nat.zero_le _) hs s3
    have hlt : ∀ i, i < x.size → s'.1 i < B := by
      intro i hi
      by_cases hc : i < y.size
      · rw [t1 i (Nat.zero_le _) hc]; exact and_lt (hx.lt i hi)
      · rw [t2 i (by omega), s1 i (by omega) hi]; exact hx.lt i hi
    refine ⟨s', by rw [e, Res.ok_bind, e'], hlt, t3, fun k => ?_⟩
    rw [bit_comp hlt, opd_bit hx, opd_bit hy, hn]
    by_cases h1 : k < 64 * y.size
    · rw [if_pos (by omega), if_pos (by omega), if_pos h1, t1 (k / 64) (Nat.zero_le _) (by omega), Nat.testBit_and]
    · rw [if_neg h1]
      by_cases h2 : k < 64 * x.size
      · rw [if_pos h2, if_pos h2, t2 (k / 64) (by omega), s1 (k / 64) (by omega) (by omega)]
        simp
      · rw [if_neg h2, if_neg h2]
  | false =>
    simp only [Bool.false_eq_true, if_false]
    obtain ⟨s', e', t1, t2, t3⟩ := fill_spec (f := fun i => x.n i &&& y.n i) (Nat.le_refl y.size) y.size (g, 0) (Nat.zero_le _)
      (Nat.le_refl _) (.inl ⟨rfl, fun i h1 h2 => by omega⟩)
    have hlt : ∀ i, i < y.size → s'.1 i < B := by
      intro i hi
      rw [t1 i (Nat.zero_le _) hi]
      exact and_lt (hx.lt i (by omega))
    refine ⟨s', by rw [Res.ok_bind, e'], hlt, t3, fun k => ?_⟩
    rw [bit_comp hlt, opd_bit hx, opd_bit hy, hn]
    by_cases h1 : k < 64 * y.size
    · rw [if_pos (by omega), if_pos (by omega), if_pos h1, t1 (k / 64) (Nat.zero_le _) (by omega), Nat.testBit_and]
    · rw [if_neg h1, if_neg h1]
      simp

theorem orFill_spec (g : Nat → Nat) {x y : Opd} {v w : Int} (hx : OpdOk x v) (hy : OpdOk y w) (hs : y.size ≤ x.size) :
    Fills (orFill g x y) (orLen x y) (x.neg || y.neg) (fun k => bit v k || bit w k) := by
  unfold orFill fillIf orLen Fills
  cases hn : y.neg with
  | false =>
    simp only [Bool.not_false, Bool.false_eq_true, if_true, if_false]
    obtain ⟨s, e, s1, s2, s3⟩ := fill_spec (f := x.n) (Nat.le_refl x.size) x.size (g, 0) hs (Nat.le_refl _)
      (.inl ⟨rfl, fun i h1 h2 => by omega⟩)
    obtain ⟨s', e', t1, t2, t3⟩ := fill_spec (f := fun i => x.n i ||| y.n i) (Nat.le_refl x.size) y.size s (Nat.zero_le _) hs s3
    have hlt : ∀ i, i < x.size → s'.1 i < B := by
      intro i hi
      by_cases hc : i < y.size
      · rw [t1 i (Nat.zero_le _) hc]; exact or_lt (hx.lt i hi) (hy.lt i hc)
      · rw [t2 i (by omega), s1 i (by omega) hi]; exact hx.lt i hi
    refine ⟨s', by rw [e, Res.ok_bind, e'], hlt, t3, fun k => ?_⟩
    rw [bit_comp hlt, opd_bit hx, opd_bit hy, hn]
    by_cases h1 : k < 64 * y.size
    · rw [if_pos (by omega), if_pos (by omega), if_pos h1, t1 (k / 64) (Nat.zero_le _) (by omega), Nat.testBit_or]
    · rw [if_neg h1]
      by_cases h2 : k < 64 * x.size
      · rw [if_pos h2, if_pos h2, t2 (k / 64) (by omega), s1 (k / 64) (by omega) (by omega)]
        simp
      · rw [if_neg h2, if_neg h2]
  | true =>
    simp only [Bool.not_true, Bool.false_eq_true, if_true, if_false]
    obtain ⟨s', e', t1, t2, t3⟩ := fill_spec (f := fun i => x.n i ||| y.n i) (Nat.le_refl y.size) y.size (g, 0) (Nat.zero_le _)
      (Nat.le_refl _) (.inl ⟨rfl, fun i h1 h2 => by omega⟩)
    have hlt : ∀ i, i < y.size → s'.1 i < B := by
      intro i hi
      rw [t1 i (Nat.zero_le _) hi]
      exact or_lt (hx.lt i (by omega)) (hy.lt i hi)
    refine ⟨s', by rw [Res.ok_bind, e'], hlt, t3, fun k => ?_⟩
    rw [bit_comp hlt, opd_bit hx, opd_bit hy, hn]
    by_cases h1 : k < 64 * y.size
    · rw [if_pos (by omega), if_pos (by omega), if_pos h1, t1 (k / 64) (Nat.zero_le _) (by omega), Nat.testBit_or]
    · rw [if_neg h1, if_neg h1]
      simp

theorem not_testBit {x j : Nat} (hx : x < B) (hj : j < 64) : (B - 1 - x).testBit j = !x.testBit j := by
  have := Nat.testBit_two_pow_sub_succ (x := x) (n := 64) hx j
  unfold B
  rw [show 2 ^ 64 - 1 - x = 2 ^ 64 - (x + 1) by omega, this]
  simp [hj]

theorem xorFill_spec (g : Nat → Nat) {x y : Opd} {v w : Int} (hx : OpdOk x v) (hy : OpdOk y w) (hs : y.size ≤ x.size) :
    Fills (xorFill g x y) (xorLen x y) (x.neg ^^ y.neg) (fun k => bit v k ^^ bit w k) := by
  unfold xorFill xorLen Fills
  obtain ⟨s, e, s1, s2, s3⟩ := fill_spec (f := fun i => if y.neg then B - 1 - x.n i else x.n i) (Nat.le_refl x.size) x.size (g, 0)
    hs (Nat.le_refl _) (.inl ⟨rfl, fun i h1 h2 => by omega⟩)
  obtain ⟨s', e', t1, t2, t3⟩ := fill_spec (f := fun i => x.n i ^^^ y.n i) (Nat.le_refl x.size) y.size s (Nat.zero_le _) hs s3
  have hB := B_pos
  have hlt : ∀ i, i < x.size → s'.1 i < B := by
    intro i hi
    by_cases hc : i < y.size
    · rw [t1 i (Nat.zero_le _) hc]; exact xor_lt (hx.lt i hi) (hy.lt i hc)
    · rw [t2 i (by omega), s1 i (by omega) hi]
      by_cases hn : y.neg = true
      · rw [if_pos hn]; omega
      · rw [if_neg hn]; exact hx.lt i hi
  refine ⟨s', by rw [e, Res.ok_bind, e'], hlt, t3, fun k => ?_⟩
  show _ = (bit v k ^^ bit w k)
  rw [bit_comp hlt, opd_bit hx, opd_bit hy]
  by_cases h1 : k < 64 * y.size
  · rw [if_pos (by omega), if_pos (by omega), if_pos h1, t1 (k / 64) (Nat.zero_le _) (by omega), Nat.testBit_xor]
  · rw [if_neg h1]
    by_cases h2 : k < 64 * x.size
    · rw [if_pos h2, if_pos h2, t2 (k / 64) (by omega), s1 (k / 64) (by omega) (by omega)]
      cases hn : y.neg with
      | true =>
        simp only [if_true]
        rw [not_testBit (hx.lt _ (by omega)) (by omega)]
        simp
      | false => simp
    · rw [if_neg h2, if_neg h2]

/-- The words are those of the number `x`, which has the bits `f`; the result is exactly this number if it is not
negative, and otherwise if it fits. -/
theorem combine_spec {len : Opd → Opd → Nat} {fills : Opd → Opd → Res ((Nat → Nat) × Nat)} {op : Bool → Bool → Bool}
    (hcomm : ∀ a b, op a b = op b a) (hlen : ∀ {x y : Opd}, 0 < y.size → y.size ≤ x.size → 0 < len x y)
    (hfill : ∀ {x y : Opd} {v w : Int}, OpdOk x v → OpdOk y w → y.size ≤ x.size →
      Fills (fills x y) (len x y) (op x.neg y.neg) (fun k => op (bit v k) (bit w k)))
    {x y : Opd} {v w : Int} (hx : OpdOk x v) (hy : OpdOk y w) {rneg : Bool} (hr : rneg = op x.neg y.neg) :
    ∃ (r : Z) (z : Int) (m : Nat), combine len fills rneg x y = .ok r ∧ (∀ k, bit z k = op (bit v k) (bit w k)) ∧
      m = len (order x y).1 (order x y).2 ∧ (0 ≤ z ↔ rneg = false) ∧ (0 ≤ z → r.val = z ∧ r.Ok) ∧
      (z < 0 → (r.val = z ↔ ((B ^ (m - 1) : Nat) : Int) - (B ^ m : Nat) ≤ z) ∧
        (r.val = z → (r.Ok ↔ z ≤ -((B ^ (m - 1) : Nat) : Int)))) := by
  have key : ∃ (x' y' : Opd), order x y = (x', y') ∧ 0 < y'.size ∧ y'.size ≤ x'.size ∧
      Fills (fills x' y') (len x' y') rneg (fun k => op (bit v k) (bit w k)) := by
    unfold order
    by_cases h : x.size < y.size
    · rw [if_pos h]
      refine ⟨y, x, rfl, hx.pos, by omega, ?_⟩
      have := hfill hy hx (by omega)
      rw [hr, hcomm]
      obtain ⟨s, e, h1, h2, h3⟩ := this
      exact ⟨s, e, h1, h2, fun k => (h3 k).trans (hcomm _ _)⟩
    · rw [if_neg h]
      refine ⟨x, y, rfl, hy.pos, by omega, ?_⟩
      rw [hr]
      exact hfill hx hy (by omega)
  obtain ⟨x', y', ho, hy0, hxy, s, e, h1, h2, h3⟩ := key
  have hm := hlen hy0 hxy
  obtain ⟨f1, f2⟩ := finish_spec (alloc := len x' y') rneg h1 h2 (Nat.le_refl _)
  have hlt := words_lt h1
  have hsign : (0 ≤ compVal s.1 (len x' y') rneg ↔ rneg = false) := by
    unfold compVal
    cases rneg with
    | false => simp
    | true =>
      simp only [if_true, Bool.true_eq_false, iff_false, not_le]
      omega
  refine ⟨finish (len x' y') rneg (s.1, s.2), compVal s.1 (len x' y') rneg, len x' y', ?_, h3, ?_, hsign, ?_, ?_⟩
  · unfold combine
    simp only [ho]
    rw [e]
    rfl
  · rw [ho]
  · intro h0
    exact f1 (hsign.mp h0)
  · intro h0
    have : rneg = true := by
      cases hn : rneg with
      | true => rfl
      | false => rw [hn] at h0 hsign; have := hsign.mpr rfl; omega
    exact f2 this hm

end Verif.Big
