import Verif.Big.Bits
/-!
# C48 (shifts), C49 (bitwise operations) and C51 (conversions) of `bigint`
-/
namespace Verif.Big
open Verif

theorem val_zero_iff {a : Z} (h : a.Ok) : a.val = 0 ↔ a.size = 0 := by
  constructor
  · intro hv
    by_contra h0
    have := words_ge (h.top h0)
    rw [show a.size.natAbs - 1 + 1 = a.size.natAbs by omega] at this
    have := Bpow_pos (a.size.natAbs - 1)
    unfold Z.val at hv
    by_cases hn : a.size < 0
    · rw [if_pos hn] at hv; omega
    · rw [if_neg hn] at hv; omega
  · intro h0
    simp [Z.val, h0, words]

theorem val_neg_iff {a : Z} (h : a.Ok) : a.val < 0 ↔ a.size < 0 := by
  have hz := val_zero_iff h
  unfold Z.val at hz ⊢
  by_cases hn : a.size < 0
  · rw [if_pos hn] at hz ⊢
    have : (words a.n a.size.natAbs : Int) ≠ 0 := fun hc => by
      have := hz.mp (by omega); omega
    omega
  · rw [if_neg hn]; omega

/-! ### C48 -/

theorem moveUp_spec {alloc shw : Nat} : ∀ (k : Nat) (n : Nat → Nat), k + shw ≤ alloc →
    ∃ n', moveUp alloc shw k n = .ok n' ∧ ∀ i, n' i = if shw ≤ i ∧ i < k + shw then n (i - shw) else n i
  | 0, n, _ => ⟨n, rfl, fun i => by rw [if_neg (by omega)]⟩
  | k + 1, n, h => by
    obtain ⟨n', e, h'⟩ := moveUp_spec (alloc := alloc) (shw := shw) k (fun j => if j = k + shw then n k else n j) (by omega)
    refine ⟨n', ?_, fun i => ?_⟩
    · simp only [moveUp, wr]
      rw [if_pos (by omega), Res.ok_bind]
      exact e
    · rw [h' i]
      by_cases h1 : shw ≤ i ∧ i < k + shw
      · have h3 : shw ≤ i ∧ i < k + 1 + shw := by omega
        have h4 : ¬ i - shw = k + shw := by omega
        rw [if_pos h1, if_pos h3]
        exact if_neg h4
      · rw [if_neg h1]
        show (if i = k + shw then n k else n i) = _
        by_cases h2 : i = k + shw
        · have h3 : shw ≤ i ∧ i < k + 1 + shw := by omega
          rw [if_pos h2, if_pos h3, h2, Nat.add_sub_cancel]
        · have h3 : ¬ (shw ≤ i ∧ i < k + 1 + shw) := by omega
          rw [if_neg h2, if_neg h3]

theorem clear_spec {alloc : Nat} : ∀ (k lo : Nat) (n : Nat → Nat), lo + k ≤ alloc →
    ∃ n', clear alloc k lo n = .ok n' ∧ ∀ i, n' i = if lo ≤ i ∧ i < lo + k then 0 else n i
  | 0, lo, n, _ => ⟨n, rfl, fun i => by rw [if_neg (by omega)]⟩
  | k + 1, lo, n, h => by
    obtain ⟨n', e, h'⟩ := clear_spec (alloc := alloc) k (lo + 1) (fun j => if j = lo then 0 else n j) (by omega)
    refine ⟨n', ?_, fun i => ?_⟩
    · simp only [clear, wr]
      rw [if_pos (by omega), Res.ok_bind]
      exact e
    · rw [h' i]
      by_cases h1 : lo + 1 ≤ i ∧ i < lo + 1 + k
      · rw [if_pos h1, if_pos (by omega)]
      · rw [if_neg h1]
        by_cases h2 : i = lo
        · have h3 : lo ≤ i ∧ i < lo + (k + 1) := by omega
          show (if i = lo then _ else _) = _
          rw [if_pos h2, if_pos h3]
        · have h3 : ¬ (lo ≤ i ∧ i < lo + (k + 1)) := by omega
          show (if i = lo then _ else _) = _
          rw [if_neg h2, if_neg h3]

theorem moveWords_spec {alloc shw k : Nat} {n : Nat → Nat} (h : k + shw ≤ alloc) :
    ∃ n', moveWords alloc shw k n = .ok n' ∧ (∀ i, i < shw → n' i = 0) ∧ ∀ i, i < k → n' (i + shw) = n i := by
  unfold moveWords
  by_cases h0 : shw > 0
  · rw [if_pos h0]
    obtain ⟨n1, e1, h1⟩ := moveUp_spec k n h
    obtain ⟨n2, e2, h2⟩ := clear_spec (alloc := alloc) shw 0 n1 (by omega)
    refine ⟨n2, by rw [e1, Res.ok_bind, e2], fun i hi => ?_, fun i hi => ?_⟩
    · rw [h2 i, if_pos (by omega)]
    · rw [h2, if_neg (by omega), h1, if_pos (by omega), Nat.add_sub_cancel]
  · rw [if_neg h0]
    obtain rfl : shw = 0 := by omega
    exact ⟨n, rfl, fun i hi => by omega, fun i _ => rfl⟩

/-- A result whose most significant word may be zero. -/
theorem sized {n : Nat → Nat} {mres alloc : Nat} (hm : 0 < mres) (ha : mres ≤ alloc) (hlt : ∀ i, i < mres → n i < B)
    (hw : 2 ≤ mres → B ^ (mres - 2) ≤ words n mres) (neg : Bool) {z : Z}
    (hz : z = ⟨if neg then -((mres : Int) - (if n (mres - 1) = 0 then 1 else 0)) else (mres : Int) - (if n (mres - 1) = 0 then 1 else 0),
      alloc, n⟩) : z.Ok ∧ z.val = if neg then -(words n mres : Int) else words n mres := by
  obtain ⟨k, rfl⟩ : ∃ k, mres = k + 1 := ⟨mres - 1, by omega⟩
  simp only [Nat.add_sub_cancel] at hz
  by_cases h0 : n k = 0
  · rw [if_pos h0] at hz
    have e : words n (k + 1) = words n k := by simp [words, h0]
    have ez : z = ⟨if neg then -(k : Int) else k, alloc, n⟩ := by
      rw [hz]; push_cast; simp
    have esz : z.size.natAbs = k := by
      rw [ez]; cases neg <;> simp
    refine ⟨⟨?_, ?_, ?_⟩, ?_⟩
    · intro i hi
      rw [esz] at hi
      rw [ez]
      exact hlt i (by omega)
    · intro hne
      have hk : k ≠ 0 := by omega
      rw [esz, ez]
      show n (k - 1) ≠ 0
      refine words_top (fun i hi => hlt i (by omega)) ?_
      rw [show k - 1 + 1 = k by omega, ← e]
      have := hw (by omega)
      rwa [show k + 1 - 2 = k - 1 by omega] at this
    · rw [esz, ez]; show k ≤ alloc; omega
    · unfold Z.val
      rw [esz, ez, e]
      cases neg with
      | false => simp
      | true =>
        simp only [if_true]
        by_cases hk : k = 0
        · subst hk; simp [words]
        · rw [if_pos (by omega)]
  · rw [if_neg h0] at hz
    have ez : z = ⟨if neg then -((k + 1 : Nat) : Int) else (k + 1 : Nat), alloc, n⟩ := by
      rw [hz]; push_cast; simp
    have esz : z.size.natAbs = k + 1 := by
      rw [ez]; cases neg <;> simp <;> omega
    refine ⟨⟨?_, ?_, ?_⟩, ?_⟩
    · intro i hi
      rw [esz] at hi
      rw [ez]
      exact hlt i (by omega)
    · intro hne
      rw [esz, ez]
      exact h0
    · rw [esz, ez]; exact ha
    · unfold Z.val
      rw [esz, ez]
      cases neg with
      | false =>
        simp only [Bool.false_eq_true, if_false]
        rw [if_neg (by omega)]
      | true =>
        simp only [if_true]
        rw [if_pos (by omega)]

theorem lshiftBy_spec (g : Nat → Nat) {a : Z} (h : a.Ok) (ha : a.size ≠ 0) {shw shb b : Nat} (hshb : shb < 64)
    (hbb : b = 64 * shw + shb) (hb : b ≠ 0) :
    ∃ r, lshiftBy g a shw shb = .ok r ∧ r.Ok ∧ r.val = a.val * 2 ^ b := by
    unfold lshiftBy
    simp only
    generalize hm : a.size.natAbs = m
    have hm0 : 0 < m := by omega
    have hlt : ∀ i, i < m → a.n i < B := by rw [← hm]; exact h.lt
    have hge : B ^ (m - 1) ≤ words a.n m := by
      have := words_ge (h.top ha)
      rw [hm, show m - 1 + 1 = m by omega] at this
      exact this
    have hV := words_lt hlt
    have hval : a.val = if a.size < 0 then -(words a.n m : Int) else words a.n m := by rw [← hm]; rfl
    generalize hV' : words a.n m = V at *
    -- after nn_shl and the carry
    have hc : V * 2 ^ shb / B ^ m < B := by
      rw [Nat.div_lt_iff_lt_mul (Bpow_pos m)]
      have : 2 ^ shb < B := Nat.pow_lt_pow_right (by decide) hshb
      calc V * 2 ^ shb < B ^ m * 2 ^ shb := Nat.mul_lt_mul_of_pos_right hV (Nat.pow_pos (by decide))
        _ ≤ B ^ m * B := Nat.mul_le_mul_left _ (by omega)
        _ = B * B ^ m := Nat.mul_comm _ _
    generalize hS : (fun j => if j = m then (nnShl g a.n m shb).2 else (nnShl g a.n m shb).1 j) = S
    have hSi : ∀ i, i < m + 1 → S i = V * 2 ^ shb / B ^ i % B := by
      intro i hi
      rw [← hS]
      show (if i = m then words a.n m * 2 ^ shb / B ^ m else if i < m then words a.n m * 2 ^ shb / B ^ i % B else g i) = _
      rw [hV']
      by_cases hc' : i = m
      · rw [if_pos hc', hc', Nat.mod_eq_of_lt hc]
      · rw [if_neg hc', if_pos (by omega)]
    have hS1 : words S (m + 1) = V * 2 ^ shb := by
      rw [words_congr hSi, words_digits]
      apply Nat.mod_eq_of_lt
      rw [Nat.pow_succ, Nat.mul_comm (B ^ m)]
      exact (Nat.div_lt_iff_lt_mul (Bpow_pos m)).mp hc
    generalize hk : m + (if shb > 0 then 1 else 0) = k
    have hkm : m + shw + (if shb > 0 then 1 else 0) = k + shw := by omega
    have hmk : m ≤ k ∧ k ≤ m + 1 ∧ (shb = 0 → k = m) ∧ (0 < shb → k = m + 1) := by
      rw [← hk]
      by_cases h' : shb > 0
      · rw [if_pos h']; omega
      · rw [if_neg h']; omega
    have hSk : words S k = V * 2 ^ shb := by
      by_cases h' : 0 < shb
      · rw [hmk.2.2.2 h']; exact hS1
      · have h'' : shb = 0 := by omega
        rw [hmk.2.2.1 h'', ← hS1]
        have : S m = 0 := by
          rw [hSi m (by omega), h'']
          simp [Nat.div_eq_of_lt hV]
        simp [words, this]
    rw [hkm]
    have hw : wr (k + shw) (nnShl g a.n m shb).1 m (nnShl g a.n m shb).2 = .ok S := by
      unfold wr
      rw [if_pos ?_, hS]
      by_cases h' : 0 < shb
      · have := hmk.2.2.2 h'; omega
      · have : shw ≠ 0 := by omega
        omega
    rw [hw, Res.ok_bind]
    obtain ⟨n', e', l1, l2⟩ := moveWords_spec (alloc := k + shw) (shw := shw) (k := k) (n := S) (Nat.le_refl _)
    rw [e', Res.ok_bind]
    have hn : ∀ i, i < k + shw → n' i < B := by
      intro i hi
      by_cases h' : i < shw
      · rw [l1 i h']; exact B_pos
      · have := l2 (i - shw) (by omega)
        rw [show i - shw + shw = i by omega] at this
        rw [this, hSi _ (by omega)]
        exact Nat.mod_lt _ B_pos
    have hW : words n' (k + shw) = V * 2 ^ b := by
      rw [Nat.add_comm, words_add, words_zero l1, words_congr l2, hSk, B_pow, Nat.zero_add, Nat.mul_assoc, ← Nat.pow_add, hbb,
        Nat.add_comm shb]
    have hpos2 : 2 ≤ k + shw → B ^ (k + shw - 2) ≤ words n' (k + shw) := by
      intro h2
      rw [hW]
      have e1 : B ^ (m - 1) * B ^ shw ≤ V * 2 ^ b := by
        refine Nat.mul_le_mul hge ?_
        rw [B_pow]
        exact Nat.pow_le_pow_right (by decide) (by omega)
      refine Nat.le_trans ?_ e1
      rw [← Nat.pow_add]
      exact Nat.pow_le_pow_right B_pos (by omega)
    have := sized (n := n') (mres := k + shw) (alloc := k + shw) (by omega) (Nat.le_refl _) hn hpos2 (decide (a.size < 0))
      (z := ⟨if a.size < 0 then -(((k + shw : Nat) : Int) - (if n' (k + shw - 1) = 0 then 1 else 0))
        else ((k + shw : Nat) : Int) - (if n' (k + shw - 1) = 0 then 1 else 0), k + shw, n'⟩) (by simp)
    refine ⟨_, rfl, this.1, ?_⟩
    rw [this.2, hW, hval]
    by_cases hneg : a.size < 0
    · simp only [hneg, decide_true, if_true]
      push_cast; ring
    · simp only [hneg, decide_false, Bool.false_eq_true, if_false]
      push_cast; ring

/-- C48: shifting left by `b ≥ 0` multiplies by `2^b`, and stays in its block. -/
theorem C48_lshift (g : Nat → Nat) {a : Z} (h : a.Ok) {b : Nat} :
    ∃ r, lshift g a b = .ok r ∧ r.Ok ∧ r.val = a.val * 2 ^ b := by
  unfold lshift
  by_cases h0 : a.size = 0 ∨ (b : Int) = 0
  · rw [if_pos h0]
    refine ⟨a, rfl, h, ?_⟩
    rcases h0 with h0 | h0
    · rw [(val_zero_iff h).mpr h0]; simp
    · have : b = 0 := by omega
      simp [this]
  · rw [if_neg h0, if_neg (by omega)]
    simp only [Int.toNat_natCast]
    exact lshiftBy_spec g h (by omega) (Nat.mod_lt _ (by decide)) (by omega) (by omega)

/-- C48: a negative count is an error, unless the number is zero. -/
theorem C48_negative {g : Nat → Nat} {a : Z} (h : a.Ok) (h0 : a.val ≠ 0) {b : Int} (hb : b < 0) :
    lshift g a b = .raise .valueError ∧ rshift g a b = .raise .valueError := by
  have : a.size ≠ 0 := fun hc => h0 ((val_zero_iff h).mpr hc)
  unfold lshift rshift
  constructor <;> rw [if_neg (by omega), if_pos hb]

theorem rshiftBy_spec (g : Nat → Nat) {a : Z} (h : a.Ok) {shw shb b : Nat} (hshb : shb < 64)
    (hbb : b = 64 * shw + shb) (hb : shw < a.size.natAbs) :
    ∃ r, rshiftBy g a shw shb = .ok r ∧ r.Ok ∧ r.val = if a.size < 0 then -((words a.n a.size.natAbs / 2 ^ b : Nat) : Int)
      else (words a.n a.size.natAbs / 2 ^ b : Nat) := by
    have ha : a.size ≠ 0 := by omega
    unfold rshiftBy
    simp only
    rw [if_neg (by omega)]
    generalize hm : a.size.natAbs = m at *
    have hlt : ∀ i, i < m → a.n i < B := by rw [← hm]; exact h.lt
    have hge : B ^ (m - 1) ≤ words a.n m := by
      have := words_ge (h.top ha)
      rw [hm, show m - 1 + 1 = m by omega] at this
      exact this
    obtain ⟨k, hk⟩ : ∃ k, m = shw + (k + 1) := ⟨m - shw - 1, by omega⟩
    have hmk : m - shw = k + 1 := by omega
    rw [hmk]
    have hdiv : words (fun i => a.n (i + shw)) (k + 1) = words a.n m / B ^ shw := by
      rw [hk, words_div (fun i hi => hlt i (by omega))]
    generalize hN : nnShr g (fun i => a.n (i + shw)) (k + 1) shb = N
    have hNi : ∀ i, i < k + 1 → N i = words a.n m / 2 ^ b / B ^ i % B := by
      intro i hi
      rw [← hN]
      unfold nnShr
      rw [if_pos hi, hdiv, Nat.div_div_eq_div_mul (words a.n m), B_pow, ← Nat.pow_add, hbb]
    have hWlt : words a.n m / 2 ^ b < B ^ (k + 1) := by
      have h1 : words (fun i => a.n (i + shw)) (k + 1) < B ^ (k + 1) := words_lt (fun i hi => hlt _ (by omega))
      rw [hdiv] at h1
      refine Nat.lt_of_le_of_lt ?_ h1
      rw [B_pow, hbb]
      exact Nat.div_le_div_left (Nat.pow_le_pow_right (by decide) (by omega)) (Nat.pow_pos (by decide))
    have hW : words N (k + 1) = words a.n m / 2 ^ b := by
      rw [words_congr hNi, words_digits, Nat.mod_eq_of_lt hWlt]
    have hn : ∀ i, i < k + 1 → N i < B := by
      intro i hi
      rw [hNi i hi]
      exact Nat.mod_lt _ B_pos
    have hpos2 : 2 ≤ k + 1 → B ^ (k + 1 - 2) ≤ words N (k + 1) := by
      intro h2
      rw [hW, Nat.le_div_iff_mul_le (Nat.pow_pos (by decide))]
      refine Nat.le_trans ?_ hge
      rw [B_pow, B_pow, ← Nat.pow_add]
      exact Nat.pow_le_pow_right (by decide) (by omega)
    have := sized (n := N) (mres := k + 1) (alloc := k + 1) (by omega) (Nat.le_refl _) hn hpos2 (decide (a.size < 0))
      (z := ⟨if a.size < 0 then -(((k + 1 : Nat) : Int) - (if N (k + 1 - 1) = 0 then 1 else 0))
        else ((k + 1 : Nat) : Int) - (if N (k + 1 - 1) = 0 then 1 else 0), k + 1, N⟩) (by simp)
    refine ⟨_, rfl, this.1, ?_⟩
    rw [this.2, hW]
    by_cases hneg : a.size < 0 <;> simp [hneg]

/-- What `rshift` computes as long as one word is left. -/
theorem rshift_spec (g : Nat → Nat) {a : Z} (h : a.Ok) {b : Nat} (hb : b / 64 < a.size.natAbs) :
    ∃ r, rshift g a b = .ok r ∧ r.Ok ∧ r.val = if a.size < 0 then -((words a.n a.size.natAbs / 2 ^ b : Nat) : Int)
      else (words a.n a.size.natAbs / 2 ^ b : Nat) := by
  unfold rshift
  by_cases h0 : a.size = 0 ∨ (b : Int) = 0
  · rw [if_pos h0]
    refine ⟨a, rfl, h, ?_⟩
    have : b = 0 := by omega
    simp [this, Z.val]
  · rw [if_neg h0, if_neg (by omega)]
    simp only [Int.toNat_natCast]
    exact rshiftBy_spec g h (Nat.mod_lt _ (by decide)) (by omega) hb

/-- C48: shifting a number that is not negative to the right divides by `2^b` and rounds down, if a word is left.
Missing: negative numbers and greater counts (see the refutations). -/
theorem C48_rshift_partial (g : Nat → Nat) {a : Z} (h : a.Ok) (hv : 0 ≤ a.val) {b : Nat} (hb : b / 64 < a.size.natAbs) :
    ∃ r, rshift g a b = .ok r ∧ r.Ok ∧ r.val = a.val / 2 ^ b := by
  obtain ⟨r, e, h1, h2⟩ := rshift_spec g h hb
  have hn : ¬ a.size < 0 := fun hc => by have := (val_neg_iff h).mpr hc; omega
  refine ⟨r, e, h1, ?_⟩
  rw [h2, if_neg hn]
  unfold Z.val
  rw [if_neg hn]
  push_cast; rfl

/-- C48 is false for negative numbers, exactly if bits are lost: the result is rounded towards zero. -/
theorem C48_refuted_negative (g : Nat → Nat) {a : Z} (h : a.Ok) (hv : a.val < 0) {b : Nat} (hb : b / 64 < a.size.natAbs) :
    ∃ r, rshift g a b = .ok r ∧ (r.val = a.val / 2 ^ b ↔ a.val % 2 ^ b = 0) := by
  obtain ⟨r, e, h1, h2⟩ := rshift_spec g h hb
  have hn : a.size < 0 := (val_neg_iff h).mp hv
  refine ⟨r, e, ?_⟩
  rw [h2, if_pos hn]
  unfold Z.val
  rw [if_pos hn]
  generalize words a.n a.size.natAbs = V
  have hp : (0 : Int) < 2 ^ b := by positivity
  have e1 := Int.emod_add_mul_ediv (-(V : Int)) (2 ^ b)
  have e2 := Int.emod_nonneg (-(V : Int)) (ne_of_gt hp)
  have e3 := Int.emod_lt_of_pos (-(V : Int)) hp
  have f1 := Int.emod_add_mul_ediv (V : Int) (2 ^ b)
  have f2 := Int.emod_nonneg (V : Int) (ne_of_gt hp)
  have f3 := Int.emod_lt_of_pos (V : Int) hp
  push_cast
  constructor
  · intro hq
    rw [← hq] at e1
    nlinarith
  · intro hq
    rw [hq] at e1
    have : (2 : Int) ^ b * (-(V : Int) / 2 ^ b + V / 2 ^ b) = -(V % 2 ^ b) := by linarith
    have h0 : (-(V : Int) / 2 ^ b + V / 2 ^ b) = 0 := by
      have g1 : -(2 : Int) ^ b < 2 ^ b * (-(V : Int) / 2 ^ b + V / 2 ^ b) := by rw [this]; linarith
      have g2 : (2 : Int) ^ b * (-(V : Int) / 2 ^ b + V / 2 ^ b) < 2 ^ b := by rw [this]; linarith
      have g3 : -1 < (-(V : Int) / 2 ^ b + V / 2 ^ b) := by
        by_contra hc
        have : (-(V : Int) / 2 ^ b + V / 2 ^ b) ≤ -1 := by omega
        nlinarith
      have g4 : (-(V : Int) / 2 ^ b + V / 2 ^ b) < 1 := by
        by_contra hc
        have : 1 ≤ (-(V : Int) / 2 ^ b + V / 2 ^ b) := by omega
        nlinarith
      omega
    omega

/-- C48 is false for counts of at least as many words as the number has: the code reads outside of its block. -/
theorem C48_refuted_memory (g : Nat → Nat) {a : Z} (h : a.Ok) (h0 : a.val ≠ 0) {b : Nat} (hb : a.size.natAbs ≤ b / 64) :
    rshift g a b = .ub := by
  have : a.size ≠ 0 := fun hc => h0 ((val_zero_iff h).mpr hc)
  unfold rshift rshiftBy
  rw [if_neg (by omega), if_neg (by omega)]
  simp only [Int.toNat_natCast]
  rw [if_pos hb]

/-- C48 is false for the number zero: a negative count is accepted. -/
theorem C48_refuted_zero (g : Nat → Nat) {a : Z} (h : a.Ok) (h0 : a.val = 0) {b : Int} :
    lshift g a b = .ok a ∧ rshift g a b = .ok a := by
  have := (val_zero_iff h).mp h0
  unfold lshift rshift
  rw [if_pos (.inl this), if_pos (.inl this)]
  exact ⟨rfl, rfl⟩

/-! ### C51 -/

/-- C51: the conversion of an `int` denotes the same number. -/
theorem C51_ofInt {n : Int} (hn : InI64 n) : (ofInt n).Ok ∧ (ofInt n).val = n := by
  unfold InI64 at hn
  unfold ofInt
  by_cases h1 : 0 ≤ n ∧ n < 256
  · rw [if_pos h1]
    by_cases h0 : n = 0
    · subst h0
      refine ⟨⟨?_, ?_, ?_⟩, ?_⟩ <;> simp [Z.val, words]
    · rw [if_neg h0]
      refine ⟨⟨fun i hi => ?_, fun _ => ?_, by simp⟩, ?_⟩
      · show n.toNat < B; unfold B; omega
      · show n.toNat ≠ 0; omega
      · simp [Z.val, words]; omega
  · rw [if_neg h1]
    by_cases h2 : n < 0
    · rw [if_pos h2]
      refine ⟨⟨fun i hi => ?_, fun _ => ?_, by simp⟩, ?_⟩
      · show n.natAbs < B; unfold B; omega
      · show n.natAbs ≠ 0; omega
      · show -((words (fun _ => n.natAbs) 1 : Nat) : Int) = n
        simp only [words, Nat.pow_zero, Nat.mul_one]; omega
    · rw [if_neg h2, if_pos (by omega)]
      refine ⟨⟨fun i hi => ?_, fun _ => ?_, by simp⟩, ?_⟩
      · show n.natAbs < B; unfold B; omega
      · show n.natAbs ≠ 0; omega
      · simp [Z.val, words]; omega

/-- C51: the conversion to `int` gives the same number, or raises `ValueError` exactly if it does not fit. -/
theorem C51_toInt {a : Z} (h : a.Ok) : toInt a = if InI64 a.val then .ok a.val else .raise .valueError := by
  unfold toInt
  by_cases h0 : a.size = 0
  · have hv := (val_zero_iff h).mpr h0
    rw [if_neg (by omega), hv, if_pos (by unfold InI64; omega), h0]
    simp [wrap64_of_in (show InI64 0 by unfold InI64; omega)]
  by_cases h1 : a.size.natAbs = 1
  · have hlt := h.lt 0 (by omega)
    have htop := h.top h0
    rw [h1] at htop
    simp only [Nat.sub_self] at htop
    have hB : B = 18446744073709551616 := rfl
    rcases (show a.size = 1 ∨ a.size = -1 by omega) with hs | hs
    · have hv : a.val = a.n 0 := by simp [Z.val, hs, words]
      rw [hv]
      by_cases hc : a.n 0 > 0x7fffffffffffffff
      · rw [if_pos (by omega), if_neg (by unfold InI64; omega)]
      · rw [if_neg (by omega), if_pos (by unfold InI64; omega), hs, mul_one, wrap64_of_in (by unfold InI64; omega)]
    · have hv : a.val = -(a.n 0 : Int) := by simp [Z.val, hs, words]
      rw [hv]
      by_cases hc : a.n 0 > 0x8000000000000000
      · rw [if_pos (by omega), if_neg (by unfold InI64; omega)]
      · rw [if_neg (by omega), if_pos (by unfold InI64; omega), hs, mul_neg_one, wrap64_of_in (by unfold InI64; omega)]
  · rw [if_pos (by omega), if_neg]
    have hge := words_ge (h.top h0)
    rw [show a.size.natAbs - 1 + 1 = a.size.natAbs by omega] at hge
    have hB : B ≤ B ^ (a.size.natAbs - 1) := by
      calc B = B ^ 1 := (Nat.pow_one B).symm
        _ ≤ B ^ (a.size.natAbs - 1) := Nat.pow_le_pow_right B_pos (by omega)
    have hB' : B = 18446744073709551616 := rfl
    unfold InI64 Z.val
    by_cases hn : a.size < 0
    · rw [if_pos hn]; omega
    · rw [if_neg hn]; omega

/-! ### C49 -/

theorem and_zero_bits (x : Int) (k : Nat) : bit 0 k = (bit x k && bit 0 k) := by
  have : bit 0 k = false := by simp [bit]
  rw [this]; simp

theorem bit_zero (k : Nat) : bit 0 k = false := by simp [bit]

theorem zero_ok : zero.Ok ∧ zero.val = 0 := by
  refine ⟨⟨?_, ?_, ?_⟩, ?_⟩ <;> simp [zero, Z.val, words]

/-- C49: the result of `&` has exactly the common bits of its operands if one of them is not negative. Missing: two
negative operands, for which this holds exactly if the result is not too great (`C49_and_negative`). -/
theorem C49_and_partial (g1 g2 g3 : Nat → Nat) {a b : Z} (ha : a.Ok) (hb : b.Ok) (hs : 0 ≤ a.val ∨ 0 ≤ b.val) :
    ∃ r, and g1 g2 g3 a b = .ok r ∧ r.Ok ∧ ∀ k, bit r.val k = (bit a.val k && bit b.val k) := by
  unfold and
  by_cases h0 : b.size = 0
  · rw [if_pos h0, (val_zero_iff hb).mpr h0]
    exact ⟨zero, rfl, zero_ok.1, fun k => by rw [zero_ok.2, bit_zero]; simp⟩
  by_cases h1 : a.size = 0
  · rw [if_neg h0, if_pos h1, (val_zero_iff ha).mpr h1]
    exact ⟨zero, rfl, zero_ok.1, fun k => by rw [zero_ok.2, bit_zero]; simp⟩
  rw [if_neg h0, if_neg h1]
  obtain ⟨r, z, m, e, hz, _, hsg, hp, _⟩ := combine_spec (op := Bool.and) (len := andLen) (fills := andFill g3) Bool.and_comm
    (by intro x y h h'; unfold andLen; split <;> omega) (andFill_spec g3) (opd_ok g1 ha h1) (opd_ok g2 hb h0)
    (rneg := (decide (a.size < 0) && decide (b.size < 0))) rfl
  have hz0 : 0 ≤ z := hsg.mpr (by
    have := val_neg_iff ha
    have := val_neg_iff hb
    simp; omega)
  obtain ⟨h2, h3⟩ := hp hz0
  exact ⟨r, e, h3, fun k => by rw [h2, hz]⟩

/-- C49 for two negative operands: `z` is the right result. -/
theorem C49_and_negative (g1 g2 g3 : Nat → Nat) {a b : Z} (ha : a.Ok) (hb : b.Ok) (hsa : a.val < 0) (hsb : b.val < 0) :
    ∃ r z, and g1 g2 g3 a b = .ok r ∧ (∀ k, bit z k = (bit a.val k && bit b.val k)) ∧
      (r.val = z ↔ (B : Int) ^ (max a.size.natAbs b.size.natAbs - 1) - B ^ (max a.size.natAbs b.size.natAbs) ≤ z) := by
  have h1 := (val_neg_iff ha).mp hsa
  have h0 := (val_neg_iff hb).mp hsb
  unfold and
  rw [if_neg (by omega), if_neg (by omega)]
  obtain ⟨r, z, m, e, hz, hm, hsg, _, hn⟩ := combine_spec (op := Bool.and) (len := andLen) (fills := andFill g3) Bool.and_comm
    (by intro x y h h'; unfold andLen; split <;> omega) (andFill_spec g3) (opd_ok g1 ha (by omega)) (opd_ok g2 hb (by omega))
    (rneg := (decide (a.size < 0) && decide (b.size < 0))) rfl
  have hz0 : z < 0 := by
    by_contra hc
    have := hsg.mp (by omega)
    simp [h0, h1] at this
  have hm' : m = max a.size.natAbs b.size.natAbs := by
    rw [hm]
    unfold order
    by_cases hc : (opd g1 a).size < (opd g2 b).size
    · rw [if_pos hc]
      show (if decide (a.size < 0) then b.size.natAbs else a.size.natAbs) = _
      rw [if_pos (by simpa using h1)]
      have : a.size.natAbs < b.size.natAbs := hc
      omega
    · rw [if_neg hc]
      show (if decide (b.size < 0) then a.size.natAbs else b.size.natAbs) = _
      rw [if_pos (by simpa using h0)]
      have : ¬ a.size.natAbs < b.size.natAbs := hc
      omega
  refine ⟨r, z, e, hz, ?_⟩
  rw [(hn hz0).1, hm']
  push_cast
  rfl

/-- C49: `|` and `^` of numbers that are not negative. Missing: negative operands, see `C49_or_negative`. -/
theorem C49_or_partial (g1 g2 g3 : Nat → Nat) {a b : Z} (ha : a.Ok) (hb : b.Ok) (hsa : 0 ≤ a.val) (hsb : 0 ≤ b.val) :
    ∃ r, or g1 g2 g3 a b = .ok r ∧ r.Ok ∧ ∀ k, bit r.val k = (bit a.val k || bit b.val k) := by
  unfold or
  by_cases h0 : b.size = 0
  · rw [if_pos h0, (val_zero_iff hb).mpr h0]
    exact ⟨a, rfl, ha, fun k => by rw [bit_zero]; simp⟩
  by_cases h1 : a.size = 0
  · rw [if_neg h0, if_pos h1, (val_zero_iff ha).mpr h1]
    exact ⟨b, rfl, hb, fun k => by rw [bit_zero]; simp⟩
  rw [if_neg h0, if_neg h1]
  obtain ⟨r, z, m, e, hz, _, hsg, hp, _⟩ := combine_spec (op := Bool.or) (len := orLen) (fills := orFill g3) Bool.or_comm
    (by intro x y h h'; unfold orLen; split <;> omega) (orFill_spec g3) (opd_ok g1 ha h1) (opd_ok g2 hb h0)
    (rneg := (decide (a.size < 0) || decide (b.size < 0))) rfl
  have hz0 : 0 ≤ z := hsg.mpr (by
    have := val_neg_iff ha
    have := val_neg_iff hb
    simp; omega)
  obtain ⟨h2, h3⟩ := hp hz0
  exact ⟨r, e, h3, fun k => by rw [h2, hz]⟩

/-- C49 for `^` of two numbers of the same sign. Missing: different signs, see `C49_refuted_xor`. -/
theorem C49_xor_partial (g1 g2 g3 : Nat → Nat) {a b : Z} (ha : a.Ok) (hb : b.Ok) (hs : a.val < 0 ↔ b.val < 0) :
    ∃ r, xor g1 g2 g3 a b = .ok r ∧ r.Ok ∧ ∀ k, bit r.val k = (bit a.val k ^^ bit b.val k) := by
  unfold xor
  by_cases h0 : b.size = 0
  · rw [if_pos h0, (val_zero_iff hb).mpr h0]
    exact ⟨a, rfl, ha, fun k => by rw [bit_zero]; simp⟩
  by_cases h1 : a.size = 0
  · rw [if_neg h0, if_pos h1, (val_zero_iff ha).mpr h1]
    exact ⟨b, rfl, hb, fun k => by rw [bit_zero]; simp⟩
  rw [if_neg h0, if_neg h1]
  obtain ⟨r, z, m, e, hz, _, hsg, hp, _⟩ := combine_spec (op := Bool.xor) (len := xorLen) (fills := xorFill g3) Bool.xor_comm
    (by intro x y h h'; unfold xorLen; omega) (xorFill_spec g3) (opd_ok g1 ha h1) (opd_ok g2 hb h0)
    (rneg := (decide (a.size < 0) ^^ decide (b.size < 0))) rfl
  have hz0 : 0 ≤ z := hsg.mpr (by
    rw [val_neg_iff ha, val_neg_iff hb] at hs
    by_cases hc : a.size < 0 <;> simp [hc, hs.symm])
  obtain ⟨h2, h3⟩ := hp hz0
  exact ⟨r, e, h3, fun k => by rw [h2, hz]⟩

/-- C49 for `|` if an operand is negative and none is zero: `z` is the right result, `m` the number of words of the
block, which is that of the shorter operand if this is negative and otherwise that of the longer. The result has the
right value exactly if it fits, and is then in the form that the library demands exactly if it needs all words. -/
theorem C49_or_negative (g1 g2 g3 : Nat → Nat) {a b : Z} (ha : a.Ok) (hb : b.Ok) (hna : a.val ≠ 0) (hnb : b.val ≠ 0)
    (hs : a.val < 0 ∨ b.val < 0) {m : Nat}
    (hm : m = if a.size.natAbs < b.size.natAbs then (if a.val < 0 then a.size.natAbs else b.size.natAbs)
      else if b.val < 0 then b.size.natAbs else a.size.natAbs) :
    ∃ r z, or g1 g2 g3 a b = .ok r ∧ (∀ k, bit z k = (bit a.val k || bit b.val k)) ∧
      (r.val = z ↔ (B : Int) ^ (m - 1) - B ^ m ≤ z) ∧ (r.val = z → (r.Ok ↔ z ≤ -(B : Int) ^ (m - 1))) := by
  have h1 : a.size ≠ 0 := fun hc => hna ((val_zero_iff ha).mpr hc)
  have h0 : b.size ≠ 0 := fun hc => hnb ((val_zero_iff hb).mpr hc)
  have na := val_neg_iff ha
  have nb := val_neg_iff hb
  unfold or
  rw [if_neg h0, if_neg h1]
  obtain ⟨r, z, m', e, hz, hm', hsg, _, hn⟩ := combine_spec (op := Bool.or) (len := orLen) (fills := orFill g3) Bool.or_comm
    (by intro x y h h'; unfold orLen; split <;> omega) (orFill_spec g3) (opd_ok g1 ha h1) (opd_ok g2 hb h0)
    (rneg := (decide (a.size < 0) || decide (b.size < 0))) rfl
  have hz0 : z < 0 := by
    by_contra hc
    have := hsg.mp (by omega)
    simp at this
    omega
  have hmm : m' = m := by
    rw [hm', hm]
    unfold order
    by_cases hc : (opd g1 a).size < (opd g2 b).size
    · have hc' : a.size.natAbs < b.size.natAbs := hc
      rw [if_pos hc, if_pos hc']
      show (if decide (a.size < 0) then a.size.natAbs else b.size.natAbs) = _
      by_cases hd : a.size < 0
      · rw [if_pos (by simpa using hd), if_pos (na.mpr hd)]
      · rw [if_neg (by simpa using hd), if_neg (fun h => hd (na.mp h))]
    · have hc' : ¬ a.size.natAbs < b.size.natAbs := hc
      rw [if_neg hc, if_neg hc']
      show (if decide (b.size < 0) then b.size.natAbs else a.size.natAbs) = _
      by_cases hd : b.size < 0
      · rw [if_pos (by simpa using hd), if_pos (nb.mpr hd)]
      · rw [if_neg (by simpa using hd), if_neg (fun h => hd (nb.mp h))]
  obtain ⟨k1, k2⟩ := hn hz0
  rw [hmm] at k1 k2
  push_cast at k1 k2
  exact ⟨r, z, e, hz, k1, k2⟩

/-- C49 for `^` of two numbers of different signs. -/
theorem C49_xor_negative (g1 g2 g3 : Nat → Nat) {a b : Z} (ha : a.Ok) (hb : b.Ok) (hna : a.val ≠ 0) (hnb : b.val ≠ 0)
    (hs : ¬ (a.val < 0 ↔ b.val < 0)) {m : Nat} (hm : m = max a.size.natAbs b.size.natAbs) :
    ∃ r z, xor g1 g2 g3 a b = .ok r ∧ (∀ k, bit z k = (bit a.val k ^^ bit b.val k)) ∧
      (r.val = z ↔ (B : Int) ^ (m - 1) - B ^ m ≤ z) ∧ (r.val = z → (r.Ok ↔ z ≤ -(B : Int) ^ (m - 1))) := by
  have h1 : a.size ≠ 0 := fun hc => hna ((val_zero_iff ha).mpr hc)
  have h0 : b.size ≠ 0 := fun hc => hnb ((val_zero_iff hb).mpr hc)
  unfold xor
  rw [if_neg h0, if_neg h1]
  obtain ⟨r, z, m', e, hz, hm', hsg, _, hn⟩ := combine_spec (op := Bool.xor) (len := xorLen) (fills := xorFill g3) Bool.xor_comm
    (by intro x y h h'; unfold xorLen; omega) (xorFill_spec g3) (opd_ok g1 ha h1) (opd_ok g2 hb h0)
    (rneg := (decide (a.size < 0) ^^ decide (b.size < 0))) rfl
  have hz0 : z < 0 := by
    by_contra hc
    have := hsg.mp (by omega)
    rw [val_neg_iff ha, val_neg_iff hb] at hs
    by_cases h2 : a.size < 0 <;> by_cases h3 : b.size < 0 <;> simp [h2, h3] at this hs
  have hmm : m' = m := by
    rw [hm', hm]
    unfold order
    by_cases hc : (opd g1 a).size < (opd g2 b).size
    · have hc' : a.size.natAbs < b.size.natAbs := hc
      rw [if_pos hc]
      show b.size.natAbs = _
      omega
    · have hc' : ¬ a.size.natAbs < b.size.natAbs := hc
      rw [if_neg hc]
      show a.size.natAbs = _
      omega
  obtain ⟨k1, k2⟩ := hn hz0
  rw [hmm] at k1 k2
  push_cast at k1 k2
  exact ⟨r, z, e, hz, k1, k2⟩

/-- A number of one and of two words, for examples. -/
def one (s : Int) (w : Nat) : Z := ⟨s, 1, fun _ => w⟩
def two (s : Int) (w0 w1 : Nat) : Z := ⟨2 * s, 2, fun i => if i = 0 then w0 else w1⟩

theorem one_ok {s : Int} {w : Nat} (hs : s = 1 ∨ s = -1) (hw : 0 < w ∧ w < B) : (one s w).Ok := by
  refine ⟨fun i _ => hw.2, fun _ => ?_, ?_⟩
  · show w ≠ 0; omega
  · show s.natAbs ≤ 1; omega

theorem two_ok {s : Int} {w0 w1 : Nat} (hs : s = 1 ∨ s = -1) (h0 : w0 < B) (hw : 0 < w1 ∧ w1 < B) : (two s w0 w1).Ok := by
  refine ⟨fun i _ => ?_, fun _ => ?_, ?_⟩
  · show (if i = 0 then w0 else w1) < B
    split <;> omega
  · show (if (2 * s).natAbs - 1 = 0 then w0 else w1) ≠ 0
    rw [if_neg (by omega)]; omega
  · show (2 * s).natAbs ≤ 2; omega

example : (two (-1) 5 1).Ok ∧ (two (-1) 5 1).val = -(2 ^ 64 + 5) ∧ (one 1 12).Ok ∧ (one 1 12).val = 12 :=
  ⟨two_ok (by decide) (by decide) (by decide), by decide +kernel, one_ok (by decide) (by decide), by decide +kernel⟩

/-- C49 is false for `&` of two negative numbers: `-2^63 & -(2^63+1)` is `0` instead of `-2^64`. -/
theorem C49_refuted_and : ∃ r, and (fun _ => 0) (fun _ => 0) (fun _ => 0) (one (-1) (2 ^ 63)) (one (-1) (2 ^ 63 + 1)) = .ok r ∧
    r.val = 0 ∧ bit (one (-1) (2 ^ 63)).val 64 = true ∧ bit (one (-1) (2 ^ 63 + 1)).val 64 = true ∧ bit r.val 64 = false :=
  ⟨_, rfl, by decide +kernel, by decide +kernel, by decide +kernel, by decide +kernel⟩

/-- C49 is false for `|`: `-(2^128-1) | -(2^128-1)` is `-(2^64-1)`; and `-2^64 | 1` is not in the form that the library
demands: its most significant word is zero. -/
theorem C49_refuted_or :
    (∃ r, or (fun _ => 0) (fun _ => 0) (fun _ => 0) (two (-1) (2 ^ 64 - 1) (2 ^ 64 - 1)) (two (-1) (2 ^ 64 - 1) (2 ^ 64 - 1)) = .ok r ∧
      r.val = -(2 ^ 64 - 1)) ∧
    (∃ r, or (fun _ => 0) (fun _ => 0) (fun _ => 0) (two (-1) 0 1) (one 1 1) = .ok r ∧ r.size = -2 ∧ r.n 1 = 0 ∧ ¬ r.Ok) := by
  refine ⟨⟨_, rfl, by decide +kernel⟩, ⟨_, rfl, by decide +kernel, by decide +kernel, fun h => ?_⟩⟩
  exact absurd (h.top (by decide +kernel)) (by decide +kernel)

/-- C49 is false for `^`: `-1 ^ (2^64-1)` is `0` instead of `-2^64`. -/
theorem C49_refuted_xor : ∃ r, xor (fun _ => 0) (fun _ => 0) (fun _ => 0) (one (-1) 1) (one 1 (2 ^ 64 - 1)) = .ok r ∧
    r.val = 0 ∧ bit (one (-1) 1).val 64 = true ∧ bit (one 1 (2 ^ 64 - 1)).val 64 = false ∧ bit r.val 64 = false :=
  ⟨_, rfl, by decide +kernel, by decide +kernel, by decide +kernel, by decide +kernel⟩

/-- C48: examples for the theorems and the refutations: `-1 >> 1` is `0`, `1 >> 64` reads outside. -/
example : (∃ r, lshift (fun _ => 7) (two (-1) 5 1) 70 = .ok r ∧ r.val = -(2 ^ 64 + 5) * 2 ^ 70) ∧
    (∃ r, rshift (fun _ => 7) (two 1 5 1) 3 = .ok r ∧ r.val = (2 ^ 64 + 5) / 8) ∧
    (∃ r, rshift (fun _ => 7) (one (-1) 1) 1 = .ok r ∧ r.val = 0) ∧ 3 / 64 < (two 1 5 1).size.natAbs ∧
    (one 1 1).size.natAbs ≤ 64 / 64 :=
  ⟨⟨_, rfl, by decide +kernel⟩, ⟨_, rfl, by decide +kernel⟩, ⟨_, rfl, by decide +kernel⟩, by decide, by decide⟩

example : InI64 (-9223372036854775808) ∧ toInt (ofInt (-9223372036854775808)) = .ok (-9223372036854775808) ∧
    toInt (two 1 0 1) = .raise .valueError := ⟨by unfold InI64; omega, by decide +kernel, by decide +kernel⟩

end Verif.Big
