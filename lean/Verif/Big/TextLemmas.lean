import Verif.Big.Text
import Mathlib.Tactic.Ring
import Mathlib.Tactic.Positivity
/-! # Lemmas about decimal texts and the value of digits -/
namespace Verif.Big
open Verif

/-- `w` decimal digits of `n`, with leading zeros. -/
def pad : Nat → Nat → List Nat
  | 0, _ => []
  | w + 1, n => pad w (n / 10) ++ [48 + n % 10]

theorem pad_length (w n : Nat) : (pad w n).length = w := by
  induction w generalizing n with
  | zero => rfl
  | succ w ih => simp [pad, ih]

theorem pad_add (a b n : Nat) : pad (a + b) n = pad a (n / 10 ^ b) ++ pad b (n % 10 ^ b) := by
  induction b generalizing n with
  | zero => simp [pad]
  | succ b ih =>
    rw [← Nat.add_assoc]
    show pad (a + b) (n / 10) ++ [48 + n % 10] = _ ++ (pad b (n % 10 ^ (b + 1) / 10) ++ [48 + n % 10 ^ (b + 1) % 10])
    rw [ih, List.append_assoc]
    have e1 : n / 10 ^ (b + 1) = n / 10 / 10 ^ b := by rw [Nat.pow_succ, Nat.mul_comm, Nat.div_div_eq_div_mul]
    have e2 : n % 10 ^ (b + 1) / 10 = n / 10 % 10 ^ b := by
      rw [Nat.pow_succ, Nat.mul_comm, Nat.mod_mul_right_div_self]
    have e3 : n % 10 ^ (b + 1) % 10 = n % 10 := by
      rw [Nat.pow_succ]; exact Nat.mod_mul_left_mod _ _ _
    rw [e1, e2, e3]

theorem pad_zero (w : Nat) : pad w 0 = List.replicate w 48 := by
  induction w with
  | zero => rfl
  | succ w ih =>
    show pad w (0 / 10) ++ [48] = _
    rw [Nat.zero_div, ih, List.replicate_succ']

theorem dec_lt {n : Nat} (h : n < 10) : dec n = [48 + n] := by rw [dec, if_pos h]
theorem dec_ge {n : Nat} (h : ¬ n < 10) : dec n = dec (n / 10) ++ [48 + n % 10] := by rw [dec, if_neg h]

theorem dec_length_pos (n : Nat) : 0 < (dec n).length := by
  by_cases h : n < 10
  · rw [dec_lt h]; simp
  · rw [dec_ge h]; simp

/-- `dec n` with leading zeros. -/
theorem pad_dec {w n : Nat} (hw : 0 < w) (hn : n < 10 ^ w) :
    (dec n).length ≤ w ∧ pad w n = List.replicate (w - (dec n).length) 48 ++ dec n := by
  induction w generalizing n with
  | zero => omega
  | succ w ih =>
    show _ ∧ pad w (n / 10) ++ [48 + n % 10] = _
    by_cases h : n < 10
    · rw [dec_lt h]
      have e : n / 10 = 0 := by omega
      rw [e, pad_zero]
      simp only [List.length_singleton, Nat.add_sub_cancel]
      refine ⟨by omega, ?_⟩
      rw [Nat.mod_eq_of_lt h]
    · rw [dec_ge h]
      have hw' : 0 < w := by
        rcases Nat.eq_zero_or_pos w with h0 | h0
        · subst h0; omega
        · exact h0
      obtain ⟨h1, h2⟩ := ih (n := n / 10) hw' (by rw [Nat.pow_succ] at hn; omega)
      rw [h2]
      simp only [List.length_append, List.length_singleton]
      refine ⟨by omega, ?_⟩
      rw [List.append_assoc]
      congr 2
      omega

theorem dec_length_gt {w n : Nat} (hn : 10 ^ w ≤ n) : w < (dec n).length := by
  induction w generalizing n with
  | zero => exact dec_length_pos n
  | succ w ih =>
    rw [Nat.pow_succ] at hn
    have : 0 < 10 ^ w := by positivity
    have h : ¬ n < 10 := by omega
    rw [dec_ge h]
    have := ih (n := n / 10) (by omega)
    simp; omega

/-- Splitting a number at a power of ten. -/
theorem dec_split {w n : Nat} (h : 0 < n / 10 ^ w) : dec n = dec (n / 10 ^ w) ++ pad w (n % 10 ^ w) := by
  induction w generalizing n with
  | zero => simp [pad]
  | succ w ih =>
    have e1 : n / 10 ^ (w + 1) = n / 10 / 10 ^ w := by rw [Nat.pow_succ, Nat.mul_comm, Nat.div_div_eq_div_mul]
    have e2 : n % 10 ^ (w + 1) / 10 = n / 10 % 10 ^ w := by
      rw [Nat.pow_succ, Nat.mul_comm, Nat.mod_mul_right_div_self]
    have e3 : n % 10 ^ (w + 1) % 10 = n % 10 := by
      rw [Nat.pow_succ]; exact Nat.mod_mul_left_mod _ _ _
    have h10 : ¬ n < 10 := by
      intro hc
      rw [e1, Nat.div_eq_of_lt hc] at h
      simp at h
    rw [dec_ge h10]
    show _ = _ ++ (pad w (n % 10 ^ (w + 1) / 10) ++ [48 + n % 10 ^ (w + 1) % 10])
    rw [e1] at h ⊢
    rw [e2, e3, ih h, List.append_assoc]

theorem store_append {A X Y : List Nat} {pos : Nat} (buf : List Nat) (hp : pos = A.length) (hx : X.length = buf.length) :
    store (A ++ (X ++ Y)) pos buf = .ok (A ++ (buf ++ Y)) := by
  subst hp
  unfold store
  rw [if_pos (by simp; omega)]
  congr 1
  rw [List.take_left, ← List.drop_drop, List.drop_left, ← hx, List.drop_left, List.append_assoc]

theorem replicate_split {k m : Nat} (h : m ≤ k) : List.replicate k 48 = List.replicate m 48 ++ List.replicate (k - m) 48 := by
  rw [List.replicate_append_replicate]; congr 1; omega

theorem leaf_head {n k : Nat} (A : List Nat) (hn : n < 10 ^ 18) (hk : (dec n).length ≤ k) :
    leaf true n (A ++ List.replicate k 48) A.length
      = .ok (A ++ dec n ++ List.replicate (k - (dec n).length) 48, (A ++ dec n).length) := by
  have := (pad_dec (by omega) hn).1
  unfold leaf
  simp only
  rw [if_neg (by omega), if_pos trivial, replicate_split hk, store_append _ rfl (by simp), Res.ok_bind]
  simp [List.append_assoc]

theorem leaf_tail {n k : Nat} (A : List Nat) (hn : n < 10 ^ 18) (hk : 18 ≤ k) :
    leaf false n (A ++ List.replicate k 48) A.length
      = .ok (A ++ pad 18 n ++ List.replicate (k - 18) 48, (A ++ pad 18 n).length) := by
  obtain ⟨h1, h2⟩ := pad_dec (w := 18) (by omega) hn
  have hl : (A ++ pad 18 n).length = A.length + 18 := by rw [List.length_append, pad_length]
  rw [hl, h2]
  unfold leaf
  simp only
  rw [if_neg (by omega), if_neg (by simp)]
  generalize dec n = D at *
  have hk' : k = (18 - D.length) + (D.length + (k - 18)) := by omega
  have e : A ++ List.replicate k 48 = (A ++ List.replicate (18 - D.length) 48) ++
      (List.replicate D.length 48 ++ List.replicate (k - 18) 48) := by
    rw [List.append_assoc, List.replicate_append_replicate, List.replicate_append_replicate, ← hk']
  have h3 : A.length + 18 - D.length = (A ++ List.replicate (18 - D.length) 48).length := by
    rw [List.length_append, List.length_replicate]; omega
  rw [e, store_append D h3 List.length_replicate, Res.ok_bind]
  simp only [List.append_assoc]
  rfl

/-- The recursion for a part that is not the first: digits with leading zeros. -/
theorem getStr0_tail {d n k : Nat} (A : List Nat) (hn : n < 10 ^ (18 * 2 ^ d)) (hk : 18 * 2 ^ d ≤ k) :
    getStr0 d false n (A ++ List.replicate k 48) A.length
      = .ok (A ++ pad (18 * 2 ^ d) n ++ List.replicate (k - 18 * 2 ^ d) 48, (A ++ pad (18 * 2 ^ d) n).length) := by
  induction d generalizing n k A with
  | zero => exact leaf_tail A hn hk
  | succ d ih =>
    have e2 : 18 * 2 ^ (d + 1) = 18 * 2 ^ d + 18 * 2 ^ d := by rw [Nat.pow_succ]; ring
    rw [e2] at hn hk ⊢
    simp only [getStr0]
    rw [if_neg (by simp)]
    have hp : 0 < 10 ^ (18 * 2 ^ d) := by positivity
    rw [ih A (by rw [Nat.div_lt_iff_lt_mul hp, ← Nat.pow_add]; exact hn) (by omega), Res.ok_bind]
    simp only
    rw [ih _ (Nat.mod_lt _ hp) (by omega), pad_add, Nat.sub_sub]
    simp only [List.append_assoc]

/-- The recursion for the first part. -/
theorem getStr0_head {d n k : Nat} (A : List Nat) (hn : n < 10 ^ (18 * 2 ^ d)) (hk : (dec n).length ≤ k) :
    getStr0 d true n (A ++ List.replicate k 48) A.length
      = .ok (A ++ dec n ++ List.replicate (k - (dec n).length) 48, (A ++ dec n).length) := by
  induction d generalizing n k A with
  | zero => exact leaf_head A hn hk
  | succ d ih =>
    have e2 : 18 * 2 ^ (d + 1) = 18 * 2 ^ d + 18 * 2 ^ d := by rw [Nat.pow_succ]; ring
    rw [e2] at hn
    simp only [getStr0]
    have hp : 0 < 10 ^ (18 * 2 ^ d) := by positivity
    by_cases h0 : n / 10 ^ (18 * 2 ^ d) = 0
    · rw [if_pos ⟨h0, trivial⟩]
      have : n % 10 ^ (18 * 2 ^ d) = n := by
        rw [Nat.mod_eq_of_lt]
        rcases Nat.div_eq_zero_iff.mp h0 with h | h
        · omega
        · exact h
      rw [this]
      exact ih A (by rw [← this]; exact Nat.mod_lt _ hp) hk
    · rw [if_neg (by simp [h0])]
      have hs := dec_split (w := 18 * 2 ^ d) (n := n) (Nat.pos_of_ne_zero h0)
      have hl : (dec n).length = (dec (n / 10 ^ (18 * 2 ^ d))).length + 18 * 2 ^ d := by
        rw [hs, List.length_append, pad_length]
      rw [ih A (by rw [Nat.div_lt_iff_lt_mul hp, ← Nat.pow_add]; exact hn) (by omega), Res.ok_bind]
      simp only
      rw [getStr0_tail _ (Nat.mod_lt _ hp) (by omega), hl, ← Nat.sub_sub, hs]
      simp only [List.append_assoc]

end Verif.Big
