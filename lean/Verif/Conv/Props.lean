import Verif.Conv.Spec
import Verif.Int.Props
import Verif.Big.Props
import Mathlib.Tactic.ByContra
/-! # C57 to C60: conversions and hashing -/
namespace Verif.Conv
open Verif Verif.IntT Verif.Big

theorem wrap_holds {t : Ty} (ht : IsTy1 t) {x : Int} (h : Holds t x) : t.wrap x = x := by
  rcases ht with ht | ht
  · exact (In_iff ht x).2 h
  · subst ht
    simp only [Holds, u1] at h
    simp only [Ty.wrap, u1]
    simp at h ⊢
    omega

theorem small_word {z : Z} (h : z.Ok) (hs : z.size = 1 ∨ z.size = -1) : z.val = z.n 0 * z.size ∧ 0 < z.n 0 ∧ z.n 0 < 2 ^ 64 := by
  have h1 : z.size.natAbs = 1 := by omega
  have hlt := h.lt 0 (by omega)
  have htop := h.top (by omega)
  rw [h1] at htop
  refine ⟨?_, Nat.pos_of_ne_zero htop, hlt⟩
  unfold Z.val
  rw [h1]
  simp only [words]
  rcases hs with hs | hs <;> rw [hs] <;> simp

theorem large_val {z : Z} (h : z.Ok) (hs : 2 ≤ z.size.natAbs) : 2 ^ 64 ≤ z.val.natAbs := by
  have h1 : z.n (z.size.natAbs - 1) ≠ 0 := h.top (by omega)
  have h2 := words_ge h1
  rw [show z.size.natAbs - 1 + 1 = z.size.natAbs by omega] at h2
  have h3 : B ^ 1 ≤ B ^ (z.size.natAbs - 1) := Nat.pow_le_pow_right (by unfold B; decide) (by omega)
  have h4 : (2 : Nat) ^ 64 ≤ words z.n z.size.natAbs := by
    have : B ^ 1 = 2 ^ 64 := by unfold B; decide
    omega
  unfold Z.val
  split
  · simpa using h4
  · simpa using h4

/-- The types whose constructor tests their own range. -/
def Exact (t : Ty) : Prop := t ∈ [i32, i64, u8, u16, u32, u64, u1]

instance (t : Ty) : Decidable (Exact t) := by unfold Exact; infer_instance

theorem exact_ty {t : Ty} (h : Exact t) : IsTy1 t := by
  unfold Exact at h
  simp only [List.mem_cons, List.not_mem_nil, or_false] at h
  rcases h with h | h | h | h | h | h | h <;> subst h <;> first | (left; decide) | (right; rfl)

theorem size_of {t : Ty} {z : Z} (hz : z.size.natAbs < 2 ^ 31) : sizeIn t z = z.size := by
  unfold sizeIn
  split
  · rfl
  · exact wrap32_of_in (by unfold InI32; omega)

/-- C57: the constructors of `int`, `i32` and the unsigned types yield the value of a bigint if the type can hold it, and
raise ValueError otherwise. Bigints of `2^31` words or more are excepted, see `C57_refuted_size`. -/
theorem C57_new {t : Ty} (ht : Exact t) {z : Z} (h : z.Ok) (hz : z.size.natAbs < 2 ^ 31) :
    new t z = if Holds t z.val then .ok z.val else .raise .valueError := by
  have hw := fun (hh : Holds t z.val) => wrap_holds (exact_ty ht) hh
  unfold new
  rw [size_of hz]
  by_cases h0 : z.size = 0
  · have hv := (val_zero_iff h).mpr h0
    have hh : Holds t z.val := by
      rw [hv]
      unfold Exact at ht
      simp only [List.mem_cons, List.not_mem_nil, or_false] at ht
      rcases ht with ht | ht | ht | ht | ht | ht | ht <;> subst ht <;> decide
    rw [if_pos hh, if_neg]
    · have := hw hh
      rw [hv] at this
      rw [h0, hv]; simp [this]
    · rw [h0]; unfold badSigned badUnsigned; split <;> simp
  · by_cases h1 : z.size = 1 ∨ z.size = -1
    · obtain ⟨hv, hp, hl⟩ := small_word h h1
      have key : (if t.signed then badSigned t z.size (z.n 0) else badUnsigned t z.size (z.n 0)) = true ↔ ¬ Holds t z.val := by
        rw [hv]
        generalize z.n 0 = k at hp hl ⊢
        unfold Exact at ht
        simp only [List.mem_cons, List.not_mem_nil, or_false] at ht
        rcases ht with ht | ht | ht | ht | ht | ht | ht <;> subst ht <;> rcases h1 with h1 | h1 <;> rw [h1] <;>
          simp [badSigned, badUnsigned, Holds, i32, i64, u8, u16, u32, u64, u1, limit] <;> omega
      by_cases hh : Holds t z.val
      · rw [if_pos hh, if_neg (fun hc => key.1 hc hh), ← hv, hw hh]
      · rw [if_neg hh, if_pos (key.2 hh)]
    · have hbig := large_val h (by omega)
      have hh : ¬ Holds t z.val := by
        intro hh
        unfold Exact at ht
        simp only [List.mem_cons, List.not_mem_nil, or_false] at ht
        rcases ht with ht | ht | ht | ht | ht | ht | ht <;> subst ht <;>
          simp [Holds, i32, i64, u8, u16, u32, u64, u1] at hh <;> omega
      rw [if_neg hh, if_pos]
      unfold badSigned badUnsigned
      split <;> simp <;> omega

/-- C57 for `i8` and `i16`, where it holds. Missing: values that fit in 32 bits only, see `C57_refuted_small`. -/
theorem C57_new_small_partial {t : Ty} (ht : t = i8 ∨ t = i16) {z : Z} (h : z.Ok) :
    (Holds t z.val → new t z = .ok z.val) ∧ (¬ Holds i32 z.val → new t z = .raise .valueError) := by
  have hsz : sizeIn t z = z.size := by
    unfold sizeIn
    rw [if_pos]
    rcases ht with ht | ht <;> subst ht <;> decide
  have hty : IsTy1 t := by rcases ht with ht | ht <;> subst ht <;> (left; decide)
  have hsg : t.signed = true := by rcases ht with ht | ht <;> subst ht <;> rfl
  have hlim : limit t = 0x7fffffff := by rcases ht with ht | ht <;> subst ht <;> rfl
  have hsub : Holds t z.val → Holds i32 z.val := by
    rcases ht with ht | ht <;> subst ht <;> simp [Holds, i8, i16, i32] <;> omega
  unfold new
  rw [hsz, hsg]
  simp only [if_true]
  by_cases h0 : z.size = 0
  · have hv := (val_zero_iff h).mpr h0
    constructor
    · intro hh
      rw [if_neg (by rw [h0]; simp [badSigned])]
      have := wrap_holds hty hh
      rw [hv] at this
      rw [h0, hv]; simp [this]
    · intro hh
      rw [hv] at hh
      exact absurd (by decide) hh
  · by_cases h1 : z.size = 1 ∨ z.size = -1
    · obtain ⟨hv, hp, hl⟩ := small_word h h1
      have key : badSigned t z.size (z.n 0) = true ↔ ¬ Holds i32 z.val := by
        rw [hv]
        unfold badSigned
        rw [hlim]
        generalize z.n 0 = k at hp hl ⊢
        rcases h1 with h1 | h1 <;> rw [h1] <;> simp [Holds, i32] <;> omega
      constructor
      · intro hh
        rw [if_neg (fun hc => key.1 hc (hsub hh)), ← hv, wrap_holds hty hh]
      · intro hh
        rw [if_pos (key.2 hh)]
    · have hbig := large_val h (by omega)
      constructor
      · intro hh
        have := hsub hh
        simp [Holds, i32] at this
        omega
      · intro _
        rw [if_pos]
        unfold badSigned
        simp
        omega

/-- C57 is false for `i8` and `i16`: a value that the type cannot hold, but `i32` can, is cut without notice. -/
theorem C57_refuted_small {t : Ty} (ht : t = i8 ∨ t = i16) {z : Z} (h : z.Ok) (hv : Holds i32 z.val) (hn : ¬ Holds t z.val) :
    ∃ y, new t z = .ok y ∧ Holds t y ∧ y ≠ z.val := by
  have hsz : sizeIn t z = z.size := by
    unfold sizeIn
    rw [if_pos]
    rcases ht with ht | ht <;> subst ht <;> decide
  have hsg : t.signed = true := by rcases ht with ht | ht <;> subst ht <;> rfl
  have hlim : limit t = 0x7fffffff := by rcases ht with ht | ht <;> subst ht <;> rfl
  have hh : Holds t (t.wrap z.val) := by
    have : IsTy t := by rcases ht with ht | ht <;> subst ht <;> decide
    exact (wrap_isWrap this z.val).2
  refine ⟨t.wrap z.val, ?_, hh, fun e => hn (by rw [← e]; exact hh)⟩
  have h0 : z.size ≠ 0 := by
    intro h0
    rw [(val_zero_iff h).mpr h0] at hn
    rcases ht with ht | ht <;> subst ht <;> exact hn (by decide)
  have h1 : z.size = 1 ∨ z.size = -1 := by
    by_contra hc
    have := large_val h (by omega)
    simp [Holds, i32] at hv
    omega
  obtain ⟨hvz, hp, hl⟩ := small_word h h1
  unfold new
  rw [hsz, hsg, ← hvz]
  simp only [if_true]
  rw [if_neg]
  rw [hvz] at hv
  unfold badSigned
  rw [hlim]
  revert hv
  generalize z.n 0 = k at hp hl ⊢
  rcases h1 with h1 | h1 <;> rw [h1] <;> simp [Holds, i32] <;> omega

/-- E.g. `i8(200)` is -56 and `i16(100000)` is -31072. -/
theorem C57_refuted_small_examples : new i8 (ofInt 200) = .ok (-56) ∧ new i16 (ofInt 100000) = .ok (-31072) := by decide +kernel

/-- C57 is false for bigints whose number of words is a multiple of `2^32`: `int()` yields 0. -/
theorem C57_refuted_size : ∃ z : Z, z.Ok ∧ z.val ≠ 0 ∧ new i64 z = .ok 0 := by
  refine ⟨⟨2 ^ 32, 2 ^ 32, fun _ => 1⟩, ?_⟩
  have hok : (⟨2 ^ 32, 2 ^ 32, fun _ => 1⟩ : Z).Ok := ⟨fun _ _ => (by simp [B]), fun _ => (by simp), (by simp)⟩
  refine ⟨hok, fun hc => ?_, ?_⟩
  · have := (val_zero_iff hok).mp hc
    revert this; decide
  · simp [new, sizeIn, wrap32, badSigned, limit, i64, Ty.wrap]

/-- C57: a number of any of the types becomes a bigint with the same value. -/
theorem C57_big {t : Ty} (ht : IsTy1 t) {x : Int} (hx : Holds t x) : (bigOf t x).Ok ∧ (bigOf t x).val = x := by
  unfold bigOf
  cases hs : t.signed with
  | true =>
    simp only [if_true]
    apply C51_ofInt
    unfold InI64
    rcases ht with ht | ht
    · unfold IsTy at ht
      simp only [List.mem_cons, List.not_mem_nil, or_false] at ht
      rcases ht with ht | ht | ht | ht | ht | ht | ht | ht <;> subst ht <;>
        simp [Holds, i8, i16, i32, i64, u8, u16, u32, u64] at hx hs <;> omega
    · subst ht; cases hs
  | false =>
    simp only [Bool.false_eq_true, if_false]
    by_cases h0 : x = 0
    · rw [if_pos h0, h0]
      exact C51_ofInt (by unfold InI64; omega)
    · rw [if_neg h0]
      have hb : 0 ≤ x ∧ x < 2 ^ 64 := by
        rcases ht with ht | ht
        · unfold IsTy at ht
          simp only [List.mem_cons, List.not_mem_nil, or_false] at ht
          rcases ht with ht | ht | ht | ht | ht | ht | ht | ht <;> subst ht <;>
            simp [Holds, i8, i16, i32, i64, u8, u16, u32, u64] at hx hs <;> omega
        · subst ht; simp [Holds, u1] at hx; omega
      refine ⟨⟨fun _ _ => ?_, fun _ => ?_, (by simp)⟩, ?_⟩
      · show x.toNat < B
        unfold B; omega
      · show x.toNat ≠ 0
        omega
      · simp [Z.val, words]; omega

/-- C57: the conversion of a number of one type to another keeps the value if this can hold it and raises ValueError
otherwise. -/
theorem C57_convert {s t : Ty} (hs : IsTy1 s) (ht : Exact t) {x : Int} (hx : Holds s x) :
    new t (bigOf s x) = if Holds t x then .ok x else .raise .valueError := by
  obtain ⟨h1, h2⟩ := C57_big hs hx
  have h3 : (bigOf s x).size.natAbs ≤ 1 := by
    by_contra hc
    have := large_val h1 (by omega)
    rw [h2] at this
    rcases hs with hs | hs
    · unfold IsTy at hs
      simp only [List.mem_cons, List.not_mem_nil, or_false] at hs
      rcases hs with hs | hs | hs | hs | hs | hs | hs | hs <;> subst hs <;>
        simp [Holds, i8, i16, i32, i64, u8, u16, u32, u64] at hx <;> omega
    · subst hs; simp [Holds, u1] at hx; omega
  rw [C57_new ht h1 (by omega), h2]

example : new u8 (bigOf i32 255) = .ok 255 ∧ new u8 (bigOf i32 256) = .raise .valueError ∧ new i32 (bigOf i64 (-2 ^ 31)) = .ok (-2 ^ 31) := by
  decide +kernel

/-! ### C58 -/

theorem bitlen_spec {n : Nat} (h : n ≠ 0) : 2 ^ (bitlen n - 1) ≤ n ∧ n < 2 ^ bitlen n ∧ 1 ≤ bitlen n := by
  unfold bitlen
  rw [if_neg h]
  exact ⟨Nat.log2_self_le h, Nat.lt_log2_self, by omega⟩

theorem bitlen_le {n k : Nat} (h : n < 2 ^ k) : bitlen n ≤ k := by
  by_cases h0 : n = 0
  · simp [bitlen, h0]
  · by_contra hc
    have h1 := (bitlen_spec h0).1
    have : 2 ^ k ≤ 2 ^ (bitlen n - 1) := Nat.pow_le_pow_right (by decide) (by omega)
    omega

theorem toLong_trunc (m x : Int) : IsTrunc m x (toLong m x) := by
  unfold IsTrunc toLong
  by_cases h : 0 ≤ x
  · simp [h]
  · simp only [h, if_false]
    generalize (-x).toNat = k
    have hk : (0 : Int) < 2 ^ k := Int.pow_pos (by decide)
    have hn : (m.tdiv (2 ^ k)).natAbs = m.natAbs / 2 ^ k := by
      rw [Int.natAbs_tdiv]
      congr 1
    refine ⟨?_, ?_, ?_⟩
    · rcases Int.le_total 0 m with hm | hm
      · exact Int.mul_nonneg (Int.tdiv_nonneg hm (Int.le_of_lt hk)) hm
      · have : m.tdiv (2 ^ k) = -((-m).tdiv (2 ^ k)) := by rw [Int.neg_tdiv, Int.neg_neg]
        rw [this]
        have h2 := Int.mul_nonneg (Int.tdiv_nonneg (show 0 ≤ -m by omega) (Int.le_of_lt hk)) (show 0 ≤ -m by omega)
        rw [Int.mul_neg] at h2
        rw [Int.neg_mul]; exact h2
    · rw [hn]; exact Nat.div_mul_le_self _ _
    · rw [hn]
      have := Nat.lt_div_mul_add (a := m.natAbs) (b := 2 ^ k) (Nat.pow_pos (by decide))
      rw [Nat.add_mul]; omega

theorem toLong_in {m x : Int} (h : frexpE m x ≤ 52) : InI64 (toLong m x) := by
  unfold InI64
  by_cases h0 : m = 0
  · subst h0
    have : toLong 0 x = 0 := by unfold toLong; split <;> simp
    rw [this]; omega
  unfold frexpE at h
  rw [if_neg h0] at h
  have hb := (bitlen_spec (n := m.natAbs) (by omega)).2.1
  have ht := toLong_trunc m x
  have : (toLong m x).natAbs < 2 ^ 52 := by
    unfold IsTrunc at ht
    by_cases hx : 0 ≤ x
    · rw [if_pos hx] at ht
      rw [ht, Int.natAbs_mul]
      have e1 : ((2 : Int) ^ x.toNat).natAbs = 2 ^ x.toNat := by simp [Int.natAbs_pow]
      rw [e1]
      have : m.natAbs * 2 ^ x.toNat < 2 ^ bitlen m.natAbs * 2 ^ x.toNat :=
        Nat.mul_lt_mul_of_pos_right hb (Nat.pow_pos (by decide))
      rw [← Nat.pow_add] at this
      have h2 : 2 ^ (bitlen m.natAbs + x.toNat) ≤ 2 ^ 52 := Nat.pow_le_pow_right (by decide) (by omega)
      omega
    · rw [if_neg hx] at ht
      obtain ⟨_, h1, _⟩ := ht
      by_contra hc
      have h2 : 2 ^ 52 * 2 ^ (-x).toNat ≤ (toLong m x).natAbs * 2 ^ (-x).toNat := Nat.mul_le_mul_right _ (by omega)
      rw [← Nat.pow_add] at h2
      have h3 : 2 ^ bitlen m.natAbs ≤ 2 ^ (52 + (-x).toNat) := Nat.pow_le_pow_right (by decide) (by omega)
      omega
  omega

/-- The doubles that are converted wrongly: 53 digits, the last one set, before the point. -/
def Odd53 (m x : Int) : Prop := 2 ^ 52 ≤ m.natAbs ∧ m % 2 = 1 ∧ 0 ≤ x

theorem bigOfFloat_large (g : Nat → Nat) {m x : Int} (he : frexpE m x > 52) :
    ∃ r, bigOfFloat g (.fin m x) = .ok r ∧ r.Ok ∧
      r.val = toLong m (52 - bitlen m.natAbs) * 2 ^ (frexpE m x - 52).toNat := by
  have hin : InI64 (toLong m (52 - bitlen m.natAbs)) := by
    apply toLong_in
    unfold frexpE
    split <;> omega
  obtain ⟨h1, h2⟩ := C51_ofInt hin
  obtain ⟨r, e, h3, h4⟩ := C48_lshift g h1 (b := (frexpE m x - 52).toNat)
  refine ⟨r, ?_, h3, by rw [h4, h2]⟩
  show (if frexpE m x > 52 then _ else _) = _
  rw [if_pos he]
  rw [show frexpE m x - 52 = ((frexpE m x - 52).toNat : Int) by omega]
  exact e

/-- C58, where it holds: a double becomes the integer without its fraction. Missing: doubles with 53 significant digits
before the point the last of which is set, see `C58_refuted_odd`; infinities and NaN, see `C58_refuted_inf`. -/
theorem C58_float_partial (g : Nat → Nat) {m x : Int} (hm : m.natAbs < 2 ^ 53) (h : ¬ Odd53 m x) :
    ∃ r, bigOfFloat g (.fin m x) = .ok r ∧ r.Ok ∧ IsTrunc m x r.val := by
  by_cases he : frexpE m x > 52
  · obtain ⟨r, e, h1, h2⟩ := bigOfFloat_large g he
    refine ⟨r, e, h1, ?_⟩
    have h0 : m ≠ 0 := by intro h0; subst h0; simp [frexpE] at he
    have hb := bitlen_spec (n := m.natAbs) (by omega)
    have hl := bitlen_le hm
    have hE : frexpE m x = bitlen m.natAbs + x := by unfold frexpE; rw [if_neg h0]
    rw [hE] at he h2
    have hx : 0 ≤ x := by omega
    unfold IsTrunc
    rw [if_pos hx, h2]
    by_cases h53 : bitlen m.natAbs = 53
    · rw [h53] at h2 ⊢
      have hodd : ¬ m % 2 = 1 := by
        intro ho
        have h3 := hb.1
        rw [h53] at h3
        exact h ⟨h3, ho, hx⟩
      have h4 : toLong m (52 - ((53 : Nat) : Int)) = m.tdiv 2 := by
        unfold toLong
        rw [if_neg (by omega)]
        simp
      rw [h4]
      have h5 : m = 2 * m.tdiv 2 := by
        have := Int.mul_tdiv_add_tmod m 2
        have h6 : m.tmod 2 = 0 := by
          have hd : (2 : Int) ∣ m := by omega
          exact Int.tmod_eq_zero_of_dvd hd
        omega
      have h6 : (((53 : Nat) : Int) + x - 52).toNat = x.toNat + 1 := by omega
      rw [h6, Int.pow_succ, Int.mul_comm (2 ^ x.toNat) 2, ← Int.mul_assoc, Int.mul_comm (m.tdiv 2) 2, ← h5]
    · have h4 : toLong m (52 - (bitlen m.natAbs : Int)) = m * 2 ^ (52 - bitlen m.natAbs) := by
        unfold toLong
        rw [if_pos (by omega)]
        congr 2
        omega
      rw [h4, Int.mul_assoc, ← Int.pow_add]
      congr 2
      omega
  · refine ⟨ofInt (toLong m x), ?_, ?_⟩
    · show (if frexpE m x > 52 then _ else _) = _
      rw [if_neg he]
    · obtain ⟨h1, h2⟩ := C51_ofInt (toLong_in (m := m) (x := x) (by omega))
      rw [h2]
      exact ⟨h1, toLong_trunc m x⟩

/-- C58 is false for the other doubles with a fraction of 53 digits: the result is smaller (in absolute value). -/
theorem C58_refuted_odd (g : Nat → Nat) {m x : Int} (hm : m.natAbs < 2 ^ 53) (h : Odd53 m x) :
    ∃ r, bigOfFloat g (.fin m x) = .ok r ∧ ¬ IsTrunc m x r.val := by
  obtain ⟨h1, h2, hx⟩ := h
  have h53 : bitlen m.natAbs = 53 := by
    have h3 := bitlen_le hm
    have h4 := (bitlen_spec (n := m.natAbs) (by omega)).2.1
    by_contra hc
    have : 2 ^ bitlen m.natAbs ≤ 2 ^ 52 := Nat.pow_le_pow_right (by decide) (by omega)
    omega
  have h0 : m ≠ 0 := by omega
  have hE : frexpE m x = 53 + x := by unfold frexpE; rw [if_neg h0, h53]; rfl
  obtain ⟨r, e, _, h5⟩ := bigOfFloat_large g (m := m) (x := x) (by omega)
  refine ⟨r, e, fun hc => ?_⟩
  unfold IsTrunc at hc
  rw [if_pos hx, h5, hE, h53] at hc
  have h6 : (53 + x - 52).toNat = x.toNat + 1 := by omega
  have h4 : toLong m (52 - ((53 : Nat) : Int)) = m.tdiv 2 := by
    unfold toLong
    rw [if_neg (by omega)]
    simp
  rw [h6, h4, Int.pow_succ, Int.mul_comm (2 ^ x.toNat) 2, ← Int.mul_assoc] at hc
  have hp : (2 : Int) ^ x.toNat ≠ 0 := Int.ne_of_gt (Int.pow_pos (by decide))
  have := Int.eq_of_mul_eq_mul_right hp hc
  omega

/-- E.g. `int(4503599627370497.0)` is 4503599627370496. -/
theorem C58_refuted_example :
    (match bigOfFloat (fun _ => 0) (.fin 4503599627370497 0) with | .ok r => r.val | _ => 0) = 4503599627370496 := by
  decide +kernel

/-- C58 is false for infinities and NaN: there is no exception, the conversion is undefined. -/
theorem C58_refuted_inf (g : Nat → Nat) : bigOfFloat g .inf = .ub ∧ bigOfFloat g .nan = .ub := ⟨rfl, rfl⟩

example : ¬ Odd53 (-7) (-1) ∧ IsTrunc (-7) (-1) (-3) ∧ ¬ IsTrunc (-7) (-1) (-4) ∧ Odd53 4503599627370497 0 := by
  refine ⟨?_, ?_, ?_, ?_⟩ <;> simp [Odd53, IsTrunc]

/-! ### C59 -/

theorem rndNat_cases {n : Nat} (h : 53 < bitlen n) :
    ∃ k q r, 0 < k ∧ n = q * 2 ^ k + r ∧ r < 2 ^ k ∧ 2 ^ 52 ≤ q ∧ q < 2 ^ 53 ∧
      ((rndNat n = q * 2 ^ k ∧ 2 * r ≤ 2 ^ k) ∨ (rndNat n = (q + 1) * 2 ^ k ∧ 2 ^ k ≤ 2 * r)) := by
  have h0 : n ≠ 0 := by intro h0; simp [bitlen, h0] at h
  obtain ⟨h1, h2, _⟩ := bitlen_spec h0
  obtain ⟨k, hk⟩ : ∃ k, bitlen n = 53 + k := ⟨bitlen n - 53, by omega⟩
  rw [hk] at h1 h2
  have hp : 0 < 2 ^ k := Nat.pow_pos (by decide)
  refine ⟨k, n / 2 ^ k, n % 2 ^ k, by omega, ?_, Nat.mod_lt _ hp, ?_, ?_, ?_⟩
  · rw [Nat.mul_comm]; exact (Nat.div_add_mod n _).symm
  · rw [Nat.le_div_iff_mul_le hp, ← Nat.pow_add]
    rw [show 52 + k = 53 + k - 1 by omega]; exact h1
  · rw [Nat.div_lt_iff_lt_mul hp, ← Nat.pow_add]; exact h2
  · unfold rndNat
    rw [if_neg (by omega)]
    have e : bitlen n - 53 = k := by omega
    rw [e]
    show ((if 2 * (n % 2 ^ k) > 2 ^ k ∨ (2 * (n % 2 ^ k) = 2 ^ k ∧ n / 2 ^ k % 2 = 1) then _ else _) = _ ∧ _) ∨ _
    by_cases hc : 2 * (n % 2 ^ k) > 2 ^ k ∨ (2 * (n % 2 ^ k) = 2 ^ k ∧ n / 2 ^ k % 2 = 1)
    · rw [if_pos hc]; right; exact ⟨rfl, by omega⟩
    · rw [if_neg hc]; left; exact ⟨rfl, by omega⟩

theorem rndNat_nearest (n : Nat) : IsNearestDouble n (rndNat n) := by
  by_cases h : bitlen n ≤ 53
  · have e : rndNat n = n := by unfold rndNat; rw [if_pos h]
    rw [e]
    refine ⟨⟨n, 0, ?_, by simp⟩, fun y _ => by omega⟩
    by_cases h0 : n = 0
    · subst h0; decide
    · have h2 := (bitlen_spec h0).2.1
      have : 2 ^ bitlen n ≤ 2 ^ 53 := Nat.pow_le_pow_right (by decide) h
      show (n : Int).natAbs ≤ _
      omega
  · obtain ⟨k, q, r, hk, hn, hr, hq1, hq2, hc⟩ := rndNat_cases (n := n) (by omega)
    constructor
    · rcases hc with ⟨hc, _⟩ | ⟨hc, _⟩ <;> rw [hc]
      · exact ⟨q, k, by omega, by push_cast; rfl⟩
      · exact ⟨(q + 1 : Nat), k, by omega, by push_cast; rfl⟩
    · rintro y ⟨m, j, hm, hy⟩
      have hd : (((n : Int) - rndNat n).natAbs ≤ r) ∧ (((n : Int) - rndNat n).natAbs ≤ 2 ^ k - r) := by
        rcases hc with ⟨hc, h2⟩ | ⟨hc, h2⟩
        · rw [hc]
          generalize q * 2 ^ k = a at hn
          generalize 2 ^ k = b at hr h2 ⊢
          omega
        · have : (q + 1) * 2 ^ k = q * 2 ^ k + 2 ^ k := Nat.succ_mul _ _
          rw [hc, this]
          generalize q * 2 ^ k = a at hn
          generalize 2 ^ k = b at hr h2 ⊢
          omega
      by_cases hj : j < k
      · have h1 : y.natAbs ≤ q * 2 ^ k := by
          rw [hy, Int.natAbs_mul, Int.natAbs_pow]
          calc m.natAbs * (2 : Int).natAbs ^ j ≤ 2 ^ 53 * 2 ^ (k - 1) :=
                Nat.mul_le_mul hm (Nat.pow_le_pow_right (by decide) (by omega))
            _ = 2 ^ 52 * 2 ^ k := by
                rw [← Nat.pow_add, ← Nat.pow_add]; congr 1; omega
            _ ≤ q * 2 ^ k := Nat.mul_le_mul_right _ hq1
        generalize q * 2 ^ k = a at hn h1
        omega
      · obtain ⟨i, hi⟩ : ∃ i, j = i + k := ⟨j - k, by omega⟩
        have hy2 : y = (m * 2 ^ i) * 2 ^ k := by rw [hy, hi, Int.pow_add, Int.mul_assoc]
        generalize m * 2 ^ i = p at hy2
        have hpos : (0 : Int) < 2 ^ k := Int.pow_pos (by decide)
        have hcast : ((2 ^ k : Nat) : Int) = 2 ^ k := by push_cast; rfl
        by_cases hp : p ≤ q
        · have h1 : y ≤ (q * 2 ^ k : Nat) := by
            rw [hy2]; push_cast
            exact Int.mul_le_mul_of_nonneg_right hp (Int.le_of_lt hpos)
          generalize q * 2 ^ k = a at hn h1
          omega
        · have h1 : ((q * 2 ^ k + 2 ^ k : Nat) : Int) ≤ y := by
            rw [hy2, ← Nat.succ_mul]; push_cast
            exact Int.mul_le_mul_of_nonneg_right (by omega) (Int.le_of_lt hpos)
          generalize q * 2 ^ k = a at hn h1
          generalize 2 ^ k = b at *
          omega

theorem isDouble_neg {r : Int} (h : IsDouble r) : IsDouble (-r) := by
  obtain ⟨m, k, h1, h2⟩ := h
  exact ⟨-m, k, by omega, by rw [h2, Int.neg_mul]⟩

theorem rnd_nearest (x : Int) : IsNearestDouble x (rnd x) := by
  have h := rndNat_nearest x.natAbs
  unfold rnd
  by_cases hx : x < 0
  · rw [if_pos hx]
    refine ⟨isDouble_neg h.1, fun y hy => ?_⟩
    have := h.2 (-y) (isDouble_neg hy)
    omega
  · rw [if_neg hx]
    refine ⟨h.1, fun y hy => ?_⟩
    have := h.2 y hy
    omega

theorem rnd_small {x : Int} (h : x.natAbs ≤ 2 ^ 53) : rnd x = x := by
  have := (rnd_nearest x).2 x ⟨x, 0, h, by simp⟩
  omega

/-- C59, where it holds: a number becomes the nearest double. Missing: `i8` and `i16`, see `C59_refuted_small`. -/
theorem C59_float_partial {t : Ty} (h8 : t ≠ i8) (h16 : t ≠ i16) (x : Int) : IsNearestDouble x (floatOf t x) := by
  unfold floatOf
  rw [if_neg h16, if_neg h8]
  exact rnd_nearest x

/-- C59 is false for `i16` and `i8`, which are confused: the former is cut to 8 bits, the latter is never negative. -/
theorem C59_refuted_small {x : Int} :
    (Holds i16 x → (floatOf i16 x = x ↔ Holds i8 x)) ∧ (Holds i8 x → (floatOf i8 x = x ↔ 0 ≤ x)) := by
  constructor
  · intro h
    have e : floatOf i16 x = i8.wrap x := by
      unfold floatOf
      rw [if_pos rfl]
      apply rnd_small
      have := (wrap_isWrap (t := i8) (by decide) x).2
      simp [Holds, i8] at this
      simp only [i8]
      omega
    rw [e]
    constructor
    · intro h1
      have := (wrap_isWrap (t := i8) (by decide) x).2
      rw [h1] at this; exact this
    · intro h1
      exact wrap_holds (Or.inl (by decide)) h1
  · intro h
    have e : floatOf i8 x = x % 256 := by
      unfold floatOf
      rw [if_neg (by decide), if_pos rfl]
      rw [wrap_holds (t := i16) (Or.inl (by decide)) (by simp [Holds, i16]; omega)]
      exact rnd_small (by omega)
    rw [e]
    simp [Holds, i8] at h
    omega

/-- C59 for bigints: at most one word, or more than 16. -/
theorem C59_big_partial {z : Z} (h : z.Ok) :
    (z.size.natAbs ≤ 1 → ∃ r, floatOfBig z = .ok r ∧ IsNearestDouble z.val r) ∧
    (z.size.natAbs > 16 → floatOfBig z = .raise .valueError ∧ 2 ^ 1024 ≤ z.val.natAbs) := by
  constructor
  · intro h1
    by_cases h0 : z.size = 0
    · refine ⟨0, by unfold floatOfBig; rw [if_pos h0], ?_⟩
      rw [(val_zero_iff h).mpr h0]
      exact rnd_nearest 0
    · refine ⟨rnd z.val, ?_, rnd_nearest _⟩
      have h2 : z.size.natAbs = 1 := by omega
      obtain ⟨hv, hp, hl⟩ := small_word h (by omega)
      have hL : floatLoop z.n 1 0 0 = rndNat (z.n 0) := by
        simp only [floatLoop, Nat.mul_zero, Nat.pow_zero, Nat.mul_one, Nat.zero_add]
        have h3 := (rndNat_nearest (rndNat (z.n 0))).2 (rndNat (z.n 0)) (rndNat_nearest (z.n 0)).1
        omega
      unfold floatOfBig rnd
      rw [if_neg h0, if_neg (by omega), h2, hL, hv]
      by_cases hn : z.size < 0
      · have : z.size = -1 := by omega
        rw [if_pos hn, this, if_pos (by omega)]
        simp
      · have : z.size = 1 := by omega
        rw [if_neg hn, this, if_neg (by omega)]
        simp
  · intro h1
    have h2 : z.n (z.size.natAbs - 1) ≠ 0 := h.top (by omega)
    have h3 := words_ge h2
    rw [show z.size.natAbs - 1 + 1 = z.size.natAbs by omega] at h3
    have h4 : B ^ 16 ≤ B ^ (z.size.natAbs - 1) := Nat.pow_le_pow_right (by unfold B; decide) (by omega)
    have h5 : (2 : Nat) ^ 1024 ≤ words z.n z.size.natAbs := by
      have : B ^ 16 = 2 ^ 1024 := B_pow 16
      omega
    refine ⟨?_, ?_⟩
    · unfold floatOfBig
      rw [if_neg (by omega), if_pos h1]
    · unfold Z.val
      split
      · simpa using h5
      · simpa using h5

/-- C59 is false for bigints of several words, whose words are rounded one by one. -/
theorem C59_refuted_words : ∃ z : Z, z.Ok ∧ ∃ r, floatOfBig z = .ok r ∧ ¬ IsNearestDouble z.val r := by
  refine ⟨⟨2, 2, fun i => if i = 1 then 2 ^ 53 + 1 else 1⟩, ⟨fun i _ => ?_, fun _ => ?_, ?_⟩, 2 ^ 53 * 2 ^ 64, ?_, ?_⟩
  · show (if i = 1 then 2 ^ 53 + 1 else 1) < B
    unfold B; split <;> omega
  · simp
  · simp
  · decide +kernel
  · intro h
    have := h.2 ((2 ^ 53 + 2) * 2 ^ 64) ⟨2 ^ 52 + 1, 65, by decide, by decide⟩
    revert this
    decide +kernel

example : floatOf u64 (2 ^ 64 - 1) = 2 ^ 64 ∧ floatOf i64 (2 ^ 53 + 1) = 2 ^ 53 ∧ floatOf i16 300 = 44 ∧ floatOf i8 (-1) = 255 := by
  decide +kernel

/-! ### C60 -/

theorem low_word {z : Z} (h : z.Ok) : (if z.size = 0 then 0 else z.n 0) = z.val.natAbs % B := by
  by_cases h0 : z.size = 0
  · rw [if_pos h0, (val_zero_iff h).mpr h0]; rfl
  · rw [if_neg h0]
    have h1 : z.val.natAbs = words z.n z.size.natAbs := by
      unfold Z.val; split <;> simp
    have h2 := words_add z.n 1 (z.size.natAbs - 1)
    rw [show 1 + (z.size.natAbs - 1) = z.size.natAbs by omega] at h2
    rw [h1, h2, Nat.pow_one, Nat.add_mul_mod_self_right]
    simp only [words, Nat.pow_zero, Nat.mul_one, Nat.zero_add]
    exact (Nat.mod_eq_of_lt (h.lt 0 (by omega))).symm

/-- C60, where it holds: equal values feed the same bytes to the hasher, so they have the same hash. Missing: values with
numbers of small signed types, floats and complex numbers, see the refutations. -/
theorem C60_hash_partial (H : List Nat → Nat) {a b : Obj} (h : Equal a b) (hp : plain a = true) : fed H a = fed H b := by
  induction h with
  | num t p q x =>
    simp only [fed]
    rw [if_neg]
    · rw [if_neg]
      revert hp; simp [plain]; intro h1 h2; rcases h1 with h1 | h1
      · rw [h1] at h2; cases h2
      · exact h1
    · revert hp; simp [plain]; intro h1 h2; rcases h1 with h1 | h1
      · rw [h1] at h2; cases h2
      · exact h1
  | bool b => rfl
  | big y z hy hz e =>
    simp only [fed]
    rw [low_word hy, low_word hz, e]
  | float p q a b _ => cases hp
  | complex a b c d _ _ => cases hp
  | str s t e => simp only [fed]; exact e
  | bytes s => rfl
  | nil => rfl
  | cons a b r s _ _ ih1 ih2 =>
    simp only [plain, Bool.and_eq_true] at hp
    simp only [fed, ih1 hp.1, ih2 hp.2]

/-- C60 is false for `i8`, `i16` and `i32`: the address of the box is hashed. -/
theorem C60_refuted_small (H : List Nat → Nat) {t : Ty} (ht : t = i8 ∨ t = i16 ∨ t = i32) (x : Int) :
    ∃ p q, Equal (.num t p x) (.num t q x) ∧ fed H (.num t p x) ≠ fed H (.num t q x) := by
  refine ⟨0x1000, 0x2000, .num _ _ _ _, ?_⟩
  rcases ht with ht | ht | ht <;> subst ht <;> simp [fed, i8, i16, i32, i64, le]

/-- C60 is false for floats: the address of the box is hashed. -/
theorem C60_refuted_float (H : List Nat → Nat) (x : Nat) :
    ∃ p q, Equal (.float p x) (.float q x) ∧ fed H (.float p x) ≠ fed H (.float q x) :=
  ⟨0x1000, 0x2000, .float _ _ _ _ (.inl rfl), (by simp [fed, le])⟩

/-- C60 is false for complex numbers: 0.0 and -0.0 are equal. -/
theorem C60_refuted_complex (H : List Nat → Nat) :
    ∃ a b, Equal (.complex a 0) (.complex b 0) ∧ fed H (.complex a 0) ≠ fed H (.complex b 0) :=
  ⟨0, 2 ^ 63, .complex _ _ _ _ (.inr (by decide)) (.inl rfl), (by simp [fed, le])⟩

end Verif.Conv
