import Verif.Big.TextLemmas
import Verif.Big.TextSpec
import Verif.Big.Props
import Mathlib.Data.List.Forall2
import Mathlib.Data.List.TakeWhile
import Mathlib.Tactic.IntervalCases
/-! # C50: conversions between `bigint` and text -/
namespace Verif.Big
open Verif TextSpec

/-! ### Writing -/

theorem value_append (b : Nat) (x y : List Nat) : value b (x ++ y) = value b x * b ^ y.length + value b y := by
  induction x with
  | nil => simp [value]
  | cons d x ih => simp only [List.cons_append, value, ih, List.length_append, Nat.pow_add]; ring

theorem value_lt {b : Nat} {ds : List Nat} (h : ∀ d ∈ ds, d < b) : value b ds < b ^ ds.length := by
  induction ds with
  | nil => simp [value]
  | cons d ds ih =>
    have h1 := ih (fun x hx => h x (by simp [hx]))
    have h2 : d + 1 ≤ b := h d (by simp)
    simp only [value, List.length_cons, Nat.pow_succ]
    have := Nat.mul_le_mul_right (b ^ ds.length) h2
    have e : (d + 1) * b ^ ds.length = d * b ^ ds.length + b ^ ds.length := by ring
    have e2 : b ^ ds.length * b = b * b ^ ds.length := by ring
    omega

theorem dec_spec (n : Nat) : ∃ ds : List Nat, ds ≠ [] ∧ (∀ d ∈ ds, d < 10) ∧ (ds.head? = some 0 → ds = [0]) ∧
    dec n = ds.map (48 + ·) ∧ value 10 ds = n := by
  induction n using Nat.strongRecOn with
  | _ n ih =>
    by_cases h : n < 10
    · exact ⟨[n], by simp, by simpa using h, by simp, by rw [dec_lt h]; rfl, by simp [value]⟩
    · obtain ⟨ds, h1, h2, h3, h4, h5⟩ := ih (n / 10) (by omega)
      refine ⟨ds ++ [n % 10], by simp, ?_, ?_, ?_, ?_⟩
      · intro d hd
        rcases List.mem_append.mp hd with hd | hd
        · exact h2 d hd
        · simp at hd; omega
      · intro h0
        exfalso
        have : ds.head? = some 0 := by
          cases ds with
          | nil => exact absurd rfl h1
          | cons d ds => simpa using h0
        rw [h3 this] at h5
        simp [value] at h5
        omega
      · rw [dec_ge h, h4]; simp
      · rw [value_append, h5]; simp [value]; omega

theorem dec_ne_zero {n c : Nat} (h : c ∈ dec n) : c ≠ 0 := by
  obtain ⟨ds, _, _, _, h4, _⟩ := dec_spec n
  rw [h4] at h
  obtain ⟨d, _, e⟩ := List.mem_map.mp h
  omega

theorem cText_append {A R : List Nat} (h : ∀ c ∈ A, c ≠ 0) : cText (A ++ (0 :: R)) = A := by
  unfold cText
  rw [List.takeWhile_append_of_pos (by intro c hc; simpa using h c hc), List.takeWhile_cons_of_neg (by simp), List.append_nil]

/-- C50: the text of a number, if it is less than the power of ten that the recursion begins with, and the block is long
enough. -/
theorem getStr_spec {sq : Nat → Nat} {cap : Nat} {a : Z} (h : a.Ok) (h0 : a.size ≠ 0)
    (hd : words a.n a.size.natAbs < 10 ^ (18 * 2 ^ (if a.size.natAbs = 1 then 0 else sq a.size.natAbs)))
    (hc : (if a.size < 0 then 1 else 0) + (dec (words a.n a.size.natAbs)).length + 1 ≤ cap) :
    getStr sq cap a = .ok ((if a.size < 0 then [45] else []) ++ dec (words a.n a.size.natAbs)) := by
  unfold getStr
  rw [if_neg h0]
  simp only
  have fin : ∀ (A : List Nat) (k : Nat), (∀ c ∈ A, c ≠ 0) → (dec (words a.n a.size.natAbs)).length + 1 ≤ k →
      (do
        let r ← getStr0 (if a.size.natAbs = 1 then 0 else sq a.size.natAbs) true (words a.n a.size.natAbs)
          (A ++ List.replicate k 48) A.length
        let res ← store r.1 r.2 [0]
        return cText res : Res (List Nat)) = .ok (A ++ dec (words a.n a.size.natAbs)) := by
    intro A k hA hk
    rw [getStr0_head A hd (by omega), Res.ok_bind]
    simp only
    generalize hD : dec (words a.n a.size.natAbs) = D at *
    have e : k - D.length = 1 + (k - D.length - 1) := by omega
    rw [e, ← List.replicate_append_replicate, store_append [0] rfl (by simp), Res.ok_bind]
    show Res.ok (cText (A ++ D ++ (0 :: List.replicate (k - D.length - 1) 48))) = _
    rw [cText_append]
    intro c hc
    rcases List.mem_append.mp hc with hc | hc
    · exact hA c hc
    · rw [← hD] at hc; exact dec_ne_zero hc
  by_cases hn : a.size < 0
  · rw [if_pos hn] at hc ⊢
    have e : sign (decide (a.size < 0)) (List.replicate cap 48) = .ok ([45] ++ List.replicate (cap - 1) 48, [45].length) := by
      unfold sign
      rw [if_pos (by simpa using hn)]
      have e1 : cap = 1 + (cap - 1) := by omega
      have := store_append (A := []) (X := List.replicate 1 48) (Y := List.replicate (cap - 1) 48) (pos := 0) [45] rfl (by simp)
      rw [List.replicate_append_replicate, ← e1, List.nil_append, List.nil_append] at this
      rw [this, Res.ok_bind]
      rfl
    rw [e, Res.ok_bind]
    exact fin [45] (cap - 1) (by simp) (by omega)
  · rw [if_neg hn] at hc ⊢
    have e : sign (decide (a.size < 0)) (List.replicate cap 48) = .ok ([] ++ List.replicate cap 48, ([] : List Nat).length) := by
      unfold sign
      rw [if_neg (by simpa using hn)]
      rfl
    rw [e, Res.ok_bind]
    exact fin [] cap (by simp) (by omega)

theorem dec_length_le {n w : Nat} (hw : 0 < w) (h : n < 10 ^ w) : (dec n).length ≤ w := (pad_dec hw h).1

/-- C50: the text of a bigint is its decimal representation. The hypotheses on `sq` and `cap` say that the logarithms of
the code are exact: `sq n` squarings suffice for `n` words, and `10^(cap-2)` (`cap-3` for negative numbers) is at least
the number with all words but the most significant cleared. Missing: numbers of one word of at least `10^18` (see
`C50_refuted_str`). -/
theorem C50_str_partial {sq : Nat → Nat} {cap : Nat} {a : Z} (h : a.Ok)
    (hsq : ∀ n, 2 ≤ n → 2 ^ (64 * n) ≤ 10 ^ (18 * 2 ^ sq n)) (h1 : a.size.natAbs = 1 → a.val.natAbs < 10 ^ 18)
    (hcap : ∃ m, cap = (if a.val < 0 then 1 else 0) + m + 2 ∧ a.n (a.size.natAbs - 1) * 2 ^ (64 * (a.size.natAbs - 1)) ≤ 10 ^ m) :
    ∃ t, getStr sq cap a = .ok t ∧ DecText t a.val := by
  by_cases h0 : a.size = 0
  · unfold getStr
    rw [if_pos h0]
    refine ⟨_, rfl, [0], by simp, by simp, by simp, ?_, ?_⟩ <;> rw [(val_zero_iff h).mpr h0] <;> simp [value]
  have hv : a.val.natAbs = words a.n a.size.natAbs := by
    unfold Z.val
    split <;> omega
  have hneg := val_neg_iff h
  have hlen : a.size.natAbs = (a.size.natAbs - 1) + 1 := by omega
  have hB : ∀ k, B ^ k = 2 ^ (64 * k) := by
    intro k; rw [Nat.pow_mul]; rfl
  obtain ⟨ds, d1, d2, d3, d4, d5⟩ := dec_spec (words a.n a.size.natAbs)
  have hd : words a.n a.size.natAbs < 10 ^ (18 * 2 ^ (if a.size.natAbs = 1 then 0 else sq a.size.natAbs)) := by
    by_cases e : a.size.natAbs = 1
    · rw [if_pos e]
      have := h1 e
      rw [hv] at this
      simpa using this
    · rw [if_neg e]
      have w1 := words_lt (n := a.n) (k := a.size.natAbs) h.lt
      have w2 := hsq a.size.natAbs (by omega)
      rw [hB] at w1
      omega
  have hc : (if a.size < 0 then 1 else 0) + (dec (words a.n a.size.natAbs)).length + 1 ≤ cap := by
    obtain ⟨m, hm, hm2⟩ := hcap
    have : (dec (words a.n a.size.natAbs)).length ≤ m + 1 := by
      apply dec_length_le (by omega)
      rw [hlen]
      show words a.n (a.size.natAbs - 1) + a.n (a.size.natAbs - 1) * B ^ (a.size.natAbs - 1) < 10 ^ (m + 1)
      have w1 := words_lt (n := a.n) (k := a.size.natAbs - 1) (fun i hi => h.lt i (by omega))
      have w2 := h.top h0
      have w3 : 1 * B ^ (a.size.natAbs - 1) ≤ a.n (a.size.natAbs - 1) * B ^ (a.size.natAbs - 1) :=
        Nat.mul_le_mul_right _ (by omega)
      rw [← hB] at hm2
      rw [Nat.pow_succ]
      omega
    rw [hm]
    by_cases e : a.size < 0
    · rw [if_pos e, if_pos (hneg.mpr e)]; omega
    · rw [if_neg e, if_neg (fun hc => e (hneg.mp hc))]; omega
  refine ⟨_, getStr_spec h h0 hd hc, ds, d1, d2, d3, ?_, by rw [d5, hv]⟩
  rw [d4]
  by_cases e : a.size < 0
  · rw [if_pos e, if_pos (hneg.mpr e)]
  · rw [if_neg e, if_neg (fun hc => e (hneg.mp hc))]

/-- C50 is false for numbers of one word from `10^18` on: the local buffer of 19 bytes overflows. -/
theorem C50_refuted_str (sq : Nat → Nat) (cap : Nat) {a : Z} (h1 : a.size.natAbs = 1) (hv : 10 ^ 18 ≤ a.val.natAbs) :
    getStr sq (cap + 1) a = .ub := by
  have h0 : a.size ≠ 0 := by omega
  have hv' : 10 ^ 18 ≤ words a.n a.size.natAbs := by
    unfold Z.val at hv
    split at hv <;> omega
  have hl := dec_length_gt hv'
  unfold getStr
  rw [if_neg h0]
  simp only
  rw [if_pos h1]
  have : ∀ (r : List Nat) (p : Nat), getStr0 0 true (words a.n a.size.natAbs) r p = .ub := by
    intro r p
    simp only [getStr0, leaf]
    rw [if_pos (by omega)]
  have hs : ∃ x, sign (decide (a.size < 0)) (List.replicate (cap + 1) 48) = .ok x := by
    unfold sign
    by_cases e : a.size < 0
    · rw [if_pos (by simpa using e)]
      unfold store
      rw [if_pos (by simp)]
      exact ⟨_, rfl⟩
    · rw [if_neg (by simpa using e)]
      exact ⟨_, rfl⟩
  obtain ⟨x, e⟩ := hs
  rw [e, Res.ok_bind, this]
  rfl

/-! ### Reading -/

theorem digvalue_of {c d : Nat} (h : IsDigit c d) : digvalue c = d := by
  unfold digvalue
  rcases h with ⟨h1, h2⟩ | ⟨h1, h2, h3 | h3⟩
  · rw [if_pos (by omega)]; omega
  · rw [if_neg (by omega), if_pos (by omega)]; omega
  · rw [if_neg (by omega), if_neg (by omega), if_pos (by omega)]; omega

theorem isDigit_of {c : Nat} (h : digvalue c < 36) : IsDigit c (digvalue c) := by
  unfold digvalue at *
  by_cases h1 : 48 ≤ c ∧ c ≤ 57
  · rw [if_pos h1] at *; exact .inl (by omega)
  · rw [if_neg h1] at *
    by_cases h2 : 65 ≤ c ∧ c ≤ 90
    · rw [if_pos h2] at *; exact .inr (by omega)
    · rw [if_neg h2] at *
      by_cases h3 : 97 ≤ c ∧ c ≤ 122
      · rw [if_pos h3] at *; exact .inr (by omega)
      · rw [if_neg h3] at h; omega

theorem isDigit_range {c d : Nat} (h : IsDigit c d) : 48 ≤ c := by
  rcases h with ⟨h1, h2⟩ | ⟨h1, h2, h3 | h3⟩ <;> omega

/-- The table of exponents is right: the greatest power below `2^63`. -/
theorem P_spec {base : Nat} (h2 : 2 ≤ base) (h36 : base ≤ 36) :
    0 < P base ∧ base ^ P base < 2 ^ 63 ∧ 2 ^ 63 ≤ base ^ (P base + 1) := by
  interval_cases base <;> decide +kernel

theorem P_unique {base k : Nat} (h2 : 2 ≤ base) (h36 : base ≤ 36) (h : base ^ k < 2 ^ 63) (h' : 2 ^ 63 ≤ base ^ (k + 1)) :
    k = P base := by
  obtain ⟨_, p1, p2⟩ := P_spec h2 h36
  have a1 : k < P base + 1 := (Nat.pow_lt_pow_iff_right (by omega : 1 < base)).mp (by omega)
  have a2 : P base < k + 1 := (Nat.pow_lt_pow_iff_right (by omega : 1 < base)).mp (by omega)
  omega

theorem chunk_spec {base : Nat} (rest : List Nat) {cs ds : List Nat} (hf : List.Forall₂ IsDigit cs ds) {v : Nat}
    (hb : 0 < base) (hv : v * base ^ ds.length + value base ds < B) :
    chunk base ds.length (cs ++ rest) v = v * base ^ ds.length + value base ds := by
  induction hf generalizing v with
  | nil => simp [chunk, value]
  | @cons c d cs ds hd hf ih =>
    simp only [List.length_cons, chunk, List.cons_append, List.tail_cons, List.headD_cons, digvalue_of hd, value] at *
    have e : v * base ^ (ds.length + 1) + (d * base ^ ds.length + value base ds)
        = (v * base + d) * base ^ ds.length + value base ds := by
      rw [Nat.pow_succ]; ring
    have hp : 1 ≤ base ^ ds.length := Nat.one_le_pow _ _ hb
    have := Nat.mul_le_mul_left (v * base + d) hp
    rw [e] at hv ⊢
    have hm : (v * base + d) % B = v * base + d := Nat.mod_eq_of_lt (by omega)
    rw [hm]
    exact ih hv

theorem chunk_wrap {base : Nat} (h2 : 2 ≤ base) (h36 : base ≤ 36) (rest : List Nat) {cs ds : List Nat}
    (hf : List.Forall₂ IsDigit cs ds) (hd : ∀ d ∈ ds, d < base) (hl : ds.length ≤ P base) :
    wrap64 (chunk base ds.length (cs ++ rest) 0) = value base ds := by
  obtain ⟨_, p1, _⟩ := P_spec h2 h36
  have h1 := value_lt hd
  have h3 : base ^ ds.length ≤ base ^ P base := Nat.pow_le_pow_right (by omega) hl
  have hB : B = 2 ^ 64 := rfl
  rw [chunk_spec rest hf (by omega) (by omega)]
  simp only [Nat.zero_mul, Nat.zero_add]
  apply wrap64_of_in
  unfold InI64
  omega

theorem setStr0_spec {base : Nat} (h2 : 2 ≤ base) (h36 : base ≤ 36) (parts : Nat) (hp : 0 < parts) (rest : List Nat)
    {cs ds : List Nat} (hf : List.Forall₂ IsDigit cs ds) (hd : ∀ d ∈ ds, d < base) (hl : ds.length = parts * P base) :
    setStr0 base (cs ++ rest) parts = .ok (value base ds : Int) := by
  induction parts using Nat.strongRecOn generalizing rest cs ds with
  | _ parts ih =>
    rw [setStr0, if_neg (by omega)]
    by_cases h1 : parts = 1
    · rw [if_pos h1]
      rw [h1, Nat.one_mul] at hl
      rw [← hl, chunk_wrap h2 h36 rest hf hd (by omega)]
    · rw [if_neg h1]
      have hcl := hf.length_eq
      have hsum : parts = parts / 2 + (parts - parts / 2) := by omega
      have hl2 : ds.length = parts / 2 * P base + (parts - parts / 2) * P base := by
        rw [← Nat.add_mul, ← hsum, hl]
      have k1 : cs = cs.take (parts / 2 * P base) ++ cs.drop (parts / 2 * P base) := (List.take_append_drop _ _).symm
      have k2 : ds = ds.take (parts / 2 * P base) ++ ds.drop (parts / 2 * P base) := (List.take_append_drop _ _).symm
      have l1 : (ds.take (parts / 2 * P base)).length = parts / 2 * P base := by rw [List.length_take]; omega
      have l2 : (ds.drop (parts / 2 * P base)).length = (parts - parts / 2) * P base := by rw [List.length_drop]; omega
      have r1 := ih (parts / 2) (by omega) (by omega) (cs.drop (parts / 2 * P base) ++ rest)
        (List.forall₂_take (parts / 2 * P base) hf) (fun d hx => hd d (List.mem_of_mem_take hx)) l1
      have r2 := ih (parts - parts / 2) (by omega) (by omega) rest
        (List.forall₂_drop (parts / 2 * P base) hf) (fun d hx => hd d (List.mem_of_mem_drop hx)) l2
      have e1 : cs ++ rest = cs.take (parts / 2 * P base) ++ (cs.drop (parts / 2 * P base) ++ rest) := by
        rw [← List.append_assoc, ← k1]
      have e2 : (cs ++ rest).drop (parts / 2 * P base) = cs.drop (parts / 2 * P base) ++ rest := by
        rw [List.drop_append_of_le_length (by omega)]
      rw [e2, r2, e1, r1]
      simp only [Res.ok_bind]
      show Res.ok _ = _
      congr 1
      conv => rhs; rw [k2, value_append, l2]
      push_cast
      rw [Nat.mul_comm (P base)]
      ring

/-- The value, with the sign except if the number of digits is a multiple of the number of digits of a word. -/
theorem convert_spec {base : Nat} (h2 : 2 ≤ base) (h36 : base ≤ 36) (neg : Bool) (rest : List Nat)
    {cs ds : List Nat} (hf : List.Forall₂ IsDigit cs ds) (hd : ∀ d ∈ ds, d < base) (h0 : ds ≠ []) :
    convert base neg ds.length (cs ++ rest)
      = .ok (if neg = true ∧ ds.length % P base ≠ 0 then -(value base ds : Int) else value base ds) := by
  obtain ⟨p0, _, _⟩ := P_spec h2 h36
  have hpos : 0 < ds.length := List.length_pos_iff.mpr h0
  have hdm := Nat.div_add_mod ds.length (P base)
  have hcl := hf.length_eq
  unfold convert
  simp only
  by_cases ho : ds.length % P base = 0
  · rw [if_pos ho, if_neg (by simp [ho])]
    rw [ho] at hdm
    refine setStr0_spec h2 h36 _ ?_ rest hf hd (by rw [Nat.mul_comm]; omega)
    rcases Nat.eq_zero_or_pos (ds.length / P base) with h | h
    · rw [h] at hdm; omega
    · exact h
  · rw [if_neg ho]
    have hlt := Nat.mod_lt ds.length p0
    have k2 : ds = ds.take (ds.length % P base) ++ ds.drop (ds.length % P base) := (List.take_append_drop _ _).symm
    have l1 : (ds.take (ds.length % P base)).length = ds.length % P base := by
      rw [List.length_take]; exact Nat.min_eq_left (Nat.mod_le _ _)
    have l2 : (ds.drop (ds.length % P base)).length = ds.length / P base * P base := by
      rw [List.length_drop, Nat.mul_comm]; omega
    have e1 : cs ++ rest = cs.take (ds.length % P base) ++ (cs.drop (ds.length % P base) ++ rest) := by
      rw [← List.append_assoc, List.take_append_drop]
    have r1 : wrap64 (chunk base (ds.length % P base) (cs ++ rest) 0) = value base (ds.take (ds.length % P base)) := by
      have := chunk_wrap h2 h36 (cs.drop (ds.length % P base) ++ rest) (List.forall₂_take (ds.length % P base) hf)
        (fun d hx => hd d (List.mem_of_mem_take hx)) (by rw [l1]; omega)
      rw [l1, ← e1] at this
      exact this
    rw [r1]
    by_cases hp : ds.length / P base > 0
    · rw [if_pos hp]
      have e2 : (cs ++ rest).drop (ds.length % P base) = cs.drop (ds.length % P base) ++ rest := by
        rw [List.drop_append_of_le_length (by rw [hcl]; exact Nat.mod_le _ _)]
      rw [e2, setStr0_spec h2 h36 _ hp rest (List.forall₂_drop (ds.length % P base) hf)
        (fun d hx => hd d (List.mem_of_mem_drop hx)) l2, Res.ok_bind]
      show Res.ok _ = _
      refine congrArg Res.ok ?_
      have ev : (value base ds : Int) = (base : Int) ^ (P base * (ds.length / P base)) * value base (ds.take (ds.length % P base))
          + value base (ds.drop (ds.length % P base)) := by
        have := congrArg (value base) (List.take_append_drop (ds.length % P base) ds)
        rw [value_append, l2] at this
        rw [← this]
        push_cast
        rw [Nat.mul_comm (P base)]
        ring
      rw [ev]
      cases neg
      · simp
      · simp [ho]
    · rw [if_neg hp]
      have hz : ds.length / P base = 0 := Nat.eq_zero_of_not_pos hp
      have hm : ds.length % P base = ds.length := by rw [hz] at hdm; omega
      rw [if_congr (by rw [hm] : (neg = true ∧ ds.length % P base ≠ 0) ↔ (neg = true ∧ ds.length ≠ 0)) rfl rfl]
      have ht : ds.take (ds.length % P base) = ds := by rw [List.take_eq_self_iff]; omega
      rw [ht]
      refine congrArg Res.ok ?_
      cases neg
      · simp
      · simp [h0]

theorem isSpace_iff {c : Nat} : isSpace c = true ↔ IsBlank c := by
  unfold isSpace IsBlank
  rw [decide_eq_true_iff]
  omega

theorem skip_blanks {ws r : List Nat} (h : ∀ c ∈ ws, IsBlank c) (hr : ∀ c, r.head? = some c → ¬ IsBlank c) :
    (ws ++ r).dropWhile isSpace = r := by
  rw [List.dropWhile_append_of_pos (fun c hc => isSpace_iff.mpr (h c hc))]
  cases r with
  | nil => rfl
  | cons c r => rw [List.dropWhile_cons_of_neg (fun hc => hr c rfl (isSpace_iff.mp hc))]

theorem signOf_spec {neg : Bool} {sg r : List Nat} (h : if neg then sg = [45] else sg = [] ∨ sg = [43])
    (hr : ∃ c s, r = c :: s ∧ 48 ≤ c) : signOf (sg ++ r) = (neg, r) := by
  obtain ⟨c, s, e, hc⟩ := hr
  cases neg with
  | true => simp only [if_true] at h; subst h; rfl
  | false =>
    simp only [Bool.false_eq_true, if_false] at h
    rcases h with h | h
    · subst h e
      unfold signOf
      show (if c = 43 then (false, s) else if c = 45 then (true, s) else (false, c :: s)) = _
      rw [if_neg (by omega), if_neg (by omega)]
    · subst h; rfl

theorem prefixOf_mark {c base : Nat} {cs : List Nat} (h : IsMark c base) : prefixOf ([48, c] ++ cs) = ⟨base, cs, 0, cs⟩ := by
  rcases h with ⟨h | h, e⟩ | ⟨h | h, e⟩ | ⟨h | h, e⟩ <;> subst h e <;> rfl

theorem prefixOf_plain {cs : List Nat} (h : ∀ c, cs.head? = some 48 → cs[1]? = some c → ∀ b, ¬ IsMark c b) :
    ∃ l r, prefixOf cs = ⟨0, cs, l, r⟩ ∧ ((l = 1 ∧ cs = 48 :: r) ∨ (l = 0 ∧ r = cs)) := by
  unfold prefixOf
  by_cases h0 : cs.headD 0 = 48
  · rw [if_pos h0]
    simp only
    cases cs with
    | nil => simp at h0
    | cons a cs =>
      simp only [List.headD_cons] at h0
      subst h0
      have hn : ∀ b, ¬ IsMark (cs.headD 0) b := by
        intro b hb
        cases cs with
        | nil => unfold IsMark at hb; simp at hb
        | cons x cs => exact h x rfl rfl b hb
      unfold IsMark at hn
      have n1 := hn 16
      have n2 := hn 8
      have n3 := hn 2
      show ∃ l r, (if cs.headD 0 = 120 ∨ cs.headD 0 = 88 then (⟨16, cs.tail, 0, cs.tail⟩ : Pre)
        else if cs.headD 0 = 111 ∨ cs.headD 0 = 79 then ⟨8, cs.tail, 0, cs.tail⟩
        else if cs.headD 0 = 98 ∨ cs.headD 0 = 66 then ⟨2, cs.tail, 0, cs.tail⟩
        else ⟨0, 48 :: cs, 1, cs⟩) = _ ∧ _
      have m1 : ¬ (cs.headD 0 = 120 ∨ cs.headD 0 = 88) := by omega
      have m2 : ¬ (cs.headD 0 = 111 ∨ cs.headD 0 = 79) := by omega
      have m3 : ¬ (cs.headD 0 = 98 ∨ cs.headD 0 = 66) := by omega
      rw [if_neg m1, if_neg m2, if_neg m3]
      exact ⟨1, cs, rfl, .inl ⟨rfl, rfl⟩⟩
  · rw [if_neg h0]
    exact ⟨0, cs, rfl, .inr ⟨rfl, rfl⟩⟩

theorem takeWhile_digits {base : Nat} {cs ds : List Nat} (hf : List.Forall₂ IsDigit cs ds) (hd : ∀ d ∈ ds, d < base) :
    cs.takeWhile (fun c => digvalue c < base) = cs := by
  induction hf with
  | nil => rfl
  | cons h hf ih =>
    rw [List.takeWhile_cons_of_pos (by rw [digvalue_of h]; simpa using hd _ (by simp)), ih (fun d hx => hd d (by simp [hx]))]

theorem digits_spec {base : Nat} (h2 : 2 ≤ base) (h36 : base ≤ 36) (neg : Bool) {b l : Nat}
    {cs ds r : List Nat} (hf : List.Forall₂ IsDigit cs ds) (hd : ∀ d ∈ ds, d < base) (h0 : ds ≠ [])
    (hr : (l = 1 ∧ cs = 48 :: r) ∨ (l = 0 ∧ r = cs)) :
    digits neg ⟨b, cs, l, r⟩ base
      = .ok (if neg = true ∧ ds.length % P base ≠ 0 then -(value base ds : Int) else value base ds) := by
  have hl := hf.length_eq
  have hpos : 0 < ds.length := List.length_pos_iff.mpr h0
  have key : r.takeWhile (fun c => digvalue c < base) = r ∧ l + r.length = ds.length := by
    rcases hr with ⟨e1, e2⟩ | ⟨e1, e2⟩
    · subst e1 e2
      cases hf with
      | cons h hf =>
        refine ⟨takeWhile_digits hf (fun d hx => hd d (by simp [hx])), ?_⟩
        simp only [List.length_cons] at hl ⊢
        omega
    · subst e1 e2
      exact ⟨takeWhile_digits hf hd, by omega⟩
  unfold digits
  simp only
  rw [key.1, key.2, if_neg (by simp; omega)]
  have := convert_spec h2 h36 neg [] hf hd h0
  rw [List.append_nil] at this
  exact this

theorem forall₂_get {cs ds : List Nat} (hf : List.Forall₂ IsDigit cs ds) {i c : Nat} (h : cs[i]? = some c) :
    ∃ d, ds[i]? = some d ∧ IsDigit c d := by
  induction hf generalizing i with
  | nil => simp at h
  | cons h1 hf ih =>
    cases i with
    | zero => simp only [List.getElem?_cons_zero, Option.some.injEq] at h ⊢; subst h; exact ⟨_, rfl, h1⟩
    | succ i => simp only [List.getElem?_cons_succ] at h ⊢; exact ih h

/-- What the code makes of a numeral. -/
theorem setStr_spec {t ds : List Nat} {base : Nat} {marked neg : Bool} {par : Option Int} (h2 : 2 ≤ base) (h36 : base ≤ 36)
    (hn : Numeral t base marked neg ds) (hpar : par = some (base : Int) ∨ (par = none ∧ (marked = true ∨ base = 10)))
    (hm : marked = false → ds[0]? = some 0 → ∀ d, ds[1]? = some d → d ≠ 11 ∧ d ≠ 24 ∧ d ≠ 33) :
    setStr t par = .ok (if neg = true ∧ ds.length % P base ≠ 0 then -(value base ds : Int) else value base ds) := by
  obtain ⟨ws, sg, pre, cs, e, hws, hsg, hpre, h0, hd, hf⟩ := hn
  have hcs : ∃ c s, cs = c :: s ∧ 48 ≤ c := by
    cases hf with
    | nil => exact absurd rfl h0
    | cons h hf => exact ⟨_, _, rfl, isDigit_range h⟩
  have hbody : ∃ c s, pre ++ cs = c :: s ∧ 48 ≤ c := by
    cases marked with
    | true =>
      simp only [if_true] at hpre
      obtain ⟨c, e, _⟩ := hpre
      subst e
      exact ⟨48, _, rfl, by omega⟩
    | false =>
      simp only [Bool.false_eq_true, if_false] at hpre
      subst hpre
      exact hcs
  have hhead : ∀ c, (sg ++ (pre ++ cs)).head? = some c → ¬ IsBlank c := by
    intro c hc
    obtain ⟨x, s, ex, hx⟩ := hbody
    rw [ex] at hc
    unfold IsBlank
    have : sg = [] ∨ sg = [43] ∨ sg = [45] := by
      cases neg
      · simp only [Bool.false_eq_true, if_false] at hsg; tauto
      · simp only [if_true] at hsg; tauto
    rcases this with h | h | h <;> subst h <;> simp at hc <;> omega
  unfold setStr
  simp only
  rw [e, skip_blanks hws hhead, signOf_spec hsg hbody]
  simp only
  cases marked with
  | true =>
    simp only [if_true] at hpre
    obtain ⟨c, ep, hmk⟩ := hpre
    rw [ep, prefixOf_mark hmk]
    simp only
    have hb : baseOf base par = .ok base := by
      rcases hpar with hp | ⟨hp, _⟩
      · subst hp
        unfold baseOf
        simp only
        rw [if_neg (by omega), if_neg (by omega), if_neg (by omega)]
      · subst hp
        unfold baseOf
        simp only
        rw [if_pos (by omega)]
    rw [hb, Res.ok_bind]
    exact digits_spec h2 h36 neg hf hd h0 (.inr ⟨rfl, rfl⟩)
  | false =>
    simp only [Bool.false_eq_true, if_false] at hpre
    subst hpre
    have hnm : ∀ c, cs.head? = some 48 → cs[1]? = some c → ∀ b, ¬ IsMark c b := by
      intro c hc0 hc1 b hb
      rw [List.head?_eq_getElem?] at hc0
      obtain ⟨d0, g0, i0⟩ := forall₂_get hf hc0
      obtain ⟨d1, g1, i1⟩ := forall₂_get hf hc1
      have e0 : d0 = 0 := by unfold IsDigit at i0; omega
      rw [e0] at g0
      have := hm rfl g0 d1 g1
      unfold IsDigit at i1
      unfold IsMark at hb
      omega
    obtain ⟨l, r, ep, hr⟩ := prefixOf_plain hnm
    rw [List.nil_append, ep]
    simp only
    have hb : baseOf 0 par = .ok base := by
      rcases hpar with hp | ⟨hp, hp2⟩
      · subst hp
        unfold baseOf
        simp only
        rw [if_neg (by omega), if_pos trivial]
        simp
      · subst hp
        unfold baseOf
        simp only
        have : base = 10 := by simpa using hp2
        rw [if_neg (by simp), this]
    rw [hb, Res.ok_bind]
    exact digits_spec h2 h36 neg hf hd h0 hr

/-- C50: a numeral is read as the number that it denotes. Missing: negative numbers whose number of digits is a multiple
of the greatest `k` such that `base^k < 2^63` (`C50_refuted_sign`), and numerals without mark of the base whose first digits
look like one (`C50_refuted_mark`). -/
theorem C50_parse_partial {t ds : List Nat} {base : Nat} {marked neg : Bool} {par : Option Int} (h2 : 2 ≤ base)
    (h36 : base ≤ 36) (hn : Numeral t base marked neg ds)
    (hpar : par = some (base : Int) ∨ (par = none ∧ (marked = true ∨ base = 10)))
    (hm : marked = false → ds[0]? = some 0 → ∀ d, ds[1]? = some d → d ≠ 11 ∧ d ≠ 24 ∧ d ≠ 33)
    (hs : neg = true → ∀ k, base ^ k < 2 ^ 63 → 2 ^ 63 ≤ base ^ (k + 1) → ¬ k ∣ ds.length) :
    setStr t par = .ok (if neg then -(value base ds : Int) else value base ds) := by
  rw [setStr_spec h2 h36 hn hpar hm]
  obtain ⟨_, p1, p2⟩ := P_spec h2 h36
  refine congrArg Res.ok ?_
  cases neg with
  | false => simp
  | true =>
    have := hs rfl _ p1 p2
    rw [Nat.dvd_iff_mod_eq_zero] at this
    simp [this]

/-- C50 is false for negative numbers of that many digits: the sign is lost. -/
theorem C50_refuted_sign {t ds : List Nat} {base : Nat} {marked : Bool} {par : Option Int} (h2 : 2 ≤ base)
    (h36 : base ≤ 36) (hn : Numeral t base marked true ds)
    (hpar : par = some (base : Int) ∨ (par = none ∧ (marked = true ∨ base = 10)))
    (hm : marked = false → ds[0]? = some 0 → ∀ d, ds[1]? = some d → d ≠ 11 ∧ d ≠ 24 ∧ d ≠ 33)
    {k : Nat} (hk : base ^ k < 2 ^ 63) (hk' : 2 ^ 63 ≤ base ^ (k + 1)) (hd : k ∣ ds.length) :
    setStr t par = .ok (value base ds : Int) := by
  rw [setStr_spec h2 h36 hn hpar hm, ← P_unique h2 h36 hk hk']
  rw [Nat.dvd_iff_mod_eq_zero] at hd
  simp [hd]

/-- C50 is false for numerals that begin with a zero and the digit 11, 24 or 33: `0b1` in base 16 is not accepted. -/
theorem C50_refuted_mark : Numeral [48, 98, 49] 16 false false [0, 11, 1] ∧ value 16 [0, 11, 1] = 177 ∧
    setStr [48, 98, 49] (some 16) = .raise .valueError := by
  refine ⟨⟨[], [], [], [48, 98, 49], rfl, by simp, by simp, by simp, by simp, by simp, ?_⟩, by decide, by decide +kernel⟩
  exact .cons (.inl (by omega)) (.cons (.inr (by omega)) (.cons (.inl (by omega)) .nil))

/-- Digits as the code recognizes them. -/
theorem digits_forall₂ {base : Nat} (h36 : base ≤ 36) {cs : List Nat} (h : ∀ c ∈ cs, digvalue c < base) :
    List.Forall₂ IsDigit cs (cs.map digvalue) ∧ ∀ d ∈ cs.map digvalue, d < base := by
  refine ⟨?_, fun d hd => ?_⟩
  · induction cs with
    | nil => exact .nil
    | cons c cs ih =>
      have := h c (by simp)
      exact .cons (isDigit_of (by omega)) (ih (fun x hx => h x (by simp [hx])))
  · obtain ⟨c, hc, e⟩ := List.mem_map.mp hd
    rw [← e]; exact h c hc

theorem signOf_inv (s : List Nat) : ∃ sg, s = sg ++ (signOf s).2 ∧
    (if (signOf s).1 then sg = [45] else sg = [] ∨ sg = [43]) := by
  unfold signOf
  cases s with
  | nil => exact ⟨[], by simp, by simp⟩
  | cons c s =>
    by_cases h1 : (c :: s).headD 0 = 43
    · rw [if_pos h1]
      simp only [List.headD_cons] at h1
      subst h1
      exact ⟨[43], rfl, by simp⟩
    · rw [if_neg h1]
      by_cases h2 : (c :: s).headD 0 = 45
      · rw [if_pos h2]
        simp only [List.headD_cons] at h2
        subst h2
        exact ⟨[45], rfl, by simp⟩
      · rw [if_neg h2]
        exact ⟨[], rfl, by simp⟩

theorem prefixOf_inv (s : List Nat) :
    (∃ c base cs, s = [48, c] ++ cs ∧ IsMark c base ∧ prefixOf s = ⟨base, cs, 0, cs⟩) ∨
    (∃ l r, prefixOf s = ⟨0, s, l, r⟩ ∧ ((l = 1 ∧ s = 48 :: r) ∨ (l = 0 ∧ r = s))) := by
  by_cases h : ∃ c base cs, s = [48, c] ++ cs ∧ IsMark c base
  · obtain ⟨c, base, cs, e, hm⟩ := h
    exact .inl ⟨c, base, cs, e, hm, by rw [e]; exact prefixOf_mark hm⟩
  · refine .inr (prefixOf_plain (fun c h0 h1 b hb => h ?_))
    match s, h0, h1 with
    | x :: y :: s, h0, h1 =>
      simp at h0 h1
      subst h0 h1
      exact ⟨y, b, s, rfl, hb⟩

theorem baseOf_inv (f : Nat) (par : Option Int) (hf : f = 0 ∨ f = 2 ∨ f = 8 ∨ f = 16) :
    baseOf f par = .raise .valueError ∨ ∃ base, baseOf f par = .ok base ∧ 2 ≤ base ∧ base ≤ 36 ∧
      (f ≠ 0 → base = f) ∧ (par = some (base : Int) ∨ (par = none ∧ (f ≠ 0 ∨ base = 10))) := by
  unfold baseOf
  cases par with
  | none =>
    right
    simp only
    by_cases h : f ≠ 0
    · rw [if_pos h]; exact ⟨f, rfl, by omega, by omega, fun _ => rfl, .inr ⟨trivial, .inl h⟩⟩
    · rw [if_neg h]; exact ⟨10, rfl, by omega, by omega, fun hc => absurd hc h, .inr ⟨trivial, .inr rfl⟩⟩
  | some b =>
    simp only
    by_cases h1 : b < 2 ∨ b > 36
    · rw [if_pos h1]; exact .inl rfl
    · rw [if_neg h1]
      have hb : ((b.toNat : Nat) : Int) = b := by omega
      by_cases h2 : f = 0
      · rw [if_pos h2]
        exact .inr ⟨b.toNat, rfl, by omega, by omega, fun hc => absurd h2 hc, .inl (by rw [hb])⟩
      · rw [if_neg h2]
        by_cases h3 : f ≠ b.toNat
        · rw [if_pos h3]; exact .inl rfl
        · rw [if_neg h3]
          exact .inr ⟨f, rfl, by omega, by omega, fun _ => rfl, .inl (by congr 1; omega)⟩

/-- C50: everything else is refused. -/
theorem C50_reject {t : List Nat} {par : Option Int} (h0 : 0 ∉ t)
    (h : ∀ base marked neg ds, 2 ≤ base → base ≤ 36 → Numeral t base marked neg ds →
      ¬ (par = some (base : Int) ∨ (par = none ∧ (marked = true ∨ base = 10)))) :
    setStr t par = .raise .valueError := by
  have et : t = t.takeWhile isSpace ++ t.dropWhile isSpace := (List.takeWhile_append_dropWhile).symm
  have hws : ∀ c ∈ t.takeWhile isSpace, IsBlank c := fun c hc => isSpace_iff.mp (List.mem_takeWhile_imp hc)
  obtain ⟨sg, es, hsg⟩ := signOf_inv (t.dropWhile isSpace)
  unfold setStr
  simp only
  generalize (signOf (t.dropWhile isSpace)).1 = neg at *
  generalize (signOf (t.dropWhile isSpace)).2 = s at *
  -- digits that follow a base and its mark
  have fin : ∀ (base l : Nat) (pre cs r : List Nat) (marked : Bool), s = pre ++ cs → 2 ≤ base → base ≤ 36 →
      (if marked then ∃ c, pre = [48, c] ∧ IsMark c base else pre = []) →
      (par = some (base : Int) ∨ (par = none ∧ (marked = true ∨ base = 10))) →
      ((l = 1 ∧ cs = 48 :: r) ∨ (l = 0 ∧ r = cs)) → ∀ b, digits neg ⟨b, cs, l, r⟩ base = .raise .valueError := by
    intro base l pre cs r marked e h2 h36 hpre hpar hr b
    unfold digits
    simp only
    by_cases hc : l + (r.takeWhile (fun c => decide (digvalue c < base))).length = 0 ∨
        (r.drop (r.takeWhile (fun c => decide (digvalue c < base))).length).headD 0 ≠ 0
    · rw [if_pos hc]
    · exfalso
      have hdrop : r.drop (r.takeWhile (fun c => decide (digvalue c < base))).length = [] := by
        cases hx : r.drop (r.takeWhile (fun c => decide (digvalue c < base))).length with
        | nil => rfl
        | cons x xs =>
          exfalso
          rw [hx] at hc
          simp only [List.headD_cons] at hc
          have hx0 : x = 0 := by omega
          have : x ∈ r := List.mem_of_mem_drop (by rw [hx]; simp)
          have : x ∈ cs := by
            rcases hr with ⟨_, e⟩ | ⟨_, e⟩
            · rw [e]; simp [this]
            · rw [← e]; exact this
          apply h0
          rw [et, es, e, ← hx0]
          simp [this]
      have hr36 : ∀ c ∈ r, digvalue c < base := by
        have e1 : r.takeWhile (fun c => decide (digvalue c < base)) = r := by
          have e2 := List.takeWhile_append_dropWhile (p := fun c => decide (digvalue c < base)) (l := r)
          have e3 := (List.takeWhile_prefix (l := r) (fun c => decide (digvalue c < base))).eq_of_length
          apply e3
          have := List.drop_eq_nil_iff.mp hdrop
          have := (List.takeWhile_prefix (l := r) (fun c => decide (digvalue c < base))).length_le
          omega
        intro c hc
        rw [← e1] at hc
        simpa using List.mem_takeWhile_imp hc
      have hcs : ∀ c ∈ cs, digvalue c < base := by
        rcases hr with ⟨_, e⟩ | ⟨_, e⟩
        · rw [e]
          intro c hc
          rcases List.mem_cons.mp hc with hc | hc
          · subst hc
            show 0 < base
            omega
          · exact hr36 c hc
        · rw [← e]; exact hr36
      have hne : cs ≠ [] := by
        intro hcs0
        rcases hr with ⟨_, e⟩ | ⟨e1, e⟩
        · rw [hcs0] at e; cases e
        · rw [e, hcs0] at hc
          simp [e1] at hc
      obtain ⟨hf, hd⟩ := digits_forall₂ h36 hcs
      exact h base marked neg (cs.map digvalue) h2 h36
        ⟨_, sg, pre, cs, by rw [← e, ← es]; exact et, hws, hsg, hpre, by simpa using hne, hd, hf⟩ hpar
  rcases prefixOf_inv s with ⟨c, base, cs, e, hm, ep⟩ | ⟨l, r, ep, hr⟩
  · rw [ep]
    simp only
    have hb : base = 0 ∨ base = 2 ∨ base = 8 ∨ base = 16 := by unfold IsMark at hm; omega
    have hb0 : base ≠ 0 := by unfold IsMark at hm; omega
    rcases baseOf_inv base par hb with hr | ⟨b, eb, h2, h36, h3, hpar⟩
    · rw [hr]; rfl
    · have hbb := h3 hb0
      subst hbb
      rw [eb, Res.ok_bind]
      exact fin b 0 [48, c] cs cs true e h2 h36 (by simp only [if_true]; exact ⟨c, rfl, hm⟩)
        (hpar.imp id (fun x => ⟨x.1, .inl rfl⟩)) (.inr ⟨rfl, rfl⟩) b
  · rw [ep]
    simp only
    rcases baseOf_inv 0 par (.inl rfl) with hrz | ⟨b, eb, h2, h36, _, hpar⟩
    · rw [hrz]; rfl
    · rw [eb, Res.ok_bind]
      exact fin b l [] s r false rfl h2 h36 (by simp) (hpar.imp id (fun x => ⟨x.1, .inr (by simpa using x.2)⟩)) hr 0

/-- C50: reading a decimal text gives back the number. Missing: negative numbers of 18, 36, 54, ... digits. -/
theorem C50_roundtrip_partial {t : List Nat} {v : Int} (h : DecText t v) (hs : v < 0 → ¬ 18 ∣ t.length - 1) :
    setStr t none = .ok v := by
  obtain ⟨ds, h1, h2, h3, h4, h5⟩ := h
  have hf : List.Forall₂ IsDigit (ds.map (48 + ·)) ds := by
    clear h1 h3 h4 h5
    induction ds with
    | nil => exact .nil
    | cons d ds ih => exact .cons (.inl ⟨h2 d (by simp), rfl⟩) (ih (fun x hx => h2 x (by simp [hx])))
  have hn : Numeral t 10 false (decide (v < 0)) ds := by
    refine ⟨[], if v < 0 then [45] else [], [], _, by simpa using h4, by simp, ?_, by simp, h1, h2, hf⟩
    by_cases hv : v < 0 <;> simp [hv]
  rw [C50_parse_partial (by omega) (by omega) hn (.inr ⟨rfl, .inr rfl⟩) ?_ ?_, h5]
  · refine congrArg Res.ok ?_
    by_cases hv : v < 0
    · rw [if_pos (by simpa using hv)]; omega
    · rw [if_neg (by simpa using hv)]; omega
  · intro _ h0 d hd
    rw [← List.head?_eq_getElem?] at h0
    rw [h3 h0] at hd
    simp at hd
  · intro hv k k1 k2
    have hv' : v < 0 := by simpa using hv
    have hk : k = 18 := by
      have := P_unique (by omega) (by omega) k1 k2
      rw [this]; rfl
    have := hs hv'
    rw [h4, if_pos hv'] at this
    rw [hk]
    simpa using this

/-! ### Examples -/

/-- A number of squarings that suffices. -/
theorem squarings_exist : ∀ n, 2 ≤ n → 2 ^ (64 * n) ≤ 10 ^ (18 * 2 ^ (fun n => n + 1) n) := by
  intro n _
  have h1 : n < 2 ^ n := Nat.lt_two_pow_self
  have h2 : 64 * n ≤ 3 * (18 * 2 ^ (n + 1)) := by rw [Nat.pow_succ]; omega
  calc 2 ^ (64 * n) ≤ 2 ^ (3 * (18 * 2 ^ (n + 1))) := Nat.pow_le_pow_right (by omega) h2
    _ = (2 ^ 3) ^ (18 * 2 ^ (n + 1)) := by rw [Nat.pow_mul]
    _ ≤ 10 ^ (18 * 2 ^ (n + 1)) := Nat.pow_le_pow_left (by omega) _

/-- C50: `-(2^64 + 5)` meets the hypotheses; its text has 21 characters. -/
example : (two (-1) 5 1).Ok ∧ ((two (-1) 5 1).size.natAbs = 1 → (two (-1) 5 1).val.natAbs < 10 ^ 18) ∧
    (∃ m, 23 = (if (two (-1) 5 1).val < 0 then 1 else 0) + m + 2 ∧
      (two (-1) 5 1).n ((two (-1) 5 1).size.natAbs - 1) * 2 ^ (64 * ((two (-1) 5 1).size.natAbs - 1)) ≤ 10 ^ m) ∧
    getStr (fun n => n + 1) 23 (two (-1) 5 1)
      = .ok [45, 49, 56, 52, 52, 54, 55, 52, 52, 48, 55, 51, 55, 48, 57, 53, 53, 49, 54, 50, 49] :=
  ⟨two_ok (by decide) (by decide) (by decide), by decide, ⟨20, by decide +kernel, by decide +kernel⟩, by decide +kernel⟩

/-- C50: `10^18` has one word. -/
example : (one 1 (10 ^ 18)).size.natAbs = 1 ∧ 10 ^ 18 ≤ (one 1 (10 ^ 18)).val.natAbs := by decide +kernel

/-- C50: the texts `" +0xFf"`, `-12` and `-100000000000000000` (18 digits), the last of which loses its sign. -/
example : Numeral [32, 43, 48, 120, 70, 102] 16 true false [15, 15] ∧ setStr [32, 43, 48, 120, 70, 102] none = .ok 255 ∧
    DecText [45, 49, 50] (-12) ∧ setStr [45, 49, 50] none = .ok (-12) ∧
    DecText (45 :: 49 :: List.replicate 17 48) (-100000000000000000) ∧
    setStr (45 :: 49 :: List.replicate 17 48) none = .ok 100000000000000000 ∧
    setStr [49, 50, 33] none = .raise .valueError ∧ setStr [49] (some 37) = .raise .valueError := by
  refine ⟨⟨[32], [43], [48, 120], [70, 102], rfl, ?_, ?_, ?_, by simp, by simp, ?_⟩, by decide +kernel,
    ⟨[1, 2], by simp, by simp, by simp, by decide, by decide⟩, by decide +kernel,
    ⟨1 :: List.replicate 17 0, by simp, by simp, by simp, by decide +kernel, by decide +kernel⟩, by decide +kernel,
    by decide +kernel, by decide +kernel⟩
  · intro c hc; simp at hc; exact .inl hc
  · simp
  · simp only [if_true]; exact ⟨120, rfl, .inl ⟨.inl rfl, rfl⟩⟩
  · exact .cons (.inr (by omega)) (.cons (.inr (by omega)) .nil)

/-- C50: the text `-` is not a numeral. -/
example : setStr [45] none = .raise .valueError := by
  refine C50_reject (by simp) (fun base marked neg ds _ _ hn => ?_)
  obtain ⟨ws, sg, pre, cs, e, _, _, _, h0, _, hf⟩ := hn
  exfalso
  have hl := congrArg List.length e
  cases hf with
  | nil => exact h0 rfl
  | @cons c d cs ds hd hf =>
    have hm : c ∈ [45] := by rw [e]; simp
    have := isDigit_range hd
    simp at hm
    omega

end Verif.Big
