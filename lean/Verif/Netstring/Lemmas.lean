import Verif.Netstring.Model
import Verif.Netstring.Spec
import Verif.ListUtil
/-! Helper lemmas for netstrings. -/
namespace Verif.Netstring
open Verif

theorem digitChar_toNat : ∀ d, d < 10 → (Nat.digitChar d).toNat = 48 + d := by decide

theorem decimal_lt {n : Nat} (h : n < 10) : decimal n = [48 + n] := by
  unfold decimal
  rw [Nat.toDigits_of_lt_base h]
  simp [digitChar_toNat n h]

theorem decimal_ge {n : Nat} (h : 10 ≤ n) : decimal n = decimal (n / 10) ++ [48 + n % 10] := by
  unfold decimal
  rw [Nat.toDigits_of_base_le (by omega) h]
  simp [digitChar_toNat (n % 10) (by omega)]

theorem isDigit_iff (c : Nat) : isDigit c = true ↔ 48 ≤ c ∧ c ≤ 57 := by
  unfold isDigit; simp

/-- Value of a digit string. -/
def val (ds : List Nat) : Nat := ds.foldl (fun a d => a * 10 + (d - 48)) 0

theorem val_snoc (ds : List Nat) (d : Nat) : val (ds ++ [d]) = val ds * 10 + (d - 48) := by
  unfold val; rw [List.foldl_append]; rfl

theorem decimal_all : ∀ n, ∀ c ∈ decimal n, isDigit c = true := by
  intro n
  induction n using Nat.strongRecOn with
  | _ n ih =>
    intro c hc
    rw [isDigit_iff]
    by_cases h : n < 10
    · rw [decimal_lt h] at hc; simp at hc; omega
    · rw [decimal_ge (by omega), List.mem_append] at hc
      rcases hc with hc | hc
      · exact (isDigit_iff c).1 (ih (n / 10) (by omega) c hc)
      · simp at hc; omega

theorem val_decimal : ∀ n, val (decimal n) = n := by
  intro n
  induction n using Nat.strongRecOn with
  | _ n ih =>
    by_cases h : n < 10
    · rw [decimal_lt h]; simp [val]
    · rw [decimal_ge (by omega), val_snoc, ih (n / 10) (by omega)]; omega

theorem decimal_ne_nil (n : Nat) : decimal n ≠ [] := by
  by_cases h : n < 10
  · rw [decimal_lt h]; simp
  · rw [decimal_ge (by omega)]; simp

theorem decimal_len_pos (n : Nat) : 0 < (decimal n).length :=
  List.length_pos_iff.2 (decimal_ne_nil n)

/-- The first digit is zero only for 0 itself. -/
theorem decimal_head : ∀ n, (decimal n)[0]? = some 48 → n = 0 := by
  intro n
  induction n using Nat.strongRecOn with
  | _ n ih =>
    intro hh
    by_cases h : n < 10
    · rw [decimal_lt h] at hh; simp at hh; omega
    · rw [decimal_ge (by omega), List.getElem?_append_left (decimal_len_pos _)] at hh
      have := ih (n / 10) (by omega) hh
      omega

theorem decimal_length_le : ∀ k n, n < 10 ^ (k + 1) → (decimal n).length ≤ k + 1 := by
  intro k
  induction k with
  | zero => intro n h; rw [decimal_lt (by omega)]; simp
  | succ k ih =>
    intro n h
    by_cases h10 : n < 10
    · rw [decimal_lt h10]; simp
    · rw [decimal_ge (by omega), List.length_append, List.length_singleton]
      have := ih (n / 10) (by rw [Nat.pow_succ] at h; omega)
      omega

theorem decimal_length_ge : ∀ k n, 10 ^ k ≤ n → k + 1 ≤ (decimal n).length := by
  intro k
  induction k with
  | zero => intro n h; have := decimal_len_pos n; omega
  | succ k ih =>
    intro n h
    rw [Nat.pow_succ] at h
    have : 1 ≤ 10 ^ k := Nat.one_le_pow _ _ (by omega)
    rw [decimal_ge (by omega), List.length_append, List.length_singleton]
    have := ih (n / 10) (by omega)
    omega

/-- Canonical digit strings are decimal notations. -/
theorem decimal_val : ∀ n (ds : List Nat), ds.length = n + 1 → (∀ c ∈ ds, isDigit c = true) →
    (2 ≤ ds.length → ds[0]? ≠ some 48) → decimal (val ds) = ds := by
  intro n
  induction n with
  | zero =>
    intro ds hl hd _
    match ds, hl with
    | [c], _ =>
      have := (isDigit_iff c).1 (hd c (by simp))
      have hv : val [c] = c - 48 := by simp [val]
      rw [hv, decimal_lt (by omega)]; congr 1; omega
  | succ n ih =>
    intro ds hl hd hz
    obtain ⟨as, d, rfl⟩ : ∃ as d, ds = as ++ [d] := by
      rcases List.eq_nil_or_concat ds with h | ⟨as, d, h⟩
      · subst h; simp at hl
      · exact ⟨as, d, by simpa using h⟩
    simp only [List.length_append, List.length_singleton, Nat.add_right_cancel_iff] at hl
    have h0 : (as ++ [d])[0]? = as[0]? := List.getElem?_append_left (by omega)
    rw [h0] at hz
    have hz' := hz (by simp; omega)
    have hih := ih as hl (fun c hc => hd c (by simp [hc])) (fun _ => hz')
    have hdd := (isDigit_iff d).1 (hd d (by simp))
    have hvpos : 0 < val as := by
      rcases Nat.eq_zero_or_pos (val as) with h | h
      · rw [h, decimal_lt (by omega)] at hih
        rw [← hih] at hz'; simp at hz'
      · exact h
    rw [val_snoc, decimal_ge (by omega)]
    have e1 : (val as * 10 + (d - 48)) / 10 = val as := by omega
    have e2 : (val as * 10 + (d - 48)) % 10 = d - 48 := by omega
    rw [e1, e2, hih]; congr 2; omega

/-- The digits at the start of a buffer. -/
def pre (b : List Nat) : List Nat := b.takeWhile isDigit

theorem pre_all (b : List Nat) : ∀ c ∈ pre b, isDigit c = true := by
  induction b with
  | nil => intro c hc; simp [pre] at hc
  | cons x t ih =>
    intro c hc
    unfold pre at hc
    rw [List.takeWhile_cons] at hc
    split at hc
    · rcases List.mem_cons.1 hc with rfl | h
      · assumption
      · exact ih c h
    · simp at hc

theorem pre_length (b : List Nat) : (pre b).length ≤ b.length := by
  induction b with
  | nil => simp [pre]
  | cons x t ih => unfold pre at *; rw [List.takeWhile_cons]; split <;> simp <;> omega

theorem pre_get (b : List Nat) (i : Nat) (h : i < (pre b).length) : b[i]? = (pre b)[i]? := by
  induction b generalizing i with
  | nil => simp [pre] at h
  | cons x t ih =>
    unfold pre at *
    rw [List.takeWhile_cons] at *
    split at h
    · rename_i hx
      rw [if_pos hx]
      cases i with
      | zero => rfl
      | succ i =>
        rw [List.getElem?_cons_succ, List.getElem?_cons_succ]
        exact ih i (by simpa using h)
    · simp at h

theorem pre_end (b : List Nat) (c : Nat) (h : b[(pre b).length]? = some c) : isDigit c = false := by
  induction b with
  | nil => simp at h
  | cons x t ih =>
    by_cases hx : isDigit x = true
    · have : pre (x :: t) = x :: pre t := by simp [pre, hx]
      rw [this] at h
      simp at h
      exact ih h
    · have : pre (x :: t) = [] := by simp [pre, hx]
      rw [this] at h
      simp at h
      subst h
      simpa using hx

theorem digitLoop_spec (b : List Nat) : ∀ i, i ≤ (pre b).length → i ≤ 9 →
    digitLoop b i (val ((pre b).take i)) =
      .ok (if (pre b).length ≤ 9 then .ok ((pre b).length, val (pre b)) else .error .tooLong) := by
  intro i
  induction hd : b.length - i using Nat.strongRecOn generalizing i with
  | _ d ih =>
    intro h1 h2
    have hlen := pre_length b
    rw [digitLoop]
    by_cases hi : i < (pre b).length
    · have hib : i < b.length := by omega
      have hg := pre_get b i hi
      rw [List.getElem?_eq_getElem hib, List.getElem?_eq_getElem hi] at hg
      have hg' : b[i] = (pre b)[i] := Option.some.inj hg
      have hr : rd b i = .ok (pre b)[i] := by
        unfold rd; rw [List.getElem?_eq_getElem hib, hg']
      rw [dif_pos hib, hr, Res.ok_bind, if_pos (pre_all b _ (List.getElem_mem hi))]
      by_cases h9 : i ≥ 9
      · rw [if_pos h9, if_neg (by omega)]; rfl
      · rw [if_neg h9]
        have ht : (pre b).take (i + 1) = (pre b).take i ++ [(pre b)[i]] := by
          rw [List.take_succ, List.getElem?_eq_getElem hi]; rfl
        have := ih (b.length - (i + 1)) (by omega) (i + 1) rfl (by omega) (by omega)
        rw [ht, val_snoc] at this
        exact this
    · have he : i = (pre b).length := by omega
      subst he
      rw [if_pos h2, List.take_of_length_le (Nat.le_refl _)]
      by_cases hib : (pre b).length < b.length
      · rw [dif_pos hib]
        have hr : rd b (pre b).length = .ok b[(pre b).length] := by
          unfold rd; rw [List.getElem?_eq_getElem hib]
        have := pre_end b b[(pre b).length] (List.getElem?_eq_getElem hib)
        rw [hr, Res.ok_bind, this]; rfl
      · rw [dif_neg hib]; rfl

/-- The whole reader, as a function of the leading digits. -/
theorem read_spec (b : List Nat) (h3 : 3 ≤ b.length) :
    read b = .ok (
      if b[0]? = some 48 ∧ (pre b).length ≥ 2 then .error .leadingZero
      else if (pre b).length = 0 then .error .noLength
      else if (pre b).length > 9 then .error .tooLong
      else if (pre b).length + val (pre b) + 1 ≥ b.length then .error .tooShort
      else if b[(pre b).length]? ≠ some 58 then .error .noColon
      else if b[(pre b).length + 1 + val (pre b)]? ≠ some 44 then .error .noComma
      else .ok ⟨(pre b).length + 1, val (pre b), (pre b).length + 1 + val (pre b) + 1,
        b.length - ((pre b).length + 1 + val (pre b) + 1)⟩) := by
  obtain ⟨c0, c1, t, rfl⟩ : ∃ c0 c1 t, b = c0 :: c1 :: t := by
    match b, h3 with
    | c0 :: c1 :: t, _ => exact ⟨c0, c1, t, rfl⟩
  have hrd : ∀ i, i < (c0 :: c1 :: t).length → ∃ c, (c0 :: c1 :: t)[i]? = some c ∧ rd (c0 :: c1 :: t) i = .ok c := by
    intro i hi
    exact ⟨_, List.getElem?_eq_getElem hi, by unfold rd; rw [List.getElem?_eq_getElem hi]⟩
  have h0 : rd (c0 :: c1 :: t) 0 = .ok c0 := rfl
  have h1 : rd (c0 :: c1 :: t) 1 = .ok c1 := rfl
  have hdl := digitLoop_spec (c0 :: c1 :: t) 0 (by omega) (by omega)
  rw [List.take_zero] at hdl
  have hv0 : val [] = 0 := rfl
  rw [hv0] at hdl
  have hp2 : ((c0 :: c1 :: t)[0]? = some 48 ∧ (pre (c0 :: c1 :: t)).length ≥ 2) ↔ c0 = 48 ∧ isDigit c1 = true := by
    constructor
    · rintro ⟨ha, hb⟩
      simp at ha
      refine ⟨ha, ?_⟩
      have := pre_get (c0 :: c1 :: t) 1 (by omega)
      apply pre_all (c0 :: c1 :: t)
      exact List.mem_of_getElem? this.symm
    · rintro ⟨rfl, hb⟩
      refine ⟨rfl, ?_⟩
      have : isDigit 48 = true := by decide
      simp [pre, this, hb]
  have hp0 : (pre (c0 :: c1 :: t)).length = 0 ↔ isDigit c0 = false := by
    unfold pre; rw [List.takeWhile_cons]
    cases isDigit c0 <;> simp
  generalize hb : (c0 :: c1 :: t) = b at *
  unfold read
  rw [if_neg (by omega), h0, Res.ok_bind]
  by_cases hz : c0 = 48 ∧ isDigit c1 = true
  · rw [if_pos (hp2.2 hz), if_pos hz.1, h1]
    simp [hz.2]
  · rw [if_neg (fun h => hz (hp2.1 h))]
    have hlead : (if c0 = 48 then (do let c1 ← rd b 1; return isDigit c1) else return false : Res Bool) = .ok false := by
      by_cases hc : c0 = 48
      · rw [if_pos hc, h1, Res.ok_bind]
        have : isDigit c1 = false := by
          cases hd : isDigit c1 with
          | false => rfl
          | true => exact absurd ⟨hc, hd⟩ hz
        rw [this]; rfl
      · rw [if_neg hc]; rfl
    rw [hlead, Res.ok_bind]
    by_cases hn : isDigit c0 = false
    · rw [if_pos (hp0.2 hn), hn]; rfl
    · have hn' : isDigit c0 = true := by simpa using hn
      rw [if_neg (fun h => hn (hp0.1 h)), hn', hdl, Res.ok_bind]
      by_cases h9 : (pre b).length ≤ 9
      · rw [if_pos h9, if_neg (c := (pre b).length > 9) (by omega)]
        simp only [Bool.not_true, Bool.false_eq_true, if_false]
        by_cases hs : (pre b).length + val (pre b) + 1 ≥ b.length
        · rw [if_pos hs, if_pos hs]; rfl
        · rw [if_neg hs, if_neg hs]
          obtain ⟨c, hc1, hc2⟩ := hrd (pre b).length (by omega)
          obtain ⟨d, hd1, hd2⟩ := hrd ((pre b).length + 1 + val (pre b)) (by omega)
          rw [hc2, Res.ok_bind, hc1]
          by_cases h58 : c = 58
          · rw [if_neg (by simp [h58]), if_neg (by simp [h58]), hd2, Res.ok_bind, hd1]
            by_cases h44 : d = 44
            · rw [if_neg (by simp [h44]), if_neg (by simp [h44])]; rfl
            · rw [if_pos h44, if_pos (by simp [h44])]; rfl
          · rw [if_pos h58, if_pos (by simp [h58])]; rfl
      · rw [if_neg h9, if_pos (c := (pre b).length > 9) (by omega)]; rfl

theorem pre_append (ds : List Nat) (hd : ∀ c ∈ ds, isDigit c = true) (t : List Nat)
    (ht : ∀ c, t[0]? = some c → isDigit c = false) : pre (ds ++ t) = ds := by
  induction ds with
  | nil =>
    cases t with
    | nil => rfl
    | cons x t => have := ht x rfl; simp [pre, this]
  | cons x ds ih =>
    have hx := hd x (by simp)
    have := ih (fun c hc => hd c (by simp [hc]))
    unfold pre at *
    rw [List.cons_append, List.takeWhile_cons, if_pos hx, this]

theorem numdigits_eq (n : Nat) (h : n < 10 ^ 16) : numdigits n = (decimal n).length := by
  have key : ∀ k, 10 ^ k ≤ n → n < 10 ^ (k + 1) → (decimal n).length = k + 1 := by
    intro k h1 h2
    have := decimal_length_le k n h2
    have := decimal_length_ge k n h1
    omega
  have z : n < 1 → (decimal n).length = 1 := by intro h; rw [decimal_lt (by omega)]; rfl
  have k0 := key 0; have k1 := key 1; have k2 := key 2; have k3 := key 3; have k4 := key 4
  have k5 := key 5; have k6 := key 6; have k7 := key 7; have k8 := key 8; have k9 := key 9
  have k10 := key 10; have k11 := key 11; have k12 := key 12; have k13 := key 13
  have k14 := key 14; have k15 := key 15
  simp only [Nat.reducePow, Nat.reduceAdd] at *
  generalize (decimal n).length = L at *
  clear key
  unfold numdigits
  by_cases a1 : n ≥ 100000000
  · rw [if_pos a1]; simp only
    by_cases a2 : n / 100000000 ≥ 10000
    · rw [if_pos a2]; simp only
      by_cases a3 : n / 100000000 / 10000 ≥ 100
      · rw [if_pos a3]; simp only; split <;> omega
      · rw [if_neg a3]; simp only; split <;> omega
    · rw [if_neg a2]; simp only
      by_cases a3 : n / 100000000 ≥ 100
      · rw [if_pos a3]; simp only; split <;> omega
      · rw [if_neg a3]; simp only; split <;> omega
  · rw [if_neg a1]; simp only
    by_cases a2 : n ≥ 10000
    · rw [if_pos a2]; simp only
      by_cases a3 : n / 10000 ≥ 100
      · rw [if_pos a3]; simp only; split <;> omega
      · rw [if_neg a3]; simp only; split <;> omega
    · rw [if_neg a2]; simp only
      by_cases a3 : n ≥ 100
      · rw [if_pos a3]; simp only; split <;> omega
      · rw [if_neg a3]; simp only; split <;> omega

end Verif.Netstring
