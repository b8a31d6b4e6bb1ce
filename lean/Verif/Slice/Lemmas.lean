import Verif.Slice.Spec
import Verif.ListUtil
import Mathlib.Tactic.Linarith
/-! Helper lemmas for the slicing theorems. -/
namespace Verif.Slice
open Verif

theorem ceil_lt {d st k : Int} (hd : 0 < d) (hst : 0 < st) :
    k < d.tdiv st + (if d.tmod st ≠ 0 then 1 else 0) ↔ k * st < d := by
  rw [Int.tdiv_eq_ediv_of_nonneg (by omega), Int.tmod_eq_emod_of_nonneg (by omega)]
  have h1 := Int.emod_add_mul_ediv d st
  have h2 := Int.emod_nonneg d (by omega : st ≠ 0)
  have h3 := Int.emod_lt_of_pos d hst
  generalize d / st = q at *
  generalize d % st = r at *
  constructor
  · intro h
    split at h
    · have : k ≤ q := by omega
      have : k * st ≤ q * st := Int.mul_le_mul_of_nonneg_right this (by omega)
      have : 0 < r := by omega
      nlinarith
    · have : k + 1 ≤ q := by omega
      have : (k + 1) * st ≤ q * st := Int.mul_le_mul_of_nonneg_right this (by omega)
      nlinarith
  · intro h
    by_contra hc
    split at hc
    · have : q + 1 ≤ k := by omega
      have : (q + 1) * st ≤ k * st := Int.mul_le_mul_of_nonneg_right this (by omega)
      nlinarith
    · have : q ≤ k := by omega
      have : q * st ≤ k * st := Int.mul_le_mul_of_nonneg_right this (by omega)
      have : r = 0 := by omega
      nlinarith

theorem ceil_neg (a b step : Int) :
    (b - a).tdiv step + (if (b - a).tmod step ≠ 0 then (1:Int) else 0)
     = (a - b).tdiv (-step) + (if (a - b).tmod (-step) ≠ 0 then (1:Int) else 0) := by
  have e1 : b - a = -(a - b) := by omega
  rw [e1, Int.neg_tdiv, Int.neg_tmod, Int.tdiv_neg, Int.tmod_neg]
  simp

theorem sliceLoop_spec (l : List α) (step : Int) (n : Nat) :
    ∀ t : Int, (∀ k : Nat, k < n → 0 ≤ t + k * step ∧ t + k * step < l.length) →
      ∃ out, sliceLoop l step t n = .ok out ∧
        out.map some = (List.range n).map (fun k : Nat => l[(t + k * step).toNat]?) := by
  induction n with
  | zero => intro t _; exact ⟨[], rfl, rfl⟩
  | succ n ih =>
    intro t h
    have h0 := h 0 (by omega)
    simp only [Int.natCast_zero, Int.zero_mul, Int.add_zero] at h0
    obtain ⟨out, ho, he⟩ := ih (t + step) (by
      intro k hk
      have := h (k + 1) (by omega)
      have e : t + ((k + 1 : Nat) : Int) * step = t + step + k * step := by
        push_cast; rw [Int.add_mul]; omega
      rw [e] at this; exact this)
    have hr : l[t.toNat]? = some (l[t.toNat]'(by omega)) := List.getElem?_eq_getElem _
    refine ⟨l[t.toNat]'(by omega) :: out, ?_, ?_⟩
    · simp only [sliceLoop, rd]
      rw [if_neg (by omega), hr]
      simp [ho]
    · rw [List.map_cons, he, List.range_succ_eq_map, List.map_cons, List.map_map]
      congr 1
      · simp
      · apply List.map_congr_left
        intro k _
        simp only [Function.comp, Nat.succ_eq_add_one]
        congr 2
        push_cast; rw [Int.add_mul]; omega

/-- positions for positive steps, given a normalised start/stop/count -/
theorem positions_pos {len : Nat} {s e step : Int} {n : Nat} (hst : 0 < step) (hs : 0 ≤ s)
    (he : e ≤ len) (hn : ∀ k : Int, 0 ≤ k → (k < n ↔ s + k * step < e)) :
    (List.range len).filter (fun i : Nat => s ≤ i ∧ (i:Int) < e ∧ ((i:Int) - s) % step = 0)
      = (List.range n).map (fun k : Nat => (s + k * step).toNat) := by
  apply nat_sorted_ext
  · exact List.Pairwise.filter _ List.pairwise_lt_range
  · rw [List.pairwise_map]
    apply List.Pairwise.imp _ List.pairwise_lt_range
    intro a b hab
    have : (a:Int) * step < b * step := Int.mul_lt_mul_of_pos_right (by omega) hst
    have : 0 ≤ (a:Int) * step := Int.mul_nonneg (by omega) (by omega)
    omega
  · intro i
    simp only [List.mem_filter, List.mem_range, List.mem_map, decide_eq_true_eq]
    constructor
    · rintro ⟨h1, h2, h3, h4⟩
      obtain ⟨k, hk⟩ := Int.dvd_of_emod_eq_zero h4
      have hk0 : 0 ≤ k := by
        by_contra hc
        have : step * k < 0 := Int.mul_neg_of_pos_of_neg hst (by omega)
        omega
      have hk' : s + k * step = i := by rw [Int.mul_comm]; omega
      refine ⟨k.toNat, ?_, ?_⟩
      · have := (hn k hk0).2 (by omega)
        omega
      · rw [Int.toNat_of_nonneg hk0]; omega
    · rintro ⟨k, hk, rfl⟩
      have h1 := (hn k (by omega)).1 (by omega)
      have : 0 ≤ (k:Int) * step := Int.mul_nonneg (by omega) (by omega)
      have e1 : ((s + k * step).toNat : Int) = s + k * step := Int.toNat_of_nonneg (by omega)
      refine ⟨by omega, by omega, by omega, ?_⟩
      rw [e1, Int.add_comm, Int.add_sub_cancel]
      exact Int.mul_emod_left _ _

theorem positions_neg {len : Nat} {s e step : Int} {n : Nat} (hst : step < 0) (hs : s < len)
    (he : -1 ≤ e) (hn : ∀ k : Int, 0 ≤ k → (k < n ↔ e < s + k * step)) :
    (List.range len).reverse.filter (fun i : Nat => (i:Int) ≤ s ∧ e < i ∧ (s - i) % (-step) = 0)
      = (List.range n).map (fun k : Nat => (s + k * step).toNat) := by
  apply sorted_ext (r := fun a b : Nat => a > b) (fun _ => Nat.lt_irrefl _)
    (fun _ _ h => Nat.not_lt_of_gt h)
  · apply List.Pairwise.filter
    rw [List.pairwise_reverse]
    exact List.pairwise_lt_range
  · rw [List.pairwise_map]
    have : (List.range n).Pairwise (fun a b => a < b ∧ b < n) := by
      rw [List.pairwise_iff_forall_sublist]
      intro a b hab
      have := hab.subset (by simp : b ∈ [a, b])
      refine ⟨?_, by simpa using this⟩
      exact List.pairwise_iff_forall_sublist.1 List.pairwise_lt_range hab
    apply List.Pairwise.imp _ this
    rintro a b ⟨hab, hb⟩
    have h1 : (b:Int) * step < a * step := Int.mul_lt_mul_of_neg_right (by omega) hst
    have h2 := (hn b (by omega)).1 (by omega)
    omega
  · intro i
    simp only [List.mem_filter, List.mem_reverse, List.mem_range, List.mem_map, decide_eq_true_eq]
    constructor
    · rintro ⟨h1, h2, h3, h4⟩
      obtain ⟨k, hk⟩ := Int.dvd_of_emod_eq_zero h4
      have hk0 : 0 ≤ k := by
        by_contra hc
        have : -step * k < 0 := Int.mul_neg_of_pos_of_neg (by omega) (by omega)
        omega
      have hk' : s + k * step = i := by
        have : -step * k = -(k * step) := by rw [Int.neg_mul, Int.mul_comm]
        omega
      refine ⟨k.toNat, ?_, ?_⟩
      · have := (hn k hk0).2 (by omega)
        omega
      · rw [Int.toNat_of_nonneg hk0]; omega
    · rintro ⟨k, hk, rfl⟩
      have h1 := (hn k (by omega)).1 (by omega)
      have : (k:Int) * step ≤ 0 := Int.mul_nonpos_of_nonneg_of_nonpos (by omega) (by omega)
      have e1 : ((s + k * step).toNat : Int) = s + k * step := Int.toNat_of_nonneg (by omega)
      refine ⟨by omega, by omega, by omega, ?_⟩
      rw [e1]
      have : s - (s + k * step) = k * (-step) := by rw [Int.mul_neg]; omega
      rw [this]
      exact Int.mul_emod_left _ _

/-- What `normalize_slice` establishes. -/
structure NormOk (len : Nat) (s : Slc) (n : Norm) : Prop where
  eq : normalizeSlice s len = .ok n
  step : n.step = s.step.getD 1
  slen : 0 ≤ n.slen
  range : ∀ k : Nat, k < n.slen.toNat → 0 ≤ n.start + k * n.step ∧ n.start + k * n.step < len
  pos : positions len s.start s.stop n.step =
    (List.range n.slen.toNat).map (fun k : Nat => (n.start + k * n.step).toNat)

/-- Normalisation with a positive step. -/
theorem normalize_pos (len : Nat) (s : Slc) (h : 0 < s.step.getD 1) :
    ∃ n, NormOk len s n ∧ n.start = normStart len (s.step.getD 1) s.start ∧
      n.stop = normStop len (s.step.getD 1) s.stop ∧
      0 ≤ n.start ∧ n.start ≤ len ∧ 0 ≤ n.stop ∧ n.stop ≤ len ∧
      (n.step = 1 → n.slen = max 0 (n.stop - n.start)) := by
  have hne : ¬ s.step.getD 1 = 0 := by omega
  generalize hst : s.step.getD 1 = step at *
  generalize ha : normStart len step s.start = a
  generalize hb : normStop len step s.stop = b
  have hnorm : normalizeSlice s len = .ok ⟨(if (step > 0 ∧ a ≥ b) ∨ (step < 0 ∧ a ≤ b) then 0
      else (b - a).tdiv step + (if (b - a).tmod step ≠ 0 then 1 else 0)), a, b, step⟩ := by
    unfold normalizeSlice
    simp only [hst, if_neg hne, ha, hb]
  have ha' : 0 ≤ a ∧ a ≤ len := by
    subst ha; unfold normStart; split
    · rw [if_pos h]; omega
    · unfold normBound; split <;> split <;> omega
  have hb' : 0 ≤ b ∧ b ≤ len := by
    subst hb; unfold normStop; split
    · rw [if_pos h]; omega
    · unfold normBound; split <;> split <;> omega
  have hpos : positions len s.start s.stop step =
      (List.range len).filter (fun i : Nat => a ≤ i ∧ (i:Int) < b ∧ ((i:Int) - a) % step = 0) := by
    unfold positions
    rw [if_pos h]
    simp only
    by_cases hal : a < len
    · have e1 : max 0 ((s.start.map (fromEnd len)).getD 0) = a := by
        subst ha
        unfold normStart at *
        cases hs : s.start with
        | none => simp [h]
        | some x =>
          simp only [hs] at hal
          simp only [Option.map_some, Option.getD_some, fromEnd]
          unfold normBound at hal ⊢
          split at hal <;> split at hal <;> split <;> omega
      rw [e1]
      apply List.filter_congr
      intro i hi
      rw [List.mem_range] at hi
      have e2 : ((i:Int) < (s.stop.map (fromEnd len)).getD len) ↔ (i:Int) < b := by
        subst hb
        unfold normStop at *
        cases hs : s.stop with
        | none => simp [h]
        | some x =>
          simp only [Option.map_some, Option.getD_some, fromEnd]
          unfold normBound
          split <;> split <;> (try split) <;> omega
      simp only [e2]
    · have hal2 : a = len := by omega
      have e1 : (len:Int) ≤ max 0 ((s.start.map (fromEnd len)).getD 0) := by
        subst ha
        unfold normStart at *
        cases hs : s.start with
        | none => simp only [hs, if_pos h] at hal; simp; omega
        | some x =>
          simp only [hs] at hal
          simp only [Option.map_some, Option.getD_some, fromEnd]
          unfold normBound at hal
          split at hal <;> split at hal <;> split <;> omega
      rw [List.filter_eq_nil_iff.2, List.filter_eq_nil_iff.2]
      · intro i hi
        rw [List.mem_range] at hi
        simp only [decide_eq_true_eq]; omega
      · intro i hi
        rw [List.mem_range] at hi
        simp only [decide_eq_true_eq]; omega
  clear ha hb
  refine ⟨_, ⟨hnorm, ?_, ?_, ?_, ?_⟩, rfl, rfl, ha'.1, ha'.2, hb'.1, hb'.2, ?_⟩
  · exact hst.symm
  all_goals
    simp only
    by_cases hab : a ≥ b
    · rw [if_pos (Or.inl ⟨h, hab⟩)] <;>
      first
      | omega
      | (intro k hk; simp at hk)
      | (intro _; omega)
      | (rw [hpos]
         exact List.filter_eq_nil_iff.2 (by
           intro i hi; simp only [decide_eq_true_eq]; omega))
    · rw [if_neg (by omega)]
      generalize hsl : (b - a).tdiv step + (if (b - a).tmod step ≠ 0 then (1:Int) else 0) = sl
      have hn : ∀ k : Int, k < sl ↔ a + k * step < b := by
        intro k; subst hsl
        rw [ceil_lt (by omega) h]; omega
      have hsl0 : 0 < sl := (hn 0).2 (by omega)
      have hn' : ∀ k : Int, 0 ≤ k → (k < sl.toNat ↔ a + k * step < b) := by
        intro k _; rw [← hn k]; omega
      first
      | omega
      | (rw [hpos, positions_pos h ha'.1 hb'.2 hn'])
      | (intro k hk
         have := (hn' k (by omega)).1 (by omega)
         have : 0 ≤ (k:Int) * step := Int.mul_nonneg (by omega) (by omega)
         omega)
      | (intro h1; subst h1
         have h2 := hn (sl - 1)
         have h3 := hn sl
         simp only [Int.mul_one] at h2 h3
         omega)

/-- Normalisation with a negative step, bounds not below `-len`. -/
theorem normalize_neg (len : Nat) (s : Slc) (h : s.step.getD 1 < 0)
    (h1 : ∀ x ∈ s.start, -(len : Int) ≤ x) (h2 : ∀ x ∈ s.stop, -(len : Int) ≤ x) :
    ∃ n, NormOk len s n := by
  have hne : ¬ s.step.getD 1 = 0 := by omega
  generalize hst : s.step.getD 1 = step at *
  generalize ha : normStart len step s.start = a
  generalize hb : normStop len step s.stop = b
  have hnorm : normalizeSlice s len = .ok ⟨(if (step > 0 ∧ a ≥ b) ∨ (step < 0 ∧ a ≤ b) then 0
      else (b - a).tdiv step + (if (b - a).tmod step ≠ 0 then 1 else 0)), a, b, step⟩ := by
    unfold normalizeSlice
    simp only [hst, if_neg hne, ha, hb]
  have hns : ¬ step > 0 := by omega
  have ha' : -1 ≤ a ∧ a < len ∧ a = min ((len:Int) - 1) ((s.start.map (fromEnd len)).getD (len - 1)) := by
    subst ha
    unfold normStart
    cases hs : s.start with
    | none => simp [hns]
    | some x =>
      have := h1 x (by simp [hs])
      simp only [Option.map_some, Option.getD_some, fromEnd]
      unfold normBound; split <;> split <;> (try split) <;> omega
  have hb' : -1 ≤ b ∧ (a ≤ b ↔ a ≤ max (-1) ((s.stop.map (fromEnd len)).getD (-1))) ∧
      (¬ a ≤ b → b = max (-1) ((s.stop.map (fromEnd len)).getD (-1))) := by
    subst hb
    unfold normStop
    cases hs : s.stop with
    | none => simp [hns]
    | some x =>
      have := h2 x (by simp [hs])
      simp only [Option.map_some, Option.getD_some, fromEnd]
      unfold normBound; split <;> split <;> (try split) <;> omega
  have hpos : positions len s.start s.stop step =
      (List.range len).reverse.filter (fun i : Nat => (i:Int) ≤ a ∧ b < i ∧ (a - i) % (-step) = 0) := by
    unfold positions
    rw [if_neg hns]
    simp only
    rw [← ha'.2.2]
    by_cases hab : a ≤ b
    · have := hb'.2.1.1 hab
      rw [List.filter_eq_nil_iff.2, List.filter_eq_nil_iff.2]
      · intro i hi
        simp only [decide_eq_true_eq]; omega
      · intro i hi
        simp only [decide_eq_true_eq]; omega
    · rw [← hb'.2.2 hab]
  clear ha hb
  refine ⟨_, ⟨hnorm, ?_, ?_, ?_, ?_⟩⟩
  · exact hst.symm
  all_goals
    simp only
    by_cases hab : a ≤ b
    · rw [if_pos (Or.inr ⟨h, hab⟩)] <;>
      first
      | omega
      | (intro k hk; simp at hk)
      | (intro _; omega)
      | (rw [hpos]
         exact List.filter_eq_nil_iff.2 (by
           intro i hi; simp only [decide_eq_true_eq]; omega))
    · rw [if_neg (by omega)]
      rw [ceil_neg]
      generalize hsl : (a - b).tdiv (-step) + (if (a - b).tmod (-step) ≠ 0 then (1:Int) else 0) = sl
      have hn : ∀ k : Int, k < sl ↔ b < a + k * step := by
        intro k; subst hsl
        rw [ceil_lt (by omega) (by omega), Int.mul_neg]; omega
      have hsl0 : 0 < sl := (hn 0).2 (by omega)
      have hn' : ∀ k : Int, 0 ≤ k → (k < sl.toNat ↔ b < a + k * step) := by
        intro k _; rw [← hn k]; omega
      first
      | omega
      | (rw [hpos, positions_neg h ha'.2.1 hb'.1 hn'])
      | (intro k hk
         have := (hn' k (by omega)).1 (by omega)
         have : (k:Int) * step ≤ 0 := Int.mul_nonpos_of_nonneg_of_nonpos (by omega) (by omega)
         omega)

theorem getslice_of_norm (l : List α) (s : Slc) (n : Norm) (h : NormOk l.length s n)
    (hne : s.step.getD 1 ≠ 0) : SliceSpec l s (getslice l s) := by
  unfold SliceSpec
  simp only
  rw [if_neg hne]
  unfold getslice
  rw [h.eq, Res.ok_bind, ← h.step, h.pos]
  obtain ⟨out, h1, h2⟩ := sliceLoop_spec l n.step n.slen.toNat n.start h.range
  exact ⟨out, h1, by rw [h2, List.map_map]; rfl⟩

/-- Slicing with a positive step. -/
theorem getslice_pos (l : List α) (s : Slc) (h : 0 < s.step.getD 1) :
    SliceSpec l s (getslice l s) := by
  obtain ⟨n, hn, _⟩ := normalize_pos l.length s h
  exact getslice_of_norm l s n hn (by omega)

/-- Slicing with a negative step, bounds not below `-len`. -/
theorem getslice_neg (l : List α) (s : Slc) (h : s.step.getD 1 < 0)
    (h1 : ∀ x ∈ s.start, -(l.length : Int) ≤ x) (h2 : ∀ x ∈ s.stop, -(l.length : Int) ≤ x) :
    SliceSpec l s (getslice l s) := by
  obtain ⟨n, hn⟩ := normalize_neg l.length s h h1 h2
  exact getslice_of_norm l s n hn (by omega)

end Verif.Slice
