import Verif.Random.Model
import Verif.Random.Spec
import Mathlib.Data.List.Perm.Subperm
/-!
# C75, C76: numbers and samples of the module `random`
-/
namespace Verif.Random
open Verif

theorem randMax_eq : randMax = 2147483647 := rfl

theorem wrap_range {lo hi : Int} (h : lo < hi) (h2 : hi - lo ≤ randMax) : wrap64 (hi - lo) = hi - lo := by
  rw [randMax_eq] at h2
  exact wrap64_of_in (by unfold InI64; omega)

theorem stop_eq {n : Int} (h : 0 < n) : stop n = .ok (randMax / n * n) := by
  unfold stop
  rw [if_neg (by omega), Int.tdiv_eq_ediv_of_nonneg (by rw [randMax_eq]; omega)]
  have h1 : randMax / n * n ≤ randMax := Int.ediv_mul_le _ (by omega)
  have h0 : 0 ≤ randMax / n * n := Int.mul_nonneg (Int.ediv_nonneg (by rw [randMax_eq]; omega) (by omega)) (by omega)
  have hm := randMax_eq
  generalize randMax / n * n = e at *
  rw [wrap64_of_in (by unfold InI64; omega)]

theorem stop_half {n : Int} (h : 0 < n) (h2 : n ≤ randMax) : randMax < 2 * (randMax / n * n) := by
  have h1 : 0 < randMax / n := Int.ediv_pos_of_pos_of_dvd h (by omega) (Int.one_dvd _) |> fun _ => by
    exact Int.le_ediv_of_mul_le h (by omega)
  have h3 := Int.mul_ediv_add_emod randMax n
  have h4 := Int.emod_lt_of_pos randMax h
  have h5 : n ≤ randMax / n * n := by
    have := Int.mul_le_mul_of_nonneg_right (show 1 ≤ randMax / n by omega) (show 0 ≤ n by omega)
    omega
  rw [Int.mul_comm] at h3
  omega

theorem draw_spec (e : Int) (ds : List Int) : draw e ds = .diverge ∧ (∀ d ∈ ds, e ≤ d) ∨
    ∃ a r b, ds = a ++ r :: b ∧ (∀ d ∈ a, e ≤ d) ∧ r < e ∧ draw e ds = .ok (r, b) := by
  induction ds with
  | nil => exact Or.inl ⟨rfl, by simp⟩
  | cons d ds ih =>
    unfold draw
    by_cases h : d ≥ e
    · rw [if_pos h]
      rcases ih with ⟨h1, h2⟩ | ⟨a, r, b, rfl, h1, h2, h3⟩
      · refine Or.inl ⟨h1, ?_⟩
        intro x hx
        rcases List.mem_cons.1 hx with rfl | hx
        · exact h
        · exact h2 x hx
      · refine Or.inr ⟨d :: a, r, b, rfl, ?_, h2, h3⟩
        intro x hx
        rcases List.mem_cons.1 hx with rfl | hx
        · exact h
        · exact h1 x hx
    · rw [if_neg h]
      exact Or.inr ⟨[], d, ds, rfl, by simp, by omega, rfl⟩

/-- The value that an accepted draw gives. -/
theorem randint_eq {lo hi : Int} (hlo : InI64 lo) (hhi : InI64 hi) (h : lo < hi) (h2 : hi - lo ≤ randMax) (ds : List Int)
    (hd : Draws randMax ds) :
    randint lo hi ds = (draw (randMax / (hi - lo) * (hi - lo)) ds).bind fun p => .ok (lo + p.1 % (hi - lo), p.2) := by
  unfold randint
  rw [if_neg (by omega), wrap_range h h2]
  simp only
  rw [stop_eq (show 0 < hi - lo by omega)]
  rcases draw_spec (randMax / (hi - lo) * (hi - lo)) ds with ⟨e, -⟩ | ⟨a, r, b, rfl, h1, h3, e⟩
  · simp only [Res.ok_bind]
    rw [e]; rfl
  · simp only [Res.ok_bind]
    rw [e]
    have hr := hd r (by simp)
    have h4 := Int.emod_lt_of_pos r (show 0 < hi - lo by omega)
    have h5 := Int.emod_nonneg r (show hi - lo ≠ 0 by omega)
    simp only [Res.ok_bind, Res.bind, Int.tmod_eq_emod_of_nonneg hr.1]
    unfold InI64 at *
    rw [wrap64_of_in (by unfold InI64; omega)]
    rfl

/-- C75: `randint(lo, hi)` is in `[lo, hi)`, when it returns; and it returns with the first value of `rand` in the lower half
(or earlier). Missing for the full claim: `lo = hi`, and ranges above `RAND_MAX`. -/
theorem C75_range_partial {lo hi : Int} (hlo : InI64 lo) (hhi : InI64 hi) (h : lo < hi) (h2 : hi - lo ≤ randMax) (ds : List Int)
    (hd : Draws randMax ds) :
    (randint lo hi ds = .diverge ∧ ∀ d ∈ ds, randMax < 2 * d) ∨ ∃ v ds', randint lo hi ds = .ok (v, ds') ∧ lo ≤ v ∧ v < hi := by
  rw [randint_eq hlo hhi h h2 ds hd]
  have hh := stop_half (show 0 < hi - lo by omega) h2
  rcases draw_spec (randMax / (hi - lo) * (hi - lo)) ds with ⟨e, hall⟩ | ⟨a, r, b, rfl, h1, h3, e⟩
  · rw [e]
    refine Or.inl ⟨rfl, fun d hd => ?_⟩
    have := hall d hd
    omega
  · rw [e]
    have h4 := Int.emod_lt_of_pos r (show 0 < hi - lo by omega)
    have h5 := Int.emod_nonneg r (show hi - lo ≠ 0 by omega)
    exact Or.inr ⟨_, b, rfl, by simp only; omega, by simp only; omega⟩

example : randint (-3) 4 [2147483647, 2147483646, 12] = .ok (2, []) := by decide +kernel

theorem range_count (n j : Nat) (hj : j < n) : ∀ q, (List.range (q * n)).countP (fun d => d % n = j) = q := by
  intro q
  induction q with
  | zero => simp
  | succ q ih =>
    rw [Nat.add_mul, Nat.one_mul, List.range_add, List.countP_append, ih, List.countP_map]
    have : (List.range n).countP ((fun d => decide (d % n = j)) ∘ (q * n + ·)) = (List.range n).countP (fun i => i == j) := by
      apply List.countP_congr
      intro i hi
      have hi := List.mem_range.1 hi
      simp only [Function.comp, decide_eq_true_eq, beq_iff_eq]
      rw [Nat.mul_comm, Nat.mul_add_mod, Nat.mod_eq_of_lt hi]
    rw [this]
    have h1 : (List.range n).count j = 1 := by
      rw [List.nodup_range.count, if_pos (List.mem_range.2 hj)]
    unfold List.count at h1
    rw [h1]

/-- C75: all numbers of the range are equally likely: each of them comes from the same number of values of `rand`. -/
theorem C75_uniform_partial {lo hi v : Int} (hlo : InI64 lo) (hhi : InI64 hi) (h : lo < hi) (h2 : hi - lo ≤ randMax) (hv : lo ≤ v)
    (hv2 : v < hi) :
    (List.range (randMax.toNat + 1)).countP (fun d : Nat => decide (randint lo hi [(d : Int)] = .ok (v, []))) =
      (randMax / (hi - lo)).toNat := by
  obtain ⟨n, hn⟩ : ∃ n : Nat, hi - lo = n := ⟨(hi - lo).toNat, by omega⟩
  obtain ⟨j, hj⟩ : ∃ j : Nat, v - lo = j := ⟨(v - lo).toNat, by omega⟩
  have hm : randMax = (randMax.toNat : Int) := by rw [randMax_eq]; rfl
  generalize hM : randMax.toNat = M at hm
  have hq : randMax / (hi - lo) = ((M / n : Nat) : Int) := by rw [hm, hn]; exact (Int.natCast_ediv M n).symm
  have hle : M / n * n ≤ M := Nat.div_mul_le_self M n
  have key : ∀ d ∈ List.range (M + 1), (decide (randint lo hi [(d : Int)] = .ok (v, [])) = true ↔ d < M / n * n ∧ d % n = j) := by
    intro d hd
    have hd := List.mem_range.1 hd
    rw [decide_eq_true_iff, randint_eq hlo hhi h h2 [(d : Int)] (by
      intro x hx
      simp only [List.mem_cons, List.not_mem_nil, or_false] at hx
      subst hx
      rw [hm]
      omega), hq, hn]
    have e2 : ((M / n : Nat) : Int) * (n : Int) = ((M / n * n : Nat) : Int) := (Int.natCast_mul _ _).symm
    rw [e2]
    generalize M / n * n = s
    unfold draw
    by_cases hs : (d : Int) ≥ (s : Int)
    · rw [if_pos hs]
      unfold draw
      constructor
      · intro h; exact absurd h (by simp [Res.bind])
      · intro h; omega
    · rw [if_neg hs]
      have e3 : (d : Int) % (n : Int) = ((d % n : Nat) : Int) := (Int.natCast_emod d n).symm
      simp only [Res.bind, Res.ok.injEq, Prod.mk.injEq, and_true, e3]
      omega
  rw [hq, Int.toNat_natCast]
  have step : (List.range (M + 1)).countP (fun d : Nat => decide (randint lo hi [(d : Int)] = .ok (v, []))) =
      (List.range (M + 1)).countP (fun d => decide (d < M / n * n ∧ d % n = j)) := by
    apply List.countP_congr
    intro d hd
    rw [key d hd, decide_eq_true_iff]
  rw [step]
  generalize hs : M / n * n = s at hle
  have split : M + 1 = s + (M + 1 - s) := by omega
  rw [split, List.range_add, List.countP_append]
  have c1 : (List.range s).countP (fun d => decide (d < s ∧ d % n = j)) = M / n := by
    rw [← range_count n j (by omega) (M / n), hs]
    apply List.countP_congr
    intro d hd
    have := List.mem_range.1 hd
    simp [this]
  have c2 : ((List.range (M + 1 - s)).map (s + ·)).countP (fun d => decide (d < s ∧ d % n = j)) = 0 := by
    rw [List.countP_eq_zero]
    intro d hd
    obtain ⟨i, -, rfl⟩ := List.mem_map.1 hd
    simp only [decide_eq_true_eq]
    omega
  rw [c1, c2, Nat.add_zero]

/-- C75: `randint(x, x)` divides by zero. -/
theorem C75_refuted_empty (x : Int) (ds : List Int) : randint x x ds = .ub := by
  unfold randint
  rw [if_neg (by omega), Int.sub_self]
  rfl

/-- C75: for a range above `RAND_MAX` it never returns, whatever `rand` gives. -/
theorem C75_refuted_wide {lo hi : Int} (h : randMax < hi - lo) (h2 : hi - lo < 2^63) (ds : List Int) (hd : Draws randMax ds) :
    randint lo hi ds = .diverge := by
  have hw : wrap64 (hi - lo) = hi - lo := wrap64_of_in (by rw [randMax_eq] at h; unfold InI64; omega)
  have hq : randMax / (hi - lo) = 0 := Int.ediv_eq_zero_of_lt (by rw [randMax_eq]; omega) h
  have h0 : 0 < hi - lo := by rw [randMax_eq] at h; omega
  unfold randint
  rw [if_neg (by omega), hw]
  simp only
  rw [stop_eq h0, hq]
  simp only [Res.ok_bind]
  rcases draw_spec (0 * (hi - lo)) ds with ⟨e, -⟩ | ⟨a, r, b, rfl, -, h3, -⟩
  · rw [e]; rfl
  · have := (hd r (by simp)).1
    omega

example : randint 0 (2^31) [5, 7, 2147483647] = .diverge := by decide +kernel

/-- `randint` with an empty range of arguments raises. -/
theorem C75_raises {lo hi : Int} (h : hi < lo) (ds : List Int) : randint lo hi ds = .raise .valueError := by
  unfold randint
  rw [if_pos (by omega)]

/-! ### Samples -/

/-- The part of the values that is always accepted. -/
def Low (ds : List Int) : Prop := ∀ d ∈ ds, 0 ≤ d ∧ 2 * d ≤ randMax

theorem choice_spec {α : Type} {l : List α} (hl : l ≠ []) (hmax : (l.length : Int) ≤ randMax) (ds : List Int) (hd : Draws randMax ds) :
    (choice l ds = .diverge ∧ ∀ d ∈ ds, randMax < 2 * d) ∨
    ∃ (i : Nat) (h : i < l.length) (a b : List Int) (r : Int), ds = a ++ r :: b ∧ (∀ d ∈ a, randMax < 2 * d) ∧ choice l ds = .ok (l[i], b) := by
  have hpos : 0 < l.length := List.length_pos_iff.2 hl
  unfold choice
  rw [if_neg (by omega), randint_eq (by unfold InI64; omega) (by rw [randMax_eq] at hmax; unfold InI64; omega) (by omega) (by omega) ds hd]
  have hh := stop_half (n := (l.length : Int) - 0) (by omega) (by omega)
  rcases draw_spec (randMax / ((l.length : Int) - 0) * ((l.length : Int) - 0)) ds with ⟨e, hall⟩ | ⟨a, r, b, rfl, h1, h3, e⟩
  · rw [e]
    refine Or.inl ⟨rfl, fun d hd => ?_⟩
    have := hall d hd
    omega
  · rw [e]
    have h4 := Int.emod_lt_of_pos r (show 0 < (l.length : Int) - 0 by omega)
    have h5 := Int.emod_nonneg r (show (l.length : Int) - 0 ≠ 0 by omega)
    refine Or.inr ⟨(0 + r % ((l.length : Int) - 0)).toNat, by omega, a, b, r, rfl, ?_, ?_⟩
    · intro d hd
      have := h1 d hd
      omega
    · simp only [Res.bind, Res.ok_bind]
      unfold nth
      rw [List.getElem?_eq_getElem (by omega)]
      rfl

/-- C76: `choice` returns an element; it fails on an empty sequence, and only there. -/
theorem C76_choice_partial {α : Type} (l : List α) (hmax : (l.length : Int) ≤ randMax) (ds : List Int) (hd : Draws randMax ds) :
    (l = [] ∧ choice l ds = .raise .valueError) ∨ (l ≠ [] ∧ ((choice l ds = .diverge ∧ ∀ d ∈ ds, randMax < 2 * d) ∨
      ∃ x ds', choice l ds = .ok (x, ds') ∧ x ∈ l)) := by
  by_cases hl : l = []
  · subst hl
    exact Or.inl ⟨rfl, rfl⟩
  · refine Or.inr ⟨hl, ?_⟩
    rcases choice_spec hl hmax ds hd with h | ⟨i, h, a, b, r, -, -, e⟩
    · exact Or.inl h
    · exact Or.inr ⟨_, b, e, List.getElem_mem h⟩

theorem place_eq (l : List Nat) (hn : l.Nodup) {i : Nat} (h : i < l.length) : place l[i] l = i := by
  unfold place
  rw [if_pos (List.getElem_mem h)]
  exact hn.idxOf_getElem i h

theorem sampleLoop_spec {α : Type} (pop : List α) (hmax : (pop.length : Int) ≤ randMax) : ∀ (n : Nat) (idx : List Nat) (out : List α)
    (ds : List Int), n ≤ idx.length → idx.length ≤ pop.length → idx.Nodup → (∀ i ∈ idx, i < pop.length) → Draws randMax ds →
    (sampleLoop pop n idx out ds = .diverge ∧ (ds.countP (fun d => decide (2 * d ≤ randMax))) < n) ∨
    ∃ (js : List Nat) (more : List α) (ds' : List Int), sampleLoop pop n idx out ds = .ok (out ++ more, ds') ∧ js.Nodup ∧ (∀ j ∈ js, j ∈ idx) ∧ js.length = n ∧
      more.map some = js.map (pop[·]?) := by
  intro n
  induction n with
  | zero => intro idx out ds _ _ _ _ _; exact Or.inr ⟨[], [], ds, by simp [sampleLoop], by simp, by simp, rfl, rfl⟩
  | succ n ih =>
    intro idx out ds hn hle hnd hin hd
    unfold sampleLoop
    rcases choice_spec (l := idx) (by intro e; simp [e] at hn) (by omega) ds hd with ⟨e, hall⟩ | ⟨i, h, a, b, r, rfl, ha, e⟩
    · rw [e]
      refine Or.inl ⟨rfl, ?_⟩
      have : ds.countP (fun d => decide (2 * d ≤ randMax)) = 0 := by
        rw [List.countP_eq_zero]
        intro d hd
        have := hall d hd
        simp only [decide_eq_true_eq]
        omega
      omega
    · rw [e]
      simp only [Res.ok_bind]
      have hpi := hin idx[i] (List.getElem_mem h)
      have enth : nth pop (idx[i] : Int) = .ok pop[idx[i]] := by
        unfold nth
        rw [Int.toNat_natCast, List.getElem?_eq_getElem hpi]
      rw [enth, Res.ok_bind, place_eq idx hnd h]
      have hsub := List.eraseIdx_sublist idx i
      have hlen := List.length_eraseIdx_of_lt h
      rcases ih (idx.eraseIdx i) (out ++ [pop[idx[i]]]) b (by omega) (by omega) (hnd.sublist hsub)
        (fun j hj => hin j (hsub.subset hj)) (fun d hd' => hd d (by simp [hd'])) with ⟨e2, hc⟩ | ⟨js, more, ds', e2, j1, j2, j3, j4⟩
      · refine Or.inl ⟨e2, ?_⟩
        rw [List.countP_append, List.countP_cons]
        have : a.countP (fun d => decide (2 * d ≤ randMax)) = 0 := by
          rw [List.countP_eq_zero]
          intro d hd
          have := ha d hd
          simp only [decide_eq_true_eq]
          omega
        split <;> omega
      · refine Or.inr ⟨idx[i] :: js, pop[idx[i]] :: more, ds', ?_, ?_, ?_, by simp [j3], ?_⟩
        · rw [e2]; simp
        · rw [List.nodup_cons]
          refine ⟨fun hm => ?_, j1⟩
          have := j2 _ hm
          rw [List.mem_eraseIdx_iff_getElem] at this
          obtain ⟨k, hk, hki, ek⟩ := this
          exact hki (by rw [← place_eq idx hnd hk, ek, place_eq idx hnd h])
        · intro j hj
          rcases List.mem_cons.1 hj with rfl | hj
          · exact List.getElem_mem h
          · exact hsub.subset (j2 j hj)
        · rw [List.map_cons, List.map_cons, j4, List.getElem?_eq_getElem hpi]

/-- C76: `sample(pop, k)` are `k` elements at different positions; it raises ValueError exactly if there are no `k` elements, and
it returns once `rand` has given `k` values in its lower half.
Missing for the full claim: populations of more than `RAND_MAX` elements; the order (`C76_refuted_order`). -/
theorem C76_sample_partial {α : Type} (pop : List α) (hmax : (pop.length : Int) ≤ randMax) (k : Int) (ds : List Int)
    (hd : Draws randMax ds) :
    ((k < 0 ∨ (pop.length : Int) < k) ∧ sample pop k ds = .raise .valueError) ∨
    (0 ≤ k ∧ k ≤ pop.length ∧ ((sample pop k ds = .diverge ∧ (ds.countP (fun d => decide (2 * d ≤ randMax)) : Int) < k) ∨
      ∃ out ds', sample pop k ds = .ok (out, ds') ∧ out.length = k ∧ Sampled pop out)) := by
  unfold sample
  by_cases hk : 0 ≤ k ∧ k ≤ pop.length
  · rw [if_neg (by omega)]
    refine Or.inr ⟨hk.1, hk.2, ?_⟩
    rcases sampleLoop_spec pop hmax k.toNat (List.range pop.length) [] ds (by rw [List.length_range]; omega)
      (by rw [List.length_range]; omega) List.nodup_range (fun i hi => List.mem_range.1 hi) hd with ⟨e, hc⟩ | ⟨js, more, ds', e, h1, h2, h3, h4⟩
    · exact Or.inl ⟨e, by omega⟩
    · have hl : more.length = js.length := by have := congrArg List.length h4; simpa using this
      refine Or.inr ⟨more, ds', by rw [e]; rfl, by omega, js, h1, hl.symm, ?_⟩
      intro i hi
      refine ⟨?_, List.mem_range.1 (h2 _ (List.getElem_mem hi))⟩
      have := congrArg (fun l => l[i]?) h4
      simp only [List.getElem?_map, List.getElem?_eq_getElem hi, List.getElem?_eq_getElem (show i < more.length by omega),
        Option.map_some] at this
      rw [List.getElem?_eq_getElem (show i < more.length by omega)]
      exact Option.some.inj this
  · rw [if_pos hk]
    exact Or.inl ⟨by omega, rfl⟩

example : sample [10, 20, 30] 2 [5, 2147483647, 4] = .ok ([30, 10], []) := by decide +kernel

theorem choice_at {α : Type} {l : List α} (hmax : (l.length : Int) ≤ randMax) {i : Nat} (h : i < l.length) :
    choice l [(i : Int)] = .ok (l[i], []) := by
  have hd : Draws randMax [(i : Int)] := by
    intro d hd
    simp only [List.mem_cons, List.not_mem_nil, or_false] at hd
    omega
  unfold choice
  rw [if_neg (by omega), randint_eq (by unfold InI64; omega) (by rw [randMax_eq] at hmax; unfold InI64; omega) (by omega) (by omega) _ hd]
  have h1 : 1 ≤ randMax / ((l.length : Int) - 0) := Int.le_ediv_of_mul_le (by omega) (by omega)
  have h2 := Int.mul_le_mul_of_nonneg_right h1 (show 0 ≤ (l.length : Int) - 0 by omega)
  generalize randMax / ((l.length : Int) - 0) * ((l.length : Int) - 0) = e at h2
  unfold draw
  rw [if_neg (by omega)]
  simp only [Res.bind, Res.ok_bind]
  have h3 : 0 + (i : Int) % ((l.length : Int) - 0) = i := by
    rw [Int.emod_eq_of_lt (by omega) (by omega)]
    omega
  rw [h3]
  unfold nth
  rw [Int.toNat_natCast, List.getElem?_eq_getElem h]
  rfl

theorem choice_app {α : Type} {l : List α} (hmax : (l.length : Int) ≤ randMax) {i : Nat} (h : i < l.length) (more : List Int) :
    choice l ((i : Int) :: more) = .ok (l[i], more) := by
  have h0 := choice_at hmax h
  unfold choice randint at h0 ⊢
  rw [if_neg (by omega)] at h0 ⊢
  rw [if_neg (by omega)] at h0 ⊢
  simp only at h0 ⊢
  rw [wrap_range (by omega) (by omega), stop_eq (by omega)] at h0 ⊢
  simp only [Res.ok_bind] at h0 ⊢
  generalize randMax / ((l.length : Int) - 0) * ((l.length : Int) - 0) = e at h0 ⊢
  unfold draw at h0 ⊢
  by_cases he : (i : Int) ≥ e
  · rw [if_pos he] at h0
    unfold draw at h0
    cases h0
  · rw [if_neg he] at h0 ⊢
    simp only [Res.ok_bind, Res.pure_eq] at h0 ⊢
    generalize nth l _ = y at h0 ⊢
    cases y with
    | ok y => simp only [Res.ok_bind, Res.ok.injEq, Prod.mk.injEq, and_true] at h0 ⊢; exact h0
    | _ => cases h0

theorem sampleLoop_every {α : Type} (pop : List α) (hmax : (pop.length : Int) ≤ randMax) : ∀ (js : List Nat) (idx : List Nat) (out : List α),
    idx.length ≤ pop.length → idx.Nodup → (∀ i ∈ idx, i < pop.length) → js.Nodup → (∀ j ∈ js, j ∈ idx) →
    ∃ ds more, Draws randMax ds ∧ sampleLoop pop js.length idx out ds = .ok (out ++ more, []) ∧ more.map some = js.map (pop[·]?) := by
  intro js
  induction js with
  | nil => intro idx out _ _ _ _ _; exact ⟨[], [], by intro d hd; simp at hd, by simp [sampleLoop], rfl⟩
  | cons j js ih =>
    intro idx out hle hnd hin hj hsub
    obtain ⟨i, h, rfl⟩ := List.getElem_of_mem (hsub j (by simp))
    have hpi := hin idx[i] (List.getElem_mem h)
    rw [List.nodup_cons] at hj
    have hs := List.eraseIdx_sublist idx i
    obtain ⟨ds, more, hd, e, em⟩ := ih (idx.eraseIdx i) (out ++ [pop[idx[i]]]) (by have := hs.length_le; omega) (hnd.sublist hs)
      (fun j hj => hin j (hs.subset hj)) hj.2 (by
        intro k hk
        obtain ⟨m, hm, em⟩ := List.getElem_of_mem (hsub k (by simp [hk]))
        rw [List.mem_eraseIdx_iff_getElem]
        refine ⟨m, hm, ?_, em⟩
        intro emi
        subst emi
        exact hj.1 (em ▸ hk))
    refine ⟨(i : Int) :: ds, pop[idx[i]] :: more, ?_, ?_, ?_⟩
    · intro d hd'
      rcases List.mem_cons.1 hd' with rfl | hd'
      · omega
      · exact hd d hd'
    · rw [List.length_cons]
      unfold sampleLoop
      rw [choice_app (by omega) h]
      simp only [Res.ok_bind]
      have enth : nth pop (idx[i] : Int) = .ok pop[idx[i]] := by
        unfold nth
        rw [Int.toNat_natCast, List.getElem?_eq_getElem hpi]
      rw [enth, Res.ok_bind, place_eq idx hnd h, e]
      simp
    · rw [List.map_cons, List.map_cons, em, List.getElem?_eq_getElem hpi]

/-- C76: every sequence of elements at different positions can be the sample. -/
theorem C76_every_partial {α : Type} (pop : List α) (hmax : (pop.length : Int) ≤ randMax) (js : List Nat) (hn : js.Nodup)
    (hj : ∀ j ∈ js, j < pop.length) :
    ∃ ds out, Draws randMax ds ∧ sample pop js.length ds = .ok (out, []) ∧ out.map some = js.map (pop[·]?) := by
  obtain ⟨ds, out, hd, e, em⟩ := sampleLoop_every pop hmax js (List.range pop.length) [] (by simp) List.nodup_range
    (fun i hi => List.mem_range.1 hi) hn (fun j h => List.mem_range.2 (hj j h))
  refine ⟨ds, out, hd, ?_, em⟩
  have hl : js.length ≤ pop.length := by
    have := (List.subperm_of_subset hn (fun j h => List.mem_range.2 (hj j h))).length_le
    simpa using this
  unfold sample
  rw [if_neg (by omega), Int.toNat_natCast, e]
  rfl

example : [2, 0].Nodup ∧ (∀ j ∈ [2, 0], j < [10, 20, 30].length) := by decide

/-- C76: the sample does not keep the order of the population. -/
theorem C76_refuted_order : ∃ ds, Draws randMax ds ∧ sample [10, 20] 2 ds = .ok ([20, 10], []) :=
  ⟨[1, 0], by intro d hd; simp at hd; rw [randMax_eq]; omega, by decide +kernel⟩

end Verif.Random
