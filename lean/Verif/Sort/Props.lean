import Verif.Sort.Stack
/-!
# C04, C05: sorting

`timSort` is what `sorted` runs on its fresh list. The number of elements is below `2^63`, as the
length of a list is a 32-bit `int`.
-/
namespace Verif.Sort
open Verif
variable {α : Type}

/-- C04: for a total preorder the result is a sorted permutation of the input in which equal
elements keep their order. -/
theorem C04_sorted (w : OrdW α) (ok : w.Ok) (d : List α) (hb : d.length < 2 ^ 63) :
    ∃ r, timSort w d = .ok r ∧ d.Perm r ∧ Sorted w r ∧ SameOrder w d r := by
  obtain ⟨r, e, h1, h2⟩ := timSort_spec (w := w) d hb
  exact ⟨r, e, h1.1, h2 ok, h1.2 ok⟩

/-- C04: such a result is unique. -/
theorem C04_unique (w : OrdW α) (ok : w.Ok) (r r' : List α) (h1 : Sorted w r) (h2 : Sorted w r') (h3 : SameOrder w r r') : r' = r := by
  induction r generalizing r' with
  | nil =>
    match r', h3 with
    | [], _ => rfl
    | x :: t, h3 =>
      have := h3 x
      rw [List.filter_cons, if_pos (eq_refl ok x)] at this
      simp at this
  | cons x t ih =>
    match r', h2, h3 with
    | [], _, h3 =>
      have := h3 x
      rw [List.filter_cons, if_pos (eq_refl ok x)] at this
      simp at this
    | y :: u, h2, h3 =>
      have hxm : x ∈ y :: u := by
        have : x ∈ (y :: u).filter (w.eq x) := by rw [h3 x, List.mem_filter]; exact ⟨by simp, eq_refl ok x⟩
        exact (List.mem_filter.1 this).1
      have hym : y ∈ x :: t := by
        have : y ∈ (x :: t).filter (w.eq y) := by rw [← h3 y, List.mem_filter]; exact ⟨by simp, eq_refl ok y⟩
        exact (List.mem_filter.1 this).1
      have hyx : Le w y x := by
        rcases List.mem_cons.1 hxm with rfl | h
        · exact Or.inr (eq_refl ok _)
        · exact (List.pairwise_cons.1 h2).1 x h
      have hxy : Le w x y := by
        rcases List.mem_cons.1 hym with rfl | h
        · exact Or.inr (eq_refl ok _)
        · exact (List.pairwise_cons.1 h1).1 y h
      have heq : w.eq x y = true := by
        rcases hxy with h | h
        · rw [not_lt_of_le ok hyx] at h; simp at h
        · exact h
      have e := h3 x
      rw [List.filter_cons, List.filter_cons, if_pos heq, if_pos (eq_refl ok x)] at e
      have e1 : y = x := (List.cons.inj e).1
      subst e1
      rw [ih u (List.pairwise_cons.1 h1).2 (List.pairwise_cons.1 h2).2 ?_]
      intro k
      have := h3 k
      rw [List.filter_cons, List.filter_cons] at this
      split at this
      · exact (List.cons.inj this).2
      · exact this

/-- C05: for any comparison function, even an inconsistent one, sorting stays inside the array, the
temporary storage and the stack of runs, ends, and permutes the elements. -/
theorem C05_safe (w : OrdW α) (d : List α) (hb : d.length < 2 ^ 63) : ∃ r, timSort w d = .ok r ∧ d.Perm r := by
  obtain ⟨r, e, h1, _⟩ := timSort_spec (w := w) d hb
  exact ⟨r, e, h1.1⟩

/-- C05: the run lengths of a stack that satisfies the invariant the sort restores before every
push: 128 or more runs would need an array of `2^63` elements. -/
theorem C05_stack (l : List Nat) (hpos : ∀ x ∈ l, 0 < x) (h1 : ∀ i a b c, l[i]? = some c → l[i + 1]? = some b → l[i + 2]? = some a → a > b + c)
    (h2 : ∀ b c, l[0]? = some c → l[1]? = some b → b > c) (hsum : l.sum < 2 ^ 63) : l.length < 128 := by
  refine trip_bound ?_ ?_ hpos hsum
  · clear h2 hsum hpos
    induction l with
    | nil => exact True.intro
    | cons c l ih =>
      have iht := ih (fun i a b c h h' h'' => h1 (i + 1) a b c h h' h'')
      match l, h1, iht with
      | [], _, _ => exact True.intro
      | [_], _, _ => exact True.intro
      | b :: a :: r, h1, iht => exact ⟨h1 0 a b c rfl rfl rfl, iht⟩
  · match l, h2 with
    | [], _ => exact True.intro
    | [_], _ => exact True.intro
    | c :: b :: r, h2 => exact h2 b c rfl rfl

/-! ## Concrete cases -/

/-- Pairs ordered by their first component only. -/
def exW : OrdW (Nat × Nat) := ⟨fun x y => decide (x.1 < y.1), fun x y => decide (x.1 = y.1)⟩

theorem exW_ok : exW.Ok where
  total x y := by simp [exW]; omega
  lt_eq x y h := by simp [exW] at *; omega
  asymm x y h := by simp [exW] at *; omega
  symm x y h := by simp [exW] at *; omega
  trans x y z h1 h2 := by simp [exW] at *; omega

/-- 80 elements, enough for runs and merges: the hypotheses of C04 hold for them. -/
example : ∃ r, timSort exW ((List.range 80).map (fun i => (i * 7 % 10, i))) = .ok r ∧ Sorted exW r :=
  let ⟨r, e, _, h, _⟩ := C04_sorted exW exW_ok ((List.range 80).map (fun i => (i * 7 % 10, i))) (by decide)
  ⟨r, e, h⟩

example : timSort exW [(3, 0), (1, 1), (3, 2), (2, 3), (1, 4)] = .ok [(1, 1), (1, 4), (2, 3), (3, 0), (3, 2)] := by decide +kernel

example : (match timSort exW ((List.range 200).map (fun i => (i * 7 % 10, i))) with | .ok r => r.take 3 | _ => []) = [(0, 0), (0, 10), (0, 20)] := by
  decide +kernel

/-- An inconsistent comparison (everything smaller than everything): C05 applies. -/
example : ∃ r, timSort (⟨fun _ _ => true, fun _ _ => true⟩ : OrdW Nat) (List.range 100) = .ok r ∧ (List.range 100).Perm r :=
  C05_safe _ _ (by decide)

example : [1, 2, 4, 7].length < 128 := C05_stack [1, 2, 4, 7] (by decide)
  (fun i a b c h1 h2 h3 => by
    match i, h1, h2, h3 with
    | 0, h1, h2, h3 => simp at h1 h2 h3; omega
    | 1, h1, h2, h3 => simp at h1 h2 h3; omega
    | n + 2, h1, h2, h3 => simp at h3)
  (fun b c h1 h2 => by simp at h1 h2; omega) (by decide)

end Verif.Sort
