import Verif.Str.Lemmas
/-!
# Facts about occurrences, splitting and joining at the level of code point sequences
-/
namespace Verif.Str
open Verif Verif.Search

theorem occurs_split {t p : List Nat} {k : Nat} (h : OccursAt t p k) :
    t = t.take k ++ p ++ t.drop (k + p.length) := by
  obtain ⟨h1, h2⟩ := h
  conv => rhs; lhs; rhs; rw [← h2]
  rw [List.append_assoc, ← List.drop_drop, List.take_append_drop, List.take_append_drop]

theorem occurs_of_split (a p b : List Nat) : OccursAt (a ++ p ++ b) p a.length := by
  refine ⟨by simp only [List.length_append]; omega, ?_⟩
  rw [List.append_assoc, List.drop_left, List.take_left]

/-- An occurrence in a suffix is an occurrence. -/
theorem occurs_drop {t p : List Nat} {j k : Nat} (hj : j ≤ t.length) : OccursAt (t.drop j) p k ↔ OccursAt t p (j + k) := by
  unfold OccursAt
  rw [List.length_drop, List.drop_drop]
  constructor
  · rintro ⟨h1, h2⟩; exact ⟨by omega, h2⟩
  · rintro ⟨h1, h2⟩; exact ⟨by omega, h2⟩

theorem occurs_take {t p : List Nat} {i k : Nat} (h : OccursAt (t.take i) p k) : OccursAt t p k := by
  unfold OccursAt at *
  rw [List.length_take] at h
  obtain ⟨h1, h2⟩ := h
  refine ⟨by omega, ?_⟩
  rw [List.drop_take, List.take_take, Nat.min_eq_left (by omega)] at h2
  exact h2

theorem occurs_left {a p b : List Nat} {k : Nat} (h : OccursAt a p k) : OccursAt (a ++ b) p k := by
  apply occurs_take (i := a.length)
  rw [List.take_left]; exact h

theorem free_nil {p : List Nat} (hp : p ≠ []) : Free p [] := by
  intro k h
  have h1 := h.1
  rw [List.length_nil] at h1
  exact hp (List.length_eq_zero_iff.1 (by omega))

theorem isFirst_neg {t p : List Nat} {r : Int} (h : IsFirst t p r) (hr : r < 0) : r = -1 ∧ Free p t := by
  rcases h with ⟨k, rfl, -⟩ | ⟨rfl, h⟩
  · omega
  · exact ⟨rfl, h⟩

theorem isFirst_nat {t p : List Nat} {k : Nat} (h : IsFirst t p (k : Int)) :
    OccursAt t p k ∧ ∀ j, j < k → ¬ OccursAt t p j := by
  rcases h with ⟨i, e, h1, h2⟩ | ⟨e, -⟩
  · have : k = i := by omega
    subst this; exact ⟨h1, h2⟩
  · omega

theorem isFirst_unique {t p : List Nat} {r r' : Int} (h : IsFirst t p r) (h' : IsFirst t p r') : r = r' := by
  rcases h with ⟨i, rfl, h1, h2⟩ | ⟨rfl, h1⟩ <;> rcases h' with ⟨i', rfl, h1', h2'⟩ | ⟨rfl, h1'⟩
  · rcases Nat.lt_trichotomy i i' with h | h | h
    · exact absurd h1 (h2' _ h)
    · rw [h]
    · exact absurd h1' (h2 _ h)
  · exact absurd h1 (h1' _)
  · exact absurd h1' (h1 _)
  · rfl

theorem SplitsTo.ne_nil {sep : List Nat} {m : Option Nat} {t : List Nat} {ps : List (List Nat)}
    (h : SplitsTo sep m t ps) : ps ≠ [] := by
  intro h0
  cases h <;> cases h0

/-- The pieces of a split, joined again, give the string. -/
theorem SplitsTo.join {sep : List Nat} {m : Option Nat} {t : List Nat} {ps : List (List Nat)}
    (h : SplitsTo sep m t ps) : joinWith sep ps = t := by
  induction h with
  | stop t => rfl
  | last m t _ => rfl
  | more m t a b ps e _ h _ ih =>
    cases ps with
    | nil => exact absurd rfl h.ne_nil
    | cons q qs =>
      show a ++ sep ++ joinWith sep (q :: qs) = t
      rw [ih, e]

/-- Without a limit, no piece contains the separator. -/
theorem SplitsTo.free {sep : List Nat} {m : Option Nat} {t : List Nat} {ps : List (List Nat)}
    (hsep : sep ≠ []) (h : SplitsTo sep m t ps) (hm : m = none) : ∀ p ∈ ps, Free sep p := by
  induction h with
  | stop t => cases hm
  | last m t hf => intro p hp; rw [List.mem_singleton.1 hp]; exact hf
  | more m t a b ps e hfirst h _ ih =>
    intro p hp
    rcases List.mem_cons.1 hp with rfl | hp
    · intro k hk
      have h1 := hk.1
      have : 0 < sep.length := List.length_pos_iff.2 hsep
      apply hfirst k (by omega)
      rw [e, List.append_assoc]
      exact occurs_left hk
    · exact ih (by rw [hm]; rfl) p hp

/-- With a limit, at most one piece more; and only the last one may contain the separator. -/
theorem SplitsTo.limit {sep : List Nat} {m : Option Nat} {t : List Nat} {ps : List (List Nat)}
    (hsep : sep ≠ []) (h : SplitsTo sep m t ps) : ∀ n, m = some n →
      ps.length ≤ n + 1 ∧ (∀ p ∈ ps.dropLast, Free sep p) ∧
      (ps.length < n + 1 → ∀ p ∈ ps, Free sep p) := by
  induction h with
  | stop t => intro n hn; cases hn; simp
  | last m t hf =>
    intro n hn
    refine ⟨by simp, by simp, ?_⟩
    intro _ p hp; rw [List.mem_singleton.1 hp]; exact hf
  | more m t a b ps e hfirst h hm ih =>
    intro n hn
    subst hn
    have hn0 : n ≠ 0 := by intro h0; exact hm (by rw [h0])
    obtain ⟨i1, i2, i3⟩ := ih (n - 1) rfl
    have ha : Free sep a := by
      intro k hk
      have h1 := hk.1
      have : 0 < sep.length := List.length_pos_iff.2 hsep
      apply hfirst k (by omega)
      rw [e, List.append_assoc]
      exact occurs_left hk
    have hne : ps ≠ [] := h.ne_nil
    refine ⟨by simp; omega, ?_, ?_⟩
    · rw [List.dropLast_cons_of_ne_nil hne]
      intro p hp
      rcases List.mem_cons.1 hp with rfl | hp
      · exact ha
      · exact i2 p hp
    · intro hlen p hp
      simp at hlen
      rcases List.mem_cons.1 hp with rfl | hp
      · exact ha
      · exact i3 (by omega) p hp

/-- The result of splitting is determined. -/
theorem SplitsTo.unique {sep : List Nat} {m : Option Nat} {t : List Nat} {ps : List (List Nat)}
    (h : SplitsTo sep m t ps) : ∀ {qs}, SplitsTo sep m t qs → ps = qs := by
  induction h with
  | stop t =>
    intro qs h
    cases h with
    | stop => rfl
    | last => rfl
    | more _ _ _ _ _ _ _ _ h0 => exact absurd rfl h0
  | last m t hf =>
    intro qs h
    cases h with
    | stop => rfl
    | last => rfl
    | more _ _ a b ps e => exact absurd (e ▸ occurs_of_split a sep b) (hf _)
  | more m t a b ps e hfirst h hm ih =>
    intro qs h'
    cases h' with
    | stop => exact absurd rfl hm
    | last _ _ hf => exact absurd (e ▸ occurs_of_split a sep b) (hf _)
    | more _ _ a' b' ps' e' hfirst' h' _ =>
      have o1 : OccursAt t sep a.length := e ▸ occurs_of_split a sep b
      have o2 : OccursAt t sep a'.length := e' ▸ occurs_of_split a' sep b'
      have hl : a.length = a'.length := by
        rcases Nat.lt_trichotomy a.length a'.length with h | h | h
        · exact absurd o1 (hfirst' _ h)
        · exact h
        · exact absurd o2 (hfirst _ h)
      have ee := e.symm.trans e'
      rw [List.append_assoc, List.append_assoc] at ee
      obtain ⟨rfl, e3⟩ := List.append_inj ee hl
      have := List.append_cancel_left e3
      subst this
      rw [ih h']

theorem disjoint_drop {t p : List Nat} {j : Nat} (hj : j ≤ t.length) : ∀ (ks : List Nat) (lo : Nat), Disjoint t p (j + lo) ks →
    Disjoint (t.drop j) p lo (ks.map (· - j)) := by
  intro ks
  induction ks with
  | nil => intro _ _; trivial
  | cons k ks ih =>
    rintro lo ⟨h1, h2, h3⟩
    refine ⟨by show lo ≤ k - j; omega, ?_, ?_⟩
    · rw [occurs_drop hj, show j + (k - j) = k by omega]; exact h2
    · apply ih
      rw [show j + (k - j + p.length) = k + p.length by omega]; exact h3

theorem disjoint_shift {t p : List Nat} {j : Nat} (hj : j ≤ t.length) : ∀ (ks : List Nat) (lo : Nat), Disjoint (t.drop j) p lo ks →
    Disjoint t p (j + lo) (ks.map (j + ·)) := by
  intro ks
  induction ks with
  | nil => intro _ _; trivial
  | cons k ks ih =>
    rintro lo ⟨h1, h2, h3⟩
    refine ⟨by show j + lo ≤ j + k; omega, (occurs_drop hj).1 h2, ?_⟩
    have := ih _ h3
    rw [show j + k + p.length = j + (k + p.length) by omega]; exact this

/-- Greedy counting is optimal: a split without limit has one piece more than the largest
number of non-overlapping occurrences. -/
theorem SplitsTo.count {sep : List Nat} {m : Option Nat} {t : List Nat} {ps : List (List Nat)}
    (h : SplitsTo sep m t ps) (hm : m = none) :
    (∃ ks, Disjoint t sep 0 ks ∧ ks.length + 1 = ps.length) ∧
    (∀ ks, Disjoint t sep 0 ks → ks.length + 1 ≤ ps.length) := by
  induction h with
  | stop t => cases hm
  | last m t hf =>
    refine ⟨⟨[], trivial, rfl⟩, ?_⟩
    intro ks hks
    cases ks with
    | nil => simp
    | cons k ks => exact absurd hks.2.1 (hf _)
  | more m t a b ps e hfirst h _ ih =>
    obtain ⟨⟨ks, i1, i2⟩, i3⟩ := ih (by rw [hm]; rfl)
    have hdrop : t.drop (a.length + sep.length) = b := by
      rw [e, ← List.length_append, List.drop_left]
    have hle : a.length + sep.length ≤ t.length := by rw [e]; simp only [List.length_append]; omega
    constructor
    · refine ⟨a.length :: ks.map (a.length + sep.length + ·), ⟨by omega, e ▸ occurs_of_split a sep b, ?_⟩, ?_⟩
      · have := disjoint_shift (t := t) (p := sep) hle ks 0 (by rw [hdrop]; exact i1)
        simpa using this
      · simp; omega
    · intro ls hls
      cases ls with
      | nil => simp
      | cons l ls =>
        obtain ⟨-, h2, h3⟩ := hls
        have hal : a.length ≤ l := by
          by_cases hh : l < a.length
          · exact absurd h2 (hfirst l hh)
          · omega
        have mono : ∀ (ls : List Nat) lo lo', lo' ≤ lo → Disjoint t sep lo ls → Disjoint t sep lo' ls := by
          intro ls lo lo' hlo h
          cases ls with
          | nil => trivial
          | cons x ls => exact ⟨by have := h.1; omega, h.2⟩
        have h4 := mono ls _ (a.length + sep.length) (by omega) h3
        have := disjoint_drop (t := t) (p := sep) hle ls 0 (by simpa using h4)
        rw [hdrop] at this
        have := i3 _ this
        simp at this ⊢; omega

end Verif.Str
