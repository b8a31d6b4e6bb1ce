/-! General list lemmas used by several developments (no counterpart in /repo). -/
namespace Verif

/-- Two lists sorted by the same irreflexive, asymmetric relation with the same elements are equal. -/
theorem sorted_ext {α} {r : α → α → Prop} (irr : ∀ a, ¬ r a a) (asym : ∀ a b, r a b → ¬ r b a) :
    ∀ {l₁ l₂ : List α}, l₁.Pairwise r → l₂.Pairwise r → (∀ x, x ∈ l₁ ↔ x ∈ l₂) → l₁ = l₂
  | [], [], _, _, _ => rfl
  | [], b :: l₂, _, _, h => by have := (h b).2 (by simp); simp at this
  | a :: l₁, [], _, _, h => by have := (h a).1 (by simp); simp at this
  | a :: l₁, b :: l₂, h₁, h₂, h => by
    have hab : a = b := by
      have ha := (h a).1 (by simp)
      have hb := (h b).2 (by simp)
      simp only [List.mem_cons] at ha hb
      rcases ha with ha | ha
      · exact ha
      rcases hb with hb | hb
      · exact hb.symm
      have r1 := (List.pairwise_cons.1 h₂).1 a ha
      have r2 := (List.pairwise_cons.1 h₁).1 b hb
      exact absurd r1 (asym _ _ r2)
    subst hab
    congr 1
    apply sorted_ext irr asym (List.pairwise_cons.1 h₁).2 (List.pairwise_cons.1 h₂).2
    intro x
    have hx := h x
    simp only [List.mem_cons] at hx
    constructor
    · intro m
      rcases hx.1 (Or.inr m) with e | m'
      · subst e; exact absurd ((List.pairwise_cons.1 h₁).1 _ m) (irr _)
      · exact m'
    · intro m
      rcases hx.2 (Or.inr m) with e | m'
      · subst e; exact absurd ((List.pairwise_cons.1 h₂).1 _ m) (irr _)
      · exact m'

theorem nat_sorted_ext {l₁ l₂ : List Nat} (h₁ : l₁.Pairwise (· < ·)) (h₂ : l₂.Pairwise (· < ·))
    (h : ∀ x, x ∈ l₁ ↔ x ∈ l₂) : l₁ = l₂ :=
  sorted_ext (fun _ => Nat.lt_irrefl _) (fun _ _ h => Nat.not_lt_of_gt h) h₁ h₂ h

end Verif

/-- Decide all conditionals in the goal with `omega`, left to right. -/
macro "ifs" : tactic => `(tactic| repeat (first | rw [if_pos (by omega)] | rw [if_neg (by omega)]))
