import Mathlib.Data.List.Basic
/-!
# C179: requests are repeated, and not for ever

`go` in `httpGetBytes` and in `downloadToFile`, compiler/lib/src/Acton/HttpFetch.hs:86-101,
120-148. Simplifications: a response is its status; storing the body is left out (see `Sniff`).
-/
namespace Verif.Fetch

/-- What a request gives. -/
inductive Resp
  | status (s : Nat)
  | error

/-- `retryMaxAttempts`, `retryBaseDelay`, `retryMaxDelay`, HttpFetch.hs:62-67. -/
def maxAttempts : Nat := 10
def baseDelay : Nat := 500000
def maxDelay : Nat := 120000000

/-- `retryableStatus`, HttpFetch.hs:69-70. -/
def retryable (s : Nat) : Bool := s = 403 || s = 429 || s ≥ 500

/-- The result (`some k` if request `k` gave the answer), how many requests were made, and the
pauses. -/
structure Run where
  ok : Option Nat
  last : Nat
  waits : List Nat

/-- `go`, where request `k` gives `r k`. -/
def go (r : Nat → Resp) (attempt delay : Nat) : Run :=
  match r attempt with
  | .error => ⟨none, attempt, []⟩
  | .status s =>
    if 200 ≤ s ∧ s < 300 then ⟨some attempt, attempt, []⟩
    else if retryable s = true ∧ attempt < maxAttempts then
      let x := go r (attempt + 1) (min maxDelay (delay * 2))
      { x with waits := delay :: x.waits }
    else ⟨none, attempt, []⟩
termination_by maxAttempts - attempt

/-- `httpGetBytes`, `downloadToFile`. -/
def get (r : Nat → Resp) : Run := go r 1 baseDelay

/-! ## Specification -/

/-- The request was answered. -/
def Good (x : Resp) : Prop := ∃ s, x = .status s ∧ 200 ≤ s ∧ s ≤ 299

/-- The server may answer later. -/
def Later (x : Resp) : Prop := ∃ s, x = .status s ∧ (s = 403 ∨ s = 429 ∨ 500 ≤ s)

theorem later_iff (s : Nat) : Later (.status s) ↔ retryable s = true := by
  unfold Later retryable
  constructor
  · rintro ⟨s', e, h⟩
    cases e
    simpa [or_assoc] using h
  · intro h
    exact ⟨s, rfl, by simpa [or_assoc] using h⟩

theorem good_iff (s : Nat) : Good (.status s) ↔ 200 ≤ s ∧ s < 300 := by
  unfold Good
  constructor
  · rintro ⟨s', e, h1, h2⟩
    cases e
    omega
  · rintro ⟨h1, h2⟩
    exact ⟨s, rfl, h1, by omega⟩

theorem not_both {x : Resp} (h : Good x) (h' : Later x) : False := by
  obtain ⟨s, rfl, h1, h2⟩ := h
  obtain ⟨s', e, h3⟩ := h'
  cases e
  omega

/-- The pauses if nothing ends the run before. -/
def pauses : Nat → Nat → List Nat
  | 0, _ => []
  | n + 1, d => d :: pauses n (min maxDelay (d * 2))

theorem go_spec (r : Nat → Resp) : ∀ n a d, a + n = maxAttempts →
    (∀ k, (go r a d).ok = some k ↔ a ≤ k ∧ k ≤ maxAttempts ∧ Good (r k) ∧ ∀ j, a ≤ j → j < k → Later (r j)) ∧
    (a ≤ (go r a d).last ∧ (go r a d).last ≤ maxAttempts ∧ (∀ j, a ≤ j → j < (go r a d).last → Later (r j)) ∧
      ((go r a d).ok = none → (go r a d).last = maxAttempts ∨ ¬ Later (r (go r a d).last))) ∧
    ((go r a d).waits <+: pauses n d ∧ (go r a d).waits.length + a = (go r a d).last) := by
  intro n
  induction n with
  | zero =>
    intro a d ha
    rw [go]
    have ha : a = maxAttempts := ha
    subst ha
    split
    · rename_i hr
      refine ⟨fun k => ⟨fun h => (by cases h), ?_⟩, ⟨Nat.le_refl _, Nat.le_refl _, fun j h1 h2 => absurd h2 (by show ¬ j < maxAttempts; omega), fun _ => .inl rfl⟩, List.nil_prefix, by simp⟩
      rintro ⟨h1, h2, h3, -⟩
      have : k = maxAttempts := by omega
      subst this
      obtain ⟨s, e, -⟩ := h3
      rw [hr] at e; cases e
    · rename_i s hr
      split
      · rename_i hg
        refine ⟨fun k => ⟨fun h => ?_, ?_⟩, ⟨Nat.le_refl _, Nat.le_refl _, fun j h1 h2 => absurd h2 (by show ¬ j < maxAttempts; omega), fun _ => .inl rfl⟩, List.nil_prefix, by simp⟩
        · have := Option.some.inj h
          subst this
          exact ⟨Nat.le_refl _, Nat.le_refl _, by rw [hr, good_iff]; exact hg, fun j h1 h2 => absurd h2 (by omega)⟩
        · rintro ⟨h1, h2, -⟩
          show some maxAttempts = some k
          congr 1; omega
      · rename_i hg
        rw [if_neg (fun h => absurd h.2 (Nat.lt_irrefl _))]
        refine ⟨fun k => ⟨fun h => (by cases h), ?_⟩, ⟨Nat.le_refl _, Nat.le_refl _, fun j h1 h2 => absurd h2 (by show ¬ j < maxAttempts; omega), fun _ => .inl rfl⟩, List.nil_prefix, by simp⟩
        rintro ⟨h1, h2, h3, -⟩
        have : k = maxAttempts := by omega
        subst this
        rw [hr, good_iff] at h3
        exact absurd h3 hg
  | succ n ih =>
    intro a d ha
    rw [go]
    split
    · rename_i hr
      have nl : ¬ Later (r a) := by rintro ⟨s, e, -⟩; rw [hr] at e; cases e
      refine ⟨fun k => ⟨fun h => (by cases h), ?_⟩, ⟨Nat.le_refl _, by show a ≤ _; omega, fun j h1 h2 => absurd h2 (by show ¬ j < a; omega), fun _ => .inr nl⟩, List.nil_prefix, by simp⟩
      rintro ⟨h1, h2, h3, h4⟩
      by_cases e : k = a
      · subst e
        obtain ⟨s, e, -⟩ := h3
        rw [hr] at e; cases e
      · exact absurd (h4 a (Nat.le_refl _) (by omega)) nl
    · rename_i s hr
      split
      · rename_i hg
        have hgood : Good (r a) := by rw [hr, good_iff]; exact hg
        refine ⟨fun k => ⟨fun h => ?_, ?_⟩, ⟨Nat.le_refl _, by show a ≤ _; omega, fun j h1 h2 => absurd h2 (by show ¬ j < a; omega), fun h => (by cases h)⟩, List.nil_prefix, by simp⟩
        · have := Option.some.inj h
          subst this
          exact ⟨Nat.le_refl _, by omega, hgood, fun j h1 h2 => absurd h2 (by omega)⟩
        · rintro ⟨h1, h2, h3, h4⟩
          by_cases e : k = a
          · rw [e]
          · exact absurd (h4 a (Nat.le_refl _) (by omega)) (not_both hgood)
      · rename_i hg
        have ngood : ¬ Good (r a) := by rw [hr, good_iff]; exact hg
        by_cases hl : retryable s = true
        · rw [if_pos ⟨hl, by omega⟩]
          have hlater : Later (r a) := by rw [hr, later_iff]; exact hl
          obtain ⟨i1, ⟨i2, i3, i4, i5⟩, i6, i7⟩ := ih (a + 1) (min maxDelay (d * 2)) (by omega)
          refine ⟨fun k => ?_, ⟨by show a ≤ (go r (a + 1) _).last; omega, i3, fun j h1 h2 => ?_, i5⟩, ?_, ?_⟩
          · show (go r (a + 1) _).ok = some k ↔ _
            rw [i1]
            constructor
            · rintro ⟨h1, h2, h3, h4⟩
              refine ⟨by omega, h2, h3, fun j h5 h6 => ?_⟩
              by_cases e : j = a
              · rw [e]; exact hlater
              · exact h4 j (by omega) h6
            · rintro ⟨h1, h2, h3, h4⟩
              have : k ≠ a := fun e => ngood (e ▸ h3)
              exact ⟨by omega, h2, h3, fun j h5 h6 => h4 j (by omega) h6⟩
          · by_cases e : j = a
            · rw [e]; exact hlater
            · exact i4 j (by omega) h2
          · exact List.cons_prefix_cons.2 ⟨rfl, i6⟩
          · show (d :: (go r (a + 1) _).waits).length + a = (go r (a + 1) _).last
            rw [List.length_cons]; omega
        · rw [if_neg (fun h => hl h.1)]
          have nl : ¬ Later (r a) := by rw [hr, later_iff]; exact hl
          refine ⟨fun k => ⟨fun h => (by cases h), ?_⟩, ⟨Nat.le_refl _, by show a ≤ _; omega, fun j h1 h2 => absurd h2 (by show ¬ j < a; omega), fun _ => .inr nl⟩, List.nil_prefix, by simp⟩
          rintro ⟨h1, h2, h3, h4⟩
          by_cases e : k = a
          · exact absurd (e ▸ h3) ngood
          · exact absurd (h4 a (Nat.le_refl _) (by omega)) nl

/-- The pauses of a run that uses all its requests, in microseconds. -/
def allPauses : List Nat :=
  [500000, 1000000, 2000000, 4000000, 8000000, 16000000, 32000000, 64000000, 120000000]

theorem prefix_sum {a b : List Nat} (h : a <+: b) : a.sum ≤ b.sum := by
  obtain ⟨t, rfl⟩ := h
  rw [List.sum_append]; omega

/-- **C179** A request succeeds exactly if one of the first ten answers is good and those before
only ask for patience; no request is made after another answer; at most ten are made; the pauses
between them are those of `allPauses`, in all at most 247.5 seconds. -/
theorem C179 (r : Nat → Resp) :
    (∀ k, (get r).ok = some k ↔ 1 ≤ k ∧ k ≤ 10 ∧ Good (r k) ∧ ∀ j, 1 ≤ j → j < k → Later (r j)) ∧
    (1 ≤ (get r).last ∧ (get r).last ≤ 10 ∧ (∀ j, 1 ≤ j → j < (get r).last → Later (r j)) ∧
      ((get r).ok = none → (get r).last = 10 ∨ ¬ Later (r (get r).last))) ∧
    ((get r).waits <+: allPauses ∧ (get r).waits.length + 1 = (get r).last ∧ (get r).waits.sum ≤ 247500000) := by
  obtain ⟨a, b, c, d⟩ := go_spec r 9 1 baseDelay rfl
  have e : pauses 9 baseDelay = allPauses := by decide
  rw [e] at c
  exact ⟨a, b, c, d, prefix_sum c⟩

/-- Twice "try later", then the answer. -/
example : (get (fun k => if k < 3 then .status 503 else .status 200)).ok = some 3 :=
  ((C179 _).1 3).2 ⟨by decide, by decide, ⟨200, rfl, by decide, by decide⟩, fun j _ h => ⟨503, if_pos h, by decide⟩⟩

end Verif.Fetch
