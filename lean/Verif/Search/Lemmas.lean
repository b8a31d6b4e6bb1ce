import Verif.Search.Model
import Verif.Search.Spec
/-! # Lemmas on the search loops -/
namespace Verif.Search
open Verif

theorem getB_ok {b : List Nat} {i : Nat} (h : i < b.length) : getB b (i : Int) = .ok b[i] := by
  unfold getB
  rw [if_neg (by omega)]
  simp [h]

theorem occurs_iff {α} (t p : List α) (i : Nat) :
    OccursAt t p i ↔ i + p.length ≤ t.length ∧ ∀ j, j < p.length → t[i + j]? = p[j]? := by
  unfold OccursAt
  constructor
  · rintro ⟨h1, h2⟩
    refine ⟨h1, fun j hj => ?_⟩
    have := congrArg (fun l => l[j]?) h2
    simp only [List.getElem?_take, List.getElem?_drop] at this
    rw [if_pos hj] at this
    exact this
  · rintro ⟨h1, h2⟩
    refine ⟨h1, ?_⟩
    apply List.ext_getElem?
    intro j
    rw [List.getElem?_take, List.getElem?_drop]
    by_cases hj : j < p.length
    · rw [if_pos hj]; exact h2 j hj
    · rw [if_neg hj, List.getElem?_eq_none (by omega)]

/-- The inner loop of the forward search decides whether the `n` leading pattern bytes
end at `i`. -/
theorem cmpBack_spec (t p : List Nat) (s : Nat) : ∀ n : Nat, n ≤ p.length → s + n ≤ t.length →
    ((∀ j, j < n → t[s + j]? = p[j]?) → cmpBack t p n ((s : Int) + n - 1) = .ok (some ((s : Int) - 1))) ∧
    (¬ (∀ j, j < n → t[s + j]? = p[j]?) → cmpBack t p n ((s : Int) + n - 1) = .ok none) := by
  intro n
  induction n with
  | zero =>
    intro _ _
    refine ⟨fun _ => ?_, fun h => absurd (fun j hj => absurd hj (Nat.not_lt_zero _)) h⟩
    unfold cmpBack; congr 2
  | succ n ih =>
    intro hn hs
    obtain ⟨ih1, ih2⟩ := ih (by omega) (by omega)
    have e1 : (s : Int) + (n + 1 : Nat) - 1 = ((s + n : Nat) : Int) := by omega
    have e2 : ((s + n : Nat) : Int) - 1 = (s : Int) + n - 1 := by omega
    have hstep : cmpBack t p (n + 1) ((s : Int) + (n + 1 : Nat) - 1) =
        if t[s + n]? = p[n]? then cmpBack t p n ((s : Int) + n - 1) else .ok none := by
      rw [e1, cmpBack, getB_ok (by omega), Res.ok_bind, getB_ok (by omega), Res.ok_bind, e2,
        List.getElem?_eq_getElem (by omega), List.getElem?_eq_getElem (by omega)]
      simp only [Option.some.injEq]
      rfl
    rw [hstep]
    refine ⟨fun h => ?_, fun h => ?_⟩
    · rw [if_pos (h n (by omega))]
      exact ih1 (fun j hj => h j (by omega))
    · by_cases hc : t[s + n]? = p[n]?
      · rw [if_pos hc]
        apply ih2
        intro h'
        apply h
        intro j hj
        by_cases hjn : j = n
        · subst hjn; exact hc
        · exact h' j (by omega)
      · rw [if_neg hc]

theorem cmpFwd_spec (t p : List Nat) (s : Nat) : ∀ (n j : Nat), j + n = p.length → s + p.length ≤ t.length →
    ((∀ i, j ≤ i → i < p.length → t[s + i]? = p[i]?) →
      cmpFwd t p n j ((s : Int) + j) = .ok (some ((s : Int) + p.length))) ∧
    (¬ (∀ i, j ≤ i → i < p.length → t[s + i]? = p[i]?) → cmpFwd t p n j ((s : Int) + j) = .ok none) := by
  intro n
  induction n with
  | zero =>
    intro j hj _
    refine ⟨fun _ => ?_, fun h => absurd (fun i h1 h2 => by omega) h⟩
    unfold cmpFwd; congr 2; omega
  | succ n ih =>
    intro j hj hs
    obtain ⟨ih1, ih2⟩ := ih (j + 1) (by omega) hs
    have e1 : (s : Int) + j = ((s + j : Nat) : Int) := by omega
    have e2 : ((s + j : Nat) : Int) + 1 = (s : Int) + (j + 1 : Nat) := by omega
    have hstep : cmpFwd t p (n + 1) j ((s : Int) + j) =
        if t[s + j]? = p[j]? then cmpFwd t p n (j + 1 : Nat) ((s : Int) + (j + 1 : Nat)) else .ok none := by
      rw [e1, cmpFwd, getB_ok (by omega), Res.ok_bind, getB_ok (by omega), Res.ok_bind, e2,
        List.getElem?_eq_getElem (by omega), List.getElem?_eq_getElem (by omega)]
      simp only [Option.some.injEq]
      rfl
    rw [hstep]
    refine ⟨fun h => ?_, fun h => ?_⟩
    · rw [if_pos (h j (by omega) (by omega))]
      exact ih1 (fun i h1 h2 => h i (by omega) h2)
    · by_cases hc : t[s + j]? = p[j]?
      · rw [if_pos hc]
        apply ih2
        intro h'
        apply h
        intro i h1 h2
        by_cases hij : i = j
        · subst hij; exact hc
        · exact h' i (by omega) h2
      · rw [if_neg hc]

theorem skipTab_spec (p : List Nat) (c : Nat) : ∀ n : Nat, n ≤ p.length - 1 → 0 < p.length →
    1 ≤ skipTab p n c ∧ skipTab p n c ≤ p.length ∧
    ∀ i, i < n → p[i]? = some c → skipTab p n c ≤ (p.length : Int) - 1 - i := by
  intro n
  induction n with
  | zero => intro _ h; unfold skipTab; exact ⟨by omega, by omega, fun i hi => absurd hi (Nat.not_lt_zero _)⟩
  | succ n ih =>
    intro hn hp
    obtain ⟨h1, h2, h3⟩ := ih (by omega) hp
    unfold skipTab
    by_cases hc : p[n]? = some c
    · rw [if_pos hc]
      refine ⟨by omega, by omega, fun i hi _ => by omega⟩
    · rw [if_neg hc]
      refine ⟨h1, h2, fun i hi hic => ?_⟩
      by_cases hin : i = n
      · subst hin; exact absurd hic hc
      · exact h3 i (by omega) hic

theorem rskipTab_spec (p : List Nat) (c : Nat) : ∀ n : Nat, n ≤ p.length - 1 → 0 < p.length →
    1 ≤ rskipTab p n c ∧ rskipTab p n c ≤ p.length ∧
    ∀ i, p.length - 1 - n < i → i < p.length → p[i]? = some c → rskipTab p n c ≤ i := by
  intro n
  induction n with
  | zero => intro _ h; unfold rskipTab; exact ⟨by omega, by omega, fun i h1 h2 => by omega⟩
  | succ n ih =>
    intro hn hp
    obtain ⟨h1, h2, h3⟩ := ih (by omega) hp
    unfold rskipTab
    by_cases hc : p[p.length - 1 - n]? = some c
    · rw [if_pos hc]
      refine ⟨by omega, by omega, fun i hi _ _ => by omega⟩
    · rw [if_neg hc]
      refine ⟨h1, h2, fun i hi hl hic => ?_⟩
      by_cases hin : i = p.length - 1 - n
      · subst hin; exact absurd hic hc
      · exact h3 i (by omega) hl hic

theorem bmhLoop_spec (t p : List Nat) (hp : p.length ≤ t.length) (hmax : (t.length : Int) + p.length < 2^31) :
    ∀ (f s : Nat), 0 < f → t.length + 1 < f + s → (∀ j, j < s → ¬ OccursAt t p j) →
      ∃ r, bmhLoop t p f ((s : Int) + p.length - 1) = .ok r ∧ IsFirst t p r := by
  intro f
  induction f with
  | zero => intro s h0; omega
  | succ f ih =>
    intro s _ hs hno
    unfold bmhLoop
    by_cases hk : (s : Int) + p.length - 1 < t.length
    · rw [if_pos hk]
      have hk' : s + p.length ≤ t.length := by omega
      obtain ⟨c1, c2⟩ := cmpBack_spec t p s p.length (Nat.le_refl _) hk'
      by_cases hocc : ∀ j, j < p.length → t[s + j]? = p[j]?
      · rw [c1 hocc, Res.ok_bind]
        refine ⟨(s : Int) - 1 + 1, rfl, Or.inl ⟨s, by omega, (occurs_iff t p s).2 ⟨hk', hocc⟩, hno⟩⟩
      · rw [c2 hocc, Res.ok_bind]
        simp only
        have hp0 : 0 < p.length := by
          rcases Nat.eq_zero_or_pos p.length with h | h
          · exact absurd (fun j hj => by omega) hocc
          · exact h
        have e : (s : Int) + p.length - 1 = ((s + p.length - 1 : Nat) : Int) := by omega
        rw [e, getB_ok (by omega), Res.ok_bind]
        generalize hc : t[s + p.length - 1]'(by omega) = c
        obtain ⟨s1, s2, s3⟩ := skipTab_spec p c (p.length - 1) (Nat.le_refl _) hp0
        generalize skipTab p (p.length - 1) c = d at *
        have hw : wrap32 (((s + p.length - 1 : Nat) : Int) + d) = ((s + d.toNat : Nat) : Int) + p.length - 1 := by
          rw [wrap32_of_in]
          · omega
          · unfold InI32; omega
        rw [hw]
        apply ih
        · omega
        · omega
        · intro j hj
          by_cases hjs : j < s
          · exact hno j hjs
          · intro ho
            rw [occurs_iff] at ho
            by_cases hjeq : j = s
            · subst hjeq; exact hocc ho.2
            · -- the byte under the old window's end is pattern byte s + |p| - 1 - j
              have := ho.2 (s + p.length - 1 - j) (by omega)
              rw [show j + (s + p.length - 1 - j) = s + p.length - 1 by omega,
                List.getElem?_eq_getElem (by omega), hc] at this
              have := s3 (s + p.length - 1 - j) (by omega) this.symm
              omega
    · rw [if_neg hk]
      refine ⟨-1, rfl, Or.inr ⟨rfl, fun j hj => ?_⟩⟩
      have := hj.1
      exact hno j (by omega) hj

theorem rbmhLoop_spec (t p : List Nat) (hmax : (t.length : Int) < 2^31) :
    ∀ (f : Nat) (s : Int), 0 < f → s + p.length ≤ t.length → s + 1 < f →
      (∀ j : Nat, s < j → ¬ OccursAt t p j) →
      ∃ r, rbmhLoop t p f s = .ok r ∧ IsLast t p r := by
  intro f
  induction f with
  | zero => intro s h0; omega
  | succ f ih =>
    intro s _ h2 h3 hno
    unfold rbmhLoop
    by_cases hk : s ≥ 0
    · rw [if_pos hk]
      obtain ⟨n, rfl⟩ := Int.eq_ofNat_of_zero_le hk
      have hn : n + p.length ≤ t.length := by omega
      obtain ⟨c1, c2⟩ := cmpFwd_spec t p n p.length 0 (by omega) hn
      simp only [Nat.zero_le, forall_const, Int.natCast_zero, Int.add_zero] at c1 c2
      by_cases hocc : ∀ j, j < p.length → t[n + j]? = p[j]?
      · rw [c1 hocc, Res.ok_bind]
        refine ⟨_, rfl, Or.inl ⟨n, by omega, (occurs_iff t p n).2 ⟨hn, hocc⟩, ?_⟩⟩
        intro j hj; exact hno j (by omega)
      · rw [c2 hocc, Res.ok_bind]
        simp only
        have hp0 : 0 < p.length := by
          rcases Nat.eq_zero_or_pos p.length with h | h
          · exact absurd (fun j hj => by omega) hocc
          · exact h
        rw [getB_ok (by omega), Res.ok_bind]
        generalize hc : t[n]'(by omega) = c
        obtain ⟨s1, s2, s3⟩ := rskipTab_spec p c (p.length - 1) (Nat.le_refl _) hp0
        generalize rskipTab p (p.length - 1) c = d at *
        rw [wrap32_of_in (by unfold InI32; omega)]
        apply ih
        · omega
        · omega
        · omega
        · intro j hj
          by_cases hjs : n < j
          · exact hno j (by omega)
          · intro ho
            rw [occurs_iff] at ho
            by_cases hjeq : j = n
            · subst hjeq; exact hocc ho.2
            · by_cases hlt : n - j < p.length
              · have := ho.2 (n - j) hlt
                rw [show j + (n - j) = n by omega, List.getElem?_eq_getElem (by omega), hc] at this
                have := s3 (n - j) (by omega) hlt this.symm
                omega
              · omega
    · rw [if_neg hk]
      refine ⟨-1, rfl, Or.inr ⟨rfl, fun j hj => ?_⟩⟩
      exact hno j (by omega) hj

end Verif.Search
