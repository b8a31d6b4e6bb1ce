import Verif.Glob.Lemmas
/-!
# C74: `fs.glob` always gives an answer
-/
namespace Verif.Glob
open Verif

/-- `f` gives the same answer at every depth from `k` on. -/
def Ev (k : Nat) (f : Nat → Res Bool) : Prop := ∃ b, ∀ n, k ≤ n → f n = .ok b

theorem Ev.const (k : Nat) (b : Bool) : Ev k (fun _ => .ok b) := ⟨b, fun _ _ => rfl⟩

theorem Ev.mono {k k' : Nat} {f : Nat → Res Bool} (h : Ev k f) (hk : k ≤ k') : Ev k' f := by
  obtain ⟨b, hb⟩ := h
  exact ⟨b, fun n hn => hb n (by omega)⟩

theorem Ev.orElse {k : Nat} {f g : Nat → Res Bool} (hf : Ev k f) (hg : Ev k g) :
    Ev k (fun n => Glob.orElse (f n) (fun _ => g n)) := by
  obtain ⟨a, ha⟩ := hf
  obtain ⟨b, hb⟩ := hg
  refine ⟨if a then true else b, fun n hn => ?_⟩
  simp only [Glob.orElse]
  rw [ha n hn, hb n hn, Res.ok_bind]
  cases a <;> rfl

theorem Ev.dirs {k next : Nat} {pat : Text} {call : Nat → Call} {l : List Nat} (h : ∀ i ∈ l, Ev k (fun n => call n pat next i)) :
    Ev k (fun n => dirsLoop (call n) pat next l) := by
  induction l with
  | nil => exact Ev.const k false
  | cons i l ih =>
    have h1 := h i (by simp)
    have h2 := ih (fun j hj => h j (List.mem_cons_of_mem _ hj))
    exact Ev.orElse h1 h2

theorem Ev.opts {k p close : Nat} {pat : Text} {call : Nat → Call} {l : List Text}
    (h : ∀ o ∈ l, Ev k (fun n => call n (pat.take p ++ o ++ pat.drop (close + 1)) 0 0)) :
    Ev k (fun n => optLoop (call n) pat p close l) := by
  induction l with
  | nil => exact Ev.const k false
  | cons i l ih =>
    have h1 := h i (by simp)
    have h2 := ih (fun j hj => h j (List.mem_cons_of_mem _ hj))
    exact Ev.orElse h1 h2

/-- A depth that suffices. -/
def need (N : Nat) (pat : Text) (p s : Nat) : Nat := pat.length * (pat.length + N + 3) + (pat.length - p) + (N - s) + 1

theorem need_lt {a L N : Nat} (h : a + 2 ≤ L) : a * (a + N + 3) + a + N + 1 < L * (L + N + 3) := by
  have h1 : a * (a + N + 3) ≤ a * (L + N + 3) := Nat.mul_le_mul_left a (by omega)
  have h2 : (a + 1) * (L + N + 3) ≤ L * (L + N + 3) := Nat.mul_le_mul_right _ (by omega)
  rw [Nat.add_mul, Nat.one_mul] at h2
  omega

theorem at_lt {t : Text} {i : Nat} (h : i < t.length) : ∃ c, at_ t i = .ok c := ⟨_, at_some (List.getElem?_eq_getElem h)⟩

theorem splitComma_len (t : Text) : ∀ o ∈ splitComma t, o.length ≤ t.length := by
  induction t with
  | nil => intro o ho; simp [splitComma] at ho; simp [ho]
  | cons c t ih =>
    intro o ho
    unfold splitComma at ho
    split at ho
    · rcases List.mem_cons.1 ho with rfl | ho
      · simp
      · have := ih o ho; simp; omega
    · split at ho
      · rename_i he; exact absurd he (splitComma_ne t)
      · rename_i a l he
        rcases List.mem_cons.1 ho with rfl | ho
        · have := ih a (by rw [he]; simp); simp; omega
        · have := ih o (by rw [he]; simp [ho]); simp; omega

section
variable (sep path : Text)

theorem ev_literal {k p s : Nat} {pat : Text} (hp : p < pat.length)
    (h : s < path.length → Ev k (fun n => rec_ sep path n pat (p + 1) (s + 1))) :
    Ev k (fun n => literal (rec_ sep path n) pat p path s) := by
  unfold literal
  by_cases hs : s < path.length
  · obtain ⟨a, ha⟩ := at_lt hp
    obtain ⟨b, hb⟩ := at_lt hs
    simp only [if_pos hs, ha, hb, Res.ok_bind]
    by_cases hab : a = b
    · simpa only [if_pos hab] using h hs
    · simp only [if_neg hab]; exact Ev.const k _
  · simp only [if_neg hs]; exact Ev.const k _

theorem ev_rec : ∀ (m : Nat) (pat : Text) (p s : Nat), need path.length pat p s ≤ m → p ≤ pat.length → s ≤ path.length →
    Ev (need path.length pat p s) (fun n => rec_ sep path n pat p s) := by
  intro m
  induction m with
  | zero => intro pat p s h; unfold need at h; omega
  | succ m ih =>
    intro pat p s hm hp hs
    -- calls with less need
    have call : ∀ pat' p' s', need path.length pat' p' s' < need path.length pat p s → p' ≤ pat'.length → s' ≤ path.length →
        Ev (need path.length pat p s - 1) (fun n => rec_ sep path n pat' p' s') := by
      intro pat' p' s' h1 h2 h3
      exact (ih pat' p' s' (by omega) h2 h3).mono (by omega)
    have fwd : ∀ p' s', p' ≤ pat.length → s' ≤ path.length → p ≤ p' → s ≤ s' → p + s < p' + s' →
        Ev (need path.length pat p s - 1) (fun n => rec_ sep path n pat p' s') := by
      intro p' s' h1 h2 h3 h4 h5
      exact call pat p' s' (by unfold need; omega) h1 h2
    suffices hb : Ev (need path.length pat p s - 1) (fun n => body (rec_ sep path n) sep pat p path s) by
      obtain ⟨b, hb⟩ := hb
      refine ⟨b, fun n hn => ?_⟩
      obtain ⟨n, rfl⟩ : ∃ k, n = k + 1 := ⟨n - 1, by unfold need at hn; omega⟩
      exact hb n (by omega)
    unfold body
    by_cases hpe : p = pat.length
    · simp only [if_pos hpe]; exact Ev.const _ _
    · simp only [if_neg hpe]
      have hlt : p < pat.length := by omega
      obtain ⟨c, hc⟩ := at_lt hlt
      simp only [hc, Res.ok_bind]
      have lit : Ev (need path.length pat p s - 1) (fun n => literal (rec_ sep path n) pat p path s) :=
        ev_literal sep path hlt (fun h => fwd _ _ (by omega) (by omega) (by omega) (by omega) (by omega))
      by_cases h1 : p + 1 < pat.length ∧ c = 92
      · simp only [if_pos h1]
        unfold escaped
        by_cases hs' : s < path.length
        · obtain ⟨a, ha⟩ := at_lt h1.1
          obtain ⟨b, hb⟩ := at_lt hs'
          simp only [if_pos hs', ha, hb, Res.ok_bind]
          by_cases hab : a = b
          · simpa only [if_pos hab] using fwd (p + 2) (s + 1) (by omega) (by omega) (by omega) (by omega) (by omega)
          · simp only [if_neg hab]; exact Ev.const _ _
        · simp only [if_neg hs']; exact Ev.const _ _
      simp only [if_neg h1]
      by_cases h2 : twoStars pat p = true
      · simp only [if_pos h2]
        have hp1 : p + 1 < pat.length := by
          unfold twoStars at h2
          simp at h2
          exact h2.1
        unfold dstar
        have hi : ∃ d, isAt pat (p + 2) sep = .ok d ∧ (d = true → p + 2 < pat.length) := by
          unfold isAt
          by_cases h : p + 2 < pat.length
          · obtain ⟨a, ha⟩ := at_lt h
            rw [if_pos h, ha]
            exact ⟨_, rfl, fun _ => h⟩
          · rw [if_neg h]
            exact ⟨false, rfl, fun h => absurd h (by decide)⟩
        obtain ⟨d, hd, hd2⟩ := hi
        simp only [hd, Res.ok_bind]
        cases d with
        | true =>
          have := hd2 rfl
          simp only [if_true]
          apply Ev.dirs
          intro i hi
          rw [List.mem_range'_1] at hi
          exact fwd _ _ (by omega) (by omega) (by omega) (by omega) (by omega)
        | false =>
          simp only [Bool.false_eq_true, if_false]
          apply Ev.orElse
          · exact fwd _ _ (by omega) (by omega) (by omega) (by omega) (by omega)
          · by_cases hs' : s < path.length
            · simp only [if_pos hs']
              exact fwd _ _ (by omega) (by omega) (by omega) (by omega) (by omega)
            · simp only [if_neg hs']
              exact Ev.const _ false
      simp only [if_neg h2]
      by_cases h3 : c = 42
      · simp only [if_pos h3]
        unfold star
        apply Ev.orElse
        · exact fwd _ _ (by omega) (by omega) (by omega) (by omega) (by omega)
        · by_cases hs' : s < path.length ∧ (s : Int) < nextSep sep path s
          · simp only [if_pos hs']
            exact fwd _ _ (by omega) (by omega) (by omega) (by omega) (by omega)
          · simp only [if_neg hs']
            exact Ev.const _ false
      simp only [if_neg h3]
      by_cases h4 : c = 63
      · simp only [if_pos h4]
        by_cases hs' : s < path.length
        · simp only [if_pos hs']
          exact fwd _ _ (by omega) (by omega) (by omega) (by omega) (by omega)
        · simp only [if_neg hs']
          exact Ev.const _ false
      simp only [if_neg h4]
      by_cases h5 : c = 91 ∧ p + 1 < pat.length
      · simp only [if_pos h5]
        unfold bracket
        by_cases hf : findFrom pat [93] (p + 1) = -1
        · simpa only [if_pos hf] using lit
        · simp only [if_neg hf]
          rcases findFrom_spec pat [93] (p + 1) with ⟨k, e, g1, g2, g3, -⟩ | ⟨e, -⟩
          · rw [here_one] at g3
            have g4 := (List.getElem?_eq_some_iff.1 g3).1
            rw [e, Int.toNat_natCast]
            unfold charClass
            by_cases hs' : s ≥ path.length
            · simp only [if_pos hs']; exact Ev.const _ _
            · obtain ⟨d, hd⟩ := at_lt (t := path) (i := s) (by omega)
              obtain ⟨is, hi⟩ := items_total _ (unmarked ((pat.take k).drop (p + 1))) (Nat.le_refl _)
              obtain ⟨b, hb, -⟩ := classLoop_spec d hi [] (_ + 1) (Nat.lt_succ_self _)
              rw [List.nil_append, List.length_nil] at hb
              simp only [if_neg hs', hd, Res.ok_bind, hb]
              by_cases hx : (b != negated ((pat.take k).drop (p + 1))) = true
              · simp only [if_pos hx]
                exact fwd _ _ (by omega) (by omega) (by omega) (by omega) (by omega)
              · simp only [if_neg hx]
                exact Ev.const _ false
          · exact absurd e hf
      simp only [if_neg h5]
      by_cases h6 : c = 123 ∧ p + 1 < pat.length
      · simp only [if_pos h6]
        unfold brace
        by_cases hf : findFrom pat [125] (p + 1) = -1
        · simpa only [if_pos hf] using lit
        · simp only [if_neg hf]
          rcases findFrom_spec pat [125] (p + 1) with ⟨k, e, g1, g2, g3, -⟩ | ⟨e, -⟩
          · rw [here_one] at g3
            have g4 := (List.getElem?_eq_some_iff.1 g3).1
            rw [e, Int.toNat_natCast]
            apply Ev.opts
            intro o ho
            have hl := splitComma_len _ o ho
            rw [List.length_drop, List.length_take] at hl
            have hn : (pat.take p ++ o ++ pat.drop (k + 1)).length + 2 ≤ pat.length := by
              simp only [List.length_append, List.length_take, List.length_drop]
              omega
            have := need_lt (N := path.length) hn
            exact call _ 0 0 (by unfold need; omega) (by omega) (by omega)
          · exact absurd e hf
      simpa only [if_neg h6] using lit

/-- C74: `glob` always answers: for every pattern, path and separator it returns True or False, without an exception and
without endless recursion, and deeper recursion would not change the answer. -/
theorem C74_total (pat : Text) : ∃ b, glob pat path sep = .ok b ∧
    ∀ n, depth pat path ≤ n → rec_ sep path n pat 0 0 = .ok b := by
  obtain ⟨b, hb⟩ := ev_rec sep path _ pat 0 0 (Nat.le_refl _) (by omega) (by omega)
  have : need path.length pat 0 0 ≤ depth pat path := by
    unfold need depth
    rw [Nat.add_mul, Nat.one_mul]
    omega
  exact ⟨b, hb _ this, fun n hn => hb n (by omega)⟩

end

/-- A pattern with everything in it: `a**/{b,[!x-z]?}*\` -/
example : ∃ b, glob [97, 42, 42, 47, 123, 98, 44, 91, 33, 120, 45, 122, 93, 63, 125, 42, 92] [97, 47, 98, 92] [47] = .ok b ∧ b = true :=
  ⟨true, by decide +kernel, rfl⟩

end Verif.Glob
