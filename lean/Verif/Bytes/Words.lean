import Verif.Bytes.Ends
import Mathlib.Data.List.Induction
/-!
# C63: words and lines of `bytes`
-/
namespace Verif.Bytes
open Verif Verif.Search Verif.Str

theorem isWs_iff (c : Nat) : isWs c = true ↔ Space c := by
  unfold isWs Space
  rw [decide_eq_true_iff]
  omega

theorem between_ok (s : Bytes) {q p : Nat} (h1 : q ≤ p) (h2 : p ≤ s.length) :
    between s (some q) p = .ok ((s.drop q).take (p - q)) := by
  unfold between
  simp only
  rw [show (p : Int) - q = ((p - q : Nat) : Int) by omega]
  rw [copy_buf s (by omega), Res.ok_bind, mk_ok (by rw [List.length_take, List.length_drop]; omega)]

/-- The words of a text, as the code collects them: `cur` is the word being read. -/
def wordsFrom : List Nat → Option (List Nat) → List (List Nat)
  | [], none => []
  | [], some w => [w]
  | c :: t, none => if isWs c then wordsFrom t none else wordsFrom t (some [c])
  | c :: t, some w => if isWs c then w :: wordsFrom t none else wordsFrom t (some (w ++ [c]))

theorem space_head {sp w rest : List Nat} {c : Nat} (hs : Space c)
    {ws : List (List Nat)} (h : Words (sp ++ w ++ rest) ws) : Words (c :: (sp ++ w ++ rest)) ws := by
  generalize sp ++ w ++ rest = t at h
  cases h with
  | blank _ h1 =>
    refine .blank _ ?_
    intro x hx
    rcases List.mem_cons.1 hx with rfl | hx
    · exact hs
    · exact h1 x hx
  | word sp w rest ws h1 h2 h3 h4 h5 =>
    refine Words.word (c :: sp) w rest ws ?_ h2 h3 h4 h5
    intro x hx
    rcases List.mem_cons.1 hx with rfl | hx
    · exact hs
    · exact h1 x hx

theorem wordsFrom_spec : ∀ (t : List Nat),
    Words t (wordsFrom t none) ∧
    ∀ w, w ≠ [] → (∀ c ∈ w, ¬ Space c) → Words (w ++ t) (wordsFrom t (some w)) := by
  intro t
  induction t with
  | nil =>
    refine ⟨.blank [] (by simp), ?_⟩
    intro w h1 h2
    have := Words.word [] w [] [] (by simp) h1 h2 (by simp) (.blank [] (by simp))
    simpa [wordsFrom] using this
  | cons c t ih =>
    by_cases hc : Space c
    · have hw : isWs c = true := (isWs_iff c).2 hc
      simp only [wordsFrom, if_pos hw]
      have h0 : Words (c :: t) (wordsFrom t none) := by
        have := space_head (sp := []) (w := []) (rest := t) hc (by simpa using ih.1)
        simpa using this
      refine ⟨h0, ?_⟩
      intro w h1 h2
      have := Words.word [] w (c :: t) _ (by simp) h1 h2 (by intro x hx; simp at hx; exact hx ▸ hc) h0
      simpa using this
    · have hw : ¬ isWs c = true := fun h => hc ((isWs_iff c).1 h)
      simp only [wordsFrom, if_neg hw]
      constructor
      · exact ih.2 [c] (by simp) (by simpa using hc)
      · intro w h1 h2
        have := ih.2 (w ++ [c]) (by simp) (by
          intro x hx
          rcases List.mem_append.1 hx with hx | hx
          · exact h2 x hx
          · simp at hx; exact hx ▸ hc)
        simpa using this

/-- The words of a text are determined. -/
theorem Words.unique {t : List Nat} {ws ws' : List (List Nat)} (h : Words t ws) (h' : Words t ws') : ws = ws' := by
  have key : ∀ {t ws}, Words t ws → ws = wordsFrom t none := by
    intro t ws h
    induction h with
    | blank t h =>
      induction t with
      | nil => rfl
      | cons c t ih =>
        have hc : isWs c = true := (isWs_iff c).2 (h c (by simp))
        simp only [wordsFrom, if_pos hc]
        exact ih (fun x hx => h x (by simp [hx]))
    | word sp w rest ws h1 h2 h3 h4 _ ih =>
      have skip : ∀ sp : List Nat, (∀ c ∈ sp, Space c) → ∀ u, wordsFrom (sp ++ u) none = wordsFrom u none := by
        intro sp
        induction sp with
        | nil => intro _ u; rfl
        | cons c sp ih =>
          intro h u
          have hc : isWs c = true := (isWs_iff c).2 (h c (by simp))
          simp only [List.cons_append, wordsFrom, if_pos hc]
          exact ih (fun x hx => h x (by simp [hx])) u
      have run : ∀ w : List Nat, (∀ c ∈ w, ¬ Space c) → ∀ v, wordsFrom (w ++ rest) (some v) = (v ++ w) :: wordsFrom rest none := by
        intro w
        induction w with
        | nil =>
          intro _ v
          cases rest with
          | nil => simp [wordsFrom]
          | cons c rest =>
            have hc : isWs c = true := (isWs_iff c).2 (h4 c rfl)
            simp only [List.nil_append, wordsFrom, if_pos hc, List.append_nil]
        | cons c w ih =>
          intro h v
          have hc : ¬ isWs c = true := fun h' => h c (by simp) ((isWs_iff c).1 h')
          simp only [List.cons_append, wordsFrom, if_neg hc]
          rw [ih (fun x hx => h x (by simp [hx]))]
          simp
      rw [List.append_assoc, skip sp h1]
      cases w with
      | nil => exact absurd rfl h2
      | cons c w =>
        have hc : ¬ isWs c = true := fun h' => h3 c (by simp) ((isWs_iff c).1 h')
        simp only [List.cons_append, wordsFrom, if_neg hc]
        rw [run w (fun x hx => h3 x (by simp [hx])), ← ih]
        rfl
  rw [key h, key h']

theorem take_snoc (s : List Nat) {q p : Nat} (h1 : q ≤ p) {c : Nat} {cs : List Nat} (h : s.drop p = c :: cs) :
    (s.drop q).take (p + 1 - q) = (s.drop q).take (p - q) ++ [c] := by
  rw [show p + 1 - q = (p - q) + 1 by omega, List.take_add, List.drop_drop, show q + (p - q) = p by omega, h]
  rfl

/-- The loop, as long as the limit is not reached, and the last byte is no white space. -/
theorem wsLoop_spec (s : Bytes) (mx : Int) : ∀ (t : List Nat) (w : Ws), s.drop w.p = t → w.p ≤ s.length →
    (∀ c, t.getLast? = some c → ¬ Space c) →
    (w.inword = true → ∃ q, w.q = some q ∧ q ≤ w.p) →
    ((w.res.length : Int) + (wordsFrom t (if w.inword then some ((s.drop (w.q.getD 0)).take (w.p - w.q.getD 0)) else none)).length ≤ mx) →
    (t = [] → w.inword = true) →
    ∃ w', wsLoop s mx t w = .ok w' ∧ w'.p = s.length ∧ ∃ q, w'.q = some q ∧ q ≤ s.length ∧
      w'.res ++ [s.drop q] =
        w.res ++ wordsFrom t (if w.inword then some ((s.drop (w.q.getD 0)).take (w.p - w.q.getD 0)) else none) := by
  intro t
  induction t with
  | nil =>
    intro w ht hp _ hin _ hlast
    have hi := hlast rfl
    obtain ⟨q, hq, hle⟩ := hin hi
    have hps : w.p = s.length := by
      have := congrArg List.length ht
      rw [List.length_drop, List.length_nil] at this
      omega
    refine ⟨w, rfl, hps, q, hq, by omega, ?_⟩
    rw [if_pos hi, hq, Option.getD_some, hps, take_all]
    rfl
  | cons c t ih =>
    intro w ht hp hlast hin hlim _
    have hps : w.p < s.length := by
      have := congrArg List.length ht
      rw [List.length_drop, List.length_cons] at this
      omega
    have ht' : s.drop (w.p + 1) = t := by
      rw [← List.drop_drop, ht]; rfl
    have hlast' : ∀ x, t.getLast? = some x → ¬ Space x := by
      intro x hx
      apply hlast x
      cases t with
      | nil => simp at hx
      | cons y t => simpa using hx
    obtain ⟨p, iw, q0, res⟩ := w
    simp only at ht hp hin hlim hps ht' ⊢
    unfold wsLoop
    simp only
    by_cases hc : isWs c = true
    · have hte : t ≠ [] := by
        rintro rfl
        exact hlast c rfl ((isWs_iff c).1 hc)
      rw [if_neg (by simpa using hc)]
      cases iw with
      | true =>
        obtain ⟨q, rfl, hle⟩ := hin rfl
        rw [if_pos rfl, between_ok s hle (by omega), Res.ok_bind]
        simp only [if_true, Option.getD_some, wordsFrom, if_pos hc] at hlim ⊢
        obtain ⟨w', e, h1, q', h2, h3, h4⟩ := ih { p := p + 1, inword := false, q := some q, res := res ++ [(s.drop q).take (p - q)] }
          ht' (by show p + 1 ≤ _; omega) hlast' (by intro h; cases h) (by
            simp only [Bool.false_eq_true, if_false, List.length_append, List.length_cons, List.length_nil] at hlim ⊢
            omega) (fun h => absurd h hte)
        refine ⟨w', e, h1, q', h2, h3, ?_⟩
        rw [h4]
        simp
      | false =>
        simp only [Bool.false_eq_true, if_false, wordsFrom, if_pos hc] at hlim ⊢
        obtain ⟨w', e, h1, q', h2, h3, h4⟩ := ih { p := p + 1, inword := false, q := q0, res := res }
          ht' (by show p + 1 ≤ _; omega) hlast' (by intro h; cases h) (by
            simp only [Bool.false_eq_true, if_false]; exact hlim) (fun h => absurd h hte)
        refine ⟨w', e, h1, q', h2, h3, ?_⟩
        rw [h4]
        simp
    · rw [if_pos (by simpa using hc)]
      cases iw with
      | true =>
        obtain ⟨q, rfl, hle⟩ := hin rfl
        rw [if_neg (by simp)]
        simp only [if_true, Option.getD_some, wordsFrom, if_neg hc] at hlim ⊢
        rw [← take_snoc s hle ht] at hlim ⊢
        obtain ⟨w', e, h1, q', h2, h3, h4⟩ := ih { p := p + 1, inword := true, q := some q, res := res }
          ht' (by show p + 1 ≤ _; omega) hlast' (by intro _; exact ⟨q, rfl, by show q ≤ p + 1; omega⟩) (by
            simp only [if_true, Option.getD_some]; exact hlim) (fun _ => rfl)
        refine ⟨w', e, h1, q', h2, h3, ?_⟩
        rw [h4]
        simp
      | false =>
        rw [if_pos (by simp)]
        simp only [Bool.false_eq_true, if_false, wordsFrom, if_neg hc] at hlim ⊢
        have hpos : 0 < (wordsFrom t (some [c])).length := by
          have : ∀ (t w : List Nat), 0 < (wordsFrom t (some w)).length := by
            intro t
            induction t with
            | nil => intro w; simp [wordsFrom]
            | cons x t ih => intro w; unfold wordsFrom; split <;> simp [ih]
          exact this t [c]
        rw [if_neg (by omega)]
        have e1 : (s.drop p).take (p + 1 - p) = [c] := by
          rw [ht, show p + 1 - p = 1 by omega]; rfl
        obtain ⟨w', e, h1, q', h2, h3, h4⟩ := ih { p := p + 1, inword := true, q := some p, res := res }
          ht' (by show p + 1 ≤ _; omega) hlast' (by intro _; exact ⟨p, rfl, by show p ≤ p + 1; omega⟩) (by
            simp only [if_true, Option.getD_some]
            rw [e1]; exact hlim) (fun _ => rfl)
        refine ⟨w', e, h1, q', h2, h3, ?_⟩
        rw [h4]
        simp only [if_true, Option.getD_some]
        rw [e1]

/-- C63: `s.split()` delivers the words of `s`, if `s` does not end with white space and the limit is not reached. Missing:
the other cases, where the code is wrong. -/
theorem C63_split_partial (s : Bytes) (m : Option Int) (ws : List Bytes) (hw : Words s ws)
    (hlast : ∀ c, s.getLast? = some c → ¬ Space c) (hmax : (ws.length : Int) ≤ splitMax m) : splitWs s m = .ok ws := by
  have hws : ws = wordsFrom s none := hw.unique (wordsFrom_spec s).1
  unfold splitWs
  by_cases h0 : s.length = 0
  · rw [if_pos h0]
    have : s = [] := List.length_eq_zero_iff.1 h0
    subst this
    rw [hws]; rfl
  · rw [if_neg h0]
    obtain ⟨w', e, h1, q, h2, h3, h4⟩ := wsLoop_spec s (splitMax m) s ⟨0, false, none, []⟩ rfl (by simp) hlast (by simp)
      (by simp only [Bool.false_eq_true, if_false, List.length_nil]; rw [← hws]; simpa using hmax)
      (fun h => absurd (by rw [h]; rfl) h0)
    rw [e, Res.ok_bind]
    unfold wsEnd
    rw [if_neg (by omega), h2, between_ok s h3 (Nat.le_refl _), Res.ok_bind, take_all]
    refine congrArg Res.ok ?_
    rw [h4, hws]
    simp

example : Words [32, 97, 98, 9, 10, 99] [[97, 98], [99]] ∧ splitWs [32, 97, 98, 9, 10, 99] none = .ok [[97, 98], [99]] :=
  ⟨(wordsFrom_spec _).1, by decide +kernel⟩

/-- C63 does not hold for a value that ends with white space: `b"a ".split()` is `[b"a", b"a "]`. -/
theorem C63_refuted_trailing : splitWs [97, 32] none = .ok [[97], [97, 32]] ∧ Words [97, 32] [[97]] :=
  ⟨by decide +kernel, (wordsFrom_spec _).1⟩

/-- C63 does not hold for white space alone: the pointer `q` is used before it is set. -/
theorem C63_refuted_blank : splitWs [32] none = .ub ∧ Words [32] [] := ⟨by decide +kernel, (wordsFrom_spec _).1⟩

/-- C63 does not hold with a limit: the rest is lost, `b"a b c".split(None, 1)` is `[b"a", b""]`. -/
theorem C63_refuted_limit : splitWs [97, 32, 98, 32, 99] (some 1) = .ok [[97], []] := by decide +kernel

/-- The lines of a text, as the code collects them: `a` is the line being read. -/
def linesFrom (keep : Bool) : List Nat → List Nat → List (List Nat)
  | [], a => if a = [] then [] else [a]
  | 13 :: 10 :: cs, a => (if keep then a ++ [13, 10] else a) :: linesFrom keep cs []
  | c :: cs, a => if c ≠ 10 ∧ c ≠ 13 then linesFrom keep cs (a ++ [c]) else (if keep then a ++ [c] else a) :: linesFrom keep cs []

theorem linesFrom_spec (keep : Bool) (t a : List Nat) (ha : ∀ c ∈ a, c ≠ 10 ∧ c ≠ 13) : Lines keep (a ++ t) (linesFrom keep t a) := by
  fun_induction linesFrom keep t a with
  | case1 => exact .nil
  | case2 a h => rw [List.append_nil]; exact .last a h ha
  | case3 cs a ih =>
    have := Lines.more (keep := keep) a [13, 10] cs _ ha (Or.inr (Or.inl rfl)) (ih (by simp))
    simpa using this
  | case4 c cs a hne h ih =>
    have := ih (by
      intro x hx
      rcases List.mem_append.1 hx with hx | hx
      · exact ha x hx
      · simp at hx; exact hx ▸ h)
    simpa using this
  | case5 c cs a hne h ih =>
    have hc : c = 10 ∨ c = 13 := by omega
    have he : LineEnd [c] cs := by
      rcases hc with rfl | rfl
      · exact Or.inl rfl
      · refine Or.inr (Or.inr ⟨rfl, ?_⟩)
        intro h0
        cases cs with
        | nil => simp at h0
        | cons y cs => simp at h0; exact hne _ rfl (by rw [h0])
    have := Lines.more (keep := keep) a [c] cs _ ha he (ih (by simp))
    simpa using this

theorem linesLoop_spec (s : Bytes) (keep : Bool) : ∀ (t : List Nat) (q p : Nat) (res : List Bytes), s.drop p = t → p ≤ s.length → q ≤ p →
    ∃ res' q', linesLoop s keep t q p res = .ok (res', q', s.length) ∧ q' ≤ s.length ∧
      res ++ linesFrom keep t ((s.drop q).take (p - q)) = res' ++ (if q' < s.length then [s.drop q'] else []) := by
  intro t
  induction hn : t.length using Nat.strongRecOn generalizing t with
  | ind n ih =>
  intro q p res ht hp hq
  have hlen := congrArg List.length ht
  rw [List.length_drop] at hlen
  cases t with
  | nil =>
    rw [List.length_nil] at hlen
    have hps : p = s.length := by omega
    subst hps
    refine ⟨res, q, rfl, hq, ?_⟩
    rw [take_all]
    unfold linesFrom
    by_cases h : q < s.length
    · rw [if_pos h, if_neg (by intro h0; have := congrArg List.length h0; rw [List.length_drop, List.length_nil] at this; omega)]
    · rw [if_neg h, if_pos (List.drop_eq_nil_of_le (by omega))]
  | cons c t =>
    rw [List.length_cons] at hlen hn
    have ht' : s.drop (p + 1) = t := by rw [← List.drop_drop, ht]; rfl
    have plain : (∀ cs, c = 13 → t ≠ 10 :: cs) → ∃ res' q', linesLoop s keep (c :: t) q p res = .ok (res', q', s.length) ∧ q' ≤ s.length ∧
        res ++ linesFrom keep (c :: t) ((s.drop q).take (p - q)) = res' ++ (if q' < s.length then [s.drop q'] else []) := by
      intro hne
      rw [linesLoop.eq_3 s keep q p res c t (fun cs h1 h2 => hne cs h1 h2),
        linesFrom.eq_3 keep _ c t (fun cs h1 h2 => hne cs h1 h2)]
      by_cases hc : c ≠ 10 ∧ c ≠ 13
      · rw [if_pos hc, if_pos hc, ← take_snoc s hq ht]
        exact ih t.length (by omega) t rfl q (p + 1) res ht' (by omega) (by omega)
      · rw [if_neg hc, if_neg hc, between_ok s (by omega) (by split <;> omega), Res.ok_bind]
        obtain ⟨res', q', e, h1, h2⟩ := ih t.length (by omega) t rfl (p + 1) (p + 1)
          (res ++ [(s.drop q).take ((p + if keep = true then 1 else 0) - q)]) ht' (by omega) (by omega)
        refine ⟨res', q', e, h1, ?_⟩
        rw [← h2, Nat.sub_self, List.take_zero]
        have : (s.drop q).take ((p + if keep = true then 1 else 0) - q) =
            if keep = true then (s.drop q).take (p - q) ++ [c] else (s.drop q).take (p - q) := by
          split
          · exact take_snoc s hq ht
          · rfl
        rw [this]
        simp
    by_cases hcr : c = 13
    · subst hcr
      cases t with
      | nil => exact plain (by intro cs _ h; cases h)
      | cons d t =>
        by_cases hd : d = 10
        · subst hd
          rw [List.length_cons] at hlen hn
          have ht'' : s.drop (p + 2) = t := by rw [show p + 2 = p + 1 + 1 by rfl, ← List.drop_drop, ht']; rfl
          rw [linesLoop.eq_2, linesFrom.eq_2, between_ok s (by omega) (by split <;> omega), Res.ok_bind]
          obtain ⟨res', q', e, h1, h2⟩ := ih t.length (by omega) t rfl (p + 2) (p + 2)
            (res ++ [(s.drop q).take ((p + if keep = true then 2 else 0) - q)]) ht'' (by omega) (by omega)
          refine ⟨res', q', e, h1, ?_⟩
          rw [← h2, Nat.sub_self, List.take_zero]
          have : (s.drop q).take ((p + if keep = true then 2 else 0) - q) =
              if keep = true then (s.drop q).take (p - q) ++ [13, 10] else (s.drop q).take (p - q) := by
            split
            · rw [show p + 2 = (p + 1) + 1 by rfl, take_snoc s (by omega) ht', take_snoc s hq ht]
              simp
            · rfl
          rw [this]
          simp
        · exact plain (by intro cs _ h; injection h with h _; exact hd h)
    · exact plain (by intro cs h; exact absurd h hcr)

/-- C63: `s.splitlines(keepends)` delivers the lines of `s`; `\n`, `\r` and `\r\n` end a line. -/
theorem C63_splitlines (s : Bytes) (keep : Bool) : ∃ ls, splitlines s keep = .ok ls ∧ Lines keep s ls := by
  unfold splitlines
  by_cases h0 : s.length = 0
  · rw [if_pos h0]
    have : s = [] := List.length_eq_zero_iff.1 h0
    subst this
    exact ⟨[], rfl, .nil⟩
  · rw [if_neg h0]
    obtain ⟨res, q, e, h1, h2⟩ := linesLoop_spec s keep s 0 0 [] rfl (by omega) (by omega)
    rw [List.nil_append, Nat.sub_zero, List.take_zero] at h2
    have hl := linesFrom_spec keep s [] (by simp)
    rw [h2, List.nil_append] at hl
    rw [e, Res.ok_bind]
    simp only
    by_cases hq : q < s.length
    · rw [if_pos hq] at hl ⊢
      rw [between_ok s h1 (Nat.le_refl _), Res.ok_bind, take_all]
      exact ⟨_, rfl, hl⟩
    · rw [if_neg hq] at hl ⊢
      rw [List.append_nil] at hl
      exact ⟨_, rfl, hl⟩

theorem Lines.flatten {t : List Nat} {ls : List (List Nat)} (h : Lines true t ls) : ls.flatten = t := by
  induction h with
  | nil => rfl
  | last t _ _ => simp
  | more a e b ls _ _ _ ih => simp [ih]

/-- C63: with their ends the lines make up `s`. -/
theorem C63_lines_join (s : Bytes) : ∃ ls, splitlines s true = .ok ls ∧ ls.flatten = s := by
  obtain ⟨ls, e, h⟩ := C63_splitlines s true
  exact ⟨ls, e, h.flatten⟩

theorem Lines.plain {t : List Nat} {ls : List (List Nat)} (h : Lines false t ls) : ∀ l ∈ ls, ∀ c ∈ l, c ≠ 10 ∧ c ≠ 13 := by
  induction h with
  | nil => simp
  | last t _ h => simpa using h
  | more a e b ls h _ _ ih =>
    intro l hl
    rcases List.mem_cons.1 hl with rfl | hl
    · simpa using h
    · exact ih l hl

/-- C63: without their ends the lines contain no line end. -/
theorem C63_lines_plain (s : Bytes) : ∃ ls, splitlines s false = .ok ls ∧ ∀ l ∈ ls, ∀ c ∈ l, c ≠ 10 ∧ c ≠ 13 := by
  obtain ⟨ls, e, h⟩ := C63_splitlines s false
  exact ⟨ls, e, h.plain⟩

example : splitlines [97, 13, 10, 13, 98, 10, 99] true = .ok [[97, 13, 10], [13], [98, 10], [99]] ∧
    splitlines [97, 13, 10, 13, 98, 10, 99] false = .ok [[97], [], [98], [99]] := by decide +kernel

end Verif.Bytes
