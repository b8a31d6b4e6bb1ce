import Verif.Names.Spec
import Mathlib.Tactic.Tauto

/-! Lemmas about the strings of names. -/
namespace Verif.Names

theorem has_nil {a : Nat} : ¬ Has a [] := by
  rintro ⟨pre, post, h⟩
  cases pre <;> simp at h

theorem has_cons {a c : Nat} {s : Txt} :
    Has a (c :: s) ↔ (c = a ∧ s.head? = some 95) ∨ Has a s := by
  constructor
  · rintro ⟨pre, post, h⟩
    cases pre with
    | nil =>
      simp only [List.nil_append, List.cons.injEq] at h
      left; rw [h.2]; exact ⟨h.1, rfl⟩
    | cons x pre =>
      simp only [List.cons_append, List.cons.injEq] at h
      right; exact ⟨pre, post, h.2⟩
  · rintro (⟨rfl, h⟩ | ⟨pre, post, rfl⟩)
    · cases s with
      | nil => simp at h
      | cons d s =>
        simp only [List.head?_cons, Option.some.injEq] at h
        subst h
        exact ⟨[], s, rfl⟩
    · exact ⟨c :: pre, post, rfl⟩

theorem has_append {a : Nat} {s t : Txt} (h : Has a (s ++ t)) :
    Has a s ∨ Has a t ∨ (a ∈ s ∧ t.head? = some 95) := by
  induction s with
  | nil => right; left; exact h
  | cons c s ih =>
    rw [List.cons_append, has_cons] at h
    rcases h with ⟨rfl, h⟩ | h
    · cases s with
      | nil => right; right; exact ⟨by simp, by simpa using h⟩
      | cons d s =>
        left; rw [has_cons]; left; exact ⟨rfl, by simpa using h⟩
    · rcases ih h with h | h | ⟨h1, h2⟩
      · left; rw [has_cons]; exact Or.inr h
      · right; left; exact h
      · right; right; exact ⟨List.mem_cons_of_mem _ h1, h2⟩

theorem has_right {a : Nat} {s t : Txt} (h : Has a t) : Has a (s ++ t) := by
  obtain ⟨pre, post, rfl⟩ := h
  exact ⟨s ++ pre, post, by simp⟩

theorem has_left {a : Nat} {s t : Txt} (h : Has a s) : Has a (s ++ t) := by
  obtain ⟨pre, post, rfl⟩ := h
  exact ⟨pre, post ++ t, by simp⟩

/-- Cutting at the first letter of the compiler. -/
theorem cut {M : Nat → Prop} (h95 : ¬ M 95) {s s' r r' : Txt} {a a' : Nat} (ha : M a) (ha' : M a')
    (hs : ∀ b, M b → ¬ Has b s) (hs' : ∀ b, M b → ¬ Has b s')
    (h : s ++ a :: 95 :: r = s' ++ a' :: 95 :: r') : s = s' ∧ a = a' ∧ r = r' := by
  induction s generalizing s' with
  | nil =>
    cases s' with
    | nil => simpa using h
    | cons c s' =>
      exfalso
      simp only [List.nil_append, List.cons_append, List.cons.injEq] at h
      obtain ⟨rfl, h⟩ := h
      cases s' with
      | nil =>
        simp only [List.nil_append, List.cons.injEq] at h
        exact h95 (h.1 ▸ ha')
      | cons d s' =>
        simp only [List.cons_append, List.cons.injEq] at h
        exact hs' a ha ⟨[], s', by simp [h.1]⟩
  | cons c s ih =>
    cases s' with
    | nil =>
      exfalso
      simp only [List.nil_append, List.cons_append, List.cons.injEq] at h
      obtain ⟨rfl, h⟩ := h
      cases s with
      | nil =>
        simp only [List.nil_append, List.cons.injEq] at h
        exact h95 (h.1 ▸ ha)
      | cons d s =>
        simp only [List.cons_append, List.cons.injEq] at h
        exact hs c ha' ⟨[], s, by simp [h.1]⟩
    | cons c' s' =>
      simp only [List.cons_append, List.cons.injEq] at h
      obtain ⟨rfl, h⟩ := h
      obtain ⟨h1, h2⟩ := ih (fun b hb hh => hs b hb (has_cons.mpr (Or.inr hh)))
        (fun b hb hh => hs' b hb (has_cons.mpr (Or.inr hh))) h
      exact ⟨by rw [h1], h2⟩

/-! ### Digits -/

/-- The value of a digit. -/
def dval (c : Nat) : Nat := if c < 58 then c - 48 else c - 87

theorem dval_digit {d : Nat} : dval (digit d) = d := by
  unfold digit dval
  by_cases h : d < 10
  · rw [if_pos h, if_pos (by omega)]; omega
  · rw [if_neg h, if_neg (by omega)]; omega

def val (b : Nat) (l : Txt) : Nat := l.foldl (fun acc c => acc * b + dval c) 0

theorem val_digitsF {b : Nat} (hb : 2 ≤ b) : ∀ f n, n < f → val b (digitsF b f n) = n := by
  intro f
  induction f with
  | zero => intro n h; omega
  | succ f ih =>
    intro n h
    simp only [digitsF]
    by_cases hn : n < b
    · rw [if_pos hn]; simp [val, dval_digit]
    · rw [if_neg hn]
      have hlt : n / b < f := by
        have : n / b < n := Nat.div_lt_self (by omega) (by omega)
        omega
      have := ih (n / b) hlt
      unfold val at this ⊢
      rw [List.foldl_append, this]
      simp only [List.foldl_cons, List.foldl_nil, dval_digit]
      rw [Nat.mul_comm]
      exact Nat.div_add_mod n b

theorem digits_inj {b : Nat} (hb : 2 ≤ b) {n m : Nat} (h : digits b n = digits b m) : n = m := by
  have h1 := val_digitsF hb (n + 1) n (by omega)
  have h2 := val_digitsF hb (m + 1) m (by omega)
  unfold digits at h
  rw [← h1, ← h2, h]

theorem digitsF_range {b : Nat} (hb : 2 ≤ b) : ∀ f n, ∀ c ∈ digitsF b f n,
    (48 ≤ c ∧ c < 48 + b ∧ c < 58) ∨ (97 ≤ c ∧ c < 87 + b) := by
  intro f
  induction f with
  | zero => intro n c hc; simp [digitsF] at hc
  | succ f ih =>
    have hd : ∀ d, d < b → (48 ≤ digit d ∧ digit d < 48 + b ∧ digit d < 58) ∨
        (97 ≤ digit d ∧ digit d < 87 + b) := by
      intro d hd
      unfold digit
      by_cases h : d < 10
      · rw [if_pos h]; omega
      · rw [if_neg h]; omega
    intro n c hc
    simp only [digitsF] at hc
    by_cases hn : n < b
    · rw [if_pos hn, List.mem_singleton] at hc
      rw [hc]; exact hd n hn
    · rw [if_neg hn] at hc
      rcases List.mem_append.mp hc with hc | hc
      · exact ih _ c hc
      · rw [List.mem_singleton] at hc
        rw [hc]; exact hd _ (Nat.mod_lt _ (by omega))

theorem digits10_range {n c : Nat} (h : c ∈ digits 10 n) : 48 ≤ c ∧ c ≤ 57 := by
  have := digitsF_range (by omega) (n + 1) n c h
  omega

theorem digits16_range {n c : Nat} (h : c ∈ digits 16 n) :
    (48 ≤ c ∧ c ≤ 57) ∨ (97 ≤ c ∧ c ≤ 102) := by
  have := digitsF_range (by omega) (n + 1) n c h
  omega

theorem digits_ne_nil {b n : Nat} : digits b n ≠ [] := by
  unfold digits
  simp only [digitsF]
  by_cases h : n < b
  · rw [if_pos h]; simp
  · rw [if_neg h]; simp

theorem unique_range {i c : Nat} (h : c ∈ unique i) : 48 ≤ c ∧ c ≤ 57 := by
  unfold unique at h
  by_cases e : i = 0
  · rw [if_pos e] at h; cases h
  · rw [if_neg e] at h; exact digits10_range h

theorem unique_inj {i j : Nat} (h : unique i = unique j) : i = j := by
  unfold unique at h
  by_cases ei : i = 0
  · rw [if_pos ei] at h
    by_cases ej : j = 0
    · omega
    · rw [if_neg ej] at h; exact absurd h.symm digits_ne_nil
  · rw [if_neg ei] at h
    by_cases ej : j = 0
    · rw [if_pos ej] at h; exact absurd h digits_ne_nil
    · rw [if_neg ej] at h; exact digits_inj (by omega) h

/-- Splitting where a class of characters ends. -/
theorem span_inj {P : Nat → Prop} {u u' s s' : Txt} (hu : ∀ c ∈ u, P c) (hu' : ∀ c ∈ u', P c)
    (hs : ∀ c, s.head? = some c → ¬ P c) (hs' : ∀ c, s'.head? = some c → ¬ P c)
    (h : u ++ s = u' ++ s') : u = u' ∧ s = s' := by
  induction u generalizing u' with
  | nil =>
    cases u' with
    | nil => exact ⟨rfl, h⟩
    | cons c u' =>
      exfalso
      simp only [List.nil_append, List.cons_append] at h
      exact hs c (by rw [h]; rfl) (hu' c (by simp))
  | cons c u ih =>
    cases u' with
    | nil =>
      exfalso
      simp only [List.nil_append, List.cons_append] at h
      exact hs' c (by rw [← h]; rfl) (hu c (by simp))
    | cons c' u' =>
      simp only [List.cons_append, List.cons.injEq] at h
      obtain ⟨rfl, h⟩ := h
      obtain ⟨h1, h2⟩ := ih (fun x hx => hu x (List.mem_cons_of_mem _ hx))
        (fun x hx => hu' x (List.mem_cons_of_mem _ hx)) h
      exact ⟨by rw [h1], h2⟩

/-! ### The strings of names -/

def IsMark (a : Nat) : Prop := a ∈ marks

theorem not_mark_95 : ¬ IsMark 95 := by unfold IsMark marks; simp

theorem mark_range {a : Nat} (h : IsMark a) : 65 ≤ a ∧ a ≤ 90 := by
  unfold IsMark marks at h
  simp only [List.mem_cons, List.not_mem_nil, or_false] at h
  omega

theorem letter_mark (p : Pre) : IsMark (letter p) := by
  cases p <;> simp [letter, IsMark, marks]

theorem letter_ne (p : Pre) : letter p ≠ 68 ∧ letter p ≠ 65 ∧ letter p ≠ 66 ∧ letter p ≠ 81 ∧
    letter p ≠ 88 := by
  cases p <;> simp [letter]

theorem letter_inj {p q : Pre} (h : letter p = letter q) : p = q := by
  cases p <;> cases q <;> simp [letter] at h <;> rfl

/-- A part of a derived name: the letter and what follows the underscore. -/
def seg : Name → Nat × Txt
  | .name s => (68, s)
  | .internal p s i => (letter p, unique i ++ s)
  | .derived _ _ => (0, [])

/-- The text before the first letter, and the parts. -/
def parts : Name → Txt × List (Nat × Txt)
  | .name s => (s, [])
  | .internal p s i => ([], [(letter p, unique i ++ s)])
  | .derived n s => ((parts n).1, (parts n).2 ++ [seg s])

def flat (l : List (Nat × Txt)) : Txt := l.flatMap (fun p => p.1 :: 95 :: p.2)

theorem nstr_parts {n : Name} (h : Plain n) : nstr n = (parts n).1 ++ flat (parts n).2 := by
  induction h with
  | atom h =>
    cases h with
    | name h1 h2 h3 => simp [nstr, parts, flat]
    | internal h1 h2 => simp [nstr, parts, flat]
  | derived hn ha ih =>
    cases ha with
    | name h1 h2 h3 => simp [nstr, parts, flat, isInternal, ih, seg]
    | internal h1 h2 => simp [nstr, parts, flat, isInternal, ih, seg]

/-- A part of a plain name. -/
def GoodSeg (p : Nat × Txt) : Prop :=
  IsMark p.1 ∧ (∀ b, IsMark b → ¬ Has b p.2) ∧ p.1 ≠ 65 ∧ p.1 ≠ 66 ∧ p.1 ≠ 81 ∧ p.1 ≠ 88

theorem plain_unique {i : Nat} {s : Txt} (h : PlainTxt s) : ∀ b, IsMark b →
    ¬ Has b (unique i ++ s) := by
  intro b hb hh
  rcases has_append hh with ⟨pre, post, e⟩ | h1 | ⟨h1, _⟩
  · have := unique_range (i := i) (c := b) (by rw [e]; simp)
    have := mark_range hb
    omega
  · exact h b hb h1
  · have := unique_range h1
    have := mark_range hb
    omega

theorem seg_good {n : Name} (h : Atom n) : GoodSeg (seg n) := by
  cases h with
  | name h1 h2 h3 => exact ⟨by simp [seg, IsMark, marks], h3, by simp [seg], by simp [seg],
      by simp [seg], by simp [seg]⟩
  | @internal p s i h1 h2 =>
    have := letter_ne p
    exact ⟨letter_mark p, plain_unique h1, this.2.1, this.2.2.1, this.2.2.2.1, this.2.2.2.2⟩

theorem parts_good {n : Name} (h : Plain n) : (∀ b, IsMark b → ¬ Has b (parts n).1) ∧
    (∀ p ∈ (parts n).2, GoodSeg p) ∧ ((parts n).2 = [] → (parts n).1 ≠ []) ∧
    (parts n).1.head? ≠ some 36 := by
  induction h with
  | atom h =>
    cases h with
    | name h1 h2 h3 => exact ⟨h3, by simp [parts], fun _ => h1, h2⟩
    | @internal p s i h1 h2 =>
      refine ⟨fun b _ => has_nil, ?_, by simp [parts], by simp [parts]⟩
      intro q hq
      simp only [parts, List.mem_singleton] at hq
      rw [hq]
      exact seg_good (.internal h1 h2)
  | derived hn ha ih =>
    refine ⟨ih.1, ?_, by simp [parts], ih.2.2.2⟩
    intro q hq
    simp only [parts, List.mem_append, List.mem_singleton] at hq
    rcases hq with hq | rfl
    · exact ih.2.1 q hq
    · exact seg_good ha

theorem flat_inj {s s' : Txt} {l l' : List (Nat × Txt)} (hs : ∀ b, IsMark b → ¬ Has b s)
    (hs' : ∀ b, IsMark b → ¬ Has b s') (hl : ∀ p ∈ l, GoodSeg p) (hl' : ∀ p ∈ l', GoodSeg p)
    (h : s ++ flat l = s' ++ flat l') : s = s' ∧ l = l' := by
  induction l generalizing s s' l' with
  | nil =>
    cases l' with
    | nil => simpa [flat] using h
    | cons p l' =>
      exfalso
      simp only [flat, List.flatMap_nil, List.append_nil, List.flatMap_cons] at h
      refine hs p.1 (hl' p (by simp)).1 ?_
      rw [h]
      exact ⟨s', p.2 ++ List.flatMap (fun p => p.1 :: 95 :: p.2) l', by simp⟩
  | cons p l ih =>
    cases l' with
    | nil =>
      exfalso
      simp only [flat, List.flatMap_nil, List.append_nil, List.flatMap_cons] at h
      refine hs' p.1 (hl p (by simp)).1 ?_
      rw [← h]
      exact ⟨s, p.2 ++ List.flatMap (fun p => p.1 :: 95 :: p.2) l, by simp⟩
    | cons p' l' =>
      simp only [flat, List.flatMap_cons, List.cons_append] at h
      obtain ⟨h1, h2, h3⟩ := cut not_mark_95 (hl p (by simp)).1 (hl' p' (by simp)).1 hs hs' h
      obtain ⟨h4, h5⟩ := ih (hl p (by simp)).2.1 (hl' p' (by simp)).2.1
        (fun q hq => hl q (List.mem_cons_of_mem _ hq))
        (fun q hq => hl' q (List.mem_cons_of_mem _ hq)) h3
      refine ⟨h1, ?_⟩
      rw [h5, Prod.ext h2 h4]

theorem seg_inj {a a' : Name} (h : Atom a) (h' : Atom a') (he : seg a = seg a') : a = a' := by
  cases h with
  | name h1 h2 h3 =>
    cases h' with
    | name h1 h2 h3 => simpa [seg] using he
    | @internal p s i h1 h2 =>
      simp only [seg, Prod.mk.injEq] at he
      exact absurd he.1.symm (letter_ne p).1
  | @internal p s i h1 h2 =>
    cases h' with
    | name h1 h2 h3 =>
      simp only [seg, Prod.mk.injEq] at he
      exact absurd he.1 (letter_ne p).1
    | @internal p' s' i' h1' h2' =>
      simp only [seg, Prod.mk.injEq] at he
      obtain ⟨e1, e2⟩ := span_inj (P := fun c => 48 ≤ c ∧ c ≤ 57) (fun c => unique_range)
        (fun c => unique_range) h2 h2' he.2
      rw [letter_inj he.1, unique_inj e1, e2]

theorem parts_inj {n n' : Name} (h : Plain n) (h' : Plain n') (he : parts n = parts n') :
    n = n' := by
  induction h generalizing n' with
  | @atom n h =>
    cases h' with
    | atom h' =>
      cases h with
      | name h1 h2 h3 =>
        cases h' with
        | name h1 h2 h3 => simpa [parts] using he
        | internal h1 h2 => simp [parts] at he
      | internal h1 h2 =>
        cases h' with
        | name h1 h2 h3 => simp [parts] at he
        | internal h1' h2' =>
          apply seg_inj (.internal h1 h2) (.internal h1' h2')
          simpa [parts, seg] using he
    | @derived n' a' hn' ha' =>
      exfalso
      cases h with
      | name h1 h2 h3 => simp [parts] at he
      | internal h1 h2 =>
        simp only [parts, Prod.mk.injEq] at he
        have hg := (parts_good hn').2.2.1
        have : (parts n').2 = [] := by
          have hlen := congrArg List.length he.2
          simp at hlen
          exact hlen
        exact hg this he.1.symm
  | @derived n a hn ha ih =>
    cases h' with
    | atom h' =>
      exfalso
      cases h' with
      | name h1 h2 h3 => simp [parts] at he
      | internal h1 h2 =>
        simp only [parts, Prod.mk.injEq] at he
        have hg := (parts_good hn).2.2.1
        have : (parts n).2 = [] := by
          have hlen := congrArg List.length he.2
          simp at hlen
          exact hlen
        exact hg this he.1
    | @derived n' a' hn' ha' =>
      simp only [parts, Prod.mk.injEq] at he
      obtain ⟨e1, e2⟩ := List.append_inj' he.2 rfl
      rw [ih hn' (Prod.ext he.1 e1), seg_inj ha ha' (by simpa using e2)]

theorem nstr_inj {n n' : Name} (h : Plain n) (h' : Plain n') (he : nstr n = nstr n') :
    n = n' := by
  rw [nstr_parts h, nstr_parts h'] at he
  obtain ⟨g1, g2, _⟩ := parts_good h
  obtain ⟨g1', g2', _⟩ := parts_good h'
  obtain ⟨e1, e2⟩ := flat_inj g1 g1' g2 g2' he
  exact parts_inj h h' (Prod.ext e1 e2)

theorem has_flat {a : Nat} {l : List (Nat × Txt)} (ha : IsMark a) (hl : ∀ p ∈ l, GoodSeg p)
    (hne : a = 65 ∨ a = 66 ∨ a = 81 ∨ a = 88) : ∀ {s : Txt}, ¬ Has a s → ¬ Has a (s ++ flat l) := by
  induction l with
  | nil => intro s hs; simpa [flat] using hs
  | cons p l ih =>
    intro s hs hh
    obtain ⟨g1, g2, g3, g4, g5, g6⟩ := hl p (by simp)
    simp only [flat, List.flatMap_cons, List.cons_append] at hh
    rcases has_append hh with h | h | ⟨_, h⟩
    · exact hs h
    · rw [has_cons] at h
      rcases h with ⟨h, _⟩ | h
      · omega
      · rw [has_cons] at h
        rcases h with ⟨h, _⟩ | h
        · have := mark_range ha; omega
        · exact ih (fun q hq => hl q (List.mem_cons_of_mem _ hq)) (g2 a ha) h
    · simp only [List.head?_cons, Option.some.injEq] at h
      have := mark_range g1
      omega

/-- The string of a plain name has none of `A_`, `B_`, `Q_`, `X_`, is not empty, and does not
begin with `$`. -/
structure Free (s : Txt) : Prop where
  a : ¬ Has 65 s
  b : ¬ Has 66 s
  q : ¬ Has 81 s
  x : ¬ Has 88 s
  ne : s ≠ []
  d : s.head? ≠ some 36

theorem nstr_free {n : Name} (h : Plain n) : Free (nstr n) := by
  obtain ⟨g1, g2, g3, g4⟩ := parts_good h
  rw [nstr_parts h]
  have hm : ∀ a, a = 65 ∨ a = 66 ∨ a = 81 ∨ a = 88 → IsMark a := by
    intro a ha
    unfold IsMark marks
    simp only [List.mem_cons, List.not_mem_nil, or_false]
    omega
  refine ⟨has_flat (hm 65 (by omega)) g2 (by omega) (g1 65 (hm 65 (by omega))),
    has_flat (hm 66 (by omega)) g2 (by omega) (g1 66 (hm 66 (by omega))),
    has_flat (hm 81 (by omega)) g2 (by omega) (g1 81 (hm 81 (by omega))),
    has_flat (hm 88 (by omega)) g2 (by omega) (g1 88 (hm 88 (by omega))), ?_, ?_⟩
  · intro h
    rw [List.append_eq_nil_iff] at h
    cases hp : (parts n).2 with
    | nil => exact g3 hp h.1
    | cons p l => rw [hp] at h; simp [flat] at h
  · cases hs : (parts n).1 with
    | cons c s => rw [hs] at g4; simpa using g4
    | nil =>
      cases hp : (parts n).2 with
      | nil => exact absurd hs (g3 hp)
      | cons p l =>
        have := mark_range (g2 p (by rw [hp]; simp)).1
        simp only [flat, List.nil_append, List.flatMap_cons, List.cons_append, List.head?_cons,
          ne_eq, Option.some.injEq]
        omega

/-! ### C identifiers -/

theorem alpha_alnum {c : Nat} (h : isAlpha c = true) : isAlphaNum c = true := by
  simp [isAlphaNum, h]

theorem esc_head {s : Txt} (h : (esc s).head? = some 95) : s.head? = some 95 := by
  cases s with
  | nil => simp [esc] at h
  | cons c s =>
    simp only [esc] at h
    by_cases hc : isAlphaNum c = true
    · rw [if_pos hc] at h; simpa using h
    · rw [if_neg hc] at h; simp [hex] at h

theorem has_hex {a c : Nat} {t : Txt} (ha : 65 ≤ a ∧ a ≤ 90) (hx : a ≠ 88)
    (h : Has a (hex c ++ t)) : Has a t := by
  have e : hex c ++ t = 88 :: 95 :: (digits 16 c ++ (95 :: t)) := by simp [hex]
  rw [e, has_cons, has_cons] at h
  rcases h with ⟨h, _⟩ | ⟨h, _⟩ | h
  · omega
  · omega
  · rcases has_append h with ⟨pre, post, h⟩ | h | ⟨h, _⟩
    · have := digits16_range (n := c) (c := a) (by rw [h]; simp)
      omega
    · rw [has_cons] at h
      rcases h with ⟨h, _⟩ | h
      · omega
      · exact h
    · have := digits16_range h
      omega

theorem has_esc {a : Nat} (ha : 65 ≤ a ∧ a ≤ 90) (hx : a ≠ 88) {s : Txt}
    (h : Has a (esc s)) : Has a s := by
  induction s with
  | nil => exact h
  | cons c s ih =>
    simp only [esc] at h
    by_cases hc : isAlphaNum c = true
    · rw [if_pos hc, has_cons] at h
      rw [has_cons]
      rcases h with ⟨h1, h2⟩ | h
      · exact Or.inl ⟨h1, esc_head h2⟩
      · exact Or.inr (ih h)
    · rw [if_neg hc] at h
      rw [has_cons]
      exact Or.inr (ih (has_hex ha hx h))

theorem hex_inj {c c' : Nat} {t t' : Txt} (h : hex c ++ t = hex c' ++ t') : c = c' ∧ t = t' := by
  simp only [hex, List.cons_append, List.nil_append, List.append_assoc, List.cons.injEq,
    true_and] at h
  obtain ⟨h1, h2⟩ := span_inj (P := fun c => c ≠ 95)
    (fun x hx => by have := digits16_range hx; omega)
    (fun x hx => by have := digits16_range hx; omega)
    (fun x hx => by simp at hx; omega) (fun x hx => by simp at hx; omega) h
  exact ⟨digits_inj (by omega) h1, by simpa using h2⟩

/-- Escaped and not escaped characters are told apart. -/
theorem esc_mix {c : Nat} {s t : Txt} (hs : ¬ Has 88 (c :: s)) {c' : Nat}
    (h : c :: esc s = hex c' ++ t) : False := by
  simp only [hex, List.cons_append, List.nil_append, List.append_assoc, List.cons.injEq] at h
  apply hs
  rw [has_cons]
  exact Or.inl ⟨h.1, esc_head (by rw [h.2]; rfl)⟩

theorem esc_inj {s s' : Txt} (hs : ¬ Has 88 s) (hs' : ¬ Has 88 s') (h : esc s = esc s') :
    s = s' := by
  induction s generalizing s' with
  | nil =>
    cases s' with
    | nil => rfl
    | cons c s' =>
      simp only [esc] at h
      by_cases hc : isAlphaNum c = true
      · rw [if_pos hc] at h; simp at h
      · rw [if_neg hc] at h; simp [hex] at h
  | cons c s ih =>
    cases s' with
    | nil =>
      simp only [esc] at h
      by_cases hc : isAlphaNum c = true
      · rw [if_pos hc] at h; simp at h
      · rw [if_neg hc] at h; simp [hex] at h
    | cons c' s' =>
      have t1 : ¬ Has 88 s := fun hh => hs (has_cons.mpr (Or.inr hh))
      have t2 : ¬ Has 88 s' := fun hh => hs' (has_cons.mpr (Or.inr hh))
      simp only [esc] at h
      by_cases hc : isAlphaNum c = true
      · rw [if_pos hc] at h
        by_cases hc' : isAlphaNum c' = true
        · rw [if_pos hc'] at h
          simp only [List.cons.injEq] at h
          rw [h.1, ih t1 t2 h.2]
        · rw [if_neg hc'] at h
          exact (esc_mix hs h).elim
      · rw [if_neg hc] at h
        by_cases hc' : isAlphaNum c' = true
        · rw [if_pos hc'] at h
          exact (esc_mix hs' h.symm).elim
        · rw [if_neg hc'] at h
          obtain ⟨e1, e2⟩ := hex_inj h
          rw [e1, ih t1 t2 e2]

/-- `mkCident` but for the four special names. -/
def cid : Txt → Txt
  | [] => []
  | c :: s => if isAlpha c then c :: esc s else hex c ++ esc s

theorem mkCident_cases {s r : Txt} (h : mkCident s = some r) :
    (s = complex_ ∧ r = complx) ∨ (s = complexM ∧ r = complxM) ∨ (s = complx ∧ r = aComplex) ∨
    (s = complxM ∧ r = aComplexM) ∨
    (s ≠ [] ∧ s ≠ complex_ ∧ s ≠ complexM ∧ s ≠ complx ∧ s ≠ complxM ∧ r = cid s) := by
  unfold mkCident at h
  by_cases e1 : s = complex_
  · rw [if_pos e1] at h; left; exact ⟨e1, (Option.some.inj h).symm⟩
  rw [if_neg e1] at h
  by_cases e2 : s = complexM
  · rw [if_pos e2] at h; right; left; exact ⟨e2, (Option.some.inj h).symm⟩
  rw [if_neg e2] at h
  by_cases e3 : s = complx
  · rw [if_pos e3] at h; right; right; left; exact ⟨e3, (Option.some.inj h).symm⟩
  rw [if_neg e3] at h
  by_cases e4 : s = complxM
  · rw [if_pos e4] at h; right; right; right; left; exact ⟨e4, (Option.some.inj h).symm⟩
  rw [if_neg e4] at h
  right; right; right; right
  cases s with
  | nil => cases h
  | cons c s =>
    refine ⟨by simp, e1, e2, e3, e4, ?_⟩
    simp only at h
    simp only [cid]
    by_cases hc : isAlpha c = true
    · rw [if_pos hc] at h ⊢; exact (Option.some.inj h).symm
    · rw [if_neg hc] at h ⊢; exact (Option.some.inj h).symm

theorem mkCident_some {s : Txt} (h : s ≠ []) : ∃ r, mkCident s = some r := by
  unfold mkCident
  by_cases e1 : s = complex_
  · exact ⟨_, if_pos e1⟩
  rw [if_neg e1]
  by_cases e2 : s = complexM
  · exact ⟨_, if_pos e2⟩
  rw [if_neg e2]
  by_cases e3 : s = complx
  · exact ⟨_, if_pos e3⟩
  rw [if_neg e3]
  by_cases e4 : s = complxM
  · exact ⟨_, if_pos e4⟩
  rw [if_neg e4]
  cases s with
  | nil => exact absurd rfl h
  | cons c s =>
    by_cases hc : isAlpha c = true
    · exact ⟨_, if_pos hc⟩
    · exact ⟨_, if_neg hc⟩

theorem cid_inj {s s' : Txt} (hs : ¬ Has 88 s) (hs' : ¬ Has 88 s') (h : cid s = cid s') :
    s = s' := by
  cases s with
  | nil =>
    cases s' with
    | nil => rfl
    | cons c s' =>
      simp only [cid] at h
      by_cases hc : isAlpha c = true
      · rw [if_pos hc] at h; simp at h
      · rw [if_neg hc] at h; simp [hex] at h
  | cons c s =>
    cases s' with
    | nil =>
      simp only [cid] at h
      by_cases hc : isAlpha c = true
      · rw [if_pos hc] at h; simp at h
      · rw [if_neg hc] at h; simp [hex] at h
    | cons c' s' =>
      have t1 : ¬ Has 88 s := fun hh => hs (has_cons.mpr (Or.inr hh))
      have t2 : ¬ Has 88 s' := fun hh => hs' (has_cons.mpr (Or.inr hh))
      simp only [cid] at h
      by_cases hc : isAlpha c = true
      · rw [if_pos hc] at h
        by_cases hc' : isAlpha c' = true
        · rw [if_pos hc'] at h
          simp only [List.cons.injEq] at h
          rw [h.1, esc_inj t1 t2 h.2]
        · rw [if_neg hc'] at h
          exact (esc_mix hs h).elim
      · rw [if_neg hc] at h
        by_cases hc' : isAlpha c' = true
        · rw [if_pos hc'] at h
          exact (esc_mix hs' h.symm).elim
        · rw [if_neg hc'] at h
          obtain ⟨e1, e2⟩ := hex_inj h
          rw [e1, esc_inj t1 t2 e2]

theorem has_cid {a : Nat} (ha : 65 ≤ a ∧ a ≤ 90) (hx : a ≠ 88) {s : Txt}
    (h : Has a (cid s)) : Has a s := by
  cases s with
  | nil => exact h
  | cons c s =>
    simp only [cid] at h
    by_cases hc : isAlpha c = true
    · rw [if_pos hc, has_cons] at h
      rw [has_cons]
      rcases h with ⟨h1, h2⟩ | h
      · exact Or.inl ⟨h1, esc_head h2⟩
      · exact Or.inr (has_esc ha hx h)
    · rw [if_neg hc] at h
      rw [has_cons]
      exact Or.inr (has_esc ha hx (has_hex ha hx h))

end Verif.Names
