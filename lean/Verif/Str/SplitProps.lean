import Verif.Str.Replace
/-!
# C10: the statements about `split`, `join`, `count`, `partition` and `replace` together
-/
namespace Verif.Str
open Verif Verif.Search

/-- C10: `s.partition(sep)` is a triple whose concatenation is `s` and whose first component is
free of `sep`; the middle is `sep` iff `sep` occurs. -/
theorem C10_partition_partial {s sep : Str} {t p : List Nat} (h : Repr s t) (hp : Repr sep p)
    (hmax : s.nbytes + sep.nbytes < 2^31) (hne : p ≠ []) :
    ∃ x y z a b c, partition s sep = .ok (x, y, z) ∧ Repr x a ∧ Repr y b ∧ Repr z c ∧
      t = a ++ b ++ c ∧ Free p a ∧ (b = p ∨ (Free p t ∧ b = [] ∧ c = [])) := by
  rcases partition_spec h hp hmax with ⟨hf, e⟩ | ⟨l, r, a, c, e, hl, hr, ht, hfirst⟩
  · exact ⟨s, nullStr, nullStr, t, [], [], e, h, null_repr, null_repr, by simp, hf, Or.inr ⟨hf, rfl, rfl⟩⟩
  · refine ⟨l, sep, r, a, p, c, e, hl, hp, hr, ht, ?_, Or.inl rfl⟩
    intro k hk
    have h1 := hk.1
    have : 0 < p.length := List.length_pos_iff.2 hne
    apply hfirst k (by omega)
    rw [ht, List.append_assoc]
    exact occurs_left hk

/-- C10: `s.rpartition(sep)` is a triple whose concatenation is `s` and whose last component is
free of `sep`, for all strings. -/
theorem C10_rpartition {s sep : Str} {t p : List Nat} (h : Repr s t) (hp : Repr sep p) (hne : p ≠ []) :
    ∃ x y z a b c, rpartition s sep = .ok (x, y, z) ∧ Repr x a ∧ Repr y b ∧ Repr z c ∧
      t = a ++ b ++ c ∧ Free p c ∧ (b = p ∨ (Free p t ∧ a = [] ∧ b = [])) := by
  rcases rpartition_spec h hp with ⟨hf, e⟩ | ⟨l, r, a, c, e, hl, hr, ht, hlast⟩
  · exact ⟨nullStr, nullStr, s, [], [], t, e, null_repr, null_repr, h, by simp, hf, Or.inr ⟨hf, rfl, rfl⟩⟩
  · refine ⟨l, sep, r, a, p, c, e, hl, hp, hr, ht, ?_, Or.inl rfl⟩
    intro k hk
    have : 0 < p.length := List.length_pos_iff.2 hne
    apply hlast ((a ++ p).length + k) (by rw [List.length_append]; omega)
    rw [← occurs_drop (by rw [ht]; simp only [List.length_append]; omega), ht, List.drop_left]
    exact hk

/-- C10: `s.count(sep)` is the largest number of non-overlapping occurrences. -/
theorem C10_count_partial {s sep : Str} {t p : List Nat} (h : Repr s t) (hp : Repr sep p)
    (hmax : s.nbytes + sep.nbytes < 2^31) (hne : p ≠ []) :
    ∃ c : Nat, count s sep none none = .ok (c : Int) ∧
      (∃ ks, Disjoint t p 0 ks ∧ ks.length = c) ∧ (∀ ks, Disjoint t p 0 ks → ks.length ≤ c) := by
  obtain ⟨qs, hq, e⟩ := count_spec h hp hmax hne
  obtain ⟨⟨ks, h1, h2⟩, h3⟩ := hq.count rfl
  refine ⟨qs.length - 1, ?_, ⟨ks, h1, by omega⟩, ?_⟩
  · rw [e]; congr 1; omega
  · intro ks hks; have := h3 ks hks; omega

/-- C10: `sep.join(s.split(sep)) == s`, no piece contains `sep`, and there are
`s.count(sep) + 1` pieces. -/
theorem C10_split_join_partial {s sep : Str} {t p : List Nat} (h : Repr s t) (hp : Repr sep p)
    (hmax : s.nbytes + sep.nbytes < 2^31) (hne : p ≠ []) :
    ∃ ps qs c r, split s sep none = .ok ps ∧ Reprs ps qs ∧ (∀ q ∈ qs, Free p q) ∧
      count s sep none none = .ok c ∧ (ps.length : Int) = c + 1 ∧
      join sep ps = .ok r ∧ Repr r t := by
  obtain ⟨ps, qs, e, hr, hs⟩ := C10_split_partial h hp hmax hne none (by simp)
  obtain ⟨qs', hq', hc⟩ := count_spec h hp hmax hne
  have := hs.unique hq'
  subst this
  have hj := hs.join
  obtain ⟨r, hr1, hr2⟩ := C10_join hp hr (by rw [hj]; exact h.small)
  rw [hj] at hr2
  exact ⟨ps, qs, _, r, e, hr, hs.free hne rfl, hc, by have := reprs_length hr; omega, hr1, hr2⟩

/-- C10 with a limit `m > 0`: still `sep.join(s.split(sep, m)) == s`; there are at most `m + 1`
pieces, and all but the last are free of `sep` (all, if there are fewer). -/
theorem C10_split_limit_partial {s sep : Str} {t p : List Nat} (h : Repr s t) (hp : Repr sep p)
    (hmax : s.nbytes + sep.nbytes < 2^31) (hne : p ≠ []) (m : Nat) (hm : 0 < m) :
    ∃ ps qs r, split s sep (some m) = .ok ps ∧ Reprs ps qs ∧ ps.length ≤ m + 1 ∧
      (∀ q ∈ qs.dropLast, Free p q) ∧ (ps.length < m + 1 → ∀ q ∈ qs, Free p q) ∧
      join sep ps = .ok r ∧ Repr r t := by
  obtain ⟨ps, qs, e, hr, hs⟩ := C10_split_partial h hp hmax hne (some (m : Int)) (by
    intro h0; injection h0 with h0; omega)
  have hlim : limit (some (m : Int)) = some m := by
    unfold limit; simp only; rw [if_neg (by omega), Int.toNat_natCast]
  rw [hlim] at hs
  have hj := hs.join
  have hl := reprs_length hr
  obtain ⟨l1, l2, l3⟩ := hs.limit hne m rfl
  obtain ⟨r, hr1, hr2⟩ := C10_join hp hr (by rw [hj]; exact h.small)
  rw [hj] at hr2
  exact ⟨ps, qs, r, e, hr, by omega, l2, fun h0 => l3 (by omega), hr1, hr2⟩

/-- C10: `s.replace(old, new) == new.join(s.split(old))`, computed by the two code paths. -/
theorem C10_replace_join_partial {s old new : Str} {t p w : List Nat} (h : Repr s t) (hp : Repr old p) (hw : Repr new w)
    (hmax : s.nbytes + old.nbytes < 2^31) (hne : p ≠ [])
    (hsize : ∀ qs, SplitsTo p none t qs → (enc (joinWith w qs)).length < 2^31) :
    ∃ ps r r' u, split s old none = .ok ps ∧ join new ps = .ok r ∧ replace s old new none = .ok r' ∧
      Repr r u ∧ Repr r' u := by
  obtain ⟨ps, qs, e, hr, hs⟩ := C10_split_partial h hp hmax hne none (by simp)
  obtain ⟨r', qs', e', hs', hr'⟩ := C10_replace_partial h hp hw hmax hne none (by simp) hsize
  have := hs.unique hs'
  subst this
  obtain ⟨r, hr1, hr2⟩ := C10_join hw hr (hsize _ hs)
  exact ⟨ps, r, r', _, e, hr1, e', hr2, hr'⟩

/-- An empty separator raises `ValueError`. -/
theorem C10_split_empty_sep {s sep : Str} (hp : Repr sep []) (m : Option Int) : split s sep m = .raise .valueError := by
  unfold split
  rw [if_pos (by rw [hp.nc]; rfl)]

/-- `split` with `maxsplit = 0` reads an uninitialised variable: `"abc".split("b", 0)`. -/
theorem C10_refuted_maxsplit_zero : split strABC strB (some 0) = .ub := by decide

/-- `replace` with a negative count writes past the end of the result buffer:
`"abc".replace("b", "abc", -1)`. -/
theorem C10_refuted_negative_count : replace strABC strB strABC (some (-1)) = .ub := by decide

/-- "é" -/
def strE : Str := ⟨1, 2, [0xC3, 0xA9, 0]⟩
theorem e_repr : Repr strE [233] :=
  ⟨by intro c hc; simp at hc; unfold CodePoint; omega, rfl, rfl, by decide, by decide⟩

/-- With an empty pattern, characters are counted by bytes: `"é".count("")` is 3, while
`"x".count("")` is 2; and `replace` breaks the character apart. -/
theorem C10_refuted_empty_pattern : count strE nullStr none none = .ok 3 ∧ count strC nullStr none none = .ok 2 ∧
    ∃ r, replace strE nullStr strC none = .ok r ∧ ∀ t, ¬ Repr r t := by
  refine ⟨by decide, by decide, ⟨4, 5, [99, 0xC3, 99, 0xA9, 99, 0]⟩, by decide, ?_⟩
  intro t h
  have hl := h.nc
  have hb := h.buf
  have hcp := h.cp
  simp only at hl hb
  cases t with
  | nil => simp at hl
  | cons a t =>
    obtain ⟨b, bs, e1, l, -, -, hc, -, -⟩ := enc1_shape (hcp a (by simp))
    rw [enc_cons, e1] at hb
    cases bs with
    | nil =>
      simp only [List.cons_append, List.nil_append, List.cons.injEq] at hb
      cases t with
      | nil => simp at hl
      | cons a' t =>
        obtain ⟨b', bs', e1', l', -, -, hc', -, -⟩ := enc1_shape (hcp a' (by simp))
        rw [enc_cons, e1'] at hb
        obtain ⟨-, hb⟩ := hb
        rw [List.cons_append, List.cons_append] at hb
        injection hb with hb0 hb
        subst hb0
        cases bs' with
        | nil => simp [blen2] at l'
        | cons c bs' =>
          rw [List.cons_append, List.cons_append] at hb
          injection hb with hb0 hb
          have := hc' c (by simp)
          unfold Cont at this
          omega
    | cons c bs =>
      rw [List.cons_append, List.cons_append, List.cons_append, List.cons_append] at hb
      injection hb with hb1 hb
      subst hb1
      simp [blen2] at l

example : ∃ ps, split strAEB strE none = .ok ps ∧ ps.length = 2 := ⟨[⟨1, 1, [97, 0]⟩, ⟨1, 1, [98, 0]⟩], by decide, rfl⟩
example : replace strAEB strE strABC none = .ok ⟨5, 5, [97, 97, 98, 99, 98, 0]⟩ := by decide
example : ([233] : List Nat) ≠ [] ∧ strAEB.nbytes + strE.nbytes < 2^31 := by decide

end Verif.Str
