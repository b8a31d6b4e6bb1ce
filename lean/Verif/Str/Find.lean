import Verif.Str.Lemmas
/-!
# C09, code point level: `find`, `rfind`, `index`, `in`
-/
namespace Verif.Str
open Verif Verif.Search

theorem find_window {s sub : Str} {t p : List Nat} (h : Repr s t) (hp : Repr sub p)
    (hmax : s.nbytes + sub.nbytes < 2^31) {a b : Option Int} {lo hi : Nat}
    (hf : fixStartEnd s.nchars a b = some ((lo : Int), (hi : Int))) :
    ∃ r, find s sub a b = .ok r ∧ FirstIn t p lo hi r := by
  have hb := hf
  rw [h.nc] at hb
  obtain ⟨i, j, e1, e2, hi1, hj1⟩ := fix_bounds hb
  have : i = lo := by omega
  have : j = hi := by omega
  subst i; subst j
  unfold find findWith
  rw [hf]
  simp only
  rw [h.skip0 hi1, Res.ok_bind, h.skip hi1 hj1, Res.ok_bind]
  by_cases hle : lo ≤ hi
  · obtain ⟨r, hr, ⟨rfl, e⟩ | ⟨i, rfl, hik, e⟩⟩ := searchAt_bmh h hp hmax hle hj1
    · rw [e, Res.ok_bind, if_pos (by omega)]
      exact ⟨-1, rfl, by simpa using isFirst_window hle hj1 hr⟩
    · have hm := off_mono (t := t) (j := lo) (k := lo + i) (by omega)
      rw [e, Res.ok_bind, if_neg (by omega)]
      rw [show (off t (lo + i) : Int) - off t lo + off t lo = ((off t (lo + i) : Nat) : Int) by omega,
        h.charNo_spec (by omega)]
      have := isFirst_window hle hj1 hr
      rw [if_neg (by omega)] at this
      exact ⟨_, rfl, by push_cast; exact this⟩
  · have hlt := off_lt (t := t) (j := hi) (k := lo) (by omega) hi1
    unfold searchAt
    rw [if_pos (by omega), Res.ok_bind, if_pos (by omega)]
    refine ⟨-1, rfl, Or.inr ⟨rfl, fun j hj => ?_⟩⟩
    have := hj.1; have := hj.2.1; omega

theorem rfind_window {s sub : Str} {t p : List Nat} (h : Repr s t) (hp : Repr sub p)
    {a b : Option Int} {lo hi : Nat}
    (hf : fixStartEnd s.nchars a b = some ((lo : Int), (hi : Int))) :
    ∃ r, rfind s sub a b = .ok r ∧ LastIn t p lo hi r := by
  have hb := hf
  rw [h.nc] at hb
  obtain ⟨i, j, e1, e2, hi1, hj1⟩ := fix_bounds hb
  have : i = lo := by omega
  have : j = hi := by omega
  subst i; subst j
  unfold rfind findWith
  rw [hf]
  simp only
  rw [h.skip0 hi1, Res.ok_bind, h.skip hi1 hj1, Res.ok_bind]
  by_cases hle : lo ≤ hi
  · obtain ⟨r, hr, ⟨rfl, e⟩ | ⟨i, rfl, hik, e⟩⟩ := searchAt_rbmh h hp hle hj1
    · rw [e, Res.ok_bind, if_pos (by omega)]
      exact ⟨-1, rfl, by simpa using isLast_window hle hj1 hr⟩
    · have hm := off_mono (t := t) (j := lo) (k := lo + i) (by omega)
      rw [e, Res.ok_bind, if_neg (by omega)]
      rw [show (off t (lo + i) : Int) - off t lo + off t lo = ((off t (lo + i) : Nat) : Int) by omega,
        h.charNo_spec (by omega)]
      have := isLast_window hle hj1 hr
      rw [if_neg (by omega)] at this
      exact ⟨_, rfl, by push_cast; exact this⟩
  · have hlt := off_lt (t := t) (j := hi) (k := lo) (by omega) hi1
    unfold searchAt
    rw [if_pos (by omega), Res.ok_bind, if_pos (by omega)]
    refine ⟨-1, rfl, Or.inr ⟨rfl, fun j hj => ?_⟩⟩
    have := hj.1; have := hj.2.1; omega

/-- C09: `s.find(sub)` is the position (in code points) of the first occurrence, or -1.
Missing for the full claim: strings of together 2^31 bytes and more, where it fails. -/
theorem C09_find_partial {s sub : Str} {t p : List Nat} (h : Repr s t) (hp : Repr sub p)
    (hmax : s.nbytes + sub.nbytes < 2^31) :
    ∃ r, find s sub none none = .ok r ∧ IsFirst t p r := by
  obtain ⟨r, h1, h2⟩ := find_window h hp hmax (a := none) (b := none) (lo := 0) (hi := t.length)
    (by rw [fix_default, h.nc]; rfl)
  exact ⟨r, h1, firstIn_all.1 h2⟩

/-- C09: `s.rfind(sub)` is the position of the last occurrence, or -1, for all strings. -/
theorem C09_rfind {s sub : Str} {t p : List Nat} (h : Repr s t) (hp : Repr sub p) :
    ∃ r, rfind s sub none none = .ok r ∧ IsLast t p r := by
  obtain ⟨r, h1, h2⟩ := rfind_window h hp (a := none) (b := none) (lo := 0) (hi := t.length)
    (by rw [fix_default, h.nc]; rfl)
  exact ⟨r, h1, lastIn_all.1 h2⟩

/-- C09: `sub in s` iff `sub` occurs in `s`. -/
theorem C09_contains_partial {s sub : Str} {t p : List Nat} (h : Repr s t) (hp : Repr sub p)
    (hmax : s.nbytes + sub.nbytes < 2^31) :
    ∃ r, contains s sub = .ok r ∧ (r = true ↔ ∃ a b, t = a ++ p ++ b) := by
  obtain ⟨r, hr, hf⟩ := C09_bmh_partial (enc t) (enc p) (by rw [h.nb, hp.nb] at hmax; exact hmax)
  have hocc : (∃ a b, t = a ++ p ++ b) ↔ ∃ k, OccursAt t p k := by
    constructor
    · rintro ⟨a, b, rfl⟩
      refine ⟨a.length, by simp only [List.length_append]; omega, ?_⟩
      rw [List.append_assoc, List.drop_left, List.take_left]
    · rintro ⟨k, h1, h2⟩
      refine ⟨t.take k, t.drop (k + p.length), ?_⟩
      conv => rhs; lhs; rhs; rw [← h2]
      rw [List.append_assoc, ← List.drop_drop, List.take_append_drop, List.take_append_drop]
  refine ⟨decide (r ≥ 0), ?_, ?_⟩
  · unfold contains
    rw [h.bytes_eq, hp.bytes_eq, hr]; rfl
  · rw [hocc, decide_eq_true_iff]
    rcases first_enc h.cp hp.cp hf with ⟨rfl, hf'⟩ | ⟨i, hi, rfl, hf'⟩
    · constructor
      · intro hh; omega
      · rintro ⟨k, hk⟩
        rcases hf' with ⟨i, hi, -⟩ | ⟨-, h2⟩
        · omega
        · exact absurd hk (h2 k)
    · constructor
      · intro _
        rcases hf' with ⟨k, hk, ho, -⟩ | ⟨hk, -⟩
        · exact ⟨k, ho⟩
        · omega
      · intro _; omega

/-- C09: `s.index(sub)` is the position of the first occurrence; `ValueError` iff there is none. -/
theorem C09_index_partial {s sub : Str} {t p : List Nat} (h : Repr s t) (hp : Repr sub p)
    (hmax : s.nbytes + sub.nbytes < 2^31) :
    (∃ k : Nat, index s sub none none = .ok k ∧ IsFirst t p k) ∨
    (index s sub none none = .raise .valueError ∧ ∀ k, ¬ OccursAt t p k) := by
  obtain ⟨r, h1, h2⟩ := C09_find_partial h hp hmax
  unfold index
  rw [h1, Res.ok_bind]
  have h3 := h2
  rcases h2 with ⟨k, rfl, -⟩ | ⟨rfl, h2⟩
  · exact Or.inl ⟨k, by rw [if_neg (by omega)]; rfl, h3⟩
  · exact Or.inr ⟨by rw [if_pos (by omega)], h2⟩

/-- C09: `s.rindex(sub)` is the position of the last occurrence; `ValueError` iff there is none. -/
theorem C09_rindex {s sub : Str} {t p : List Nat} (h : Repr s t) (hp : Repr sub p) :
    (∃ k : Nat, rindex s sub none none = .ok k ∧ IsLast t p k) ∨
    (rindex s sub none none = .raise .valueError ∧ ∀ k, ¬ OccursAt t p k) := by
  obtain ⟨r, h1, h2⟩ := C09_rfind h hp
  unfold rindex
  rw [h1, Res.ok_bind]
  have h3 := h2
  rcases h2 with ⟨k, rfl, -⟩ | ⟨rfl, h2⟩
  · exact Or.inl ⟨k, by rw [if_neg (by omega)]; rfl, h3⟩
  · exact Or.inr ⟨by rw [if_pos (by omega)], h2⟩

theorem wrap32_nat {a : Nat} (ha : a < 2147483648) : wrap32 (a : Int) = a :=
  wrap32_of_in (by unfold InI32; omega)

theorem fixEnd_nat {n b : Nat} (hb : b < 2147483648) : fixEnd (n : Int) (some (b : Int)) = ((min b n : Nat) : Int) := by
  unfold fixEnd
  simp only
  rw [wrap32_nat hb]
  by_cases hbt : (b : Int) > n
  · rw [if_pos hbt, if_neg (by omega)]; omega
  · rw [if_neg hbt, if_neg (by omega), if_neg (by omega)]; omega

theorem fixStart_nat {n a : Nat} (ha : a < 2147483648) :
    fixStart (n : Int) (some (a : Int)) = if n < a then none else some (a : Int) := by
  unfold fixStart
  simp only
  rw [wrap32_nat ha]
  by_cases hat : n < a
  · rw [if_pos (by omega), if_pos hat]
  · rw [if_neg (by omega), if_neg (by omega), if_neg (by omega), if_neg hat]

theorem findWith_none {f : List Nat → List Nat → Res Int} {s sub : Str} {a b : Option Int}
    (h : fixStartEnd s.nchars a b = none) : findWith f s sub a b = .ok (-1) := by
  unfold findWith
  simp only [h]

/-- C09 with bounds: for non-negative bounds that fit in an `int`, `s.find(sub, a, b)` is the
first occurrence within `[a, min b len)`. Missing: negative bounds (see the refutation). -/
theorem C09_find_bounds_partial {s sub : Str} {t p : List Nat} (h : Repr s t) (hp : Repr sub p)
    (hmax : s.nbytes + sub.nbytes < 2^31) (a b : Nat) (ha : a < 2147483648) (hb : b < 2147483648) :
    ∃ r, find s sub (some a) (some b) = .ok r ∧ FirstIn t p a (min b t.length) r := by
  have key : fixStartEnd s.nchars (some (a : Int)) (some (b : Int)) =
      if t.length < a then none else some ((a : Int), ((min b t.length : Nat) : Int)) := by
    unfold fixStartEnd
    rw [h.nc, fixEnd_nat hb, fixStart_nat ha]
    by_cases hat : t.length < a
    · rw [if_pos hat, if_pos hat, Option.map_none]
    · rw [if_neg hat, if_neg hat, Option.map_some]
  by_cases hat : t.length < a
  · rw [if_pos hat] at key
    refine ⟨-1, ?_, Or.inr ⟨rfl, fun j hj => ?_⟩⟩
    · exact findWith_none key
    · have h1 : a ≤ j := hj.1
      have h2 : j + p.length ≤ t.length := hj.2.2.1
      omega
  · rw [if_neg hat] at key
    exact find_window h hp hmax key

def strABC : Str := ⟨3, 3, [97, 98, 99, 0]⟩
theorem abc_repr : Repr strABC [97, 98, 99] :=
  ⟨by intro c hc; simp at hc; unfold CodePoint; omega, rfl, rfl, rfl, by decide⟩
def strC : Str := ⟨1, 1, [99, 0]⟩
theorem c_repr : Repr strC [99] := ⟨by intro c hc; simp at hc; unfold CodePoint; omega, rfl, rfl, rfl, by decide⟩
/-- "aéb" -/
def strAEB : Str := ⟨3, 4, [97, 0xC3, 0xA9, 98, 0]⟩
theorem aeb_repr : Repr strAEB [97, 233, 98] :=
  ⟨by intro c hc; simp at hc; unfold CodePoint; omega, rfl, rfl, by decide, by decide⟩
/-- "b" -/
def strB : Str := ⟨1, 1, [98, 0]⟩
theorem b_repr : Repr strB [98] := ⟨by intro c hc; simp at hc; unfold CodePoint; omega, rfl, rfl, rfl, by decide⟩

/-- Negative bounds count from the end in slices, but are off by one in `find`:
`"abc"[-1:]` is `"c"`, but `"abc".find("c", -1)` searches the empty string after it. -/
theorem C09_refuted_negative_start : ∃ s sub t p, Repr s t ∧ Repr sub p ∧ OccursIn t p 2 3 2 ∧
    find s sub (some (-1)) none = .ok (-1) :=
  ⟨strABC, strC, [97, 98, 99], [99], abc_repr, c_repr, ⟨by decide, by decide, by decide, by decide⟩, by decide⟩

/-- Bounds are truncated to 32 bits: a start far beyond the end is taken for position 0. -/
theorem C09_refuted_start_truncated : find strABC strC (some (2^32)) none = .ok 2 := by decide

example : find strAEB strB none none = .ok 2 := by decide
example : rfind strAEB strB none none = .ok 2 := by decide
example : contains strAEB strC = .ok false := by decide
example : strAEB.nbytes + strB.nbytes < 2^31 := by decide

end Verif.Str
