import Verif.Glob.Props
import Verif.Str.Find
import Verif.Str.Seq
import Verif.Str.Split
/-!
# The functions on code points are what the C code of `str` computes

For strings whose sizes fit, `findFrom`, `at_` and `splitComma` are the results of `find` with a start, indexing and `split`,
as modelled in `Verif/Str/Model.lean`.
-/
namespace Verif.Glob
open Verif Verif.Str

theorem find_link {s sub : Str} {t p : List Nat} (h : Repr s t) (hp : Repr sub p) (hmax : s.nbytes + sub.nbytes < 2^31)
    (i : Nat) (hi : i < 2147483648) : Str.find s sub (some i) none = .ok (findFrom t p i) := by
  have key : fixStartEnd s.nchars (some (i : Int)) none =
      if t.length < i then none else some ((i : Int), (t.length : Int)) := by
    unfold fixStartEnd
    rw [h.nc, fixStart_nat hi]
    by_cases hat : t.length < i
    · rw [if_pos hat, if_pos hat, Option.map_none]
    · rw [if_neg hat, if_neg hat, Option.map_some]; rfl
  have occ : ∀ j, i ≤ j → (OccursIn t p i t.length j ↔ (j ≤ t.length ∧ here t p j = true)) := by
    intro j hj
    unfold OccursIn Search.OccursAt here
    rw [decide_eq_true_iff]
    constructor
    · intro h; exact ⟨by omega, h.2.2.2⟩
    · intro h
      have := congrArg List.length h.2
      simp only [List.length_take, List.length_drop] at this
      exact ⟨hj, by omega, by omega, h.2⟩
  by_cases hat : t.length < i
  · rw [if_pos hat] at key
    have : Str.find s sub (some (i : Int)) none = .ok (-1) := findWith_none key
    rw [this]
    rcases findFrom_spec t p i with ⟨k, h1, h2, h3, -, -⟩ | ⟨h1, -⟩
    · omega
    · rw [h1]
  · rw [if_neg hat] at key
    obtain ⟨r, e, hr⟩ := find_window h hp hmax key
    rw [e]
    refine congrArg Res.ok ?_
    rcases findFrom_spec t p i with ⟨k, h1, h2, h3, h4, h5⟩ | ⟨h1, h2⟩
    · rw [h1]
      have hk := (occ k h2).2 ⟨h3, h4⟩
      rcases hr with ⟨k', rfl, hk', hmin⟩ | ⟨-, hno⟩
      · have a1 : ¬ k < k' := fun hlt => hmin k hlt hk
        have a2 : ¬ k' < k := by
          intro hlt
          have := ((occ k' hk'.1).1 hk').2
          rw [h5 k' hk'.1 hlt] at this
          exact absurd this (by decide)
        omega
      · exact absurd hk (hno k)
    · rw [h1]
      rcases hr with ⟨k', rfl, hk', -⟩ | ⟨hr, -⟩
      · have := (occ k' hk'.1).1 hk'
        rw [h2 k' hk'.1 this.1] at this
        exact absurd this.2 (by decide)
      · exact hr

theorem at_link {s : Str} {t : List Nat} (h : Repr s t) (i : Nat) (hi : i < 2147483648) :
    (∃ c r, at_ t i = .ok c ∧ Str.getitem s i = .ok r ∧ Repr r [c]) ∨
    (at_ t i = .raise .indexError ∧ Str.getitem s i = .raise .indexError) := by
  rcases C11_getitem_partial h i (by unfold InI32; omega) with ⟨k, r, hk, hik, e, hr⟩ | ⟨hout, e⟩
  · have : k = i := by omega
    subst this
    exact Or.inl ⟨_, r, at_some (List.getElem?_eq_getElem hk), e, hr⟩
  · refine Or.inr ⟨?_, e⟩
    unfold at_
    rw [List.getElem?_eq_none (by omega)]

theorem split_link {s sep : Str} {t : List Nat} (h : Repr s t) (hp : Repr sep [44]) (hmax : s.nbytes + sep.nbytes < 2^31) :
    ∃ ps, Str.split s sep none = .ok ps ∧ Reprs ps (splitComma t) := by
  obtain ⟨ps, qs, e, hr, hs⟩ := C10_split_partial h hp hmax (by simp) none (by simp)
  exact ⟨ps, e, splitsTo_comma hs rfl ▸ hr⟩

end Verif.Glob
