import Verif.Bytes.Spec
import Verif.Str.Replace
/-!
# C61: search, splitting, joining and replacing in `bytes`
-/
namespace Verif.Bytes
open Verif Verif.Search Verif.Str

theorem mk_ok {n : Int} {c : List Nat} (h : n = c.length) : mk n c = .ok c := by unfold mk; rw [if_pos h]

theorem copy_buf (s : Bytes) {j n : Nat} (h : j + n ≤ s.length) : copy (buf s) (j : Int) (n : Int) = .ok ((s.drop j).take n) := by
  unfold copy buf
  rw [if_pos (by simp only [List.length_append, List.length_cons, List.length_nil]; omega)]
  rw [Int.toNat_natCast, Int.toNat_natCast, List.drop_append_of_le_length (by omega),
    List.take_append_of_le_length (by rw [List.length_drop]; omega)]

theorem searchAt_first (s p : Bytes) (hmax : s.length + p.length < 2^31) {lo hi : Nat} (h1 : lo ≤ hi) (h2 : hi ≤ s.length) :
    ∃ r, searchAt bmh (buf s) (lo : Int) ((hi : Int) - lo) p = .ok r ∧ IsFirst ((s.drop lo).take (hi - lo)) p r := by
  unfold searchAt
  rw [if_neg (by omega), show (hi : Int) - lo = ((hi - lo : Nat) : Int) by omega, copy_buf s (by omega), Res.ok_bind]
  exact C09_bmh_partial _ _ (by rw [List.length_take, List.length_drop]; omega)

theorem searchAt_last (s p : Bytes) (hmax : s.length < 2^31) {lo hi : Nat} (h1 : lo ≤ hi) (h2 : hi ≤ s.length) :
    ∃ r, searchAt rbmh (buf s) (lo : Int) ((hi : Int) - lo) p = .ok r ∧ IsLast ((s.drop lo).take (hi - lo)) p r := by
  unfold searchAt
  rw [if_neg (by omega), show (hi : Int) - lo = ((hi - lo : Nat) : Int) by omega, copy_buf s (by omega), Res.ok_bind]
  exact C09_rbmh _ _ (by rw [List.length_take, List.length_drop]; omega)

theorem take_all (s : List Nat) (j : Nat) : (s.drop j).take (s.length - j) = s.drop j := by
  apply List.take_of_length_le; rw [List.length_drop]

theorem searchAt_neg (f : List Nat → List Nat → Res Int) (b p : List Nat) (x n : Int) (h : n < 0) :
    searchAt f b x n p = .ok (-1) := by
  unfold searchAt; rw [if_pos h]

/-- C61: `s.find(sub)` is the first occurrence, or -1. -/
theorem C61_find (s p : Bytes) (hmax : s.length + p.length < 2^31) : ∃ r, find s p none none = .ok r ∧ IsFirst s p r := by
  unfold find findWith
  rw [fix_default]
  obtain ⟨r, e, hr⟩ := searchAt_first s p hmax (lo := 0) (hi := s.length) (by omega) (by omega)
  rw [List.drop_zero, Nat.sub_zero, List.take_length] at hr
  simp only [Int.natCast_zero] at e ⊢
  rw [e, Res.ok_bind]
  by_cases h : r < 0
  · rw [if_pos h]
    obtain ⟨h1, h2⟩ := isFirst_neg hr h
    exact ⟨-1, rfl, Or.inr ⟨rfl, h2⟩⟩
  · rw [if_neg h]
    exact ⟨r, by show Res.ok (r + 0) = _; rw [Int.add_zero], hr⟩

/-- C61: `s.rfind(sub)` is the last occurrence, or -1. -/
theorem C61_rfind (s p : Bytes) (hmax : s.length < 2^31) : ∃ r, rfind s p none none = .ok r ∧ IsLast s p r := by
  unfold rfind findWith
  rw [fix_default]
  obtain ⟨r, e, hr⟩ := searchAt_last s p hmax (lo := 0) (hi := s.length) (by omega) (by omega)
  rw [List.drop_zero, Nat.sub_zero, List.take_length] at hr
  simp only [Int.natCast_zero] at e ⊢
  rw [e, Res.ok_bind]
  by_cases h : r < 0
  · rw [if_pos h]
    rcases hr with ⟨k, rfl, -⟩ | ⟨rfl, h2⟩
    · omega
    · exact ⟨-1, rfl, Or.inr ⟨rfl, h2⟩⟩
  · rw [if_neg h]
    exact ⟨r, by show Res.ok (r + 0) = _; rw [Int.add_zero], hr⟩

theorem find_window (s p : Bytes) (hmax : s.length + p.length < 2^31) {x y : Option Int} {lo hi : Nat}
    (hx : fixStartEnd s.length x y = some ((lo : Int), (hi : Int))) (hh : hi ≤ s.length) :
    ∃ r, find s p x y = .ok r ∧ FirstIn s p lo hi r := by
  unfold find findWith
  rw [hx]
  show ∃ r, (do
    let n ← searchAt bmh (buf s) (lo : Int) ((hi : Int) - lo) p
    if n < 0 then return -1 else return n + (lo : Int)) = .ok r ∧ FirstIn s p lo hi r
  by_cases hab : lo ≤ hi
  · obtain ⟨r, e, hr⟩ := searchAt_first s p hmax hab hh
    rw [e, Res.ok_bind]
    have hw := isFirst_window hab hh hr
    by_cases h : r < 0
    · rw [if_pos h] at hw ⊢
      exact ⟨-1, rfl, hw⟩
    · rw [if_neg h] at hw ⊢
      exact ⟨_, rfl, by rw [Int.add_comm]; exact hw⟩
  · rw [searchAt_neg _ _ _ _ _ (by omega), Res.ok_bind, if_pos (by omega)]
    refine ⟨-1, rfl, Or.inr ⟨rfl, fun j hj => ?_⟩⟩
    have h1 : lo ≤ j := hj.1
    have h2 : j + p.length ≤ hi := hj.2.1
    omega

theorem findWith_none {f : List Nat → List Nat → Res Int} {s p : Bytes} {a b : Option Int}
    (h : fixStartEnd s.length a b = none) : findWith f s p a b = .ok (-1) := by
  unfold findWith
  simp only [h]

/-- C61 with bounds: for non-negative bounds that fit in an `int`, the first occurrence within `[a, min b len)`. Missing:
negative bounds (refuted for `str`, C09, which shares `fix_start_end`). -/
theorem C61_find_bounds_partial (s p : Bytes) (hmax : s.length + p.length < 2^31) (a b : Nat) (ha : a < 2147483648)
    (hb : b < 2147483648) : ∃ r, find s p (some a) (some b) = .ok r ∧ FirstIn s p a (min b s.length) r := by
  have key : fixStartEnd s.length (some (a : Int)) (some (b : Int)) =
      if s.length < a then none else some ((a : Int), ((min b s.length : Nat) : Int)) := by
    unfold fixStartEnd
    rw [fixEnd_nat hb, fixStart_nat ha]
    by_cases hat : s.length < a
    · rw [if_pos hat, if_pos hat, Option.map_none]
    · rw [if_neg hat, if_neg hat, Option.map_some]
  by_cases hat : s.length < a
  · rw [if_pos hat] at key
    refine ⟨-1, ?_, Or.inr ⟨rfl, fun j hj => ?_⟩⟩
    · exact findWith_none key
    · have h1 : a ≤ j := hj.1
      have h2 : j + p.length ≤ s.length := hj.2.2.1
      omega
  · rw [if_neg hat] at key
    exact find_window s p hmax key (Nat.min_le_right _ _)

example : find [97, 98, 97, 98] [98] none none = .ok 1 ∧ rfind [97, 98, 97, 98] [98] none none = .ok 3 ∧
    find [97, 98, 97, 98] [98] (some 2) (some 4) = .ok 3 := by decide +kernel

theorem cut_spec (s p : Bytes) {k : Nat} (ho : OccursAt s p k) :
    cut s p (k : Int) = .ok (s.take k, p, s.drop (k + p.length)) := by
  have h1 := ho.1
  unfold cut
  have e1 := copy_buf s (j := 0) (n := k) (by omega)
  simp only [Int.natCast_zero, List.drop_zero] at e1
  rw [e1, Res.ok_bind, mk_ok (by rw [List.length_take]; omega), Res.ok_bind]
  have e2 := copy_buf s (j := k + p.length) (n := s.length - p.length - k) (by omega)
  rw [show s.length - p.length - k = s.length - (k + p.length) by omega, take_all] at e2
  simp only
  rw [show (k : Int) + p.length = ((k + p.length : Nat) : Int) by omega,
    show (s.length : Int) - p.length - k = ((s.length - (k + p.length) : Nat) : Int) by omega, e2, Res.ok_bind,
    mk_ok (by rw [List.length_drop]), Res.ok_bind]
  rfl

/-- C61: `partition` cuts at the first occurrence. -/
theorem C61_partition (s p : Bytes) (hmax : s.length + p.length < 2^31) :
    (Free p s ∧ partition s p = .ok (s, [], [])) ∨
    ∃ a c, partition s p = .ok (a, p, c) ∧ s = a ++ p ++ c ∧ ∀ j, j < a.length → ¬ OccursAt s p j := by
  obtain ⟨n, hn, hf⟩ := C61_find s p hmax
  unfold partition
  rw [hn, Res.ok_bind]
  by_cases hneg : n < 0
  · rw [if_pos hneg]
    exact Or.inl ⟨(isFirst_neg hf hneg).2, rfl⟩
  · obtain ⟨k, rfl⟩ : ∃ k : Nat, n = k := ⟨n.toNat, by omega⟩
    obtain ⟨ho, hfirst⟩ := isFirst_nat hf
    obtain ⟨r, e, hr⟩ := C09_bmh_partial s p (by omega)
    rw [if_neg hneg, e, Res.ok_bind, isFirst_unique hr hf, cut_spec s p ho]
    refine Or.inr ⟨_, _, rfl, occurs_split ho, ?_⟩
    have := ho.1
    rw [List.length_take, Nat.min_eq_left (by omega)]
    exact hfirst

/-- C61: `rpartition` cuts at the last occurrence. -/
theorem C61_rpartition (s p : Bytes) (hmax : s.length < 2^31) :
    (Free p s ∧ rpartition s p = .ok ([], [], s)) ∨
    ∃ a c, rpartition s p = .ok (a, p, c) ∧ s = a ++ p ++ c ∧ ∀ j, a.length < j → ¬ OccursAt s p j := by
  obtain ⟨n, hn, hf⟩ := C61_rfind s p hmax
  unfold rpartition
  rw [hn, Res.ok_bind]
  by_cases hneg : n < 0
  · rw [if_pos hneg]
    rcases hf with ⟨k, rfl, -⟩ | ⟨rfl, hfree⟩
    · omega
    · exact Or.inl ⟨hfree, rfl⟩
  · obtain ⟨k, rfl⟩ : ∃ k : Nat, n = k := ⟨n.toNat, by omega⟩
    have hf' := hf
    obtain ⟨ho, hlast⟩ : OccursAt s p k ∧ ∀ j, k < j → ¬ OccursAt s p j := by
      rcases hf' with ⟨k', hk, ho, hlast⟩ | ⟨e, -⟩
      · have : k = k' := by omega
        subst this
        exact ⟨ho, hlast⟩
      · omega
    obtain ⟨r, e, hr⟩ := C09_rbmh s p (by omega)
    rw [if_neg hneg, e, Res.ok_bind, isLast_unique hr hf, cut_spec s p ho]
    refine Or.inr ⟨_, _, rfl, occurs_split ho, ?_⟩
    have := ho.1
    rw [List.length_take, Nat.min_eq_left (by omega)]
    exact hlast

example : partition [97, 61, 98, 61, 99] [61] = .ok ([97], [61], [98, 61, 99]) ∧
    rpartition [97, 61, 98, 61, 99] [61] = .ok ([97, 61, 98], [61], [99]) := by decide +kernel

theorem splitLoop_spec (p : Bytes) (hne : p ≠ []) (maxs : Int) :
    ∀ (f : Nat) (t : Bytes) (ssep : Option Bytes) (len : Int),
      t.length + p.length < 2^31 → t.length < f → t ≠ [] → len < maxs →
      ∃ ps x rs, splitLoop p maxs f t ssep len = .ok (ps, some x, rs) ∧
        ((x.length > 0 ∧ SplitsTo p (some (maxs - len).toNat) t (ps ++ [rs])) ∨
         (x.length = 0 ∧ SplitsTo p (some (maxs - len).toNat) t ps)) := by
  have hpl : 0 < p.length := List.length_pos_iff.2 hne
  intro f
  induction f with
  | zero => intro t _ _ _ hf; omega
  | succ f ih =>
    intro t ssep len hmax hf htne hlen
    have htl : 0 < t.length := List.length_pos_iff.2 htne
    have stop : ∀ (c x : Bytes), (c = [] ∨ ¬ len + 1 < maxs) → splitLoop p maxs f c (some x) (len + 1) = .ok ([], some x, c) := by
      intro c x hc
      cases f with
      | zero => omega
      | succ f =>
        unfold splitLoop
        rw [if_neg]
        rintro ⟨h1, h2⟩
        rcases hc with rfl | hc
        · simp at h1
        · exact hc h2
    unfold splitLoop
    rw [if_pos ⟨htl, hlen⟩]
    rcases C61_partition t p hmax with ⟨hfree, e⟩ | ⟨a, c, e, ht, hfirst⟩
    · rw [e, Res.ok_bind]
      simp only
      rw [stop [] [] (Or.inl rfl), Res.ok_bind]
      exact ⟨[t], [], [], rfl, Or.inr ⟨rfl, .last _ _ hfree⟩⟩
    · rw [e, Res.ok_bind]
      simp only
      have hlenc : c.length < t.length := by rw [ht]; simp only [List.length_append]; omega
      have hmap : (some (maxs - len).toNat : Option Nat).map (· - 1) = some (maxs - (len + 1)).toNat := by
        rw [Option.map_some]; congr 1; omega
      have hm0 : (some (maxs - len).toNat : Option Nat) ≠ some 0 := by
        intro h0; injection h0 with h0; omega
      by_cases hc : c = [] ∨ ¬ len + 1 < maxs
      · rw [stop c p hc, Res.ok_bind]
        refine ⟨[a], p, c, rfl, Or.inl ⟨hpl, ?_⟩⟩
        refine .more _ t a c [c] ht hfirst ?_ hm0
        rw [hmap]
        by_cases hc0 : c = []
        · exact .last _ _ (by rw [hc0]; exact free_nil hne)
        · have : (maxs - (len + 1)).toNat = 0 := by
            rcases hc with hc | hc
            · exact absurd hc hc0
            · omega
          rw [this]; exact .stop c
      · have hc1 : c ≠ [] := fun h0 => hc (Or.inl h0)
        have hc2 : len + 1 < maxs := by
          by_cases h2 : len + 1 < maxs
          · exact h2
          · exact absurd (Or.inr h2) hc
        obtain ⟨ps, x, rs, e2, hcase⟩ := ih c (some p) (len + 1) (by omega) (by omega) hc1 hc2
        rw [e2, Res.ok_bind]
        refine ⟨a :: ps, x, rs, rfl, ?_⟩
        rcases hcase with ⟨h1, h3⟩ | ⟨h1, h3⟩
        · exact Or.inl ⟨h1, .more _ t a c _ ht hfirst (by rw [hmap]; exact h3) hm0⟩
        · exact Or.inr ⟨h1, .more _ t a c _ ht hfirst (by rw [hmap]; exact h3) hm0⟩

/-- C61: `s.split(sep, maxsplit)` delivers the pieces between the leftmost occurrences, at most `maxsplit` of them. Missing:
`maxsplit = 0`, where the code is wrong. -/
theorem C61_split_partial (s p : Bytes) (hmax : s.length + p.length < 2^31) (hne : p ≠ []) (m : Option Int) (hm : m ≠ some 0) :
    ∃ ps, split s p m = .ok ps ∧ SplitsTo p (limit m) s ps := by
  have hpl : 0 < p.length := List.length_pos_iff.2 hne
  unfold split
  rw [if_neg (show ¬ p.length = 0 by omega)]
  by_cases ht0 : s = []
  · subst ht0
    rw [if_pos (by simp)]
    exact ⟨[[]], rfl, .last _ _ (free_nil hne)⟩
  rw [if_neg (fun h0 => ht0 (List.length_eq_zero_iff.1 h0))]
  obtain ⟨mx, hmx, hlim, hmxd⟩ : ∃ mx : Int, 0 < mx ∧
      (∀ qs, SplitsTo p (some mx.toNat) s qs → SplitsTo p (limit m) s qs) ∧ mx = splitMax m := by
    have big : ∀ qs, SplitsTo p (some (2^31 - 1 : Int).toNat) s qs → SplitsTo p none s qs := by
      intro qs hq
      exact hq.unlimited hne _ rfl (by omega)
    cases m with
    | none => exact ⟨2^31 - 1, by decide, big, rfl⟩
    | some m =>
      by_cases hneg : m < 0
      · exact ⟨2^31 - 1, by decide, by unfold limit; simp only [if_pos hneg]; exact big, by unfold splitMax; simp only [if_pos hneg]⟩
      · have : m ≠ 0 := fun h0 => hm (by rw [h0])
        exact ⟨m, by omega, by unfold limit; simp only [if_neg hneg]; exact fun _ h => h, by unfold splitMax; simp only [if_neg hneg]⟩
  rw [← hmxd]
  obtain ⟨ps, x, rs, e, hcase⟩ := splitLoop_spec p hne mx (s.length + 1) s none 0 hmax (by omega) ht0 hmx
  rw [Int.sub_zero] at hcase
  rw [e, Res.ok_bind]
  unfold splitEnd
  rcases hcase with ⟨h1, h3⟩ | ⟨h1, h3⟩
  · simp only [if_pos h1]
    exact ⟨_, rfl, hlim _ h3⟩
  · simp only [if_neg (show ¬ x.length > 0 by omega)]
    exact ⟨_, rfl, hlim _ h3⟩

example : split [97, 44, 98, 44] [44] none = .ok [[97], [98], []] ∧ split [97, 44, 98, 44] [44] (some 1) = .ok [[97], [98, 44]] := by
  decide +kernel

/-- C61 does not hold for `maxsplit = 0`: the variable `ssep` is read before it is set. -/
theorem C61_refuted_maxsplit_zero : split [97, 44, 98] [44] (some 0) = .ub := by decide +kernel

theorem countLoop_spec (s p : Bytes) (hmax : s.length + p.length < 2^31) (hne : p ≠ []) :
    ∀ (f j : Nat) (res : Int), j ≤ s.length → s.length - j < f →
      ∃ qs, SplitsTo p none (s.drop j) qs ∧
        countLoop (buf s) s.length p f (j : Int) res = .ok (res + qs.length - 1) := by
  have hpl : 0 < p.length := List.length_pos_iff.2 hne
  intro f
  induction f with
  | zero => intro j res _ hf; omega
  | succ f ih =>
    intro j res hj hf
    unfold countLoop
    obtain ⟨r, e, hr⟩ := searchAt_first s p hmax hj (Nat.le_refl _)
    rw [take_all] at hr
    rw [e, Res.ok_bind]
    by_cases hneg : r < 0
    · rw [if_neg (by omega)]
      refine ⟨[s.drop j], .last _ _ (isFirst_neg hr hneg).2, ?_⟩
      show Res.ok res = _
      refine congrArg Res.ok ?_
      simp
    · obtain ⟨i, rfl⟩ : ∃ i : Nat, r = i := ⟨r.toNat, by omega⟩
      obtain ⟨ho, hfirst⟩ := isFirst_nat hr
      have h1 := ho.1
      rw [List.length_drop] at h1
      rw [if_pos (by omega), if_pos hpl, show (j : Int) + i + p.length = ((j + i + p.length : Nat) : Int) by omega]
      obtain ⟨qs, hq, e2⟩ := ih (j + i + p.length) (res + 1) (by omega) (by omega)
      rw [e2]
      refine ⟨(s.drop j).take i :: qs, ?_, by refine congrArg Res.ok ?_; simp; omega⟩
      refine .more _ _ _ (s.drop (j + i + p.length)) _ ?_ ?_ hq (by simp)
      · have := occurs_split ho
        rw [List.drop_drop, show j + (i + p.length) = j + i + p.length by omega] at this
        exact this
      · rw [List.length_take, List.length_drop, Nat.min_eq_left (by omega)]
        exact hfirst

theorem count_spec (s p : Bytes) (hmax : s.length + p.length < 2^31) (hne : p ≠ []) :
    ∃ qs, SplitsTo p none s qs ∧ count s p none none = .ok ((qs.length : Int) - 1) := by
  unfold count
  rw [fix_default]
  simp only
  obtain ⟨qs, hq, e⟩ := countLoop_spec s p hmax hne (s.length + 2) 0 0 (by omega) (by omega)
  simp only [List.drop_zero, Int.natCast_zero, Int.zero_add] at hq e
  exact ⟨qs, hq, e⟩

/-- C61: `s.count(sub)` is the largest number of occurrences that do not overlap. -/
theorem C61_count (s p : Bytes) (hmax : s.length + p.length < 2^31) (hne : p ≠ []) :
    ∃ n : Nat, count s p none none = .ok (n : Int) ∧ (∃ ks, Str.Disjoint s p 0 ks ∧ ks.length = n) ∧
      ∀ ks, Str.Disjoint s p 0 ks → ks.length ≤ n := by
  obtain ⟨qs, hq, e⟩ := count_spec s p hmax hne
  have hl : 0 < qs.length := List.length_pos_iff.2 hq.ne_nil
  obtain ⟨⟨ks, h1, h2⟩, h3⟩ := hq.count rfl
  refine ⟨qs.length - 1, by rw [e]; refine congrArg Res.ok ?_; omega, ⟨ks, h1, by omega⟩, ?_⟩
  intro ks' hk
  have := h3 ks' hk
  omega

example : count [97, 97, 97, 97, 97] [97, 97] none none = .ok 2 := by decide +kernel

/-- C61: `count` of the empty sequence. -/
theorem countLoop_empty (s : Bytes) (hmax : s.length < 2^31) : ∀ (f j : Nat) (res : Int), j ≤ s.length + 1 → s.length + 1 - j < f →
    countLoop (buf s) s.length [] f (j : Int) res = .ok (res + (s.length + 1 - j : Nat)) := by
  intro f
  induction f with
  | zero => intro j res _ hf; omega
  | succ f ih =>
    intro j res hj hf
    unfold countLoop
    by_cases hj' : j = s.length + 1
    · subst hj'
      rw [searchAt_neg _ _ _ _ _ (by omega), Res.ok_bind, if_neg (by omega), Nat.sub_self, Int.natCast_zero, Int.add_zero]
      rfl
    · obtain ⟨r, e, hr⟩ := searchAt_first s [] (by simpa using hmax) (lo := j) (hi := s.length) (by omega) (by omega)
      have : r = 0 := isFirst_unique hr (Or.inl ⟨0, rfl, ⟨by simp, by simp⟩, fun j hj => by omega⟩)
      subst this
      rw [e, Res.ok_bind, if_pos (by omega), if_neg (by simp), show (j : Int) + 0 + ((1 : Nat) : Int) = ((j + 1 : Nat) : Int) by omega,
        ih (j + 1) (res + 1) (by omega) (by omega)]
      refine congrArg Res.ok ?_
      omega

theorem joinWith_eq (p : Bytes) : ∀ (xs : List Bytes) (x : Bytes), joinWith p (x :: xs) = x ++ joinTail p xs := by
  intro xs
  induction xs with
  | nil => intro x; simp [joinWith, joinTail]
  | cons y xs ih =>
    intro x
    show x ++ p ++ joinWith p (y :: xs) = _
    rw [ih y]
    simp [joinTail]

/-- C61: `sep.join(l)` puts `sep` between the elements, if the result fits. -/
theorem C61_join (p : Bytes) (l : List Bytes) (hsize : (joinWith p l).length < 2^31) : join p l = .ok (joinWith p l) := by
  unfold join
  cases l with
  | nil => rfl
  | cons x xs =>
    have hl := joinWith_length p List.length (fun a b => List.length_append) xs x
    simp only
    rw [← joinWith_eq]
    refine mk_ok ?_
    have : (((x :: xs).map List.length).sum : Int) + (if (x :: xs).length > 1 then (((x :: xs).length : Int) - 1) * p.length else 0) =
        ((joinWith p (x :: xs)).length : Int) := by
      rw [hl]
      by_cases h1 : (x :: xs).length > 1
      · rw [if_pos h1]
        simp only [List.length_cons]
        push_cast
        rw [Int.add_sub_cancel]
      · rw [if_neg h1]
        have : xs.length = 0 := by simp only [List.length_cons] at h1; omega
        rw [this]; simp
    rw [this]
    exact wrap32_of_in (by unfold InI32; omega)

/-- C61: splitting and joining. -/
theorem C61_split_join_partial (s p : Bytes) (hmax : s.length + p.length < 2^31) (hne : p ≠ []) (m : Option Int)
    (hm : m ≠ some 0) : (do let ps ← split s p m; join p ps) = .ok s := by
  obtain ⟨ps, e, h⟩ := C61_split_partial s p hmax hne m hm
  rw [e, Res.ok_bind, C61_join p ps (by rw [h.join]; omega), h.join]

example : (do let ps ← split [97, 44, 98, 44] [44] none; join [44] ps) = .ok [97, 44, 98, 44] ∧
    join [44, 32] [[97], [98], [99]] = .ok [97, 44, 32, 98, 44, 32, 99] := by decide +kernel

theorem replaceLoop_spec (s p w : Bytes) (hmax : s.length + p.length < 2^31) (hne : p ≠ []) :
    ∀ (k j : Nat) (first : Bool) (qs : List (List Nat)), j ≤ s.length →
      SplitsTo p (some k) (s.drop j) qs → qs.length = k + 1 →
      ∃ out j', j' ≤ s.length ∧
        replaceLoop (buf s) p w k first (j : Int) ((s.length : Int) - j) = .ok (out, (j' : Int), (s.length : Int) - j') ∧
        out ++ s.drop j' = joinWith w qs := by
  have hpl : 0 < p.length := List.length_pos_iff.2 hne
  intro k
  induction k with
  | zero =>
    intro j first qs hj hs hl
    refine ⟨[], j, hj, rfl, ?_⟩
    have : qs = [s.drop j] := (SplitsTo.stop (s.drop j)).unique hs |>.symm
    subst this
    rfl
  | succ k ih =>
    intro j first qs hj hs hl
    cases hs with
    | last => simp at hl
    | more _ _ a b ps e hfirst hs hm =>
    have o1 : OccursAt (s.drop j) p a.length := e ▸ occurs_of_split a p b
    obtain ⟨r, e1, hr⟩ := searchAt_first s p hmax hj (Nat.le_refl _)
    rw [take_all] at hr
    have hr' : IsFirst (s.drop j) p (a.length : Int) := Or.inl ⟨a.length, rfl, o1, hfirst⟩
    have hra := isFirst_unique hr hr'
    subst hra
    have hb1 := o1.1
    rw [List.length_drop] at hb1
    have hdrop2 : (s.drop j).drop (a.length + p.length) = b := by
      rw [e, ← List.length_append, List.drop_left]
    rw [List.drop_drop] at hdrop2
    have hta : (s.drop j).take a.length = a := by rw [e, List.append_assoc, List.take_left]
    obtain ⟨out, j', hj', e2, hout⟩ := ih (j + (a.length + p.length)) false ps (by omega)
      (by rw [hdrop2]; exact hs) (by simpa using hl)
    have hpsne : ps ≠ [] := hs.ne_nil
    refine ⟨a ++ w ++ out, j', hj', ?_, ?_⟩
    · unfold replaceLoop
      have e1' : nextCut (buf s) p first (j : Int) ((s.length : Int) - j) = .ok (a.length : Int) := by
        unfold nextCut; rw [if_neg (by rintro ⟨-, h0⟩; omega), e1]
      rw [e1', Res.ok_bind]
      have e3 : copyPos (buf s) (j : Int) (a.length : Int) = .ok a := by
        unfold copyPos
        by_cases ha0 : a.length = 0
        · rw [if_neg (by omega), List.length_eq_zero_iff.1 ha0]
        · rw [if_pos (by omega), copy_buf s (by omega), hta]
      rw [e3, Res.ok_bind]
      have e4 : (if (a.length : Int) > 0 then (j : Int) + a.length else (j : Int)) = ((j + a.length : Nat) : Int) := by
        split <;> omega
      simp only [e4]
      rw [show ((j + a.length : Nat) : Int) + p.length = ((j + (a.length + p.length) : Nat) : Int) by omega,
        show (s.length : Int) - (j : Int) - ((a.length : Int) + p.length) =
          (s.length : Int) - ((j + (a.length + p.length) : Nat) : Int) by omega, e2, Res.ok_bind]
      rfl
    · cases ps with
      | nil => exact absurd rfl hpsne
      | cons q qs =>
        show _ = a ++ w ++ joinWith w (q :: qs)
        rw [← hout]
        simp only [List.append_assoc]

theorem copyPos_rest (s : Bytes) {j : Nat} (hj : j ≤ s.length) :
    copyPos (buf s) (j : Int) ((s.length : Int) - j) = .ok (s.drop j) := by
  unfold copyPos
  by_cases hpos : (s.length : Int) - (j : Int) > 0
  · rw [if_pos hpos, show (s.length : Int) - j = ((s.length - j : Nat) : Int) by omega, copy_buf s (by omega), take_all]
  · rw [if_neg hpos, List.drop_eq_nil_of_le (by omega)]

/-- C61: `s.replace(old, new, count)` is `new.join(s.split(old, count))`, for every non-empty `old` and every count that is
absent or not negative, if the result fits. Missing: negative counts, where the code is wrong. -/
theorem C61_replace_partial (s p w : Bytes) (hmax : s.length + p.length < 2^31) (hne : p ≠ []) (cnt : Option Int)
    (hcnt : ∀ m ∈ cnt, 0 ≤ m) (hsize : ∀ qs, SplitsTo p (limit cnt) s qs → (joinWith w qs).length < 2^31) :
    ∃ qs, SplitsTo p (limit cnt) s qs ∧ replace s p w cnt = .ok (joinWith w qs) := by
  obtain ⟨full, hfull, hc⟩ := count_spec s p hmax hne
  have hfl : 0 < full.length := List.length_pos_iff.2 hfull.ne_nil
  have hflt : full.length ≤ s.length + 1 := by
    obtain ⟨ks, h1, h2⟩ := (hfull.count rfl).1
    have hpl : 0 < p.length := List.length_pos_iff.2 hne
    have : ∀ (ks : List Nat) lo, Str.Disjoint s p lo ks → lo ≤ s.length → ks.length + lo ≤ s.length := by
      intro ks
      induction ks with
      | nil => intro lo _ h; simpa using h
      | cons k ks ih =>
        intro lo hd hlo
        have h3 := hd.1
        have h4 := hd.2.1.1
        have := ih (k + p.length) hd.2.2 (by omega)
        simp only [List.length_cons]; omega
    have := this ks 0 h1 (by omega)
    omega
  have wc : wrap32 ((full.length : Int) - 1) = (full.length : Int) - 1 := wrap32_of_in (by unfold InI32; omega)
  obtain ⟨c0, hc0, hc0le, hlim⟩ : ∃ c0 : Nat,
      wrap32 (if cnt.getD (2^31 - 1) < (full.length : Int) - 1 then cnt.getD (2^31 - 1) else (full.length : Int) - 1) = (c0 : Int) ∧
      c0 + 1 ≤ full.length ∧
      (∀ qs, SplitsTo p (some c0) s qs → SplitsTo p (limit cnt) s qs) := by
    have whole : ∀ m : Nat, full.length ≤ m + 1 → ∀ qs, SplitsTo p (some (full.length - 1)) s qs → SplitsTo p (some m) s qs := by
      intro m hm qs hq
      have h1 := hfull.limited rfl (full.length - 1) (by omega)
      rw [← h1.unique hq]
      exact hfull.limited rfl m hm
    cases cnt with
    | none =>
      refine ⟨full.length - 1, ?_, by omega, ?_⟩
      · rw [Option.getD_none]
        rw [if_neg (by omega), wc]; omega
      · intro qs hq
        have h1 := hfull.limited rfl (full.length - 1) (by omega)
        rw [← h1.unique hq]
        exact hfull
    | some m =>
      have hm := hcnt m rfl
      rw [Option.getD_some]
      by_cases hlt : m < (full.length : Int) - 1
      · refine ⟨m.toNat, ?_, by omega, ?_⟩
        · rw [if_pos hlt, wrap32_of_in (by unfold InI32; omega)]; omega
        · unfold limit; simp only; rw [if_neg (by omega)]; exact fun _ h => h
      · refine ⟨full.length - 1, ?_, by omega, ?_⟩
        · rw [if_neg hlt, wc]; omega
        · unfold limit; simp only; rw [if_neg (by omega)]
          exact whole m.toNat (by omega)
  obtain ⟨qs, hqs, hql⟩ := hfull.trunc rfl c0 hc0le
  have hlimq := hlim qs hqs
  have hsz := hsize qs hlimq
  refine ⟨qs, hlimq, ?_⟩
  unfold replace
  rw [hc, Res.ok_bind]
  simp only
  rw [hc0]
  by_cases hz : c0 = 0
  · subst hz
    rw [if_pos (by rfl)]
    have : qs = [s] := ((SplitsTo.stop s).unique hqs).symm
    subst this
    rfl
  · rw [if_neg (by omega)]
    obtain ⟨out, j', hj', e, hout⟩ := replaceLoop_spec s p w hmax hne c0 0 true qs (by omega) (by simpa using hqs) hql
    simp only [Int.natCast_zero, Int.sub_zero] at e
    rw [Int.toNat_natCast, e, Res.ok_bind]
    simp only
    rw [copyPos_rest s hj', Res.ok_bind, hout]
    have z1 := size_replace List.length (fun a b => List.length_append) p w qs c0 hql
    rw [hqs.join] at z1
    rw [← z1]
    exact mk_ok (wrap32_of_in (by unfold InI32; omega))

example : replace [97, 44, 98, 44, 99] [44] [45, 45] none = .ok [97, 45, 45, 98, 45, 45, 99] ∧
    replace [97, 44, 98, 44, 99] [44] [45] (some 1) = .ok [97, 45, 98, 44, 99] := by decide +kernel

/-- C61 does not hold for a negative count, which for Python means no limit: the size is computed with it. -/
theorem C61_refuted_negative_count : replace [97, 44, 98] [44] [45, 45] (some (-1)) = .ub := by decide +kernel

theorem replaceLoop_empty (s w : Bytes) : ∀ (k j : Nat), j + k ≤ s.length →
    ∃ out, replaceLoop (buf s) [] w k false (j : Int) ((s.length : Int) - j) = .ok (out, ((j + k : Nat) : Int), (s.length : Int) - (j + k : Nat)) ∧
      w ++ (out ++ s.drop (j + k)) = between0 w (k + 1) (s.drop j) := by
  intro k
  induction k with
  | zero =>
    intro j hj
    refine ⟨[], rfl, ?_⟩
    cases h : s.drop j with
    | nil => simp [between0]
    | cons c t => simp [between0]
  | succ k ih =>
    intro j hj
    obtain ⟨out, e, ho⟩ := ih (j + 1) (by omega)
    have hc : s.drop j = s[j]'(by omega) :: s.drop (j + 1) := List.drop_eq_getElem_cons (by omega)
    refine ⟨[s[j]'(by omega)] ++ w ++ out, ?_, ?_⟩
    · unfold replaceLoop
      have e1 : nextCut (buf s) [] false (j : Int) ((s.length : Int) - j) = .ok 1 := rfl
      have e2 : copyPos (buf s) (j : Int) 1 = .ok [s[j]'(by omega)] := by
        have := copy_buf s (j := j) (n := 1) (by omega)
        unfold copyPos
        rw [if_pos (by omega)]
        simp only [Int.natCast_one] at this
        rw [this, hc]
        rfl
      rw [e1, Res.ok_bind, e2, Res.ok_bind]
      simp only [if_pos (show (1 : Int) > 0 by omega), List.length_nil, Int.natCast_zero, Int.add_zero]
      rw [show (j : Int) + 1 = ((j + 1 : Nat) : Int) by omega, show (s.length : Int) - j - 1 = (s.length : Int) - (j + 1 : Nat) by omega, e,
        Res.ok_bind, show j + 1 + k = j + (k + 1) by omega]
      rfl
    · rw [hc]
      show w ++ ([s[j]'(by omega)] ++ w ++ out ++ s.drop (j + (k + 1))) = w ++ s[j]'(by omega) :: between0 w (k + 1) (s.drop (j + 1))
      rw [← ho, show j + (k + 1) = j + 1 + k by omega]
      simp

/-- C61: replacing the empty sequence puts `new` before every byte and at the end. -/
theorem C61_replace_empty (s w : Bytes) (hsize : (between0 w (s.length + 1) s).length < 2^31) (h1 : s.length + 1 < 2^31) :
    replace s [] w none = .ok (between0 w (s.length + 1) s) := by
  have hb : ∀ (t : List Nat), ((between0 w (t.length + 1) t).length : Int) = t.length + ((t.length : Int) + 1) * w.length := by
    intro t
    induction t with
    | nil => simp [between0]
    | cons c t ih =>
      show ((w ++ c :: between0 w (t.length + 1) t).length : Int) = _
      simp only [List.length_append, List.length_cons]
      push_cast
      rw [ih]
      ring
  unfold replace
  have hc : count s [] none none = .ok ((s.length : Int) + 1) := by
    unfold count
    rw [fix_default]
    have := countLoop_empty s (by omega) (s.length + 2) 0 0 (by omega) (by omega)
    simp only [Int.natCast_zero, Int.zero_add, Nat.sub_zero] at this ⊢
    rw [this]
    rfl
  rw [hc, Res.ok_bind]
  simp only [Option.getD_none]
  rw [if_neg (show ¬ (2 ^ 31 - 1 : Int) < (s.length : Int) + 1 by omega), wrap32_of_in (by unfold InI32; omega), if_neg (by omega)]
  rw [show ((s.length : Int) + 1).toNat = s.length + 1 by omega]
  unfold replaceLoop
  obtain ⟨r, e, hr⟩ := searchAt_first s [] (by simp only [List.length_nil]; omega) (lo := 0) (hi := s.length) (by omega) (by omega)
  have : r = 0 := isFirst_unique hr (Or.inl ⟨0, rfl, ⟨by simp, by simp⟩, fun j hj => by omega⟩)
  subst this
  simp only [Int.natCast_zero, Int.sub_zero] at e
  have e1 : nextCut (buf s) [] true 0 (s.length : Int) = .ok 0 := by unfold nextCut; rw [if_neg (by simp), e]
  rw [e1, Res.ok_bind]
  have e2 : copyPos (buf s) 0 0 = .ok [] := rfl
  rw [e2, Res.ok_bind]
  simp only [List.length_nil, Int.natCast_zero, Int.add_zero, Int.sub_zero, if_neg (show ¬ (0 : Int) > 0 by omega)]
  obtain ⟨out, e3, ho⟩ := replaceLoop_empty s w s.length 0 (by omega)
  simp only [Int.natCast_zero, Int.sub_zero] at e3
  rw [e3, Res.ok_bind]
  simp only [Nat.zero_add, Int.sub_self, List.drop_zero] at ho ⊢
  have e4 : copyPos (buf s) (s.length : Int) 0 = .ok [] := rfl
  rw [Res.pure_eq, Res.ok_bind]
  show (copyPos (buf s) (s.length : Int) 0 >>= fun rest => mk _ (([] ++ w ++ out) ++ rest)) = _
  rw [e4, Res.ok_bind]
  rw [List.drop_length, List.append_nil] at ho
  rw [List.append_nil, List.nil_append, ho, ← hb s]
  exact mk_ok (wrap32_of_in (by unfold InI32; omega))

example : replace [97, 98] [] [45] none = .ok [45, 97, 45, 98, 45] := by decide +kernel

end Verif.Bytes
