import Verif.Bytes.Search
/-!
# C62: the ends of `bytes`: `startswith`, `endswith`, `removeprefix`, `removesuffix` and stripping; comparison, membership
and indexing
-/
namespace Verif.Bytes
open Verif Verif.Search Verif.Str

theorem getB_buf (s : Bytes) {i : Nat} (h : i < s.length) : getB (buf s) (i : Int) = .ok (s[i]'h) := by
  refine getB_some ?_
  unfold buf
  rw [List.getElem?_append_left h, List.getElem?_eq_getElem h]

theorem startLoop_spec (s c : Bytes) {en : Nat} (hen : en ≤ s.length) : ∀ (n p q : Nat), q + n = c.length →
    startLoop (buf s) (buf c) en n (p : Int) (q : Int) = .ok (decide (n = 0 ∨ p + n ≤ en ∧ (s.drop p).take n = c.drop q)) := by
  intro n
  induction n with
  | zero => intro p q hq; simp [startLoop]
  | succ n ih =>
    intro p q hq
    unfold startLoop
    by_cases h1 : (p : Int) ≥ en
    · rw [if_pos h1]
      refine congrArg Res.ok ?_
      symm
      rw [decide_eq_false_iff_not]
      rintro (h | ⟨h, -⟩) <;> omega
    · rw [if_neg h1, getB_buf s (by omega), Res.ok_bind, getB_buf c (by omega), Res.ok_bind]
      have e1 : s.drop p = s[p]'(by omega) :: s.drop (p + 1) := List.drop_eq_getElem_cons (by omega)
      have e2 : c.drop q = c[q]'(by omega) :: c.drop (q + 1) := List.drop_eq_getElem_cons (by omega)
      rw [e1, e2, List.take_succ_cons]
      by_cases h2 : s[p]'(by omega) ≠ c[q]'(by omega)
      · rw [if_pos h2]
        refine congrArg Res.ok ?_
        symm
        rw [decide_eq_false_iff_not]
        rintro (h | ⟨-, h⟩)
        · omega
        · injection h with h _; exact h2 h
      · rw [if_neg h2]
        have h2' := Decidable.not_not.1 h2
        rw [show (p : Int) + 1 = ((p + 1 : Nat) : Int) by omega, show (q : Int) + 1 = ((q + 1 : Nat) : Int) by omega,
          ih (p + 1) (q + 1) (by omega), h2']
        refine congrArg Res.ok ?_
        rw [decide_eq_decide]
        constructor
        · rintro (h | ⟨h, h'⟩)
          · subst h
            refine Or.inr ⟨by omega, ?_⟩
            have : c.drop (q + 1) = [] := List.drop_eq_nil_of_le (by omega)
            rw [this]; simp
          · exact Or.inr ⟨by omega, by rw [h']⟩
        · rintro (h | ⟨h, h'⟩)
          · omega
          · injection h' with _ h'
            exact Or.inr ⟨by omega, h'⟩

/-- C62: `s.startswith(p)`. -/
theorem C62_startswith (s p : Bytes) : startswith s p none none = .ok (decide (p <+: s)) := by
  unfold startswith
  rw [fix_default]
  simp only
  by_cases h : p.length > 0 ∧ (0 : Int) + p.length > s.length
  · rw [if_pos h]
    refine congrArg Res.ok ?_
    symm
    rw [decide_eq_false_iff_not]
    intro hp
    have := hp.length_le
    omega
  · rw [if_neg h]
    have := startLoop_spec s p (en := s.length) (by omega) p.length 0 0 (by omega)
    simp only [Int.natCast_zero, List.drop_zero] at this
    rw [this]
    refine congrArg Res.ok ?_
    rw [decide_eq_decide]
    constructor
    · rintro (h | ⟨-, h⟩)
      · rw [List.length_eq_zero_iff.1 h]; exact List.nil_prefix
      · rw [List.prefix_iff_eq_take, h]
    · intro hp
      have := hp.length_le
      exact Or.inr ⟨by omega, (List.prefix_iff_eq_take.1 hp).symm⟩

theorem startswith_window (s p : Bytes) (x y : Option Int) (a b : Nat) (hab : a ≤ b) (hb : b ≤ s.length)
    (hx : fixStartEnd s.length x y = some ((a : Int), (b : Int))) :
    startswith s p x y = .ok (decide (p <+: (s.drop a).take (b - a))) := by
  have hlen : ((s.drop a).take (b - a)).length = b - a := by rw [List.length_take, List.length_drop]; omega
  unfold startswith
  rw [hx]
  simp only
  by_cases h : p.length > 0 ∧ (a : Int) + p.length > s.length
  · rw [if_pos h]
    refine congrArg Res.ok ?_
    symm
    rw [decide_eq_false_iff_not]
    intro hp
    have := hp.length_le
    omega
  · rw [if_neg h]
    have := startLoop_spec s p (en := b) hb p.length a 0 (by omega)
    simp only [Int.natCast_zero, List.drop_zero] at this
    rw [this]
    refine congrArg Res.ok ?_
    rw [decide_eq_decide]
    constructor
    · rintro (h | ⟨h0, h⟩)
      · rw [List.length_eq_zero_iff.1 h]; exact List.nil_prefix
      · rw [List.prefix_iff_eq_take, List.take_take, Nat.min_eq_left (by omega), h]
    · intro hp
      have h1 := hp.length_le
      by_cases h0 : p.length = 0
      · exact Or.inl h0
      · have h2 := List.prefix_iff_eq_take.1 hp
        rw [List.take_take, Nat.min_eq_left (by omega)] at h2
        exact Or.inr ⟨by omega, h2.symm⟩

/-- C62 with bounds: for `0 ≤ a ≤ b ≤ len`, `s.startswith(p, a, b)` tells whether `p` is at the beginning of `s[a:b]`. -/
theorem C62_startswith_bounds (s p : Bytes) (a b : Nat) (hab : a ≤ b) (hb : b ≤ s.length) (hmax : s.length < 2147483648) :
    startswith s p (some a) (some b) = .ok (decide (p <+: (s.drop a).take (b - a))) := by
  refine startswith_window s p _ _ a b hab hb ?_
  unfold fixStartEnd
  rw [fixEnd_nat (Nat.lt_of_le_of_lt hb hmax), fixStart_nat (Nat.lt_of_le_of_lt (Nat.le_trans hab hb) hmax),
    if_neg (Nat.not_lt.2 (Nat.le_trans hab hb)), Option.map_some, Nat.min_eq_left hb]

example : startswith [97, 98, 99] [97, 98] none none = .ok true ∧ startswith [97, 98, 99] [98] (some 1) (some 3) = .ok true ∧
    startswith [97, 98, 99] [98, 99] (some 1) (some 2) = .ok false := by decide +kernel

theorem prefixLoop_spec (s c : Bytes) (hz : 0 ∉ c) : ∀ (n p q : Nat), p + n ≤ s.length → q + n = c.length →
    prefixLoop (buf s) (buf c) n (p : Int) (q : Int) = .ok (decide ((s.drop p).take n = c.drop q)) := by
  intro n
  induction n with
  | zero =>
    intro p q hp hq
    have : c.drop q = [] := List.drop_eq_nil_of_le (by omega)
    simp [prefixLoop, this]
  | succ n ih =>
    intro p q hp hq
    have e1 : s.drop p = s[p]'(by omega) :: s.drop (p + 1) := List.drop_eq_getElem_cons (by omega)
    have e2 : c.drop q = c[q]'(by omega) :: c.drop (q + 1) := List.drop_eq_getElem_cons (by omega)
    have hq0 : c[q]'(by omega) ≠ 0 := fun h => hz (h ▸ List.getElem_mem _)
    unfold prefixLoop
    rw [getB_buf s (by omega), Res.ok_bind]
    by_cases h0 : s[p]'(by omega) = 0
    · rw [if_pos h0]
      refine congrArg Res.ok ?_
      symm
      rw [decide_eq_false_iff_not, e1, e2, List.take_succ_cons]
      intro h
      injection h with h _
      exact hq0 (h ▸ h0)
    rw [if_neg h0, getB_buf c (by omega), Res.ok_bind, e1, e2, List.take_succ_cons]
    by_cases h2 : s[p]'(by omega) ≠ c[q]'(by omega)
    · rw [if_pos h2]
      refine congrArg Res.ok ?_
      symm
      rw [decide_eq_false_iff_not]
      intro h
      injection h with h _
      exact h2 h
    · rw [if_neg h2]
      have h2' := Decidable.not_not.1 h2
      rw [show (p : Int) + 1 = ((p + 1 : Nat) : Int) by omega, show (q : Int) + 1 = ((q + 1 : Nat) : Int) by omega,
        ih (p + 1) (q + 1) (by omega) (by omega), h2']
      refine congrArg Res.ok ?_
      rw [decide_eq_decide]
      constructor
      · intro h; rw [h]
      · intro h; injection h

/-- C62: `s.endswith(p)`, for `p` without zero bytes and not longer than `s`. Missing: these two, where the code is wrong. -/
theorem C62_endswith_partial (s p : Bytes) (hz : 0 ∉ p) (hl : p.length ≤ s.length) :
    endswith s p none none = .ok (decide (p <:+ s)) := by
  unfold endswith
  rw [fix_default]
  simp only
  have := prefixLoop_spec s p hz p.length (s.length - p.length) 0 (by omega) (by omega)
  simp only [Int.natCast_zero, List.drop_zero] at this
  rw [show (s.length : Int) - p.length = ((s.length - p.length : Nat) : Int) by omega, this]
  refine congrArg Res.ok ?_
  rw [decide_eq_decide, List.suffix_iff_eq_drop]
  rw [List.take_of_length_le (by rw [List.length_drop]; omega)]
  exact ⟨fun h => h.symm, fun h => h.symm⟩

example : endswith [97, 98, 99] [98, 99] none none = .ok true ∧ endswith [97, 98, 99] [98] none none = .ok false := by decide +kernel

/-- C62 does not hold for a suffix longer than the value: the code reads before the buffer. -/
theorem C62_refuted_endswith_long : endswith [97] [98, 97] none none = .ub := by decide +kernel

/-- C62 does not hold for zero bytes: `b"a\0".endswith(b"\0")` is false. -/
theorem C62_refuted_endswith_zero : endswith [97, 0] [0] none none = .ok false ∧ [0] <:+ [97, 0] := by decide +kernel

/-- C62 does not hold with a start: it is ignored, `b"ab".endswith(b"ab", 1)` is true. -/
theorem C62_refuted_endswith_start : endswith [97, 98] [97, 98] (some 1) none = .ok true ∧ ¬ [97, 98] <:+ [97, 98].drop 1 := by
  decide +kernel

/-- C62: `removeprefix`. -/
theorem C62_removeprefix (s p : Bytes) :
    (∃ r, s = p ++ r ∧ removeprefix s p = .ok r) ∨ (¬ p <+: s ∧ removeprefix s p = .ok s) := by
  unfold removeprefix
  simp only
  by_cases h : p <+: s
  · obtain ⟨r, rfl⟩ := h
    rw [if_neg (by simp), mk_ok (by rw [List.length_drop, List.length_append]; omega), List.drop_left]
    exact Or.inl ⟨r, rfl, rfl⟩
  · rw [if_pos (Or.inr (fun h' => h (List.prefix_iff_eq_take.2 h'.symm))), mk_ok (by simp), List.drop_zero]
    exact Or.inr ⟨h, rfl⟩

/-- C62: `removesuffix`. -/
theorem C62_removesuffix (s p : Bytes) :
    (∃ r, s = r ++ p ∧ removesuffix s p = .ok r) ∨ (¬ p <:+ s ∧ removesuffix s p = .ok s) := by
  unfold removesuffix
  simp only
  by_cases h : p <:+ s
  · obtain ⟨r, rfl⟩ := h
    have hl : (r ++ p).length - p.length = r.length := by rw [List.length_append]; omega
    rw [hl, List.drop_left, if_neg (by simp), hl, List.take_left, mk_ok (by rw [List.length_append]; omega)]
    exact Or.inl ⟨r, rfl, rfl⟩
  · rw [if_pos (Or.inr (fun h' => h (List.suffix_iff_eq_drop.2 h'.symm))), Nat.sub_zero, List.take_length, mk_ok (by simp)]
    exact Or.inr ⟨h, rfl⟩

example : removeprefix [97, 98, 99] [97] = .ok [98, 99] ∧ removesuffix [97, 98, 99] [99] = .ok [97, 98] := by decide +kernel

theorem leading_spec (cs : Bytes) : ∀ t : Bytes, leading cs t ≤ t.length ∧ (∀ c ∈ t.take (leading cs t), c ∈ cs) ∧
    ∀ c, (t.drop (leading cs t)).head? = some c → c ∉ cs := by
  intro t
  induction t with
  | nil => simp [leading]
  | cons c t ih =>
    unfold leading
    by_cases h : c ∈ cs
    · rw [if_pos h]
      refine ⟨by simpa using ih.1, ?_, ?_⟩
      · intro x hx
        rw [List.take_succ_cons] at hx
        rcases List.mem_cons.1 hx with rfl | hx
        · exact h
        · exact ih.2.1 x hx
      · intro x hx
        rw [List.drop_succ_cons] at hx
        exact ih.2.2 x hx
    · rw [if_neg h]
      refine ⟨by omega, by simp, ?_⟩
      intro x hx
      simp at hx
      exact hx ▸ h

theorem mem_set (cs : Option Bytes) (c : Nat) : c ∈ cs.getD whitespace ↔ c ∈ cs.getD spaces := by
  cases cs with
  | none => simp only [Option.getD_none, whitespace, spaces, List.mem_cons, List.not_mem_nil, or_false]; omega
  | some x => exact Iff.rfl

/-- C62: `lstrip` removes the longest beginning of bytes of the set. -/
theorem C62_lstrip (s : Bytes) (cs : Option Bytes) : ∃ r, lstrip s cs = .ok r ∧ LStripped s (cs.getD spaces) r := by
  obtain ⟨h1, h2, h3⟩ := leading_spec (cs.getD whitespace) s
  unfold lstrip
  simp only
  rw [mk_ok (by rw [List.length_drop]; omega)]
  exact ⟨_, rfl, s.take (leading (cs.getD whitespace) s), (List.take_append_drop _ _).symm,
    fun c hc => (mem_set cs c).1 (h2 c hc), fun c hc hm => h3 c hc ((mem_set cs c).2 hm)⟩

/-- C62: `rstrip` removes the longest end of bytes of the set. -/
theorem C62_rstrip (s : Bytes) (cs : Option Bytes) : ∃ r, rstrip s cs = .ok r ∧ RStripped s (cs.getD spaces) r := by
  obtain ⟨h1, h2, h3⟩ := leading_spec (cs.getD whitespace) s.reverse
  rw [List.length_reverse] at h1
  unfold rstrip
  simp only
  rw [mk_ok (by rw [List.length_take]; omega)]
  refine ⟨_, rfl, s.drop (s.length - leading (cs.getD whitespace) s.reverse), (List.take_append_drop _ _).symm, ?_, ?_⟩
  · intro c hc
    refine (mem_set cs c).1 (h2 c ?_)
    rw [List.take_reverse]
    exact List.mem_reverse.2 hc
  · intro c hc hm
    refine h3 c ?_ ((mem_set cs c).2 hm)
    rw [List.drop_reverse, List.head?_reverse]
    exact hc

/-- C62: `strip` does both: nothing but bytes of the set is removed, and neither end of the result is in the set. -/
theorem C62_strip (s : Bytes) (cs : Option Bytes) : ∃ a r b, strip s cs = .ok r ∧ s = a ++ r ++ b ∧
    (∀ c ∈ a ++ b, c ∈ cs.getD spaces) ∧ (∀ c, r.head? = some c → c ∉ cs.getD spaces) ∧
    ∀ c, r.getLast? = some c → c ∉ cs.getD spaces := by
  obtain ⟨x, e, b, h1, h2, h3⟩ := C62_rstrip s cs
  obtain ⟨r, e', a, h4, h5, h6⟩ := C62_lstrip x cs
  refine ⟨a, r, b, ?_, by rw [← h4]; exact h1, ?_, h6, ?_⟩
  · unfold strip
    rw [e, Res.ok_bind, e']
  · intro c hc
    rcases List.mem_append.1 hc with h | h
    · exact h5 c h
    · exact h2 c h
  · intro c hc
    apply h3 c
    rw [h4, List.getLast?_append, hc]
    rfl

example : strip [32, 9, 97, 32, 98, 10] none = .ok [97, 32, 98] ∧ lstrip [45, 97, 45] (some [45]) = .ok [97, 45] := by decide +kernel

/-- C62: equality. -/
theorem C62_eq (a b : Bytes) : eq a b = true ↔ a = b := by
  unfold eq
  rw [decide_eq_true_iff]
  exact ⟨fun h => h.2, fun h => ⟨h ▸ rfl, h⟩⟩

/-- C62: the order is lexicographic. -/
theorem C62_lt (a b : Bytes) : lt a b = true ↔ List.Lex (· < ·) a b := by
  induction a generalizing b with
  | nil =>
    cases b with
    | nil => simp [lt]
    | cons y b => simp [lt]
  | cons x a ih =>
    cases b with
    | nil => simp [lt]
    | cons y b =>
      unfold lt
      by_cases h : x = y
      · subst h
        rw [if_pos rfl, ih b]
        constructor
        · exact .cons
        · intro h
          cases h with
          | rel h => omega
          | cons h => exact h
      · rw [if_neg h, decide_eq_true_iff]
        constructor
        · exact .rel
        · intro h'
          cases h' with
          | rel h => exact h
          | cons _ => exact absurd rfl h

example : lt [97, 98] [97, 99] = true ∧ lt [97] [97, 0] = true ∧ lt [255] [1] = false := by decide

/-- C62: membership of numbers below 256. Missing: other numbers, which are cut to a byte. -/
theorem C62_contains_partial (s : Bytes) (n : Int) (hn : 0 ≤ n ∧ n < 256) : contains s n = true ↔ ∃ c ∈ s, (c : Int) = n := by
  unfold contains
  rw [Int.emod_eq_of_lt hn.1 hn.2, List.any_eq_true]
  simp

/-- C62 does not hold for numbers that are no bytes: `256 in b"\0"` is true. -/
theorem C62_refuted_contains : contains [0] 256 = true ∧ ¬ ∃ c ∈ [0], (c : Int) = 256 := by decide

/-- C62: indexing, also from the end. -/
theorem C62_getitem (s : Bytes) (i : Int) :
    (∃ k : Nat, ∃ h : k < s.length, (i = k ∨ i = (k : Int) - s.length) ∧ getitem s i = .ok (s[k]'h)) ∨
    ((i < -s.length ∨ i ≥ s.length) ∧ getitem s i = .raise .indexError) := by
  unfold getitem
  simp only
  by_cases hi : i < 0
  · rw [if_pos hi]
    by_cases h : (s.length : Int) + i < 0 ∨ (s.length : Int) + i ≥ s.length
    · rw [if_pos h]; exact Or.inr ⟨by omega, rfl⟩
    · rw [if_neg h]
      refine Or.inl ⟨((s.length : Int) + i).toNat, by omega, by omega, ?_⟩
      have := getB_buf s (i := ((s.length : Int) + i).toNat) (by omega)
      rw [show ((((s.length : Int) + i).toNat : Nat) : Int) = (s.length : Int) + i by omega] at this
      exact this
  · rw [if_neg hi]
    by_cases h : i < 0 ∨ i ≥ s.length
    · rw [if_pos h]; exact Or.inr ⟨by omega, rfl⟩
    · rw [if_neg h]
      refine Or.inl ⟨i.toNat, by omega, by omega, ?_⟩
      have := getB_buf s (i := i.toNat) (by omega)
      rw [show ((i.toNat : Nat) : Int) = i by omega] at this
      exact this

example : getitem [97, 98, 99] (-1) = .ok 99 ∧ getitem [97, 98, 99] 3 = .raise .indexError := by decide +kernel

end Verif.Bytes
