import Verif.Bytes.Words
/-!
# C64: padding, case and tabs of `bytes`
-/
namespace Verif.Bytes
open Verif Verif.Search Verif.Str

/-- C64: `s.ljust(width, fill)` puts fill bytes after `s`, up to the width, for widths that fit in an `int`. -/
theorem C64_ljust (s : Bytes) (width : Int) (c : Nat) (hw : InI32 width) :
    ljust s width (some [c]) = .ok (s ++ List.replicate (width.toNat - s.length) c) := by
  unfold ljust
  rw [wrap32_of_in hw]
  show (if width ≤ s.length then Res.ok s else _) = _
  by_cases h : width ≤ s.length
  · rw [if_pos h, show width.toNat - s.length = 0 by omega]
    simp
  · rw [if_neg h, show (width - s.length).toNat = width.toNat - s.length by omega]
    exact mk_ok (by rw [List.length_append, List.length_replicate]; omega)

/-- C64: `s.rjust(width, fill)` puts them before. -/
theorem C64_rjust (s : Bytes) (width : Int) (c : Nat) (hw : InI32 width) :
    rjust s width (some [c]) = .ok (List.replicate (width.toNat - s.length) c ++ s) := by
  unfold rjust
  rw [wrap32_of_in hw]
  show (if width ≤ s.length then Res.ok s else _) = _
  by_cases h : width ≤ s.length
  · rw [if_pos h, show width.toNat - s.length = 0 by omega]
    simp
  · rw [if_neg h, show (width - s.length).toNat = width.toNat - s.length by omega]
    exact mk_ok (by rw [List.length_append, List.length_replicate]; omega)

/-- C64: `s.center(width, fill)` puts them on both sides, at most one more after than before. -/
theorem C64_center (s : Bytes) (width : Int) (c : Nat) (hw : InI32 width) :
    ∃ l r : Nat, center s width (some [c]) = .ok (List.replicate l c ++ s ++ List.replicate r c) ∧
      l + r = width.toNat - s.length ∧ l ≤ r ∧ r ≤ l + 1 := by
  unfold center
  rw [wrap32_of_in hw]
  show ∃ l r : Nat, (if width ≤ s.length then Res.ok s else _) = _ ∧ _
  by_cases h : width ≤ s.length
  · rw [if_pos h]
    exact ⟨0, 0, by simp, by omega, by omega, by omega⟩
  · rw [if_neg h]
    obtain ⟨n, hn⟩ : ∃ n : Nat, width - s.length = n := ⟨(width - s.length).toNat, by omega⟩
    have hd : (n : Int).tdiv 2 = ((n / 2 : Nat) : Int) := by rw [Int.tdiv_eq_ediv_of_nonneg (by omega)]; omega
    refine ⟨n / 2, n - n / 2, ?_, by omega, by omega, by omega⟩
    rw [hn, hd, show ((n : Int) - ((n / 2 : Nat) : Int)).toNat = n - n / 2 by omega]
    have e : copy (List.replicate (n - n / 2) c) 0 ((n / 2 : Nat) : Int) = .ok (List.replicate (n / 2) c) := by
      unfold copy
      rw [if_pos (by rw [List.length_replicate]; omega)]
      simp only [Int.toNat_zero, List.drop_zero, Int.toNat_natCast, List.take_replicate]
      rw [Nat.min_eq_left (by omega)]
    rw [e, Res.ok_bind]
    exact mk_ok (by simp only [List.length_append, List.length_replicate]; omega)

/-- C64: without a fill byte it is the space; with another number of bytes an exception is raised. -/
theorem C64_fill (s : Bytes) (width : Int) (f : Option Bytes) :
    (f = none → ljust s width f = ljust s width (some [32]) ∧ rjust s width f = rjust s width (some [32]) ∧
      center s width f = center s width (some [32])) ∧
    ((∃ x, f = some x ∧ x.length ≠ 1) → ljust s width f = .raise .valueError ∧ rjust s width f = .raise .valueError ∧
      center s width f = .raise .valueError) := by
  constructor
  · rintro rfl
    exact ⟨rfl, rfl, rfl⟩
  · rintro ⟨x, rfl, hx⟩
    have : fillOf (some x) = .raise .valueError := by
      cases x with
      | nil => rfl
      | cons a x =>
        cases x with
        | nil => exact absurd rfl hx
        | cons b x => rfl
    unfold ljust rjust center
    rw [this]
    exact ⟨rfl, rfl, rfl⟩

example : ljust [97] 3 none = .ok [97, 32, 32] ∧ rjust [97] 3 (some [48]) = .ok [48, 48, 97] ∧
    center [97] 4 (some [45]) = .ok [45, 97, 45, 45] := by decide +kernel

/-- C64: `s.zfill(width)` puts zeros before `s`, but behind a sign. -/
theorem C64_zfill (s : Bytes) (width : Int) (hw : InI32 width) (hp : 0 ≤ width) (hs : s.length < 2^31) :
    (∀ c t, s = c :: t → c = 43 ∨ c = 45 → zfill s width = .ok (c :: (List.replicate (width.toNat - s.length) 48 ++ t))) ∧
    ((∀ c, s.head? = some c → ¬ (c = 43 ∨ c = 45)) → zfill s width = .ok (List.replicate (width.toNat - s.length) 48 ++ s)) := by
  have hf : wrap32 (wrap32 width - s.length) = width - s.length := by
    rw [wrap32_of_in hw]
    unfold InI32 at hw
    exact wrap32_of_in (by unfold InI32; omega)
  unfold zfill
  rw [hf, wrap32_of_in hw]
  simp only
  constructor
  · rintro c t rfl hc
    by_cases h : width - ((c :: t).length : Int) < 0
    · rw [if_pos h, show width.toNat - (c :: t).length = 0 by omega]; simp
    · rw [if_neg h, show (width - ((c :: t).length : Int)).toNat = width.toNat - (c :: t).length by omega]
      have : (if (buf (c :: t)).headD 0 = 43 ∨ (buf (c :: t)).headD 0 = 45 then 1 else 0) = 1 := if_pos hc
      rw [this]
      exact mk_ok (by
        simp only [List.take_succ_cons, List.take_zero, List.drop_succ_cons, List.drop_zero, List.length_append, List.length_cons,
          List.length_nil, List.length_replicate] at h ⊢
        omega)
  · intro hc
    by_cases h : width - (s.length : Int) < 0
    · rw [if_pos h, show width.toNat - s.length = 0 by omega]; simp
    · rw [if_neg h, show (width - (s.length : Int)).toNat = width.toNat - s.length by omega]
      have : (if (buf s).headD 0 = 43 ∨ (buf s).headD 0 = 45 then 1 else 0) = 0 := by
        refine if_neg ?_
        cases s with
        | nil => simp [buf]
        | cons x t => simpa [buf] using hc x rfl
      rw [this]
      exact mk_ok (by
        simp only [List.take_zero, List.drop_zero, List.nil_append, List.length_append, List.length_replicate]
        omega)

example : zfill [45, 55] 4 = .ok [45, 48, 48, 55] ∧ zfill [55] 3 = .ok [48, 48, 55] := by decide +kernel

theorem toupper_eq (c : Nat) : toupper c = upperOf c := by
  by_cases h : c < 128
  · have : ∀ c < 128, toupper c = upperOf c := by decide +kernel
    exact this c h
  · have e : smalls.idxOf c = 26 := List.idxOf_eq_length (by simp [smalls, List.mem_range'_1]; omega)
    unfold toupper upperOf
    rw [e, if_neg (by omega)]
    rfl

theorem tolower_eq (c : Nat) : tolower c = lowerOf c := by
  by_cases h : c < 128
  · have : ∀ c < 128, tolower c = lowerOf c := by decide +kernel
    exact this c h
  · have e : capitals.idxOf c = 26 := List.idxOf_eq_length (by simp [capitals, List.mem_range'_1]; omega)
    unfold tolower lowerOf
    rw [e, if_neg (by omega)]
    rfl

theorem tolower_fun : tolower = lowerOf := funext tolower_eq
theorem toupper_fun : toupper = upperOf := funext toupper_eq

/-- C64: `capitalize` maps the first byte to upper case and the others to lower case. -/
theorem C64_capitalize (s : Bytes) : (capitalize s).length = s.length ∧
    ∀ i (h : i < s.length) (h' : i < (capitalize s).length), (capitalize s)[i] = if i = 0 then upperOf s[i] else lowerOf s[i] := by
  rw [← tolower_fun, ← toupper_fun]
  cases s with
  | nil => exact ⟨rfl, fun i h => absurd h (by simp)⟩
  | cons c s =>
    refine ⟨by simp [capitalize], ?_⟩
    intro i h h'
    cases i with
    | zero => rfl
    | succ i => simp [capitalize]

/-- C64: `lower` and `upper` do not depend on their argument, except for its length: they convert what the new block
happens to contain. For every `s` that is not empty there are contents for which both results are wrong. -/
theorem C64_refuted_case (s : Bytes) (h : s ≠ []) :
    (∃ g, lower g s ≠ s.map lowerOf) ∧ (∃ g, upper g s ≠ s.map upperOf) ∧
    ∀ g s', s'.length = s.length → lower g s' = lower g s ∧ upper g s' = upper g s := by
  rw [← tolower_fun, ← toupper_fun]
  have hl : 0 < s.length := List.length_pos_iff.2 h
  have e : ∀ (f g : Nat → Nat), ((List.range s.length).map (fun i => f (g i))).head? = some (f (g 0)) := by
    intro f g
    obtain ⟨n, hn⟩ : ∃ n, s.length = n + 1 := ⟨s.length - 1, by omega⟩
    rw [hn, List.range_succ_eq_map]
    rfl
  have e2 : ∀ f : Nat → Nat, (s.map f).head? = some (f (s.head h)) := by
    intro f
    cases s with
    | nil => exact absurd rfl h
    | cons c s => rfl
  refine ⟨⟨fun _ => if tolower (s.head h) = 0 then 1 else 0, ?_⟩, ⟨fun _ => if toupper (s.head h) = 0 then 1 else 0, ?_⟩, ?_⟩
  · intro h0
    have := congrArg List.head? h0
    unfold lower at this
    rw [e tolower, e2] at this
    injection this with this
    by_cases hz : tolower (s.head h) = 0
    · rw [if_pos hz, hz] at this; exact absurd this (by decide)
    · rw [if_neg hz] at this; exact hz this.symm
  · intro h0
    have := congrArg List.head? h0
    unfold upper at this
    rw [e toupper, e2] at this
    injection this with this
    by_cases hz : toupper (s.head h) = 0
    · rw [if_pos hz, hz] at this; exact absurd this (by decide)
    · rw [if_neg hz] at this; exact hz this.symm
  · intro g s' hs
    unfold lower upper
    rw [hs]
    exact ⟨rfl, rfl⟩

/-- C64: what holds of `lower` and `upper`: the result is right if the new block happens to contain `s`. -/
theorem C64_case_partial (g : Nat → Nat) (s : Bytes) (hg : ∀ i (h : i < s.length), g i = s[i]) :
    lower g s = s.map lowerOf ∧ upper g s = s.map upperOf := by
  rw [← tolower_fun, ← toupper_fun]
  constructor
  · apply List.ext_getElem
    · simp [lower]
    · intro i h1 h2
      simp [lower]
      rw [hg i (by simpa using h2)]
  · apply List.ext_getElem
    · simp [upper]
    · intro i h1 h2
      simp [upper]
      rw [hg i (by simpa using h2)]

theorem tabsChar_ascii (s : Bytes) (ha : ∀ c ∈ s, c < 128) {p : Nat} (hp : p < s.length) (pos cap : Nat) (hc : 0 < cap) :
    tabsChar (buf s) 5 0 p pos cap = .ok ([s[p]], p + 1, pos + 1, cap - 1) := by
  have hb : ∀ c, c < 128 → blen2 c = 1 := by intro c hc; unfold blen2; rw [if_pos hc]
  unfold tabsChar
  rw [getB_buf s hp, Res.ok_bind, if_pos (by rw [hb _ (ha _ (List.getElem_mem _))]; omega), if_neg (by omega)]
  have : ∃ d, getB (buf s) ((p + 1 : Nat) : Int) = .ok d ∧ d < 128 := by
    by_cases h : p + 1 < s.length
    · exact ⟨_, getB_buf s h, ha _ (List.getElem_mem _)⟩
    · refine ⟨0, getB_some ?_, by omega⟩
      unfold buf
      rw [show p + 1 = s.length by omega]
      simp
  obtain ⟨d, e, hd⟩ := this
  unfold tabsChar
  rw [e, Res.ok_bind, if_neg (by rw [hb d hd]; omega)]
  rfl

theorem tabsLoop_spec (s : Bytes) (ha : ∀ c ∈ s, c < 128) (k : Nat) (hk : 0 < k) : ∀ (n p pos cap : Nat) (ex : Int), p + n = s.length →
    k * n ≤ cap → ∃ r, tabsLoop (buf s) k n p pos cap ex = .ok (r, ex + r.length - n) ∧ Tabs k pos (s.drop p) r := by
  intro n
  induction n with
  | zero =>
    intro p pos cap ex hp _
    refine ⟨[], ?_, ?_⟩
    · unfold tabsLoop; simp
    · rw [List.drop_eq_nil_of_le (by omega)]; exact .nil pos
  | succ n ih =>
    intro p pos cap ex hp hcap
    have hps : p < s.length := by omega
    have hd : s.drop p = s[p] :: s.drop (p + 1) := List.drop_eq_getElem_cons hps
    have hcap' : k * n + k ≤ cap := by rw [← Nat.mul_succ]; exact hcap
    unfold tabsLoop
    rw [getB_buf s hps, Res.ok_bind, hd]
    by_cases h9 : s[p] = 9
    · rw [if_pos h9]
      have hm : pos % k < k := Nat.mod_lt _ hk
      obtain ⟨m, hmd⟩ : ∃ m, m = k - pos % k := ⟨_, rfl⟩
      rw [← hmd, if_neg (by omega)]
      obtain ⟨r, e, hr⟩ := ih (p + 1) (pos + m) (cap - m) (ex + (m : Nat) - 1) (by omega) (by omega)
      rw [e, Res.ok_bind]
      refine ⟨List.replicate m 32 ++ r, ?_, ?_⟩
      · refine congrArg Res.ok ?_
        simp only [List.length_append, List.length_replicate, Prod.mk.injEq, true_and]
        push_cast
        omega
      · rw [h9]
        refine .tab pos m _ _ (by omega) (by omega) ?_ hr
        refine ⟨pos / k + 1, ?_⟩
        have := Nat.div_add_mod pos k
        rw [Nat.mul_add, Nat.mul_one]
        omega
    · rw [if_neg h9]
      by_cases hl : s[p] = 10 ∨ s[p] = 13
      · rw [if_pos hl, if_neg (by omega)]
        obtain ⟨r, e, hr⟩ := ih (p + 1) 0 (cap - 1) ex (by omega) (by omega)
        rw [e, Res.ok_bind]
        refine ⟨s[p] :: r, ?_, .line pos _ _ _ hl hr⟩
        refine congrArg Res.ok ?_
        simp only [List.length_cons, Prod.mk.injEq, true_and]
        push_cast
        omega
      · rw [if_neg hl, tabsChar_ascii s ha hps pos cap (by omega), Res.ok_bind]
        simp only
        obtain ⟨r, e, hr⟩ := ih (p + 1) (pos + 1) (cap - 1) ex (by omega) (by omega)
        rw [e, Res.ok_bind]
        refine ⟨s[p] :: r, ?_, .char pos _ _ _ h9 (fun h => hl (Or.inl h)) (fun h => hl (Or.inr h)) hr⟩
        refine congrArg Res.ok ?_
        simp only [List.singleton_append, List.length_cons, Prod.mk.injEq, true_and]
        push_cast
        omega

/-- C64: `s.expandtabs(k)` replaces the tabs by spaces up to the next column that is a multiple of `k`, for ASCII values
whose length times `k` fits in an `int`. Missing: other bytes, where the code is wrong. -/
theorem C64_expandtabs_partial (s : Bytes) (ha : ∀ c ∈ s, c < 128) (k : Nat) (hk : 0 < k) (hmax : k * s.length < 2^31) :
    ∃ r, expandtabs s k = .ok r ∧ Tabs k 0 s r := by
  unfold expandtabs
  by_cases h0 : s.length = 0
  · rw [if_pos h0, List.length_eq_zero_iff.1 h0]
    exact ⟨[], rfl, .nil 0⟩
  rw [if_neg h0]
  have hks : k ≤ k * s.length := Nat.le_mul_of_pos_right k (by omega)
  have hw : wrap32 (k : Int) = k := wrap32_of_in (by unfold InI32; omega)
  have hw2 : wrap32 ((k : Int) * s.length) = ((k * s.length : Nat) : Int) := by
    rw [← Int.natCast_mul]; exact wrap32_of_in (by unfold InI32; omega)
  simp only
  rw [hw, if_neg (show ¬ (k : Int) ≤ 0 by omega), hw2, if_neg (by omega), Int.toNat_natCast, Int.toNat_natCast]
  obtain ⟨r, e, hr⟩ := tabsLoop_spec s ha k hk s.length 0 0 (k * s.length) 0 (by omega) (Nat.le_refl _)
  rw [List.drop_zero] at hr
  rw [e, Res.ok_bind]
  simp only
  rw [show (s.length : Int) + (0 + r.length - s.length) = r.length by omega]
  have ec : copy r 0 (r.length : Int) = .ok r := by
    unfold copy
    rw [if_pos (by omega)]
    simp
  rw [ec, Res.ok_bind]
  exact ⟨r, mk_ok rfl, hr⟩

example : expandtabs [97, 9, 98, 10, 9, 99] 4 = .ok [97, 32, 32, 32, 98, 10, 32, 32, 32, 32, 99] := by decide +kernel

/-- C64 does not hold beyond ASCII: for the four bytes of `ää` the code reads behind the buffer (tab size 8), and
for the two bytes of `ä` and tab size 1 it writes behind the array. -/
theorem C64_refuted_expandtabs : expandtabs [195, 164, 195, 164] 8 = .ub ∧ expandtabs [195, 164] 1 = .ub := by decide +kernel

end Verif.Bytes
