import Verif.Str.SplitProps
/-!
# C12 and C13: `lstrip`, `rstrip`, `strip`, `startswith`, `endswith`
-/
namespace Verif.Str
open Verif Verif.Search

theorem drop_cons_of_getElem? {b : List Nat} {p x : Nat} (h : b[p]? = some x) : b.drop p = x :: b.drop (p + 1) := by
  obtain ⟨hp, hx⟩ := List.getElem?_eq_some_iff.1 h
  rw [List.drop_eq_getElem_cons hp, hx]

/-- `equal_bytes` on two stretches inside their buffers. -/
theorem equalBytes_in (b c : List Nat) : ∀ (n p q : Nat), p + n ≤ b.length → q + n ≤ c.length →
    equalBytes b c n p q = .ok (decide ((b.drop p).take n = (c.drop q).take n)) := by
  intro n
  induction n with
  | zero => intro p q _ _; simp [equalBytes]
  | succ n ih =>
    intro p q h1 h2
    have g1 : b[p]? = some b[p] := List.getElem?_eq_getElem (by omega)
    have g2 : c[q]? = some c[q] := List.getElem?_eq_getElem (by omega)
    unfold equalBytes
    rw [getB_some g1, Res.ok_bind, getB_some g2, Res.ok_bind, drop_cons_of_getElem? g1, drop_cons_of_getElem? g2,
      List.take_succ_cons, List.take_succ_cons]
    by_cases he : b[p] = c[q]
    · rw [if_neg (by simpa using he), ← Int.natCast_succ, ← Int.natCast_succ, ih (p + 1) (q + 1) (by omega) (by omega), he]
      simp
    · rw [if_pos he]
      simp [he]

theorem window_at {u : List Nat} {j : Nat} (hj : j < u.length) :
    ((enc u).drop (off u j)).take (enc1 u[j]).length = enc1 u[j] := by
  rw [enc_drop, List.drop_eq_getElem_cons hj, enc_cons, List.take_left]

theorem off_succ_le {u : List Nat} {j : Nat} (hj : j < u.length) : off u j + (enc1 u[j]).length ≤ (enc u).length := by
  rw [← off_succ hj]; exact off_le_len u _

/-- Comparing a character of `u` with one of `v`. -/
theorem equalBytes_char {u v : List Nat} (hu : ∀ c ∈ u, CodePoint c) (hv : ∀ c ∈ v, CodePoint c) {j i : Nat}
    (hj : j < u.length) (hi : i < v.length) :
    equalBytes (enc u) (enc v) (enc1 v[i]).length (off u j : Nat) (off v i : Nat) = .ok (decide (u[j] = v[i])) := by
  obtain ⟨b, hb, -, hbl, -⟩ := lead_at hu hj
  obtain ⟨c, hc, -, hcl, -⟩ := lead_at hv hi
  by_cases he : b = c
  · have hl : (enc1 u[j]).length = (enc1 v[i]).length := by rw [← hbl, ← hcl, he]
    have h1 := off_succ_le hj
    rw [equalBytes_in _ _ _ _ _ (by omega) (off_succ_le hi), window_at hi, ← hl, window_at hj]
    congr 1
    rw [decide_eq_decide]
    exact ⟨enc1_inj, fun h => by rw [h]⟩
  · have hne : u[j] ≠ v[i] := by
      intro h
      apply he
      have w1 := window_at hj
      have w2 := window_at hi
      rw [drop_cons_of_getElem? hb] at w1
      rw [drop_cons_of_getElem? hc] at w2
      obtain ⟨n, hn⟩ : ∃ n, (enc1 u[j]).length = n + 1 := ⟨(enc1 u[j]).length - 1, by have := enc1_length (c := u[j]); omega⟩
      rw [← h] at w2
      rw [hn, List.take_succ_cons] at w1 w2
      have := w1.trans w2.symm
      injection this
    obtain ⟨n, hn⟩ : ∃ n, (enc1 v[i]).length = n + 1 := ⟨(enc1 v[i]).length - 1, by have := enc1_length (c := v[i]); omega⟩
    rw [hn]
    unfold equalBytes
    rw [getB_some hb, Res.ok_bind, getB_some hc, Res.ok_bind, if_pos he]
    simp [hne]

theorem memberLoop_spec {u v : List Nat} (hu : ∀ c ∈ u, CodePoint c) (hv : ∀ c ∈ v, CodePoint c) {j : Nat}
    (hj : j < u.length) : ∀ n i, i + n ≤ v.length →
    memberLoop (enc u) (enc v) (off u j : Nat) n (off v i : Nat) = .ok (decide (u[j] ∈ (v.drop i).take n)) := by
  intro n
  induction n with
  | zero => intro i _; simp [memberLoop]
  | succ n ih =>
    intro i hi
    obtain ⟨c, hc, -, hcl, -⟩ := lead_at hv (k := i) (by omega)
    unfold memberLoop
    rw [getB_some hc, Res.ok_bind, hcl, equalBytes_char hu hv hj (by omega), Res.ok_bind]
    rw [List.drop_eq_getElem_cons (by omega : i < v.length), List.take_succ_cons]
    by_cases he : u[j] = v[i]
    · rw [if_pos (by simpa using he)]; simp [he]
    · rw [if_neg (by simpa using he), ← Int.natCast_add, ← off_succ (by omega), ih (i + 1) (by omega)]
      simp [he]

theorem Repr.member {s cs : Str} {t u : List Nat} (h : Repr s t) (hc : Repr cs u) {j : Nat} (hj : j < t.length) :
    memberLoop s.buf cs.buf (off t j : Nat) cs.nchars.toNat 0 = .ok (decide (t[j] ∈ u)) := by
  have hj' : j < (t ++ [0]).length := by rw [List.length_append]; omega
  have := memberLoop_spec h.cp' hc.cp' hj' u.length 0 (by rw [List.length_append]; omega)
  rw [off_zero, off_append (by omega), List.drop_zero, List.take_left, List.getElem_append_left hj] at this
  rw [h.buf', hc.buf', hc.nc, Int.toNat_natCast]
  exact this

theorem Repr.lead {s : Str} {t : List Nat} (h : Repr s t) {j : Nat} (hj : j < t.length) :
    ∃ b, getB s.buf (off t j : Nat) = .ok b ∧ blen2 b = (enc1 t[j]).length ∧ (b = 0 ↔ t[j] = 0) := by
  obtain ⟨b, hb, -, hl, -, hz⟩ := lead_at h.cp hj
  refine ⟨b, getB_some ?_, hl, hz⟩
  rw [h.buf, List.getElem?_append_left ((List.getElem?_eq_some_iff.1 hb).1)]; exact hb

theorem lstripLoop_spec {s cs : Str} {t u : List Nat} (h : Repr s t) (hc : Repr cs u) :
    ∀ n i : Nat, i + n = t.length → ∃ i' : Nat, i ≤ i' ∧ i' ≤ t.length ∧
      lstripLoop s.buf cs n i (off t i : Nat) = .ok ((i' : Int), ((off t i' : Nat) : Int)) ∧
      (∀ k (hk : k < t.length), i ≤ k → k < i' → t[k] ∈ u) ∧ (∀ h : i' < t.length, t[i'] ∉ u) := by
  intro n
  induction n with
  | zero =>
    intro i hi
    exact ⟨i, by omega, by omega, rfl, fun k _ h1 h2 => by omega, fun h => by omega⟩
  | succ n ih =>
    intro i hi
    have hit : i < t.length := by omega
    unfold lstripLoop
    rw [h.member hc hit, Res.ok_bind]
    by_cases hm : t[i] ∈ u
    · rw [if_pos (by simpa using hm)]
      obtain ⟨b, hb, hl, -⟩ := h.lead hit
      rw [hb, Res.ok_bind, hl, ← Int.natCast_add, ← off_succ hit, ← Int.natCast_succ]
      obtain ⟨i', h1, h2, e, h3, h4⟩ := ih (i + 1) (by omega)
      refine ⟨i', by omega, h2, e, ?_, h4⟩
      intro k hk hik hki
      by_cases hki' : k = i
      · subst hki'; exact hm
      · exact h3 k hk (by omega) hki
    · rw [if_neg (by simpa using hm)]
      exact ⟨i, by omega, by omega, rfl, fun k _ h1 h2 => by omega, fun _ => hm⟩

/-- `lstrip` removes exactly the maximal prefix of characters in `cs`. -/
theorem lstrip_spec {s cs : Str} {t u : List Nat} (h : Repr s t) (hc : Repr cs u) :
    ∃ r w, lstrip s (some cs) = .ok r ∧ Repr r w ∧ LStripped t u w := by
  unfold lstrip
  by_cases h0 : s.nchars = 0
  · rw [if_pos h0]
    have : t = [] := List.length_eq_zero_iff.1 (by have := h.nc; omega)
    subst this
    exact ⟨s, [], rfl, h, [], rfl, by simp, by simp⟩
  · rw [if_neg h0]
    simp only [Option.getD_some]
    obtain ⟨i, -, hi, e, h1, h2⟩ := lstripLoop_spec h hc t.length 0 (by omega)
    rw [off_zero] at e
    rw [h.nc, Int.toNat_natCast]
    simp only [Int.natCast_zero] at e
    rw [e, Res.ok_bind]
    obtain ⟨b, r, e1, e2, hr⟩ := h.sub (j := i) (k := t.length) hi (Nat.le_refl _)
    rw [off_all t (Nat.le_refl _), ← h.nb] at e1 e2
    rw [e1, Res.ok_bind]
    have htk : (t.drop i).take (t.length - i) = t.drop i := by
      apply List.take_of_length_le; rw [List.length_drop]
    rw [htk] at hr
    refine ⟨r, t.drop i, e2, hr, t.take i, (List.take_append_drop i t).symm, ?_, ?_⟩
    · intro c hc
      obtain ⟨k, hk, rfl⟩ := List.mem_iff_getElem.1 hc
      rw [List.length_take] at hk
      rw [List.getElem_take]
      exact h1 k (by omega) (by omega) (by omega)
    · intro c hc
      rw [List.head?_drop] at hc
      obtain ⟨hk, rfl⟩ := List.getElem?_eq_some_iff.1 hc
      exact h2 hk

theorem rstripLoop_spec {s cs : Str} {t u : List Nat} (h : Repr s t) (hc : Repr cs u)
    (hex : ∃ c ∈ t, c ∉ u) : ∀ n i : Nat, i + n = t.length →
      (∀ k (hk : k < t.length), t.length - i ≤ k → t[k] ∈ u) →
      ∃ i' : Nat, i' < t.length ∧
      rstripLoop s.buf cs n i (off t (t.length - i) : Nat) = .ok ((i' : Int), ((off t (t.length - i' - 1) : Nat) : Int)) ∧
      (∀ k (hk : k < t.length), t.length - i' ≤ k → t[k] ∈ u) ∧ (∀ h : t.length - i' - 1 < t.length, t[t.length - i' - 1] ∉ u) := by
  intro n
  induction n with
  | zero =>
    intro i hi hall
    obtain ⟨c, hc, hcu⟩ := hex
    obtain ⟨k, hk, rfl⟩ := List.mem_iff_getElem.1 hc
    exact absurd (hall k hk (by omega)) hcu
  | succ n ih =>
    intro i hi hall
    have hit : t.length - i - 1 < t.length := by omega
    unfold rstripLoop
    have hb := skipBack_spec h.cp' 1 (t.length - i) (by omega) (by rw [List.length_append]; omega)
    rw [off_append (by omega), off_append (by omega), ← h.buf'] at hb
    rw [hb, Res.ok_bind, h.member hc hit, Res.ok_bind]
    by_cases hm : t[t.length - i - 1] ∈ u
    · rw [if_pos (by simpa using hm), ← Int.natCast_succ, show t.length - i - 1 = t.length - (i + 1) by omega]
      apply ih (i + 1) (by omega)
      intro k hk hik
      by_cases hki : k = t.length - i - 1
      · subst hki; exact hm
      · exact hall k hk (by omega)
    · rw [if_neg (by simpa using hm)]
      exact ⟨i, by omega, rfl, hall, fun _ => hm⟩

/-- `rstrip` removes exactly the maximal suffix of characters in `cs`, provided a character
remains (or the string was empty). -/
theorem rstrip_spec {s cs : Str} {t u : List Nat} (h : Repr s t) (hc : Repr cs u) (hex : t = [] ∨ ∃ c ∈ t, c ∉ u) :
    ∃ r w, rstrip s (some cs) = .ok r ∧ Repr r w ∧ RStripped t u w := by
  unfold rstrip
  by_cases h0 : s.nchars = 0
  · rw [if_pos h0]
    have : t = [] := List.length_eq_zero_iff.1 (by have := h.nc; omega)
    subst this
    exact ⟨s, [], rfl, h, [], rfl, by simp, by simp⟩
  · rw [if_neg h0]
    have hex' : ∃ c ∈ t, c ∉ u := by
      rcases hex with rfl | hex
      · exact absurd (by rw [h.nc]; rfl) h0
      · exact hex
    simp only [Option.getD_some]
    obtain ⟨i, hi, e, h1, h2⟩ := rstripLoop_spec h hc hex' t.length 0 (by omega) (fun k hk hk2 => by omega)
    rw [Nat.sub_zero, off_all t (Nat.le_refl _), ← h.nb] at e
    simp only [Int.natCast_zero] at e
    rw [h.nc, Int.toNat_natCast, e, Res.ok_bind]
    have hf := skipFwd_spec h.cp' 1 (t.length - i - 1) (by rw [List.length_append]; omega)
    rw [off_append (by omega), off_append (by omega), ← h.buf', show t.length - i - 1 + 1 = t.length - i by omega] at hf
    simp only
    rw [hf, Res.ok_bind]
    obtain ⟨b, r, e1, e2, hr⟩ := h.sub (j := 0) (k := t.length - i) (by omega) (by omega)
    rw [off_zero] at e1 e2
    simp only [Int.natCast_zero, Int.sub_zero, List.drop_zero, Nat.sub_zero] at e1 e2 hr
    rw [e1, Res.ok_bind, show (t.length : Int) - i = ((t.length - i : Nat) : Int) by omega]
    refine ⟨r, t.take (t.length - i), e2, hr, t.drop (t.length - i), (List.take_append_drop _ t).symm, ?_, ?_⟩
    · intro c hc
      obtain ⟨k, hk, rfl⟩ := List.mem_iff_getElem.1 hc
      rw [List.length_drop] at hk
      rw [List.getElem_drop]
      exact h1 _ (by omega) (by omega)
    · intro c hc
      rw [List.getLast?_eq_getElem?, List.length_take, Nat.min_eq_left (by omega),
        List.getElem?_take_of_lt (by omega)] at hc
      obtain ⟨hk, rfl⟩ := List.getElem?_eq_some_iff.1 hc
      exact h2 hk

/-- C12: `lstrip` with any set of characters. -/
theorem C12_lstrip {s cs : Str} {t u : List Nat} (h : Repr s t) (hc : Repr cs u) :
    ∃ r w, lstrip s (some cs) = .ok r ∧ Repr r w ∧ LStripped t u w := lstrip_spec h hc

theorem ws_repr : Repr whitespaceStr [32, 9, 10, 13, 11, 12] :=
  ⟨by intro c hc; simp at hc; unfold CodePoint; omega, rfl, rfl, rfl, by decide⟩

/-- C12: `lstrip` without argument strips the ASCII white space characters. -/
theorem C12_lstrip_default {s : Str} {t : List Nat} (h : Repr s t) :
    ∃ r w, lstrip s none = .ok r ∧ Repr r w ∧ LStripped t [32, 9, 10, 13, 11, 12] w :=
  lstrip_spec (cs := whitespaceStr) h ws_repr

/-- C12: `rstrip`; missing: strings consisting of characters to be stripped only. -/
theorem C12_rstrip_partial {s cs : Str} {t u : List Nat} (h : Repr s t) (hc : Repr cs u)
    (hex : t = [] ∨ ∃ c ∈ t, c ∉ u) :
    ∃ r w, rstrip s (some cs) = .ok r ∧ Repr r w ∧ RStripped t u w := rstrip_spec h hc hex

/-- C12: `strip`; missing: strings consisting of characters to be stripped only. -/
theorem C12_strip_partial {s cs : Str} {t u : List Nat} (h : Repr s t) (hc : Repr cs u)
    (hex : t = [] ∨ ∃ c ∈ t, c ∉ u) :
    ∃ r w v, strip s (some cs) = .ok r ∧ Repr r w ∧ RStripped t u v ∧ LStripped v u w := by
  obtain ⟨r, v, e, hr, hv⟩ := rstrip_spec h hc hex
  obtain ⟨r', w, e', hr', hw⟩ := lstrip_spec hr hc
  exact ⟨r', w, v, by unfold strip; rw [e, Res.ok_bind, e'], hr', hv, hw⟩

/-- The specification of stripping has one solution only. -/
theorem LStripped.unique {t cs a b : List Nat} (ha : LStripped t cs a) (hb : LStripped t cs b) : a = b := by
  obtain ⟨x, hx, h1, h2⟩ := ha
  obtain ⟨y, hy, h3, h4⟩ := hb
  have key : ∀ (x y a b : List Nat), x ++ a = y ++ b → (∀ c ∈ x, c ∈ cs) → (∀ c, a.head? = some c → c ∉ cs) →
      (∀ c ∈ y, c ∈ cs) → (∀ c, b.head? = some c → c ∉ cs) → a = b := by
    intro x
    induction x with
    | nil =>
      intro y a b e _ h2 h3 _
      cases y with
      | nil => simpa using e
      | cons c y =>
        simp only [List.nil_append, List.cons_append] at e
        exact absurd (h3 c (by simp)) (h2 c (by rw [e]; rfl))
    | cons d x ih =>
      intro y a b e h1 h2 h3 h4
      cases y with
      | nil =>
        simp only [List.nil_append, List.cons_append] at e
        exact absurd (h1 d (by simp)) (h4 d (by rw [← e]; rfl))
      | cons c y =>
        simp only [List.cons_append, List.cons.injEq] at e
        exact ih y a b e.2 (fun c hc => h1 c (List.mem_cons_of_mem _ hc)) h2 (fun c hc => h3 c (List.mem_cons_of_mem _ hc)) h4
  exact key x y a b (hx.symm.trans hy) h1 h2 h3 h4

/-- "  " (two blanks) -/
def strBlanks : Str := ⟨2, 2, [32, 32, 0]⟩
theorem blanks_repr : Repr strBlanks [32, 32] :=
  ⟨by intro c hc; simp at hc; unfold CodePoint; omega, rfl, rfl, rfl, by decide⟩

/-- Stripping a string of blanks on the right gives a string that claims to have no character
but holds one: `"  ".rstrip()` and `"  ".strip()`. -/
theorem C12_refuted_all_stripped : rstrip strBlanks none = .ok ⟨0, 1, [32, 0]⟩ ∧
    strip strBlanks none = .ok ⟨0, 1, [32, 0]⟩ ∧ (∀ t, ¬ Repr ⟨0, 1, [32, 0]⟩ t) ∧
    eq ⟨0, 1, [32, 0]⟩ nullStr = .ok false := by
  refine ⟨by decide, by decide, ?_, by decide⟩
  intro t h
  have h1 := h.nc
  have h2 := h.nb
  simp only at h1 h2
  have : t = [] := List.length_eq_zero_iff.1 (by omega)
  subst this
  simp at h2

example : lstrip ⟨3, 3, [32, 97, 32, 0]⟩ none = .ok ⟨2, 2, [97, 32, 0]⟩ := by decide
example : strip ⟨3, 3, [32, 97, 32, 0]⟩ none = .ok ⟨1, 1, [97, 0]⟩ := by decide
example : ∃ c ∈ [32, 97, 32], c ∉ [32, 9, 10, 13, 11, 12] := ⟨97, by decide, by decide⟩

/-! ## C13 -/

/-- The comparison loop of `startswith`/`endswith` at offset `p` of a zero-terminated buffer. -/
theorem prefixLoop_spec (w : List Nat) : ∀ (n p q : Nat) (pat : List Nat),
    (pat.drop q).take n = pat.drop q → q ≤ pat.length → n = pat.length - q → p ≤ w.length →
    prefixLoop (w ++ [0]) (pat ++ [0]) n p q = .ok (decide (pat.drop q <+: w.drop p ∧ 0 ∉ pat.drop q)) := by
  intro n
  induction n with
  | zero =>
    intro p q pat _ hq hn _
    have : pat.drop q = [] := List.drop_of_length_le (by omega)
    simp [prefixLoop, this]
  | succ n ih =>
    intro p q pat h1 hq hn hp
    have hql : q < pat.length := by omega
    have g2 : (pat ++ [0])[q]? = some pat[q] := by
      rw [List.getElem?_append_left hql, List.getElem?_eq_getElem hql]
    unfold prefixLoop
    rw [List.drop_eq_getElem_cons hql]
    by_cases hpw : p < w.length
    · have g1 : (w ++ [0])[p]? = some w[p] := by
        rw [List.getElem?_append_left hpw, List.getElem?_eq_getElem hpw]
      rw [getB_some g1, Res.ok_bind, List.drop_eq_getElem_cons hpw]
      by_cases hz : w[p] = 0
      · rw [if_pos hz]
        have : ¬ (pat[q] :: pat.drop (q + 1) <+: w[p] :: w.drop (p + 1) ∧ 0 ∉ pat[q] :: pat.drop (q + 1)) := by
          rintro ⟨h2, h3⟩
          rw [List.cons_prefix_cons] at h2
          apply h3
          rw [h2.1, hz]; simp
        rw [decide_eq_false this]; rfl
      · rw [if_neg hz, getB_some g2, Res.ok_bind]
        by_cases he : w[p] = pat[q]
        · rw [if_neg (by simpa using he), ← Int.natCast_succ, ← Int.natCast_succ,
            ih (p + 1) (q + 1) pat (List.take_of_length_le (by rw [List.length_drop]; omega)) (by omega) (by omega) (by omega)]
          congr 1
          rw [decide_eq_decide, List.cons_prefix_cons]
          constructor
          · rintro ⟨h2, h3⟩
            refine ⟨⟨he.symm, h2⟩, ?_⟩
            simp only [List.mem_cons, not_or]
            exact ⟨by rw [← he]; exact fun h => hz h.symm, h3⟩
          · rintro ⟨⟨-, h2⟩, h3⟩
            simp only [List.mem_cons, not_or] at h3
            exact ⟨h2, h3.2⟩
        · rw [if_pos he]
          have : ¬ (pat[q] :: pat.drop (q + 1) <+: w[p] :: w.drop (p + 1) ∧ 0 ∉ pat[q] :: pat.drop (q + 1)) := by
            rintro ⟨h2, h3⟩
            rw [List.cons_prefix_cons] at h2
            exact he h2.1.symm
          rw [decide_eq_false this]; rfl
    · have hpe : p = w.length := by omega
      have g1 : (w ++ [0])[p]? = some 0 := by
        rw [List.getElem?_append_right (by omega), hpe]; simp
      rw [getB_some g1, Res.ok_bind, if_pos rfl]
      have hd : w.drop p = [] := List.drop_of_length_le (by omega)
      have : ¬ (pat[q] :: pat.drop (q + 1) <+: ([] : List Nat) ∧ 0 ∉ pat[q] :: pat.drop (q + 1)) := by
        rintro ⟨h2, -⟩
        have := h2.length_le
        rw [List.length_cons, List.length_nil] at this
        omega
      rw [hd, decide_eq_false this]; rfl

theorem zero_mem_enc {t : List Nat} : 0 ∈ enc t ↔ 0 ∈ t := by
  unfold enc
  rw [List.mem_flatMap]
  constructor
  · rintro ⟨c, hc, h0⟩
    rcases enc1_cases c with ⟨_, e⟩ | ⟨_, _, e⟩ | ⟨_, _, e⟩ | ⟨_, e⟩ <;> rw [e] at h0 <;> simp at h0 <;>
      first | (rw [← h0] at hc; exact hc) | omega
  · intro h; exact ⟨0, h, by decide⟩

theorem enc_prefix_iff {p t : List Nat} (hp : ∀ c ∈ p, CodePoint c) (ht : ∀ c ∈ t, CodePoint c) :
    enc p <+: enc t ↔ p <+: t := by
  constructor
  · rintro ⟨x, hx⟩
    obtain ⟨u, hu, -⟩ := enc_prefix p t hp ht x hx.symm
    exact ⟨u, hu.symm⟩
  · rintro ⟨u, rfl⟩
    exact ⟨enc u, (enc_append p u).symm⟩

/-- C13: `s.startswith(p)` iff `s = p + u` for some `u`, for all strings, where `p` has no NUL
character. It never reads outside the two strings (whether or not there are NULs). -/
theorem C13_startswith_partial {s sub : Str} {t p : List Nat} (h : Repr s t) (hp : Repr sub p) :
    ∃ r, startswith s sub none none = .ok r ∧ (0 ∉ p → (r = true ↔ ∃ u, t = p ++ u)) := by
  have h0 := h.skip0 (k := 0) (by omega)
  simp only [Int.natCast_zero] at h0
  have key := prefixLoop_spec (enc t) (enc p).length 0 0 (enc p) (by simp) (by omega) (by omega) (by omega)
  simp only [List.drop_zero, Int.natCast_zero] at key
  refine ⟨decide (enc p <+: enc t ∧ 0 ∉ enc p), ?_, ?_⟩
  · unfold startswith
    rw [fix_default]
    simp only
    rw [h0, Res.ok_bind, off_zero, h.buf, hp.buf, hp.nb, Int.toNat_natCast]
    exact key
  · intro hz
    rw [decide_eq_true_iff, enc_prefix_iff hp.cp h.cp, zero_mem_enc]
    constructor
    · rintro ⟨⟨u, hu⟩, -⟩; exact ⟨u, hu.symm⟩
    · rintro ⟨u, hu⟩; exact ⟨⟨u, hu.symm⟩, hz⟩

/-- C13: `s.endswith(p)` iff `s = u + p` for some `u`, where `p` has no NUL character and is
not longer (in bytes) than `s` (in characters). It never reads outside the two strings. -/
theorem C13_endswith_partial {s sub : Str} {t p : List Nat} (h : Repr s t) (hp : Repr sub p) :
    ∃ r, endswith s sub none none = .ok r ∧
      (0 ∉ p → (enc p).length ≤ t.length → (r = true ↔ ∃ u, t = u ++ p)) := by
  unfold endswith
  rw [fix_default]
  simp only
  by_cases hlen : s.nchars - 0 < sub.nbytes
  · rw [if_pos hlen]
    refine ⟨false, rfl, ?_⟩
    intro _ hl
    rw [h.nc, hp.nb] at hlen; omega
  · rw [if_neg hlen]
    rw [h.nc, hp.nb] at hlen
    have hle := length_le_enc t
    have h1 := h.skip (j := t.length) (k := t.length) (by omega) (by omega)
    rw [off_all t (Nat.le_refl _), ← h.nb] at h1
    rw [h.nc, h1, Res.ok_bind]
    have key := prefixLoop_spec (enc t) (enc p).length ((enc t).length - (enc p).length) 0 (enc p) (by simp) (by omega) (by omega) (by omega)
    simp only [List.drop_zero, Int.natCast_zero] at key
    rw [h.buf, hp.buf, h.nb, hp.nb, Int.toNat_natCast,
      show ((enc t).length : Int) - (enc p).length = (((enc t).length - (enc p).length : Nat) : Int) by omega]
    refine ⟨_, key, ?_⟩
    intro hz _
    rw [decide_eq_true_iff, zero_mem_enc]
    constructor
    · rintro ⟨h2, -⟩
      by_cases hpe : p = []
      · exact ⟨t, by rw [hpe, List.append_nil]⟩
      have hdl : ((enc t).drop ((enc t).length - (enc p).length)).length = (enc p).length := by
        rw [List.length_drop]; omega
      have heq := h2.eq_of_length (by rw [hdl])
      have hocc : OccursAt (enc t) (enc p) ((enc t).length - (enc p).length) := by
        refine ⟨by omega, ?_⟩
        rw [← heq, List.take_length]
      obtain ⟨k, hk, ho⟩ := (occurs_enc h.cp hp.cp hpe _).1 hocc
      have hs := occurs_split ho
      have h5 := congrArg (fun l => (enc l).length) hs
      simp only [enc_append, List.length_append] at h5
      have h6 : (enc (t.take k)).length = off t k := rfl
      have h7 : (enc (t.drop (k + p.length))).length = 0 := by omega
      have h8 := length_le_enc (t.drop (k + p.length))
      have h9 : t.drop (k + p.length) = [] := List.length_eq_zero_iff.1 (by omega)
      rw [h9, List.append_nil] at hs
      exact ⟨t.take k, hs⟩
    · rintro ⟨u, rfl⟩
      refine ⟨?_, hz⟩
      rw [enc_append, List.length_append, Nat.add_sub_cancel, List.drop_left]
      exact List.prefix_refl _

/-- `"é".endswith("é")` is false. -/
theorem C13_refuted_endswith : endswith strE strE none none = .ok false := by decide

/-- A string with a NUL character does not start with itself. -/
theorem C13_refuted_nul : ∃ s, Repr s [97, 0] ∧ startswith s s none none = .ok false :=
  ⟨⟨2, 2, [97, 0, 0]⟩, ⟨by intro c hc; simp at hc; unfold CodePoint; omega, rfl, rfl, rfl, by decide⟩, by decide⟩

example : startswith strAEB ⟨2, 3, [97, 0xC3, 0xA9, 0]⟩ none none = .ok true := by decide
example : endswith strAEB ⟨2, 3, [0xC3, 0xA9, 98, 0]⟩ none none = .ok true := by decide
example : 0 ∉ [233, 98] ∧ (enc [233, 98]).length ≤ [97, 233, 98].length := by decide

end Verif.Str
