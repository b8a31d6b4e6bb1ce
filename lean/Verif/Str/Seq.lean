import Verif.Str.Strip
import Verif.Slice.Lemmas
/-!
# C11 and C36: strings as sequences of code points; comparison
-/
namespace Verif.Str
open Verif Verif.Search

/-- C11: `len(s)` is the number of code points. -/
theorem C11_len {s : Str} {t : List Nat} (h : Repr s t) : s.nchars = t.length := h.nc

/-- The one-character string at a position. -/
theorem mkChar_spec {s : Str} {t : List Nat} (h : Repr s t) {k : Nat} (hk : k < t.length) :
    ∃ r, mkChar s.buf (off t k : Nat) = .ok r ∧ Repr r [t[k]] := by
  obtain ⟨b, hb, hl, -⟩ := h.lead hk
  obtain ⟨w, r, e1, e2, hr⟩ := h.sub (j := k) (k := k + 1) (by omega) (by omega)
  have h1 := off_succ hk
  rw [show ((off t (k + 1) : Nat) : Int) - (off t k : Nat) = ((enc1 t[k]).length : Int) by omega] at e1 e2
  rw [show ((k + 1 : Nat) : Int) - k = 1 by omega] at e2
  rw [Nat.add_sub_cancel_left, List.drop_eq_getElem_cons hk, List.take_succ_cons, List.take_zero] at hr
  refine ⟨r, ?_, hr⟩
  unfold mkChar
  rw [hb, Res.ok_bind, hl, e1, Res.ok_bind, e2]

/-- C11: `s[i]` is the `i`-th code point for `0 ≤ i < len`, the `len+i`-th for `-len ≤ i < 0`,
and `IndexError` otherwise, for all indices that fit in an `int`. Missing: larger indices
(see the refutation). -/
theorem C11_getitem_partial {s : Str} {t : List Nat} (h : Repr s t) (i : Int) (hi : InI32 i) :
    (∃ k r, ∃ hk : k < t.length, ((i = k) ∨ (i < 0 ∧ i + t.length = k)) ∧ getitem s i = .ok r ∧ Repr r [t[k]]) ∨
    ((i < -(t.length : Int) ∨ (t.length : Int) ≤ i) ∧ getitem s i = .raise .indexError) := by
  unfold getitem getIndex
  simp only
  rw [wrap32_of_in hi, h.nc]
  have fin : ∀ k : Nat, k < t.length → ∃ r, (do
      let p ← skipChars s.buf 0 (k : Int) s.isascii
      mkChar s.buf p) = .ok r ∧ ∃ hk : k < t.length, Repr r [t[k]] := by
    intro k hk
    obtain ⟨r, e, hr⟩ := mkChar_spec h hk
    rw [h.skip0 (by omega), Res.ok_bind]
    exact ⟨r, e, hk, hr⟩
  by_cases h0 : i ≥ 0
  · rw [if_pos h0]
    by_cases h1 : i < t.length
    · rw [if_pos h1, Res.ok_bind]
      obtain ⟨r, e, hk, hr⟩ := fin i.toNat (by omega)
      rw [Int.toNat_of_nonneg h0] at e
      exact Or.inl ⟨i.toNat, r, hk, Or.inl (by omega), e, hr⟩
    · rw [if_neg h1]
      exact Or.inr ⟨by omega, rfl⟩
  · rw [if_neg h0]
    by_cases h1 : i ≥ -(t.length : Int)
    · rw [if_pos h1, Res.ok_bind]
      obtain ⟨r, e, hk, hr⟩ := fin (t.length + i).toNat (by omega)
      rw [Int.toNat_of_nonneg (by omega)] at e
      exact Or.inl ⟨(t.length + i).toNat, r, hk, Or.inr (by omega), e, hr⟩
    · rw [if_neg h1]
      exact Or.inr ⟨by omega, rfl⟩

/-- An index is truncated to 32 bits: `"abc"[2**32]` is `"a"` instead of an `IndexError`. -/
theorem C11_refuted_index : getitem strABC (2^32) = .ok ⟨1, 1, [97, 0]⟩ := by decide

theorem iterate_spec {s : Str} {t : List Nat} (h : Repr s t) (hz : 0 ∉ t) : ∀ f k, k ≤ t.length → t.length - k < f →
    ∃ rs, iterate s f (off t k : Nat) = .ok rs ∧ Reprs rs ((t.drop k).map (fun c => [c])) := by
  intro f
  induction f with
  | zero => intro k _ hf; omega
  | succ f ih =>
    intro k hk hf
    unfold iterate next
    by_cases hlt : k < t.length
    · obtain ⟨b, hb, hl, hbz⟩ := h.lead hlt
      have hb0 : b ≠ 0 := by
        rw [Ne, hbz]; intro h0; apply hz; rw [← h0]; exact List.getElem_mem hlt
      obtain ⟨r, e, hr⟩ := mkChar_spec h hlt
      rw [hb, Res.ok_bind, if_pos hb0, e, Res.ok_bind, hl, ← Int.natCast_add, ← off_succ hlt]
      obtain ⟨rs, e2, hrs⟩ := ih (k + 1) (by omega) (by omega)
      refine ⟨r :: rs, ?_, ?_⟩
      · show (do let r' ← iterate s f (off t (k + 1) : Nat); return r :: r') = _
        rw [e2]; rfl
      · rw [List.drop_eq_getElem_cons hlt, List.map_cons]
        exact .cons hr hrs
    · have hke : k = t.length := by omega
      subst hke
      have g : s.buf[off t t.length]? = some 0 := by
        rw [off_all t (Nat.le_refl _), h.buf, List.getElem?_append_right (by omega)]; simp
      rw [getB_some g, Res.ok_bind, if_neg (by simp)]
      refine ⟨[], rfl, ?_⟩
      rw [List.drop_length]; exact .nil

/-- C11: iterating over a string without NUL characters yields its code points in order. -/
theorem C11_iterate_partial {s : Str} {t : List Nat} (h : Repr s t) (hz : 0 ∉ t) :
    ∃ rs, iterate s (t.length + 1) 0 = .ok rs ∧ Reprs rs (t.map (fun c => [c])) := by
  have := iterate_spec h hz (t.length + 1) 0 (by omega) (by omega)
  rw [off_zero, List.drop_zero] at this
  exact this

/-- More fuel changes nothing: the loop over the string has ended. -/
theorem C11_iterate_terminates {s : Str} {t : List Nat} (h : Repr s t) (hz : 0 ∉ t) (n : Nat) :
    ∃ rs, iterate s (t.length + 1 + n) 0 = .ok rs ∧ Reprs rs (t.map (fun c => [c])) := by
  have := iterate_spec h hz (t.length + 1 + n) 0 (by omega) (by omega)
  rw [off_zero, List.drop_zero] at this
  exact this

/-- "a\0b": a NUL character ends the iteration early, while `len` and indexing go on. -/
theorem C11_refuted_iterate_nul : ∃ s, Repr s [97, 0, 98] ∧ iterate s 10 0 = .ok [⟨1, 1, [97, 0]⟩] ∧
    getitem s 2 = .ok ⟨1, 1, [98, 0]⟩ :=
  ⟨⟨3, 3, [97, 0, 98, 0]⟩, ⟨by intro c hc; simp at hc; unfold CodePoint; omega, rfl, rfl, rfl, by decide⟩,
    by decide, by decide⟩

/-- The concatenation of the characters is the string. -/
theorem C11_chars_join (t : List Nat) : joinWith [] (t.map (fun c => [c])) = t := by
  induction t with
  | nil => rfl
  | cons c t ih =>
    cases t with
    | nil => rfl
    | cons d t =>
      show [c] ++ [] ++ joinWith [] ((d :: t).map (fun c => [c])) = _
      rw [ih]; rfl

theorem sliceLoop_str {s : Str} {t : List Nat} (h : Repr s t) (step : Int) : ∀ (n : Nat) (k : Int),
    (∀ i : Nat, i < n → 0 ≤ k + i * step ∧ k + i * step < t.length) →
    (s.isascii = true ∨ ∀ i : Nat, i < n → 0 ≤ k + i * step + step ∧ k + i * step + step ≤ t.length + 1) →
    ∃ out, sliceLoop s step n (off t k.toNat : Nat) = .ok (enc out) ∧
      out.map some = (List.range n).map (fun i : Nat => t[(k + i * step).toNat]?) := by
  intro n
  induction n with
  | zero => intro k _ _; exact ⟨[], rfl, rfl⟩
  | succ n ih =>
    intro k hr hs
    have h0 := hr 0 (by omega)
    simp only [Int.natCast_zero, Int.zero_mul, Int.add_zero] at h0
    obtain ⟨j, rfl⟩ : ∃ j : Nat, k = j := ⟨k.toNat, by omega⟩
    have hj : j < t.length := by omega
    have hlen := h.len_lt
    obtain ⟨b, hb, hl, -⟩ := h.lead hj
    have hcp := h.copy_spec (j := j) (k := j + 1) (by omega)
    have h1 := off_succ hj
    rw [show ((off t (j + 1) : Nat) : Int) - (off t j : Nat) = ((enc1 t[j]).length : Int) by omega,
      Nat.add_sub_cancel_left, List.drop_eq_getElem_cons hj, List.take_succ_cons, List.take_zero, enc_singleton] at hcp
    rw [Int.toNat_natCast]
    -- the remaining part of the list
    have hskip : ∃ p, skipChars s.buf ((off t j : Nat) + ((enc1 t[j]).length : Int)) (wrap32 (step - 1)) s.isascii = .ok p ∧
        (0 < n → p = ((off t ((j : Int) + step).toNat : Nat) : Int)) := by
      rw [← Int.natCast_add, ← h1]
      by_cases hn : 0 < n
      · have h2 := hr 1 (by omega)
        simp only [Int.natCast_one, Int.one_mul] at h2
        have := h.skip (j := j + 1) (k := ((j : Int) + step).toNat) (by omega) (by omega)
        rw [show (((((j : Int) + step).toNat : Nat) : Int) - ((j + 1 : Nat) : Int)) = step - 1 by omega] at this
        rw [wrap32_of_in (by unfold InI32; omega), this]
        exact ⟨_, rfl, fun _ => rfl⟩
      · by_cases ha : s.isascii = true
        · unfold skipChars
          rw [if_pos ha]
          exact ⟨_, rfl, fun h => absurd h hn⟩
        · have hs' := hs.resolve_left ha 0 (by omega)
          simp only [Int.natCast_zero, Int.zero_mul, Int.add_zero] at hs'
          rw [wrap32_of_in (by unfold InI32; omega)]
          by_cases hle : (j : Int) + step ≤ t.length
          · have := h.skip (j := j + 1) (k := ((j : Int) + step).toNat) (by omega) (by omega)
            rw [show (((((j : Int) + step).toNat : Nat) : Int) - ((j + 1 : Nat) : Int)) = step - 1 by omega] at this
            rw [this]
            exact ⟨_, rfl, fun h => absurd h hn⟩
          · unfold skipChars
            rw [if_neg ha, if_pos (by omega), h.buf']
            have := skipFwd_spec h.cp' (step - 1).toNat (j + 1) (by simp; omega)
            rw [off_append (by omega)] at this
            rw [this]
            exact ⟨_, rfl, fun h => absurd h hn⟩
    obtain ⟨p, hp, hpn⟩ := hskip
    have hrec : ∃ out, sliceLoop s step n p = .ok (enc out) ∧
        out.map some = (List.range n).map (fun i : Nat => t[((j : Int) + step + i * step).toNat]?) := by
      by_cases hn : 0 < n
      · rw [hpn hn]
        apply ih
        · intro i hi
          have := hr (i + 1) (by omega)
          have e : (j : Int) + ((i + 1 : Nat) : Int) * step = (j : Int) + step + i * step := by
            push_cast; rw [Int.add_mul]; omega
          rw [e] at this; exact this
        · rcases hs with ha | hs
          · exact Or.inl ha
          · right
            intro i hi
            have := hs (i + 1) (by omega)
            have e : (j : Int) + ((i + 1 : Nat) : Int) * step = (j : Int) + step + i * step := by
              push_cast; rw [Int.add_mul]; omega
            rw [e] at this; exact this
      · have : n = 0 := by omega
        subst this
        exact ⟨[], rfl, rfl⟩
    obtain ⟨out, e, he⟩ := hrec
    refine ⟨t[j] :: out, ?_, ?_⟩
    · unfold sliceLoop
      rw [hb, Res.ok_bind, hl, hcp, Res.ok_bind, hp, Res.ok_bind, e]
      rfl
    · rw [List.map_cons, he, List.range_succ_eq_map, List.map_cons, List.map_map]
      congr 1
      · simp [List.getElem?_eq_getElem hj]
      · apply List.map_congr_left
        intro i _
        simp only [Function.comp, Nat.succ_eq_add_one]
        congr 2
        push_cast; rw [Int.add_mul]; omega

/-- Bytes used by the selected code points. -/
def wt : Option Nat → Nat
  | none => 0
  | some c => (enc1 c).length

theorem enc_wt (l : List Nat) : (enc l).length = ((l.map some).map wt).sum := by
  induction l with
  | nil => rfl
  | cons c l ih => rw [enc_cons, List.length_append, ih]; rfl

theorem sum_sublist {a b : List Nat} (h : a.Sublist b) : a.sum ≤ b.sum := by
  induction h with
  | slnil => exact Nat.le_refl _
  | cons x _ ih => rw [List.sum_cons]; omega
  | cons_cons x _ ih => rw [List.sum_cons, List.sum_cons]; omega

theorem sum_rev (l : List Nat) : l.reverse.sum = l.sum := by
  induction l with
  | nil => rfl
  | cons x l ih => rw [List.reverse_cons, List.sum_append, ih, List.sum_cons]; simp; omega

/-- A slice is not longer than the string. -/
theorem slice_size (t out : List Nat) (start stop : Option Int) (step : Int)
    (h : out.map some = (Slice.positions t.length start stop step).map (fun i => t[i]?)) :
    (enc out).length ≤ (enc t).length := by
  have ht : ((List.range t.length).map (fun i => t[i]?)) = t.map some := by
    apply List.ext_getElem?
    intro i
    simp only [List.getElem?_map]
    by_cases hi : i < t.length
    · rw [List.getElem?_range hi]; simp [List.getElem?_eq_getElem hi]
    · rw [List.getElem?_eq_none (by simpa using hi), List.getElem?_eq_none (by omega)]; rfl
  rw [enc_wt, enc_wt, h, ← ht]
  unfold Slice.positions
  by_cases hs : step > 0
  · rw [if_pos hs]
    exact sum_sublist ((List.filter_sublist.map _).map _)
  · rw [if_neg hs]
    have := sum_sublist (((List.filter_sublist (p := fun i : Nat => decide ((i : Int) ≤ min ((t.length : Int) - 1) ((start.map (Slice.fromEnd t.length)).getD (t.length - 1)) ∧
      max (-1) ((stop.map (Slice.fromEnd t.length)).getD (-1)) < i ∧
      (min ((t.length : Int) - 1) ((start.map (Slice.fromEnd t.length)).getD (t.length - 1)) - i) % (-step) = 0)) (l := (List.range t.length).reverse)).map (fun i => t[i]?)).map wt)
    rw [List.map_reverse, List.map_reverse, sum_rev] at this
    exact this

/-- C11: `s[a:b:c]` selects the denoted code points. Missing for the full claim: the cases of
C01 (negative step with a bound below `-len`); and for strings that are not pure ASCII, steps
that lead from a selected position far out of the string (see the refutation). -/
theorem C11_getslice_partial {s : Str} {t : List Nat} (h : Repr s t) (c : Slice.Slc)
    (hneg : c.step.getD 1 < 0 →
      (∀ x ∈ c.start, -(t.length : Int) ≤ x) ∧ (∀ x ∈ c.stop, -(t.length : Int) ≤ x))
    (hnear : (∀ x ∈ t, x < 128) ∨ ∀ k ∈ Slice.positions t.length c.start c.stop (c.step.getD 1),
      0 ≤ (k : Int) + c.step.getD 1 ∧ (k : Int) + c.step.getD 1 ≤ t.length + 1) :
    (c.step.getD 1 = 0 ∧ getslice s c = .raise .valueError) ∨
    ∃ r out, getslice s c = .ok r ∧ Repr r out ∧
      out.map some = (Slice.positions t.length c.start c.stop (c.step.getD 1)).map (fun i => t[i]?) := by
  by_cases h0 : c.step.getD 1 = 0
  · left
    refine ⟨h0, ?_⟩
    unfold getslice Slice.normalizeSlice
    simp [h0]
  right
  obtain ⟨n, hn⟩ : ∃ n, Slice.NormOk t.length c n := by
    by_cases hp : 0 < c.step.getD 1
    · obtain ⟨n, hn, _⟩ := Slice.normalize_pos t.length c hp
      exact ⟨n, hn⟩
    · have hlt : c.step.getD 1 < 0 := by omega
      exact Slice.normalize_neg t.length c hlt (hneg hlt).1 (hneg hlt).2
  unfold getslice
  rw [h.nc, hn.eq, Res.ok_bind]
  by_cases hz : n.slen = 0
  · rw [if_pos hz]
    refine ⟨nullStr, [], rfl, null_repr, ?_⟩
    rw [← hn.step, hn.pos, hz]; rfl
  rw [if_neg hz]
  have hsl := hn.slen
  have h00 := hn.range 0 (by omega)
  simp only [Int.natCast_zero, Int.zero_mul, Int.add_zero] at h00
  have hst := h.skip0 (k := n.start.toNat) (by omega)
  rw [Int.toNat_of_nonneg h00.1] at hst
  rw [hst, Res.ok_bind]
  have hasc : (∀ x ∈ t, x < 128) → s.isascii = true := by
    intro ha
    have : (enc t).length = t.length := by
      clear hst h00 hn hneg hnear h
      induction t with
      | nil => rfl
      | cons c t ih =>
        rw [enc_cons, List.length_append, ih (fun x hx => ha x (List.mem_cons_of_mem _ hx))]
        have := ha c (by simp)
        unfold enc1
        rw [if_pos (by omega), List.length_cons, List.length_cons, List.length_nil]; omega
    unfold Str.isascii
    rw [decide_eq_true_iff, h.nc, h.nb, this]
  obtain ⟨out, e, he⟩ := sliceLoop_str h n.step n.slen.toNat n.start hn.range (by
    rcases hnear with ha | hnear
    · exact Or.inl (hasc ha)
    · right
      intro i hi
      have hr := hn.range i hi
      rw [← hn.step] at hnear
      have := hnear (n.start + i * n.step).toNat (by
        rw [hn.pos, List.mem_map]
        exact ⟨i, by simpa using hi, rfl⟩)
      rw [Int.toNat_of_nonneg hr.1] at this
      exact this)
  have hsel : out.map some = (Slice.positions t.length c.start c.stop (c.step.getD 1)).map (fun i => t[i]?) := by
    rw [he, ← hn.step, hn.pos, List.map_map]; rfl
  have hol : out.length = n.slen.toNat := by
    have := congrArg List.length he
    simpa using this
  have hcp : ∀ x ∈ out, CodePoint x := by
    intro x hx
    have : some x ∈ out.map some := List.mem_map.2 ⟨x, hx, rfl⟩
    rw [he, List.mem_map] at this
    obtain ⟨i, -, hi⟩ := this
    exact h.cp x (List.mem_of_getElem? hi)
  have hsz := slice_size t out _ _ _ hsel
  have hsm := h.small
  rw [e, Res.ok_bind]
  obtain ⟨r, hr, hR⟩ := mkStr_repr hcp (by omega) (a := n.slen) (b := ((enc out).length : Int)) (by omega) rfl
  exact ⟨r, out, hr, hR, hsel⟩

/-- `"aé"[1:3:5]`-like slices: after the last selected character of a non-ASCII string the code
walks on: backwards over the start of the buffer for `"é"[::-1]`, forwards over its end for
`"éa"[::5]`. -/
theorem C11_refuted_slice : getslice strE ⟨none, none, some (-1)⟩ = .ub ∧
    ∃ s, Repr s [233, 97] ∧ getslice s ⟨none, none, some 5⟩ = .ub :=
  ⟨by decide, ⟨2, 3, [0xC3, 0xA9, 97, 0]⟩,
    ⟨by intro c hc; simp at hc; unfold CodePoint; omega, rfl, rfl, by decide, by decide⟩, by decide⟩

example : getslice strAEB ⟨some 1, none, none⟩ = .ok ⟨2, 3, [0xC3, 0xA9, 98, 0]⟩ := by decide
example : ∀ k ∈ Slice.positions 3 (some 1) none 1, 0 ≤ (k : Int) + 1 ∧ (k : Int) + 1 ≤ 3 + 1 := by decide

/-- C11: concatenation. -/
theorem C11_add {s s' : Str} {t t' : List Nat} (h : Repr s t) (h' : Repr s' t')
    (hsize : (enc t).length + (enc t').length < 2^31) : ∃ r, add s s' = .ok r ∧ Repr r (t ++ t') := by
  have l1 := length_le_enc t
  have l2 := length_le_enc t'
  unfold add
  rw [h.bytes_eq, h'.bytes_eq, ← enc_append]
  apply mkStr_repr
  · intro c hc
    rcases List.mem_append.1 hc with hc | hc
    · exact h.cp c hc
    · exact h'.cp c hc
  · rw [enc_len_append]; exact hsize
  · rw [h.nc, h'.nc, wrap32_of_in (by unfold InI32; omega), List.length_append]; omega
  · rw [h.nb, h'.nb, wrap32_of_in (by unfold InI32; omega), enc_len_append]; omega

example : (enc [97, 233]).length + (enc [98]).length < 2^31 := by decide

/-! ## C36: comparison -/

theorem strcmp_common : ∀ (w a b : List Nat), 0 ∉ w → strcmp (w ++ a) (w ++ b) = strcmp a b := by
  intro w
  induction w with
  | nil => intro a b _; rfl
  | cons x w ih =>
    intro a b h
    have hx : x ≠ 0 := fun h0 => h (by rw [h0]; simp)
    rw [List.cons_append, List.cons_append]
    have e : strcmp (x :: (w ++ a)) (x :: (w ++ b)) =
        if x ≠ x then Res.ok (if x < x then -1 else 1) else if x = 0 then Res.ok 0 else strcmp (w ++ a) (w ++ b) := rfl
    rw [e, if_neg (by simp), if_neg hx]
    exact ih a b (fun h0 => h (List.mem_cons_of_mem _ h0))

/-- The bytes of two code points first differ in the direction in which the code points differ. -/
theorem enc1_lt {c d : Nat} (hd : CodePoint d) (h : c < d) :
    ∃ w x y r r', enc1 c = w ++ x :: r ∧ enc1 d = w ++ y :: r' ∧ x < y := by
  unfold CodePoint at hd
  rcases enc1_cases c with ⟨h1, e⟩ | ⟨h1, h2, e⟩ | ⟨h1, h2, e⟩ | ⟨h1, e⟩ <;>
  rcases enc1_cases d with ⟨h1', e'⟩ | ⟨h1', h2', e'⟩ | ⟨h1', h2', e'⟩ | ⟨h1', e'⟩ <;>
  rw [e, e'] <;> (try omega)
  case inl.inl => exact ⟨[], _, _, _, _, rfl, rfl, h⟩
  case inl.inr.inl => exact ⟨[], _, _, _, _, rfl, rfl, by omega⟩
  case inl.inr.inr.inl => exact ⟨[], _, _, _, _, rfl, rfl, by omega⟩
  case inl.inr.inr.inr => exact ⟨[], _, _, _, _, rfl, rfl, by omega⟩
  case inr.inl.inr.inl =>
    by_cases h3 : c / 64 = d / 64
    · rw [h3]; exact ⟨[_], _, _, _, _, rfl, rfl, by omega⟩
    · exact ⟨[], _, _, _, _, rfl, rfl, by omega⟩
  case inr.inl.inr.inr.inl => exact ⟨[], _, _, _, _, rfl, rfl, by omega⟩
  case inr.inl.inr.inr.inr => exact ⟨[], _, _, _, _, rfl, rfl, by omega⟩
  case inr.inr.inl.inr.inr.inl =>
    by_cases h3 : c / 4096 = d / 4096
    · by_cases h4 : c / 64 % 64 = d / 64 % 64
      · rw [h3, h4]; exact ⟨[_, _], _, _, _, _, rfl, rfl, by omega⟩
      · rw [h3]; exact ⟨[_], _, _, _, _, rfl, rfl, by omega⟩
    · exact ⟨[], _, _, _, _, rfl, rfl, by omega⟩
  case inr.inr.inl.inr.inr.inr => exact ⟨[], _, _, _, _, rfl, rfl, by omega⟩
  case inr.inr.inr.inr.inr.inr =>
    by_cases h3 : c / 262144 = d / 262144
    · by_cases h4 : c / 4096 % 64 = d / 4096 % 64
      · by_cases h5 : c / 64 % 64 = d / 64 % 64
        · rw [h3, h4, h5]; exact ⟨[_, _, _], _, _, _, _, rfl, rfl, by omega⟩
        · rw [h3, h4]; exact ⟨[_, _], _, _, _, _, rfl, rfl, by omega⟩
      · rw [h3]; exact ⟨[_], _, _, _, _, rfl, rfl, by omega⟩
    · exact ⟨[], _, _, _, _, rfl, rfl, by omega⟩

theorem enc1_no_zero {c : Nat} (h : c ≠ 0) : 0 ∉ enc1 c := by
  intro h0
  have : 0 ∈ enc [c] := by rw [enc_singleton]; exact h0
  rw [zero_mem_enc] at this
  exact h (List.mem_singleton.1 this).symm

/-- `strcmp` orders the encodings as the code point sequences. -/
theorem strcmp_spec : ∀ (t t' : List Nat), (∀ c ∈ t, CodePoint c) → (∀ c ∈ t', CodePoint c) → 0 ∉ t → 0 ∉ t' →
    ∃ r, strcmp (enc t ++ [0]) (enc t' ++ [0]) = .ok r ∧
      (r = 0 ∧ t = t' ∨ r < 0 ∧ List.Lex (· < ·) t t' ∨ 0 < r ∧ List.Lex (· < ·) t' t) := by
  intro t
  induction t with
  | nil =>
    intro t' _ h' _ hz'
    cases t' with
    | nil => exact ⟨0, rfl, Or.inl ⟨rfl, rfl⟩⟩
    | cons d t' =>
      obtain ⟨b, bs, e, -, -, -, -, hz, -⟩ := enc1_shape (h' d (by simp))
      have hd : d ≠ 0 := fun h0 => hz' (by rw [h0]; simp)
      have hb : b ≠ 0 := by rw [Ne, hz]; exact hd
      rw [enc_cons, e]
      refine ⟨-1, ?_, Or.inr (Or.inl ⟨by omega, .nil⟩)⟩
      show strcmp (0 :: []) (b :: (bs ++ enc t' ++ [0])) = _
      unfold strcmp
      rw [if_pos (by omega), if_pos (by omega)]
  | cons c t ih =>
    intro t' h h' hz hz'
    have hc : c ≠ 0 := fun h0 => hz (by rw [h0]; simp)
    cases t' with
    | nil =>
      obtain ⟨b, bs, e, -, -, -, -, hzb, -⟩ := enc1_shape (h c (by simp))
      have hb : b ≠ 0 := by rw [Ne, hzb]; exact hc
      rw [enc_cons, e]
      refine ⟨1, ?_, Or.inr (Or.inr ⟨by omega, .nil⟩)⟩
      show strcmp (b :: (bs ++ enc t ++ [0])) (0 :: []) = _
      unfold strcmp
      rw [if_pos hb, if_neg (by omega)]
    | cons d t' =>
      have hd : d ≠ 0 := fun h0 => hz' (by rw [h0]; simp)
      rw [enc_cons, enc_cons]
      rcases Nat.lt_trichotomy c d with hlt | heq | hgt
      · obtain ⟨w, x, y, r, r', e1, e2, hxy⟩ := enc1_lt (h' d (by simp)) hlt
        have hw : 0 ∉ w := fun h0 => enc1_no_zero hc (by rw [e1]; simp [h0])
        refine ⟨-1, ?_, Or.inr (Or.inl ⟨by omega, .rel hlt⟩)⟩
        rw [e1, e2]
        simp only [List.append_assoc, List.cons_append]
        rw [strcmp_common w _ _ hw]
        unfold strcmp
        rw [if_pos (by omega), if_pos hxy]
      · subst heq
        obtain ⟨r, e, hr⟩ := ih t' (fun x hx => h x (List.mem_cons_of_mem _ hx))
          (fun x hx => h' x (List.mem_cons_of_mem _ hx)) (fun h0 => hz (List.mem_cons_of_mem _ h0))
          (fun h0 => hz' (List.mem_cons_of_mem _ h0))
        refine ⟨r, ?_, ?_⟩
        · simp only [List.append_assoc]
          rw [strcmp_common _ _ _ (enc1_no_zero hc)]
          exact e
        · rcases hr with ⟨h1, h2⟩ | ⟨h1, h2⟩ | ⟨h1, h2⟩
          · exact Or.inl ⟨h1, by rw [h2]⟩
          · exact Or.inr (Or.inl ⟨h1, .cons h2⟩)
          · exact Or.inr (Or.inr ⟨h1, .cons h2⟩)
      · obtain ⟨w, x, y, r, r', e1, e2, hxy⟩ := enc1_lt (h c (by simp)) hgt
        have hw : 0 ∉ w := fun h0 => enc1_no_zero hd (by rw [e1]; simp [h0])
        refine ⟨1, ?_, Or.inr (Or.inr ⟨by omega, .rel hgt⟩)⟩
        rw [e1, e2]
        simp only [List.append_assoc, List.cons_append]
        rw [strcmp_common w _ _ hw]
        unfold strcmp
        rw [if_pos (by omega), if_neg (by omega)]

theorem lex_irrefl : ∀ t : List Nat, ¬ List.Lex (· < ·) t t := by
  intro t
  induction t with
  | nil => intro h; cases h
  | cons c t ih =>
    intro h
    cases h with
    | rel h => exact Nat.lt_irrefl _ h
    | cons h => exact ih h

theorem lex_asymm : ∀ t u : List Nat, List.Lex (· < ·) t u → ¬ List.Lex (· < ·) u t := by
  intro t
  induction t with
  | nil => intro u h h'; cases h'
  | cons c t ih =>
    intro u h h'
    cases h with
    | rel h =>
      cases h' with
      | rel h'' => exact absurd h (by omega)
      | cons h'' => exact Nat.lt_irrefl _ h
    | cons h =>
      cases h' with
      | rel h'' => exact Nat.lt_irrefl _ h''
      | cons h'' => exact ih _ h h''

/-- C36: `==` on strings without NUL characters holds iff they have the same code points; `<`
is the lexicographic order by code points; `<=` is `<` or `==`. Neither reads outside the
strings. -/
theorem C36_compare_partial {s s' : Str} {t t' : List Nat} (h : Repr s t) (h' : Repr s' t') (hz : 0 ∉ t) (hz' : 0 ∉ t') :
    ∃ e l m, eq s s' = .ok e ∧ lt s s' = .ok l ∧ le s s' = .ok m ∧
      (e = true ↔ t = t') ∧ (l = true ↔ List.Lex (· < ·) t t') ∧
      (m = true ↔ (List.Lex (· < ·) t t' ∨ t = t')) := by
  obtain ⟨r, e, hr⟩ := strcmp_spec t t' h.cp h'.cp hz hz'
  refine ⟨decide (r = 0), decide (r < 0), decide (r ≤ 0), ?_, ?_, ?_, ?_, ?_, ?_⟩
  · unfold eq; rw [h.buf, h'.buf, e]; rfl
  · unfold lt; rw [h.buf, h'.buf, e]; rfl
  · unfold le; rw [h.buf, h'.buf, e]; rfl
  · rw [decide_eq_true_iff]
    rcases hr with ⟨h1, h2⟩ | ⟨h1, h2⟩ | ⟨h1, h2⟩
    · exact ⟨fun _ => h2, fun _ => h1⟩
    · exact ⟨fun h0 => by omega, fun h0 => by subst h0; exact absurd h2 (lex_irrefl _)⟩
    · exact ⟨fun h0 => by omega, fun h0 => by subst h0; exact absurd h2 (lex_irrefl _)⟩
  · rw [decide_eq_true_iff]
    rcases hr with ⟨h1, h2⟩ | ⟨h1, h2⟩ | ⟨h1, h2⟩
    · exact ⟨fun h0 => by omega, fun h0 => by subst h2; exact absurd h0 (lex_irrefl _)⟩
    · exact ⟨fun _ => h2, fun _ => h1⟩
    · exact ⟨fun h0 => by omega, fun h0 => absurd h0 (lex_asymm _ _ h2)⟩
  · rw [decide_eq_true_iff]
    rcases hr with ⟨h1, h2⟩ | ⟨h1, h2⟩ | ⟨h1, h2⟩
    · exact ⟨fun _ => Or.inr h2, fun _ => by omega⟩
    · exact ⟨fun _ => Or.inl h2, fun _ => by omega⟩
    · exact ⟨fun h0 => by omega, fun h0 => by
        rcases h0 with h0 | h0
        · exact absurd h0 (lex_asymm _ _ h2)
        · subst h0; exact absurd h2 (lex_irrefl _)⟩

/-- Strings that differ only after a NUL character are taken for equal. -/
theorem C36_refuted_nul : ∃ s s', Repr s [0, 97] ∧ Repr s' [0, 98] ∧ eq s s' = .ok true :=
  ⟨⟨2, 2, [0, 97, 0]⟩, ⟨2, 2, [0, 98, 0]⟩,
    ⟨by intro c hc; simp at hc; unfold CodePoint; omega, rfl, rfl, rfl, by decide⟩,
    ⟨by intro c hc; simp at hc; unfold CodePoint; omega, rfl, rfl, rfl, by decide⟩, by decide⟩

example : lt strABC strAEB = .ok true := by decide
example : 0 ∉ [97, 233, 98] := by decide

end Verif.Str
