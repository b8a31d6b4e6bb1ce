import Verif.Str.Spec
import Verif.Search.Props
/-!
# Lemmas about the `str` helpers
-/
namespace Verif.Str
open Verif Verif.Search

theorem zero_cp : ∀ {t : List Nat}, (∀ c ∈ t, CodePoint c) → ∀ c ∈ t ++ [0], CodePoint c := by
  intro t h c hc
  rcases List.mem_append.1 hc with h' | h'
  · exact h c h'
  · rw [List.mem_singleton.1 h']; unfold CodePoint; omega

theorem enc_zero (t : List Nat) : enc (t ++ [0]) = enc t ++ [0] := by
  rw [enc_append]; rfl

theorem off_append {t : List Nat} {k : Nat} (h : k ≤ t.length) (u : List Nat) : off (t ++ u) k = off t k := by
  unfold off; rw [List.take_append_of_le_length h]

theorem getB_some {b : List Nat} {i : Nat} {x : Nat} (h : b[i]? = some x) : getB b (i : Int) = .ok x := by
  unfold getB
  rw [if_neg (by omega)]
  simp [h]

theorem skipFwd_spec {u : List Nat} (hu : ∀ c ∈ u, CodePoint c) : ∀ n j, j + n ≤ u.length →
    skipFwd (enc u) n (off u j : Nat) = .ok ((off u (j + n) : Nat) : Int) := by
  intro n
  induction n with
  | zero => intro j _; rfl
  | succ n ih =>
    intro j h
    obtain ⟨b, hb, -, hl, -⟩ := lead_at hu (k := j) (by omega)
    unfold skipFwd
    rw [getB_some hb, Res.ok_bind, hl, ← Int.natCast_add, ← off_succ (by omega), ih (j + 1) (by omega),
      show j + 1 + n = j + (n + 1) by omega]

theorem settle_spec {u : List Nat} (hu : ∀ c ∈ u, CodePoint c) {j : Nat} (hj : j < u.length) :
    ∀ p, off u j ≤ p → p < off u (j + 1) → settle (enc u) p = .ok ((off u j : Nat) : Int) := by
  obtain ⟨b, hb, hnc, -⟩ := lead_at hu hj
  have hnc' : ¬ b / 64 = 2 := by unfold Cont at hnc; omega
  intro p
  induction p with
  | zero =>
    intro h1 h2
    have h0 : off u j = 0 := by omega
    rw [h0] at hb ⊢
    unfold settle
    rw [show (0 : Int) = ((0 : Nat) : Int) from rfl, getB_some hb, Res.ok_bind, if_neg hnc']; rfl
  | succ p ih =>
    intro h1 h2
    unfold settle
    by_cases he : off u j = p + 1
    · rw [he] at hb
      rw [getB_some hb, Res.ok_bind, if_neg hnc', he]; rfl
    · obtain ⟨c, hc, hcc⟩ := cont_in hu hj (i := p + 1) (by omega) h2
      have : c / 64 = 2 := by unfold Cont at hcc; omega
      rw [getB_some hc, Res.ok_bind, if_pos this]
      exact ih (by omega) (by omega)

theorem skipBack_spec {u : List Nat} (hu : ∀ c ∈ u, CodePoint c) : ∀ n j, n ≤ j → j ≤ u.length →
    skipBack (enc u) n (off u j : Nat) = .ok ((off u (j - n) : Nat) : Int) := by
  intro n
  induction n with
  | zero => intro j _ _; rfl
  | succ n ih =>
    intro j h hj
    have hlt := off_lt (t := u) (j := j - 1) (k := j) (by omega) hj
    have hsucc : off u (j - 1 + 1) = off u j := by rw [show j - 1 + 1 = j by omega]
    unfold skipBack
    rw [if_neg (by omega), show ((off u j : Nat) : Int) - 1 = ((off u j - 1 : Nat) : Int) by omega, Int.toNat_natCast,
      settle_spec hu (j := j - 1) (by omega) _ (by omega) (by omega), Res.ok_bind,
      ih (j - 1) (by omega) (by omega), show j - 1 - n = j - (n + 1) by omega]

namespace Repr
variable {s : Str} {t : List Nat}

theorem buf' (h : Repr s t) : s.buf = enc (t ++ [0]) := by rw [h.buf, enc_zero]
theorem cp' (h : Repr s t) : ∀ c ∈ t ++ [0], CodePoint c := zero_cp h.cp
theorem len_lt (h : Repr s t) : t.length < 2^31 := by
  have := h.small; have := length_le_enc t; omega

theorem ascii (h : Repr s t) (ha : s.isascii = true) : ∀ k, k ≤ t.length → off t k = k := by
  unfold Str.isascii at ha
  have := h.nc; have := h.nb
  apply ascii_off
  have : s.nchars = s.nbytes := by simpa using ha
  omega

/-- `skip_chars` moves between code point boundaries. -/
theorem skip (h : Repr s t) {j k : Nat} (hj : j ≤ t.length) (hk : k ≤ t.length) :
    skipChars s.buf (off t j : Nat) ((k : Int) - j) s.isascii = .ok ((off t k : Nat) : Int) := by
  have hl := h.len_lt
  unfold skipChars
  by_cases ha : s.isascii = true
  · rw [if_pos ha, h.ascii ha j hj, h.ascii ha k hk]; congr 1; omega
  · rw [if_neg ha, h.buf']
    by_cases hp : (k : Int) - j ≥ 0
    · rw [if_pos hp]
      have := skipFwd_spec h.cp' (k - j) j (by rw [List.length_append]; simp; omega)
      rw [off_append hj, show j + (k - j) = k by omega, off_append hk] at this
      rw [show ((k : Int) - j).toNat = k - j by omega, this]
    · rw [if_neg hp]
      have := skipBack_spec h.cp' (j - k) j (by omega) (by rw [List.length_append]; omega)
      rw [off_append hj, show j - (j - k) = k by omega, off_append hk] at this
      rw [wrap32_of_in (by unfold InI32; omega), show (-((k : Int) - j)).toNat = j - k by omega, this]

theorem skip0 (h : Repr s t) {k : Nat} (hk : k ≤ t.length) :
    skipChars s.buf 0 (k : Int) s.isascii = .ok ((off t k : Nat) : Int) := by
  have := h.skip (j := 0) (k := k) (by omega) hk
  rw [off_zero] at this
  simpa using this

theorem charNoLoop_spec (h : Repr s t) {k : Nat} (hk : k ≤ t.length) : ∀ f j, j ≤ k → off t k - off t j < f →
    charNoLoop s.buf (off t k : Nat) f (off t j : Nat) j = .ok (k : Int) := by
  intro f
  induction f with
  | zero => intro j _ hf; omega
  | succ f ih =>
    intro j hj hf
    unfold charNoLoop
    by_cases hlt : j < k
    · have h1 := off_lt (t := t) hlt hk
      have h3 := off_lt (t := t) (j := j) (k := j + 1) (by omega) (by omega)
      rw [if_pos (by omega)]
      obtain ⟨b, hb, -, hl, -⟩ := lead_at h.cp (k := j) (by omega)
      have hb' : s.buf[off t j]? = some b := by
        rw [h.buf, List.getElem?_append_left ((List.getElem?_eq_some_iff.1 hb).1)]; exact hb
      have h2 := off_mono (t := t) (j := j + 1) (k := k) (by omega)
      rw [getB_some hb', Res.ok_bind, hl, ← Int.natCast_add, ← off_succ (by omega), ← Int.natCast_succ]
      exact ih (j + 1) (by omega) (by omega)
    · have : j = k := by omega
      subst this
      rw [if_neg (by omega)]

theorem charNo_spec (h : Repr s t) {k : Nat} (hk : k ≤ t.length) : charNo s (off t k : Nat) = .ok (k : Int) := by
  unfold charNo
  by_cases ha : s.nbytes = s.nchars
  · rw [if_pos ha, h.ascii (by unfold Str.isascii; simp [ha]) k hk]
  · rw [if_neg ha]
    exact h.charNoLoop_spec hk _ 0 (by omega) (by rw [off_zero]; omega)

/-- Copying between two code point boundaries. -/
theorem copy_spec (h : Repr s t) {j k : Nat} (hj : j ≤ k) :
    copy s.buf (off t j : Nat) ((off t k : Int) - off t j) = .ok (enc ((t.drop j).take (k - j))) := by
  have h1 := off_mono (t := t) hj
  have h2 := off_le_len t k
  unfold copy
  rw [if_pos (by rw [h.buf, List.length_append]; simp; omega)]
  rw [Int.toNat_natCast, show ((off t k : Int) - off t j).toNat = off t k - off t j by omega]
  rw [h.buf, List.drop_append_of_le_length (by omega), enc_drop, List.take_append_of_le_length]
  · rw [← enc_take, show off t k = off t j + off (t.drop j) (k - j) by rw [← off_add]; congr 1; omega,
      Nat.add_sub_cancel_left]
  · have := off_add t j (k - j)
    rw [show j + (k - j) = k by omega] at this
    have := off_le_len (t.drop j) (k - j)
    omega

theorem bytes_eq (h : Repr s t) : s.bytes = enc t := by
  unfold Str.bytes
  rw [h.nb, h.buf, Int.toNat_natCast, List.take_left]

end Repr

theorem mkStr_repr {t : List Nat} (hc : ∀ c ∈ t, CodePoint c) (hs : (enc t).length < 2^31) {a b : Int}
    (ha : a = t.length) (hb : b = (enc t).length) :
    ∃ r, mkStr a b (enc t) = .ok r ∧ Repr r t := by
  subst ha; subst hb
  have := length_le_enc t
  refine ⟨⟨t.length, (enc t).length, enc t ++ [0]⟩, ?_, hc, rfl, rfl, rfl, hs⟩
  unfold mkStr
  rw [if_pos ⟨by omega, rfl⟩]

theorem null_repr : Repr nullStr [] := ⟨by simp, rfl, rfl, rfl, by simp⟩

/-- Occurrences within a window. -/
theorem occursAt_window {t p : List Nat} {lo hi k : Nat} (h : lo ≤ hi) (hh : hi ≤ t.length) :
    OccursAt ((t.drop lo).take (hi - lo)) p k ↔ OccursIn t p lo hi (lo + k) := by
  have hlen : ((t.drop lo).take (hi - lo)).length = hi - lo := by
    rw [List.length_take, List.length_drop]; omega
  unfold OccursIn OccursAt
  rw [hlen]
  have key : lo + k + p.length ≤ hi →
      (((t.drop lo).take (hi - lo)).drop k).take p.length = (t.drop (lo + k)).take p.length := by
    intro hk
    rw [List.drop_take, List.take_take, List.drop_drop, Nat.min_eq_left (by omega)]
  constructor
  · rintro ⟨h1, h2⟩
    rw [key (by omega)] at h2
    exact ⟨by omega, by omega, by omega, h2⟩
  · rintro ⟨-, h1, h3, h2⟩
    rw [key (by omega)]
    exact ⟨by omega, h2⟩

theorem isFirst_window {t p : List Nat} {lo hi : Nat} (h : lo ≤ hi) (hh : hi ≤ t.length) {r : Int} :
    (IsFirst ((t.drop lo).take (hi - lo)) p r → FirstIn t p lo hi (if r < 0 then -1 else lo + r)) := by
  rintro (⟨i, rfl, h1, h2⟩ | ⟨rfl, h1⟩)
  · rw [if_neg (by omega)]
    refine Or.inl ⟨lo + i, by omega, (occursAt_window h hh).1 h1, ?_⟩
    intro j hj ho
    apply h2 (j - lo) (by have := ho.1; omega)
    rw [occursAt_window h hh, show lo + (j - lo) = j by have := ho.1; omega]
    exact ho
  · rw [if_pos (by omega)]
    refine Or.inr ⟨rfl, fun j ho => h1 (j - lo) ?_⟩
    rw [occursAt_window h hh, show lo + (j - lo) = j by have := ho.1; omega]
    exact ho

theorem isLast_window {t p : List Nat} {lo hi : Nat} (h : lo ≤ hi) (hh : hi ≤ t.length) {r : Int} :
    (IsLast ((t.drop lo).take (hi - lo)) p r → LastIn t p lo hi (if r < 0 then -1 else lo + r)) := by
  rintro (⟨i, rfl, h1, h2⟩ | ⟨rfl, h1⟩)
  · rw [if_neg (by omega)]
    refine Or.inl ⟨lo + i, by omega, (occursAt_window h hh).1 h1, ?_⟩
    intro j hj ho
    apply h2 (j - lo) (by have := ho.1; omega)
    rw [occursAt_window h hh, show lo + (j - lo) = j by have := ho.1; omega]
    exact ho
  · rw [if_pos (by omega)]
    refine Or.inr ⟨rfl, fun j ho => h1 (j - lo) ?_⟩
    rw [occursAt_window h hh, show lo + (j - lo) = j by have := ho.1; omega]
    exact ho

theorem firstIn_all {t p : List Nat} {r : Int} : FirstIn t p 0 t.length r ↔ IsFirst t p r := by
  have : ∀ k, OccursIn t p 0 t.length k ↔ OccursAt t p k := fun k =>
    ⟨fun h => h.2.2, fun h => ⟨by omega, h.1, h⟩⟩
  unfold FirstIn IsFirst
  simp only [this]

theorem lastIn_all {t p : List Nat} {r : Int} : LastIn t p 0 t.length r ↔ IsLast t p r := by
  have : ∀ k, OccursIn t p 0 t.length k ↔ OccursAt t p k := fun k =>
    ⟨fun h => h.2.2, fun h => ⟨by omega, h.1, h⟩⟩
  unfold LastIn IsLast
  simp only [this]

theorem window_cp {t : List Nat} (h : ∀ c ∈ t, CodePoint c) (j n : Nat) : ∀ c ∈ (t.drop j).take n, CodePoint c :=
  mem_take (mem_drop h j) n

/-- Search within a window of code points. -/
theorem searchAt_bmh {s sub : Str} {t p : List Nat} (h : Repr s t) (hp : Repr sub p)
    (hmax : (s.nbytes : Int) + sub.nbytes < 2^31) {j k : Nat} (hjk : j ≤ k) (hk : k ≤ t.length) :
    ∃ r : Int, IsFirst ((t.drop j).take (k - j)) p r ∧ (r = -1 ∧
      searchAt bmh s.buf (off t j : Nat) ((off t k : Int) - off t j) sub.bytes = .ok (-1) ∨
      ∃ i : Nat, r = i ∧ j + i ≤ k ∧
      searchAt bmh s.buf (off t j : Nat) ((off t k : Int) - off t j) sub.bytes = .ok ((off t (j + i) : Int) - off t j)) := by
  have h1 := off_mono (t := t) hjk
  have h2 := off_le_len t k
  have e : searchAt bmh s.buf (off t j : Nat) ((off t k : Int) - off t j) sub.bytes =
      bmh (enc ((t.drop j).take (k - j))) (enc p) := by
    unfold searchAt
    rw [if_neg (by omega), h.copy_spec hjk, Res.ok_bind, hp.bytes_eq]
  have hlen : (enc ((t.drop j).take (k - j))).length ≤ (enc t).length := by
    have := off_le_len (t.drop j) (k - j)
    unfold off at this
    have h5 := enc_drop t j
    have h6 := congrArg List.length h5
    rw [List.length_drop] at h6
    omega
  obtain ⟨r, hr, hf⟩ := C09_bmh_partial (enc ((t.drop j).take (k - j))) (enc p) (by
    rw [h.nb, hp.nb] at hmax; omega)
  rcases first_enc (window_cp h.cp j (k - j)) hp.cp hf with ⟨rfl, hf'⟩ | ⟨i, hi, rfl, hf'⟩
  · exact ⟨-1, hf', Or.inl ⟨rfl, by rw [e, hr]⟩⟩
  · rw [List.length_take, List.length_drop] at hi
    refine ⟨i, hf', Or.inr ⟨i, rfl, by omega, ?_⟩⟩
    rw [e, hr]
    have h7 := off_add t j i
    have h8 : off ((t.drop j).take (k - j)) i = off (t.drop j) i := by
      unfold off; rw [List.take_take, Nat.min_eq_left (by omega)]
    rw [h8]; congr 1; omega

theorem searchAt_rbmh {s sub : Str} {t p : List Nat} (h : Repr s t) (hp : Repr sub p)
    {j k : Nat} (hjk : j ≤ k) (hk : k ≤ t.length) :
    ∃ r : Int, IsLast ((t.drop j).take (k - j)) p r ∧ (r = -1 ∧
      searchAt rbmh s.buf (off t j : Nat) ((off t k : Int) - off t j) sub.bytes = .ok (-1) ∨
      ∃ i : Nat, r = i ∧ j + i ≤ k ∧
      searchAt rbmh s.buf (off t j : Nat) ((off t k : Int) - off t j) sub.bytes = .ok ((off t (j + i) : Int) - off t j)) := by
  have h1 := off_mono (t := t) hjk
  have h2 := off_le_len t k
  have e : searchAt rbmh s.buf (off t j : Nat) ((off t k : Int) - off t j) sub.bytes =
      rbmh (enc ((t.drop j).take (k - j))) (enc p) := by
    unfold searchAt
    rw [if_neg (by omega), h.copy_spec hjk, Res.ok_bind, hp.bytes_eq]
  have hlen : (enc ((t.drop j).take (k - j))).length ≤ (enc t).length := by
    have := off_le_len (t.drop j) (k - j)
    unfold off at this
    have h5 := enc_drop t j
    have h6 := congrArg List.length h5
    rw [List.length_drop] at h6
    omega
  obtain ⟨r, hr, hf⟩ := C09_rbmh (enc ((t.drop j).take (k - j))) (enc p) (by
    have := h.small; omega)
  rcases last_enc (window_cp h.cp j (k - j)) hp.cp hf with ⟨rfl, hf'⟩ | ⟨i, hi, rfl, hf'⟩
  · exact ⟨-1, hf', Or.inl ⟨rfl, by rw [e, hr]⟩⟩
  · rw [List.length_take, List.length_drop] at hi
    refine ⟨i, hf', Or.inr ⟨i, rfl, by omega, ?_⟩⟩
    rw [e, hr]
    have h7 := off_add t j i
    have h8 : off ((t.drop j).take (k - j)) i = off (t.drop j) i := by
      unfold off; rw [List.take_take, Nat.min_eq_left (by omega)]
    rw [h8]; congr 1; omega

theorem fixStart_bounds {n : Nat} {a : Option Int} {x : Int} (h : fixStart (n : Int) a = some x) :
    0 ≤ x ∧ x ≤ n := by
  cases a with
  | none => simp [fixStart] at h; omega
  | some v =>
    unfold fixStart at h
    simp only at h
    by_cases h1 : wrap32 v > n
    · rw [if_pos h1] at h; cases h
    · rw [if_neg h1] at h
      injection h with h
      subst h
      by_cases h2 : wrap32 v < 0
      · rw [if_pos h2]; split <;> omega
      · rw [if_neg h2, if_neg h2]; omega

theorem fixEnd_bounds (n : Nat) (b : Option Int) : 0 ≤ fixEnd (n : Int) b ∧ fixEnd (n : Int) b ≤ n := by
  cases b with
  | none => simp [fixEnd]
  | some v =>
    unfold fixEnd
    simp only
    by_cases h1 : wrap32 v > n
    · rw [if_pos h1, if_neg (by omega)]; omega
    · rw [if_neg h1]
      by_cases h2 : wrap32 v < 0
      · rw [if_pos h2]; split <;> omega
      · rw [if_neg h2, if_neg h2]; omega

/-- `fix_start_end` always delivers positions within the string. -/
theorem fix_bounds {n : Nat} {a b : Option Int} {x y : Int} (h : fixStartEnd (n : Int) a b = some (x, y)) :
    ∃ i j : Nat, x = i ∧ y = j ∧ i ≤ n ∧ j ≤ n := by
  unfold fixStartEnd at h
  rw [Option.map_eq_some_iff] at h
  obtain ⟨s, h1, h2⟩ := h
  have := fixStart_bounds h1
  have := fixEnd_bounds n b
  obtain ⟨rfl, rfl⟩ := Prod.mk.inj h2
  exact ⟨s.toNat, (fixEnd (n : Int) b).toNat, by omega, by omega, by omega, by omega⟩

theorem fix_default (n : Int) : fixStartEnd n none none = some (0, n) := rfl

end Verif.Str
