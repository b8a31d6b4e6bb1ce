import Verif.Netstring.Lemmas
/-!
# C17: netstring framing round-trips and is safe on partial input
-/
namespace Verif.Netstring
open Verif

theorem frame_pre (d rest : List Nat) : pre (frame d ++ rest) = decimal d.length := by
  unfold frame
  rw [List.append_assoc, List.append_assoc, List.append_assoc]
  exact pre_append _ (decimal_all _) _ (by intro c hc; simp at hc; subst hc; decide)

theorem decimal_9 {n : Nat} (h : n ≤ 999999999) : (decimal n).length ≤ 9 :=
  decimal_length_le 8 n (by simp only [Nat.reduceAdd, Nat.reducePow]; omega)

/-- Reading a framed message followed by anything returns exactly the payload and leaves
exactly what follows. -/
theorem C17_roundtrip (d rest : List Nat) (h : d.length ≤ 999999999) :
    ∃ m, read (frame d ++ rest) = .ok (.ok m) ∧
      ((frame d ++ rest).drop m.start).take m.len = d ∧
      (frame d ++ rest).drop m.restStart = rest ∧ m.restLen = rest.length := by
  have hp := frame_pre d rest
  have h9 := decimal_9 h
  have hpos := decimal_len_pos d.length
  have hfl : (frame d).length = (decimal d.length).length + 1 + d.length + 1 := by
    unfold frame; simp; omega
  have hbl : (frame d ++ rest).length = (decimal d.length).length + 1 + d.length + 1 + rest.length := by
    rw [List.length_append, hfl]
  have hcolon : (frame d ++ rest)[(decimal d.length).length]? = some 58 := by
    unfold frame
    simp [List.append_assoc, List.getElem?_append_right]
  have hcomma : (frame d ++ rest)[(decimal d.length).length + 1 + d.length]? = some 44 := by
    have : (frame d ++ rest) = (decimal d.length ++ [58] ++ d) ++ (44 :: rest) := by simp [frame]
    rw [this, List.getElem?_append_right (by simp; omega)]
    have : (decimal d.length).length + 1 + d.length - (decimal d.length ++ [58] ++ d).length = 0 := by
      simp; omega
    rw [this]; rfl
  have hlead : ¬ ((frame d ++ rest)[0]? = some 48 ∧ (decimal d.length).length ≥ 2) := by
    rintro ⟨h1, h2⟩
    have : (frame d ++ rest)[0]? = (decimal d.length)[0]? := by
      unfold frame
      rw [List.append_assoc, List.append_assoc, List.append_assoc, List.getElem?_append_left hpos]
    rw [this] at h1
    have := decimal_head _ h1
    rw [this, decimal_lt (by omega)] at h2
    simp at h2
  refine ⟨⟨(decimal d.length).length + 1, d.length, (decimal d.length).length + 1 + d.length + 1, rest.length⟩, ?_, ?_, ?_, rfl⟩
  · rw [read_spec _ (by omega), hp, val_decimal, if_neg hlead, hcolon, hcomma]
    rw [if_neg (by omega), if_neg (by omega), if_neg (by omega), if_neg (by simp), if_neg (by simp)]
    congr 3; omega
  · have : (frame d ++ rest) = (decimal d.length ++ [58]) ++ (d ++ (44 :: rest)) := by simp [frame]
    rw [this]
    simp only
    have e : (decimal d.length).length + 1 = (decimal d.length ++ [58]).length := by simp
    rw [e, List.drop_left, List.take_left]
  · simp only
    rw [← hfl, List.drop_left]

/-- Every proper prefix of a framed message is reported as too short. -/
theorem C17_prefix (d p q : List Nat) (h : d.length ≤ 999999999) (hpq : p ++ q = frame d) (hq : q ≠ []) :
    read p = .ok (.error .tooShort) := by
  by_cases h3 : p.length < 3
  · unfold read; rw [if_pos h3]; rfl
  have h9 := decimal_9 h
  have hfl : (frame d).length = (decimal d.length).length + 1 + d.length + 1 := by
    unfold frame; simp; omega
  have hql : 0 < q.length := List.length_pos_iff.2 hq
  have hpl : p.length + q.length = (frame d).length := by rw [← hpq, List.length_append]
  have hp := frame_pre d []
  rw [List.append_nil, ← hpq] at hp
  have hget : ∀ i, i < p.length → p[i]? = (frame d)[i]? := by
    intro i hi; rw [← hpq, List.getElem?_append_left hi]
  have hf : frame d = decimal d.length ++ (58 :: (d ++ [44])) := by simp [frame]
  by_cases hin : p.length ≤ (decimal d.length).length
  · -- only digits so far
    have hpe : p = (decimal d.length).take p.length := by
      have : p = (frame d).take p.length := by rw [← hpq]; simp
      rw [hf, List.take_append_of_le_length hin] at this
      exact this
    have hall : ∀ c ∈ p, isDigit c = true := by
      intro c hc; rw [hpe] at hc; exact decimal_all _ _ (List.mem_of_mem_take hc)
    have hpp : pre p = p := by
      have := pre_append p hall [] (by simp); simpa using this
    rw [read_spec _ (by omega), hpp]
    have hlead : ¬ (p[0]? = some 48 ∧ p.length ≥ 2) := by
      rintro ⟨h1, -⟩
      rw [hget 0 (by omega), hf, List.getElem?_append_left (decimal_len_pos _)] at h1
      have h0 := decimal_head _ h1
      rw [h0, decimal_lt (by omega)] at hin
      simp at hin; omega
    rw [if_neg hlead, if_neg (by omega), if_neg (by omega), if_pos (by omega)]
  · have hpe : p = decimal d.length ++ (58 :: (d ++ [44])).take (p.length - (decimal d.length).length) := by
      have : p = (frame d).take p.length := by rw [← hpq]; simp
      rw [hf, List.take_append, List.take_of_length_le (by omega)] at this
      exact this
    have hpp : pre p = decimal d.length := by
      rw [hpe]
      apply pre_append _ (decimal_all _)
      intro c hc
      rw [List.getElem?_take, if_pos (by omega)] at hc
      simp at hc; subst hc; decide
    rw [read_spec _ (by omega), hpp, val_decimal]
    have hlead : ¬ (p[0]? = some 48 ∧ (decimal d.length).length ≥ 2) := by
      rintro ⟨h1, h2⟩
      rw [hget 0 (by omega), hf, List.getElem?_append_left (decimal_len_pos _)] at h1
      have h0 := decimal_head _ h1
      rw [h0, decimal_lt (by omega)] at h2
      simp at h2
    have := decimal_len_pos d.length
    rw [if_neg hlead, if_neg (by omega), if_neg (by omega), if_pos (by omega)]

/-- On arbitrary bytes the reader stays inside the buffer and returns a verdict. -/
theorem C17_memory_safe (b : List Nat) : ∃ r, read b = .ok r := by
  by_cases h3 : b.length < 3
  · exact ⟨.error .tooShort, by unfold read; rw [if_pos h3]; rfl⟩
  · exact ⟨_, read_spec b (by omega)⟩

/-- Whatever is accepted is a framed message followed by the reported rest: nothing else
is ever accepted. -/
theorem C17_sound (b : List Nat) (m : Msg) (h : read b = .ok (.ok m)) :
    b = frame ((b.drop m.start).take m.len) ++ b.drop m.restStart ∧
      m.restLen = (b.drop m.restStart).length := by
  by_cases h3 : b.length < 3
  · unfold read at h; rw [if_pos h3] at h; simp at h
  rw [read_spec b (by omega)] at h
  by_cases c1 : b[0]? = some 48 ∧ (pre b).length ≥ 2
  · rw [if_pos c1] at h; simp at h
  rw [if_neg c1] at h
  by_cases c2 : (pre b).length = 0
  · rw [if_pos c2] at h; simp at h
  rw [if_neg c2] at h
  by_cases c3 : (pre b).length > 9
  · rw [if_pos c3] at h; simp at h
  rw [if_neg c3] at h
  by_cases c4 : (pre b).length + val (pre b) + 1 ≥ b.length
  · rw [if_pos c4] at h; simp at h
  rw [if_neg c4] at h
  by_cases c5 : b[(pre b).length]? = some 58
  case neg => rw [if_pos (by simpa using c5)] at h; simp at h
  rw [if_neg (by simp [c5])] at h
  by_cases c6 : b[(pre b).length + 1 + val (pre b)]? = some 44
  case neg => rw [if_pos (by simpa using c6)] at h; simp at h
  rw [if_neg (by simp [c6])] at h
  simp only [Res.ok.injEq, Except.ok.injEq] at h
  subst h
  simp only
  have hdec : decimal (val (pre b)) = pre b := by
    apply decimal_val ((pre b).length - 1) (pre b) (by omega) (pre_all b)
    intro h2 h0
    rw [← pre_get b 0 (by omega)] at h0
    exact c1 ⟨h0, h2⟩
  have hlen : ((b.drop ((pre b).length + 1)).take (val (pre b))).length = val (pre b) := by
    rw [List.length_take, List.length_drop]; omega
  refine ⟨?_, by rw [List.length_drop]⟩
  unfold frame
  rw [hlen, hdec]
  apply List.ext_getElem?
  intro i
  rw [List.append_assoc, List.append_assoc, List.append_assoc, List.getElem?_append]
  by_cases i1 : i < (pre b).length
  · rw [if_pos i1, pre_get b i i1]
  rw [if_neg i1, List.getElem?_append]
  by_cases i2 : i = (pre b).length
  · rw [if_pos (by simp; omega), i2, c5]; simp
  rw [if_neg (by simp; omega), List.getElem?_append, hlen]
  by_cases i3 : i < (pre b).length + 1 + val (pre b)
  · rw [if_pos (by simp; omega), List.getElem?_take, if_pos (by simp; omega), List.getElem?_drop]
    congr 1; simp; omega
  rw [if_neg (by simp; omega), List.getElem?_append]
  by_cases i4 : i = (pre b).length + 1 + val (pre b)
  · subst i4
    rw [if_pos (by simp; omega), c6]
    have : (pre b).length + 1 + val (pre b) - (pre b).length - [58].length - val (pre b) = 0 := by simp; omega
    rw [this]; rfl
  · rw [if_neg (by simp; omega), List.getElem?_drop]; congr 1; simp; omega

theorem put_ok {b : List (Option Nat)} {off : Nat} {xs : List Nat} (h : off + xs.length ≤ b.length) :
    ∃ b', put b off xs = .ok b' ∧ b'.length = b.length ∧
      ∀ i, b'[i]? = if off ≤ i ∧ i < off + xs.length then some (xs[i - off]?) else b[i]? := by
  unfold put; rw [if_pos h]
  refine ⟨_, rfl, by simp; omega, ?_⟩
  intro i
  rw [List.append_assoc, List.getElem?_append, List.getElem?_append]
  simp only [List.length_take, List.length_map, List.getElem?_take, List.getElem?_map, List.getElem?_drop]
  by_cases c1 : i < off
  · ifs
  by_cases c2 : i < off + xs.length
  · rw [if_neg (by omega), if_pos (by omega), if_pos (by omega)]
    have e : i - min off b.length = i - off := by omega
    rw [e, List.getElem?_eq_getElem (by omega)]; rfl
  · ifs; congr 1; omega

theorem strlen_spec (xs : List Nat) (t : List (Option Nat)) (h : ∀ x ∈ xs, x ≠ 0) :
    strlen (xs.map some ++ some 0 :: t) = .ok xs.length := by
  induction xs with
  | nil => rfl
  | cons x xs ih =>
    have hx := h x (by simp)
    have := ih (fun y hy => h y (by simp [hy]))
    obtain ⟨k, rfl⟩ : ∃ k, x = k + 1 := ⟨x - 1, by omega⟩
    simp only [List.map_cons, List.cons_append, strlen, this, Res.ok_bind, List.length_cons]
    rfl

/-- Both cases of the writer, given the block after (re)allocation. -/
theorem write_block (pv d : List Nat) (blk : List (Option Nat))
    (hb : blk.length = pv.length + (numdigits d.length + d.length + 2) + 1) (h : d.length < 10 ^ 16)
    (hpv : ∀ i, i < pv.length → blk[i]? = some (pv[i]?)) :
    (if d.length = 0 then do
      let blk ← put blk pv.length [48, 58, 44, 0]
      return (blk, pv.length + (numdigits d.length + d.length + 2))
    else do
      let blk ← put blk pv.length (sprintLu d.length ++ [58, 0])
      let ptr := pv.length + (numdigits d.length + 1)
      let blk ← put blk ptr d
      let ptr := ptr + d.length
      let blk ← put blk ptr [44]
      let blk ← put blk (ptr + 1) [0]
      return (blk, pv.length + (numdigits d.length + d.length + 2)) : Res (List (Option Nat) × Nat)) =
    .ok ((pv ++ frame d).map some ++ [some 0], (pv ++ frame d).length) := by
  have hs : sprintLu d.length = decimal d.length := rfl
  rw [numdigits_eq _ h, hs] at *
  generalize hD : decimal d.length = D at *
  have hf : frame d = D ++ [58] ++ d ++ [44] := by unfold frame; rw [hD]
  rw [hf]
  have hpos := decimal_len_pos d.length
  rw [hD] at hpos
  by_cases h0 : d.length = 0
  · have hd : d = [] := List.length_eq_zero_iff.1 h0
    subst hd
    have hD1 : D = [48] := by rw [← hD]; exact decimal_lt (by simp)
    subst hD1
    rw [if_pos (by simp)]
    simp only [List.length_nil, List.length_singleton, Nat.add_zero] at *
    obtain ⟨b1, p1, p2, p3⟩ := put_ok (b := blk) (off := pv.length) (xs := [48, 58, 44, 0]) (by simp; omega)
    rw [p1, Res.ok_bind]
    simp only [Res.pure_eq, Res.ok.injEq, Prod.mk.injEq]
    refine ⟨?_, by simp⟩
    apply List.ext_getElem?
    intro i
    rw [p3]
    by_cases c1 : i < pv.length
    · rw [if_neg (by omega), hpv i c1, List.getElem?_append_left (by simp; omega), List.getElem?_map,
        List.getElem?_append_left c1, List.getElem?_eq_getElem c1]; rfl
    · have e : (List.map some (pv ++ ([48] ++ [58] ++ [] ++ [44])) ++ [some 0]) =
          pv.map some ++ [some 48, some 58, some 44, some 0] := by simp
      rw [e, List.getElem?_append_right (by simp; omega), List.length_map]
      by_cases c2 : i < pv.length + 4
      · obtain ⟨j, rfl⟩ : ∃ j, i = pv.length + j := ⟨i - pv.length, by omega⟩
        rw [if_pos (by simp; omega), Nat.add_sub_cancel_left]
        match j, (by omega : j < 4) with
        | 0, _ => rfl
        | 1, _ => rfl
        | 2, _ => rfl
        | 3, _ => rfl
      · rw [if_neg (by simp; omega), List.getElem?_eq_none (by omega), List.getElem?_eq_none (by simp; omega)]
  · rw [if_neg h0]
    obtain ⟨b1, p1, p2, p3⟩ := put_ok (b := blk) (off := pv.length) (xs := D ++ [58, 0]) (by simp; omega)
    rw [p1, Res.ok_bind]
    simp only
    obtain ⟨b2, q1, q2, q3⟩ := put_ok (b := b1) (off := pv.length + (D.length + 1)) (xs := d) (by omega)
    rw [q1, Res.ok_bind]
    obtain ⟨b3, r1, r2, r3⟩ := put_ok (b := b2) (off := pv.length + (D.length + 1) + d.length) (xs := [44]) (by simp; omega)
    rw [r1, Res.ok_bind]
    obtain ⟨b4, s1, s2, s3⟩ := put_ok (b := b3) (off := pv.length + (D.length + 1) + d.length + 1) (xs := [0]) (by simp; omega)
    rw [s1, Res.ok_bind]
    simp only [Res.pure_eq, Res.ok.injEq, Prod.mk.injEq]
    refine ⟨?_, by simp; omega⟩
    have e : (List.map some (pv ++ (D ++ [58] ++ d ++ [44])) ++ [some 0]) =
        pv.map some ++ (D.map some ++ ([some 58] ++ (d.map some ++ [some 44, some 0]))) := by simp
    rw [e]
    apply List.ext_getElem?
    intro i
    rw [s3, r3, q3, p3]
    simp only [List.length_singleton, List.length_append, List.length_cons, List.length_nil]
    rw [List.getElem?_append (l₁ := pv.map some), List.length_map]
    by_cases c1 : i < pv.length
    · ifs
      rw [hpv i c1, List.getElem?_map, List.getElem?_eq_getElem c1]; rfl
    rw [if_neg (c := i < pv.length) c1, List.getElem?_append (l₁ := D.map some), List.length_map]
    by_cases c2 : i < pv.length + D.length
    · ifs
      rw [List.getElem?_append_left (by omega), List.getElem?_map, List.getElem?_eq_getElem (by omega)]; rfl
    rw [if_neg (c := i - pv.length < D.length) (by omega), List.getElem?_append (l₁ := [some 58]), List.length_singleton]
    by_cases c3 : i = pv.length + D.length
    · subst c3; ifs
      rw [List.getElem?_append_right (by omega)]
      have e1 : pv.length + D.length - pv.length - D.length = 0 := by omega
      rw [e1]; rfl
    rw [if_neg (c := i - pv.length - D.length < 1) (by omega), List.getElem?_append (l₁ := d.map some), List.length_map]
    by_cases c4 : i < pv.length + D.length + 1 + d.length
    · ifs
      rw [List.getElem?_map, List.getElem?_eq_getElem (by omega), List.getElem?_eq_getElem (by omega)]
      simp only [Option.map_some]
      congr 3; omega
    rw [if_neg (c := i - pv.length - D.length - 1 < d.length) (by omega)]
    by_cases c5 : i = pv.length + D.length + 1 + d.length
    · subst c5; ifs
      have e1 : pv.length + D.length + 1 + d.length - (pv.length + (D.length + 1) + d.length) = 0 := by omega
      have e2 : pv.length + D.length + 1 + d.length - pv.length - D.length - 1 - d.length = 0 := by omega
      rw [e1, e2]; rfl
    by_cases c6 : i = pv.length + D.length + 1 + d.length + 1
    · subst c6; ifs
      have e1 : pv.length + D.length + 1 + d.length + 1 - (pv.length + (D.length + 1) + d.length + 1) = 0 := by omega
      have e2 : pv.length + D.length + 1 + d.length + 1 - pv.length - D.length - 1 - d.length = 1 := by omega
      rw [e1, e2]; rfl
    · ifs
      rw [List.getElem?_eq_none (by omega), List.getElem?_eq_none (by simp; omega)]

/-- The writer produces exactly the framing, zero terminated, and stays inside the block
it allocates. -/
theorem C17_write_first (d : List Nat) (h : d.length < 10 ^ 16) :
    addEx none d = .ok ((frame d).map some ++ [some 0], (frame d).length) := by
  have := write_block [] d (List.replicate (0 + (numdigits d.length + d.length + 2) + 1) none)
    (by simp) h (by intro i hi; simp at hi)
  unfold addEx
  simpa using this

/-- Appending a message to earlier output: the concatenation of the framings, provided the
earlier output holds no zero byte. -/
theorem C17_write_append_partial (pv d : List Nat) (h : d.length < 10 ^ 16) (hz : ∀ x ∈ pv, x ≠ 0) :
    addEx (some (pv.map some ++ [some 0])) d =
      .ok ((pv ++ frame d).map some ++ [some 0], (pv ++ frame d).length) := by
  have hlen : (pv.map some ++ [some 0]).length = pv.length + 1 := by simp
  unfold addEx
  simp only [strlen_spec pv [] hz, Res.ok_bind, Option.getD_some]
  apply write_block pv d _ _ h
  · intro i hi
    rw [List.getElem?_append_left (by simp; omega), List.getElem?_take, if_pos (by omega),
      List.getElem?_append_left (by simp; omega), List.getElem?_map, List.getElem?_eq_getElem hi]; rfl
  · rw [List.length_append, List.length_take, List.length_replicate, hlen]; omega

/-- Appending after a payload with a zero byte overwrites that payload: the messages are
corrupted (`strlen` is used to find the end). -/
theorem C17_refuted_append :
    ∃ b n, addEx (some ((frame [65, 0, 66]).map some ++ [some 0])) [67] = .ok (b, n) ∧
      b.take n ≠ (frame [65, 0, 66] ++ frame [67]).map some := by
  refine ⟨_, _, rfl, ?_⟩
  decide

/-- Writing and reading back. -/
theorem C17_write_read (d : List Nat) (h : d.length ≤ 999999999) :
    ∃ b n bytes m, addEx none d = .ok (b, n) ∧ b.take n = bytes.map some ∧
      read bytes = .ok (.ok m) ∧ (bytes.drop m.start).take m.len = d ∧ m.restLen = 0 := by
  obtain ⟨m, h1, h2, -, h4⟩ := C17_roundtrip d [] h
  rw [List.append_nil] at h1 h2
  refine ⟨_, _, frame d, m, C17_write_first d (by omega), ?_, h1, h2, h4⟩
  rw [List.take_append_of_le_length (by simp), List.take_of_length_le (by simp)]

/-- Non-trivial instances. -/
example : frame [104, 105] = [50, 58, 104, 105, 44] := by decide
example : ∃ m, read (frame [104, 105] ++ [9, 9]) = .ok (.ok m) :=
  (C17_roundtrip [104, 105] [9, 9] (by decide)).imp fun _ h => h.1
example : ([49] : List Nat) ++ [50, 58, 1, 1, 1, 1, 1, 1, 1, 1, 1, 1, 1, 1, 44] = frame (List.replicate 12 1) := by decide

end Verif.Netstring
