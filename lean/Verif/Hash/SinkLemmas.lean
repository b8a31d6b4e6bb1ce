import Verif.Hash.SinkSpec

/-!
What the sink does with its operations: the bytes come out in order, no write
leaves the buffer, and the operations are told apart by their bytes.
-/

namespace Verif.Hash

/-- Everything written so far. -/
def Sink.out (s : Sink) : List Nat := s.fed ++ s.pend s.off

theorem pend_zero (s : Sink) : s.pend 0 = [] := rfl

theorem pend_succ (s : Sink) (n : Nat) : s.pend (n + 1) = s.pend n ++ [s.buf n] := by
  simp [Sink.pend, List.range_succ]

theorem pend_congr {s t : Sink} {n : Nat} (h : ∀ i, i < n → s.buf i = t.buf i) :
    s.pend n = t.pend n := by
  simp only [Sink.pend]
  apply List.map_congr_left
  intro i hi
  exact h i (List.mem_range.mp hi)

theorem flush_out (s : Sink) : s.flush.out = s.out := by
  unfold Sink.flush Sink.out
  by_cases h : s.off > 0
  · simp [h, pend_zero]
  · simp [h]

theorem flush_off (s : Sink) : s.flush.off = 0 := by
  unfold Sink.flush
  by_cases h : s.off > 0
  · simp [h]
  · simp [h]; omega

theorem flush_fed (s : Sink) : s.flush.fed = s.out := by
  have := flush_out s
  rw [Sink.out, flush_off, pend_zero, List.append_nil] at this
  exact this

theorem pokes_ok : ∀ (bs : List Nat) (s : Sink) (i : Nat), i + bs.length ≤ bufSize →
    ∃ s', s.pokes i bs = some s' ∧ s'.fed = s.fed ∧ s'.off = s.off ∧
      s'.pend (i + bs.length) = s.pend i ++ bs ∧ (∀ j, j < i → s'.buf j = s.buf j)
  | [], s, i, _ => ⟨s, rfl, rfl, rfl, by simp, fun _ _ => rfl⟩
  | b :: bs, s, i, h => by
    have hi : i < bufSize := by simp at h; omega
    have hp : s.poke i b = some { s with buf := fun j => if j = i then b else s.buf j } := by
      simp [Sink.poke, hi]
    obtain ⟨s', e, hf, ho, hq, hb⟩ := pokes_ok bs
      { s with buf := fun j => if j = i then b else s.buf j } (i + 1) (by simp at h; omega)
    refine ⟨s', ?_, hf, ho, ?_, ?_⟩
    · simp only [Sink.pokes, hp, Option.bind_some, e]
    · have : i + (b :: bs).length = i + 1 + bs.length := by simp; omega
      rw [this, hq, pend_succ]
      have hc : Sink.pend { s with buf := fun j => if j = i then b else s.buf j } i = s.pend i := by
        apply pend_congr
        intro j hj
        have : j ≠ i := by omega
        simp [this]
      rw [hc]; simp
    · intro j hj
      rw [hb j (by omega)]
      have : j ≠ i := by omega
      simp [this]

theorem write8_ok (s : Sink) (b : Nat) (h : s.off ≤ bufSize) :
    ∃ s', s.write8 b = some s' ∧ s'.out = s.out ++ [b] ∧ s'.off ≤ bufSize := by
  unfold Sink.write8
  by_cases hc : s.off < bufSize
  · obtain ⟨s', e, hf, _, hq, _⟩ := pokes_ok [b] s s.off (by simp; omega)
    simp only [Sink.pokes] at e
    cases hp : s.poke s.off b with
    | none => rw [hp] at e; cases e
    | some t =>
      rw [hp] at e; cases e
      refine ⟨{ s' with off := s.off + 1 }, by simp [hc], ?_, hc⟩
      have : Sink.out { s' with off := s.off + 1 } = s'.fed ++ s'.pend (s.off + [b].length) := rfl
      rw [this, hq, hf, Sink.out, List.append_assoc]
  · obtain ⟨s', e, hf, _, hq, _⟩ := pokes_ok [b] s.flush 0 (by simp [bufSize])
    simp only [Sink.pokes] at e
    cases hp : s.flush.poke 0 b with
    | none => rw [hp] at e; cases e
    | some t =>
      rw [hp] at e; cases e
      refine ⟨{ s' with off := 1 }, by simp [hc], ?_, by simp [bufSize]⟩
      have : Sink.out { s' with off := 1 } = s'.fed ++ s'.pend (0 + [b].length) := rfl
      rw [this, hq, hf, flush_fed, pend_zero, List.nil_append]

theorem write8s_ok : ∀ (bs : List Nat) (s : Sink), s.off ≤ bufSize →
    ∃ s', s.write8s bs = some s' ∧ s'.out = s.out ++ bs ∧ s'.off ≤ bufSize
  | [], s, h => ⟨s, rfl, by simp, h⟩
  | b :: bs, s, h => by
    obtain ⟨s1, e1, o1, h1⟩ := write8_ok s b h
    obtain ⟨s2, e2, o2, h2⟩ := write8s_ok bs s1 h1
    exact ⟨s2, by simp only [Sink.write8s, e1, Option.bind_some, e2], by rw [o2, o1]; simp, h2⟩

theorem write64_ok (s : Sink) (w : Nat) (h : s.off ≤ bufSize) :
    ∃ s', s.write64 w = some s' ∧ s'.out = s.out ++ word64Bytes w ∧ s'.off ≤ bufSize := by
  have hl : (word64Bytes w).length = 8 := rfl
  have hen : (s.ensure 8).1.fed ++ (s.ensure 8).1.pend (s.ensure 8).2 = s.out ∧
      (s.ensure 8).2 + 8 ≤ bufSize := by
    unfold Sink.ensure
    by_cases hc : s.off + 8 ≤ bufSize
    · simp [hc, Sink.out]
    · simp only [hc, if_false, flush_fed, pend_zero, List.append_nil]
      exact ⟨trivial, by decide⟩
  obtain ⟨s', e, hf, _, hq, _⟩ := pokes_ok (word64Bytes w) (s.ensure 8).1 (s.ensure 8).2
    (by rw [hl]; exact hen.2)
  refine ⟨{ s' with off := (s.ensure 8).2 + 8 }, by simp [Sink.write64, e], ?_, hen.2⟩
  have : Sink.out { s' with off := (s.ensure 8).2 + 8 }
    = s'.fed ++ s'.pend ((s.ensure 8).2 + (word64Bytes w).length) := rfl
  rw [this, hq, hf, ← List.append_assoc, hen.1]

theorem ensureLocal_ok (s : Sink) (off n : Nat) (hn : n ≤ bufSize) :
    (s.ensureLocal off n).1.fed ++ (s.ensureLocal off n).1.pend (s.ensureLocal off n).2
      = s.fed ++ s.pend off ∧ (s.ensureLocal off n).2 + n ≤ bufSize := by
  unfold Sink.ensureLocal
  by_cases hc : off + n ≤ bufSize
  · simp [hc]
  · simp only [hc, if_false, flush_fed, pend_zero, List.append_nil]
    exact ⟨rfl, by omega⟩

theorem utf8_length (n : Nat) : (utf8 n).length ≤ 4 := by
  unfold utf8; split
  · simp
  · split
    · simp
    · split <;> simp

/-- One step of the string writer. -/
theorem local_step (s : Sink) (off n : Nat) (bs : List Nat) (hn : n ≤ bufSize)
    (hb : bs.length ≤ n) :
    ∃ s', (s.ensureLocal off n).1.pokes (s.ensureLocal off n).2 bs = some s' ∧
      s'.fed ++ s'.pend ((s.ensureLocal off n).2 + bs.length) = s.fed ++ s.pend off ++ bs ∧
      (s.ensureLocal off n).2 + bs.length ≤ bufSize := by
  have he := ensureLocal_ok s off n hn
  obtain ⟨s', e, hf, _, hq, _⟩ := pokes_ok bs (s.ensureLocal off n).1 (s.ensureLocal off n).2
    (by omega)
  refine ⟨s', e, ?_, by omega⟩
  rw [hf, hq, ← List.append_assoc, he.1]

theorem goStr_ok : ∀ (cs : Str) (s : Sink) (off : Nat), off ≤ bufSize →
    ∃ s' off', s.goStr off cs = some (s', off') ∧ off' ≤ bufSize ∧
      s'.fed ++ s'.pend off' = s.fed ++ s.pend off ++ cs.flatMap chrBytes
  | [], s, off, h => ⟨s, off, rfl, h, by simp⟩
  | c :: cs, s, off, h => by
    by_cases h0 : c.val = 0
    · obtain ⟨s1, e1, o1, b1⟩ := local_step s off 2 [0, 0] (by decide) (by simp)
      obtain ⟨s2, f2, e2, b2, o2⟩ := goStr_ok cs s1 _ b1
      refine ⟨s2, f2, ?_, b2, ?_⟩
      · simp only [Sink.goStr, h0, if_true, e1, Option.bind_some]
        exact e2
      · rw [o2, o1]; simp [chrBytes, h0]
    · by_cases h1 : c.val ≤ 0x7f
      · obtain ⟨s1, e1, o1, b1⟩ := local_step s off 1 [c.val] (by decide) (by simp)
        obtain ⟨s2, f2, e2, b2, o2⟩ := goStr_ok cs s1 _ b1
        refine ⟨s2, f2, ?_, b2, ?_⟩
        · simp only [Sink.goStr, h0, if_false, h1, if_true, e1, Option.bind_some]
          exact e2
        · rw [o2, o1]; simp [chrBytes, h0, utf8, h1]
      · obtain ⟨s1, e1, o1, b1⟩ := local_step s off 4 (utf8 c.val) (by decide) (utf8_length _)
        obtain ⟨s2, f2, e2, b2, o2⟩ := goStr_ok cs s1 _ b1
        refine ⟨s2, f2, ?_, b2, ?_⟩
        · simp only [Sink.goStr, h0, if_false, h1, e1, Option.bind_some]
          exact e2
        · rw [o2, o1]; simp [chrBytes, h0]

theorem writeStr_ok (s : Sink) (cs : Str) (h : s.off ≤ bufSize) :
    ∃ s', s.writeStr cs = some s' ∧ s'.out = s.out ++ (cs.flatMap chrBytes ++ [0, 1]) ∧
      s'.off ≤ bufSize := by
  obtain ⟨s1, f1, e1, b1, o1⟩ := goStr_ok cs s s.off h
  obtain ⟨s2, e2, o2, b2⟩ := local_step s1 f1 2 [0, 1] (by decide) (by simp)
  refine ⟨{ s2 with off := (s1.ensureLocal f1 2).2 + 2 }, ?_, ?_, b2⟩
  · simp only [Sink.writeStr, e1, Option.bind_some, Sink.termStr, e2, Option.map_some]
  · have : Sink.out { s2 with off := (s1.ensureLocal f1 2).2 + 2 }
      = s2.fed ++ s2.pend ((s1.ensureLocal f1 2).2 + [0, 1].length) := rfl
    rw [this, o2, o1, Sink.out]; simp

theorem op_ok (o : Op) (s : Sink) (h : s.off ≤ bufSize) :
    ∃ s', o.run s = some s' ∧ s'.out = s.out ++ o.enc ∧ s'.off ≤ bufSize := by
  cases o with
  | w8 b => exact write8_ok s b.val h
  | str cs => exact writeStr_ok s cs h
  | int i => exact write8s_ok (intBytes i) s h
  | w64 w => exact write64_ok s w.val h
  | bytes bs =>
    refine ⟨_, rfl, ?_, ?_⟩
    · simp only [Sink.out, Op.enc, flush_off, pend_zero, List.append_nil, flush_fed]
    · simp [flush_off]

theorem runOps_ok : ∀ (os : List Op) (s : Sink), s.off ≤ bufSize →
    ∃ s', runOps s os = some s' ∧ s'.out = s.out ++ os.flatMap Op.enc ∧ s'.off ≤ bufSize
  | [], s, h => ⟨s, rfl, by simp, h⟩
  | o :: os, s, h => by
    obtain ⟨s1, e1, o1, h1⟩ := op_ok o s h
    obtain ⟨s2, e2, o2, h2⟩ := runOps_ok os s1 h1
    exact ⟨s2, by simp only [runOps, e1, Option.bind_some, e2], by rw [o2, o1]; simp, h2⟩

/-- The digest is taken of the bytes of the operations, one after the other. -/
theorem hashInput_eq (buf : Nat → Nat) (os : List Op) :
    hashInput buf os = some (os.flatMap Op.enc) := by
  obtain ⟨s', e, o, _⟩ := runOps_ok os { fed := [], buf := buf, off := 0 } (by simp)
  simp only [hashInput, e, Option.map_some, flush_fed, o]
  simp [Sink.out, pend_zero]

/-! ### Bytes are bytes -/

theorem and_3f (n : Nat) : n &&& 0x3f = n % 64 := Nat.and_two_pow_sub_one_eq_mod n 6
theorem and_7f (n : Nat) : n &&& 0x7f = n % 128 := Nat.and_two_pow_sub_one_eq_mod n 7
theorem and_ff (n : Nat) : n &&& 0xff = n % 256 := Nat.and_two_pow_sub_one_eq_mod n 8

theorem or_80 (n : Nat) : (n &&& 0x7f) ||| 0x80 = n % 128 + 128 := by
  rw [and_7f, Nat.or_comm]
  have h : n % 128 < 2 ^ 7 := Nat.mod_lt _ (by decide)
  have := Nat.two_pow_add_eq_or_of_lt h 1
  simp at this
  omega

theorem leb_eq (n : Nat) : leb n = if n < 128 then [n] else (n % 128 + 128) :: leb (n / 128) := by
  rw [leb]
  simp only [or_80, Nat.shiftRight_eq_div_pow, Nat.reducePow]

theorem leb_byte (n : Nat) : ∀ b ∈ leb n, b < 256 := by
  induction n using Nat.strongRecOn with
  | ind n ih =>
    intro b hb
    rw [leb_eq] at hb
    by_cases h : n < 128
    · simp [h] at hb; omega
    · simp only [h, if_false, List.mem_cons] at hb
      rcases hb with hb | hb
      · omega
      · exact ih (n / 128) (by omega) b hb

theorem utf8_byte (c : Chr) : ∀ b ∈ utf8 c.val, b < 256 := by
  have hc := c.isLt
  intro b hb
  unfold utf8 at hb
  simp only [and_3f, Nat.shiftRight_eq_div_pow, Nat.reducePow] at hb
  split at hb
  · simp at hb; omega
  · split at hb
    · simp at hb; omega
    · split at hb
      · simp at hb; omega
      · simp at hb; omega

theorem enc_byte (o : Op) : ∀ b ∈ o.enc, b < 256 := by
  cases o with
  | w8 b => simp [Op.enc]
  | str cs =>
    intro b hb
    simp only [Op.enc, List.mem_append, List.mem_flatMap] at hb
    rcases hb with ⟨c, _, hb⟩ | hb
    · unfold chrBytes at hb
      split at hb
      · simp at hb; omega
      · exact utf8_byte c b hb
    · simp at hb; omega
  | int i =>
    intro b hb
    simp only [Op.enc, intBytes] at hb
    split at hb
    · simp only [List.mem_cons] at hb
      rcases hb with rfl | hb
      · decide
      · exact leb_byte _ b hb
    · simp only [List.mem_cons] at hb
      rcases hb with rfl | hb
      · decide
      · exact leb_byte _ b hb
  | w64 w =>
    intro b hb
    simp only [Op.enc, word64Bytes, and_ff] at hb
    simp at hb; omega
  | bytes bs =>
    intro b hb
    simp only [Op.enc, List.mem_map] at hb
    obtain ⟨x, _, rfl⟩ := hb
    exact x.isLt

/-! ### The bytes tell the operands apart -/

theorem leb_inj : ∀ (n m : Nat) (r t : List Nat), leb n ++ r = leb m ++ t → n = m ∧ r = t := by
  intro n
  induction n using Nat.strongRecOn with
  | ind n ih =>
    intro m r t h
    rw [leb_eq n, leb_eq m] at h
    by_cases hn : n < 128 <;> by_cases hm : m < 128
    · simp [hn, hm] at h; exact h
    · simp [hn, hm] at h; omega
    · simp [hn, hm] at h; omega
    · simp only [hn, hm, if_false, List.cons_append, List.cons.injEq] at h
      obtain ⟨e, rfl⟩ := ih (n / 128) (by omega) (m / 128) r t h.2
      exact ⟨by omega, rfl⟩

theorem int_inj (i j : Int) (r t : List Nat) (h : intBytes i ++ r = intBytes j ++ t) :
    i = j ∧ r = t := by
  unfold intBytes at h
  by_cases hi : i < 0 <;> by_cases hj : j < 0
  · simp only [hi, hj, if_true, List.cons_append, List.cons.injEq, true_and] at h
    obtain ⟨e, rfl⟩ := leb_inj _ _ _ _ h
    exact ⟨by omega, rfl⟩
  · simp [hi, hj] at h
  · simp [hi, hj] at h
  · simp only [hi, hj, if_false, List.cons_append, List.cons.injEq, true_and] at h
    obtain ⟨e, rfl⟩ := leb_inj _ _ _ _ h
    exact ⟨by omega, rfl⟩

theorem word64_inj (v w : Fin (2 ^ 64)) (r t : List Nat)
    (h : word64Bytes v.val ++ r = word64Bytes w.val ++ t) : v = w ∧ r = t := by
  have hv := v.isLt
  have hw := w.isLt
  simp only [word64Bytes, and_ff, Nat.shiftRight_eq_div_pow, Nat.reducePow, List.cons_append,
    List.nil_append, List.cons.injEq] at h
  refine ⟨Fin.ext ?_, h.2.2.2.2.2.2.2.2⟩
  simp only [Nat.reducePow] at hv hw
  omega

theorem utf8_inj (n m : Nat) (r t : List Nat) (hn : n < 0x110000) (hm : m < 0x110000)
    (h : utf8 n ++ r = utf8 m ++ t) : n = m ∧ r = t := by
  unfold utf8 at h
  simp only [and_3f, Nat.shiftRight_eq_div_pow, Nat.reducePow] at h
  split at h <;> split at h <;> try split at h <;> try split at h
  all_goals try split at h
  all_goals try split at h
  all_goals simp only [List.cons_append, List.nil_append, List.cons.injEq] at h
  all_goals first
    | exact ⟨by omega, h.2⟩
    | exact ⟨by omega, h.2.2⟩
    | exact ⟨by omega, h.2.2.2⟩
    | exact ⟨by omega, h.2.2.2.2⟩
    | (exfalso; omega)

theorem utf8_head (n : Nat) : ∃ b bs, utf8 n = b :: bs ∧ (b = n ∨ 0xc0 ≤ b) := by
  unfold utf8; split
  · exact ⟨_, _, rfl, Or.inl rfl⟩
  · split
    · exact ⟨_, _, rfl, Or.inr (by omega)⟩
    · split
      · exact ⟨_, _, rfl, Or.inr (by omega)⟩
      · exact ⟨_, _, rfl, Or.inr (by omega)⟩

theorem str_inj : ∀ (s s' : Str) (r t : List Nat),
    s.flatMap chrBytes ++ (0 :: 1 :: r) = s'.flatMap chrBytes ++ (0 :: 1 :: t) → s = s' ∧ r = t
  | [], [], r, t, h => by simp at h; exact ⟨rfl, h⟩
  | [], c :: cs, r, t, h => by
    exfalso
    simp only [List.flatMap_nil, List.nil_append, List.flatMap_cons, List.append_assoc] at h
    unfold chrBytes at h
    by_cases hc : c.val = 0
    · simp [hc] at h
    · obtain ⟨b, bs, e, hb⟩ := utf8_head c.val
      simp only [hc, if_false, e, List.cons_append, List.cons.injEq] at h
      omega
  | c :: cs, [], r, t, h => by
    exfalso
    simp only [List.flatMap_nil, List.nil_append, List.flatMap_cons, List.append_assoc] at h
    unfold chrBytes at h
    by_cases hc : c.val = 0
    · simp [hc] at h
    · obtain ⟨b, bs, e, hb⟩ := utf8_head c.val
      simp only [hc, if_false, e, List.cons_append, List.cons.injEq] at h
      omega
  | c :: cs, d :: ds, r, t, h => by
    simp only [List.flatMap_cons, List.append_assoc] at h
    have key : c = d ∧ cs.flatMap chrBytes ++ (0 :: 1 :: r) = ds.flatMap chrBytes ++ (0 :: 1 :: t) := by
      by_cases hc : c.val = 0 <;> by_cases hd : d.val = 0
      · simp only [chrBytes, hc, hd, if_true, List.cons_append, List.nil_append,
          List.cons.injEq, true_and] at h
        exact ⟨Fin.ext (by omega), h⟩
      · exfalso
        obtain ⟨b, bs, e, hb⟩ := utf8_head d.val
        simp only [chrBytes, hc, hd, if_true, if_false, e, List.cons_append, List.cons.injEq] at h
        omega
      · exfalso
        obtain ⟨b, bs, e, hb⟩ := utf8_head c.val
        simp only [chrBytes, hc, hd, if_true, if_false, e, List.cons_append, List.cons.injEq] at h
        omega
      · simp only [chrBytes, hc, hd, if_false] at h
        obtain ⟨e, h'⟩ := utf8_inj _ _ _ _ c.isLt d.isLt h
        exact ⟨Fin.ext e, h'⟩
    obtain ⟨rfl, h'⟩ := key
    obtain ⟨rfl, rfl⟩ := str_inj cs ds r t h'
    exact ⟨rfl, rfl⟩

end Verif.Hash
