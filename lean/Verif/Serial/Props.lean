import Verif.Serial.Spec
/-!
# C15: serialized data survives the byte encoding, malformed bytes are rejected
-/
namespace Verif.Serial
open Verif

theorem decInt_encInt {n : Int} (h : InI32 n) : ∃ b0 b1 b2 b3, encInt n = [b0, b1, b2, b3] ∧
    decInt b0 b1 b2 b3 = n ∧ b0 < 256 ∧ b1 < 256 ∧ b2 < 256 ∧ b3 < 256 := by
  refine ⟨_, _, _, _, rfl, ?_, by omega, by omega, by omega, by omega⟩
  unfold decInt InI32 at *
  simp only
  have h1 : 0 ≤ n % 2^32 := by omega
  have h2 : n % 2^32 < 2^32 := by omega
  have h3 : (n % 2^32 = n ∧ n < 2^31) ∨ (n % 2^32 = n + 2^32 ∧ 2^31 ≤ n % 2^32) := by omega
  generalize n % 2^32 = u at *
  obtain ⟨v, rfl⟩ := Int.eq_ofNat_of_zero_le h1
  simp only [Int.toNat_natCast]
  split <;> omega

theorem encInt_decInt {b0 b1 b2 b3 : Nat} (h0 : b0 < 256) (h1 : b1 < 256) (h2 : b2 < 256) (h3 : b3 < 256) :
    encInt (decInt b0 b1 b2 b3) = [b0, b1, b2, b3] ∧ InI32 (decInt b0 b1 b2 b3) := by
  have key : ∃ u : Nat, u = b0 + 256 * b1 + 65536 * b2 + 16777216 * b3 ∧ u < 2^32 ∧
      ((decInt b0 b1 b2 b3) % 2^32).toNat = u ∧ InI32 (decInt b0 b1 b2 b3) := by
    refine ⟨_, rfl, by omega, ?_, ?_⟩
    · unfold decInt; simp only; split <;> omega
    · unfold decInt InI32; simp only; split <;> omega
  obtain ⟨u, hu, hlt, hm, hi⟩ := key
  refine ⟨?_, hi⟩
  unfold encInt
  simp only [hm]
  have e0 : u % 256 = b0 := by omega
  have e1 : u / 256 % 256 = b1 := by omega
  have e2 : u / 65536 % 256 = b2 := by omega
  have e3 : u / 16777216 % 256 = b3 := by omega
  rw [e0, e1, e2, e3]

theorem encInt_length (n : Int) : (encInt n).length = 4 := rfl

theorem copyOut_ok {b : List Nat} {p n : Nat} (h : p + n ≤ b.length) :
    copyOut b p n = .ok ((b.drop p).take n) := by unfold copyOut; rw [if_pos h]

theorem totalSize_needed : ∀ rows : List Row, (∀ r ∈ rows, WF r) → totalSize rows = needed rows := by
  intro rows
  induction rows with
  | nil => intro _; rfl
  | cons r rs ih =>
    intro h
    have hr := (h r (by simp)).blob
    have := ih (fun x hx => h x (by simp [hx]))
    unfold totalSize
    rw [this]
    unfold needed
    simp only [List.map_cons, List.sum_cons]
    omega

/-- The bytes of one row. -/
def rowBytes (r : Row) : List Nat := encInt r.classId ++ encInt r.blobSize ++ r.blob

theorem emit_spec : ∀ rows : List Row, (∀ r ∈ rows, WF r) →
    emit rows = .ok (rows.map rowBytes).flatten ∧ (rows.map rowBytes).flatten.length = needed rows := by
  intro rows
  induction rows with
  | nil => intro _; exact ⟨rfl, rfl⟩
  | cons r rs ih =>
    intro h
    have hr := h r (by simp)
    obtain ⟨h1, h2⟩ := ih (fun x hx => h x (by simp [hx]))
    have hb := hr.blob
    have hs := hr.size
    refine ⟨?_, ?_⟩
    · unfold emit
      rw [if_neg (by omega), copyOut_ok (by omega), Res.ok_bind, h1, Res.ok_bind, List.drop_zero,
        List.take_of_length_le (by omega)]
      simp [rowBytes]
    · unfold needed at *
      simp only [List.map_cons, List.flatten_cons, List.length_append, List.sum_cons, h2, rowBytes, encInt_length]

/-- What the encoder does: `ValueError` exactly if more than 2^31-1 bytes are needed. -/
theorem C15_encode (rows : List Row) (h : ∀ r ∈ rows, WF r) :
    (needed rows > 2^31 - 1 → toBytes rows = .raise .valueError) ∧
    (needed rows ≤ 2^31 - 1 → ∃ b, toBytes rows = .ok b ∧ b.length = needed rows) := by
  have ht := totalSize_needed rows h
  obtain ⟨h1, h2⟩ := emit_spec rows h
  refine ⟨fun hn => ?_, fun hn => ?_⟩
  · unfold toBytes; simp only [ht]; rw [if_pos (by omega)]
  · refine ⟨(rows.map rowBytes).flatten, ?_, h2⟩
    unfold toBytes; simp only [ht]
    rw [if_neg (by omega), h1, Res.ok_bind, if_pos (by omega)]; rfl

theorem rdInt_at {a c : List Nat} {n : Int} (hn : InI32 n) :
    rdInt (a ++ encInt n ++ c) a.length = .ok n := by
  obtain ⟨b0, b1, b2, b3, he, hd, -⟩ := decInt_encInt hn
  unfold rdInt
  rw [copyOut_ok (by simp [encInt_length])]
  rw [List.append_assoc, List.drop_left, List.take_append_of_le_length (by simp [encInt_length]), he]
  simp [hd]

theorem parse_spec : ∀ (rows : List Row) (a : List Nat), (∀ r ∈ rows, WF r) →
    parseLoop (a ++ (rows.map rowBytes).flatten) a.length (rows.map rowBytes).flatten.length = .ok rows := by
  intro rows
  induction rows with
  | nil => intro a _; rw [parseLoop]; simp
  | cons r rs ih =>
    intro a h
    have hr := h r (by simp)
    have hb := hr.blob
    have hs := hr.size
    simp only [List.map_cons, List.flatten_cons]
    have hlen : (rowBytes r).length = 8 + r.blob.length := by
      unfold rowBytes; simp only [List.length_append, encInt_length]
    have ih' := ih (a ++ rowBytes r) (fun x hx => h x (by simp [hx]))
    generalize hR : (rs.map rowBytes).flatten = R at *
    rw [parseLoop]
    have hpos : (rowBytes r ++ R).length = 8 + r.blob.length + R.length := by
      rw [List.length_append, hlen]
    rw [dif_pos (by omega), dif_neg (by omega)]
    have e1 : a ++ (rowBytes r ++ R) = a ++ encInt r.classId ++ (encInt r.blobSize ++ r.blob ++ R) := by
      simp [rowBytes]
    have e2 : a ++ (rowBytes r ++ R) = (a ++ encInt r.classId) ++ encInt r.blobSize ++ (r.blob ++ R) := by
      simp [rowBytes]
    have e3 : a ++ (rowBytes r ++ R) = (a ++ encInt r.classId ++ encInt r.blobSize) ++ (r.blob ++ R) := by
      simp [rowBytes]
    have r1 : rdInt (a ++ (rowBytes r ++ R)) a.length = .ok r.classId := by rw [e1]; exact rdInt_at hr.cls
    have r2 : rdInt (a ++ (rowBytes r ++ R)) (a.length + 4) = .ok r.blobSize := by
      rw [e2]
      have : a.length + 4 = (a ++ encInt r.classId).length := by simp [encInt_length]
      rw [this]; exact rdInt_at (by unfold InI32; omega)
    rw [r1, Res.ok_bind, r2, Res.ok_bind, if_neg (by omega)]
    simp only
    rw [if_neg (by omega), copyOut_ok (by rw [List.length_append, hpos]; omega), Res.ok_bind]
    have d1 : ((a ++ (rowBytes r ++ R)).drop (a.length + 8)).take (r.blobSize * 8).toNat = r.blob := by
      rw [e3]
      have : a.length + 8 = (a ++ encInt r.classId ++ encInt r.blobSize).length := by simp [encInt_length]
      rw [this, List.drop_left, List.take_append_of_le_length (by omega), List.take_of_length_le (by omega)]
    have d2 : a ++ (rowBytes r ++ R) = a ++ rowBytes r ++ R := by simp
    have d3 : a.length + 8 + (r.blobSize * 8).toNat = (a ++ rowBytes r).length := by
      rw [List.length_append, hlen]; omega
    have d4 : (rowBytes r ++ R).length - 8 - (r.blobSize * 8).toNat = R.length := by omega
    rw [d1, d2, d3, ← List.append_assoc] at *
    have d4' : (rowBytes r ++ R).length - 8 - (r.blobSize * 8).toNat = R.length := d4
    rw [d4', ih', Res.ok_bind]
    rfl

/-- C15, round trip: decoding the encoding of rows gives the rows back. -/
theorem C15_roundtrip (rows : List Row) (h : ∀ r ∈ rows, WF r) (hne : rows ≠ []) (b : List Nat)
    (he : toBytes rows = .ok b) : fromBytes b = .ok rows := by
  have ht := totalSize_needed rows h
  obtain ⟨h1, h2⟩ := emit_spec rows h
  unfold toBytes at he
  simp only [ht] at he
  split at he
  · cases he
  · rw [h1, Res.ok_bind, if_pos (by omega)] at he
    cases he
    unfold fromBytes
    have := parse_spec rows [] h
    simp only [List.nil_append, List.length_nil] at this
    rw [this, Res.ok_bind]
    cases rows with
    | nil => exact absurd rfl hne
    | cons r rs => rfl

theorem rdInt_any {b : List Nat} (hb : Bytes b) {p : Nat} (h : p + 4 ≤ b.length) :
    ∃ n, rdInt b p = .ok n ∧ InI32 n ∧ encInt n = (b.drop p).take 4 := by
  unfold rdInt
  rw [copyOut_ok h, Res.ok_bind]
  have hl : ((b.drop p).take 4).length = 4 := by rw [List.length_take, List.length_drop]; omega
  have hm : ∀ x ∈ (b.drop p).take 4, x < 256 := by
    intro x hx; exact hb x (List.mem_of_mem_drop (List.mem_of_mem_take hx))
  generalize (b.drop p).take 4 = l at *
  match l, hl with
  | [b0, b1, b2, b3], _ =>
    have := encInt_decInt (hm b0 (by simp)) (hm b1 (by simp)) (hm b2 (by simp)) (hm b3 (by simp))
    exact ⟨_, rfl, this.2, this.1⟩

theorem parse_any (b : List Nat) (hb : Bytes b) : ∀ (rem p : Nat), p + rem = b.length → b.length < 2^31 →
    parseLoop b p rem = .raise .valueError ∨
    ∃ rows, parseLoop b p rem = .ok rows ∧ (∀ r ∈ rows, WF r) ∧ (rows.map rowBytes).flatten = b.drop p := by
  intro rem
  induction rem using Nat.strongRecOn with
  | _ rem ih =>
    intro p hp hmax
    rw [parseLoop]
    by_cases h0 : rem > 0
    case neg =>
      rw [dif_neg h0]
      right
      refine ⟨[], rfl, by simp, ?_⟩
      rw [List.drop_eq_nil_of_le (by omega)]; rfl
    rw [dif_pos h0]
    by_cases h8 : rem < 8
    · rw [dif_pos h8]; exact Or.inl rfl
    rw [dif_neg h8]
    obtain ⟨n, n1, n2, n3⟩ := rdInt_any hb (p := p) (by omega)
    obtain ⟨s, s1, s2, s3⟩ := rdInt_any hb (p := p + 4) (by omega)
    rw [n1, Res.ok_bind, s1, Res.ok_bind]
    by_cases hs : s < 0
    · rw [if_pos hs]; exact Or.inl rfl
    rw [if_neg hs]
    simp only
    by_cases hr : rem - 8 < (s * 8).toNat
    · rw [if_pos hr]; exact Or.inl rfl
    rw [if_neg hr, copyOut_ok (by omega), Res.ok_bind]
    rcases ih (rem - 8 - (s * 8).toNat) (by omega) (p + 8 + (s * 8).toNat) (by omega) hmax with h | ⟨rows, h1, h2, h3⟩
    · rw [h]; exact Or.inl rfl
    · rw [h1, Res.ok_bind]
      right
      have hbl : ((b.drop (p + 8)).take (s * 8).toNat).length = (s * 8).toNat := by
        rw [List.length_take, List.length_drop]; omega
      refine ⟨_, rfl, ?_, ?_⟩
      · intro r hr
        rcases List.mem_cons.1 hr with rfl | hr
        · refine ⟨n2, ?_, ?_, ?_⟩
          · unfold InI32 at s2; simp only; omega
          · simp only [hbl]; omega
          · intro x hx; exact hb x (List.mem_of_mem_drop (List.mem_of_mem_take hx))
        · exact h2 r hr
      · rw [List.map_cons, List.flatten_cons, h3]
        unfold rowBytes
        simp only [n3, s3]
        have e1 : b.drop p = (b.drop p).take 4 ++ b.drop (p + 4) := by
          rw [← List.drop_drop, List.take_append_drop]
        have e2 : b.drop (p + 4) = (b.drop (p + 4)).take 4 ++ b.drop (p + 8) := by
          rw [show p + 8 = p + 4 + 4 from rfl, ← List.drop_drop (i := 4) (j := p + 4), List.take_append_drop]
        have e3 : b.drop (p + 8) = (b.drop (p + 8)).take (s * 8).toNat ++ b.drop (p + 8 + (s * 8).toNat) := by
          rw [← List.drop_drop (i := (s * 8).toNat), List.take_append_drop]
        rw [List.append_assoc, List.append_assoc, ← e3, ← e2, ← e1]

/-- C15, arbitrary input: the decoder either raises `ValueError` or delivers well-formed
rows that encode to exactly the input; it never leaves the input and always terminates. -/
theorem C15_decode_any (b : List Nat) (hb : Bytes b) (hmax : b.length < 2^31) :
    fromBytes b = .raise .valueError ∨
    ∃ rows, fromBytes b = .ok rows ∧ (∀ r ∈ rows, WF r) ∧ toBytes rows = .ok b := by
  unfold fromBytes
  rcases parse_any b hb b.length 0 (by omega) hmax with h | ⟨rows, h1, h2, h3⟩
  · rw [h]; exact Or.inl rfl
  · rw [h1, Res.ok_bind]
    cases rows with
    | nil => exact Or.inl rfl
    | cons r rs =>
      right
      refine ⟨r :: rs, rfl, h2, ?_⟩
      rw [List.drop_zero] at h3
      obtain ⟨e1, e2⟩ := emit_spec _ h2
      rw [h3] at e1 e2
      unfold toBytes
      simp only [totalSize_needed _ h2]
      rw [if_neg (by omega), e1, Res.ok_bind, if_pos (by omega)]; rfl

/-- Different row sequences have different encodings. -/
theorem C15_injective (rows rows' : List Row) (h : ∀ r ∈ rows, WF r) (h' : ∀ r ∈ rows', WF r)
    (hne : rows ≠ []) (hne' : rows' ≠ []) (b : List Nat) (he : toBytes rows = .ok b)
    (he' : toBytes rows' = .ok b) : rows = rows' := by
  have h1 := C15_roundtrip rows h hne b he
  have h2 := C15_roundtrip rows' h' hne' b he'
  rw [h1] at h2; exact Res.ok.inj h2

/-- Non-trivial instances of the hypotheses. -/
example : WF ⟨-17, 1, [1, 2, 3, 4, 5, 6, 7, 255]⟩ :=
  ⟨by decide, by decide, by decide, by unfold Bytes; decide⟩
example : toBytes [⟨-17, 1, [1, 2, 3, 4, 5, 6, 7, 255]⟩, ⟨3, 0, []⟩] =
    .ok [239, 255, 255, 255, 1, 0, 0, 0, 1, 2, 3, 4, 5, 6, 7, 255, 3, 0, 0, 0, 0, 0, 0, 0] := by decide

end Verif.Serial
