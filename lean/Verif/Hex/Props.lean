import Verif.Hex.Model
import Mathlib.Tactic.Ring
/-!
# C14: hex, bin, chr and ord
-/
namespace Verif.Hex
open Verif Verif.Search Verif.Str

/-! ### Specification -/

/-- `c` is the character of a hexadecimal digit of value `v`. -/
inductive HexChar : Nat → Nat → Prop
  | dec (d : Nat) : d < 10 → HexChar (48 + d) d
  | low (d : Nat) : d < 6 → HexChar (97 + d) (10 + d)
  | upp (d : Nat) : d < 6 → HexChar (65 + d) (10 + d)

/-- `l` is a text of hexadecimal digits, two for each byte of `b`. -/
inductive HexText : List Nat → List Nat → Prop
  | nil : HexText [] []
  | cons {h l a b t bs} : HexChar h a → HexChar l b → HexText t bs → HexText (h :: l :: t) ((16 * a + b) :: bs)

/-- The string object `s` has the bytes `l`. -/
def HasBytes (s : Str) (l : List Nat) : Prop := s.nbytes = l.length ∧ s.buf = l ++ [0]

instance (s : Str) (l : List Nat) : Decidable (HasBytes s l) := by unfold HasBytes; infer_instance

/-- `ds` is the positional representation of `n` in base `B`, without leading zeros. -/
def Positional (B : Nat) (ds : List Nat) (n : Nat) : Prop :=
  ds.foldl (fun acc d => B * acc + d) 0 = n ∧ (∀ d ∈ ds, d < B) ∧ ds ≠ [] ∧ (ds.head? = some 0 → ds = [0])

/-! ### from_hex -/

theorem hexVal_iff (c v : Nat) : hexVal c = .ok v ↔ HexChar c v := by
  unfold hexVal
  constructor
  · intro h
    split at h
    · next hc => cases h; have := HexChar.dec (c - 48) (by omega); rwa [show 48 + (c - 48) = c by omega] at this
    split at h
    · next hc =>
      cases h; have := HexChar.low (c - 97) (by omega)
      rwa [show 97 + (c - 97) = c by omega, show 10 + (c - 97) = c - 97 + 10 by omega] at this
    split at h
    · next hc =>
      cases h; have := HexChar.upp (c - 65) (by omega)
      rwa [show 65 + (c - 65) = c by omega, show 10 + (c - 65) = c - 65 + 10 by omega] at this
    · cases h
  · rintro (⟨d, h⟩ | ⟨d, h⟩ | ⟨d, h⟩)
    · rw [if_pos (by omega)]; congr 1; omega
    · rw [if_neg (by omega), if_pos (by omega)]; congr 1; omega
    · rw [if_neg (by omega), if_neg (by omega), if_pos (by omega)]; congr 1; omega

theorem hexVal_cases (c : Nat) : (∃ v, hexVal c = .ok v) ∨ hexVal c = .raise .valueError := by
  unfold hexVal
  split
  · exact .inl ⟨_, rfl⟩
  split
  · exact .inl ⟨_, rfl⟩
  split
  · exact .inl ⟨_, rfl⟩
  · exact .inr rfl

theorem getB_mid (p t : List Nat) (c : Nat) (i : Int) (hi : i = p.length) : getB (p ++ c :: t) i = .ok c := by
  subst hi
  simp [getB]

theorem fromHexLoop_spec : ∀ (n : Nat) (pre l post : List Nat), l.length = 2 * n →
    (∀ b, fromHexLoop (pre ++ l ++ post) n pre.length = .ok b ↔ HexText l b) ∧
    ((∃ b, fromHexLoop (pre ++ l ++ post) n pre.length = .ok b) ∨
      fromHexLoop (pre ++ l ++ post) n pre.length = .raise .valueError) := by
  intro n
  induction n with
  | zero =>
    intro pre l post hl
    have : l = [] := List.length_eq_zero_iff.1 (by omega)
    subst this
    refine ⟨?_, .inl ⟨[], rfl⟩⟩
    intro b
    constructor
    · intro h; cases h; exact .nil
    · intro h; cases h; rfl
  | succ n ih =>
    intro pre l post hl
    match l, hl with
    | h :: lo :: t, hl =>
      have e1 : getB (pre ++ (h :: lo :: t) ++ post) pre.length = .ok h := by
        rw [List.append_assoc]; exact getB_mid _ _ _ _ rfl
      have e2 : getB (pre ++ (h :: lo :: t) ++ post) (pre.length + 1) = .ok lo := by
        rw [show pre ++ (h :: lo :: t) ++ post = (pre ++ [h]) ++ lo :: (t ++ post) by simp]
        exact getB_mid _ _ _ _ (by simp)
      have ih' := ih (pre ++ [h, lo]) t post (by simp at hl; omega)
      rw [show pre ++ [h, lo] ++ t ++ post = pre ++ (h :: lo :: t) ++ post by simp,
        show ((pre ++ [h, lo]).length : Int) = (pre.length : Int) + 2 by simp] at ih'
      unfold fromHexLoop
      rw [e1, Res.ok_bind, e2, Res.ok_bind]
      rcases hexVal_cases h with ⟨a, ha⟩ | ha
      · rcases hexVal_cases lo with ⟨c, hc⟩ | hc
        · rw [ha, Res.ok_bind, hc, Res.ok_bind]
          rcases ih'.2 with ⟨b, hb⟩ | hb
          · rw [hb, Res.ok_bind]
            refine ⟨?_, .inl ⟨_, rfl⟩⟩
            intro b'
            constructor
            · intro e; cases e
              rw [Nat.mul_comm a 16]
              exact .cons ((hexVal_iff _ _).1 ha) ((hexVal_iff _ _).1 hc) ((ih'.1 b).1 hb)
            · intro e
              cases e with
              | cons h1 h2 h3 =>
                have g1 := (hexVal_iff _ _).2 h1
                have g2 := (hexVal_iff _ _).2 h2
                have g3 := (ih'.1 _).2 h3
                rw [ha] at g1; rw [hc] at g2; rw [hb] at g3
                cases g1; cases g2; cases g3
                rw [Nat.mul_comm]; rfl
          · rw [hb]
            refine ⟨?_, .inr rfl⟩
            intro b'
            constructor
            · intro e; cases e
            · intro e
              cases e with
              | cons h1 h2 h3 => have := (ih'.1 _).2 h3; rw [hb] at this; cases this
        · rw [ha, Res.ok_bind, hc]
          refine ⟨?_, .inr rfl⟩
          intro b'
          constructor
          · intro e; cases e
          · intro e
            cases e with
            | cons h1 h2 h3 => have := (hexVal_iff _ _).2 h2; rw [hc] at this; cases this
      · rw [ha]
        refine ⟨?_, .inr rfl⟩
        intro b'
        constructor
        · intro e; cases e
        · intro e
          cases e with
          | cons h1 h2 h3 => have := (hexVal_iff _ _).2 h1; rw [ha] at this; cases this

theorem HexText.even {l b : List Nat} (h : HexText l b) : l.length = 2 * b.length := by
  induction h with
  | nil => rfl
  | cons _ _ _ ih => simp; omega

/-- `from_hex` gives the bytes whose hexadecimal text the string is, and `ValueError` if there are
none. -/
theorem C14_from_hex {s : Str} {l : List Nat} (hs : HasBytes s l) :
    (∀ b, fromHex s = .ok b ↔ HexText l b) ∧
    ((¬ ∃ b, HexText l b) → fromHex s = .raise .valueError) := by
  obtain ⟨h1, h2⟩ := hs
  unfold fromHex
  by_cases h0 : l = []
  · subst h0
    rw [if_pos (by simpa using h1)]
    refine ⟨?_, fun h => absurd ⟨[], .nil⟩ h⟩
    intro b
    constructor
    · intro e; cases e; exact .nil
    · intro e; cases e; rfl
  have hl : 0 < l.length := List.length_pos_iff.2 h0
  rw [if_neg (by omega)]
  have ht : s.nbytes.tmod 2 = ((l.length % 2 : Nat) : Int) := by
    rw [h1]; rfl
  by_cases hev : l.length % 2 = 0
  · rw [if_neg (by rw [ht]; omega)]
    have hd : (s.nbytes.tdiv 2).toNat = l.length / 2 := by
      rw [h1]; rfl
    have := fromHexLoop_spec (l.length / 2) [] l [0] (by omega)
    rw [hd, h2]
    simp only [List.nil_append, List.length_nil, Int.natCast_zero] at this
    refine ⟨this.1, ?_⟩
    intro hn
    rcases this.2 with ⟨b, hb⟩ | hb
    · exact absurd ⟨b, (this.1 b).1 hb⟩ hn
    · exact hb
  · rw [if_pos (by rw [ht]; omega)]
    refine ⟨?_, fun _ => rfl⟩
    intro b
    constructor
    · intro e; cases e
    · intro e; have := e.even; omega

example : HasBytes ⟨4, 4, [48, 102, 65, 57, 0]⟩ [48, 102, 65, 57] ∧
    fromHex ⟨4, 4, [48, 102, 65, 57, 0]⟩ = .ok [15, 169] := by decide +kernel

/-! ### bytes.hex -/

theorem hexDigit_char {d : Nat} (h : d < 16) : HexChar (hexDigit d) d := by
  unfold hexDigit
  split
  · exact .dec d (by assumption)
  · have := HexChar.low (d - 10) (by omega)
    rwa [show 97 + (d - 10) = 87 + d by omega, show 10 + (d - 10) = d by omega] at this

theorem hexBytes_text : ∀ {b : List Nat}, (∀ x ∈ b, x < 256) → HexText (hexBytes b) b := by
  intro b
  induction b with
  | nil => intro _; exact .nil
  | cons x b ih =>
    intro h
    have hx := h x (List.mem_cons_self)
    have := HexText.cons (hexDigit_char (d := x / 16) (by omega)) (hexDigit_char (d := x % 16) (by omega))
      (ih fun y hy => h y (List.mem_cons_of_mem _ hy))
    rwa [Nat.div_add_mod] at this

theorem hexDigit_range {d : Nat} (h : d < 16) : 0 < hexDigit d ∧ hexDigit d < 0x80 := by
  unfold hexDigit; split <;> omega

theorem hexBytes_range {b : List Nat} (hb : ∀ x ∈ b, x < 256) : ∀ c ∈ hexBytes b, 0 < c ∧ c < 0x80 := by
  intro c hc
  unfold hexBytes at hc
  simp only [List.mem_flatMap, List.mem_cons, List.not_mem_nil, or_false] at hc
  obtain ⟨x, hx, hc⟩ := hc
  have := hb x hx
  rcases hc with rfl | rfl
  · exact hexDigit_range (by omega)
  · exact hexDigit_range (by omega)

theorem cstr_append {l r : List Nat} (h : ∀ c ∈ l, 0 < c) : cstr (l ++ 0 :: r) = .ok l := by
  induction l with
  | nil => simp [cstr]
  | cons c l ih =>
    have : c ≠ 0 := by have := h c (List.mem_cons_self); omega
    rw [List.cons_append, cstr, if_neg this, ih fun x hx => h x (List.mem_cons_of_mem _ hx)]
    rfl

/-- `bytes.hex` gives the hexadecimal text. Missing: the block has no terminating zero, so this
holds only if the memory behind it happens to start with a zero byte. -/
theorem C14_hex_bytes_partial {b after : List Nat} (hb : ∀ x ∈ b, x < 256) :
    ∃ s, hexOfBytes b (0 :: after) = .ok s ∧ s.nchars = 2 * b.length ∧
      (∃ l, HasBytes s l ∧ HexText l b) ∧ fromHex s = .ok b := by
  have ht := hexBytes_text hb
  have hs : ∃ s, hexOfBytes b (0 :: after) = .ok s ∧ s.nchars = 2 * b.length ∧ HasBytes s (hexBytes b) := by
    unfold hexOfBytes
    split
    · next h => subst h; exact ⟨nullStr, rfl, rfl, by decide⟩
    · unfold toStrNoc
      rw [cstr_append fun c hc => (hexBytes_range hb c hc).1, Res.ok_bind]
      rw [if_pos (by simpa using fun c hc => (hexBytes_range hb c hc).2)]
      refine ⟨_, rfl, ?_, rfl, rfl⟩
      have := ht.even
      simp only; omega
  obtain ⟨s, h1, h2, h3⟩ := hs
  exact ⟨s, h1, h2, ⟨_, h3, ht⟩, ((C14_from_hex h3).1 b).2 ht⟩

example : (∀ x ∈ [0, 171, 255], x < 256) ∧
    hexOfBytes [0, 171, 255] [0] = .ok ⟨6, 6, [48, 48, 97, 98, 102, 102, 0]⟩ := by decide +kernel

/-- With other bytes behind the block, they become part of the text, and `from_hex` fails or gives
other bytes; with no zero byte before the end of the memory the read leaves it. -/
theorem C14_refuted_hex_bytes :
    hexOfBytes [171] [49, 0] = .ok ⟨3, 3, [97, 98, 49, 0]⟩ ∧
    fromHex ⟨3, 3, [97, 98, 49, 0]⟩ = .raise .valueError ∧
    hexOfBytes [171] [] = .ub := by decide +kernel

/-! ### hex and bin of integers -/

theorem and_mask (u k j : Nat) : u &&& ((2 ^ j - 1) * 2 ^ k) = u / 2 ^ k % 2 ^ j * 2 ^ k := by
  apply Nat.eq_of_testBit_eq
  intro i
  rw [Nat.testBit_and, Nat.testBit_mul_two_pow, Nat.testBit_mul_two_pow, Nat.testBit_mod_two_pow,
    Nat.testBit_div_two_pow, Nat.testBit_two_pow_sub_one]
  by_cases h : k ≤ i
  · simp [h, Bool.and_comm]
  · simp [h]

theorem narrow_spec {u n mask s k j : Nat} (hm : mask = (2 ^ j - 1) * 2 ^ s) (hu : u < 2 ^ (s + j)) :
    narrow mask s k (u, n) = if 2 ^ s ≤ u then (u / 2 ^ s, n + k) else (u, n) := by
  unfold narrow
  simp only
  rw [hm, and_mask]
  have hlt : u / 2 ^ s < 2 ^ j := by
    rw [Nat.div_lt_iff_lt_mul (Nat.two_pow_pos s), ← Nat.pow_add, Nat.add_comm]; exact hu
  rw [Nat.mod_eq_of_lt hlt, Nat.shiftRight_eq_div_pow]
  by_cases h : 2 ^ s ≤ u
  · rw [if_pos h, if_pos]
    have : 0 < u / 2 ^ s := Nat.div_pos h (Nat.two_pow_pos s)
    have := Nat.mul_pos this (Nat.two_pow_pos s)
    omega
  · rw [if_neg h, if_neg]
    rw [Nat.div_eq_of_lt (by omega)]; simp

/-- A state `(v, n)` of the narrowing: the digits of base `2^e` of `u` are `n - 1` plus those of `v`. -/
def Nar (e u : Nat) (vn : Nat × Nat) : Prop :=
  1 ≤ vn.2 ∧ vn.1 = u / 2 ^ (e * (vn.2 - 1)) ∧ (1 < vn.2 → 0 < vn.1)

theorem Nar.step {e u mask s k j : Nat} {vn : Nat × Nat} (h : Nar e u vn) (hm : mask = (2 ^ j - 1) * 2 ^ s)
    (hu : vn.1 < 2 ^ (s + j)) (hs : s = e * k) :
    Nar e u (narrow mask s k vn) ∧ (narrow mask s k vn).1 < max (2 ^ s) (2 ^ j) := by
  obtain ⟨v, n⟩ := vn
  rw [narrow_spec hm hu]
  obtain ⟨h1, h2, h3⟩ := h
  simp only at h1 h2 h3 hu
  split
  · next hle =>
    refine ⟨⟨by simp only; omega, ?_, ?_⟩, ?_⟩
    · simp only
      rw [h2, Nat.div_div_eq_div_mul, ← Nat.pow_add, hs]
      congr 2
      rw [show n + k - 1 = n - 1 + k by omega, Nat.mul_add]
    · intro _; exact Nat.div_pos hle (Nat.two_pow_pos s)
    · simp only
      have : v / 2 ^ s < 2 ^ j := by
        rw [Nat.div_lt_iff_lt_mul (Nat.two_pow_pos s), ← Nat.pow_add, Nat.add_comm]; exact hu
      omega
  · exact ⟨⟨h1, h2, h3⟩, by simp only; omega⟩

theorem nhexs_spec {u : Nat} (hu : u < 2 ^ 64) :
    1 ≤ nhexs u ∧ u / 16 ^ (nhexs u - 1) < 16 ∧ (1 < nhexs u → 0 < u / 16 ^ (nhexs u - 1)) := by
  have h0 : Nar 4 u (u, 1) := ⟨by simp, by simp, by simp⟩
  obtain ⟨h1, b1⟩ := h0.step (mask := 0xffffffff00000000) (s := 32) (k := 8) (j := 32) (by decide) hu (by decide)
  obtain ⟨h2, b2⟩ := h1.step (mask := 0xffff0000) (s := 16) (k := 4) (j := 16) (by decide) (by simpa using b1) (by decide)
  obtain ⟨h3, b3⟩ := h2.step (mask := 0xff00) (s := 8) (k := 2) (j := 8) (by decide) (by simpa using b2) (by decide)
  obtain ⟨h4, b4⟩ := h3.step (mask := 0xf0) (s := 4) (k := 1) (j := 4) (by decide) (by simpa using b3) (by decide)
  obtain ⟨c1, c2, c3⟩ := h4
  unfold nhexs
  generalize narrow 0xf0 4 1 _ = z at *
  have e : u / 16 ^ (z.2 - 1) = z.1 := by
    rw [c2, Nat.pow_mul]
  rw [e]
  exact ⟨c1, by simpa using b4, c3⟩

theorem nbits_spec {u : Nat} (hu : u < 2 ^ 64) :
    1 ≤ nbits u ∧ u / 2 ^ (nbits u - 1) < 2 ∧ (1 < nbits u → 0 < u / 2 ^ (nbits u - 1)) := by
  have h0 : Nar 1 u (u, 1) := ⟨by simp, by simp, by simp⟩
  obtain ⟨h1, b1⟩ := h0.step (mask := 0xffffffff00000000) (s := 32) (k := 32) (j := 32) (by decide) hu (by decide)
  obtain ⟨h2, b2⟩ := h1.step (mask := 0xffff0000) (s := 16) (k := 16) (j := 16) (by decide) (by simpa using b1) (by decide)
  obtain ⟨h3, b3⟩ := h2.step (mask := 0xff00) (s := 8) (k := 8) (j := 8) (by decide) (by simpa using b2) (by decide)
  obtain ⟨h4, b4⟩ := h3.step (mask := 0xf0) (s := 4) (k := 4) (j := 4) (by decide) (by simpa using b3) (by decide)
  obtain ⟨h5, b5⟩ := h4.step (mask := 0xc) (s := 2) (k := 2) (j := 2) (by decide) (by simpa using b4) (by decide)
  obtain ⟨h6, b6⟩ := h5.step (mask := 0x2) (s := 1) (k := 1) (j := 1) (by decide) (by simpa using b5) (by decide)
  obtain ⟨c1, c2, c3⟩ := h6
  unfold nbits
  generalize narrow 0x2 1 1 _ = z at *
  have e : u / 2 ^ (z.2 - 1) = z.1 := by
    rw [c2, Nat.one_mul]
  rw [e]
  exact ⟨c1, by simpa using b6, c3⟩

/-- The digits `n-1, …, 0` of `u` in base `B`. -/
def digs (B u : Nat) : Nat → List Nat
  | 0 => []
  | i + 1 => (u / B ^ i % B) :: digs B u i

theorem digs_fold (B u : Nat) : ∀ (n acc : Nat),
    (digs B u n).foldl (fun a d => B * a + d) acc = acc * B ^ n + u % B ^ n := by
  intro n
  induction n with
  | zero => intro acc; simp [digs, Nat.mod_one]
  | succ n ih =>
    intro acc
    rw [digs, List.foldl_cons, ih, Nat.pow_succ, Nat.mod_mul]
    ring

theorem digs_positional {B u n : Nat} (hB : 2 ≤ B) (h1 : 1 ≤ n) (h2 : u / B ^ (n - 1) < B)
    (h3 : 1 < n → 0 < u / B ^ (n - 1)) : Positional B (digs B u n) u := by
  obtain ⟨m, rfl⟩ : ∃ m, n = m + 1 := ⟨n - 1, by omega⟩
  rw [Nat.add_sub_cancel] at h2 h3
  refine ⟨?_, ?_, by simp [digs], ?_⟩
  · rw [digs_fold, Nat.zero_mul, Nat.zero_add]
    apply Nat.mod_eq_of_lt
    rw [Nat.div_lt_iff_lt_mul (Nat.pow_pos (by omega))] at h2
    rw [Nat.pow_succ, Nat.mul_comm]; exact h2
  · have : ∀ k, ∀ d ∈ digs B u k, d < B := by
      intro k
      induction k with
      | zero => simp [digs]
      | succ k ih =>
        intro d hd
        rw [digs, List.mem_cons] at hd
        rcases hd with rfl | hd
        · exact Nat.mod_lt _ (by omega)
        · exact ih d hd
    exact this _
  · intro h
    simp only [digs, List.head?_cons, Option.some.injEq] at h
    rw [Nat.mod_eq_of_lt h2] at h
    have : m = 0 := by
      by_contra hm
      have := h3 (by omega)
      omega
    subst this
    simp only [digs]
    rw [h]; rfl

theorem hexDigits_eq (u n : Nat) : hexDigits u n = (digs 16 u n).map hexDigit := by
  induction n with
  | zero => rfl
  | succ n ih =>
    rw [hexDigits, digs, List.map_cons, ih]
    congr 2
    rw [Nat.shiftRight_eq_div_pow, show (0xf : Nat) = 2 ^ 4 - 1 by decide, Nat.and_two_pow_sub_one_eq_mod,
      Nat.pow_mul]

theorem binDigits_eq (u n : Nat) : binDigits u n = (digs 2 u n).map (48 + ·) := by
  induction n with
  | zero => rfl
  | succ n ih =>
    rw [binDigits, digs, List.map_cons, ih]
    congr 1
    rw [Nat.one_shiftLeft]
    have := and_mask u n 1
    simp only [Nat.pow_one, Nat.add_one_sub_one, Nat.one_mul] at this
    rw [this]
    have hp := Nat.two_pow_pos n
    rcases Nat.mod_two_eq_zero_or_one (u / 2 ^ n) with h | h <;> rw [h] <;> simp

theorem hexDigits_length (u n : Nat) : (hexDigits u n).length = n := by
  induction n with
  | zero => rfl
  | succ n ih => simp [hexDigits, ih]

theorem binDigits_length (u n : Nat) : (binDigits u n).length = n := by
  induction n with
  | zero => rfl
  | succ n ih => simp [binDigits, ih]

theorem mkStr_ok {n : Int} {l : List Nat} (h : n = l.length) : mkStr n n l = .ok ⟨n, n, l ++ [0]⟩ := by
  unfold mkStr; rw [if_pos ⟨by omega, h⟩]

theorem natAbs_lt {v : Int} (h : InI64 v) : v.natAbs < 2 ^ 64 := by unfold InI64 at h; omega

/-- `hex(n)`: the sign, `0x` and the hexadecimal digits. -/
theorem C14_hex {v : Int} (hv : InI64 v) : ∃ s ds, hex v = .ok s ∧ Positional 16 ds v.natAbs ∧
    HasBytes s ((if v < 0 then [45] else []) ++ [48, 120] ++ ds.map hexDigit) ∧ s.nchars = s.nbytes := by
  obtain ⟨h1, h2, h3⟩ := nhexs_spec (natAbs_lt hv)
  have he : hex v = _ := mkStr_ok (by rw [List.length_append, hexDigits_length]; simp)
  refine ⟨_, digs 16 v.natAbs (nhexs v.natAbs), he, digs_positional (by omega) h1 h2 h3, ?_, rfl⟩
  · rw [← hexDigits_eq]
    refine ⟨?_, rfl⟩
    simp only [List.length_append, hexDigits_length]
    simp [signBytes]

example : InI64 (-2 ^ 63) ∧ hex (-255) = .ok ⟨5, 5, [45, 48, 120, 102, 102, 0]⟩ := by decide +kernel

/-- `bin(n)`: the sign, `0b` and the binary digits. -/
theorem C14_bin {v : Int} (hv : InI64 v) : ∃ s ds, bin v = .ok s ∧ Positional 2 ds v.natAbs ∧
    HasBytes s ((if v < 0 then [45] else []) ++ [48, 98] ++ ds.map (48 + ·)) ∧ s.nchars = s.nbytes := by
  obtain ⟨h1, h2, h3⟩ := nbits_spec (natAbs_lt hv)
  have he : bin v = _ := mkStr_ok (by rw [List.length_append, binDigits_length]; simp)
  refine ⟨_, digs 2 v.natAbs (nbits v.natAbs), he, digs_positional (by omega) h1 h2 h3, ?_, rfl⟩
  · rw [← binDigits_eq]
    refine ⟨?_, rfl⟩
    simp only [List.length_append, binDigits_length]
    simp [signBytes]

example : InI64 0 ∧ bin 0 = .ok ⟨3, 3, [48, 98, 48, 0]⟩ ∧ bin 5 = .ok ⟨5, 5, [48, 98, 49, 48, 49, 0]⟩ := by
  decide +kernel

/-! ### chr and ord -/

/-- Surrogate code points have no UTF-8 encoding. -/
def Surrogate (n : Int) : Prop := 0xd800 ≤ n ∧ n < 0xe000

theorem iterate_enc1 {c : Nat} (hc : c < 0x110000) (hs : ¬ Surrogate c) (r : List Nat) :
    iterate (enc1 c ++ r) = .ok (some (c, (enc1 c).length)) := by
  unfold Surrogate at hs
  unfold enc1
  split
  · simp [iterate]; omega
  split
  · simp only [List.cons_append, List.nil_append, iterate, List.length_cons, List.length_nil]
    rw [if_neg (by omega), if_neg (by omega), if_neg (by omega), if_pos (by omega)]
    congr 3; omega
  split
  · simp only [List.cons_append, List.nil_append, iterate, List.length_cons, List.length_nil]
    rw [if_neg (by omega), if_neg (by omega), if_neg (by omega), if_neg (by omega), if_neg (by omega),
      if_pos (by omega), if_neg (by omega), if_neg (by omega)]
    congr 3; omega
  · simp only [List.cons_append, List.nil_append, iterate, List.length_cons, List.length_nil]
    rw [if_neg (by omega), if_neg (by omega), if_neg (by omega), if_neg (by omega), if_neg (by omega),
      if_neg (by omega), if_neg (by omega), if_neg (by omega), if_neg (by omega)]
    congr 3; omega

theorem chr_eq {v : Int} (h0 : 0 ≤ v) (h1 : v < 0x110000) :
    chr v = .ok ⟨1, (enc1 v.toNat).length, enc1 v.toNat ++ [0]⟩ := by
  unfold chr
  rw [if_neg (by omega)]
  split
  · next h =>
    have : enc1 v.toNat = [v.toNat] := by unfold enc1; rw [if_pos (by omega)]
    rw [this]; rfl
  · rw [wrap32_of_in ⟨by omega, by omega⟩]
    have : encodeChar v = enc1 v.toNat := by unfold encodeChar; rw [if_neg (by omega), if_pos h1]
    simp only [this]
    have hl := (enc1_length (c := v.toNat)).1
    rw [if_neg (by intro h; rw [h] at hl; simp at hl)]
    unfold mkStr
    rw [if_pos ⟨by omega, rfl⟩]

/-- `chr(n)` is the string of the one code point `n`. -/
theorem C14_chr {v : Int} (h0 : 0 ≤ v) (h1 : v < 0x110000) :
    ∃ s, chr v = .ok s ∧ s.nchars = 1 ∧ HasBytes s (enc1 v.toNat) := ⟨_, chr_eq h0 h1, rfl, rfl, rfl⟩

/-- `chr(n)` for a number beyond the code points. -/
theorem C14_chr_error {v : Int} (h1 : 0x110000 ≤ v) : chr v = .raise .valueError := by
  unfold chr; rw [if_pos h1]

/-- `ord(chr(n)) == n`. Missing: surrogates (`C14_refuted_surrogate`). -/
theorem C14_ord_chr_partial {v : Int} (h0 : 0 ≤ v) (h1 : v < 0x110000) (hs : ¬ Surrogate v) :
    (do let s ← chr v; ord s) = .ok v := by
  rw [chr_eq h0 h1, Res.ok_bind]
  unfold ord
  rw [if_neg (by simp)]
  simp only
  rw [iterate_enc1 (by omega) (by rwa [Int.toNat_of_nonneg h0])]
  simp only [Res.ok_bind, Res.pure_eq]
  congr 1; omega

example : (0 : Int) ≤ 0x1F600 ∧ (0x1F600 : Int) < 0x110000 ∧ ¬ Surrogate 0x1F600 := by
  unfold Surrogate; decide

/-- A string of one code point that is not a surrogate has that code point as its `ord`. -/
theorem C14_ord {s : Str} {c : Nat} (hc : c < 0x110000) (hs : ¬ Surrogate c) (hb : HasBytes s (enc1 c))
    (hn : s.nchars = 1) : ord s = .ok c := by
  unfold ord
  rw [if_neg (by omega), hb.2, iterate_enc1 hc hs]
  rfl

example : (0xe9 : Nat) < 0x110000 ∧ ¬ Surrogate (0xe9 : Nat) ∧ HasBytes ⟨1, 2, [0xc3, 0xa9, 0]⟩ (enc1 0xe9) := by
  unfold Surrogate; decide

/-- A string of another length. -/
theorem C14_ord_error {s : Str} (hn : s.nchars ≠ 1) : ord s = .raise .valueError := by
  unfold ord; rw [if_pos hn]

/-- `chr(0xd800)` succeeds with a string that is not UTF-8. -/
theorem C14_refuted_surrogate : chr 0xd800 = .ok ⟨1, 3, [0xed, 0xa0, 0x80, 0]⟩ ∧
    ord ⟨1, 3, [0xed, 0xa0, 0x80, 0]⟩ = .raise .valueError := by decide +kernel

/-- A negative number is cut to 32 bits: `chr(65 - 2**32) == "A"`. -/
theorem C14_refuted_negative : chr (65 - 2 ^ 32) = .ok ⟨1, 1, [65, 0]⟩ := by decide +kernel

/-- A negative number of 32 bits raises. -/
theorem C14_chr_negative {v : Int} (h : -2 ^ 31 ≤ v) (h1 : v < 0) : chr v = .raise .valueError := by
  unfold chr
  rw [if_neg (by omega), if_neg (by omega), wrap32_of_in ⟨by omega, by omega⟩]
  have : encodeChar v = [] := by unfold encodeChar; rw [if_pos h1]
  simp [this]

end Verif.Hex
