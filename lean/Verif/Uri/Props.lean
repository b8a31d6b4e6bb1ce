import Verif.Uri.Model
import Verif.Hex.Props
import Mathlib.Data.List.TakeWhile
/-!
# C33: percent-encoding
-/
namespace Verif.Uri
open Verif Verif.Search Verif.Str
open Verif.Hex (HexChar Surrogate)

/-! ### Specification -/

/-- The unreserved characters of RFC 3986. -/
def Unreserved (c : Nat) : Prop :=
  (97 ≤ c ∧ c ≤ 122) ∨ (65 ≤ c ∧ c ≤ 90) ∨ (48 ≤ c ∧ c ≤ 57) ∨ c = 45 ∨ c = 46 ∨ c = 95 ∨ c = 126

/-- `c` is a hexadecimal digit of value `v`, in upper case. -/
inductive HexUpper : Nat → Nat → Prop
  | dec (d : Nat) : d < 10 → HexUpper (48 + d) d
  | upp (d : Nat) : d < 6 → HexUpper (65 + d) (10 + d)

/-- `q` is the percent-encoding of the bytes `b`: unreserved characters and those of `safe` stand for
themselves, the other bytes are escaped. (A NUL character in `safe` hides those behind it.) -/
inductive Quoted (safe : List Nat) : List Nat → List Nat → Prop
  | nil : Quoted safe [] []
  | plain {c q b} : c < 128 → Unreserved c ∨ c ∈ safe → Quoted safe q b → Quoted safe (c :: q) (c :: b)
  | esc {h l x y q b} : HexUpper h x → HexUpper l y → ¬ Unreserved (16 * x + y) →
      (16 * x + y < 128 → 16 * x + y ∈ safe → 0 ∈ safe) → Quoted safe q b →
      Quoted safe (37 :: h :: l :: q) ((16 * x + y) :: b)

/-- `b` are the bytes that the text denotes: an escape denotes one byte, other characters their UTF-8
encoding. -/
inductive Denotes : List Nat → List Nat → Prop
  | nil : Denotes [] []
  | plain {c t b} : c ≠ 37 → Denotes t b → Denotes (c :: t) (enc1 c ++ b)
  | esc {h l x y t b} : HexChar h x → HexChar l y → Denotes t b → Denotes (37 :: h :: l :: t) ((16 * x + y) :: b)

/-- Unicode scalar values: code points that are not surrogates. -/
def Scalars (t : List Nat) : Prop := ∀ c ∈ t, CodePoint c ∧ ¬ Surrogate c

/-! ### Characters -/

theorem enc_ascii {l : List Nat} (h : ∀ c ∈ l, c < 128) : enc l = l := by
  induction l with
  | nil => rfl
  | cons c l ih =>
    rw [enc_cons, ih fun x hx => h x (List.mem_cons_of_mem _ hx)]
    have : enc1 c = [c] := by unfold enc1; rw [if_pos (h c (by simp))]
    rw [this]; rfl

theorem ascii_repr {l : List Nat} (h : ∀ c ∈ l, c < 128) (hs : l.length < 2 ^ 31) : Repr (asciiStr l) l := by
  refine ⟨fun c hc => by have := h c hc; unfold CodePoint; omega, rfl, ?_, ?_, ?_⟩ <;> rw [enc_ascii h]
  · rfl
  · rfl
  · exact hs

theorem repr_ext {s s' : Str} {t : List Nat} (h : Repr s t) (h' : Repr s' t) : s = s' := by
  cases s; cases s'
  have := h.nc; have := h.nb; have := h.buf; have := h'.nc; have := h'.nb; have := h'.buf
  simp_all

theorem eq_char {s s' : Str} {c d : Nat} (h : Repr s [c]) (h' : Repr s' [d]) (hd : d ≠ 0) :
    eq s s' = .ok (decide (c = d)) := by
  by_cases hc : c = 0
  · subst hc
    obtain ⟨b, bs, e, -⟩ := enc1_shape (h'.cp d (by simp))
    have hb : b ≠ 0 := by
      intro h0; subst h0
      have := enc1_no_zero hd
      rw [e] at this; simp at this
    unfold eq
    rw [h.buf, h'.buf, enc_singleton, enc_singleton, e]
    show (do let c ← strcmp (0 :: [0]) (b :: (bs ++ [0])); return decide (c = 0)) = _
    rw [strcmp, if_pos (Ne.symm hb), if_pos (by omega)]
    simp only [Res.ok_bind]
    simp [Ne.symm hd]
  · obtain ⟨e, -, -, h1, -, -, h2, -⟩ := C36_compare_partial h h' (by simpa using Ne.symm hc) (by simpa using Ne.symm hd)
    rw [h1]
    congr 1
    rw [Bool.eq_iff_iff, h2]
    simp

theorem isIn_spec {s : Str} {c : Nat} (h : Repr s [c]) : ∀ {ss : List Str} {l : List Nat},
    Reprs ss (l.map fun c => [c]) → 0 ∉ l → isIn s ss = .ok (decide (c ∈ l)) := by
  intro ss l
  induction l generalizing ss with
  | nil => intro hs _; cases hs; simp [isIn]
  | cons d l ih =>
    intro hs hz
    cases hs with
    | cons h1 h2 =>
      simp only [List.mem_cons, not_or] at hz
      rw [isIn, eq_char h h1 (Ne.symm hz.1), Res.ok_bind]
      by_cases hcd : c = d
      · simp [hcd]
      · rw [ih h2 hz.2]
        simp [hcd]

/-- Iterating over a string stops at the first NUL character. -/
theorem iterate_nul {s : Str} {t : List Nat} (h : Repr s t) : ∀ f k, k ≤ (t.takeWhile (· ≠ 0)).length →
    (t.takeWhile (· ≠ 0)).length - k < f →
    ∃ rs, iterate s f (off t k : Nat) = .ok rs ∧ Reprs rs (((t.takeWhile (· ≠ 0)).drop k).map (fun c => [c])) := by
  intro f
  induction f with
  | zero => intro k _ hf; omega
  | succ f ih =>
    intro k hk hf
    unfold iterate next
    have hpre : t.takeWhile (· ≠ 0) <+: t := List.takeWhile_prefix _
    have hlen := hpre.length_le
    by_cases hlt : k < (t.takeWhile (· ≠ 0)).length
    · have hlt' : k < t.length := by omega
      have hget : (t.takeWhile (· ≠ 0))[k] = t[k] := hpre.getElem hlt
      obtain ⟨b, hb, hl, hbz⟩ := h.lead hlt'
      have hb0 : b ≠ 0 := by
        rw [Ne, hbz, ← hget]
        have := List.getElem_mem hlt
        have := List.mem_takeWhile_imp this
        simpa using this
      obtain ⟨r, e, hr⟩ := mkChar_spec h hlt'
      rw [hb, Res.ok_bind, if_pos hb0, e, Res.ok_bind, hl, ← Int.natCast_add, ← off_succ hlt']
      obtain ⟨rs, e2, hrs⟩ := ih (k + 1) (by omega) (by omega)
      refine ⟨r :: rs, ?_, ?_⟩
      · show (do let r' ← iterate s f (off t (k + 1) : Nat); return r :: r') = _
        rw [e2]; rfl
      · rw [List.drop_eq_getElem_cons hlt, List.map_cons, hget]
        exact .cons hr hrs
    · have hke : k = (t.takeWhile (· ≠ 0)).length := by omega
      have g : getB s.buf (off t k : Nat) = .ok 0 := by
        by_cases hk2 : k < t.length
        · obtain ⟨b, hb, hl, hbz⟩ := h.lead hk2
          have : t[k] = 0 := by
            have h1 : t = t.takeWhile (· ≠ 0) ++ t.dropWhile (· ≠ 0) := List.takeWhile_append_dropWhile.symm
            have h2 : t.dropWhile (· ≠ 0) ≠ [] := by
              intro e; rw [e, List.append_nil] at h1; rw [← h1] at hke; omega
            have h3 := List.head_dropWhile_not (· ≠ 0) h2
            have h4 : t[k]? = some ((t.dropWhile (· ≠ 0)).head h2) := by
              conv => lhs; rw [h1]
              rw [List.getElem?_append_right (by omega), hke, Nat.sub_self, ← List.head?_eq_getElem?, List.head?_eq_some_head]
            rw [List.getElem?_eq_getElem hk2, Option.some.injEq] at h4
            rw [h4]; simpa using h3
          rw [hb, hbz.2 this]
        · have : s.buf[off t k]? = some 0 := by
            rw [off_all t (by omega), h.buf, List.getElem?_append_right (by omega)]; simp
          rw [getB_some this]
      rw [g, Res.ok_bind, if_neg (by simp)]
      refine ⟨[], rfl, ?_⟩
      rw [hke, List.drop_length]; exact .nil

/-! ### quote -/

/-- The upper-case hexadecimal digit. -/
def hexU (d : Nat) : Nat := if d < 10 then 48 + d else 55 + d

theorem hexU_upper {d : Nat} (h : d < 16) : HexUpper (hexU d) d := by
  unfold hexU
  split
  · exact .dec d (by assumption)
  · have := HexUpper.upp (d - 10) (by omega)
    rwa [show 65 + (d - 10) = 55 + d by omega, show 10 + (d - 10) = d by omega] at this

theorem hexU_ascii {d : Nat} (h : d < 16) : hexU d < 128 := by unfold hexU; split <;> omega

set_option maxRecDepth 4000 in
theorem quoteByte_all : ∀ b : Fin 256, quoteByte b = .ok (asciiStr [37, hexU (b / 16), hexU (b % 16)]) := by decide +kernel

theorem quoteByte_eq {b : Nat} (h : b < 256) : quoteByte b = .ok (asciiStr [37, hexU (b / 16), hexU (b % 16)]) :=
  quoteByte_all ⟨b, h⟩

/-- What a byte becomes, if `allowed` are the characters kept. -/
def quoted (allowed : List Nat) (b : Nat) : List Nat :=
  if b < 128 ∧ b ∈ allowed then [b] else [37, hexU (b / 16), hexU (b % 16)]

theorem chr_ascii {b : Nat} (h : b < 128) : Hex.chr b = .ok (asciiStr [b]) := by
  rw [Hex.chr_eq (by omega) (by omega)]
  have : enc1 b = [b] := by unfold enc1; rw [if_pos h]
  simp [asciiStr, this]

theorem quotePart_spec {ss : List Str} {l : List Nat} (hs : Reprs ss (l.map fun c => [c])) (hz : 0 ∉ l) {b : Nat} (hb : b < 256) :
    ∃ r, quotePart ss b = .ok r ∧ Repr r (quoted l b) := by
  have hq : Repr (asciiStr [37, hexU (b / 16), hexU (b % 16)]) [37, hexU (b / 16), hexU (b % 16)] := by
    apply ascii_repr _ (by simp)
    intro c hc
    have := hexU_ascii (d := b / 16) (by omega)
    have := hexU_ascii (d := b % 16) (by omega)
    simp at hc
    omega
  unfold quotePart quoted
  by_cases h : b < 128
  · have hr : Repr (asciiStr [b]) [b] := ascii_repr (by simpa using h) (by simp)
    rw [if_pos h, chr_ascii h, Res.ok_bind, isIn_spec hr hs hz, Res.ok_bind, quoteByte_eq hb]
    by_cases hm : b ∈ l
    · rw [if_pos (by simpa using hm), if_pos ⟨h, hm⟩]
      exact ⟨_, rfl, hr⟩
    · rw [if_neg (by simpa using hm), if_neg (fun h => hm h.2)]
      exact ⟨_, rfl, hq⟩
  · rw [if_neg h, if_neg (fun h' => h h'.1), quoteByte_eq hb]
    exact ⟨_, rfl, hq⟩

theorem quoteLoop_spec {ss : List Str} {l : List Nat} (hs : Reprs ss (l.map fun c => [c])) (hz : 0 ∉ l) :
    ∀ {bs : List Nat}, (∀ b ∈ bs, b < 256) → ∃ rs, quoteLoop ss bs = .ok rs ∧ Reprs rs (bs.map (quoted l)) := by
  intro bs
  induction bs with
  | nil => intro _; exact ⟨[], rfl, .nil⟩
  | cons b bs ih =>
    intro hb
    obtain ⟨r, e1, h1⟩ := quotePart_spec hs hz (hb b (by simp))
    obtain ⟨rs, e2, h2⟩ := ih fun x hx => hb x (List.mem_cons_of_mem _ hx)
    exact ⟨r :: rs, by rw [quoteLoop, e1, Res.ok_bind, e2]; rfl, .cons h1 h2⟩

theorem joinWith_nil : ∀ ts : List (List Nat), joinWith [] ts = ts.flatten
  | [] => rfl
  | [t] => by simp [joinWith]
  | t :: u :: ts => by
    show t ++ [] ++ joinWith [] (u :: ts) = _
    rw [joinWith_nil (u :: ts)]; simp

theorem enc_bytes {t : List Nat} (h : ∀ c ∈ t, CodePoint c) : ∀ b ∈ enc t, b < 256 := by
  intro b hb
  simp only [enc, List.mem_flatMap] at hb
  obtain ⟨c, hc, hb⟩ := hb
  have := h c hc
  unfold CodePoint at this
  unfold enc1 at hb
  split at hb
  · simp at hb; omega
  split at hb
  · simp at hb; omega
  split at hb
  · simp at hb; omega
  · simp at hb; omega

theorem quoted_length (l : List Nat) (b : Nat) : (quoted l b).length ≤ 3 := by
  unfold quoted; split <;> simp

theorem quoted_ascii {l : List Nat} {b : Nat} (hb : b < 256) : ∀ c ∈ quoted l b, c < 128 := by
  unfold quoted
  have := hexU_ascii (d := b / 16) (by omega)
  have := hexU_ascii (d := b % 16) (by omega)
  split
  · intro c hc; simp at hc; omega
  · intro c hc; simp at hc; omega

theorem flatMap_length (l bs : List Nat) : (bs.flatMap (quoted l)).length ≤ 3 * bs.length := by
  induction bs with
  | nil => simp
  | cons b bs ih =>
    have := quoted_length l b
    simp only [List.flatMap_cons, List.length_append, List.length_cons]
    omega

/-- The characters that `quote` keeps. -/
def kept (safe : List Nat) : List Nat :=
  ((List.range 26).map (97 + ·)) ++ ((List.range 26).map (65 + ·)) ++ ((List.range 10).map (48 + ·)) ++ [45, 46, 95, 126] ++
  safe.takeWhile (· ≠ 0)

theorem unreserved_repr : Repr unreserved
    (((List.range 26).map (97 + ·)) ++ ((List.range 26).map (65 + ·)) ++ ((List.range 10).map (48 + ·)) ++ [45, 46, 95, 126]) :=
  ascii_repr (by decide) (by decide)

theorem mem_kept {safe : List Nat} {c : Nat} (h : c ∈ kept safe) : Unreserved c ∨ c ∈ safe := by
  simp only [kept, List.mem_append, List.mem_map, List.mem_range, List.mem_cons, List.not_mem_nil, or_false] at h
  unfold Unreserved
  rcases h with (((⟨x, hx, rfl⟩ | ⟨x, hx, rfl⟩) | ⟨x, hx, rfl⟩) | h) | h
  · left; omega
  · left; omega
  · left; omega
  · left; omega
  · right; exact (List.takeWhile_prefix _).mem h

theorem kept_unreserved {safe : List Nat} {c : Nat} (h : Unreserved c) : c ∈ kept safe := by
  unfold Unreserved at h
  simp only [kept, List.mem_append, List.mem_map, List.mem_range, List.mem_cons, List.not_mem_nil, or_false]
  rcases h with h | h | h | h
  · left; left; left; left; exact ⟨c - 97, by omega, by omega⟩
  · left; left; left; right; exact ⟨c - 65, by omega, by omega⟩
  · left; left; right; exact ⟨c - 48, by omega, by omega⟩
  · left; right; omega

theorem kept_pos (safe : List Nat) : 0 ∉ kept safe := by
  intro h
  simp only [kept, List.mem_append, List.mem_map, List.mem_range, List.mem_cons, List.not_mem_nil, or_false] at h
  rcases h with (((⟨x, hx, h⟩ | ⟨x, hx, h⟩) | ⟨x, hx, h⟩) | h) | h
  · omega
  · omega
  · omega
  · omega
  · have := List.mem_takeWhile_imp h
    simp at this

theorem takeWhile_kept (safe : List Nat) :
    ((((List.range 26).map (97 + ·)) ++ ((List.range 26).map (65 + ·)) ++ ((List.range 10).map (48 + ·)) ++ [45, 46, 95, 126]) ++
      safe).takeWhile (· ≠ 0) = kept safe := by
  rw [List.takeWhile_append_of_pos]
  · rfl
  · decide

theorem quote_eq {s safe : Str} {t sf : List Nat} (h : Repr s t) (hsf : Repr safe sf) (h1 : 3 * (enc t).length < 2 ^ 31)
    (h2 : 66 + (enc sf).length < 2 ^ 31) : ∃ r, quote s safe = .ok r ∧ Repr r ((enc t).flatMap (quoted (kept sf))) := by
  unfold quote
  obtain ⟨a, e1, ha⟩ := C11_add unreserved_repr hsf (by
    have : (enc (((List.range 26).map (97 + ·)) ++ ((List.range 26).map (65 + ·)) ++ ((List.range 10).map (48 + ·)) ++
      [45, 46, 95, 126])).length = 66 := by decide
    omega)
  rw [e1, Res.ok_bind]
  obtain ⟨rs, e2, hrs⟩ := iterate_nul ha (a.buf.length + 1) 0 (by omega) (by
    rw [ha.buf]
    have h3 := length_le_enc (((List.range 26).map (97 + ·)) ++ ((List.range 26).map (65 + ·)) ++ ((List.range 10).map (48 + ·)) ++
      [45, 46, 95, 126] ++ sf)
    have h4 := (List.takeWhile_prefix (· ≠ 0) (l := (((List.range 26).map (97 + ·)) ++ ((List.range 26).map (65 + ·)) ++
      ((List.range 10).map (48 + ·)) ++ [45, 46, 95, 126] ++ sf))).length_le
    rw [List.length_append]
    simp only [List.length_singleton]
    omega)
  rw [takeWhile_kept] at hrs
  rw [off_zero] at e2
  rw [show ((0 : Nat) : Int) = 0 from rfl] at e2
  rw [e2, Res.ok_bind, h.bytes_eq]
  rw [List.drop_zero] at hrs
  obtain ⟨ps, e3, hps⟩ := quoteLoop_spec hrs (kept_pos sf) (enc_bytes h.cp)
  rw [e3, Res.ok_bind]
  have hj : joinWith [] ((enc t).map (quoted (kept sf))) = (enc t).flatMap (quoted (kept sf)) := by
    rw [joinWith_nil]; rfl
  have hasc : ∀ c ∈ (enc t).flatMap (quoted (kept sf)), c < 128 := by
    intro c hc
    simp only [List.mem_flatMap] at hc
    obtain ⟨b, hb, hc⟩ := hc
    exact quoted_ascii (enc_bytes h.cp b hb) c hc
  obtain ⟨r, e4, hr⟩ := C10_join null_repr hps (by
    rw [hj, enc_ascii hasc]
    have := flatMap_length (kept sf) (enc t)
    omega)
  rw [hj] at hr
  exact ⟨r, e4, hr⟩

theorem quoted_spec {sf bs : List Nat} (hb : ∀ b ∈ bs, b < 256) : Quoted sf (bs.flatMap (quoted (kept sf))) bs := by
  induction bs with
  | nil => exact .nil
  | cons b bs ih =>
    have ih := ih fun x hx => hb x (List.mem_cons_of_mem _ hx)
    have hb := hb b (by simp)
    rw [List.flatMap_cons]
    unfold quoted
    split
    · next h => exact .plain h.1 (mem_kept h.2) ih
    · next h =>
      have hu : ¬ Unreserved b := fun hu => h ⟨by unfold Unreserved at hu; omega, kept_unreserved hu⟩
      have hs : b < 128 → b ∈ sf → 0 ∈ sf := by
        intro h1 h2
        by_contra h0
        refine h ⟨h1, ?_⟩
        have : sf.takeWhile (· ≠ 0) = sf := by
          rw [List.takeWhile_eq_self_iff]
          intro x hx
          simp only [ne_eq, decide_eq_true_eq]
          rintro rfl; exact h0 hx
        simp only [kept, this, List.mem_append]
        exact .inr h2
      have := Quoted.esc (safe := sf) (hexU_upper (d := b / 16) (by omega)) (hexU_upper (d := b % 16) (by omega))
        (by rwa [show 16 * (b / 16) + b % 16 = b by omega]) (by rwa [show 16 * (b / 16) + b % 16 = b by omega]) ih
      rwa [show 16 * (b / 16) + b % 16 = b by omega] at this

/-- `quote` gives a percent-encoding of the UTF-8 bytes of the text, which consists of unreserved
characters, characters of `safe` and escapes. -/
theorem C33_quote {s safe : Str} {t sf : List Nat} (h : Repr s t) (hsf : Repr safe sf) (h1 : 3 * (enc t).length < 2 ^ 31)
    (h2 : 66 + (enc sf).length < 2 ^ 31) : ∃ r q, quote s safe = .ok r ∧ Repr r q ∧ Quoted sf q (enc t) := by
  obtain ⟨r, e, hr⟩ := quote_eq h hsf h1 h2
  exact ⟨r, _, e, hr, quoted_spec (enc_bytes h.cp)⟩

example : Repr ⟨3, 4, [97, 47, 0xc3, 0xa9, 0]⟩ [97, 47, 233] ∧ Repr (asciiStr [47]) [47] ∧
    quote ⟨3, 4, [97, 47, 0xc3, 0xa9, 0]⟩ (asciiStr [47]) = .ok (asciiStr [97, 47, 37, 67, 51, 37, 65, 57]) :=
  ⟨⟨by intro c hc; simp at hc; unfold CodePoint; omega, rfl, rfl, by decide, by decide⟩, ascii_repr (by decide) (by decide),
    by decide +kernel⟩

/-! ### unquote -/

theorem upper_char {up : Nat → Nat} {s : Str} {c : Nat} (h : Repr s [c]) (hs : ¬ Surrogate c) (hu : CodePoint (up c)) :
    ∃ r, upper up s = .ok r ∧ Repr r [up c] := by
  unfold upper
  have hc := h.cp c (by simp)
  unfold CodePoint at hc hu
  have hn : s.nchars = 1 := h.nc
  have he : Hex.encodeChar (up c) = enc1 (up c) := by
    unfold Hex.encodeChar
    rw [if_neg (by omega), if_pos (by omega), Int.toNat_natCast]
  rw [hn, if_neg (by omega)]
  show ∃ r, (do let b ← transformLoop up 1 s.buf; mkStr 1 b.length b) = _ ∧ _
  rw [h.buf, enc_singleton, transformLoop, Hex.iterate_enc1 hc hs, Res.ok_bind]
  simp only [transformLoop, Res.ok_bind]
  have h3 := enc1_length (c := up c)
  obtain ⟨r, e, hr⟩ := mkStr_repr (t := [up c]) (by simpa [CodePoint] using hu) (by rw [enc_singleton]; omega)
    (a := 1) (b := ((enc1 (up c)).length : Nat)) rfl (by rw [enc_singleton])
  rw [enc_singleton] at e
  refine ⟨r, ?_, hr⟩
  rw [he]
  show (do let b ← (Res.ok (enc1 (up c) ++ []) : Res (List Nat)); mkStr 1 b.length b) = _
  rw [Res.ok_bind, List.append_nil]
  exact e

theorem hexDigits_repr : Repr hexDigits [48, 49, 50, 51, 52, 53, 54, 55, 56, 57, 65, 66, 67, 68, 69, 70] :=
  ascii_repr (by decide) (by decide)

theorem occurs_single {l : List Nat} {x i : Nat} : OccursAt l [x] i ↔ l[i]? = some x := by
  unfold OccursAt
  simp only [List.length_singleton]
  constructor
  · rintro ⟨h1, h2⟩
    rw [List.drop_eq_getElem_cons (by omega), List.take_succ_cons, List.take_zero] at h2
    rw [List.getElem?_eq_getElem (by omega)]
    simpa using h2
  · intro h
    obtain ⟨h1, h2⟩ := List.getElem?_eq_some_iff.1 h
    refine ⟨by omega, ?_⟩
    rw [List.drop_eq_getElem_cons (by omega), List.take_succ_cons, List.take_zero, h2]

/-- The positions of the digits. -/
theorem hexList_get (k x : Nat) : [48, 49, 50, 51, 52, 53, 54, 55, 56, 57, 65, 66, 67, 68, 69, 70][k]? = some x ↔
    (k < 10 ∧ x = 48 + k) ∨ (10 ≤ k ∧ k < 16 ∧ x = 55 + k) := by
  by_cases h : k < 16
  · have : ∀ k : Fin 16, [48, 49, 50, 51, 52, 53, 54, 55, 56, 57, 65, 66, 67, 68, 69, 70][k.1]? =
        some (if k.1 < 10 then 48 + k.1 else 55 + k.1) := by decide
    rw [this ⟨k, h⟩]
    simp only [Option.some.injEq]
    split <;> omega
  · rw [List.getElem?_eq_none (by simp; omega)]
    simp only [reduceCtorEq, false_iff]
    omega

theorem hexChar_iff (c v : Nat) : HexChar c v ↔ (v < 10 ∧ c = 48 + v) ∨ (10 ≤ v ∧ v < 16 ∧ (c = 87 + v ∨ c = 55 + v)) := by
  constructor
  · intro h; cases h <;> omega
  · rintro (⟨h1, rfl⟩ | ⟨h1, h2, rfl | rfl⟩)
    · exact .dec v h1
    · have := HexChar.low (v - 10) (by omega)
      rwa [show 97 + (v - 10) = 87 + v by omega, show 10 + (v - 10) = v by omega] at this
    · have := HexChar.upp (v - 10) (by omega)
      rwa [show 65 + (v - 10) = 55 + v by omega, show 10 + (v - 10) = v by omega] at this

theorem upperOk_cp {up : Nat → Nat} (hu : UpperOk up) (c : Nat) : CodePoint (up c) := by
  by_cases h : c < 128
  · rw [hu.ascii c h]; unfold CodePoint; split <;> omega
  · exact (hu.other c (by omega)).1

/-- The upper case is the digit of value `v` iff the character is one. -/
theorem upper_hex {up : Nat → Nat} (hu : UpperOk up) (c v : Nat) :
    ((v < 10 ∧ up c = 48 + v) ∨ (10 ≤ v ∧ v < 16 ∧ up c = 55 + v)) ↔ HexChar c v := by
  rw [hexChar_iff]
  by_cases h : c < 128
  · rw [hu.ascii c h]; split <;> omega
  · have := hu.other c (by omega)
    omega

theorem hexValue_spec {up : Nat → Nat} (hu : UpperOk up) {s : Str} {c : Nat} (h : Repr s [c]) (hs : ¬ Surrogate c) :
    (∃ v : Nat, HexChar c v ∧ hexValue up s = .ok v) ∨ ((∀ v, ¬ HexChar c v) ∧ hexValue up s = .raise .valueError) := by
  obtain ⟨r, e1, hr⟩ := upper_char h hs (upperOk_cp hu c)
  have h3 := enc1_length (c := up c)
  obtain ⟨i, e2, hi⟩ := C09_find_partial hexDigits_repr hr (by
    rw [hr.nb, enc_singleton, hexDigits_repr.nb]
    have : (enc [48, 49, 50, 51, 52, 53, 54, 55, 56, 57, 65, 66, 67, 68, 69, 70]).length = 16 := by decide
    omega)
  unfold hexValue
  rw [e1, Res.ok_bind, e2, Res.ok_bind]
  rcases hi with ⟨k, rfl, h1, -⟩ | ⟨rfl, h1⟩
  · left
    rw [occurs_single, hexList_get] at h1
    refine ⟨k, (upper_hex hu c k).1 h1, ?_⟩
    rw [if_neg (by omega)]
    rfl
  · right
    refine ⟨fun v hv => h1 v ?_, ?_⟩
    · rw [occurs_single, hexList_get]
      exact (upper_hex hu c v).2 hv
    · rw [if_pos rfl]

theorem getitem_nat {s : Str} {t : List Nat} (h : Repr s t) {k : Nat} (hk : k < t.length) :
    ∃ r, getitem s k = .ok r ∧ Repr r [t[k]] := by
  have := length_le_enc t
  have := h.small
  rcases C11_getitem_partial h k ⟨by omega, by omega⟩ with ⟨j, r, hj, h1, e, hr⟩ | ⟨h1, -⟩
  · have : j = k := by omega
    subst this
    exact ⟨r, e, hr⟩
  · omega

theorem getslice_ok {s : Str} {t : List Nat} (h : Repr s t) (k : Nat) :
    ∃ r, getslice s ⟨some (k : Int), some ((k : Int) + 3), none⟩ = .ok r := by
  have hp : ∀ x ∈ Slice.positions t.length (some (k : Int)) (some ((k : Int) + 3)) 1, x < t.length := by
    intro x hx
    unfold Slice.positions at hx
    rw [if_pos (by omega)] at hx
    simp only [List.mem_filter, List.mem_range] at hx
    exact hx.1
  rcases C11_getslice_partial h ⟨some (k : Int), some ((k : Int) + 3), none⟩ (by simp)
    (.inr (fun x hx => by have := hp x hx; simp only [Option.getD_none]; omega)) with ⟨h1, -⟩ | ⟨r, -, e, -⟩
  · simp at h1
  · exact ⟨r, e⟩

theorem hexChar_lt {c v : Nat} (h : HexChar c v) : v < 16 := by cases h <;> omega

theorem hexChar_fun {c v v' : Nat} (h : HexChar c v) (h' : HexChar c v') : v = v' := by
  rw [hexChar_iff] at h h'; omega

theorem escapeAt_spec {up : Nat → Nat} (hu : UpperOk up) {s : Str} {t : List Nat} (h : Repr s t) (ht : Scalars t) {k : Nat}
    (hk : k + 2 < t.length) :
    (∃ x y, HexChar t[k + 1] x ∧ HexChar t[k + 2] y ∧ escapeAt up s k = .ok (16 * x + y)) ∨
    (¬ (∃ x y, HexChar t[k + 1] x ∧ HexChar t[k + 2] y) ∧ escapeAt up s k = .raise .valueError) := by
  unfold escapeAt
  obtain ⟨r, e0⟩ := getslice_ok h k
  obtain ⟨r1, e1, h1⟩ := getitem_nat h (k := k + 1) (by omega)
  obtain ⟨r2, e2, h2⟩ := getitem_nat h (k := k + 2) (by omega)
  rw [Int.natCast_add] at e1 e2
  rw [e0, Res.ok_bind, show (k : Int) + 1 = (k : Int) + ((1 : Nat) : Int) from rfl, e1, Res.ok_bind]
  rcases hexValue_spec hu h1 (ht _ (List.getElem_mem _)).2 with ⟨x, hx, e3⟩ | ⟨hx, e3⟩
  · rw [e3, Res.ok_bind, show (k : Int) + 2 = (k : Int) + ((2 : Nat) : Int) from rfl, e2, Res.ok_bind]
    rcases hexValue_spec hu h2 (ht _ (List.getElem_mem _)).2 with ⟨y, hy, e4⟩ | ⟨hy, e4⟩
    · left
      refine ⟨x, y, hx, hy, ?_⟩
      rw [e4, Res.ok_bind]
      have := hexChar_lt hx
      have := hexChar_lt hy
      have hb : toByte ((x : Int) * 16 + y) = 16 * x + y := by
        unfold toByte; omega
      rw [hb]; rfl
    · right
      exact ⟨fun ⟨_, y, _, h⟩ => hy y h, by rw [e4]; rfl⟩
  · right
    exact ⟨fun ⟨x, _, h, _⟩ => hx x h, by rw [e3]; rfl⟩

theorem not_denotes_nil {b : List Nat} (h : Denotes [] b) : b = [] := by cases h; rfl

theorem unquoteLoop_spec {up : Nat → Nat} (hu : UpperOk up) {s : Str} {t : List Nat} (h : Repr s t) (ht : Scalars t) :
    ∀ f k, k ≤ t.length → t.length - k < f →
    (∃ b, Denotes (t.drop k) b ∧ unquoteLoop up s f k = .ok b) ∨
    ((¬ ∃ b, Denotes (t.drop k) b) ∧ unquoteLoop up s f k = .raise .valueError) := by
  intro f
  induction f with
  | zero => intro k _ hf; omega
  | succ f ih =>
    intro k hk hf
    rw [unquoteLoop, h.nc]
    by_cases hlt : k < t.length
    · rw [if_pos (by omega), List.drop_eq_getElem_cons hlt]
      obtain ⟨r, e, hr⟩ := getitem_nat h hlt
      rw [e, Res.ok_bind, eq_char hr (ascii_repr (l := [37]) (by decide) (by decide)) (by omega), Res.ok_bind]
      by_cases hc : t[k] = 37
      · simp only [hc, decide_true, Bool.not_true, Bool.false_eq_true, if_false]
        by_cases h2 : k + 2 < t.length
        · rw [if_neg (by omega)]
          have hd : t.drop (k + 1) = t[k + 1] :: t[k + 2] :: t.drop (k + 3) := by
            rw [List.drop_eq_getElem_cons (by omega), List.drop_eq_getElem_cons (by omega)]
          rw [hd]
          rcases escapeAt_spec hu h ht h2 with ⟨x, y, hx, hy, e2⟩ | ⟨hn, e2⟩
          · rw [e2, Res.ok_bind]
            rcases ih (k + 3) (by omega) (by omega) with ⟨b, hb, e3⟩ | ⟨hb, e3⟩
            · left
              exact ⟨_, .esc hx hy hb, by rw [Int.natCast_add] at e3; erw [e3]; rfl⟩
            · right
              refine ⟨?_, by rw [Int.natCast_add] at e3; erw [e3]; rfl⟩
              rintro ⟨b, hd⟩
              cases hd with
              | plain h1 _ => exact h1 rfl
              | esc _ _ h3 => exact hb ⟨_, h3⟩
          · right
            refine ⟨?_, by rw [e2]; rfl⟩
            rintro ⟨b, hd⟩
            cases hd with
            | plain h1 _ => exact h1 rfl
            | esc h1 h2 _ => exact hn ⟨_, _, h1, h2⟩
        · right
          rw [if_pos (by omega)]
          refine ⟨?_, rfl⟩
          rintro ⟨b, hd⟩
          generalize he : t.drop (k + 1) = l at hd
          have hl : l.length < 2 := by rw [← he]; simp; omega
          cases hd with
          | plain h1 _ => exact h1 rfl
          | esc _ _ _ => simp only [List.length_cons] at hl; omega
      · simp only [hc, decide_false, Bool.not_false, if_true]
        rcases ih (k + 1) (by omega) (by omega) with ⟨b, hb, e3⟩ | ⟨hb, e3⟩
        · left
          refine ⟨_, .plain hc hb, ?_⟩
          rw [Int.natCast_add] at e3
          erw [e3]
          rw [hr.bytes_eq, enc_singleton]
          rfl
        · right
          refine ⟨?_, by rw [Int.natCast_add] at e3; erw [e3]; rfl⟩
          rintro ⟨b, hd⟩
          generalize hce : t[k] = c at hd hc
          generalize hde : t.drop (k + 1) = l at hd hb
          cases hd with
          | plain _ h3 => exact hb ⟨_, h3⟩
          | esc => exact hc rfl
    · left
      rw [if_neg (by omega), List.drop_eq_nil_of_le (by omega)]
      exact ⟨[], .nil, rfl⟩

/-! ### Decoding -/

theorem iterate_tl (uc : Nat) (r : List Nat) : Hex.iterate (uc :: r) =
    if uc < 0x80 then .ok (some (uc, 1))
    else if uc < 0xc2 ∨ 0xf4 < uc then .ok none
    else match r with
      | [] => .ub
      | c1 :: r =>
        if c1 / 64 ≠ 2 then .ok none
        else if uc < 0xe0 then .ok (some (uc % 32 * 64 + c1 % 64, 2))
        else match r with
          | [] => .ub
          | c2 :: r =>
            if c2 / 64 ≠ 2 then .ok none
            else if uc < 0xf0 then
              if uc = 0xed ∧ c1 > 0x9f then .ok none
              else if uc % 16 * 4096 + c1 % 64 * 64 + c2 % 64 < 0x800 then .ok none
              else .ok (some (uc % 16 * 4096 + c1 % 64 * 64 + c2 % 64, 3))
            else match r with
              | [] => .ub
              | c3 :: _ =>
                if c3 / 64 ≠ 2 then .ok none
                else if uc = 0xf0 ∧ c1 < 0x90 then .ok none
                else if uc = 0xf4 ∧ c1 > 0x8f then .ok none
                else .ok (some (uc % 8 * 262144 + c1 % 64 * 4096 + c2 % 64 * 64 + c3 % 64, 4)) := rfl

/-- A code point that `utf8proc_iterate` finds. -/
theorem iterate_inv {p : List Nat} (hp : ∀ b ∈ p, b < 256) {c k : Nat} (h : Hex.iterate p = .ok (some (c, k))) :
    CodePoint c ∧ ¬ Surrogate c ∧ p = enc1 c ++ p.drop k ∧ k = (enc1 c).length := by
  unfold CodePoint Surrogate
  match p with
  | [] => simp [Hex.iterate] at h
  | uc :: r =>
    have h0 := hp uc (by simp)
    rw [iterate_tl] at h
    by_cases c1 : uc < 0x80
    · rw [if_pos c1] at h
      simp only [Res.ok.injEq, Option.some.injEq, Prod.mk.injEq] at h
      obtain ⟨rfl, rfl⟩ := h
      have : enc1 uc = [uc] := by unfold enc1; rw [if_pos c1]
      rw [this]
      exact ⟨by omega, by omega, rfl, rfl⟩
    rw [if_neg c1] at h
    by_cases c2 : uc < 0xc2 ∨ 0xf4 < uc
    · rw [if_pos c2] at h; cases h
    rw [if_neg c2] at h
    match r with
    | [] => cases h
    | d1 :: r =>
      have h1 := hp d1 (by simp)
      simp only at h
      by_cases c3 : d1 / 64 ≠ 2
      · rw [if_pos c3] at h; cases h
      rw [if_neg c3] at h
      by_cases c4 : uc < 0xe0
      · rw [if_pos c4] at h
        simp only [Res.ok.injEq, Option.some.injEq, Prod.mk.injEq] at h
        obtain ⟨rfl, rfl⟩ := h
        have : enc1 (uc % 32 * 64 + d1 % 64) = [uc, d1] := by
          unfold enc1
          rw [if_neg (by omega), if_pos (by omega)]
          congr 1
          · omega
          · congr 1; omega
        rw [this]
        exact ⟨by omega, by omega, rfl, rfl⟩
      rw [if_neg c4] at h
      match r with
      | [] => cases h
      | d2 :: r =>
        have h2 := hp d2 (by simp)
        simp only at h
        by_cases c5 : d2 / 64 ≠ 2
        · rw [if_pos c5] at h; cases h
        rw [if_neg c5] at h
        by_cases c6 : uc < 0xf0
        · rw [if_pos c6] at h
          by_cases c7 : uc = 0xed ∧ d1 > 0x9f
          · rw [if_pos c7] at h; cases h
          rw [if_neg c7] at h
          by_cases c8 : uc % 16 * 4096 + d1 % 64 * 64 + d2 % 64 < 0x800
          · rw [if_pos c8] at h; cases h
          rw [if_neg c8] at h
          simp only [Res.ok.injEq, Option.some.injEq, Prod.mk.injEq] at h
          obtain ⟨rfl, rfl⟩ := h
          have : enc1 (uc % 16 * 4096 + d1 % 64 * 64 + d2 % 64) = [uc, d1, d2] := by
            unfold enc1
            rw [if_neg (by omega), if_neg (by omega), if_pos (by omega)]
            congr 1
            · omega
            · congr 1
              · omega
              · congr 1; omega
          rw [this]
          exact ⟨by omega, by omega, rfl, rfl⟩
        rw [if_neg c6] at h
        match r with
        | [] => cases h
        | d3 :: r =>
          have h3 := hp d3 (by simp)
          simp only at h
          by_cases c7 : d3 / 64 ≠ 2
          · rw [if_pos c7] at h; cases h
          rw [if_neg c7] at h
          by_cases c8 : uc = 0xf0 ∧ d1 < 0x90
          · rw [if_pos c8] at h; cases h
          rw [if_neg c8] at h
          by_cases c9 : uc = 0xf4 ∧ d1 > 0x8f
          · rw [if_pos c9] at h; cases h
          rw [if_neg c9] at h
          simp only [Res.ok.injEq, Option.some.injEq, Prod.mk.injEq] at h
          obtain ⟨rfl, rfl⟩ := h
          have : enc1 (uc % 8 * 262144 + d1 % 64 * 4096 + d2 % 64 * 64 + d3 % 64) = [uc, d1, d2, d3] := by
            unfold enc1
            rw [if_neg (by omega), if_neg (by omega), if_neg (by omega)]
            congr 1
            · omega
            · congr 1
              · omega
              · congr 1
                · omega
                · congr 1; omega
          rw [this]
          exact ⟨by omega, by omega, rfl, rfl⟩

theorem ite_ok {α : Type} {p : Prop} [Decidable p] {x y : Res α} (hx : p → ∃ o, x = .ok o) (hy : ¬ p → ∃ o, y = .ok o) :
    ∃ o, (if p then x else y) = .ok o := by
  by_cases h : p
  · rw [if_pos h]; exact hx h
  · rw [if_neg h]; exact hy h

theorem iterate_total {a r : List Nat} (hne : a ≠ []) : ∃ o, Hex.iterate (a ++ 0 :: r) = .ok o := by
  obtain ⟨u, a, rfl⟩ := List.exists_cons_of_ne_nil hne
  rw [List.cons_append, iterate_tl]
  refine ite_ok (fun _ => ⟨_, rfl⟩) fun _ => ite_ok (fun _ => ⟨_, rfl⟩) fun _ => ?_
  cases a with
  | nil => exact ite_ok (fun _ => ⟨_, rfl⟩) fun h => absurd (by omega) h
  | cons c1 a =>
    refine ite_ok (fun _ => ⟨_, rfl⟩) fun _ => ite_ok (fun _ => ⟨_, rfl⟩) fun _ => ?_
    cases a with
    | nil => exact ite_ok (fun _ => ⟨_, rfl⟩) fun h => absurd (by omega) h
    | cons c2 a =>
      refine ite_ok (fun _ => ⟨_, rfl⟩) fun _ => ite_ok (fun _ => ?_) fun _ => ?_
      · exact ite_ok (fun _ => ⟨_, rfl⟩) fun _ => ite_ok (fun _ => ⟨_, rfl⟩) fun _ => ⟨_, rfl⟩
      cases a with
      | nil => exact ite_ok (fun _ => ⟨_, rfl⟩) fun h => absurd (by omega) h
      | cons c3 a =>
        exact ite_ok (fun _ => ⟨_, rfl⟩) fun _ => ite_ok (fun _ => ⟨_, rfl⟩) fun _ => ite_ok (fun _ => ⟨_, rfl⟩) fun _ => ⟨_, rfl⟩

theorem zero_prefix {w z a r : List Nat} (h : a ++ 0 :: r = w ++ z) (hw : 0 ∉ w) : ∃ a', a = w ++ a' ∧ z = a' ++ 0 :: r := by
  rcases List.append_eq_append_iff.1 h with ⟨u, h1, h2⟩ | ⟨u, h1, h2⟩
  · cases u with
    | nil => exact ⟨[], by simpa using h1.symm, by simpa using h2.symm⟩
    | cons x u =>
      simp only [List.cons_append, List.cons.injEq] at h2
      exact absurd (by rw [h1, ← h2.1]; simp) hw
  · exact ⟨u, h1, h2⟩

/-- The count of the code points. -/
theorem countLoop_spec {r : List Nat} (hr : ∀ b ∈ r, b < 256) : ∀ f (a : List Nat) (n : Int), a.length < f → 0 ∉ a → (∀ b ∈ a, b < 256) →
    (∃ u, Scalars u ∧ enc u = a ∧ Hex.countLoop f (a ++ 0 :: r) n = .ok (n + u.length)) ∨
    ((∀ u, Scalars u → enc u ≠ a) ∧ Hex.countLoop f (a ++ 0 :: r) n = .raise .valueError) := by
  intro f
  induction f with
  | zero => intro a n h; omega
  | succ f ih =>
    intro a n hf hz hb
    cases a with
    | nil =>
      left
      exact ⟨[], by simp [Scalars], rfl, by simp [Hex.countLoop]⟩
    | cons x a =>
      have hx : x ≠ 0 := by rintro rfl; simp at hz
      have hcl : Hex.countLoop (f + 1) (x :: a ++ 0 :: r) n =
          (do match ← Hex.iterate (x :: a ++ 0 :: r) with
              | none => .raise .valueError
              | some (_, k) => Hex.countLoop f ((x :: a ++ 0 :: r).drop k) (n + 1)) := by
        rw [List.cons_append, Hex.countLoop]
        simp only [if_neg hx]
        rfl
      rw [hcl]
      obtain ⟨o, ho⟩ := iterate_total (a := x :: a) (r := r) (by simp)
      rw [ho, Res.ok_bind]
      have hall : ∀ b ∈ x :: a ++ 0 :: r, b < 256 := by
        intro b h
        simp only [List.mem_append, List.mem_cons] at h
        rcases h with h | rfl | h
        · exact hb b (by simpa using h)
        · omega
        · exact hr b h
      cases o with
      | none =>
        right
        refine ⟨?_, rfl⟩
        intro u hu he
        cases u with
        | nil => cases he
        | cons c u =>
          have := hu c (by simp)
          rw [← he, enc_cons, List.append_assoc, Hex.iterate_enc1 this.1 this.2] at ho
          cases ho
      | some ck =>
        obtain ⟨c, k⟩ := ck
        obtain ⟨h1, h2, h3, h4⟩ := iterate_inv hall ho
        have hc : c ≠ 0 := by
          rintro rfl
          rw [show enc1 0 = [0] from rfl] at h3
          simp only [List.cons_append, List.nil_append, List.cons.injEq] at h3
          exact hx h3.1
        obtain ⟨a', h5, h6⟩ := zero_prefix h3 (enc1_no_zero hc)
        simp only
        rw [h6]
        have hl := enc1_length (c := c)
        have hla := congrArg List.length h5
        rw [List.length_append] at hla
        have hdec : ∀ u, Scalars u → enc u = x :: a → ∃ u', u = c :: u' ∧ enc u' = a' := by
          intro u hu he
          cases u with
          | nil => cases he
          | cons d u =>
            have hd := hu d (by simp)
            have h7 := ho
            rw [← he, enc_cons, List.append_assoc, Hex.iterate_enc1 hd.1 hd.2] at h7
            cases h7
            refine ⟨u, rfl, ?_⟩
            rw [h5, enc_cons] at he
            exact List.append_cancel_left he
        rcases ih a' (n + 1) (by simp only [List.length_cons] at hla hf; omega)
          (by rw [h5] at hz; simp only [List.mem_append, not_or] at hz; exact hz.2)
          (fun b h => hb b (by rw [h5]; simp [h])) with ⟨u, e1, e2, e3⟩ | ⟨e1, e2⟩
        · left
          refine ⟨c :: u, ?_, by rw [enc_cons, e2, h5], by rw [e3]; simp; omega⟩
          intro d hd
          simp only [List.mem_cons] at hd
          rcases hd with rfl | hd
          · exact ⟨h1, h2⟩
          · exact e1 d hd
        · right
          refine ⟨?_, e2⟩
          intro u hu he
          obtain ⟨u', rfl, h7⟩ := hdec u hu he
          exact e1 u' (fun d hd => hu d (List.mem_cons_of_mem _ hd)) h7

theorem decode_spec {a r : List Nat} (hr : ∀ b ∈ r, b < 256) (hz : 0 ∉ a) (hb : ∀ b ∈ a, b < 256) (hs : a.length < 2 ^ 31) :
    (∃ u x, Scalars u ∧ enc u = a ∧ Hex.toStrNoc (a ++ 0 :: r) = .ok x ∧ Repr x u) ∨
    ((∀ u, Scalars u → enc u ≠ a) ∧ Hex.toStrNoc (a ++ 0 :: r) = .raise .valueError) := by
  unfold Hex.toStrNoc
  rw [Hex.cstr_append (fun c hc => Nat.pos_of_ne_zero (fun h => hz (h ▸ hc))), Res.ok_bind]
  by_cases hall : a.all (· < 0x80) = true
  · left
    rw [if_pos hall]
    have hasc : ∀ c ∈ a, c < 128 := by simpa using hall
    refine ⟨a, _, fun c hc => ?_, enc_ascii hasc, rfl, ascii_repr hasc hs⟩
    have := hasc c hc
    unfold CodePoint Surrogate
    omega
  · rw [if_neg hall]
    rcases countLoop_spec hr ((a ++ 0 :: r).length + 1) a 0 (by simp; omega) hz hb with ⟨u, h1, h2, h3⟩ | ⟨h1, h2⟩
    · left
      rw [h3, Res.ok_bind, Int.zero_add]
      refine ⟨u, _, h1, h2, rfl, fun c hc => (h1 c hc).1, rfl, ?_, ?_, ?_⟩ <;> rw [h2]
      exact hs
    · right
      rw [h2]
      exact ⟨h1, rfl⟩

theorem denotes_bytes {t b : List Nat} (h : Denotes t b) (ht : ∀ c ∈ t, CodePoint c) : (∀ x ∈ b, x < 256) ∧ b.length ≤ (enc t).length := by
  induction h with
  | nil => simp
  | @plain c t b _ h ih =>
    obtain ⟨h1, h2⟩ := ih fun x hx => ht x (List.mem_cons_of_mem _ hx)
    have hc := enc_bytes (t := [c]) (by simpa using ht c (by simp))
    rw [enc_singleton] at hc
    refine ⟨?_, by rw [enc_cons]; simp; omega⟩
    intro x hx
    rcases List.mem_append.1 hx with hx | hx
    · exact hc x hx
    · exact h1 x hx
  | @esc h l x y t b hx hy _ ih =>
    obtain ⟨h1, h2⟩ := ih fun x hx => ht x (by simp [hx])
    have := hexChar_lt hx
    have := hexChar_lt hy
    refine ⟨?_, ?_⟩
    · intro z hz
      rcases List.mem_cons.1 hz with rfl | hz
      · omega
      · exact h1 z hz
    · have := enc1_length (c := 37)
      rw [enc_cons, enc_cons, enc_cons]
      simp only [List.length_append, List.length_cons]
      omega

theorem denotes_fun {t b b' : List Nat} (h : Denotes t b) (h' : Denotes t b') : b = b' := by
  induction h generalizing b' with
  | nil => cases h'; rfl
  | plain hc _ ih =>
    cases h' with
    | plain _ h => rw [ih h]
    | esc => exact absurd rfl hc
  | esc hx hy _ ih =>
    cases h' with
    | plain hc _ => exact absurd rfl hc
    | esc hx' hy' h => rw [ih h, hexChar_fun hx hx', hexChar_fun hy hy']

/-- `unquote` raises `ValueError` if an escape is incomplete or has other characters than hexadecimal
digits. Else it decodes the bytes denoted up to the first zero byte: it gives the text whose UTF-8
encoding they are, and raises `ValueError` if there is none. -/
theorem C33_unquote {up : Nat → Nat} (hu : UpperOk up) {s : Str} {t : List Nat} (h : Repr s t) (ht : Scalars t) :
    ((¬ ∃ b, Denotes t b) → unquote up s = .raise .valueError) ∧
    (∀ b, Denotes t b → (∃ u x, Scalars u ∧ enc u = b.takeWhile (· ≠ 0) ∧ unquote up s = .ok x ∧ Repr x u) ∨
      ((∀ u, Scalars u → enc u ≠ b.takeWhile (· ≠ 0)) ∧ unquote up s = .raise .valueError)) := by
  have hl := unquoteLoop_spec hu h ht (t.length + 1) 0 (by omega) (by omega)
  unfold unquote
  rw [h.nc, Int.toNat_natCast]
  simp only [List.drop_zero, Int.natCast_zero] at hl
  constructor
  · intro hn
    rcases hl with ⟨b, hb, -⟩ | ⟨-, e⟩
    · exact absurd ⟨b, hb⟩ hn
    · rw [e]; rfl
  · intro b hb
    rcases hl with ⟨b', hb', e⟩ | ⟨hn, -⟩
    · rw [e, Res.ok_bind, denotes_fun hb' hb]
      obtain ⟨h1, h2⟩ := denotes_bytes hb h.cp
      have hsplit : b ++ [0] = b.takeWhile (· ≠ 0) ++ 0 :: ((b ++ [0]).drop ((b.takeWhile (· ≠ 0)).length + 1)) := by
        by_cases h0 : b.dropWhile (· ≠ 0) = []
        · have h3 : b.takeWhile (· ≠ 0) = b := by
            have := List.takeWhile_append_dropWhile (p := (· ≠ 0)) (l := b)
            rw [h0, List.append_nil] at this; exact this
          rw [h3]; simp
        · have h3 := List.takeWhile_append_dropWhile (p := (· ≠ 0)) (l := b)
          have h4 : (b.dropWhile (· ≠ 0)).head h0 = 0 := by
            have := List.head_dropWhile_not (· ≠ 0) h0
            simpa using this
          obtain ⟨y, ys, h5⟩ := List.exists_cons_of_ne_nil h0
          simp only [h5, List.head_cons] at h4
          rw [h5, h4] at h3
          generalize b.takeWhile (· ≠ 0) = w at h3 ⊢
          rw [← h3]
          simp
      have hz : 0 ∉ b.takeWhile (· ≠ 0) := by
        intro hz
        have := List.mem_takeWhile_imp hz
        simp at this
      have hpre := List.takeWhile_prefix (· ≠ 0) (l := b)
      have hlen := hpre.length_le
      have hsm := h.small
      rw [hsplit]
      exact decode_spec (fun x hx => by
          have := List.mem_of_mem_drop hx
          rcases List.mem_append.1 this with h | h
          · exact h1 x h
          · simp at h; omega) hz (fun x hx => h1 x (hpre.mem hx)) (by omega)
    · exact absurd ⟨b, hb⟩ hn

/-! ### Round trip -/

theorem hexUpper_char {c v : Nat} (h : HexUpper c v) : HexChar c v := by
  cases h with
  | dec _ h => exact .dec _ h
  | upp _ h => exact .upp _ h

theorem quoted_denotes {sf q b : List Nat} (h : Quoted sf q b) (hp : 37 ∉ sf) : Denotes q b := by
  induction h with
  | nil => exact .nil
  | @plain c q b hc hk _ ih =>
    have h1 : c ≠ 37 := by
      rintro rfl
      rcases hk with hk | hk
      · unfold Unreserved at hk; omega
      · exact hp hk
    have := Denotes.plain h1 ih
    rwa [show enc1 c = [c] by unfold enc1; rw [if_pos hc]] at this
  | esc hx hy _ _ _ ih => exact .esc (hexUpper_char hx) (hexUpper_char hy) ih

theorem enc_zero {t : List Nat} (h : 0 ∉ t) : 0 ∉ enc t := by
  intro hb
  simp only [enc, List.mem_flatMap] at hb
  obtain ⟨c, hc, hb⟩ := hb
  exact enc1_no_zero (by rintro rfl; exact h hc) hb

/-- `unquote(quote(s, safe)) == s` if `%` is not in `safe`. Missing for the full claim: strings with NUL
characters (`C33_refuted_nul`). -/
theorem C33_roundtrip_partial {up : Nat → Nat} (hu : UpperOk up) {s safe : Str} {t sf : List Nat} (h : Repr s t) (hsf : Repr safe sf)
    (ht : Scalars t) (hz : 0 ∉ t) (hp : 37 ∉ sf) (h1 : 3 * (enc t).length < 2 ^ 31) (h2 : 66 + (enc sf).length < 2 ^ 31) :
    (do let q ← quote s safe; unquote up q) = .ok s := by
  obtain ⟨r, e, hr⟩ := quote_eq h hsf h1 h2
  have hq := quoted_spec (sf := sf) (enc_bytes h.cp)
  have hasc : Scalars ((enc t).flatMap (quoted (kept sf))) := by
    intro c hc
    simp only [List.mem_flatMap] at hc
    obtain ⟨b, hb, hc⟩ := hc
    have := quoted_ascii (enc_bytes h.cp b hb) c hc
    unfold CodePoint Surrogate
    omega
  have htw : (enc t).takeWhile (· ≠ 0) = enc t := by
    rw [List.takeWhile_eq_self_iff]
    intro x hx
    simp only [ne_eq, decide_eq_true_eq]
    rintro rfl; exact enc_zero hz hx
  rw [e, Res.ok_bind]
  rcases (C33_unquote hu hr hasc).2 _ (quoted_denotes hq hp) with ⟨u, x, h3, h4, h5, h6⟩ | ⟨h3, -⟩
  · rw [htw] at h4
    have := enc_inj (fun c hc => (h3 c hc).1) h.cp h4
    subst this
    rw [h5, repr_ext h6 h]
  · exact absurd htw.symm (h3 t ht)

/-- The ASCII part of the upper case mapping. -/
def asciiUpper (c : Nat) : Nat := if 97 ≤ c ∧ c ≤ 122 then c - 32 else if c < 0x110000 then c else 0xfffd

theorem asciiUpper_ok : UpperOk asciiUpper := by
  constructor
  · intro c hc
    unfold asciiUpper
    split
    · rfl
    · rw [if_pos (by omega)]
  · intro c hc
    unfold asciiUpper CodePoint
    rw [if_neg (by omega)]
    split <;> omega

-- "a%c3%A9" denotes "aé"
example : UpperOk asciiUpper ∧ Repr (asciiStr [97, 37, 99, 51, 37, 65, 57]) [97, 37, 99, 51, 37, 65, 57] ∧
    Denotes [97, 37, 99, 51, 37, 65, 57] [97, 0xc3, 0xa9] ∧
    unquote asciiUpper (asciiStr [97, 37, 99, 51, 37, 65, 57]) = .ok ⟨2, 3, [97, 0xc3, 0xa9, 0]⟩ :=
  ⟨asciiUpper_ok, ascii_repr (by decide) (by decide),
    .plain (by decide) (.esc (x := 12) (y := 3) (.low 2 (by decide)) (.dec 3 (by decide))
      (.esc (x := 10) (y := 9) (.upp 0 (by decide)) (.dec 9 (by decide)) .nil)), by decide +kernel⟩

-- "%zz", "%4" and "%ff"
example : unquote asciiUpper (asciiStr [37, 122, 122]) = .raise .valueError ∧ unquote asciiUpper (asciiStr [37, 52]) = .raise .valueError ∧
    unquote asciiUpper (asciiStr [37, 102, 102]) = .raise .valueError := by decide +kernel

example : ∃ (s : Str) (t : List Nat), Repr s t ∧ Scalars t ∧ 0 ∉ t ∧ 37 ∈ t ∧ 37 ∉ [47] ∧ 3 * (enc t).length < 2 ^ 31 ∧
    (do let q ← quote s (asciiStr [47]); unquote asciiUpper q) = .ok s :=
  ⟨⟨3, 4, [97, 37, 0xc3, 0xa9, 0]⟩, [97, 37, 233],
    ⟨by intro c hc; simp at hc; unfold CodePoint; omega, rfl, rfl, by decide, by decide⟩,
    by intro c hc; simp at hc; unfold CodePoint Surrogate; omega, by decide, by decide, by decide, by decide, by decide +kernel⟩

/-- `unquote(quote("a\0b")) == "a"`: `bytearray.decode` stops at the first zero byte. -/
theorem C33_refuted_nul : ∃ (s r : Str) (t : List Nat), Repr s t ∧ Scalars t ∧ t = [97, 0, 98] ∧
    (∀ up, UpperOk up → (do let q ← quote s (asciiStr [47]); unquote up q) = .ok r) ∧ Repr r [97] := by
  have hr : Repr (asciiStr [97, 0, 98]) [97, 0, 98] := ascii_repr (by decide) (by decide)
  have h1 : Repr (asciiStr [97]) [97] := ascii_repr (by decide) (by decide)
  refine ⟨asciiStr [97, 0, 98], asciiStr [97], [97, 0, 98], hr, ?_, rfl, ?_, h1⟩
  · intro c hc; simp at hc; unfold CodePoint Surrogate; omega
  intro up hu
  have e : quote (asciiStr [97, 0, 98]) (asciiStr [47]) = .ok (asciiStr [97, 37, 48, 48, 98]) := by decide +kernel
  rw [e, Res.ok_bind]
  have hd : Denotes [97, 37, 48, 48, 98] [97, 0, 98] :=
    .plain (by decide) (.esc (x := 0) (y := 0) (.dec 0 (by decide)) (.dec 0 (by decide)) (.plain (by decide) .nil))
  rcases (C33_unquote hu (ascii_repr (l := [97, 37, 48, 48, 98]) (by decide) (by decide))
    (by intro c hc; simp at hc; unfold CodePoint Surrogate; omega)).2 _ hd with ⟨u, x, h3, h4, h5, h6⟩ | ⟨h3, -⟩
  · have : u = [97] := enc_inj (fun c hc => (h3 c hc).1) h1.cp h4
    subst this
    rw [h5, repr_ext h6 h1]
  · exact absurd rfl (h3 [97] (by intro c hc; simp at hc; unfold CodePoint Surrogate; omega))

/-- `quote("/", "\0/") == "%2F"`: iteration over the string of allowed characters stops at NUL. -/
theorem C33_refuted_safe : Repr (asciiStr [0, 47]) [0, 47] ∧
    quote (asciiStr [47]) (asciiStr [0, 47]) = .ok (asciiStr [37, 50, 70]) :=
  ⟨ascii_repr (by decide) (by decide), by decide +kernel⟩

end Verif.Uri
