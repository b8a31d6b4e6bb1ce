import Verif.Graph.Props
import Verif.Serial.Props
/-!
# C16 through the byte encoding: `serialize()` followed by `deserialize()`
-/
namespace Verif.Graph
open Verif

/-- The eight bytes of a 64-bit word in memory (little endian). -/
def wordBytes (w : Int) : List Nat :=
  let u := (w % 2^64).toNat
  [u % 256, u / 2^8 % 256, u / 2^16 % 256, u / 2^24 % 256, u / 2^32 % 256, u / 2^40 % 256,
   u / 2^48 % 256, u / 2^56 % 256]

/-- Reading words back from memory. -/
def wordsOf : List Nat → List Int
  | b0 :: b1 :: b2 :: b3 :: b4 :: b5 :: b6 :: b7 :: rest =>
    let u : Int := b0 + 2^8 * b1 + 2^16 * b2 + 2^24 * b3 + 2^32 * b4 + 2^40 * b5 + 2^48 * b6 + 2^56 * b7
    (if u < 2^63 then u else u - 2^64) :: wordsOf rest
  | _ => []

/-- A row as it lies in memory (`struct $ROW`, base/builtin/serialize.h:21-26). -/
def toMem (r : Int × List Int) : Serial.Row := ⟨r.1, r.2.length, r.2.flatMap wordBytes⟩
def ofMem (r : Serial.Row) : Int × List Int := (r.classId, wordsOf r.blob)

/-- `B_serialize`, base/builtin/serialize.c:344-346 (without `globmap`). -/
def bSerialize (h : List Obj) (f : Nat) (v : Slot) : Res (List Nat) := do
  let rows ← serialize h false f v
  Serial.toBytes (rows.map toMem)

/-- `B_deserialize`, base/builtin/serialize.c:348-350. -/
def bDeserialize (user : Int → List SK) (f : Nat) (b : List Nat) : Res (List Slot × List Obj) := do
  let rows ← Serial.fromBytes b
  deserialize user false f (rows.map ofMem)

theorem wordsOf_wordBytes {w : Int} (hw : InI64 w) (rest : List Nat) :
    wordsOf (wordBytes w ++ rest) = w :: wordsOf rest := by
  show _ :: wordsOf rest = _
  apply congrArg (· :: wordsOf rest)
  unfold InI64 at hw
  have h1 : 0 ≤ w % 2^64 := by omega
  have h2 : w % 2^64 < 2^64 := by omega
  have h3 : (w % 2^64 = w ∧ w < 2^63) ∨ (w % 2^64 = w + 2^64 ∧ 2^63 ≤ w % 2^64) := by omega
  generalize w % 2^64 = u at *
  obtain ⟨v, rfl⟩ := Int.eq_ofNat_of_zero_le h1
  simp only [Int.toNat_natCast]
  split <;> omega

theorem wordsOf_flatMap : ∀ (l : List Int), (∀ w ∈ l, InI64 w) → wordsOf (l.flatMap wordBytes) = l := by
  intro l
  induction l with
  | nil => intro _; rfl
  | cons w l ih =>
    intro h
    rw [List.flatMap_cons, wordsOf_wordBytes (h w (by simp)), ih (fun x hx => h x (by simp [hx]))]

theorem flatMap_length (l : List Int) : (l.flatMap wordBytes).length = 8 * l.length := by
  induction l with
  | nil => rfl
  | cons w l ih => rw [List.flatMap_cons, List.length_append, ih]; simp [wordBytes]; omega

/-- Rows whose class id fits an `int` and whose words are 64-bit words, as C memory forces. -/
def MemRow (r : Int × List Int) : Prop := InI32 r.1 ∧ r.2.length < 2^31 ∧ ∀ w ∈ r.2, InI64 w

theorem toMem_wf {r : Int × List Int} (h : MemRow r) : Serial.WF (toMem r) where
  cls := h.1
  size := by have := h.2.1; simp only [toMem]; omega
  blob := by simp only [toMem, flatMap_length]; omega
  bytes := by
    intro b hb
    simp only [toMem, List.mem_flatMap] at hb
    obtain ⟨w, -, hb⟩ := hb
    simp only [wordBytes, List.mem_cons, List.not_mem_nil, or_false] at hb
    omega

theorem ofMem_toMem {r : Int × List Int} (h : MemRow r) : ofMem (toMem r) = r := by
  unfold ofMem toMem
  simp only [wordsOf_flatMap r.2 h.2.2]

theorem ser_nonempty {h : List Obj} {glob : Bool} {f : Nat} {v : Slot} {rows : List (Int × List Int)}
    {user : Int → List SK} (hh : OkHeap user h) (hv : OkSlot h.length v) (hval : v.sk = .val)
    (hs : serialize h glob f v = .ok rows) : rows ≠ [] := by
  intro he
  subst he
  obtain ⟨v', h', hd, -⟩ := C16_copy_partial user h glob v hh hv hval f [] hs
  cases f with
  | zero => cases hd
  | succ f => cases hd

/-- C16 end to end: if `serialize(v)` delivers a byte string, `deserialize` of it delivers an
exact copy of `v` (same restrictions as `C16_copy_partial`). -/
theorem C16_bytes_partial (user : Int → List SK) (h : List Obj) (v : Slot)
    (hh : OkHeap user h) (hv : OkSlot h.length v) (hval : v.sk = .val) (f : Nat) (b : List Nat)
    (hmem : ∀ rows, serialize h false f v = .ok rows → ∀ r ∈ rows, MemRow r)
    (hs : bSerialize h f v = .ok b) :
    ∃ v' h', bDeserialize user f b = .ok ([v'], h') ∧ Copy h v h' v' := by
  unfold bSerialize at hs
  cases h1 : serialize h false f v with
  | raise e => rw [h1] at hs; cases hs
  | ub => rw [h1] at hs; cases hs
  | diverge => rw [h1] at hs; cases hs
  | ok rows =>
    rw [h1, Res.ok_bind] at hs
    have hm := hmem rows h1
    have hne := ser_nonempty hh hv hval h1
    have hfrom := Serial.C15_roundtrip (rows.map toMem)
      (by intro r hr; obtain ⟨x, hx, rfl⟩ := List.mem_map.1 hr; exact toMem_wf (hm x hx))
      (by intro he; exact hne (List.map_eq_nil_iff.1 he)) b hs
    obtain ⟨v', h', hd, hc⟩ := C16_copy_partial user h false v hh hv hval f rows h1
    refine ⟨v', h', ?_, hc⟩
    unfold bDeserialize
    rw [hfrom, Res.ok_bind, List.map_map]
    have : rows.map (ofMem ∘ toMem) = rows := by
      conv => rhs; rw [← List.map_id rows]
      apply List.map_congr_left
      intro r hr
      exact ofMem_toMem (hm r hr)
    rw [this]; exact hd

example : ∀ r ∈ [((7 : Int), [(3 : Int)]), (80, []), (57, [42]), (-7, [0]), (-80, [1]), (57, []), (2, [5])],
    MemRow r := by
  intro r hr
  simp only [List.mem_cons, List.not_mem_nil, or_false] at hr
  rcases hr with rfl | rfl | rfl | rfl | rfl | rfl | rfl <;> simp [MemRow, InI32, InI64]

end Verif.Graph
