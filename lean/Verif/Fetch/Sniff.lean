import Mathlib.Data.List.Basic
/-!
# C180: what is downloaded is stored, and its type is found from its first bytes

`streamBodyToFile`, compiler/lib/src/Acton/HttpFetch.hs:150-165, and `detectArchiveSuffixFromBytes`,
compiler/lib/src/Acton/ArchiveDownload.hs:108-123. The body comes in chunks; an empty chunk is its
end. Simplification: errors of the connection and of the disk are left out.
-/
namespace Verif.Fetch

abbrev Bytes := List UInt8

/-- `sniffLimit`, HttpFetch.hs:154. -/
def sniffLimit : Nat := 600

/-- `loop`, HttpFetch.hs:155-165: what is in the file, and the first bytes. -/
def stream : List Bytes → Bytes → Bytes → Bytes × Bytes
  | [], file, sniff => (file, sniff)
  | c :: cs, file, sniff =>
    if c = [] then (file, sniff)
    else stream cs (file ++ c) (if sniffLimit ≤ sniff.length then sniff else (sniff ++ c).take sniffLimit)

/-- `startsWith`, ArchiveDownload.hs:119-121. -/
def startsWith (sig b : Bytes) : Bool := decide (sig.length ≤ b.length) && decide (b.take sig.length = sig)

/-- `hasUstar`, ArchiveDownload.hs:122-123. -/
def hasUstar (b : Bytes) : Bool := decide (262 ≤ b.length) && decide ((b.drop 257).take 5 = [0x75, 0x73, 0x74, 0x61, 0x72])

/-- The suffixes that can result. -/
inductive Kind
  | zip | tarGz | tarXz | tarZst | tar
  deriving DecidableEq

/-- `detectArchiveSuffixFromBytes`, ArchiveDownload.hs:108-123. -/
def detect (b : Bytes) : Option Kind :=
  if startsWith [0x50, 0x4b, 0x03, 0x04] b then some .zip
  else if startsWith [0x50, 0x4b, 0x05, 0x06] b then some .zip
  else if startsWith [0x50, 0x4b, 0x07, 0x08] b then some .zip
  else if startsWith [0x1f, 0x8b] b then some .tarGz
  else if startsWith [0xfd, 0x37, 0x7a, 0x58, 0x5a, 0x00] b then some .tarXz
  else if startsWith [0x28, 0xb5, 0x2f, 0xfd] b then some .tarZst
  else if hasUstar b then some .tar
  else none

/-! ## Specification -/

/-- The magic numbers: a kind, where the bytes stand, the bytes. -/
def magic : List (Kind × Nat × Bytes) :=
  [(.zip, 0, [0x50, 0x4b, 0x03, 0x04]), (.zip, 0, [0x50, 0x4b, 0x05, 0x06]), (.zip, 0, [0x50, 0x4b, 0x07, 0x08]),
   (.tarGz, 0, [0x1f, 0x8b]), (.tarXz, 0, [0xfd, 0x37, 0x7a, 0x58, 0x5a, 0x00]), (.tarZst, 0, [0x28, 0xb5, 0x2f, 0xfd]),
   (.tar, 257, [0x75, 0x73, 0x74, 0x61, 0x72])]

/-- The file has the bytes `m` at the place `k`. -/
def Has (b : Bytes) (k : Nat) (m : Bytes) : Prop := ∃ x y, b = x ++ m ++ y ∧ x.length = k

theorem stream_spec {cs : List Bytes} (h : ∀ c ∈ cs, c ≠ []) : ∀ file sniff, sniff = file.take sniffLimit →
    stream cs file sniff = (file ++ cs.flatten, (file ++ cs.flatten).take sniffLimit) := by
  induction cs with
  | nil => intro file sniff hs; rw [stream, hs]; simp
  | cons c cs ih =>
    intro file sniff hs
    rw [stream, if_neg (h c List.mem_cons_self), ih (fun x m => h x (List.mem_cons_of_mem _ m))]
    · simp
    · subst hs
      by_cases hl : sniffLimit ≤ (file.take sniffLimit).length
      · rw [if_pos hl]
        rw [List.length_take] at hl
        rw [List.take_append_of_le_length (by omega)]
      · rw [if_neg hl]
        rw [List.length_take] at hl
        rw [List.take_of_length_le (l := file) (by omega)]

theorem startsWith_iff (m b : Bytes) : startsWith m b = true ↔ Has b 0 m := by
  unfold startsWith Has
  rw [Bool.and_eq_true, decide_eq_true_eq, decide_eq_true_eq]
  constructor
  · rintro ⟨_, h⟩
    refine ⟨[], b.drop m.length, ?_, rfl⟩
    conv_lhs => rw [← List.take_append_drop m.length b, h]
    rfl
  · rintro ⟨x, y, rfl, hx⟩
    rw [List.length_eq_zero_iff] at hx
    subst hx
    simp

theorem hasUstar_iff (b : Bytes) : hasUstar b = true ↔ Has b 257 [0x75, 0x73, 0x74, 0x61, 0x72] := by
  unfold hasUstar Has
  rw [Bool.and_eq_true, decide_eq_true_eq, decide_eq_true_eq]
  constructor
  · rintro ⟨hl, h⟩
    refine ⟨b.take 257, (b.drop 257).drop 5, ?_, by rw [List.length_take]; omega⟩
    rw [← h, List.append_assoc, List.take_append_drop, List.take_append_drop]
  · rintro ⟨x, y, rfl, hx⟩
    constructor
    · simp; omega
    · rw [List.append_assoc, ← hx, List.drop_left]
      rfl

/-- Magic numbers stand in the first 600 bytes. -/
theorem has_take {b m : Bytes} {k : Nat} (h : k + m.length ≤ sniffLimit) : Has (b.take sniffLimit) k m ↔ Has b k m := by
  unfold Has
  constructor
  · rintro ⟨x, y, e, hx⟩
    refine ⟨x, y ++ b.drop sniffLimit, ?_, hx⟩
    rw [← List.append_assoc, ← e, List.take_append_drop]
  · rintro ⟨x, y, rfl, hx⟩
    refine ⟨x, y.take (sniffLimit - (x ++ m).length), ?_, hx⟩
    rw [List.take_append, List.take_of_length_le (l := x ++ m) (by simp; omega)]

theorem detect_take (b : Bytes) : detect (b.take sniffLimit) = detect b := by
  have s : ∀ m : Bytes, m.length ≤ sniffLimit → startsWith m (b.take sniffLimit) = startsWith m b := by
    intro m hm
    rw [Bool.eq_iff_iff, startsWith_iff, startsWith_iff, has_take (by omega)]
  have u : hasUstar (b.take sniffLimit) = hasUstar b := by
    rw [Bool.eq_iff_iff, hasUstar_iff, hasUstar_iff, has_take (by decide)]
  unfold detect
  rw [s _ (by decide), s _ (by decide), s _ (by decide), s _ (by decide), s _ (by decide), s _ (by decide), u]

/-- The kind is that of the first magic number of the list that the file has. -/
theorem detect_spec (b : Bytes) (k : Kind) : detect b = some k ↔
    ∃ pre n m post, magic = pre ++ (k, n, m) :: post ∧ Has b n m ∧ ∀ x ∈ pre, ¬ Has b x.2.1 x.2.2 := by
  have key : ∀ (l : List (Kind × Nat × Bytes)) (p : Kind × Nat × Bytes → Bool), (l.find? p).map Prod.fst = some k ↔
      ∃ pre n m post, l = pre ++ (k, n, m) :: post ∧ p (k, n, m) = true ∧ ∀ x ∈ pre, ¬ p x = true := by
    intro l p
    induction l with
    | nil => simp
    | cons y l ih =>
      rw [List.find?_cons]
      cases hy : p y with
      | true =>
        simp only [Option.map_some]
        constructor
        · intro e
          obtain ⟨k', n, m⟩ := y
          have := Option.some.inj e
          subst this
          exact ⟨[], n, m, l, rfl, hy, fun x m => (by cases m)⟩
        · rintro ⟨pre, n, m, post, e, h1, h2⟩
          cases pre with
          | nil => rw [(List.cons.inj e).1]
          | cons z pre =>
            have := (List.cons.inj e).1
            subst this
            exact absurd hy (h2 _ List.mem_cons_self)
      | false =>
        simp only
        rw [ih]
        constructor
        · rintro ⟨pre, n, m, post, e, h1, h2⟩
          refine ⟨y :: pre, n, m, post, by rw [e]; rfl, h1, fun x hx => ?_⟩
          rcases List.mem_cons.1 hx with rfl | hx
          · rw [hy]; decide
          · exact h2 x hx
        · rintro ⟨pre, n, m, post, e, h1, h2⟩
          cases pre with
          | nil => rw [← (List.cons.inj e).1, hy] at h1; cases h1
          | cons z pre => exact ⟨pre, n, m, post, (List.cons.inj e).2, h1, fun x hx => h2 x (List.mem_cons_of_mem _ hx)⟩
  classical
  have hp : detect b = (magic.find? (fun x => decide (Has b x.2.1 x.2.2))).map Prod.fst := by
    have hs : ∀ m, decide (Has b 0 m) = startsWith m b := by
      intro m; rw [Bool.eq_iff_iff, decide_eq_true_eq, startsWith_iff]
    have hu : decide (Has b 257 [0x75, 0x73, 0x74, 0x61, 0x72]) = hasUstar b := by
      rw [Bool.eq_iff_iff, decide_eq_true_eq, hasUstar_iff]
    unfold detect magic
    simp only [List.find?_cons, List.find?_nil, hs, hu]
    cases startsWith [0x50, 0x4b, 0x03, 0x04] b <;> cases startsWith [0x50, 0x4b, 0x05, 0x06] b <;>
      cases startsWith [0x50, 0x4b, 0x07, 0x08] b <;> cases startsWith [0x1f, 0x8b] b <;>
      cases startsWith [0xfd, 0x37, 0x7a, 0x58, 0x5a, 0x00] b <;> cases startsWith [0x28, 0xb5, 0x2f, 0xfd] b <;>
      cases hasUstar b <;> rfl
  rw [hp, key]
  simp only [decide_eq_true_eq]

/-- **C180** However the body is cut into chunks, the file is the body, and the type that is found is
that of the first magic number of the list that the whole body has. -/
theorem C180 {cs : List Bytes} (h : ∀ c ∈ cs, c ≠ []) (rest : List Bytes) (k : Kind) :
    (stream (cs ++ [] :: rest) [] []).1 = cs.flatten ∧
    (detect (stream (cs ++ [] :: rest) [] []).2 = some k ↔
      ∃ pre n m post, magic = pre ++ (k, n, m) :: post ∧ Has cs.flatten n m ∧ ∀ x ∈ pre, ¬ Has cs.flatten x.2.1 x.2.2) := by
  have e : ∀ (cs : List Bytes) (file sniff), (∀ c ∈ cs, c ≠ []) → stream (cs ++ [] :: rest) file sniff = stream cs file sniff := by
    intro cs
    induction cs with
    | nil => intro file sniff _; rw [List.nil_append, stream.eq_2, if_pos rfl]; rfl
    | cons c cs ih =>
      intro file sniff h
      rw [List.cons_append, stream, stream, if_neg (h c List.mem_cons_self), if_neg (h c List.mem_cons_self)]
      exact ih _ _ (fun x m => h x (List.mem_cons_of_mem _ m))
  rw [e cs [] [] h, stream_spec h [] [] rfl, List.nil_append, detect_take, detect_spec]
  exact ⟨rfl, Iff.rfl⟩

example : detect (stream [[0x1f], [0x8b, 0x08], []] [] []).2 = some .tarGz :=
  (C180 (cs := [[0x1f], [0x8b, 0x08]]) (by simp) [] .tarGz).2.2
    ⟨[_, _, _], 0, _, _, rfl, ⟨[], [0x08], rfl, rfl⟩, by
      intro x hx
      simp only [List.mem_cons, List.not_mem_nil, or_false] at hx
      rcases hx with rfl | rfl | rfl <;> (rw [← startsWith_iff]; decide)⟩

end Verif.Fetch
