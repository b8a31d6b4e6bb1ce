import Verif.Json.Spec
/-!
# C131 to C135: the module `json`
-/
namespace Verif.Json
open Verif

/-! ## Encoding gives a document -/

mutual
theorem enc_ok (a : Bool) : ∀ (v : V), Supported v → ∃ x, enc a v = .ok x
  | .none, _ => ⟨_, rfl⟩
  | .bool _, _ => ⟨_, rfl⟩
  | .int _ _, _ => ⟨_, rfl⟩
  | .float _, _ => ⟨_, rfl⟩
  | .str _, _ => ⟨_, rfl⟩
  | .other, h => absurd h (by simp [Supported])
  | .list l, h => by
    obtain ⟨x, hx⟩ := encL_ok a l (by simpa [Supported] using h)
    exact ⟨_, by rw [enc, hx]; rfl⟩
  | .dict l, h => by
    obtain ⟨x, hx⟩ := encD_ok a l (by simpa [Supported] using h)
    exact ⟨_, by rw [enc, hx]; rfl⟩

theorem encL_ok (a : Bool) : ∀ (l : List V), SupportedL l → ∃ x, encL a l = .ok x
  | [], _ => ⟨_, rfl⟩
  | v :: l, h => by
    rw [SupportedL] at h
    obtain ⟨x, hx⟩ := enc_ok a v h.1
    obtain ⟨y, hy⟩ := encL_ok a l h.2
    exact ⟨_, by rw [encL, hx]; simp only [Res.ok_bind]; rw [hy]; rfl⟩

theorem encD_ok (a : Bool) : ∀ (l : List (Str × V)), SupportedD l → ∃ x, encD a l = .ok x
  | [], _ => ⟨_, rfl⟩
  | (k, v) :: l, h => by
    rw [SupportedD] at h
    obtain ⟨x, hx⟩ := enc_ok a v h.1
    obtain ⟨y, hy⟩ := encD_ok a l h.2
    exact ⟨_, by rw [encD, hx]; simp only [Res.ok_bind]; rw [hy]; rfl⟩
end

mutual
theorem enc_raise (a : Bool) : ∀ (v : V), ¬ Supported v → enc a v = .raise .valueError
  | .none, h => absurd h (by simp [Supported])
  | .bool _, h => absurd h (by simp [Supported])
  | .int _ _, h => absurd h (by simp [Supported])
  | .float _, h => absurd h (by simp [Supported])
  | .str _, h => absurd h (by simp [Supported])
  | .other, _ => rfl
  | .list l, h => by rw [enc, encL_raise a l (by simpa [Supported] using h)]; rfl
  | .dict l, h => by rw [enc, encD_raise a l (by simpa [Supported] using h)]; rfl

theorem encL_raise (a : Bool) : ∀ (l : List V), ¬ SupportedL l → encL a l = .raise .valueError
  | [], h => absurd h (by simp [SupportedL])
  | v :: l, h => by
    rw [SupportedL] at h
    rw [encL]
    by_cases hv : Supported v
    · obtain ⟨x, hx⟩ := enc_ok a v hv
      rw [hx]; simp only [Res.ok_bind]
      rw [encL_raise a l (fun hl => h ⟨hv, hl⟩)]; rfl
    · rw [enc_raise a v hv]; rfl

theorem encD_raise (a : Bool) : ∀ (l : List (Str × V)), ¬ SupportedD l → encD a l = .raise .valueError
  | [], h => absurd h (by simp [SupportedD])
  | (k, v) :: l, h => by
    rw [SupportedD] at h
    rw [encD]
    by_cases hv : Supported v
    · obtain ⟨x, hx⟩ := enc_ok a v hv
      rw [hx]; simp only [Res.ok_bind]
      rw [encD_raise a l (fun hl => h ⟨hv, hl⟩)]; rfl
    · rw [enc_raise a v hv]; rfl
end

mutual
/-- The document of a value has no number that is too large, and can be written if and only if no number
of the value is infinite or NaN. -/
theorem enc_plain (a : Bool) : ∀ (v : V) (x : D), enc a v = .ok x →
    (Finite v → Plain x ∧ writable x = true) ∧ (¬ Finite v → writable x = false)
  | .none, x, h => by cases h; simp [Finite, Plain, writable]
  | .bool _, x, h => by cases h; simp [Finite, Plain, writable]
  | .int k n, x, h => by
    cases h
    unfold encInt
    split <;> simp [Finite, Plain, writable]
  | .float f, x, h => by cases h; cases f <;> simp [Finite, Plain, writable]
  | .str _, x, h => by cases h; simp [Finite, Plain, writable]
  | .other, x, h => by cases h
  | .list l, x, h => by
    rw [enc] at h
    cases e : encL a l with
    | ok y =>
      rw [e] at h; cases h
      simpa [Finite, Plain, writable] using encL_plain a l y e
    | _ => rw [e] at h; cases h
  | .dict l, x, h => by
    rw [enc] at h
    cases e : encD a l with
    | ok y =>
      rw [e] at h; cases h
      simpa [Finite, Plain, writable] using encD_plain a l y e
    | _ => rw [e] at h; cases h

theorem encL_plain (a : Bool) : ∀ (l : List V) (x : List D), encL a l = .ok x →
    (FiniteL l → PlainL x ∧ writableL x = true) ∧ (¬ FiniteL l → writableL x = false)
  | [], x, h => by cases h; simp [FiniteL, PlainL, writableL]
  | v :: l, x, h => by
    rw [encL] at h
    cases e : enc a v with
    | ok y =>
      rw [e] at h; simp only [Res.ok_bind] at h
      cases e' : encL a l with
      | ok z =>
        rw [e'] at h; cases h
        have h1 := enc_plain a v y e
        have h2 := encL_plain a l z e'
        refine ⟨fun hf => ?_, fun hf => ?_⟩
        · rw [FiniteL] at hf
          simp [PlainL, writableL, h1.1 hf.1, h2.1 hf.2]
        · rw [FiniteL] at hf
          by_cases hv : Finite v
          · simp [writableL, h2.2 (fun hl => hf ⟨hv, hl⟩)]
          · simp [writableL, h1.2 hv]
      | _ => rw [e'] at h; cases h
    | _ => rw [e] at h; cases h

theorem encD_plain (a : Bool) : ∀ (l : List (Str × V)) (x : List (Str × D)), encD a l = .ok x →
    (FiniteD l → PlainD x ∧ writableD x = true) ∧ (¬ FiniteD l → writableD x = false)
  | [], x, h => by cases h; simp [FiniteD, PlainD, writableD]
  | (k, v) :: l, x, h => by
    rw [encD] at h
    cases e : enc a v with
    | ok y =>
      rw [e] at h; simp only [Res.ok_bind] at h
      cases e' : encD a l with
      | ok z =>
        rw [e'] at h; cases h
        have h1 := enc_plain a v y e
        have h2 := encD_plain a l z e'
        refine ⟨fun hf => ?_, fun hf => ?_⟩
        · rw [FiniteD] at hf
          simp [PlainD, writableD, h1.1 hf.1, h2.1 hf.2]
        · rw [FiniteD] at hf
          by_cases hv : Finite v
          · simp [writableD, h2.2 (fun hl => hf ⟨hv, hl⟩)]
          · simp [writableD, h1.2 hv]
      | _ => rw [e'] at h; cases h
    | _ => rw [e] at h; cases h
end

/-! ## C131: what is written is read -/

/-- **C131.** The reader reads the text that the writer writes, with and without indentation, as the
document that was written. -/
theorem C131 (p : Bool) {d : D} (h : Plain d) : read (wr p 0 d) = some d := read_wr p h

/-- Two documents with the same text are the same, also when one is written with indentation. -/
theorem C131_injective (p q : Bool) {d e : D} (hd : Plain d) (he : Plain e) (h : wr p 0 d = wr q 0 e) :
    d = e := by
  have := C131 p hd
  rw [h, C131 q he] at this
  exact (Option.some.inj this).symm

example : Plain (.obj [([34, 0], .arr [.num (-70), .null, .arr []]), ([], .str [10])]) := by
  simp [Plain, PlainD, PlainL]

/-! ## C133: encoding gives a text or ValueError -/

/-- **C133.** Without infinite numbers and NaN, encoding gives a text if all values are of classes that
have a form in JSON, and raises ValueError otherwise. -/
theorem C133_partial (p a : Bool) (d : List (Str × V)) (hf : FiniteD d) :
    (SupportedD d → ∃ t, encode p a d = .ok t) ∧
    (¬ SupportedD d → encode p a d = .raise .valueError) := by
  refine ⟨fun h => ?_, fun h => ?_⟩
  · obtain ⟨x, hx⟩ := encD_ok a d h
    have := ((encD_plain a d x hx).1 hf).2
    refine ⟨wr p 0 (.obj x), ?_⟩
    simp [encode, hx, write, writable, this, toStr]
  · simp [encode, encD_raise a d h]

/-- The same for lists. -/
theorem C133_list_partial (p a : Bool) (l : List V) (hf : FiniteL l) :
    (SupportedL l → ∃ t, encodeList p a l = .ok t) ∧
    (¬ SupportedL l → encodeList p a l = .raise .valueError) := by
  refine ⟨fun h => ?_, fun h => ?_⟩
  · obtain ⟨x, hx⟩ := encL_ok a l h
    have := ((encL_plain a l x hx).1 hf).2
    refine ⟨wr p 0 (.arr x), ?_⟩
    simp [encodeList, hx, write, writable, this, toStr]
  · simp [encodeList, encL_raise a l h]

example : FiniteD [([97], .list [.float (.fin 5), .int .u8 3])] ∧
    SupportedD [([97], .list [.float (.fin 5), .int .u8 3])] := by
  simp [FiniteD, SupportedD, FiniteL, SupportedL, Finite, Supported]

/-- With an infinite number or NaN anywhere in the value, the writer gives NULL, and the text is taken
from there. -/
theorem C133_refuted (p a : Bool) (d : List (Str × V)) (hs : SupportedD d) (hf : ¬ FiniteD d) :
    encode p a d = .ub := by
  obtain ⟨x, hx⟩ := encD_ok a d hs
  have := (encD_plain a d x hx).2 hf
  simp [encode, hx, write, writable, this, toStr]

example : encode false false [([120], .float .inf)] = .ub :=
  C133_refuted _ _ _ (by simp [SupportedD, Supported]) (by simp [FiniteD, Finite])

/-! ## No NUL in a text -/

theorem ch_w {s : Str} (h : 0 ∉ s) : T.ch 0 ∉ w s := by
  intro hm
  obtain ⟨c, hc, e⟩ := List.mem_map.1 hm
  cases e; exact h hc

theorem escape_nul (c : Nat) : 0 ∉ escape c := by
  by_cases h : c < 32
  · interval_cases c <;> decide
  · unfold escape
    repeat' split
    all_goals simp
    all_goals omega

theorem quote_nul (s : Str) : T.ch 0 ∉ quote s := by
  have : T.ch 0 ∉ w (s.flatMap escape) := ch_w (by
    intro h
    obtain ⟨c, _, hc⟩ := List.mem_flatMap.1 h
    exact escape_nul c hc)
  simp [quote, this]

theorem decimal_nul (n : Int) : 0 ∉ decimal n := by
  have : ∀ f m, 0 ∉ digits f m := by
    intro f m h
    have := digits_all f m 0 h
    simp [isDigit] at this
  unfold decimal
  split
  · simp [this]
  · exact this _ _

theorem line_nul (p : Bool) (lvl : Nat) : T.ch 0 ∉ line p lvl := by
  cases p with
  | false => simp [line]
  | true => exact ch_w (by simp)

theorem colon_nul (p : Bool) : T.ch 0 ∉ colon p := by cases p <;> simp [colon, w]

mutual
theorem wr_nul (p : Bool) : ∀ (lvl : Nat) (d : D), T.ch 0 ∉ wr p lvl d
  | _, .null => by rw [wr]; exact ch_w (by simp)
  | _, .bool true => by rw [wr]; exact ch_w (by simp)
  | _, .bool false => by rw [wr]; exact ch_w (by simp)
  | _, .num n => by rw [wr]; exact ch_w (decimal_nul n)
  | _, .real (.fin b) => by simp [wr]
  | _, .real .inf => by simp [wr]
  | _, .real .ninf => by simp [wr]
  | _, .real .nan => by simp [wr]
  | _, .huge => by simp [wr]
  | _, .str s => by rw [wr]; exact quote_nul s
  | _, .arr [] => by rw [wr]; exact ch_w (by simp)
  | _, .obj [] => by rw [wr]; exact ch_w (by simp)
  | lvl, .arr (v :: l) => by
    rw [wr]; simp [line_nul, wr_nul p (lvl + 1) v, wrL_nul p lvl l]
  | lvl, .obj ((k, v) :: l) => by
    rw [wr]; simp [line_nul, quote_nul, colon_nul, wr_nul p (lvl + 1) v, wrD_nul p lvl l]

theorem wrL_nul (p : Bool) : ∀ (lvl : Nat) (l : List D), T.ch 0 ∉ wrL p lvl l
  | lvl, [] => by rw [wrL]; simp [line_nul]
  | lvl, v :: l => by rw [wrL]; simp [line_nul, wr_nul p (lvl + 1) v, wrL_nul p lvl l]

theorem wrD_nul (p : Bool) : ∀ (lvl : Nat) (l : List (Str × D)), T.ch 0 ∉ wrD p lvl l
  | lvl, [] => by rw [wrD]; simp [line_nul]
  | lvl, (k, v) :: l => by
    rw [wrD]; simp [line_nul, quote_nul, colon_nul, wr_nul p (lvl + 1) v, wrD_nul p lvl l]
end

theorem takeWhile_all {α : Type} {q : α → Bool} : ∀ {l : List α}, (∀ x ∈ l, q x = true) → l.takeWhile q = l
  | [], _ => rfl
  | x :: l, h => by
    rw [List.takeWhile_cons, h x (by simp), if_pos rfl, takeWhile_all (fun y hy => h y (by simp [hy]))]

theorem cut_of_nul {ts : List T} (h : T.ch 0 ∉ ts) : cut ts = ts := by
  unfold cut
  refine takeWhile_all ?_
  intro t ht
  simp only [decide_eq_true_eq]
  exact fun e => h (e ▸ ht)

theorem cstr_clean {s : Str} (h : 0 ∉ s) : cstr s = s := by
  unfold cstr
  refine takeWhile_all ?_
  intro t ht
  simp only [decide_eq_true_eq]
  exact fun e => h (e ▸ ht)

/-! ## C132: decoding what was encoded -/

theorem setitem_fresh (k : Str) (v : V) : ∀ (acc : List (Str × V)), k ∉ acc.map Prod.fst →
    setitem k v acc = acc ++ [(k, v)]
  | [], _ => rfl
  | (j, u) :: l, h => by
    simp only [List.map_cons, List.mem_cons, not_or] at h
    rw [setitem, if_neg (fun e => h.1 e.symm), setitem_fresh k v l h.2]; rfl

theorem decInt_holds (n : Int) : ∃ k, decInt n = .int k n ∧ Holds k n := by
  unfold decInt
  split
  · exact ⟨_, rfl, by simp only [Holds]; omega⟩
  · split
    · exact ⟨_, rfl, by simp only [Holds]; omega⟩
    · exact ⟨_, rfl, by simp only [Holds]; omega⟩

theorem number_eq : ∀ (l : Str) (a : Nat), number a l = a * 10 ^ l.length + digitsValue l
  | [], a => by simp [number, digitsValue]
  | c :: l, a => by
    have : number a (c :: l) = number (a * 10 + (c - 48)) l := rfl
    rw [this, number_eq l, digitsValue, List.length_cons, Nat.pow_succ, Nat.add_mul]
    rw [Nat.mul_assoc, Nat.mul_comm 10, Nat.add_assoc]

theorem decimal_denotes (n : Int) : Denotes (decimal n) n := by
  obtain ⟨c, l, h1, _, h3⟩ := digits_head (n.natAbs + 1) n.natAbs (by omega)
  have hn := number_digits (n.natAbs + 1) n.natAbs (by omega)
  have ha := digits_all (n.natAbs + 1) n.natAbs
  rw [number_eq, h1] at hn
  rw [h1] at ha
  refine ⟨c, l, fun x hx => by simpa [isDigit] using ha x hx, fun hc => (h3 hc).2, ?_⟩
  unfold decimal
  rw [h1]
  split
  · exact .inr ⟨by assumption, rfl, by omega⟩
  · exact .inl ⟨by omega, rfl, by omega⟩

mutual
theorem dec_enc (a : Bool) : ∀ (v : V) (x : D), enc a v = .ok x → Finite v → Clean v →
    ∃ u, dec x = .ok u ∧ Same a v u
  | .none, x, h, _, _ => by cases h; exact ⟨_, rfl, .none⟩
  | .bool b, x, h, _, _ => by cases h; exact ⟨_, rfl, .bool b⟩
  | .int k n, x, h, _, _ => by
    cases h
    unfold encInt
    split
    · next hk =>
      obtain ⟨rfl, hk⟩ := hk
      refine ⟨_, rfl, ?_⟩
      rw [cstr_clean (decimal_nul n)]
      exact .big n _ hk (decimal_denotes n)
    · next hk =>
      obtain ⟨k', h1, h2⟩ := decInt_holds n
      refine ⟨.int k' n, by rw [dec, h1], .int k k' n ?_ h2⟩
      intro e
      cases a
      · rfl
      · exact absurd ⟨e, rfl⟩ hk
  | .float (.fin b), x, h, _, _ => by cases h; exact ⟨_, rfl, .float b⟩
  | .float .inf, _, _, h, _ => absurd h (by simp [Finite])
  | .float .ninf, _, _, h, _ => absurd h (by simp [Finite])
  | .float .nan, _, _, h, _ => absurd h (by simp [Finite])
  | .str s, x, h, _, hc => by
    cases h
    have hc : 0 ∉ s := by simpa [Clean] using hc
    rw [cstr_clean hc]
    refine ⟨.str s, by rw [dec, cstr_clean hc], .str s⟩
  | .other, x, h, _, _ => by cases h
  | .list l, x, h, hf, hc => by
    rw [enc] at h
    cases e : encL a l with
    | ok y =>
      rw [e] at h; cases h
      obtain ⟨u, h1, h2⟩ := decL_enc a l y e (by simpa [Finite] using hf) (by simpa [Clean] using hc)
      exact ⟨.list u, by rw [dec, h1]; rfl, .list h2⟩
    | _ => rw [e] at h; cases h
  | .dict l, x, h, hf, hc => by
    rw [enc] at h
    cases e : encD a l with
    | ok y =>
      rw [e] at h; cases h
      obtain ⟨u, h1, h2⟩ := decD_enc a l y e (by simpa [Finite] using hf) (by simpa [Clean] using hc) []
        (by simp)
      exact ⟨.dict u, by rw [dec, h1]; rfl, .dict h2⟩
    | _ => rw [e] at h; cases h

theorem decL_enc (a : Bool) : ∀ (l : List V) (x : List D), encL a l = .ok x → FiniteL l → CleanL l →
    ∃ u, decL x = .ok u ∧ SameL a l u
  | [], x, h, _, _ => by cases h; exact ⟨[], rfl, .nil⟩
  | v :: l, x, h, hf, hc => by
    rw [encL] at h
    rw [FiniteL] at hf
    rw [CleanL] at hc
    cases e : enc a v with
    | ok y =>
      rw [e] at h; simp only [Res.ok_bind] at h
      cases e' : encL a l with
      | ok z =>
        rw [e'] at h; cases h
        obtain ⟨u, h1, h2⟩ := dec_enc a v y e hf.1 hc.1
        obtain ⟨m, h3, h4⟩ := decL_enc a l z e' hf.2 hc.2
        exact ⟨u :: m, by rw [decL, h1]; simp only [Res.ok_bind]; rw [h3]; rfl, .cons h2 h4⟩
      | _ => rw [e'] at h; cases h
    | _ => rw [e] at h; cases h

theorem decD_enc (a : Bool) : ∀ (l : List (Str × V)) (x : List (Str × D)), encD a l = .ok x → FiniteD l →
    CleanD l → ∀ (acc : List (Str × V)), (∀ k ∈ l.map Prod.fst, k ∉ acc.map Prod.fst) →
    ∃ u, decD acc x = .ok (acc ++ u) ∧ SameD a l u
  | [], x, h, _, _, acc, _ => by cases h; exact ⟨[], by simp [decD], .nil⟩
  | (k, v) :: l, x, h, hf, hc, acc, hd => by
    rw [encD] at h
    rw [FiniteD] at hf
    rw [CleanD] at hc
    obtain ⟨hk, hkl, hcv, hcl⟩ := hc
    cases e : enc a v with
    | ok y =>
      rw [e] at h; simp only [Res.ok_bind] at h
      cases e' : encD a l with
      | ok z =>
        rw [e'] at h; cases h
        obtain ⟨u, h1, h2⟩ := dec_enc a v y e hf.1 hcv
        have hka : k ∉ acc.map Prod.fst := hd k (by simp)
        obtain ⟨m, h3, h4⟩ := decD_enc a l z e' hf.2 hcl (acc ++ [(k, u)]) (by
          intro j hj
          have := hd j (by simp only [List.map_cons, List.mem_cons]; exact .inr hj)
          simp only [List.map_append, List.map_cons, List.map_nil, List.mem_append, List.mem_singleton, not_or]
          exact ⟨this, fun e => hkl (e ▸ hj)⟩)
        refine ⟨(k, u) :: m, ?_, .cons k h2 h4⟩
        rw [decD, h1]
        simp only [Res.ok_bind]
        rw [cstr_clean hk, cstr_clean hk, setitem_fresh k u acc hka, h3]
        simp
      | _ => rw [e'] at h; cases h
    | _ => rw [e] at h; cases h
end

/-- **C132.** A dictionary of finite numbers, and of strings and keys without NUL, is encoded as a text
that is decoded as the same dictionary, but for the classes of integers. -/
theorem C132_partial (p a : Bool) (d : List (Str × V)) (hs : SupportedD d) (hf : FiniteD d) (hc : CleanD d) :
    ∃ t r, encode p a d = .ok t ∧ decode t = .ok r ∧ SameD a d r := by
  obtain ⟨x, hx⟩ := encD_ok a d hs
  obtain ⟨hp, hw⟩ := (encD_plain a d x hx).1 hf
  obtain ⟨u, h1, h2⟩ := decD_enc a d x hx hf hc [] (by simp)
  refine ⟨wr p 0 (.obj x), u, by simp [encode, hx, write, writable, hw, toStr], ?_, h2⟩
  unfold decode
  rw [cut_of_nul (wr_nul p 0 _), read_wr p (by simpa [Plain] using hp)]
  exact h1

/-- The same for lists. -/
theorem C132_list_partial (p a : Bool) (l : List V) (hs : SupportedL l) (hf : FiniteL l) (hc : CleanL l) :
    ∃ t r, encodeList p a l = .ok t ∧ decodeList t = .ok r ∧ SameL a l r := by
  obtain ⟨x, hx⟩ := encL_ok a l hs
  obtain ⟨hp, hw⟩ := (encL_plain a l x hx).1 hf
  obtain ⟨u, h1, h2⟩ := decL_enc a l x hx hf hc
  refine ⟨wr p 0 (.arr x), u, by simp [encodeList, hx, write, writable, hw, toStr], ?_, h2⟩
  unfold decodeList
  rw [cut_of_nul (wr_nul p 0 _), read_wr p (by simpa [Plain] using hp)]
  exact h1

theorem holds_unique {k k' : Kind} {n : Int} (h : Holds k n) (h' : Holds k' n) : k = k' := by
  cases k <;> cases k' <;> simp only [Holds] at h h' <;> first | rfl | omega

mutual
theorem same_eq : ∀ (v u : V), Same false v u → Read v → v = u
  | .none, _, h, _ => by cases h; rfl
  | .bool _, _, h, _ => by cases h; rfl
  | .int k n, _, h, hr => by
    cases h with
    | int _ k' _ _ hk =>
      have hr : Holds k n := by simpa [Read] using hr
      rw [holds_unique hr hk]
    | big _ _ e => exact absurd e (by decide)
  | .float _, _, h, _ => by cases h; rfl
  | .str _, _, h, _ => by cases h; rfl
  | .other, _, h, _ => by cases h
  | .list l, _, h, hr => by
    cases h with
    | list h => rw [sameL_eq l _ h (by simpa [Read] using hr)]
  | .dict l, _, h, hr => by
    cases h with
    | dict h => rw [sameD_eq l _ h (by simpa [Read] using hr)]

theorem sameL_eq : ∀ (l m : List V), SameL false l m → ReadL l → l = m
  | [], _, h, _ => by cases h; rfl
  | v :: l, _, h, hr => by
    rw [ReadL] at hr
    cases h with
    | cons h1 h2 => rw [same_eq v _ h1 hr.1, sameL_eq l _ h2 hr.2]

theorem sameD_eq : ∀ (l m : List (Str × V)), SameD false l m → ReadD l → l = m
  | [], _, h, _ => by cases h; rfl
  | (k, v) :: l, _, h, hr => by
    rw [ReadD] at hr
    cases h with
    | cons _ h1 h2 => rw [same_eq v _ h1 hr.1, sameD_eq l _ h2 hr.2]
end

/-- If integers have the classes that they have when they are read, the dictionary is the same. -/
theorem C132_exact_partial (p : Bool) (d : List (Str × V)) (hs : SupportedD d) (hf : FiniteD d)
    (hc : CleanD d) (hr : ReadD d) : ∃ t, encode p false d = .ok t ∧ decode t = .ok d := by
  obtain ⟨t, r, h1, h2, h3⟩ := C132_partial p false d hs hf hc
  exact ⟨t, h1, by rw [sameD_eq d r h3 hr]; exact h2⟩

/-- The dictionary of the examples. -/
def sample : List (Str × V) :=
  [([34, 10], .list [.none, .int .int (-5), .float (.fin 7), .dict []]), ([], .str [92, 955])]

example : SupportedD sample ∧ FiniteD sample ∧ CleanD sample ∧ ReadD sample := by
  simp [sample, SupportedD, Supported, SupportedL, FiniteD, Finite, FiniteL, CleanD, Clean, CleanL, ReadD,
    Read, ReadL, Holds]

/-- A string with a NUL comes back shorter. -/
theorem C132_refuted_nul : ∃ t, encode false false [([120], .str [97, 0, 98])] = .ok t ∧
    decode t = .ok [([120], .str [97])] :=
  ⟨w [123, 34, 120, 34, 58, 34, 97, 34, 125], rfl, rfl⟩

/-- Two keys become one, and the value of the first is lost. -/
theorem C132_refuted_key : ∃ t, encode false false [([97, 0, 98], .bool true), ([97, 0, 99], .bool false)] =
    .ok t ∧ decode t = .ok [([97], .bool false)] :=
  ⟨_, rfl, rfl⟩

/-- A `u8` comes back as an `int`. -/
theorem C132_refuted_class : ∃ t, encode false false [([120], .int .u8 5)] = .ok t ∧
    decode t = .ok [([120], .int .int 5)] :=
  ⟨_, rfl, rfl⟩

/-! ## C134: what is decoded -/

mutual
theorem dec_range : ∀ (d : D), (InRange d → ∃ v, dec d = .ok v) ∧ (¬ InRange d → dec d = .raise .valueError)
  | .null => ⟨fun _ => ⟨_, rfl⟩, fun h => absurd h (by simp [InRange])⟩
  | .bool _ => ⟨fun _ => ⟨_, rfl⟩, fun h => absurd h (by simp [InRange])⟩
  | .num _ => ⟨fun _ => ⟨_, rfl⟩, fun h => absurd h (by simp [InRange])⟩
  | .real _ => ⟨fun _ => ⟨_, rfl⟩, fun h => absurd h (by simp [InRange])⟩
  | .str _ => ⟨fun _ => ⟨_, rfl⟩, fun h => absurd h (by simp [InRange])⟩
  | .huge => ⟨fun h => absurd h (by simp [InRange]), fun _ => rfl⟩
  | .arr l => by
    obtain ⟨h1, h2⟩ := decL_range l
    refine ⟨fun h => ?_, fun h => ?_⟩
    · obtain ⟨x, hx⟩ := h1 (by simpa [InRange] using h)
      exact ⟨_, by rw [dec, hx]; rfl⟩
    · rw [dec, h2 (by simpa [InRange] using h)]; rfl
  | .obj l => by
    obtain ⟨h1, h2⟩ := decD_range l []
    refine ⟨fun h => ?_, fun h => ?_⟩
    · obtain ⟨x, hx⟩ := h1 (by simpa [InRange] using h)
      exact ⟨_, by rw [dec, hx]; rfl⟩
    · rw [dec, h2 (by simpa [InRange] using h)]; rfl

theorem decL_range : ∀ (l : List D),
    (InRangeL l → ∃ v, decL l = .ok v) ∧ (¬ InRangeL l → decL l = .raise .valueError)
  | [] => ⟨fun _ => ⟨_, rfl⟩, fun h => absurd h (by simp [InRangeL])⟩
  | v :: l => by
    obtain ⟨h1, h2⟩ := dec_range v
    obtain ⟨h3, h4⟩ := decL_range l
    refine ⟨fun h => ?_, fun h => ?_⟩
    · rw [InRangeL] at h
      obtain ⟨x, hx⟩ := h1 h.1
      obtain ⟨y, hy⟩ := h3 h.2
      exact ⟨_, by rw [decL, hx]; simp only [Res.ok_bind]; rw [hy]; rfl⟩
    · rw [InRangeL] at h
      by_cases hv : InRange v
      · obtain ⟨x, hx⟩ := h1 hv
        rw [decL, hx]; simp only [Res.ok_bind]; rw [h4 (fun hl => h ⟨hv, hl⟩)]; rfl
      · rw [decL, h2 hv]; rfl

theorem decD_range : ∀ (l : List (Str × D)) (acc : List (Str × V)),
    (InRangeD l → ∃ v, decD acc l = .ok v) ∧ (¬ InRangeD l → decD acc l = .raise .valueError)
  | [], _ => ⟨fun _ => ⟨_, rfl⟩, fun h => absurd h (by simp [InRangeD])⟩
  | (k, v) :: l, acc => by
    obtain ⟨h1, h2⟩ := dec_range v
    refine ⟨fun h => ?_, fun h => ?_⟩
    · rw [InRangeD] at h
      obtain ⟨x, hx⟩ := h1 h.1
      obtain ⟨y, hy⟩ := (decD_range l (setitem (cstr k) x acc)).1 h.2
      exact ⟨y, by rw [decD, hx]; simp only [Res.ok_bind]; rw [hy]⟩
    · rw [InRangeD] at h
      by_cases hv : InRange v
      · obtain ⟨x, hx⟩ := h1 hv
        rw [decD, hx]; simp only [Res.ok_bind]
        rw [(decD_range l (setitem (cstr k) x acc)).2 (fun hl => h ⟨hv, hl⟩)]
      · rw [decD, h2 hv]; rfl
end

/-- **C134.** Whatever the text, decoding gives a value or raises ValueError. -/
theorem C134_total (t : List T) :
    ((∃ r, decode t = .ok r) ∨ decode t = .raise .valueError) ∧
    ((∃ r, decodeList t = .ok r) ∨ decodeList t = .raise .valueError) := by
  refine ⟨?_, ?_⟩
  · unfold decode
    cases read (cut t) with
    | none => exact .inr rfl
    | some d => cases d with
      | obj l => 
        by_cases hr : InRangeD l
        · exact .inl ((decD_range l []).1 hr)
        · exact .inr ((decD_range l []).2 hr)
      | _ => exact .inl ⟨_, rfl⟩
  · unfold decodeList
    cases read (cut t) with
    | none => exact .inr rfl
    | some d => cases d with
      | arr l => 
        by_cases hr : InRangeL l
        · exact .inl ((decL_range l).1 hr)
        · exact .inr ((decL_range l).2 hr)
      | _ => exact .inr rfl

/-- A text without NUL that is no JSON is refused; that of an object is refused only for a number that is
beyond the range of `double`. -/
theorem C134_raises (t : List T) (hn : T.ch 0 ∉ t) :
    (read t = none → decode t = .raise .valueError) ∧
    ∀ d, read t = some (.obj d) →
      (InRangeD d → ∃ r, decode t = .ok r) ∧ (¬ InRangeD d → decode t = .raise .valueError) := by
  unfold decode
  rw [cut_of_nul hn]
  refine ⟨fun h => by rw [h], fun d h => ?_⟩
  rw [h]
  exact decD_range d []

/-- `{"a": 1e999}` is refused. -/
example : decode (w [123, 34, 97, 34, 58] ++ .huge :: w [125]) = .raise .valueError :=
  ((C134_raises _ (by decide)).2 _ rfl).2 (by simp [InRangeD, InRange])

theorem find_setitem (k j : Str) (v : V) : ∀ (acc : List (Str × V)),
    find j (setitem k v acc) = if k = j then some v else find j acc
  | [] => by simp [setitem, find]
  | (i, u) :: l => by
    rw [setitem]
    split
    · next h =>
      subst h
      simp only [find]
      split <;> simp
    · next h =>
      simp only [find, find_setitem k j v l]
      split
      · next h' => subst h'; rw [if_neg (fun e => h e.symm)]
      · rfl

theorem nodup_setitem (k : Str) (v : V) : ∀ (acc : List (Str × V)), (acc.map Prod.fst).Nodup →
    ((setitem k v acc).map Prod.fst).Nodup ∧
    (∀ j, j ∈ (setitem k v acc).map Prod.fst → j = k ∨ j ∈ acc.map Prod.fst)
  | [], _ => by simp [setitem]
  | (i, u) :: l, h => by
    simp only [List.map_cons, List.nodup_cons] at h
    rw [setitem]
    split
    · simp only [List.map_cons, List.nodup_cons]
      exact ⟨h, fun j hj => .inr hj⟩
    · next hi =>
      obtain ⟨h1, h2⟩ := nodup_setitem k v l h.2
      refine ⟨?_, fun j hj => ?_⟩
      · simp only [List.map_cons, List.nodup_cons]
        refine ⟨fun hm => ?_, h1⟩
        rcases h2 i hm with e | e
        · exact hi e
        · exact h.1 e
      · simp only [List.map_cons, List.mem_cons] at hj ⊢
        rcases hj with rfl | hj
        · exact .inr (.inl rfl)
        · rcases h2 j hj with e | e
          · exact .inl e
          · exact .inr (.inr e)

/-- No key of the members has a NUL in it. -/
def KeysClean (d : List (Str × D)) : Prop := ∀ k ∈ d.map Prod.fst, 0 ∉ k

theorem decD_find : ∀ (l : List (Str × D)) (acc r : List (Str × V)), KeysClean l →
    decD acc l = .ok r → (acc.map Prod.fst).Nodup →
    (r.map Prod.fst).Nodup ∧
    ∀ k, match lastMember k l with
      | none => find k r = find k acc
      | some x => ∃ v, dec x = .ok v ∧ find k r = some v
  | [], acc, r, _, h, hn => by cases h; exact ⟨hn, fun k => by simp [lastMember]⟩
  | (j, x) :: l, acc, r, hk, h, hn => by
    rw [decD] at h
    cases e : dec x with
    | ok v =>
      rw [e] at h; simp only [Res.ok_bind] at h
      rw [cstr_clean (hk j (by simp))] at h
      obtain ⟨h1, h2⟩ := decD_find l _ r (fun k hm => hk k (by
        simp only [List.map_cons, List.mem_cons]; exact .inr hm)) h (nodup_setitem j v acc hn).1
      refine ⟨h1, fun k => ?_⟩
      have h2 := h2 k
      rw [lastMember]
      cases e' : lastMember k l with
      | some u => rw [e'] at h2; exact h2
      | none =>
        rw [e', find_setitem] at h2
        simp only at h2 ⊢
        by_cases hj : j = k
        · rw [if_pos hj] at h2 ⊢; exact ⟨v, e, h2⟩
        · rw [if_neg hj] at h2 ⊢; exact h2
    | _ => rw [e] at h; cases h

/-- **C134.** If the text is that of an object, without NUL in the text and in keys, and decoding gives a
dictionary, then its keys are those of the object, each once, with the value of its last member. -/
theorem C134_partial (t : List T) (d : List (Str × D)) (r : List (Str × V)) (hn : T.ch 0 ∉ t)
    (hd : read t = some (.obj d)) (hk : KeysClean d) (h : decode t = .ok r) :
    (r.map Prod.fst).Nodup ∧
    ∀ k, match lastMember k d with
      | none => find k r = none
      | some x => ∃ v, dec x = .ok v ∧ find k r = some v := by
  unfold decode at h
  rw [cut_of_nul hn, hd] at h
  obtain ⟨h1, h2⟩ := decD_find d [] r hk h (by simp)
  refine ⟨h1, fun k => ?_⟩
  have := h2 k
  cases e : lastMember k d with
  | none => rw [e] at this; exact this
  | some x => rw [e] at this; exact this

/-- The text `{"a":1,"a":2}`. -/
def twice : List T := w [123, 34, 97, 34, 58, 49, 44, 34, 97, 34, 58, 50, 125]

example : T.ch 0 ∉ twice ∧ read twice = some (.obj [([97], .num 1), ([97], .num 2)]) ∧
    KeysClean [([97], .num 1), ([97], .num 2)] ∧ decode twice = .ok [([97], .int .int 2)] :=
  ⟨by decide, rfl, by simp [KeysClean], rfl⟩

/-- A text that is no object is decoded as the empty dictionary. -/
theorem C134_refuted_root (t : List T) (d : D) (hn : T.ch 0 ∉ t) (hd : read t = some d)
    (ho : ∀ l, d ≠ .obj l) : decode t = .ok [] := by
  unfold decode
  rw [cut_of_nul hn, hd]
  cases d with
  | obj l => exact absurd rfl (ho l)
  | _ => rfl

/-- `decode("[1]")` -/
example : decode (w [91, 49, 93]) = .ok [] :=
  C134_refuted_root _ (.arr [.num 1]) (by decide) rfl (by simp)

/-- What stands behind a NUL in the text is ignored, whatever it is. -/
theorem C134_refuted_nul (t u : List T) : decode (t ++ .ch 0 :: u) = decode t := by
  have : cut (t ++ .ch 0 :: u) = cut t := by
    unfold cut
    induction t with
    | nil => simp
    | cons x t ih =>
      simp only [List.cons_append, List.takeWhile_cons]
      split
      · rw [ih]
      · rfl
  unfold decode
  rw [this]

/-! ## C135: encoding what was decoded -/

mutual
theorem enc_dec : ∀ (x : D), Plain x → CleanDoc x → ∃ v, dec x = .ok v ∧ enc false v = .ok x
  | .null, _, _ => ⟨_, rfl, rfl⟩
  | .bool _, _, _ => ⟨_, rfl, rfl⟩
  | .num n, _, _ => by
    obtain ⟨k, h, _⟩ := decInt_holds n
    exact ⟨.int k n, by rw [dec, h], by simp [enc, encInt]⟩
  | .real _, _, _ => ⟨_, rfl, rfl⟩
  | .huge, h, _ => absurd h (by simp [Plain])
  | .str s, _, hc => by
    have hc : 0 ∉ s := by simpa [CleanDoc] using hc
    exact ⟨.str s, by rw [dec, cstr_clean hc], by rw [enc, cstr_clean hc]⟩
  | .arr l, h, hc => by
    obtain ⟨v, h1, h2⟩ := encL_dec l (by simpa [Plain] using h) (by simpa [CleanDoc] using hc)
    exact ⟨.list v, by rw [dec, h1]; rfl, by rw [enc, h2]; rfl⟩
  | .obj l, h, hc => by
    obtain ⟨v, h1, h2⟩ := encD_dec l (by simpa [Plain] using h) (by simpa [CleanDoc] using hc) [] (by simp)
    exact ⟨.dict v, by rw [dec, h1]; rfl, by rw [enc, h2]; rfl⟩

theorem encL_dec : ∀ (l : List D), PlainL l → CleanDocL l → ∃ v, decL l = .ok v ∧ encL false v = .ok l
  | [], _, _ => ⟨[], rfl, rfl⟩
  | x :: l, h, hc => by
    rw [PlainL] at h
    rw [CleanDocL] at hc
    obtain ⟨v, h1, h2⟩ := enc_dec x h.1 hc.1
    obtain ⟨m, h3, h4⟩ := encL_dec l h.2 hc.2
    exact ⟨v :: m, by rw [decL, h1]; simp only [Res.ok_bind]; rw [h3]; rfl,
      by rw [encL, h2]; simp only [Res.ok_bind]; rw [h4]; rfl⟩

theorem encD_dec : ∀ (l : List (Str × D)), PlainD l → CleanDocD l → ∀ (acc : List (Str × V)),
    (∀ k ∈ l.map Prod.fst, k ∉ acc.map Prod.fst) →
    ∃ v, decD acc l = .ok (acc ++ v) ∧ encD false v = .ok l
  | [], _, _, acc, _ => ⟨[], by simp [decD], rfl⟩
  | (k, x) :: l, h, hc, acc, hd => by
    rw [PlainD] at h
    rw [CleanDocD] at hc
    obtain ⟨hk, hkl, hcv, hcl⟩ := hc
    obtain ⟨v, h1, h2⟩ := enc_dec x h.1 hcv
    have hka : k ∉ acc.map Prod.fst := hd k (by simp)
    obtain ⟨m, h3, h4⟩ := encD_dec l h.2 hcl (acc ++ [(k, v)]) (by
      intro j hj
      have := hd j (by simp only [List.map_cons, List.mem_cons]; exact .inr hj)
      simp only [List.map_append, List.map_cons, List.map_nil, List.mem_append, List.mem_singleton, not_or]
      exact ⟨this, fun e => hkl (e ▸ hj)⟩)
    refine ⟨(k, v) :: m, ?_, ?_⟩
    · rw [decD, h1]
      simp only [Res.ok_bind]
      rw [cstr_clean hk, setitem_fresh k v acc hka, h3]
      simp
    · rw [encD, h2]
      simp only [Res.ok_bind]
      rw [h4, cstr_clean hk]; rfl
end

mutual
theorem writable_plain : ∀ (x : D), Plain x → writable x = true
  | .null, _ => rfl
  | .bool _, _ => rfl
  | .num _, _ => rfl
  | .real (.fin _), _ => rfl
  | .real .inf, h => absurd h (by simp [Plain])
  | .real .ninf, h => absurd h (by simp [Plain])
  | .real .nan, h => absurd h (by simp [Plain])
  | .huge, _ => rfl
  | .str _, _ => rfl
  | .arr l, h => by rw [writable]; exact writableL_plain l (by simpa [Plain] using h)
  | .obj l, h => by rw [writable]; exact writableD_plain l (by simpa [Plain] using h)

theorem writableL_plain : ∀ (l : List D), PlainL l → writableL l = true
  | [], _ => rfl
  | x :: l, h => by
    rw [PlainL] at h
    rw [writableL, writable_plain x h.1, writableL_plain l h.2]; rfl

theorem writableD_plain : ∀ (l : List (Str × D)), PlainD l → writableD l = true
  | [], _ => rfl
  | (k, x) :: l, h => by
    rw [PlainD] at h
    rw [writableD, writable_plain x h.1, writableD_plain l h.2]; rfl
end

/-- **C135.** The text of an object without a key twice and without NUL is decoded as a dictionary that is
encoded as a text of the same object. -/
theorem C135_partial (p : Bool) (t : List T) (d : List (Str × D)) (hn : T.ch 0 ∉ t)
    (hd : read t = some (.obj d)) (hp : PlainD d) (hc : CleanDocD d) :
    ∃ r t', decode t = .ok r ∧ encode p false r = .ok t' ∧ read t' = some (.obj d) := by
  obtain ⟨r, h1, h2⟩ := encD_dec d hp hc [] (by simp)
  refine ⟨r, wr p 0 (.obj d), ?_, ?_, read_wr p (by simpa [Plain] using hp)⟩
  · unfold decode; rw [cut_of_nul hn, hd]; exact h1
  · simp [encode, h2, write, writable, writableD_plain d hp, toStr]

/-- The text `{"a": [1, -0] }`. -/
def spaced : List T := w [123, 34, 97, 34, 58, 32, 91, 49, 44, 32, 45, 48, 93, 32, 125]

example : T.ch 0 ∉ spaced ∧ read spaced = some (.obj [([97], .arr [.num 1, .num 0])]) ∧
    PlainD [([97], .arr [.num 1, .num 0])] ∧ CleanDocD [([97], .arr [.num 1, .num 0])] :=
  ⟨by decide, rfl, by simp [PlainD, Plain, PlainL], by simp [CleanDocD, CleanDoc, CleanDocL]⟩

/-- A string with `\u0000` is shorter when it is decoded and encoded again. -/
theorem C135_refuted : ∃ t r t', read t = some (.obj [([97], .str [98, 0, 99])]) ∧ decode t = .ok r ∧
    encode false false r = .ok t' ∧ read t' = some (.obj [([97], .str [98])]) :=
  ⟨w [123, 34, 97, 34, 58, 34, 98, 92, 117, 48, 48, 48, 48, 99, 34, 125], _, _, rfl, rfl, rfl, rfl⟩

end Verif.Json
