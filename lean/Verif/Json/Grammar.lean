import Verif.Json.Props
/-!
# C136: the reader accepts the grammar of JSON (RFC 8259), and nothing else
-/
namespace Verif.Json
open Verif

/-! ## The grammar -/

/-- `ws` -/
def Blank (ts : List T) : Prop := ∀ t ∈ ts, t = .ch 32 ∨ t = .ch 9 ∨ t = .ch 10 ∨ t = .ch 13

/-- `HEXDIG`, of either case. -/
inductive Hex : T → Nat → Prop
  | dec (d) : d < 10 → Hex (.ch (48 + d)) d
  | upper (d) : d < 6 → Hex (.ch (65 + d)) (10 + d)
  | lower (d) : d < 6 → Hex (.ch (97 + d)) (10 + d)

inductive Hex4 : List T → Nat → Prop
  | mk {a b c d x y z u} : Hex a x → Hex b y → Hex c z → Hex d u →
      Hex4 [a, b, c, d] (x * 4096 + y * 256 + z * 16 + u)

/-- `char`: the text of a character of a string. -/
inductive Char : List T → Nat → Prop
  | plain (c) : c ≠ 34 → c ≠ 92 → 32 ≤ c → Char [.ch c] c
  | short (e c) : (e, c) ∈ [(34, 34), (92, 92), (47, 47), (98, 8), (102, 12), (110, 10), (114, 13), (116, 9)] →
      Char [.ch 92, .ch e] c
  | uni {h u} : Hex4 h u → u < 0xD800 ∨ 0xDFFF < u → Char (.ch 92 :: .ch 117 :: h) u
  | pair {h u k v} : Hex4 h u → 0xD800 ≤ u → u < 0xDC00 → Hex4 k v → 0xDC00 ≤ v → v ≤ 0xDFFF →
      Char (.ch 92 :: .ch 117 :: (h ++ .ch 92 :: .ch 117 :: k)) (0x10000 + (u - 0xD800) * 0x400 + (v - 0xDC00))

inductive Chars : List T → Str → Prop
  | nil : Chars [] []
  | cons {t c ts s} : Char t c → Chars ts s → Chars (t ++ ts) (c :: s)

/-- `string` -/
def StrText (ts : List T) (s : Str) : Prop := ∃ b, ts = .ch 34 :: (b ++ [.ch 34]) ∧ Chars b s

/-- `int` without the sign: no zero in front. -/
def Number (ts : List T) (n : Nat) : Prop :=
  ∃ c l, ts = w (c :: l) ∧ (∀ x ∈ c :: l, 48 ≤ x ∧ x ≤ 57) ∧ (c = 48 → l = []) ∧ n = digitsValue (c :: l)

mutual
/-- `value` -/
inductive Val : List T → D → Prop
  | null : Val (w [110, 117, 108, 108]) .null
  | tt : Val (w [116, 114, 117, 101]) (.bool true)
  | ff : Val (w [102, 97, 108, 115, 101]) (.bool false)
  | real (b) : Val [.real b] (.real (.fin b))
  | huge : Val [.huge] .huge
  | num {ts n} : Number ts n → Val ts (.num n)
  | neg {ts n} : Number ts n → Val (.ch 45 :: ts) (.num (-(n : Int)))
  | str {ts s} : StrText ts s → Val ts (.str s)
  | arr0 {b} : Blank b → Val (.ch 91 :: (b ++ [.ch 93])) (.arr [])
  | arr {b ts l} : Blank b → Elems ts l → Val (.ch 91 :: (b ++ (ts ++ [.ch 93]))) (.arr l)
  | obj0 {b} : Blank b → Val (.ch 123 :: (b ++ [.ch 125])) (.obj [])
  | obj {b ts l} : Blank b → Members ts l → Val (.ch 123 :: (b ++ (ts ++ [.ch 125]))) (.obj l)

/-- `value *( value-separator value )` and white space behind it. -/
inductive Elems : List T → List D → Prop
  | one {ts v b} : Val ts v → Blank b → Elems (ts ++ b) [v]
  | cons {ts v b b' us l} : Val ts v → Blank b → Blank b' → Elems us l →
      Elems (ts ++ (b ++ (.ch 44 :: (b' ++ us)))) (v :: l)

/-- `member *( value-separator member )` and white space behind it. -/
inductive Members : List T → List (Str × D) → Prop
  | one {ks k b b' ts v b''} : StrText ks k → Blank b → Blank b' → Val ts v → Blank b'' →
      Members (ks ++ (b ++ (.ch 58 :: (b' ++ (ts ++ b''))))) [(k, v)]
  | cons {ks k b b' ts v b'' c us l} : StrText ks k → Blank b → Blank b' → Val ts v → Blank b'' → Blank c →
      Members us l →
      Members (ks ++ (b ++ (.ch 58 :: (b' ++ (ts ++ (b'' ++ (.ch 44 :: (c ++ us)))))))) ((k, v) :: l)
end

/-- `JSON-text` -/
def Doc (ts : List T) (d : D) : Prop := ∃ b t b', Blank b ∧ Val t d ∧ Blank b' ∧ ts = b ++ (t ++ b')

/-! ## What is read is in the grammar -/

theorem isSpace_iff (c : Nat) : isSpace c = true ↔ (T.ch c = .ch 32 ∨ T.ch c = .ch 9 ∨ T.ch c = .ch 10 ∨ T.ch c = .ch 13) := by
  simp [isSpace]

theorem skip_split : ∀ (ts : List T), ∃ b, Blank b ∧ ts = b ++ skip ts
  | [] => ⟨[], by simp [Blank], rfl⟩
  | .real x :: r => ⟨[], by simp [Blank], by rw [skip_real]; rfl⟩
  | .huge :: r => ⟨[], by simp [Blank], by rw [skip]; simp; simp⟩
  | .ch c :: r => by
    rw [skip]
    split
    · next h =>
      obtain ⟨b, h1, h2⟩ := skip_split r
      refine ⟨.ch c :: b, ?_, by rw [List.cons_append, ← h2]⟩
      intro t ht
      rcases List.mem_cons.1 ht with rfl | ht
      · exact (isSpace_iff c).1 h
      · exact h1 t ht
    · exact ⟨[], by simp [Blank], rfl⟩

theorem rdDigits_sound : ∀ (ts : List T) (acc n : Nat) (r : List T), rdDigits acc ts = (n, r) →
    ∃ l, (∀ x ∈ l, 48 ≤ x ∧ x ≤ 57) ∧ ts = w l ++ r ∧ n = number acc l
  | [], acc, n, r, h => by
    simp only [rdDigits, Prod.mk.injEq] at h
    exact ⟨[], by simp, by rw [← h.2]; rfl, h.1.symm⟩
  | .real x :: ts, acc, n, r, h => by
    simp only [rdDigits, Prod.mk.injEq] at h
    exact ⟨[], by simp, by rw [← h.2]; rfl, h.1.symm⟩
  | .huge :: ts, acc, n, r, h => by
    simp only [rdDigits, Prod.mk.injEq] at h
    exact ⟨[], by simp, by rw [← h.2]; rfl, h.1.symm⟩
  | .ch c :: ts, acc, n, r, h => by
    rw [rdDigits] at h
    split at h
    · next hc =>
      obtain ⟨l, h1, h2, h3⟩ := rdDigits_sound ts _ n r h
      refine ⟨c :: l, ?_, by rw [h2]; rfl, h3⟩
      intro x hx
      rcases List.mem_cons.1 hx with rfl | hx
      · simpa [isDigit] using hc
      · exact h1 x hx
    · cases h; exact ⟨[], by simp, rfl, rfl⟩

theorem rdNat_sound {ts : List T} {n : Nat} {r : List T} (h : rdNat ts = some (n, r)) :
    ∃ t, ts = t ++ r ∧ Number t n := by
  cases ts with
  | nil => simp [rdNat] at h
  | cons t ts =>
    cases t with
    | real x => simp [rdNat] at h
    | huge => simp [rdNat] at h
    | ch c =>
      simp only [rdNat] at h
      split at h
      · next hc =>
        subst hc
        have : (0, ts) = (n, r) := by
          split at h
          · split at h
            · cases h
            · exact Option.some.inj h
          · exact Option.some.inj h
        cases this
        exact ⟨w [48], rfl, 48, [], rfl, by simp, fun _ => rfl, rfl⟩
      · next hc =>
        split at h
        · next hd =>
          obtain ⟨l, h1, h2, h3⟩ := rdDigits_sound ts _ n r (Option.some.inj h)
          refine ⟨w (c :: l), by rw [h2]; rfl, c, l, rfl, ?_, fun e => absurd e hc, ?_⟩
          · intro x hx
            rcases List.mem_cons.1 hx with rfl | hx
            · simpa [isDigit] using hd
            · exact h1 x hx
          · rw [h3, number_eq, digitsValue]
        · cases h

theorem hexVal_iff (t : T) (x : Nat) : hexVal t = some x ↔ Hex t x := by
  constructor
  · intro h
    cases t with
    | real b => simp [hexVal] at h
    | huge => simp [hexVal] at h
    | ch c =>
      simp only [hexVal] at h
      split at h
      · cases h
        have := Hex.dec (c - 48) (by omega)
        rwa [show 48 + (c - 48) = c by omega] at this
      · split at h
        · cases h
          have := Hex.upper (c - 65) (by omega)
          rwa [show 65 + (c - 65) = c by omega, show 10 + (c - 65) = c - 55 by omega] at this
        · split at h
          · cases h
            have := Hex.lower (c - 97) (by omega)
            rwa [show 97 + (c - 97) = c by omega, show 10 + (c - 97) = c - 87 by omega] at this
          · cases h
  · intro h
    cases h with
    | dec d h => simp only [hexVal]; rw [if_pos (by omega)]; congr 1; omega
    | upper d h => simp only [hexVal]; rw [if_neg (by omega), if_pos (by omega)]; congr 1; omega
    | lower d h => simp only [hexVal]; rw [if_neg (by omega), if_neg (by omega), if_pos (by omega)]; congr 1; omega

theorem rdHex4_sound {ts : List T} {u : Nat} {r : List T} (h : rdHex4 ts = some (u, r)) :
    ∃ t, ts = t ++ r ∧ Hex4 t u := by
  rcases ts with _ | ⟨a, _ | ⟨b, _ | ⟨c, _ | ⟨d, ts⟩⟩⟩⟩
  iterate 4 (· simp [rdHex4] at h)
  simp only [rdHex4] at h
  cases hx : hexVal a with
  | none => simp [hx] at h
  | some x =>
  cases hy : hexVal b with
  | none => simp [hx, hy] at h
  | some y =>
  cases hz : hexVal c with
  | none => simp [hx, hy, hz] at h
  | some z =>
  cases hv : hexVal d with
  | none => simp [hx, hy, hz, hv] at h
  | some v =>
  simp only [hx, hy, hz, hv] at h
  have h : some (((x * 16 + y) * 16 + z) * 16 + v, ts) = some (u, r) := h
  cases h
  refine ⟨[a, b, c, d], rfl, ?_⟩
  have := Hex4.mk ((hexVal_iff a x).1 hx) ((hexVal_iff b y).1 hy) ((hexVal_iff c z).1 hz) ((hexVal_iff d v).1 hv)
  rwa [show x * 4096 + y * 256 + z * 16 + v = ((x * 16 + y) * 16 + z) * 16 + v by omega] at this

theorem rdHex4_complete {t : List T} {u : Nat} (h : Hex4 t u) (r : List T) : rdHex4 (t ++ r) = some (u, r) := by
  cases h with
  | mk ha hb hc hd =>
    simp only [List.cons_append, List.nil_append, rdHex4, (hexVal_iff _ _).2 ha, (hexVal_iff _ _).2 hb,
      (hexVal_iff _ _).2 hc, (hexVal_iff _ _).2 hd]
    show some _ = some _
    congr 2
    omega

theorem rdUni_sound {ts : List T} {u : Nat} {r : List T} (h : rdUni ts = some (u, r)) :
    ∃ t, ts = t ++ r ∧ Char (.ch 92 :: .ch 117 :: t) u := by
  unfold rdUni at h
  cases h1 : rdHex4 ts with
  | none => simp [h1] at h
  | some p =>
    obtain ⟨x, r1⟩ := p
    obtain ⟨t, e, hx⟩ := rdHex4_sound h1
    simp only [h1] at h
    split at h
    · next hr => cases h; exact ⟨t, e, .uni hx hr⟩
    · next hr =>
      split at h
      · cases h
      · next hd =>
        split at h
        · next r2 =>
          cases h2 : rdHex4 r2 with
          | none => simp [h2] at h
          | some p =>
            obtain ⟨y, r3⟩ := p
            obtain ⟨k, e2, hy⟩ := rdHex4_sound h2
            simp only [h2] at h
            split at h
            · next hv =>
              obtain ⟨rfl, rfl⟩ := Prod.mk.inj (Option.some.inj h)
              exact ⟨t ++ .ch 92 :: .ch 117 :: k, by rw [e, e2]; simp, .pair hx (by omega) (by omega) hy hv.1 hv.2⟩
            · cases h
        · cases h

theorem unescape_iff (e c : Nat) : unescape e = some c ↔
    (e, c) ∈ [(34, 34), (92, 92), (47, 47), (98, 8), (102, 12), (110, 10), (114, 13), (116, 9)] := by
  simp only [List.mem_cons, Prod.mk.injEq, List.not_mem_nil, or_false]
  unfold unescape
  repeat' split
  all_goals (first | simp only [Option.some.injEq] | simp only [reduceCtorEq, false_iff])
  all_goals omega

theorem rdChar_sound {ts : List T} {o : Option Nat} {r : List T} (h : rdChar ts = some (o, r)) :
    match o with
    | none => ts = .ch 34 :: r
    | some c => ∃ t, ts = t ++ r ∧ Char t c := by
  cases ts with
  | nil => simp [rdChar] at h
  | cons t ts =>
    cases t with
    | real x => simp [rdChar] at h
    | huge => simp [rdChar] at h
    | ch c =>
      simp only [rdChar] at h
      by_cases h34 : c = 34
      · rw [if_pos h34] at h
        cases h; subst h34; rfl
      · rw [if_neg h34] at h
        by_cases h92 : c = 92
        · rw [if_pos h92] at h
          subst h92
          cases ts with
          | nil => cases h
          | cons t r' =>
          cases t with
          | real x => cases h
          | huge => cases h
          | ch e =>
            simp only at h
            by_cases he : e = 117
            · rw [if_pos he] at h
              subst he
              cases h1 : rdUni r' with
              | none => rw [h1] at h; cases h
              | some p =>
                obtain ⟨u, r2⟩ := p
                rw [h1] at h
                cases h
                obtain ⟨t, e, hc⟩ := rdUni_sound h1
                exact ⟨_, by rw [e]; rfl, hc⟩
            · rw [if_neg he] at h
              cases h1 : unescape e with
              | none => rw [h1] at h; cases h
              | some u =>
                rw [h1] at h
                cases h
                exact ⟨[.ch 92, .ch e], rfl, .short e u ((unescape_iff e u).1 h1)⟩
        · rw [if_neg h92] at h
          by_cases h32 : c < 32
          · rw [if_pos h32] at h; cases h
          · rw [if_neg h32] at h
            cases h
            exact ⟨[.ch c], rfl, .plain c h34 h92 (by omega)⟩

theorem rdStr_sound : ∀ (f : Nat) (ts : List T) (s : Str) (r : List T), rdStr f ts = some (s, r) →
    ∃ b, ts = b ++ .ch 34 :: r ∧ Chars b s
  | 0, _, _, _, h => by simp [rdStr] at h
  | f + 1, ts, s, r, h => by
    rw [rdStr] at h
    cases h1 : rdChar ts with
    | none => simp [h1] at h
    | some p =>
      obtain ⟨o, r1⟩ := p
      have hs := rdChar_sound h1
      cases o with
      | none =>
        simp only [h1] at h
        cases h
        exact ⟨[], hs, .nil⟩
      | some c =>
        simp only [h1] at h
        cases h2 : rdStr f r1 with
        | none => simp [h2] at h
        | some q =>
          obtain ⟨s', r2⟩ := q
          simp only [h2] at h
          cases h
          obtain ⟨t, e, hc⟩ := hs
          obtain ⟨b, e2, hb⟩ := rdStr_sound f r1 s' _ h2
          exact ⟨t ++ b, by rw [e, e2, List.append_assoc], .cons hc hb⟩

theorem expect_some {c : Nat} {ts r : List T} (h : expect c ts = some r) : ts = .ch c :: r := by
  cases ts with
  | nil => simp [expect] at h
  | cons t ts =>
    cases t with
    | real x => simp [expect] at h
    | huge => simp [expect] at h
    | ch d =>
      simp only [expect] at h
      split at h
      · next e => cases h; rw [e]
      · cases h

/-- The text of a string, the colon behind it, and white space around that. -/
def KeyText (ts : List T) (k : Str) : Prop :=
  ∃ ks b b', ts = ks ++ (b ++ (.ch 58 :: b')) ∧ StrText ks k ∧ Blank b ∧ Blank b'

theorem rdKey_sound {f : Nat} {ts : List T} {k : Str} {r : List T} (h : rdKey f ts = some (k, r)) :
    ∃ t, ts = t ++ r ∧ KeyText t k := by
  unfold rdKey at h
  cases h1 : expect 34 ts with
  | none => simp [h1] at h
  | some r1 =>
    simp only [h1] at h
    cases h2 : rdStr f r1 with
    | none => simp [h2] at h
    | some p =>
      obtain ⟨s, r2⟩ := p
      simp only [h2] at h
      cases h3 : expect 58 (skip r2) with
      | none => simp [h3] at h
      | some r3 =>
        simp only [h3] at h
        cases h
        obtain ⟨b, e2, hb⟩ := rdStr_sound f r1 _ r2 h2
        obtain ⟨b1, hb1, e3⟩ := skip_split r2
        obtain ⟨b2, hb2, e4⟩ := skip_split r3
        refine ⟨(.ch 34 :: (b ++ [.ch 34])) ++ (b1 ++ (.ch 58 :: b2)), ?_, _, b1, b2, rfl, ⟨b, rfl, hb⟩, hb1, hb2⟩
        rw [expect_some h1, e2]
        conv_lhs => rw [e3, expect_some h3, e4]
        simp

theorem rd_sound : ∀ (f : Nat),
    (∀ ts d r, rd f ts = some (d, r) → ∃ t, ts = t ++ r ∧ Val t d) ∧
    (∀ ts l r, rdL f ts = some (l, r) → ∃ t, ts = t ++ .ch 93 :: r ∧ Elems t l) ∧
    (∀ ts l r, rdD f ts = some (l, r) → ∃ t, ts = t ++ .ch 125 :: r ∧ Members t l)
  | 0 => ⟨fun _ _ _ h => by simp [rd] at h, fun _ _ _ h => by simp [rdL] at h, fun _ _ _ h => by simp [rdD] at h⟩
  | f + 1 => by
    obtain ⟨ihV, ihL, ihD⟩ := rd_sound f
    refine ⟨fun ts d r h => ?_, fun ts l r h => ?_, fun ts l r h => ?_⟩
    · unfold rd at h
      split at h
      · next e => cases e
      · cases h; exact ⟨_, rfl, .null⟩
      · cases h; exact ⟨_, rfl, .tt⟩
      · cases h; exact ⟨_, rfl, .ff⟩
      · cases h; exact ⟨[.real _], rfl, .real _⟩
      · cases h; exact ⟨[.huge], rfl, .huge⟩
      · next f' r' e =>
        cases e
        cases h1 : rdStr f r' with
        | none => simp [h1] at h
        | some p =>
          obtain ⟨s, r2⟩ := p
          simp only [h1] at h
          cases h
          obtain ⟨b, e, hb⟩ := rdStr_sound f r' _ _ h1
          exact ⟨.ch 34 :: (b ++ [.ch 34]), by rw [e]; simp, .str ⟨b, rfl, hb⟩⟩
      · next f' r' e =>
        cases e
        obtain ⟨b, hb, e⟩ := skip_split r'
        cases h1 : expect 93 (skip r') with
        | some r2 =>
          simp only [h1] at h
          cases h
          refine ⟨.ch 91 :: (b ++ [.ch 93]), ?_, .arr0 hb⟩
          conv_lhs => rw [e, expect_some h1]
          simp
        | none =>
          simp only [h1] at h
          cases h2 : rdL f (skip r') with
          | none => simp [h2] at h
          | some p =>
            obtain ⟨l, r3⟩ := p
            simp only [h2] at h
            cases h
            obtain ⟨t, e2, ht⟩ := ihL _ _ _ h2
            refine ⟨.ch 91 :: (b ++ (t ++ [.ch 93])), ?_, .arr hb ht⟩
            conv_lhs => rw [e, e2]
            simp
      · next f' r' e =>
        cases e
        obtain ⟨b, hb, e⟩ := skip_split r'
        cases h1 : expect 125 (skip r') with
        | some r2 =>
          simp only [h1] at h
          cases h
          refine ⟨.ch 123 :: (b ++ [.ch 125]), ?_, .obj0 hb⟩
          conv_lhs => rw [e, expect_some h1]
          simp
        | none =>
          simp only [h1] at h
          cases h2 : rdD f (skip r') with
          | none => simp [h2] at h
          | some p =>
            obtain ⟨l, r3⟩ := p
            simp only [h2] at h
            cases h
            obtain ⟨t, e2, ht⟩ := ihD _ _ _ h2
            refine ⟨.ch 123 :: (b ++ (t ++ [.ch 125])), ?_, .obj hb ht⟩
            conv_lhs => rw [e, e2]
            simp
      · next r' _ =>
        cases h1 : rdNat r' with
        | none => simp [h1] at h
        | some p =>
          obtain ⟨n, r2⟩ := p
          simp only [h1] at h
          cases h
          obtain ⟨t, e, ht⟩ := rdNat_sound h1
          exact ⟨.ch 45 :: t, by rw [e]; rfl, .neg ht⟩
      · split at h
        · cases h
        · next h1 =>
          cases h
          obtain ⟨t, e, ht⟩ := rdNat_sound h1
          exact ⟨t, e, .num ht⟩
    · rw [rdL] at h
      cases h1 : rd f ts with
      | none => simp [h1] at h
      | some p =>
        obtain ⟨v, r1⟩ := p
        simp only [h1] at h
        obtain ⟨t, e1, ht⟩ := ihV _ _ _ h1
        obtain ⟨b, hb, e2⟩ := skip_split r1
        cases h2 : expect 93 (skip r1) with
        | some r2 =>
          simp only [h2] at h
          cases h
          refine ⟨t ++ b, ?_, .one ht hb⟩
          rw [e1]
          conv_lhs => rw [e2, expect_some h2]
          simp
        | none =>
          simp only [h2] at h
          cases h3 : expect 44 (skip r1) with
          | none => simp [h3] at h
          | some r2 =>
            simp only [h3] at h
            obtain ⟨b', hb', e3⟩ := skip_split r2
            cases h4 : rdL f (skip r2) with
            | none => simp [h4] at h
            | some q =>
              obtain ⟨l', r3⟩ := q
              simp only [h4] at h
              cases h
              obtain ⟨u, e4, hu⟩ := ihL _ _ _ h4
              refine ⟨t ++ (b ++ (.ch 44 :: (b' ++ u))), ?_, .cons ht hb hb' hu⟩
              rw [e1]
              conv_lhs => rw [e2, expect_some h3, e3, e4]
              simp
    · rw [rdD] at h
      cases h0 : rdKey f ts with
      | none => simp [h0] at h
      | some p =>
        obtain ⟨k, r0⟩ := p
        simp only [h0] at h
        obtain ⟨t0, e0, ks, b0, b1, ek, hk, hb0, hb1⟩ := rdKey_sound h0
        cases h1 : rd f r0 with
        | none => simp [h1] at h
        | some p =>
          obtain ⟨v, r1⟩ := p
          simp only [h1] at h
          obtain ⟨t, e1, ht⟩ := ihV _ _ _ h1
          obtain ⟨b, hb, e2⟩ := skip_split r1
          cases h2 : expect 125 (skip r1) with
          | some r2 =>
            simp only [h2] at h
            cases h
            refine ⟨_, ?_, .one hk hb0 hb1 ht hb⟩
            rw [e0, ek, e1]
            conv_lhs => rw [e2, expect_some h2]
            simp
          | none =>
            simp only [h2] at h
            cases h3 : expect 44 (skip r1) with
            | none => simp [h3] at h
            | some r2 =>
              simp only [h3] at h
              obtain ⟨b', hb', e3⟩ := skip_split r2
              cases h4 : rdD f (skip r2) with
              | none => simp [h4] at h
              | some q =>
                obtain ⟨l', r3⟩ := q
                simp only [h4] at h
                cases h
                obtain ⟨u, e4, hu⟩ := ihD _ _ _ h4
                refine ⟨_, ?_, .cons hk hb0 hb1 ht hb hb' hu⟩
                rw [e0, ek, e1]
                conv_lhs => rw [e2, expect_some h3, e3, e4]
                simp

/-! ## What is in the grammar is read -/

theorem skip_blank {b : List T} (h : Blank b) (r : List T) : skip (b ++ r) = skip r := by
  induction b with
  | nil => rfl
  | cons t b ih =>
    have := h t (by simp)
    obtain ⟨c, rfl⟩ : ∃ c, t = .ch c := by
      rcases this with rfl | rfl | rfl | rfl <;> exact ⟨_, rfl⟩
    rw [List.cons_append, skip, (isSpace_iff c).2 this, if_pos rfl]
    exact ih (fun t ht => h t (by simp [ht]))

theorem stop_blank {b : List T} (h : Blank b) {r : List T} (hr : Stop r) : Stop (b ++ r) := by
  cases b with
  | nil => exact hr
  | cons t b =>
    rcases h t (by simp) with rfl | rfl | rfl | rfl <;> (show isDigit _ = false; rfl)

theorem rdChar_complete {t : List T} {c : Nat} (h : Char t c) (r : List T) : rdChar (t ++ r) = some (some c, r) := by
  cases h with
  | plain c h1 h2 h3 =>
    show rdChar (.ch c :: r) = _
    simp only [rdChar]
    rw [if_neg h1, if_neg h2, if_neg (by omega)]
  | short e c h =>
    show rdChar (.ch 92 :: .ch e :: r) = _
    have he : e ≠ 117 := by
      simp only [List.mem_cons, Prod.mk.injEq, List.not_mem_nil, or_false] at h
      omega
    simp only [rdChar]
    rw [if_neg (by decide), if_pos trivial, if_neg he, (unescape_iff e c).2 h]
  | @uni h' _ h hr =>
    have e : rdUni (h' ++ r) = some (c, r) := by
      unfold rdUni
      rw [rdHex4_complete h]
      simp only
      rw [if_pos hr]
    rw [List.cons_append, List.cons_append]
    simp only [rdChar]
    rw [if_neg (by decide), if_pos trivial, if_pos trivial, e]
  | @pair h u k v h1 h2 h3 h4 h5 h6 =>
    have e : rdUni ((h ++ .ch 92 :: .ch 117 :: k) ++ r) = some (0x10000 + (u - 0xD800) * 0x400 + (v - 0xDC00), r) := by
      unfold rdUni
      rw [List.append_assoc, rdHex4_complete h1]
      simp only
      rw [if_neg (by omega), if_neg (by omega)]
      simp only [List.cons_append]
      rw [rdHex4_complete h4]
      simp only
      rw [if_pos ⟨h5, h6⟩]
    rw [List.cons_append, List.cons_append]
    simp only [rdChar]
    rw [if_neg (by decide), if_pos trivial, if_pos trivial, e]

theorem char_length {t : List T} {c : Nat} (h : Char t c) : 1 ≤ t.length := by
  cases h <;> simp

theorem rdStr_complete {b : List T} {s : Str} (h : Chars b s) : ∀ (f : Nat) (r : List T), b.length < f →
    rdStr f (b ++ .ch 34 :: r) = some (s, r) := by
  induction h with
  | nil =>
    intro f r hf
    cases f with
    | zero => simp at hf
    | succ f => rw [rdStr]; rfl
  | cons hc _ ih =>
    intro f r hf
    cases f with
    | zero => simp at hf
    | succ f =>
      have := char_length hc
      rw [rdStr, List.append_assoc, rdChar_complete hc]
      simp only
      rw [ih f r (by simp at hf; omega)]

theorem rdNat_complete {t : List T} {n : Nat} (h : Number t n) {r : List T} (hr : Stop r) :
    rdNat (t ++ r) = some (n, r) := by
  obtain ⟨c, l, rfl, h1, h2, rfl⟩ := h
  have hd : ∀ x ∈ c :: l, isDigit x = true := fun x hx => by simpa [isDigit] using h1 x hx
  show rdNat (.ch c :: (w l ++ r)) = _
  unfold rdNat
  simp only
  by_cases hc : c = 48
  · have := h2 hc
    subst this
    subst hc
    rw [if_pos rfl]
    show _ = some (0, r)
    cases r with
    | nil => rfl
    | cons t r =>
      cases t with
      | real b => rfl
      | huge => rfl
      | ch c =>
        show (if isDigit c = true then none else some (0, T.ch c :: r)) = _
        rw [show isDigit c = false from hr]; rfl
  · rw [if_neg hc, hd c (by simp), if_pos rfl, rdDigits_w l _ r (fun x hx => hd x (by simp [hx])) hr, number_eq]
    rfl

theorem val_start {t : List T} {d : D} (h : Val t d) : ∃ x r, t = x :: r ∧ Start x := by
  cases h with
  | num h =>
    obtain ⟨c, l, rfl, h1, _⟩ := h
    exact ⟨_, _, rfl, by simp only [Start, isDigit, decide_eq_true_eq]; have := h1 c (by simp); omega⟩
  | str h => obtain ⟨b, rfl, _⟩ := h; exact ⟨_, _, rfl, by simp [Start]⟩
  | real b => exact ⟨_, _, rfl, trivial⟩
  | huge => exact ⟨_, _, rfl, trivial⟩
  | _ => exact ⟨_, _, rfl, by simp [Start]⟩

theorem elems_start {t : List T} {l : List D} (h : Elems t l) : ∃ x r, t = x :: r ∧ Start x := by
  cases h with
  | one h _ => obtain ⟨x, r, rfl, hx⟩ := val_start h; exact ⟨x, _, rfl, hx⟩
  | cons h _ _ _ => obtain ⟨x, r, rfl, hx⟩ := val_start h; exact ⟨x, _, rfl, hx⟩

theorem members_start {t : List T} {l : List (Str × D)} (h : Members t l) : ∃ x r, t = x :: r ∧ Start x := by
  cases h with
  | one h _ _ _ _ => obtain ⟨b, rfl, _⟩ := h; exact ⟨_, _, rfl, by simp [Start]⟩
  | cons h _ _ _ _ _ _ => obtain ⟨b, rfl, _⟩ := h; exact ⟨_, _, rfl, by simp [Start]⟩

theorem start_skips {t : List T} (h : ∃ x r, t = x :: r ∧ Start x) (r : List T) : skip (t ++ r) = t ++ r := by
  obtain ⟨x, r', rfl, hx⟩ := h
  exact start_skip hx _

theorem start_expects {t : List T} (h : ∃ x r, t = x :: r ∧ Start x) (r : List T) {c : Nat} (hc : c = 93 ∨ c = 125) :
    expect c (t ++ r) = none := by
  obtain ⟨x, r', rfl, hx⟩ := h
  exact start_expect hx _ hc

theorem expect_self (c : Nat) (r : List T) : expect c (.ch c :: r) = some r := by simp [expect]

theorem rdKey_complete {ks : List T} {k : Str} (hk : StrText ks k) {b b' : List T} (hb : Blank b) (hb' : Blank b')
    (f : Nat) (r : List T) (hf : ks.length ≤ f + 1) :
    rdKey f (ks ++ (b ++ (.ch 58 :: (b' ++ r)))) = some (k, skip r) := by
  obtain ⟨s, rfl, hs⟩ := hk
  have e : (.ch 34 :: (s ++ [.ch 34])) ++ (b ++ (.ch 58 :: (b' ++ r))) =
      .ch 34 :: (s ++ .ch 34 :: (b ++ (.ch 58 :: (b' ++ r)))) := by simp
  rw [e]
  unfold rdKey
  rw [expect_self]
  simp only
  rw [rdStr_complete hs f _ (by simp at hf; omega)]
  simp only
  rw [skip_blank hb, skip_ch (by decide), expect_self]
  simp only
  rw [skip_blank hb']

mutual
theorem rd_complete : ∀ {t : List T} {d : D}, Val t d → ∀ (f : Nat) (r : List T), t.length ≤ f → Stop r →
    rd f (t ++ r) = some (d, r)
  | _, _, h, 0, _, hf, _ => by
    obtain ⟨x, r', rfl, _⟩ := val_start h
    simp at hf
  | _, _, .null, f + 1, r, _, _ => rfl
  | _, _, .tt, f + 1, r, _, _ => rfl
  | _, _, .ff, f + 1, r, _, _ => rfl
  | _, _, .real b, f + 1, r, _, _ => rfl
  | _, _, .huge, f + 1, r, _, _ => rfl
  | _, _, .num h, f + 1, r, _, hr => by
    have := rdNat_complete h hr
    obtain ⟨c, l, rfl, h1, _⟩ := h
    have hd : isDigit c = true := by simpa [isDigit] using h1 c (by simp)
    show rd (f + 1) (.ch c :: (w l ++ r)) = _
    have this : rdNat (.ch c :: (w l ++ r)) = _ := this
    rw [rd_digit hd, this]
  | _, _, .neg h, f + 1, r, _, hr => by
    rw [List.cons_append, rd, rdNat_complete h hr]
  | _, _, .str h, f + 1, r, hf, _ => by
    obtain ⟨b, rfl, hb⟩ := h
    have e : (.ch 34 :: (b ++ [.ch 34])) ++ r = .ch 34 :: (b ++ .ch 34 :: r) := by simp
    rw [e, rd, rdStr_complete hb f r (by simp at hf; omega)]
  | _, _, @Val.arr0 b hb, f + 1, r, _, _ => by
    have e : (.ch 91 :: (b ++ [.ch 93])) ++ r = .ch 91 :: (b ++ .ch 93 :: r) := by simp
    rw [e, rd, skip_blank hb, skip_ch (by decide), expect_self]
  | _, _, @Val.obj0 b hb, f + 1, r, _, _ => by
    have e : (.ch 123 :: (b ++ [.ch 125])) ++ r = .ch 123 :: (b ++ .ch 125 :: r) := by simp
    rw [e, rd, skip_blank hb, skip_ch (by decide), expect_self]
  | _, _, @Val.arr b ts l hb h, f + 1, r, hf, _ => by
    have e : (.ch 91 :: (b ++ (ts ++ [.ch 93]))) ++ r = .ch 91 :: (b ++ (ts ++ .ch 93 :: r)) := by simp
    simp only [List.length_cons, List.length_append, List.length_nil] at hf
    rw [e, rd, skip_blank hb, start_skips (elems_start h), start_expects (elems_start h) _ (.inl rfl)]
    simp only
    rw [rdL_complete h f r (by omega)]
  | _, _, @Val.obj b ts l hb h, f + 1, r, hf, _ => by
    have e : (.ch 123 :: (b ++ (ts ++ [.ch 125]))) ++ r = .ch 123 :: (b ++ (ts ++ .ch 125 :: r)) := by simp
    simp only [List.length_cons, List.length_append, List.length_nil] at hf
    rw [e, rd, skip_blank hb, start_skips (members_start h), start_expects (members_start h) _ (.inr rfl)]
    simp only
    rw [rdD_complete h f r (by omega)]

theorem rdL_complete : ∀ {t : List T} {l : List D}, Elems t l → ∀ (f : Nat) (r : List T), t.length + 1 ≤ f →
    rdL f (t ++ .ch 93 :: r) = some (l, r)
  | _, _, _, 0, _, hf => by omega
  | _, _, @Elems.one ts v b hv hb, f + 1, r, hf => by
    simp only [List.length_append] at hf
    rw [List.append_assoc, rdL, rd_complete hv f _ (by omega) (stop_blank hb (by show isDigit 93 = false; rfl))]
    simp only
    rw [skip_blank hb, skip_ch (by decide), expect_self]
  | _, _, @Elems.cons ts v b b' us l hv hb hb' h, f + 1, r, hf => by
    simp only [List.length_append, List.length_cons] at hf
    have e : (ts ++ (b ++ (.ch 44 :: (b' ++ us)))) ++ .ch 93 :: r =
        ts ++ (b ++ (.ch 44 :: (b' ++ (us ++ .ch 93 :: r)))) := by simp
    rw [e, rdL, rd_complete hv f _ (by omega) (stop_blank hb (by show isDigit 44 = false; rfl))]
    simp only
    rw [skip_blank hb, skip_ch (by decide), expect_self, show ∀ r, expect 93 (.ch 44 :: r) = none from fun _ => rfl]
    simp only
    rw [skip_blank hb', start_skips (elems_start h), rdL_complete h f r (by omega)]

theorem rdD_complete : ∀ {t : List T} {l : List (Str × D)}, Members t l → ∀ (f : Nat) (r : List T), t.length + 1 ≤ f →
    rdD f (t ++ .ch 125 :: r) = some (l, r)
  | _, _, _, 0, _, hf => by omega
  | _, _, @Members.one ks k b b' ts v b'' hk hb hb' hv hb'', f + 1, r, hf => by
    simp only [List.length_append, List.length_cons] at hf
    have e : (ks ++ (b ++ (.ch 58 :: (b' ++ (ts ++ b''))))) ++ .ch 125 :: r =
        ks ++ (b ++ (.ch 58 :: (b' ++ (ts ++ (b'' ++ .ch 125 :: r))))) := by simp
    rw [e, rdD, rdKey_complete hk hb hb' f _ (by omega)]
    simp only
    rw [start_skips (val_start hv), rd_complete hv f _ (by omega) (stop_blank hb'' (by show isDigit 125 = false; rfl))]
    simp only
    rw [skip_blank hb'', skip_ch (by decide), expect_self]
  | _, _, @Members.cons ks k b b' ts v b'' c us l hk hb hb' hv hb'' hc h, f + 1, r, hf => by
    simp only [List.length_append, List.length_cons] at hf
    have e : (ks ++ (b ++ (.ch 58 :: (b' ++ (ts ++ (b'' ++ (.ch 44 :: (c ++ us)))))))) ++ .ch 125 :: r =
        ks ++ (b ++ (.ch 58 :: (b' ++ (ts ++ (b'' ++ (.ch 44 :: (c ++ (us ++ .ch 125 :: r)))))))) := by simp
    rw [e, rdD, rdKey_complete hk hb hb' f _ (by omega)]
    simp only
    rw [start_skips (val_start hv), rd_complete hv f _ (by omega) (stop_blank hb'' (by show isDigit 44 = false; rfl))]
    simp only
    rw [skip_blank hb'', skip_ch (by decide), expect_self, show ∀ r, expect 125 (.ch 44 :: r) = none from fun _ => rfl]
    simp only
    rw [skip_blank hc, start_skips (members_start h), rdD_complete h f r (by omega)]
end

/-! ## C136 -/

/-- **C136.** A text is read as a document if and only if the grammar of JSON has it as a text of that
document. -/
theorem C136 (ts : List T) (d : D) : read ts = some d ↔ Doc ts d := by
  constructor
  · intro h
    unfold read at h
    cases h1 : rd (ts.length + 1) (skip ts) with
    | none => simp [h1] at h
    | some p =>
      obtain ⟨d', r⟩ := p
      simp only [h1] at h
      split at h
      · next hr =>
        cases h
        obtain ⟨t, e, ht⟩ := (rd_sound _).1 _ _ _ h1
        obtain ⟨b, hb, e1⟩ := skip_split ts
        obtain ⟨b', hb', e2⟩ := skip_split r
        rw [hr, List.append_nil] at e2
        exact ⟨b, t, r, hb, ht, e2 ▸ hb', by rw [← e]; exact e1⟩
      · cases h
  · rintro ⟨b, t, b', hb, ht, hb', rfl⟩
    unfold read
    have hs : Stop (b' ++ []) := stop_blank hb' trivial
    rw [List.append_nil] at hs
    rw [skip_blank hb, start_skips (val_start ht), rd_complete ht _ _ (by simp; omega) hs]
    simp only
    have : skip b' = [] := by
      have := skip_blank hb' []
      rwa [List.append_nil, show skip [] = [] from rfl] at this
    rw [if_pos this]

/-- A text has one document at most. -/
theorem C136_unique {ts : List T} {d e : D} (hd : Doc ts d) (he : Doc ts e) : d = e := by
  have := (C136 ts d).2 hd
  rw [(C136 ts e).2 he] at this
  exact (Option.some.inj this).symm

/-- ` [1, {"a":"\n"}] ` is in the grammar. -/
example : Doc (w [32, 91, 49, 44, 32, 123, 34, 97, 34, 58, 34, 92, 110, 34, 125, 93, 10])
    (.arr [.num 1, .obj [([97], .str [10])]]) := (C136 _ _).1 rfl

/-- `01`, `[1,]`, a string with a line feed, `1 2` and the empty text are not. -/
example : (∀ d, ¬ Doc (w [48, 49]) d) ∧ (∀ d, ¬ Doc (w [91, 49, 44, 93]) d) ∧ (∀ d, ¬ Doc (w [34, 10, 34]) d) ∧
    (∀ d, ¬ Doc (w [49, 32, 50]) d) ∧ (∀ d, ¬ Doc [] d) := by
  refine ⟨?_, ?_, ?_, ?_, ?_⟩ <;> intro d h <;> have := (C136 _ _).2 h <;> cases this

/-- Decoding refuses just the texts without NUL that are no JSON texts, and objects with numbers beyond the
range of `double`. -/
theorem C136_decode_partial (t : List T) (hn : T.ch 0 ∉ t) :
    decode t = .raise .valueError ↔ (∀ d, ¬ Doc t d) ∨ ∃ l, Doc t (.obj l) ∧ ¬ InRangeD l := by
  cases h : read t with
  | none =>
    refine ⟨fun _ => .inl fun d hd => ?_, fun _ => (C134_raises t hn).1 h⟩
    rw [(C136 t d).2 hd] at h; cases h
  | some d =>
    have hd := (C136 t d).1 h
    by_cases ho : ∃ l, d = .obj l
    · obtain ⟨l, rfl⟩ := ho
      have := (C134_raises t hn).2 l h
      constructor
      · intro hr
        refine .inr ⟨l, hd, fun hi => ?_⟩
        obtain ⟨r, e⟩ := this.1 hi
        rw [hr] at e; cases e
      · rintro (hx | ⟨l', hl, hi⟩)
        · exact absurd hd (hx _)
        · cases C136_unique hd hl
          exact this.2 hi
    · have := C134_refuted_root t d hn h (fun l e => ho ⟨l, e⟩)
      constructor
      · intro hr; rw [this] at hr; cases hr
      · rintro (hx | ⟨l', hl, hi⟩)
        · exact absurd hd (hx _)
        · exact absurd ⟨l', C136_unique hd hl⟩ ho

/-- The same for lists: also texts of other values than arrays are refused. -/
theorem C136_decodeList_partial (t : List T) (hn : T.ch 0 ∉ t) :
    (∃ r, decodeList t = .ok r) ↔ ∃ l, Doc t (.arr l) ∧ InRangeL l := by
  unfold decodeList
  rw [cut_of_nul hn]
  constructor
  · rintro ⟨r, h⟩
    split at h
    · cases h
    · next l hl =>
      refine ⟨l, (C136 _ _).1 hl, ?_⟩
      by_cases hi : InRangeL l
      · exact hi
      · rw [(decL_range l).2 hi] at h; cases h
    · cases h
  · rintro ⟨l, hd, hi⟩
    rw [(C136 _ _).2 hd]
    exact (decL_range l).1 hi

example : T.ch 0 ∉ spaced := by decide

end Verif.Json
