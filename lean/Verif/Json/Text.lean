import Verif.Json.Model
import Mathlib.Tactic.Common
import Mathlib.Tactic.IntervalCases
/-!
# The reader inverts the writer
-/
namespace Verif.Json
open Verif

/-! ## Specification -/

mutual
/-- The document has a text: no infinite number or NaN in it, and no number that is too large. -/
def Plain : D → Prop
  | .real (.fin _) => True
  | .real _ => False
  | .huge => False
  | .arr l => PlainL l
  | .obj d => PlainD d
  | _ => True

def PlainL : List D → Prop
  | [] => True
  | v :: l => Plain v ∧ PlainL l

def PlainD : List (Str × D) → Prop
  | [] => True
  | (_, v) :: l => Plain v ∧ PlainD l
end

/-! ## White space -/

theorem skip_spaces (n : Nat) (r : List T) : skip (w (List.replicate n 32) ++ r) = skip r := by
  induction n with
  | zero => rfl
  | succ n ih => rw [List.replicate_succ]; show skip (.ch 32 :: _) = _; rw [skip]; exact ih

theorem skip_line (p : Bool) (lvl : Nat) (r : List T) : skip (line p lvl ++ r) = skip r := by
  cases p with
  | false => rfl
  | true =>
    show skip (.ch 10 :: (w (List.replicate (4 * lvl) 32) ++ r)) = _
    rw [skip]
    exact skip_spaces _ r

theorem skip_ch {c : Nat} (h : isSpace c = false) (r : List T) : skip (.ch c :: r) = .ch c :: r := by
  rw [skip, h]; rfl

theorem skip_real (b : Nat) (r : List T) : skip (.real b :: r) = .real b :: r := by
  rw [skip]; simp

/-- What follows a value is no digit. -/
def Stop : List T → Prop
  | .ch c :: _ => isDigit c = false
  | _ => True

theorem stop_line (p : Bool) (lvl : Nat) {c : Nat} (h : isDigit c = false) (r : List T) :
    Stop (line p lvl ++ .ch c :: r) := by
  cases p with
  | false => exact h
  | true => show isDigit 10 = false; rfl

/-! ## Strings -/

theorem rdChar_escape (c : Nat) (r : List T) : rdChar (w (escape c) ++ r) = some (some c, r) := by
  by_cases h : c < 32
  · interval_cases c <;> rfl
  · unfold escape
    split
    · next h => subst h; rfl
    split
    · next h => subst h; rfl
    rw [if_neg (show c ≠ 8 by omega), if_neg (show c ≠ 9 by omega), if_neg (show c ≠ 10 by omega),
      if_neg (show c ≠ 12 by omega), if_neg (show c ≠ 13 by omega)]
    show rdChar (.ch c :: r) = _
    unfold rdChar
    simp only
    rw [if_neg (by assumption), if_neg (by assumption), if_neg h]

theorem w_append (a b : Str) : w (a ++ b) = w a ++ w b := List.map_append ..

theorem rdStr_escape : ∀ (s : Str) (f : Nat) (r : List T), s.length < f →
    rdStr f (w (s.flatMap escape) ++ .ch 34 :: r) = some (s, r)
  | s, 0, _, h => absurd h (by omega)
  | [], f + 1, r, _ => by
    show rdStr (f + 1) (.ch 34 :: r) = _
    rw [rdStr]; rfl
  | c :: s, f + 1, r, h => by
    have e : w ((c :: s).flatMap escape) ++ .ch 34 :: r = w (escape c) ++ (w (s.flatMap escape) ++ .ch 34 :: r) := by
      rw [List.flatMap_cons, w_append, List.append_assoc]
    rw [e, rdStr, rdChar_escape]
    simp only
    rw [rdStr_escape s f r (by simp at h; omega)]

theorem escape_length (c : Nat) : 1 ≤ (escape c).length := by
  unfold escape; repeat' split
  all_goals simp

theorem quote_length (s : Str) : s.length + 2 ≤ (quote s).length := by
  have : s.length ≤ (s.flatMap escape).length := by
    induction s with
    | nil => simp
    | cons c s ih => have := escape_length c; rw [List.flatMap_cons, List.length_append, List.length_cons]; omega
  simp only [quote, w, List.length_cons, List.length_append, List.length_map, List.length_nil]; omega

theorem quote_eq (s : Str) (r : List T) : quote s ++ r = .ch 34 :: (w (s.flatMap escape) ++ .ch 34 :: r) := by
  simp [quote]

theorem skip_colon (p : Bool) (r : List T) : ∃ r', skip (colon p ++ r) = .ch 58 :: r' ∧ skip r' = skip r := by
  cases p with
  | false => exact ⟨r, by show skip (.ch 58 :: r) = _; rw [skip_ch (by decide)], rfl⟩
  | true => exact ⟨.ch 32 :: r, by show skip (.ch 58 :: .ch 32 :: r) = _; rw [skip_ch (by decide)],
      by rw [skip]; simp [isSpace]⟩

theorem rdKey_quote (p : Bool) (k : Str) (f : Nat) (r : List T) (h : (quote k).length ≤ f + 1) :
    rdKey f (quote k ++ (colon p ++ r)) = some (k, skip r) := by
  have := quote_length k
  obtain ⟨r', h1, h2⟩ := skip_colon p r
  rw [quote_eq]
  unfold rdKey
  rw [show ∀ r, expect 34 (.ch 34 :: r) = some r from fun _ => rfl]
  simp only
  rw [rdStr_escape k f _ (by omega)]
  simp only
  rw [h1]
  rw [show ∀ r, expect 58 (.ch 58 :: r) = some r from fun _ => rfl]
  simp only
  rw [h2]

/-! ## Numbers -/

theorem digits_all : ∀ (f n : Nat), ∀ c ∈ digits f n, isDigit c = true
  | 0, _ => by simp [digits]
  | f + 1, n => by
    intro c hc
    rw [digits] at hc
    split at hc
    · simp only [List.mem_singleton] at hc; simp [isDigit]; omega
    · rcases List.mem_append.1 hc with h | h
      · exact digits_all f _ c h
      · simp only [List.mem_singleton] at h; simp [isDigit]; omega

/-- The number that a list of digits stands for. -/
def number (acc : Nat) (l : Str) : Nat := l.foldl (fun a c => a * 10 + (c - 48)) acc

theorem number_digits : ∀ (f n : Nat), n < f → number 0 (digits f n) = n
  | 0, _, h => absurd h (by omega)
  | f + 1, n, h => by
    rw [digits]
    split
    · simp [number]
    · have := number_digits f (n / 10) (by omega)
      unfold number at this ⊢
      rw [List.foldl_append, this]
      simp only [List.foldl_cons, List.foldl_nil]
      omega

theorem rdDigits_w : ∀ (l : Str) (acc : Nat) (r : List T), (∀ c ∈ l, isDigit c = true) → Stop r →
    rdDigits acc (w l ++ r) = (number acc l, r)
  | [], acc, [], _, _ => by simp [w, rdDigits, number]
  | [], acc, .real b :: r, _, _ => by simp [w, rdDigits, number]
  | [], acc, .huge :: r, _, _ => by simp [w, rdDigits, number]
  | [], acc, .ch c :: r, _, h => by
    show rdDigits acc (.ch c :: r) = _
    rw [rdDigits, show isDigit c = false from h]; rfl
  | c :: l, acc, r, hl, h => by
    show rdDigits acc (.ch c :: (w l ++ r)) = _
    rw [rdDigits, hl c (by simp), if_pos rfl, rdDigits_w l _ r (fun c hc => hl c (by simp [hc])) h]
    rfl

/-- The digits of a number begin with a digit other than zero, unless the number is zero. -/
theorem digits_head : ∀ (f n : Nat), n < f → ∃ c l, digits f n = c :: l ∧ isDigit c = true ∧
    (c = 48 → n = 0 ∧ l = [])
  | 0, _, h => absurd h (by omega)
  | f + 1, n, h => by
    rw [digits]
    split
    · exact ⟨_, _, rfl, by simp [isDigit]; omega, by intro h; exact ⟨by omega, rfl⟩⟩
    · obtain ⟨c, l, h1, h2, h3⟩ := digits_head f (n / 10) (by omega)
      refine ⟨c, l ++ [48 + n % 10], by rw [h1]; rfl, h2, ?_⟩
      intro hc
      have := (h3 hc).1
      omega

theorem rdNat_digits (n : Nat) (r : List T) (h : Stop r) : rdNat (w (digits (n + 1) n) ++ r) = some (n, r) := by
  obtain ⟨c, l, h1, h2, h3⟩ := digits_head (n + 1) n (by omega)
  have hn := number_digits (n + 1) n (by omega)
  have ha := digits_all (n + 1) n
  rw [h1] at hn ha ⊢
  show rdNat (.ch c :: (w l ++ r)) = _
  unfold rdNat
  by_cases hc : c = 48
  · obtain ⟨rfl, rfl⟩ := h3 hc
    subst hc
    cases r with
    | nil => rfl
    | cons t r =>
      cases t with
      | real b => rfl
      | huge => rfl
      | ch c =>
        show (if isDigit c = true then none else some (0, T.ch c :: r)) = _
        rw [show isDigit c = false from h]; rfl
  · simp only
    rw [if_neg hc, h2, if_pos rfl, rdDigits_w l _ r (fun c hc => ha c (by simp [hc])) h]
    have : number (c - 48) l = number 0 (c :: l) := by simp [number]
    rw [this, hn]

theorem rd_digit {c : Nat} (h : isDigit c = true) (f : Nat) (r : List T) :
    rd (f + 1) (.ch c :: r) = match rdNat (.ch c :: r) with
      | none => none
      | some (n, r') => some (.num n, r') := by
  simp only [isDigit, decide_eq_true_eq] at h
  obtain ⟨h1, h2⟩ := h
  interval_cases c <;> rfl

theorem rd_decimal (n : Int) (f : Nat) (r : List T) (h : Stop r) :
    rd (f + 1) (w (decimal n) ++ r) = some (.num n, r) := by
  unfold decimal
  have hr := rdNat_digits n.natAbs r h
  split
  · show rd (f + 1) (.ch 45 :: (w (digits (n.natAbs + 1) n.natAbs) ++ r)) = _
    rw [rd, hr]
    simp only [Option.some.injEq, Prod.mk.injEq, D.num.injEq, and_true]
    omega
  · obtain ⟨c, l, h1, h2, _⟩ := digits_head (n.natAbs + 1) n.natAbs (by omega)
    rw [h1] at hr ⊢
    show rd (f + 1) (.ch c :: (w l ++ r)) = _
    rw [rd_digit h2]
    have hr' : rdNat (.ch c :: (w l ++ r)) = some (n.natAbs, r) := hr
    rw [hr']
    simp only [Option.some.injEq, Prod.mk.injEq, D.num.injEq, and_true]
    omega

/-! ## Values -/

/-- The first element of the text of a value. -/
def Start : T → Prop
  | .real _ => True
  | .huge => True
  | .ch c => c = 110 ∨ c = 116 ∨ c = 102 ∨ c = 34 ∨ c = 91 ∨ c = 123 ∨ c = 45 ∨ isDigit c = true

theorem start_decimal (n : Int) : ∃ c l, decimal n = c :: l ∧ Start (.ch c) := by
  unfold decimal
  split
  · exact ⟨_, _, rfl, by simp [Start]⟩
  · obtain ⟨c, l, h1, h2, _⟩ := digits_head (n.natAbs + 1) n.natAbs (by omega)
    exact ⟨c, l, h1, by simp [Start, h2]⟩

theorem wr_start (p : Bool) (lvl : Nat) {d : D} (h : Plain d) : ∃ t r, wr p lvl d = t :: r ∧ Start t := by
  cases d with
  | null => exact ⟨_, _, rfl, by simp [Start]⟩
  | bool b => cases b <;> exact ⟨_, _, rfl, by simp [Start]⟩
  | num n =>
    obtain ⟨c, l, h1, h2⟩ := start_decimal n
    exact ⟨.ch c, w l, by rw [wr, h1]; rfl, h2⟩
  | real x => cases x with
    | fin b => exact ⟨_, _, rfl, trivial⟩
    | _ => exact absurd h (by simp [Plain])
  | huge => exact absurd h (by simp [Plain])
  | str s => exact ⟨_, _, rfl, by simp [Start]⟩
  | arr l => cases l <;> exact ⟨_, _, by rw [wr]; rfl, by simp [Start]⟩
  | obj l =>
    cases l with
    | nil => exact ⟨_, _, by rw [wr]; rfl, by simp [Start]⟩
    | cons a l => obtain ⟨k, v⟩ := a; exact ⟨_, _, by rw [wr]; rfl, by simp [Start]⟩

theorem start_skip {t : T} (h : Start t) (r : List T) : skip (t :: r) = t :: r := by
  cases t with
  | real b => exact skip_real b r
  | huge => rw [skip]; simp
  | ch c =>
    refine skip_ch ?_ r
    simp only [Start, isDigit, decide_eq_true_eq] at h
    simp only [isSpace, decide_eq_false_iff_not]
    omega

theorem start_expect {t : T} (h : Start t) (r : List T) {c : Nat} (hc : c = 93 ∨ c = 125) :
    expect c (t :: r) = none := by
  cases t with
  | real b => rfl
  | huge => rfl
  | ch d =>
    simp only [Start, isDigit, decide_eq_true_eq] at h
    simp only [expect]
    rw [if_neg (by omega)]

theorem wr_skip (p : Bool) (lvl : Nat) {d : D} (h : Plain d) (r : List T) :
    skip (wr p lvl d ++ r) = wr p lvl d ++ r := by
  obtain ⟨t, r', h1, h2⟩ := wr_start p lvl h
  rw [h1]; exact start_skip h2 _

theorem wr_expect (p : Bool) (lvl : Nat) {d : D} (h : Plain d) (r : List T) {c : Nat} (hc : c = 93 ∨ c = 125) :
    expect c (wr p lvl d ++ r) = none := by
  obtain ⟨t, r', h1, h2⟩ := wr_start p lvl h
  rw [h1]; exact start_expect h2 _ hc

theorem wr_length (p : Bool) (lvl : Nat) {d : D} (h : Plain d) : 1 ≤ (wr p lvl d).length := by
  obtain ⟨t, r', h1, _⟩ := wr_start p lvl h
  rw [h1]; simp

theorem wrL_stop (p : Bool) (lvl : Nat) (l : List D) (r : List T) : Stop (wrL p lvl l ++ r) := by
  cases l with
  | nil => rw [wrL, List.append_assoc]; exact stop_line p lvl (by decide) r
  | cons v l => rw [wrL]; show isDigit 44 = false; rfl

theorem wrD_stop (p : Bool) (lvl : Nat) (l : List (Str × D)) (r : List T) : Stop (wrD p lvl l ++ r) := by
  cases l with
  | nil => rw [wrD, List.append_assoc]; exact stop_line p lvl (by decide) r
  | cons v l => obtain ⟨k, v⟩ := v; rw [wrD]; show isDigit 44 = false; rfl

theorem wrL_length (p : Bool) (lvl : Nat) (l : List D) : 1 ≤ (wrL p lvl l).length := by
  cases l <;> simp [wrL]

theorem wrD_length (p : Bool) (lvl : Nat) (l : List (Str × D)) : 1 ≤ (wrD p lvl l).length := by
  cases l with
  | nil => simp [wrD]
  | cons a l => obtain ⟨k, v⟩ := a; simp [wrD]

mutual
/-- A value is read as it is written, whatever stands behind it. -/
theorem rd_wr : ∀ (d : D), Plain d → ∀ (p : Bool) (lvl f : Nat) (r : List T),
    (wr p lvl d).length ≤ f → Stop r → rd f (wr p lvl d ++ r) = some (d, r)
  | d, h, p, lvl, 0, _, hf, _ => absurd (wr_length p lvl h) (by omega)
  | .null, _, p, lvl, f + 1, r, _, _ => by rw [wr]; rfl
  | .bool true, _, p, lvl, f + 1, r, _, _ => by rw [wr]; rfl
  | .bool false, _, p, lvl, f + 1, r, _, _ => by rw [wr]; rfl
  | .num n, _, p, lvl, f + 1, r, _, hs => by rw [wr]; exact rd_decimal n f r hs
  | .real (.fin b), _, p, lvl, f + 1, r, _, _ => by rw [wr]; rfl
  | .real .inf, h, _, _, _ + 1, _, _, _ => absurd h (by simp [Plain])
  | .real .ninf, h, _, _, _ + 1, _, _, _ => absurd h (by simp [Plain])
  | .real .nan, h, _, _, _ + 1, _, _, _ => absurd h (by simp [Plain])
  | .huge, h, _, _, _ + 1, _, _, _ => absurd h (by simp [Plain])
  | .str s, _, p, lvl, f + 1, r, hf, _ => by
    rw [wr] at hf ⊢
    have := quote_length s
    rw [quote_eq, rd, rdStr_escape s f _ (by omega)]
  | .arr [], _, p, lvl, f + 1, r, _, _ => by rw [wr]; rfl
  | .obj [], _, p, lvl, f + 1, r, _, _ => by rw [wr]; rfl
  | .arr (v :: l), h, p, lvl, f + 1, r, hf, _ => by
    have hv : Plain v ∧ PlainL l := by rw [Plain, PlainL] at h; exact h
    rw [wr] at hf ⊢
    simp only [List.length_cons, List.length_append] at hf
    have e : (.ch 91 :: line p (lvl + 1) ++ wr p (lvl + 1) v ++ wrL p lvl l) ++ r =
        .ch 91 :: (line p (lvl + 1) ++ (wr p (lvl + 1) v ++ (wrL p lvl l ++ r))) := by simp
    rw [e, rd, skip_line, wr_skip p _ hv.1, wr_expect p _ hv.1 _ (.inl rfl)]
    simp only
    rw [rdL_wr l hv.2 v hv.1 (rd_wr v hv.1) p lvl f r (by omega)]
  | .obj ((k, v) :: l), h, p, lvl, f + 1, r, hf, _ => by
    have hv : Plain v ∧ PlainD l := by rw [Plain, PlainD] at h; exact h
    rw [wr] at hf ⊢
    simp only [List.length_cons, List.length_append] at hf
    have e : (.ch 123 :: line p (lvl + 1) ++ quote k ++ colon p ++ wr p (lvl + 1) v ++ wrD p lvl l) ++ r =
        .ch 123 :: (line p (lvl + 1) ++ (quote k ++ (colon p ++ (wr p (lvl + 1) v ++ (wrD p lvl l ++ r))))) := by
      simp
    have hq : skip (quote k ++ (colon p ++ (wr p (lvl + 1) v ++ (wrD p lvl l ++ r)))) =
        quote k ++ (colon p ++ (wr p (lvl + 1) v ++ (wrD p lvl l ++ r))) := by
      rw [quote_eq]; exact skip_ch (by decide) _
    have hx : expect 125 (quote k ++ (colon p ++ (wr p (lvl + 1) v ++ (wrD p lvl l ++ r)))) = none := by
      rw [quote_eq]; rfl
    rw [e, rd, skip_line, hq, hx]
    simp only
    rw [rdD_wr l hv.2 k v hv.1 (rd_wr v hv.1) p lvl f r (by omega)]

theorem rdL_wr : ∀ (l : List D), PlainL l → ∀ (v : D), Plain v →
    (∀ (p : Bool) (lvl f : Nat) (r : List T), (wr p lvl v).length ≤ f → Stop r →
      rd f (wr p lvl v ++ r) = some (v, r)) →
    ∀ (p : Bool) (lvl f : Nat) (r : List T),
    (wr p (lvl + 1) v).length + (wrL p lvl l).length ≤ f →
    rdL f (wr p (lvl + 1) v ++ (wrL p lvl l ++ r)) = some (v :: l, r)
  | l, _, v, hv, _, p, lvl, 0, _, hf => absurd (wrL_length p lvl l) (by omega)
  | [], _, v, hv, ih, p, lvl, f + 1, r, hf => by
    have := wrL_length p lvl []
    rw [rdL, ih p (lvl + 1) f _ (by omega) (wrL_stop ..)]
    simp only
    have e : wrL p lvl [] ++ r = line p lvl ++ .ch 93 :: r := by rw [wrL]; simp
    rw [e, skip_line, skip_ch (by decide)]
    rfl
  | u :: l, h, v, hv, ih, p, lvl, f + 1, r, hf => by
    have hu : Plain u ∧ PlainL l := by rw [PlainL] at h; exact h
    have := wrL_length p lvl (u :: l)
    rw [rdL, ih p (lvl + 1) f _ (by omega) (wrL_stop ..)]
    simp only
    rw [wrL] at hf ⊢
    simp only [List.length_cons, List.length_append] at hf
    have := wr_length p (lvl + 1) hv
    have e : (.ch 44 :: line p (lvl + 1) ++ wr p (lvl + 1) u ++ wrL p lvl l) ++ r =
        .ch 44 :: (line p (lvl + 1) ++ (wr p (lvl + 1) u ++ (wrL p lvl l ++ r))) := by simp
    rw [e, skip_ch (by decide)]
    simp only [expect, if_pos]
    rw [if_neg (by decide), skip_line, wr_skip p _ hu.1]
    simp only
    rw [rdL_wr l hu.2 u hu.1 (rd_wr u hu.1) p lvl f r (by omega)]

theorem rdD_wr : ∀ (l : List (Str × D)), PlainD l → ∀ (k : Str) (v : D), Plain v →
    (∀ (p : Bool) (lvl f : Nat) (r : List T), (wr p lvl v).length ≤ f → Stop r →
      rd f (wr p lvl v ++ r) = some (v, r)) →
    ∀ (p : Bool) (lvl f : Nat) (r : List T),
    (quote k).length + (wr p (lvl + 1) v).length + (wrD p lvl l).length ≤ f →
    rdD f (quote k ++ (colon p ++ (wr p (lvl + 1) v ++ (wrD p lvl l ++ r)))) = some ((k, v) :: l, r)
  | l, _, k, v, hv, _, p, lvl, 0, _, hf => absurd (wrD_length p lvl l) (by omega)
  | [], _, k, v, hv, ih, p, lvl, f + 1, r, hf => by
    have := wrD_length p lvl []
    rw [rdD, rdKey_quote p k f _ (by omega)]
    simp only
    rw [wr_skip p _ hv, ih p (lvl + 1) f _ (by omega) (wrD_stop ..)]
    simp only
    have e : wrD p lvl [] ++ r = line p lvl ++ .ch 125 :: r := by rw [wrD]; simp
    rw [e, skip_line, skip_ch (by decide)]
    rfl
  | (j, u) :: l, h, k, v, hv, ih, p, lvl, f + 1, r, hf => by
    have hu : Plain u ∧ PlainD l := by rw [PlainD] at h; exact h
    have := wrD_length p lvl ((j, u) :: l)
    rw [rdD, rdKey_quote p k f _ (by omega)]
    simp only
    rw [wr_skip p _ hv, ih p (lvl + 1) f _ (by omega) (wrD_stop ..)]
    simp only
    rw [wrD] at hf ⊢
    simp only [List.length_cons, List.length_append] at hf
    have := wr_length p (lvl + 1) hv
    have e : (.ch 44 :: line p (lvl + 1) ++ quote j ++ colon p ++ wr p (lvl + 1) u ++ wrD p lvl l) ++ r =
        .ch 44 :: (line p (lvl + 1) ++ (quote j ++ (colon p ++ (wr p (lvl + 1) u ++ (wrD p lvl l ++ r))))) := by simp
    rw [e, skip_ch (by decide)]
    simp only [expect, if_pos]
    have hq : skip (quote j ++ (colon p ++ (wr p (lvl + 1) u ++ (wrD p lvl l ++ r)))) =
        quote j ++ (colon p ++ (wr p (lvl + 1) u ++ (wrD p lvl l ++ r))) := by
      rw [quote_eq]; exact skip_ch (by decide) _
    rw [if_neg (by decide), skip_line, hq]
    simp only
    rw [rdD_wr l hu.2 j u hu.1 (rd_wr u hu.1) p lvl f r (by omega)]
end

/-- The reader reads the text that the writer writes as the document that was written. -/
theorem read_wr (p : Bool) {d : D} (h : Plain d) : read (wr p 0 d) = some d := by
  unfold read
  have h1 := wr_skip p 0 h []
  have h2 := rd_wr d h p 0 ((wr p 0 d).length + 1) [] (by omega) trivial
  rw [List.append_nil] at h1 h2
  rw [h1, h2]
  simp [skip]

end Verif.Json
