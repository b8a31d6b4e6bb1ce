import Mathlib.Tactic.Common
import Mathlib.Data.Int.Basic
/-!
# The text generated for conditions: C130

Comparisons of unboxed numbers and the truth value of a number are printed as C expressions
(compiler/lib/src/Acton/Boxing.hs:662-665, 680-685, 718-722; CodeGen.hs:1610-1617, 1636-1639). The
model prints a condition as a list of C tokens and reads the tokens as C does (ISO C17, 6.5).
-/
namespace Verif.Unbox

/-- The comparison operators (`cmp2Comparison`, Boxing.hs:940-946). -/
inductive Cmp
  | eq | ne | lt | le | gt | ge
  deriving DecidableEq, Repr

/-- A condition before Boxing. Numbers and other truth values are variables here; the text of any
other operand is in parentheses or a call. -/
inductive Cond
  | flag (x : Nat)
  /-- a comparison of two numbers -/
  | cmp (o : Cmp) (a b : Nat)
  /-- `a.__bool__()` of a number -/
  | truth (a : Nat)
  /-- `p == q` -/
  | eqb (p q : Cond)
  /-- `p != q` -/
  | neb (p q : Cond)
  | not (p : Cond)
  | and (p q : Cond)
  | or (p q : Cond)
  deriving DecidableEq, Repr

/-- The tokens of C that occur. -/
inductive Tok
  | num (x : Nat) | flag (x : Nat) | zero | lpar | rpar | bang | cmp (o : Cmp) | land | lor
  deriving DecidableEq, Repr

/-- The text of a condition. A comparison gets parentheses in `boxingCompop` (Boxing.hs:663), `and`,
`or` and `not` get them in `gen` (CodeGen.hs:1611, 1615, 1638). The truth value of a number becomes the
comparison `a != 0` without parentheses (Boxing.hs:685, CodeGen.hs:1636). -/
def text : Cond → List Tok
  | .flag x => [.flag x]
  | .cmp o a b => [.lpar, .num a, .cmp o, .num b, .rpar]
  | .truth a => [.num a, .cmp .ne, .zero]
  | .eqb p q => .lpar :: text p ++ .cmp .eq :: text q ++ [.rpar]
  | .neb p q => .lpar :: text p ++ .cmp .ne :: text q ++ [.rpar]
  | .not p => .lpar :: .bang :: text p ++ [.rpar]
  | .and p q => .lpar :: text p ++ .land :: text q ++ [.rpar]
  | .or p q => .lpar :: text p ++ .lor :: text q ++ [.rpar]

/-! ### How C reads it -/

/-- The binary operators. -/
inductive Bin
  | cmp (o : Cmp) | land | lor
  deriving DecidableEq, Repr

/-- A C expression. -/
inductive CE
  | num (x : Nat) | flag (x : Nat) | zero | not (c : CE) | bin (o : Bin) (c d : CE)
  deriving DecidableEq, Repr

/-- The precedence of the operators (ISO C17, 6.5.8, 6.5.9, 6.5.13, 6.5.14). -/
def prec : Bin → Nat
  | .lor => 1
  | .land => 2
  | .cmp .eq => 3
  | .cmp .ne => 3
  | .cmp _ => 4

/-- The operator that a token stands for. -/
def Tok.bin : Tok → Option Bin
  | .cmp o => some (.cmp o)
  | .land => some .land
  | .lor => some .lor
  | _ => none

mutual
/-- Read a unary expression. The first argument bounds the depth of the recursion. -/
def unary : Nat → List Tok → Option (CE × List Tok)
  | 0, _ => none
  | _ + 1, .num x :: r => some (.num x, r)
  | _ + 1, .flag x :: r => some (.flag x, r)
  | _ + 1, .zero :: r => some (.zero, r)
  | f + 1, .bang :: r =>
    match unary f r with
    | some (c, r') => some (.not c, r')
    | none => none
  | f + 1, .lpar :: r =>
    match binary f 1 r with
    | some (c, .rpar :: r') => some (c, r')
    | _ => none
  | _ + 1, _ => none

/-- Read an expression with operators of the precedence `m` and higher. -/
def binary : Nat → Nat → List Tok → Option (CE × List Tok)
  | 0, _, _ => none
  | f + 1, m, ts =>
    match unary f ts with
    | some (c, r) => more f m c r
    | none => none

/-- Extend the left operand `c` as long as operators of the precedence `m` and higher follow; all of
them associate to the left. -/
def more : Nat → Nat → CE → List Tok → Option (CE × List Tok)
  | 0, _, _, _ => none
  | _ + 1, _, c, [] => some (c, [])
  | f + 1, m, c, k :: r =>
    match k.bin with
    | none => some (c, k :: r)
    | some o =>
      if m ≤ prec o then
        match binary f (prec o + 1) r with
        | some (d, r') => more f m (.bin o c d) r'
        | none => none
      else some (c, k :: r)
end

/-- Comparison in C. -/
def cmpC (o : Cmp) (x y : Int) : Int :=
  match o with
  | .eq => if x = y then 1 else 0
  | .ne => if x ≠ y then 1 else 0
  | .lt => if x < y then 1 else 0
  | .le => if x ≤ y then 1 else 0
  | .gt => if x > y then 1 else 0
  | .ge => if x ≥ y then 1 else 0

/-- The value of a C expression. -/
def cval (N : Nat → Int) (F : Nat → Bool) : CE → Int
  | .num x => N x
  | .flag x => if F x then 1 else 0
  | .zero => 0
  | .not c => if cval N F c = 0 then 1 else 0
  | .bin (.cmp o) c d => cmpC o (cval N F c) (cval N F d)
  | .bin .land c d => if cval N F c ≠ 0 ∧ cval N F d ≠ 0 then 1 else 0
  | .bin .lor c d => if cval N F c ≠ 0 ∨ cval N F d ≠ 0 then 1 else 0

/-! ### Specification -/

/-- The value of a condition. -/
def value (N : Nat → Int) (F : Nat → Bool) : Cond → Bool
  | .flag x => F x
  | .cmp .eq a b => decide (N a = N b)
  | .cmp .ne a b => decide (N a ≠ N b)
  | .cmp .lt a b => decide (N a < N b)
  | .cmp .le a b => decide (N a ≤ N b)
  | .cmp .gt a b => decide (N b < N a)
  | .cmp .ge a b => decide (N b ≤ N a)
  | .truth a => decide (N a ≠ 0)
  | .eqb p q => value N F p == value N F q
  | .neb p q => value N F p != value N F q
  | .not p => !value N F p
  | .and p q => value N F p && value N F q
  | .or p q => value N F p || value N F q

/-- The truth value of a number. -/
def Cond.isTruth : Cond → Bool
  | .truth _ => true
  | _ => false

/-- No comparison has the truth value of a number on its right. -/
def Grouped : Cond → Prop
  | .eqb p q => Grouped p ∧ Grouped q ∧ q.isTruth = false
  | .neb p q => Grouped p ∧ Grouped q ∧ q.isTruth = false
  | .not p => Grouped p
  | .and p q => Grouped p ∧ Grouped q
  | .or p q => Grouped p ∧ Grouped q
  | _ => True

/-! ### Proofs -/

/-- The value of the function for all large arguments. -/
def Ev {α : Type} (g : Nat → α) (r : α) : Prop := ∃ n, ∀ f, n ≤ f → g f = r

theorem ev_succ {α : Type} {g h : Nat → α} {r : α} (hg : ∀ f, g (f + 1) = h f) (hh : Ev h r) : Ev g r := by
  obtain ⟨n, hn⟩ := hh
  refine ⟨n + 1, fun f hf => ?_⟩
  obtain ⟨f', rfl⟩ : ∃ f', f = f' + 1 := ⟨f - 1, by omega⟩
  rw [hg]; exact hn f' (by omega)

theorem ev_const {α : Type} {g : Nat → α} {r : α} (hg : ∀ f, g (f + 1) = r) : Ev g r :=
  ev_succ (h := fun _ => r) hg ⟨0, fun _ _ => rfl⟩

theorem ev_match {β : Type} {g : Nat → Option (CE × List Tok)} {c : CE} {r : List Tok}
    {k : Nat → CE → List Tok → Option β} {z : Option β} (hg : Ev g (some (c, r)))
    (hk : Ev (fun f => k f c r) z) :
    Ev (fun f => match g f with
      | some (c, r) => k f c r
      | none => none) z := by
  obtain ⟨n, hn⟩ := hg
  obtain ⟨m, hm⟩ := hk
  refine ⟨max n m, fun f hf => ?_⟩
  simp only
  rw [hn f (by omega)]
  exact hm f (by omega)

theorem ev_num (x : Nat) (r : List Tok) : Ev (fun f => unary f (.num x :: r)) (some (.num x, r)) :=
  ev_const fun f => by rw [unary]

theorem ev_flag (x : Nat) (r : List Tok) : Ev (fun f => unary f (.flag x :: r)) (some (.flag x, r)) :=
  ev_const fun f => by rw [unary]

theorem ev_zero (r : List Tok) : Ev (fun f => unary f (.zero :: r)) (some (.zero, r)) :=
  ev_const fun f => by rw [unary]

theorem ev_bang {c : CE} {ts r : List Tok} (h : Ev (fun f => unary f ts) (some (c, r))) :
    Ev (fun f => unary f (.bang :: ts)) (some (.not c, r)) :=
  ev_succ (fun f => by rw [unary])
    (ev_match (k := fun _ c r => some (CE.not c, r)) h ⟨0, fun _ _ => rfl⟩)

theorem ev_paren {c : CE} {ts r : List Tok} (h : Ev (fun f => binary f 1 ts) (some (c, .rpar :: r))) :
    Ev (fun f => unary f (.lpar :: ts)) (some (c, r)) := by
  obtain ⟨n, hn⟩ := h
  refine ⟨n + 1, fun f hf => ?_⟩
  obtain ⟨f', rfl⟩ : ∃ f', f = f' + 1 := ⟨f - 1, by omega⟩
  have e := hn f' (by omega)
  simp only at e ⊢
  rw [unary, e]

theorem ev_binary {m : Nat} {c : CE} {ts r : List Tok} {z : Option (CE × List Tok)}
    (h : Ev (fun f => unary f ts) (some (c, r))) (hk : Ev (fun f => more f m c r) z) :
    Ev (fun f => binary f m ts) z :=
  ev_succ (fun f => by rw [binary]) (ev_match (k := fun f c r => more f m c r) h hk)

theorem ev_stop {m : Nat} {c : CE} {k : Tok} {r : List Tok} (h : ∀ o, k.bin = some o → prec o < m) :
    Ev (fun f => more f m c (k :: r)) (some (c, k :: r)) :=
  ev_const fun f => by
    rw [more]
    cases hk : k.bin with
    | none => rfl
    | some o => simp only; rw [if_neg (by have := h o hk; omega)]

theorem ev_more {m : Nat} {c d : CE} {k : Tok} {o : Bin} {r r' : List Tok} {z : Option (CE × List Tok)}
    (hk : k.bin = some o) (hm : m ≤ prec o) (hd : Ev (fun f => binary f (prec o + 1) r) (some (d, r')))
    (hz : Ev (fun f => more f m (.bin o c d) r') z) : Ev (fun f => more f m c (k :: r)) z :=
  ev_succ (fun f => by rw [more, hk]; simp only; rw [if_pos hm])
    (ev_match (k := fun f d r' => more f m (.bin o c d) r') hd hz)

/-- The token that follows an operand: a closing parenthesis or an operator of precedence at most 3. -/
def Follow (k : Tok) : Prop := ∀ o, k.bin = some o → prec o ≤ 3

/-- The value of a truth value in C. -/
def b2i (b : Bool) : Int := if b then 1 else 0

/-- `a != 0` as an operand where operators of the precedence `m` are admitted. -/
theorem ev_truth {m : Nat} (hm : m ≤ 3) {k : Tok} {r : List Tok} (hk : Follow k)
    {z : Option (CE × List Tok)} (c : CE)
    (hz : Ev (fun f => more f m (.bin (.cmp .ne) c .zero) (k :: r)) z) :
    Ev (fun f => more f m c (.cmp .ne :: .zero :: k :: r)) z :=
  ev_more (o := .cmp .ne) rfl hm
    (ev_binary (ev_zero _) (ev_stop (fun o ho => by
      have := hk o ho; show prec o < 3 + 1; omega))) hz

/-- An operand is read as one operand. -/
def Operand (N : Nat → Int) (F : Nat → Bool) (p : Cond) : Prop :=
  ∃ c, cval N F c = b2i (value N F p) ∧
    (p.isTruth = false → ∀ r, Ev (fun f => unary f (text p ++ r)) (some (c, r))) ∧
    ∀ m k r z, m ≤ 3 → Follow k → Ev (fun f => more f m c (k :: r)) z →
      Ev (fun f => binary f m (text p ++ k :: r)) z

theorem operand_of_unary {N : Nat → Int} {F : Nat → Bool} {p : Cond} {c : CE}
    (hv : cval N F c = b2i (value N F p)) (h : ∀ r, Ev (fun f => unary f (text p ++ r)) (some (c, r))) :
    Operand N F p :=
  ⟨c, hv, fun _ => h, fun _ _ _ _ _ _ hz => ev_binary (h _) hz⟩

theorem follow_rpar : Follow .rpar := by intro o h; simp [Tok.bin] at h

/-- Two operands with an operator between them, in parentheses. -/
theorem operand_bin {N : Nat → Int} {F : Nat → Bool} {p q w : Cond} {k : Tok} {o : Bin} (hk : k.bin = some o)
    (ho : prec o ≤ 3) (ht : text w = .lpar :: text p ++ k :: text q ++ [.rpar])
    (hp : Operand N F p) (hq : Operand N F q) (hqt : prec o = 3 → q.isTruth = false)
    (hv : ∀ c d, cval N F c = b2i (value N F p) → cval N F d = b2i (value N F q) →
      cval N F (.bin o c d) = b2i (value N F w)) : Operand N F w := by
  obtain ⟨c, hc, _, hp⟩ := hp
  obtain ⟨d, hd, hq1, hq⟩ := hq
  refine operand_of_unary (hv c d hc hd) ?_
  intro r
  rw [ht]
  have h1 : (.lpar :: text p ++ k :: text q ++ [.rpar]) ++ r = .lpar :: (text p ++ k :: (text q ++ .rpar :: r)) := by
    simp
  rw [h1]
  refine ev_paren (hp 1 k _ _ (by omega) ?_ ?_)
  · intro o' ho'; rw [hk] at ho'; cases ho'; exact ho
  · have hpos : 1 ≤ prec o := by
      cases o with
      | cmp o => cases o <;> decide
      | land => decide
      | lor => decide
    refine ev_more hk hpos ?_ (ev_stop (by intro o h; simp [Tok.bin] at h))
    by_cases h3 : prec o = 3
    · exact ev_binary (hq1 (hqt h3) _) (ev_stop (by intro o h; simp [Tok.bin] at h))
    · exact hq (prec o + 1) .rpar r _ (by omega) follow_rpar (ev_stop (by intro o h; simp [Tok.bin] at h))

theorem operand (N : Nat → Int) (F : Nat → Bool) : ∀ p : Cond, Grouped p → Operand N F p
  | .flag x, _ => operand_of_unary (c := .flag x) rfl fun r => ev_flag x r
  | .cmp o a b, _ => by
    refine operand_of_unary (c := .bin (.cmp o) (.num a) (.num b)) ?_ ?_
    · cases o <;> simp only [cval, value, b2i, cmpC, decide_eq_true_eq] <;> rfl
    · intro r
      refine ev_paren (ev_binary (ev_num a _) (ev_more (o := .cmp o) rfl (by cases o <;> decide)
        (ev_binary (ev_num b _) (ev_stop ?_)) (ev_stop ?_)))
      · intro o h; simp [Tok.bin] at h
      · intro o h; simp [Tok.bin] at h
  | .truth a, _ => by
    refine ⟨.bin (.cmp .ne) (.num a) .zero, by simp only [cval, value, b2i, cmpC, decide_eq_true_eq] <;> rfl, by simp [Cond.isTruth], ?_⟩
    intro m k r z hm hk hz
    exact ev_binary (ev_num a _) (ev_truth hm hk _ hz)
  | .eqb p q, h => by
    refine operand_bin (k := .cmp .eq) (o := .cmp .eq) rfl (by decide) rfl (operand N F p h.1)
      (operand N F q h.2.1) (fun _ => h.2.2) ?_
    intro c d hc hd
    simp only [cval, cmpC, hc, hd, value]
    cases value N F p <;> cases value N F q <;> decide
  | .neb p q, h => by
    refine operand_bin (k := .cmp .ne) (o := .cmp .ne) rfl (by decide) rfl (operand N F p h.1)
      (operand N F q h.2.1) (fun _ => h.2.2) ?_
    intro c d hc hd
    simp only [cval, cmpC, hc, hd, value]
    cases value N F p <;> cases value N F q <;> decide
  | .and p q, h => by
    refine operand_bin (k := .land) (o := .land) rfl (by decide) rfl (operand N F p h.1)
      (operand N F q h.2) (fun h => absurd h (by decide)) ?_
    intro c d hc hd
    simp only [cval, hc, hd, value]
    cases value N F p <;> cases value N F q <;> decide
  | .or p q, h => by
    refine operand_bin (k := .lor) (o := .lor) rfl (by decide) rfl (operand N F p h.1)
      (operand N F q h.2) (fun h => absurd h (by decide)) ?_
    intro c d hc hd
    simp only [cval, hc, hd, value]
    cases value N F p <;> cases value N F q <;> decide
  | .not p, h => by
    by_cases ht : p.isTruth = true
    · obtain ⟨a, rfl⟩ : ∃ a, p = .truth a := by
        cases p with
        | truth a => exact ⟨a, rfl⟩
        | _ => cases ht
      refine operand_of_unary (c := .bin (.cmp .ne) (.not (.num a)) .zero) ?_ ?_
      · simp only [cval, value, b2i, cmpC]
        by_cases h0 : N a = 0 <;> simp [h0]
      · intro r
        exact ev_paren (ev_binary (ev_bang (ev_num a _))
          (ev_truth (by omega) follow_rpar _ (ev_stop (by intro o h; simp [Tok.bin] at h))))
    · obtain ⟨c, hc, h1, _⟩ := operand N F p h
      refine operand_of_unary (c := .not c) ?_ ?_
      · simp only [cval, hc, value]
        cases value N F p <;> decide
      · intro r
        have e : text (.not p) ++ r = .lpar :: .bang :: (text p ++ .rpar :: r) := by simp [text]
        rw [e]
        exact ev_paren (ev_binary (ev_bang (h1 (by simpa using ht) _))
          (ev_stop (by intro o h; simp [Tok.bin] at h)))

/-- C reads the text of a condition as an expression with the value of the condition. Missing:
comparisons with the truth value of a number on the right (`C130_refuted`). -/
theorem C130_text_partial (N : Nat → Int) (F : Nat → Bool) {p : Cond} (h : Grouped p) :
    ∃ c n, (∀ f, n ≤ f → binary f 1 (text p ++ [.rpar]) = some (c, [.rpar])) ∧
      cval N F c = if value N F p then 1 else 0 := by
  obtain ⟨c, hc, _, h2⟩ := operand N F p h
  obtain ⟨n, hn⟩ := h2 1 .rpar [] _ (by omega) follow_rpar (ev_stop (by intro o h; simp [Tok.bin] at h))
  exact ⟨c, n, hn, hc⟩

example : Grouped (.or (.not (.truth 0)) (.eqb (.truth 1) (.and (.cmp .lt 0 1) (.truth 2)))) := by
  simp [Grouped, Cond.isTruth]

/-- `x.__bool__() == y.__bool__()` is printed as `(x != 0 == y != 0)`, which C reads as
`((x != 0) == y) != 0`: with `x = 1` and `y = 2` it is false. -/
theorem C130_refuted : let p : Cond := .eqb (.truth 0) (.truth 1)
    let N : Nat → Int := fun x => if x = 0 then 1 else 2
    text p = [.lpar, .num 0, .cmp .ne, .zero, .cmp .eq, .num 1, .cmp .ne, .zero, .rpar] ∧
    value N (fun _ => false) p = true ∧
    ∃ c, unary 20 (text p) = some (c, []) ∧
      c = .bin (.cmp .ne) (.bin (.cmp .eq) (.bin (.cmp .ne) (.num 0) .zero) (.num 1)) .zero ∧
      cval N (fun _ => false) c = 0 := by
  refine ⟨by decide, by decide, _, by decide +kernel, rfl, by decide⟩

end Verif.Unbox
