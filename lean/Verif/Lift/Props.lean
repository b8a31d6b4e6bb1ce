import Verif.Lift.Sound
import Mathlib.Logic.Relation

/-!
# Lambda lifting: properties
-/

namespace Verif.Lift

open Syn

/-! ## C114 -/

/-- A function of the group uses the name. -/
def Uses (ds : Syn Nm .ds) (f x : Nm) : Prop :=
  ∃ ps b, (f, ps, b) ∈ ds.defs ∧ x ∈ freeDef ps b

theorem lookup_funfree0 {ds : Syn Nm .ds} (h : ds.names.Nodup) {f : Nm} {vs : List Nm} :
    (funfree0 ds).lookup f = some vs ↔
      ∃ ps b, (f, ps, b) ∈ ds.defs ∧ vs = nub (freeDef ps b) := by
  constructor
  · intro hl
    have := lookup_mem hl
    rw [funfree0, List.mem_map] at this
    obtain ⟨⟨g, ps, b⟩, hd, he⟩ := this
    cases he
    exact ⟨ps, b, hd, rfl⟩
  · rintro ⟨ps, b, hd, rfl⟩
    refine lookup_of_nodup (by rw [funfree0_keys]; exact h) ?_
    rw [funfree0]
    exact List.mem_map.2 ⟨_, hd, rfl⟩

theorem reach_iff {ds : Syn Nm .ds} (h : ds.names.Nodup) (f x : Nm) :
    Reach (funfree0 ds) f x ↔ Relation.TransGen (Uses ds) f x := by
  constructor
  · intro hr
    induction hr with
    | here hl hx =>
      obtain ⟨ps, b, hd, rfl⟩ := (lookup_funfree0 h).1 hl
      exact .single ⟨ps, b, hd, mem_nub.1 hx⟩
    | step hl hg _ ih =>
      obtain ⟨ps, b, hd, rfl⟩ := (lookup_funfree0 h).1 hl
      exact .head ⟨ps, b, hd, mem_nub.1 hg⟩ ih
  · intro ht
    induction ht using Relation.TransGen.head_induction_on with
    | single hu =>
      obtain ⟨ps, b, hd, hx⟩ := hu
      exact .here ((lookup_funfree0 h).2 ⟨ps, b, hd, rfl⟩) (mem_nub.2 hx)
    | head hu _ ih =>
      obtain ⟨ps, b, hd, hx⟩ := hu
      exact .step ((lookup_funfree0 h).2 ⟨ps, b, hd, rfl⟩) (mem_nub.2 hx) ih

theorem iterexpand_ok (n : Nat) {U : List Nm} {F : FMap} (h : Ok U F) : Ok U (iterexpand n F) := by
  induction n generalizing F with
  | zero => exact h
  | succ n ih =>
    rw [iterexpand]
    split
    · exact h
    · exact ih h.expand

theorem iterexpand_add (n k : Nat) (F : FMap) :
    iterexpand (n + k) F = iterexpand k (iterexpand n F) := by
  induction n generalizing F with
  | zero => rw [Nat.zero_add]; rfl
  | succ n ih =>
    rw [Nat.add_right_comm]
    simp only [iterexpand]
    by_cases hl : lens F = lens (expand F F)
    · rw [if_pos hl, if_pos hl]
      cases k with
      | zero => rfl
      | succ k => rw [iterexpand, if_pos hl]
    · rw [if_neg hl, if_neg hl, ih]

theorem iterexpand_of_fix {F : FMap} (h : expand F F = F) (k : Nat) : iterexpand k F = F := by
  cases k with
  | zero => rfl
  | succ k => rw [iterexpand, h, if_pos rfl]

/-- C114: the rounds of the model are as good as any number of rounds. -/
theorem C114_rounds (ds : Syn Nm .ds) (n : Nat) (hn : rounds (funfree0 ds) ≤ n) :
    iterexpand n (funfree0 ds) = iterexpand (rounds (funfree0 ds)) (funfree0 ds) := by
  obtain ⟨k, rfl⟩ := Nat.exists_eq_add_of_le hn
  rw [iterexpand_add]
  exact iterexpand_of_fix (closure_fix ds) k

/-- C114: iteration ends with the names that a function uses, itself or through functions of its
group that it uses. -/
theorem C114_closure (ds : Syn Nm .ds) (hn : ds.names.Nodup) (f : Nm) (hf : f ∈ ds.names) :
    ∃ vs, (iterexpand (rounds (funfree0 ds)) (funfree0 ds)).lookup f = some vs ∧ vs.Nodup ∧
      ∀ x, x ∈ vs ↔ Relation.TransGen (Uses ds) f x := by
  obtain ⟨d, hd, rfl⟩ := mem_names hf
  obtain ⟨C, h1, _, _⟩ := funfree_some (F := []) hn hd
  refine ⟨C, h1, ?_, fun x => ?_⟩
  · exact (iterexpand_ok _ (ok_funfree0 ds) _ (lookup_mem h1)).1
  · rw [mem_closure ds h1, reach_iff hn]

/-- Three functions, each using the next, the last using `9`. -/
def chain3 : Syn Nm .ds :=
  .dcons 1 [4] (.ret (.call 2 .enil) .done) (.dcons 2 [] (.ret (.call 3 .enil) .done)
    (.dcons 3 [] (.ret (.op 0 (.econs (.call 1 .enil) (.econs (.var 9) .enil))) .done) .dnil))

example : chain3.names.Nodup ∧ 1 ∈ chain3.names := by decide

example : (iterexpand (rounds (funfree0 chain3)) (funfree0 chain3)).lookup 1 = some [2, 3, 1, 9] := by
  decide +kernel

/-! ## C115 -/

variable {I : Nat → List Nat → Option Nat} {γ : Nm → Option Nat}

/-- C115, for modules in which no name hides another: the lifted module computes what the module
does. -/
theorem C115_lift_partial (I : Nat → List Nat → Option Nat) (γ : Nm → Option Nat) (G : Nm → Prop)
    (ds : Syn Nm .ds) (h : ScopedModule G ds) (f : Nm) (vs : List Nat) (n v : Nat)
    (hr : runSrc I γ n ds f vs = some v) :
    ∃ N, ∀ m, N ≤ m → runTgt I γ m (liftModule ds) f vs = some v :=
  run_lift h hr

/-- More depth does not change a result. -/
theorem ev_mono {φ E : Type} (Λ : Lang φ E) (n : Nat) :
    ∀ {s : Srt} (Φ : E) (fs : List Frame) (t : Syn φ s) (r : Res s), ev Λ I γ n Φ fs t = some r →
      ev Λ I γ (n + 1) Φ fs t = some r := by
  induction n with
  | zero => intro s Φ fs t r h; cases h
  | succ n ih =>
    intro s Φ fs t r h
    match s, t, r, h with
    | _, .var x, r, h => simpa only [ev] using h
    | _, .op k as, r, h =>
      simp only [ev] at h
      obtain ⟨vs, h1, h2⟩ := Option.bind_eq_some_iff.1 h
      have := ih _ _ _ _ h1
      rw [ev, this]
      exact h2
    | _, .call f as, r, h =>
      simp only [ev] at h
      obtain ⟨vs, h1, h2⟩ := Option.bind_eq_some_iff.1 h
      obtain ⟨d, h2, h3⟩ := Option.bind_eq_some_iff.1 h2
      split at h3
      rotate_left
      · cases h3
      rename_i hl
      obtain ⟨q, h3, h4⟩ := Option.map_eq_some_iff.1 h3
      exact (ev_call (ih _ _ _ _ h1) h2 hl (ih _ _ _ _ h3)).trans (congrArg some h4)
    | _, .enil, r, h => simpa only [ev] using h
    | _, .econs a as, r, h =>
      simp only [ev] at h
      obtain ⟨v, h1, h2⟩ := Option.bind_eq_some_iff.1 h
      obtain ⟨ws, h2, h3⟩ := Option.map_eq_some_iff.1 h2
      rw [ev, ih _ _ _ _ h1, ih _ _ _ _ h2]
      exact congrArg some h3
    | _, .done, r, h => simpa only [ev] using h
    | _, .assign x a b, r, h =>
      simp only [ev] at h
      obtain ⟨v, h1, h2⟩ := Option.bind_eq_some_iff.1 h
      rw [ev, ih _ _ _ _ h1]
      exact ih _ _ _ _ h2
    | _, .ifs c b1 b2 b, r, h =>
      simp only [ev] at h
      obtain ⟨v, h1, h2⟩ := Option.bind_eq_some_iff.1 h
      obtain ⟨q, h2, h3⟩ := Option.bind_eq_some_iff.1 h2
      rw [ev, ih _ _ _ _ h1]
      show Option.bind (if zero v then _ else _) _ = _
      have h2' : (if zero v then ev Λ I γ (n + 1) Φ fs b2 else ev Λ I γ (n + 1) Φ fs b1) = some q := by
        split at h2
        · rename_i hz; rw [if_pos hz]; exact ih _ _ _ _ h2
        · rename_i hz; rw [if_neg hz]; exact ih _ _ _ _ h2
      rw [h2']
      show (match q.2 with | some _ => _ | none => _) = _
      cases hq : q.2 with
      | some w => simp only [hq] at h3; exact h3
      | none => simp only [hq] at h3; exact ih _ _ _ _ h3
    | _, .whl c b1 b, r, h =>
      simp only [ev] at h
      obtain ⟨v, h1, h2⟩ := Option.bind_eq_some_iff.1 h
      rw [ev, ih _ _ _ _ h1]
      show (if zero v then _ else Option.bind _ _) = _
      split at h2
      · rename_i hz
        rw [if_pos hz]
        exact ih _ _ _ _ h2
      · rename_i hz
        rw [if_neg hz]
        obtain ⟨q, h2, h3⟩ := Option.bind_eq_some_iff.1 h2
        rw [ih _ _ _ _ h2]
        show (match q.2 with | some _ => _ | none => _) = _
        cases hq : q.2 with
        | some w => simp only [hq] at h3; exact h3
        | none => simp only [hq] at h3; exact ih _ _ _ _ h3
    | _, .ret a b, r, h =>
      simp only [ev] at h
      obtain ⟨v, h1, h2⟩ := Option.map_eq_some_iff.1 h
      rw [ev, ih _ _ _ _ h1]
      exact congrArg some h2
    | _, .decl ds b, r, h =>
      rw [ev] at h ⊢
      exact ih _ _ _ _ h
    | _, .dnil, r, h => simpa only [ev] using h
    | _, .dcons f ps b ds, r, h => simpa only [ev] using h

theorem runTgt_mono {T : List TDef} {f : Nm} {vs : List Nat} {n v : Nat}
    (h : runTgt I γ n T f vs = some v) (k : Nat) : runTgt I γ (n + k) T f vs = some v := by
  induction k with
  | zero => exact h
  | succ k ih =>
    obtain ⟨d, h1, h2⟩ := Option.bind_eq_some_iff.1 ih
    rw [runTgt, h1]
    show (if d.1.length = vs.length then _ else _) = _
    split at h2
    · rename_i hl
      rw [if_pos hl]
      obtain ⟨q, h2, h3⟩ := Option.map_eq_some_iff.1 h2
      refine (congrArg (Option.map _) (ev_mono (tgt T) _ _ _ _ _ h2)).trans ?_
      exact congrArg some h3
    · cases h2

/-- C115: the lifted module has no other result. -/
theorem C115_unique_partial (I : Nat → List Nat → Option Nat) (γ : Nm → Option Nat) (G : Nm → Prop)
    (ds : Syn Nm .ds) (h : ScopedModule G ds) (f : Nm) (vs : List Nat) (n v m w : Nat)
    (hr : runSrc I γ n ds f vs = some v) (ht : runTgt I γ m (liftModule ds) f vs = some w) :
    w = v := by
  obtain ⟨N, hN⟩ := run_lift h hr
  have h1 : runTgt I γ (m + N) (liftModule ds) f vs = some v := hN (m + N) (by omega)
  rw [runTgt_mono ht N] at h1
  exact Option.some.inj h1

/-- Operations: number 0 is one less, 1 the sum, others a number. -/
def ops : Nat → List Nat → Option Nat
  | 0, [a] => some (a - 1)
  | 1, [a, b] => some (a + b)
  | k, _ => some k

/-- A function with two local functions that call each other, one of which has another inside; they
use the parameter and a local variable.
```
def outer(x):
    y = x + x
    def even(n):
        if n: return odd(n - 1)
        else: r = y
        return r
    def odd(n):
        z = x
        def h(m): return even(m) + z
        while n: return h(n - 1)
        return x
    return even(5)
``` -/
def nested : Syn Nm .ds :=
  .dcons 0 [1] (.assign 2 (.op 1 (.econs (.var 1) (.econs (.var 1) .enil)))
    (.decl
      (.dcons 3 [5] (.ifs (.var 5)
          (.ret (.call 4 (.econs (.op 0 (.econs (.var 5) .enil)) .enil)) .done)
          (.assign 6 (.var 2) .done)
          (.ret (.var 6) .done))
        (.dcons 4 [5] (.assign 7 (.var 1) (.decl
            (.dcons 8 [9] (.ret (.op 1 (.econs (.call 3 (.econs (.var 9) .enil))
              (.econs (.var 7) .enil))) .done) .dnil)
            (.whl (.var 5) (.ret (.call 8 (.econs (.op 0 (.econs (.var 5) .enil)) .enil)) .done)
              (.ret (.var 1) .done)))) .dnil))
      (.ret (.call 3 (.econs (.op 5 .enil) .enil)) .done))) .dnil

theorem nested_scoped : ScopedModule (fun _ => False) nested := by
  simp [ScopedModule, nested, Scoped, names, assigned, freeDef, Syn.free, vars, sure, through]

example : ∃ n v, ScopedModule (fun _ => False) nested ∧
    runSrc ops (fun _ => none) n nested 0 [100] = some v ∧ v = 300 :=
  ⟨60, 300, nested_scoped, by decide +kernel, rfl⟩

/-- Three functions come out, with `x` and `y`, and the innermost with `z` as well. -/
example : (liftModule nested).map (fun d => (d.1, d.2.1)) =
    [(.lift 3, [7, 2, 1, 9]), (.lift 1, [2, 1, 5]), (.lift 2, [1, 2, 5]), (.top 0, [1])] := by
  simp only [liftModule, nested, llD, llS]
  decide +kernel

/-- A parameter of a local function that has the name of a parameter outside.
```
def outer(x):
    def g(): return x
    def f(x): return g()
    return f(10)
``` -/
def hidden : Syn Nm .ds :=
  .dcons 0 [1] (.decl (.dcons 2 [] (.ret (.var 1) .done) .dnil)
    (.decl (.dcons 3 [1] (.ret (.call 2 .enil) .done) .dnil)
      (.ret (.call 3 (.econs (.op 10 .enil) .enil)) .done))) .dnil

/-- C115 fails if a name hides another: the lifted function is called with the inner variable. -/
theorem C115_refuted_hidden :
    (∃ n, runSrc ops (fun _ => none) n hidden 0 [5] = some 5) ∧
    (∃ N, ∀ m, N ≤ m → runTgt ops (fun _ => none) m (liftModule hidden) 0 [5] = some 10) := by
  refine ⟨⟨20, by decide +kernel⟩, 20, fun m hm => ?_⟩
  obtain ⟨k, rfl⟩ := Nat.exists_eq_add_of_le hm
  refine runTgt_mono ?_ k
  simp only [liftModule, hidden, llD, llS, llE, llE.llEs]
  decide +kernel

/-- The same with a local variable.
```
def outer(x):
    def g(): return x
    def f(y):
        x = y
        return g()
    return f(10)
``` -/
def hiddenLocal : Syn Nm .ds :=
  .dcons 0 [1] (.decl (.dcons 2 [] (.ret (.var 1) .done) .dnil)
    (.decl (.dcons 3 [4] (.assign 1 (.var 4) (.ret (.call 2 .enil) .done)) .dnil)
      (.ret (.call 3 (.econs (.op 10 .enil) .enil)) .done))) .dnil

/-- C115 fails for local variables as well. -/
theorem C115_refuted_local :
    (∃ n, runSrc ops (fun _ => none) n hiddenLocal 0 [5] = some 5) ∧
    (∃ N, ∀ m, N ≤ m → runTgt ops (fun _ => none) m (liftModule hiddenLocal) 0 [5] = some 10) := by
  refine ⟨⟨20, by decide +kernel⟩, 20, fun m hm => ?_⟩
  obtain ⟨k, rfl⟩ := Nat.exists_eq_add_of_le hm
  refine runTgt_mono ?_ k
  simp only [liftModule, hiddenLocal, llD, llS, llE, llE.llEs]
  decide +kernel

/-- A local function that uses a name of the module, called where that name is a parameter.
```
x = 7
def outer():
    def g(): return x
    def f(x): return g()
    return f(10)
``` -/
def hiddenTop : Syn Nm .ds :=
  .dcons 0 [] (.decl (.dcons 2 [] (.ret (.var 1) .done) .dnil)
    (.decl (.dcons 3 [1] (.ret (.call 2 .enil) .done) .dnil)
      (.ret (.call 3 (.econs (.op 10 .enil) .enil)) .done))) .dnil

/-- C115 fails for names of the module: the lifted function has no parameter, and is called with an
argument. -/
theorem C115_refuted_arity :
    (∃ n, runSrc ops (fun _ => some 7) n hiddenTop 0 [] = some 7) ∧
    liftModule hiddenTop =
      [(.lift 1, [], .ret (.var 1) .done),
       (.lift 2, [1], .ret (.call (.lift 1) (.econs (.var 1) .enil)) .done),
       (.top 0, [], .ret (.call (.lift 2) (.econs (.op 10 .enil) .enil)) .done)] ∧
    ∀ m, runTgt ops (fun _ => some 7) m (liftModule hiddenTop) 0 [] = none := by
  have hT : liftModule hiddenTop =
      [(.lift 1, [], .ret (.var 1) .done),
       (.lift 2, [1], .ret (.call (.lift 1) (.econs (.var 1) .enil)) .done),
       (.top 0, [], .ret (.call (.lift 2) (.econs (.op 10 .enil) .enil)) .done)] := by
    simp only [liftModule, hiddenTop, llD, llS, llE, llE.llEs]
    decide +kernel
  refine ⟨⟨20, by decide +kernel⟩, hT, fun m => ?_⟩
  rw [hT]
  match m with
  | 0 => rfl
  | 1 => rfl
  | 2 => rfl
  | 3 => rfl
  | 4 => rfl
  | 5 => rfl
  | m + 6 => rfl

end Verif.Lift
