import Verif.Cps.Lemmas.Mono
import Verif.Cps.Lemmas.Params

/-! C101 to C103. -/
namespace Verif.Cps
variable {V W : Type}

/-! ## Samples

Values are numbers and the world is a list of numbers to which calls append what they see. -/

def P0 : Prims Nat := ⟨0, 1, 0, fun v => v != 0, rfl, rfl⟩

abbrev SStmt := Stmt Nat (List Nat)
abbrev SProc := Proc Nat (List Nat)

def su : List SStmt → Suite Nat (List Nat)
  | [] => .nil
  | s :: ss => .cons s (su ss)

/-- A call that logs `k` and its arguments and returns 0. -/
def lg (k : Nat) (xs : List Nat) : Call Nat (List Nat) := ⟨fun vs w => .ok 0 (w ++ [k] ++ vs), xs, true⟩

/-- A call that logs and raises 7. -/
def fl (k : Nat) (xs : List Nat) : Call Nat (List Nat) := ⟨fun vs w => .exn 7 (w ++ [k] ++ vs), xs, true⟩

def lit (k : Nat) : Exp Nat (List Nat) := .op (fun _ w => .ok k w) []
def inc (x : Nat) : Exp Nat (List Nat) := .op (fun vs w => .ok (vs.headD 0 + 1) w) [x]
def lt (x : Nat) (k : Nat) : Exp Nat (List Nat) := .op (fun vs w => .ok (if vs.headD 0 < k then 1 else 0) w) [x]

/-- `x1 = 0; while x1 < 5: try: x1 += 1; lg(x1); if x1 < 3: continue; fl(x1) except x2: lg(x1, x2); lg(x1)
else: lg(x1); return x1`, as the normalizer leaves it. -/
def pLoop : SProc := ⟨[0], su [.decl 1 (lit 0),
  .whl (lt 1 5) (su [
    .tryS false (su [.upd 1 (inc 1), .call (lg 1 [1]), .ite (lt 1 3) (su [.drop, .cnt]) (su []), .call (fl 2 [1]), .drop])
      (su [.pop 2, .call (lg 3 [1, 2])]),
    .call (lg 4 [1])]) (su [.call (lg 5 [1])]),
  .ret (.var 1)]⟩

/-- `if x0: lg(); x1 = 1 else: x1 = 2; x1 += 1; lg(x1); return 0`. -/
def pTwice : SProc := ⟨[0], su [
  .ite (.var 0) (su [.call (lg 1 []), .decl 1 (lit 1)]) (su [.decl 1 (lit 2)]),
  .upd 1 (inc 1), .call (lg 2 [1]), .ret (lit 0)]⟩

/-- `if x0: (if x0: x1 = 1; lg() else: x1 = 2); lg() else: x1 = 3`, then `ss`. -/
def nested (ss : List SStmt) : SProc := ⟨[0], su (
  .ite (.var 0) (su [.ite (.var 0) (su [.decl 1 (lit 1), .call (lg 1 [])]) (su [.decl 1 (lit 2)]), .call (lg 2 [])])
    (su [.decl 1 (lit 3)]) :: ss)⟩

/-- `try: try: lg(); try: raise 9 (two entries dropped) except x3: raise x3 except x4: lg(x4) finally x5: lg(x5); return x5`. -/
def pDrop : SProc := ⟨[0], su [
  .tryS true (su [
    .tryS false (su [.call (lg 1 []),
      .tryS false (su [.drop, .drop, .raise (lit 9)]) (su [.pop 3, .raise (.var 3)]), .drop])
      (su [.pop 4, .call (lg 5 [4])]),
    .drop]) (su [.pop 5, .call (lg 6 [5]), .ret (.var 5)]),
  .ret (lit 0)]⟩

/-- `if x0: lg(); x1 = 1 else: x1 = 2; try: x1 = 3; lg() except x2: pass; return 0`. -/
def pCell : SProc := ⟨[0], su [
  .ite (.var 0) (su [.call (lg 1 []), .decl 1 (lit 1)]) (su [.decl 1 (lit 2)]),
  .tryS false (su [.upd 1 (lit 3), .call (lg 2 []), .drop]) (su [.pop 2]), .ret (lit 0)]⟩

/-- A procedure that ends does not go wrong. -/
theorem not_stuck {P : Prims V} {p : Proc V W} {vs : List V} {w : W} {n : Nat} (h : p.run P n vs w ≠ .stuck)
    (h' : p.run P n vs w ≠ .timeout) (n' : Nat) : p.run P n' vs w ≠ .stuck := by
  rcases Nat.le_total n n' with hn | hn
  · rw [← (run_le P p hn vs w).resolve_left h']
    exact h
  · rcases run_le P p hn vs w with e | e
    · rw [e]
      simp
    · rw [e]
      exact h

/-- A procedure that goes wrong never ends in another way. -/
theorem stuck_only {P : Prims V} {p : Proc V W} {vs : List V} {w : W} {n m : Nat} (h : p.runCps P n m vs w = .stuck)
    (n' m' : Nat) : p.runCps P n' m' vs w = .stuck ∨ p.runCps P n' m' vs w = .timeout := by
  have h1 := runCps_le P p (Nat.le_max_left n n') (Nat.le_max_left m m') vs w
  have h2 := runCps_le P p (Nat.le_max_right n n') (Nat.le_max_right m m') vs w
  rw [h] at h1
  rcases h2 with h2 | h2
  · exact Or.inr h2
  · left
    rw [h2]
    exact (h1.resolve_left (by simp)).symm

/-! ## C101: the parameters of a continuation are distinct -/

/-- The parameters of every continuation in the converted procedure are distinct. Missing: procedures that,
after a compound statement with calls, assign to a variable declared by that statement (`onceS`), refuted
below. -/
theorem C101_parameters_partial (p : Proc V W) (h : onceS p.vol p.body = true) :
    ∀ ps ∈ paramLists p.code, ps.Nodup := by
  rw [Proc.code, paramLists_volInits]
  exact nodup_cps p.body _ _ _ _ _ h

example : onceS pLoop.vol pLoop.body = true ∧ paramLists pLoop.code = [[], [], [], [], [], [], []] := by decide

example : ∃ p : SProc, onceS p.vol p.body = true ∧ paramLists p.code = [[2, 1], [2, 1], [1, 2], [2]] :=
  ⟨⟨[0, 1, 2], su [.whl (.var 0) (su [.upd 1 (inc 2), .call (lg 1 []), .upd 2 (inc 1)]) (su []), .call (lg 1 []),
    .upd 2 (inc 1), .upd 1 (inc 2), .ret (lit 0)]⟩, by decide⟩

/-- Without the condition a variable occurs twice, in a procedure the compiler accepts. -/
theorem C101_refuted_twice : pTwice.ok = true ∧ [1, 1] ∈ paramLists pTwice.code := by decide

/-! ## C102: a converted procedure ends as the procedure does -/

/-- A procedure with calls, assignments, `if`, `while` with `break` and `continue`, nested `try`, `raise`
and `return`, in any combination, ends after the conversion exactly if it ends before, with the same value
or exception, the same world and the same number of handlers left. Missing: procedures that violate
`Proc.ok` (refuted below) or go wrong before the conversion. -/
theorem C102_ends_partial (P : Prims V) (p : Proc V W) (hp : p.ok = true) (vs : List V) (hl : vs.length = p.params.length)
    (w : W) (hs : ∀ n, p.run P n vs w ≠ .stuck) (r : Fin V W) (hr : r ≠ .timeout) :
    (∃ n, p.run P n vs w = r) ↔ ∃ n m, p.runCps P n m vs w = r := ends_iff P p hp vs hl w hs r hr

/-- One direction needs no condition on the run. -/
theorem C102_keeps_partial (P : Prims V) (p : Proc V W) (hp : p.ok = true) (vs : List V) (hl : vs.length = p.params.length)
    (w : W) (n : Nat) (r : Fin V W) (hr : r ≠ .timeout) (hr' : r ≠ .stuck) (h : p.run P n vs w = r) :
    ∃ m, p.runCps P n m vs w = r := by
  have hL := sim_proc P p hp n vs hl w
  rw [h] at hL
  cases r with
  | stuck => exact absurd rfl hr'
  | timeout => exact absurd rfl hr
  | fin v w' d => exact hL
  | raised x w' => exact hL

theorem pLoop_run : pLoop.run P0 6 [8] [] = .fin 5 [1, 1, 1, 2, 1, 3, 2, 3, 3, 3, 7, 4, 3, 1, 4, 2, 4, 3, 4, 7, 4, 4, 1, 5, 2, 5,
    3, 5, 7, 4, 5, 5, 5] 0 := by decide +kernel

example : pLoop.ok = true ∧ ∀ n, pLoop.run P0 n [8] [] ≠ .stuck :=
  ⟨by decide, not_stuck (n := 6) (by rw [pLoop_run]; simp) (by rw [pLoop_run]; simp)⟩

example : ∃ n m, pLoop.runCps P0 n m [8] [] = .fin 5 [1, 1, 1, 2, 1, 3, 2, 3, 3, 3, 7, 4, 3, 1, 4, 2, 4, 3, 4, 7, 4, 4, 1, 5, 2,
    5, 3, 5, 7, 4, 5, 5, 5] 0 :=
  (C102_ends_partial P0 pLoop (by decide) [8] rfl []
    (not_stuck (n := 6) (by rw [pLoop_run]; simp) (by rw [pLoop_run]; simp)) _ (by simp)).1 ⟨6, pLoop_run⟩

/-- A variable that only what follows the enclosing statement uses is not passed on: the generated code
refers to a variable it does not have. -/
theorem C102_refuted_missing :
    (nested [.call (lg 3 [1]), .ret (lit 0)]).run P0 1 [1] [] = .fin 0 [1, 2, 3, 1] 0 ∧
    ∀ n m, (nested [.call (lg 3 [1]), .ret (lit 0)]).runCps P0 n m [1] [] = .stuck ∨
      (nested [.call (lg 3 [1]), .ret (lit 0)]).runCps P0 n m [1] [] = .timeout :=
  ⟨by rfl, stuck_only (n := 9) (m := 9) (by rfl)⟩

/-- A `try` without calls that drops the entries of enclosing ones with calls drops the wrong ones. -/
theorem C102_refuted_drop :
    pDrop.run P0 1 [1] [] = .fin 9 [1, 6, 9] 0 ∧
    ∀ n m, pDrop.runCps P0 n m [1] [] = .stuck ∨ pDrop.runCps P0 n m [1] [] = .timeout :=
  ⟨by rfl, stuck_only (n := 9) (m := 9) (by rfl)⟩

/-- A volatile variable that is only assigned to is not passed on. -/
theorem C102_refuted_cell :
    pCell.run P0 1 [1] [] = .fin 0 [1, 2] 0 ∧
    ∀ n m, pCell.runCps P0 n m [1] [] = .stuck ∨ pCell.runCps P0 n m [1] [] = .timeout :=
  ⟨by rfl, stuck_only (n := 9) (m := 9) (by rfl)⟩

/-- The last condition is needed: `$SKIPRES` does not drop the result of a last call. -/
theorem C102_refuted_result :
    (⟨[], su [.call ⟨fun _ w => .ok 5 w, [], false⟩]⟩ : SProc).run P0 1 [] [] = .fin 0 [] 0 ∧
    (⟨[], su [.call ⟨fun _ w => .ok 5 w, [], false⟩]⟩ : SProc).runCps P0 1 2 [] [] = .fin 5 [] 0 := ⟨by rfl, by rfl⟩

/-! ## C103: a converted procedure runs forever if the procedure does -/

/-- A procedure runs forever after the conversion exactly if it does before. Missing: as for C102. -/
theorem C103_forever_partial (P : Prims V) (p : Proc V W) (hp : p.ok = true) (vs : List V)
    (hl : vs.length = p.params.length) (w : W) (hs : ∀ n, p.run P n vs w ≠ .stuck) :
    (∀ n, p.run P n vs w = .timeout) ↔ ∀ n m, p.runCps P n m vs w = .timeout := by
  constructor
  · intro h n m
    by_contra hne
    obtain ⟨k, hk⟩ := (C102_ends_partial P p hp vs hl w hs _ hne).2 ⟨n, m, rfl⟩
    exact hne (hk.symm.trans (h k))
  · intro h n
    by_contra hne
    obtain ⟨k, m, hk⟩ := (C102_ends_partial P p hp vs hl w hs _ hne).1 ⟨n, rfl⟩
    exact hne (hk.symm.trans (h k m))

/-- `while True: lg()`. -/
def pSpin : SProc := ⟨[], su [.whl (lit 1) (su [.call (lg 1 [])]) (su []), .ret (lit 0)]⟩

theorem spin_forever (n : Nat) (b : S Nat (List Nat) → Out Nat (List Nat)) (g : S Nat (List Nat) → Out Nat (List Nat))
    (hb : ∀ s, ∃ s', b s = .nxt s') : ∀ s, loop P0 (fun s => evalE s.σ s.w (lit 1)) b g n s = .timeout := by
  induction n with
  | zero => exact fun _ => rfl
  | succ n ih =>
    intro s
    obtain ⟨s', hs'⟩ := hb { s with w := s.w }
    have : loop P0 (fun s => evalE s.σ s.w (lit 1)) b g (n + 1) s =
        (b { s with w := s.w }).again (loop P0 (fun s => evalE s.σ s.w (lit 1)) b g n) := rfl
    rw [this, hs']
    exact ih s'

theorem pSpin_forever (n : Nat) : pSpin.run P0 n [] [] = .timeout := by
  have := spin_forever n (evalS P0 n (su [.call (lg 1 [])])) (evalS P0 n (su [])) (fun s => ⟨_, rfl⟩)
    ⟨bindParams [] [], [], []⟩
  have h : pSpin.run P0 n [] [] = ((loop P0 (fun s => evalE s.σ s.w (lit 1)) (evalS P0 n (su [.call (lg 1 [])]))
    (evalS P0 n (su [])) n ⟨bindParams [] [], [], []⟩).seq (evalS P0 n (su [.ret (lit 0)]))).fin P0 := rfl
  rw [h, this]
  rfl

example : pSpin.ok = true ∧ (∀ n, pSpin.run P0 n [] [] ≠ .stuck) ∧ ∀ n m, pSpin.runCps P0 n m [] [] = .timeout :=
  ⟨by decide, fun n => by rw [pSpin_forever]; simp,
   (C103_forever_partial P0 pSpin (by decide) [] rfl [] (fun n => by rw [pSpin_forever]; simp)).1 pSpin_forever⟩

/-- The procedure of `C102_refuted_missing` with an endless loop at the end. -/
def pSpin2 : SProc := nested [.call (lg 3 [1]), .whl (lit 1) (su []) (su []), .ret (lit 0)]

theorem C103_refuted_missing : (∀ n, pSpin2.run P0 n [1] [] = .timeout) ∧ pSpin2.runCps P0 9 9 [1] [] = .stuck := by
  refine ⟨fun n => ?_, by rfl⟩
  have := spin_forever n (evalS P0 n (su [])) (evalS P0 n (su [])) (fun s => ⟨_, rfl⟩)
    ⟨set (bindParams [0] [1]) 1 1, [1, 2, 3, 1], []⟩
  have h : pSpin2.run P0 n [1] [] = ((loop P0 (fun s => evalE s.σ s.w (lit 1)) (evalS P0 n (su []))
    (evalS P0 n (su [])) n ⟨set (bindParams [0] [1]) 1 1, [1, 2, 3, 1], []⟩).seq (evalS P0 n (su [.ret (lit 0)]))).fin P0 := rfl
  rw [h, this]
  rfl

end Verif.Cps
