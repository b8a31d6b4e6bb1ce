import Verif.CList.Lemmas
/-!
# C03: a list object behaves as a mathematical sequence under every history

Full statement: for every history `ops`, running it on a fresh list object gives
the results and the final sequence of `specRun [] ops`, without undefined
behaviour. The code does not satisfy it for some calls (`C03_refuted_*`); the
partial theorem covers every history made of the remaining calls.
-/
namespace Verif.CList
open Verif

/-- The calls covered, given the sequence they are applied to.
* The sequence stays below 2^30 elements (a list's size is a C `int`).
* Indexes of item reads/writes/deletes fit in 32 bits (`C03_refuted_index`);
  deletion hits an existing element (`C03_refuted_delitem`).
* Slices with a negative step: bounds not below `-len` (`Slice.C01_refuted_*`);
  deletion of a slice with a negative step is excluded (`C03_refuted_delslice`). -/
def Covered (l : List α) : Op α → Prop
  | .append _ => l.length + 1 ≤ 2^30
  | .insert _ _ => l.length + 1 ≤ 2^30
  | .pop _ => True
  | .getitem n => InI32 n
  | .setitem n _ => InI32 n
  | .delitem n => InI32 n ∧ -(l.length : Int) ≤ n ∧ n < l.length
  | .extend o => l.length + o.length ≤ 2^30
  | .clear => True
  | .reverse => True
  | .getslice s => s.step.getD 1 < 0 →
      (∀ x ∈ s.start, -(l.length : Int) ≤ x) ∧ (∀ x ∈ s.stop, -(l.length : Int) ≤ x)
  | .setslice s o => l.length + o.length ≤ 2^30 ∧ (s.step.getD 1 < 0 →
      (∀ x ∈ s.start, -(l.length : Int) ≤ x) ∧ (∀ x ∈ s.stop, -(l.length : Int) ≤ x))
  | .delslice s => 0 ≤ s.step.getD 1

/-- Every call of the history is covered in the state in which it happens. -/
def CoveredRun (l : List α) : List (Op α) → Prop
  | [] => True
  | op :: ops => Covered l op ∧ CoveredRun (spec l op).1 ops

/-- One call: same result, same new sequence, no undefined behaviour. -/
theorem C03_step_partial (c : CList α) (l : List α) (hr : Rep c l) (op : Op α) (hc : Covered l op) :
    ∃ c', step c op = .ok (c', (spec l op).2) ∧ Rep c' (spec l op).1 := by
  have hlen := hr.1
  cases op with
  | append a =>
    obtain ⟨c', e1, e2⟩ := append_spec hr a hc
    exact ⟨c', by simp [step, e1, spec], e2⟩
  | insert n a =>
    obtain ⟨c', e1, e2⟩ := insert_spec hr n a hc
    exact ⟨c', by simp [step, e1, spec], e2⟩
  | pop i =>
    unfold step pop spec index
    simp only [hlen]
    have key : ∀ ix n : Int, (if ix < 0 then (l.length:Int) + ix else ix) = (if n < 0 then (l.length:Int) + n else n) →
      ∃ c', (if (if ix < 0 then (l.length:Int) + ix else ix) < 0 ∨ (if ix < 0 then (l.length:Int) + ix else ix) ≥ l.length
          then Res.ok (c, Except.error Exn.indexError) else do
            let r ← rd c.buf (if ix < 0 then (l.length:Int) + ix else ix)
            let c ← removeAt c (if ix < 0 then (l.length:Int) + ix else ix)
            pure (c, Except.ok (some [r])))
        = .ok (c', (match (if 0 ≤ (if n < 0 then (l.length:Int) + n else n) ∧ (if n < 0 then (l.length:Int) + n else n) < l.length
            then some (if n < 0 then (l.length:Int) + n else n).toNat else none) with
          | none => (l, Except.error Exn.indexError)
          | some k => (l.eraseIdx k, Except.ok (some (l[k]?).toList))).2) ∧
        Rep c' (match (if 0 ≤ (if n < 0 then (l.length:Int) + n else n) ∧ (if n < 0 then (l.length:Int) + n else n) < l.length
            then some (if n < 0 then (l.length:Int) + n else n).toNat else none) with
          | none => (l, (Except.error Exn.indexError : Out α))
          | some k => (l.eraseIdx k, Except.ok (some (l[k]?).toList))).1 := by
      intro ix n he
      rw [he]
      generalize (if n < 0 then (l.length:Int) + n else n) = j
      by_cases hj : 0 ≤ j ∧ j < l.length
      · rw [if_neg (by omega), if_pos hj]
        obtain ⟨k, rfl⟩ := Int.eq_ofNat_of_zero_le hj.1
        obtain ⟨c', e1, e2⟩ := removeAt_spec hr k (by omega)
        rw [rd_holds hr.2 k (by omega), Res.ok_bind, e1, Res.ok_bind]
        refine ⟨c', ?_, by simpa using e2⟩
        simp only [Int.toNat_natCast]
        rw [List.getElem?_eq_getElem (by omega)]; rfl
      · rw [if_pos (by omega), if_neg hj]
        exact ⟨c, rfl, hr⟩
    cases i with
    | none =>
      simp only [Option.getD_none]
      apply key
      split <;> split <;> omega
    | some x => simp only [Option.getD_some]; exact key x x rfl
  | getitem n =>
    unfold step getitem spec index
    simp only [hlen, wrap32_of_in hc]
    generalize (if n < 0 then (l.length:Int) + n else n) = j
    by_cases hj : 0 ≤ j ∧ j < l.length
    · rw [if_neg (by omega), if_pos hj]
      obtain ⟨k, rfl⟩ := Int.eq_ofNat_of_zero_le hj.1
      rw [rd_holds hr.2 k (by omega), Res.ok_bind]
      refine ⟨c, ?_, hr⟩
      simp only [Int.toNat_natCast]
      rw [List.getElem?_eq_getElem (by omega)]; rfl
    · rw [if_pos (by omega), if_neg hj]
      exact ⟨c, rfl, hr⟩
  | setitem n a =>
    unfold step setitem spec index
    simp only [hlen, wrap32_of_in hc]
    generalize (if n < 0 then (l.length:Int) + n else n) = j
    have hle := Holds.le hr.2
    by_cases hj : 0 ≤ j ∧ j < l.length
    · rw [if_neg (by omega), if_pos hj]
      rw [wr_eq hj.1 (by omega), Res.ok_bind]
      refine ⟨_, rfl, by simp, ?_⟩
      intro i hi
      simp only [List.length_set] at hi
      simp only
      rw [List.getElem?_set, List.getElem?_set]
      by_cases e : j.toNat = i
      · rw [if_pos e, if_pos (by omega), if_pos e, if_pos (by omega)]
      · rw [if_neg e, if_neg e]; exact hr.2 i hi
    · rw [if_pos (by omega), if_neg hj]
      exact ⟨c, rfl, hr⟩
  | delitem n =>
    obtain ⟨hc1, hc2⟩ := hc
    unfold step delitem spec index
    simp only [hlen, wrap32_of_in hc1]
    have hj : 0 ≤ (if n < 0 then (l.length:Int) + n else n) ∧ (if n < 0 then (l.length:Int) + n else n) < l.length := by
      split <;> omega
    generalize (if n < 0 then (l.length:Int) + n else n) = j at *
    rw [if_neg (by omega), if_pos hj]
    obtain ⟨k, rfl⟩ := Int.eq_ofNat_of_zero_le hj.1
    obtain ⟨c', e1, e2⟩ := removeAt_spec hr k (by omega)
    rw [e1, Res.ok_bind]
    exact ⟨c', rfl, by simpa using e2⟩
  | extend o =>
    obtain ⟨c', e1, e2⟩ := extend_spec hr o hc
    exact ⟨c', by simp [step, e1, spec], e2⟩
  | clear => exact ⟨clear c, rfl, rfl, by intro i hi; simp [spec] at hi⟩
  | reverse =>
    obtain ⟨c', e1, e2⟩ := reverse_spec hr
    exact ⟨c', by simp [step, e1, spec], e2⟩
  | getslice s =>
    by_cases h0 : s.step.getD 1 = 0
    · refine ⟨c, ?_, ?_⟩
      · simp [step, getslice, Slice.normalizeSlice, spec, h0]
      · simpa [spec, h0] using hr
    · have : ∃ n, Slice.NormOk l.length s n := by
        by_cases hp : 0 < s.step.getD 1
        · obtain ⟨n, hn, _⟩ := Slice.normalize_pos l.length s hp; exact ⟨n, hn⟩
        · have := hc (by omega)
          exact Slice.normalize_neg l.length s (by omega) this.1 this.2
      obtain ⟨n, hn⟩ := this
      refine ⟨c, ?_, ?_⟩
      · rw [step, getslice_spec hr s n hn]; simp [spec, h0]
      · simpa [spec, h0] using hr
  | setslice s o =>
    by_cases h0 : s.step.getD 1 = 0
    · refine ⟨c, ?_, ?_⟩
      · simp [step, setslice, Slice.normalizeSlice, spec, h0]
      · simpa [spec, h0] using hr
    · by_cases h1 : s.step.getD 1 = 1
      · exact setslice_one hr s h1 o hc.1
      · have : ∃ n, Slice.NormOk l.length s n := by
          by_cases hp : 0 < s.step.getD 1
          · obtain ⟨n, hn, _⟩ := Slice.normalize_pos l.length s hp; exact ⟨n, hn⟩
          · have := hc.2 (by omega)
            exact Slice.normalize_neg l.length s (by omega) this.1 this.2
        obtain ⟨n, hn⟩ := this
        exact setslice_ext hr s n hn h1 h0 o
  | delslice s =>
    by_cases h0 : s.step.getD 1 = 0
    · refine ⟨c, ?_, ?_⟩
      · simp [step, delslice, Slice.normalizeSlice, spec, h0]
      · simpa [spec, h0] using hr
    · have hc' : 0 ≤ s.step.getD 1 := hc
      obtain ⟨c', e1, e2⟩ := delslice_spec hr s (by omega)
      refine ⟨c', ?_, ?_⟩
      · rw [step, e1]; simp [spec, h0]
      · simpa [spec, h0] using e2

theorem run_rep (ops : List (Op α)) : ∀ (c : CList α) (l : List α), Rep c l → CoveredRun l ops →
    ∃ c', run c ops = .ok (c', (specRun l ops).2) ∧ Rep c' (specRun l ops).1 := by
  induction ops with
  | nil => intro c l hr _; exact ⟨c, rfl, hr⟩
  | cons op ops ih =>
    intro c l hr hc
    obtain ⟨c1, e1, e2⟩ := C03_step_partial c l hr op hc.1
    obtain ⟨c2, e3, e4⟩ := ih c1 _ e2 hc.2
    refine ⟨c2, ?_, e4⟩
    unfold run
    rw [e1, Res.ok_bind]
    simp only [e3, Res.ok_bind]
    rfl

/-- C03, partial: every history of covered calls, started on a new list object,
returns the results of the mathematical sequence, leaves the object holding that
sequence and never touches memory outside of the object's buffer. Missing: the
calls excluded by `Covered`, on which the code deviates. -/
theorem C03_history_partial (ops : List (Op α)) (hc : CoveredRun [] ops) :
    ∃ c', run empty ops = .ok (c', (specRun [] ops).2) ∧ Rep c' (specRun [] ops).1 :=
  run_rep ops empty [] ⟨rfl, by intro i hi; simp at hi⟩ hc

/-- Deleting a missing index must raise `IndexError`; the code silently does nothing. -/
theorem C03_refuted_delitem :
    (spec [7] (.delitem 3)).2 = .error .indexError ∧
    step (⟨[some 7], 1⟩ : CList Nat) (.delitem 3) = .ok (⟨[some 7], 1⟩, .ok none) := by
  refine ⟨rfl, ?_⟩; decide

/-- `l[2**32]` must raise `IndexError`; the code returns `l[0]`. -/
theorem C03_refuted_index :
    (spec [7] (.getitem (2^32))).2 = .error .indexError ∧
    step (⟨[some 7], 1⟩ : CList Nat) (.getitem (2^32)) = .ok (⟨[some 7], 1⟩, .ok (some [7])) := by
  refine ⟨rfl, ?_⟩; decide

/-- Deleting a slice with a negative step is undefined (`memmove` with a negative count). -/
theorem C03_refuted_delslice :
    (spec [7, 8] (.delslice ⟨none, none, some (-1)⟩)).1 = [] ∧
    step (⟨[some 7, some 8], 2⟩ : CList Nat) (.delslice ⟨none, none, some (-1)⟩) = .ub := by
  refine ⟨by decide, by decide⟩

/-- A non-trivial covered history. -/
example : CoveredRun ([] : List Nat)
    [.append 1, .insert (-5) 0, .extend [2, 3, 4, 5], .delslice ⟨some 1, none, some 2⟩,
     .setslice ⟨some 1, some 2, none⟩ [9, 9, 9], .pop none, .setitem (-1) 6, .reverse,
     .getslice ⟨none, none, some (-2)⟩, .pop (some 17), .delitem 0] := by
  simp [CoveredRun, Covered, spec, index, InI32, removePositions, Slice.positions, Slice.fromEnd,
    List.range_succ, List.zipIdx]
  try decide

example : (specRun ([] : List Nat)
    [.append 1, .insert (-5) 0, .extend [2, 3, 4, 5], .delslice ⟨some 1, none, some 2⟩,
     .setslice ⟨some 1, some 2, none⟩ [9, 9, 9], .pop none, .setitem (-1) 6, .reverse]).1 = [6, 9, 9, 0] := by
  decide

end Verif.CList
