import Verif.Graph.Lemmas
/-!
# C16: serializing and deserializing an object graph yields an exact copy
-/
namespace Verif.Graph
open Verif

/-- Serialization of a finite well-formed graph terminates without error (actors require a
`globmap`). -/
theorem C16_terminates (user : Int → List SK) (h : List Obj) (glob : Bool) (v : Slot)
    (hh : OkHeap user h) (hv : OkSlot h.length v)
    (hg : glob = false → (∀ o ∈ h, ∀ c k, Slot.ext c k ∉ o.kids) ∧ ∀ c k, v ≠ Slot.ext c k) :
    ∃ f rows, serialize h glob f v = .ok rows := by
  obtain ⟨st', h1, -⟩ := ser_total (user := user) (glob := glob) hh (work (fun _ => none) 0 h + 2) [v]
    ⟨[], 0, fun _ => none⟩ (by simpa using hv)
    (fun hgf => ⟨(hg hgf).1, fun c k hc => (hg hgf).2 c k ((List.mem_singleton.1 hc).symm)⟩) (by simp)
  exact ⟨_, st'.rows, by unfold serialize; rw [h1, Res.ok_bind]; rfl⟩

/-- C16 for graphs of tracked objects (lists, tuples, dicts, sets, bigints and instances of
user classes, with any sharing and any cycles) over immutable values: reading what was written
consumes all rows and produces an exact copy. Missing compared with the full property: shared
bytearrays, shared boxed integers, ranges and sets with removed elements, for which the
property fails (below). -/
theorem C16_copy_partial (user : Int → List SK) (h : List Obj) (glob : Bool) (v : Slot)
    (hh : OkHeap user h) (hv : OkSlot h.length v) (hval : v.sk = .val) (f : Nat) (rows : List (Int × List Int))
    (hs : serialize h glob f v = .ok rows) :
    ∃ v' h', deserialize user glob f rows = .ok ([v'], h') ∧ Copy h v h' v' := by
  unfold serialize at hs
  cases h1 : ser h glob f [v] ⟨[], 0, fun _ => none⟩ with
  | raise e => rw [h1] at hs; cases hs
  | ub => rw [h1] at hs; cases hs
  | diverge => rw [h1] at hs; cases hs
  | ok st' =>
    rw [h1, Res.ok_bind] at hs
    have hs : st'.rows = rows := by injection hs
    obtain ⟨R, r1, -, r3⟩ := ser_sim (user := user) hh (Reach h v)
      (fun a o b ha ho hb => Reach.step ha ho hb) f [v] _ _ (by simpa using hv)
      (fun a ha => Reach.root ((List.mem_singleton.1 ha).symm)) h1
    obtain ⟨D', d1, d2, d3, d4⟩ := r3 ⟨rows, 0, fun _ => none, []⟩ []
      ⟨rfl, by simp, by simp, by simp, by simp, by simp⟩ (by rw [List.append_nil, ← hs, r1]; rfl)
    have hdom : ∀ a, Reach h v a → ∃ k, st'.done a = some k := by
      intro a ha
      induction ha with
      | root e => exact d4.refs _ (by rw [e]; simp)
      | step _ ho hb ih =>
        obtain ⟨k, hk⟩ := ih
        obtain ⟨-, o', e1, e2, -⟩ := d4.new _ k rfl hk
        rw [ho] at e1; cases e1
        exact e2 _ hb
    refine ⟨v.rename (rho st' D'), D'.heap, ?_, rho st' D', rfl, ?_, ?_, ?_⟩
    · unfold deserialize
      simp only [List.map_cons, List.map_nil, hval] at d1
      rw [d1, Res.ok_bind]; rfl
    · intro a b ha hb hab
      obtain ⟨k, hk⟩ := hdom a ha
      obtain ⟨j, hj⟩ := hdom b hb
      obtain ⟨-, n, hn⟩ := d2.fwd a k hk
      obtain ⟨-, m, hm⟩ := d2.fwd b j hj
      unfold rho at hab
      rw [hk, hj] at hab
      simp only [hn, hm, Option.getD_some] at hab
      subst hab
      have := d2.dinj _ _ _ hn hm
      have hkj : k = j := by omega
      subst hkj
      exact d2.inj _ _ _ hk hj
    · intro a o ha ho
      obtain ⟨k, hk⟩ := hdom a ha
      obtain ⟨-, o', e1, -, e3⟩ := d4.new a k rfl hk
      rw [ho] at e1; cases e1
      exact e3
    · intro n hn
      obtain ⟨k, hk⟩ := d2.surj n hn
      obtain ⟨-, a, j, hj, ha⟩ := d2.bwd k n hk
      obtain ⟨hr, -⟩ := d4.new a j rfl ha
      refine ⟨a, hr, ?_⟩
      unfold rho
      rw [ha]
      simp only [← hj, hk, Option.getD_some]

/-- A cyclic, shared graph satisfying the hypotheses: a list of two references to the same
object of class 80, whose one field refers back to the list. -/
def sample : List Obj := [⟨7, [3], [.ref 1, .ref 1, .box 57 2 [5]]⟩, ⟨80, [], [.raw 57 [42], .ref 0]⟩]
def sampleUser (c : Int) : List SK := if c = 80 then [.raw, .val] else []

example : OkHeap sampleUser sample := by
  intro o ho
  simp only [sample, List.mem_cons, List.not_mem_nil, or_false] at ho
  rcases ho with rfl | rfl
  · refine ⟨rfl, rfl, ?_⟩
    intro s hs
    simp only [List.mem_cons, List.not_mem_nil, or_false] at hs
    rcases hs with rfl | rfl | rfl <;> simp [OkSlot, sample, kindOf]
  · refine ⟨rfl, rfl, ?_⟩
    intro s hs
    simp only [List.mem_cons, List.not_mem_nil, or_false] at hs
    rcases hs with rfl | rfl <;> simp [OkSlot, sample]

example : serialize sample false 20 (.ref 0) =
    .ok [(7, [3]), (80, []), (57, [42]), (-7, [0]), (-80, [1]), (57, []), (2, [5])] := by decide
example : deserialize sampleUser false 20
    [(7, [3]), (80, []), (57, [42]), (-7, [0]), (-80, [1]), (57, []), (2, [5])] =
    .ok ([.ref 0], sample) := by decide

/-! ## Where the property fails

Each theorem shows a finite graph whose serialization is not a copy. -/

/-- Two references to one boxed integer (e.g. the list `a + a` for `a = [5]`): the second
element is read back as `None`. -/
theorem C16_refuted_shared_int :
    let h : List Obj := [⟨7, [2], [.ref 1, .ref 1]⟩, ⟨57, [], [.raw 2 [5]]⟩]
    (serialize h false 20 (.ref 0)).bind (deserialize (fun _ => []) false 20) =
      .ok ([.ref 0], [⟨7, [2], [.box 57 2 [5], .none]⟩]) := by decide

/-- Two references to one bytearray are read back as two separate bytearrays. -/
theorem C16_refuted_shared_bytearray :
    let h : List Obj := [⟨7, [2], [.ref 1, .ref 1]⟩, ⟨12, [1, 65], []⟩]
    (serialize h false 20 (.ref 0)).bind (deserialize (fun _ => []) false 20) =
      .ok ([.ref 0], [⟨7, [2], [.imm 12 [1, 65], .imm 12 [1, 65]]⟩]) := by decide

/-- A list holding a range and a bool: the range comes back as an integer and
the bool as an integer too, the rest of the rows being left over. -/
theorem C16_refuted_range :
    let h : List Obj := [⟨7, [2], [.range 0 1 10, .imm 5 [1]]⟩]
    (serialize h false 20 (.ref 0)).bind (deserialize (fun _ => []) false 20) =
      .ok ([.ref 0], [⟨7, [2], [.box 57 2 [0], .box 57 2 [1]]⟩]) := by decide

/-- A set from which an element has been removed contains the `dummy` marker, which is not an
object: serializing it dereferences a null class pointer. -/
theorem C16_refuted_removed :
    serialize [⟨9, [0, 1, 0, 0], [.box 57 2 [-1], .wild]⟩] false 20 (.ref 0) = .ub := by decide

end Verif.Graph
