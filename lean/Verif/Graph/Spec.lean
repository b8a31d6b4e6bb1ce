import Verif.Graph.Model
/-!
# Specification: isomorphic object graphs
-/
namespace Verif.Graph

/-- The kind of row a slot is stored in. -/
def Slot.sk : Slot → SK
  | .raw _ _ => .raw
  | _ => .val

/-- Slots that occur in a well-formed heap of `n` objects. -/
def OkSlot (n : Nat) : Slot → Prop
  | .raw _ _ => True
  | .none => True
  | .imm c _ => kindOf c = .plain
  | .box c _ _ => kindOf c = .boxed
  | .ext c k => 14 < c ∧ k < 0
  | .range _ _ _ => False
  | .wild => False
  | .ref a => a < n

/-- A heap whose objects all belong to tracked classes, with exactly the slots their class
prescribes, and without dangling references. -/
def OkHeap (user : Int → List SK) (h : List Obj) : Prop :=
  ∀ o ∈ h, kindOf o.cid = .tracked ∧ o.kids.map Slot.sk = layout user o.cid o.ws ∧
    ∀ s ∈ o.kids, OkSlot h.length s

/-- Rename the references in a slot. -/
def Slot.rename (ρ : Nat → Nat) : Slot → Slot
  | .ref a => .ref (ρ a)
  | s => s

/-- `a` can be reached from the slot `v` by following references. -/
inductive Reach (h : List Obj) (v : Slot) : Nat → Prop
  | root {a} : v = .ref a → Reach h v a
  | step {a b o} : Reach h v a → h[a]? = some o → Slot.ref b ∈ o.kids → Reach h v b

/-- The graph `(v', h')` is an exact copy of the part of `(v, h)` reachable from `v`:
a one-to-one renaming of objects onto all of `h'` that preserves class, data and every slot
(hence sharing and cycles). -/
def Copy (h : List Obj) (v : Slot) (h' : List Obj) (v' : Slot) : Prop :=
  ∃ ρ : Nat → Nat,
    v' = v.rename ρ ∧
    (∀ a b, Reach h v a → Reach h v b → ρ a = ρ b → a = b) ∧
    (∀ a o, Reach h v a → h[a]? = some o → h'[ρ a]? = some ⟨o.cid, o.ws, o.kids.map (Slot.rename ρ)⟩) ∧
    (∀ n, n < h'.length → ∃ a, Reach h v a ∧ ρ a = n)

end Verif.Graph
