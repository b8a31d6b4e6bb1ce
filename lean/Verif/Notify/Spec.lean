import Verif.Notify.Model
/-!
# What is claimed of subscriptions and groups

These definitions use the states of the model, none of its functions but `look`.
-/
namespace Verif.Notify
open Verif

/-- The subscriber can be told: it is local, or its socket is open and takes the write. -/
def Reach (wr : Int → Bool) : Sink → Prop
  | .callback => True
  | .socket fd => fd ≠ 0 ∧ wr fd = true
  | _ => False

instance (wr : Int → Bool) (s : Sink) : Decidable (Reach wr s) := by
  cases s <;> simp only [Reach] <;> infer_instance

/-- An individual subscriber: its group id is -1. -/
def Own (cs : CS) : Prop := cs.group = 2 ^ 64 - 1

instance (cs : CS) : Decidable (Own cs) := by unfold Own; infer_instance

/-- A member of a group, whose id is not negative, or an individual subscriber whose callback or socket is
there. -/
def Sound (cs : CS) : Prop :=
  cs.group < 2 ^ 63 ∨ (Own cs ∧ (cs.sink = .callback ∨ ∃ fd, cs.sink = .socket fd))

/-- The members of the groups carry group ids that are not negative. -/
def Members (groups : List (Nat × Grp)) : Prop :=
  ∀ x ∈ groups, ∀ p ∈ x.2.consumers, p.2.group < 2 ^ 63

/-- The subscribers that a new entry is to be told to: individual, reachable, and not told since they
last read all entries. -/
def Due (wr : Int → Bool) (cs : CS) : Prop := Own cs ∧ cs.notified = false ∧ Reach wr cs.sink

instance (wr : Int → Bool) (cs : CS) : Decidable (Due wr cs) := by unfold Due; infer_instance

/-- A subscriber that has been told. -/
def told (wr : Int → Bool) (cs : CS) : CS := if Due wr cs then ⟨cs.group, cs.readHead, true, cs.sink⟩ else cs

/-- Calls of one thread outside transactions: no part of an `enqueue` of another thread, no commit, and
reads ask for some entries. -/
def Plain : Op → Prop
  | .reserve _ | .announce _ | .commit _ _ _ => False
  | .read _ _ max => 0 < max
  | _ => True

instance (o : Op) : Decidable (Plain o) := by cases o <;> simp only [Plain] <;> infer_instance

/-- The keys ascend. -/
def Ordered {α : Type} (l : List (Nat × α)) : Prop := l.Pairwise (fun a b => a.1 < b.1)

end Verif.Notify
