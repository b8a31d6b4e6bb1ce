import Verif.Hash.Model
import Verif.Hash.SinkLemmas

/-!
The feed of a piece of syntax can be read back: no feed is a proper prefix of
another, and equal feeds come from equal syntax.
-/

namespace Verif.Hash

/-- The bytes of a feed. -/
def enc (os : List Op) : List Nat := os.flatMap Op.enc

theorem enc_append (a b : List Op) : enc (a ++ b) = enc a ++ enc b := by
  simp [enc]

theorem enc_w8 (b : Fin 256) (os : List Op) : enc (.w8 b :: os) = b.val :: enc os := by
  simp [enc, Op.enc]

theorem enc_nil : enc [] = [] := rfl

theorem enc_int (i : Int) (os : List Op) : enc (.int i :: os) = intBytes i ++ enc os := by
  simp [enc, Op.enc]

theorem enc_w64 (w : Fin (2 ^ 64)) (os : List Op) :
    enc (.w64 w :: os) = word64Bytes w.val ++ enc os := by
  simp [enc, Op.enc]

theorem enc_str (s : Str) (os : List Op) :
    enc (.str s :: os) = s.flatMap chrBytes ++ 0 :: 1 :: enc os := by
  simp [enc, Op.enc]

/-- What is needed to read a value back. -/
def Reads {α : Type} (f : α → List Op) (x : α) : Prop :=
  ∀ (y : α) (r t : List Nat), enc (f x) ++ r = enc (f y) ++ t → x = y ∧ r = t

theorem prefix_tag_inj : ∀ (p q : Prefix), p.tag = q.tag → p = q := by
  intro p q; cases p <;> cases q <;> decide

theorem unary_tag_inj : ∀ (p q : Unary), p.tag = q.tag → p = q := by
  intro p q; cases p <;> cases q <;> decide

theorem binary_tag_inj : ∀ (p q : Binary), p.tag = q.tag → p = q := by
  intro p q; cases p <;> cases q <;> decide

theorem aug_tag_inj : ∀ (p q : Aug), p.tag = q.tag → p = q := by
  intro p q; cases p <;> cases q <;> decide

theorem comparison_tag_inj : ∀ (p q : Comparison), p.tag = q.tag → p = q := by
  intro p q; cases p <;> cases q <;> decide

theorem deco_tag_inj : ∀ (p q : Deco), p.tag = q.tag → p = q := by
  intro p q; cases p <;> cases q <;> decide

theorem fx_tag_inj : ∀ (p q : FX), p.tag = q.tag → p = q := by
  intro p q; cases p <;> cases q <;> decide

theorem bool_tag_inj : ∀ (p q : Bool),
    (if p then (1 : Fin 256) else 0) = (if q then (1 : Fin 256) else 0) → p = q := by
  intro p q; cases p <;> cases q <;> decide

/-- Unfolds the bytes of a feed. -/
macro "encs" "[" ls:Lean.Parser.Tactic.simpLemma,* "]" "at" h:ident : tactic =>
  `(tactic| simp only [$ls,*, enc_append, enc_w8, enc_nil, enc_int, enc_w64, enc_str,
      List.cons_append, List.nil_append, List.append_assoc, List.append_nil] at $h:ident)

theorem tag_step {a b : Fin 256} {r t : List Nat} (h : a.val :: r = b.val :: t) :
    a = b ∧ r = t := by
  simp only [List.cons.injEq] at h
  exact ⟨Fin.ext h.1, h.2⟩

theorem const_step {a : Nat} {r t : List Nat} (h : a :: r = a :: t) : r = t := by
  simp only [List.cons.injEq, true_and] at h
  exact h

theorem name_reads (x : Name) : Reads Name.feed x := by
  induction x with
  | name s =>
    intro y r t h
    cases y <;> encs [Name.feed] at h
    · obtain ⟨rfl, rfl⟩ := str_inj _ _ _ _ (const_step h)
      exact ⟨rfl, rfl⟩
    · simp at h
    · simp at h
  | derived a b iha ihb =>
    intro y r t h
    cases y <;> encs [Name.feed] at h
    · simp at h
    · obtain ⟨rfl, h1⟩ := iha _ _ _ (const_step h)
      obtain ⟨rfl, rfl⟩ := ihb _ _ _ h1
      exact ⟨rfl, rfl⟩
    · simp at h
  | internal p s i =>
    intro y r t h
    cases y <;> encs [Name.feed] at h
    · simp at h
    · simp at h
    · obtain ⟨e, h1⟩ := tag_step (const_step h)
      obtain rfl := prefix_tag_inj _ _ e
      obtain ⟨rfl, h2⟩ := str_inj _ _ _ _ h1
      obtain ⟨rfl, rfl⟩ := int_inj _ _ _ _ h2
      exact ⟨rfl, rfl⟩

theorem name_head (x : Name) : ∃ b bs, enc x.feed = b :: bs ∧ b ≠ 5 := by
  cases x <;> simp only [Name.feed, enc_append, enc_w8, List.cons_append]
  · exact ⟨_, _, rfl, by decide⟩
  · exact ⟨_, _, rfl, by decide⟩
  · exact ⟨_, _, rfl, by decide⟩

/-- A bracketed list reads back when its elements do and none begins with the
closing bracket. -/
theorem names_read : ∀ (xs ys : List Name) (r t : List Nat),
    enc (feedNames xs) ++ 5 :: r = enc (feedNames ys) ++ 5 :: t → xs = ys ∧ r = t
  | [], [], r, t, h => ⟨rfl, by simpa [feedNames, enc_nil] using h⟩
  | [], y :: ys, r, t, h => by
    obtain ⟨b, bs, e, hb⟩ := name_head y
    simp only [feedNames, enc_nil, enc_append, e, List.nil_append, List.cons_append,
      List.cons.injEq] at h
    exact absurd h.1.symm hb
  | x :: xs, [], r, t, h => by
    obtain ⟨b, bs, e, hb⟩ := name_head x
    simp only [feedNames, enc_nil, enc_append, e, List.nil_append, List.cons_append,
      List.cons.injEq] at h
    exact absurd h.1 hb
  | x :: xs, y :: ys, r, t, h => by
    simp only [feedNames, enc_append, List.append_assoc] at h
    obtain ⟨rfl, h1⟩ := name_reads x _ _ _ h
    obtain ⟨rfl, rfl⟩ := names_read xs ys r t h1
    exact ⟨rfl, rfl⟩

theorem qname_reads (x : QName) : Reads QName.feed x := by
  intro y r t h
  cases x <;> cases y <;> encs [QName.feed, feedModName] at h
  · have h1 := const_step (const_step (const_step h))
    obtain ⟨rfl, h2⟩ := names_read _ _ _ _ h1
    obtain ⟨rfl, rfl⟩ := name_reads _ _ _ _ h2
    exact ⟨rfl, rfl⟩
  · simp at h
  · simp at h
  · simp at h
  · obtain ⟨rfl, rfl⟩ := name_reads _ _ _ _ (const_step h)
    exact ⟨rfl, rfl⟩
  · simp at h
  · simp at h
  · simp at h
  · have h1 := const_step (const_step (const_step h))
    obtain ⟨rfl, h2⟩ := names_read _ _ _ _ h1
    obtain ⟨rfl, rfl⟩ := name_reads _ _ _ _ h2
    exact ⟨rfl, rfl⟩

theorem except_reads (x : Except) : Reads Except.feed x := by
  intro y r t h
  cases x <;> cases y <;> encs [Except.feed] at h <;> try (simp at h; done)
  · exact ⟨rfl, const_step h⟩
  · obtain ⟨rfl, rfl⟩ := qname_reads _ _ _ _ (const_step h)
    exact ⟨rfl, rfl⟩
  · obtain ⟨rfl, h1⟩ := qname_reads _ _ _ _ (const_step h)
    obtain ⟨rfl, rfl⟩ := name_reads _ _ _ _ h1
    exact ⟨rfl, rfl⟩

theorem step_reads (x : WStep) : Reads WStep.feed x := by
  intro y r t h
  cases x <;> cases y <;> encs [WStep.feed] at h <;> try (simp at h; done)
  · obtain ⟨rfl, rfl⟩ := qname_reads _ _ _ _ (const_step h)
    exact ⟨rfl, rfl⟩
  · obtain ⟨rfl, rfl⟩ := qname_reads _ _ _ _ (const_step h)
    exact ⟨rfl, rfl⟩

theorem steps_read : ∀ (xs ys : List WStep) (r t : List Nat),
    enc (feedSteps xs) ++ 5 :: r = enc (feedSteps ys) ++ 5 :: t → xs = ys ∧ r = t
  | [], [], r, t, h => ⟨rfl, by simpa [feedSteps, enc_nil] using h⟩
  | [], y :: ys, r, t, h => by
    cases y <;> encs [feedSteps, WStep.feed] at h <;> simp at h
  | x :: xs, [], r, t, h => by
    cases x <;> encs [feedSteps, WStep.feed] at h <;> simp at h
  | x :: xs, y :: ys, r, t, h => by
    simp only [feedSteps, enc_append, List.append_assoc] at h
    obtain ⟨rfl, h1⟩ := step_reads x _ _ _ h
    obtain ⟨rfl, rfl⟩ := steps_read xs ys r t h1
    exact ⟨rfl, rfl⟩

/-- Not a list. -/
def TS.Base : TS → Prop
  | .list _ => False
  | _ => True

theorem ty_head {s : TS} (x : Ty s) (hs : s.Base) : ∃ b bs, enc x.feed = b :: bs ∧ b ≠ 5 := by
  cases x <;> first
    | exact False.elim hs
    | (simp only [Ty.feed, List.cons_append, List.nil_append, List.append_assoc, enc_w8]
       exact ⟨_, _, rfl, by decide⟩)

end Verif.Hash
