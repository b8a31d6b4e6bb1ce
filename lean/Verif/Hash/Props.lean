import Verif.Hash.Items

/-!
C107 and C108: what SHA256 sees of a feed, and what it tells of the syntax.
-/

namespace Verif.Hash

/-! ### C107: the sink -/

/-- Whatever the feed, whatever an earlier feed has left in the buffer: every
write stays within the buffer, and SHA256 sees the bytes of the operations in
order, with nothing lost, doubled or added where the buffer is flushed. -/
theorem C107_sink (buf : Nat → Nat) (ops : List Op) :
    hashInput buf ops = some (ops.flatMap Op.enc) := hashInput_eq buf ops

/-- What SHA256 sees are bytes. -/
theorem C107_bytes (buf : Nat → Nat) (ops : List Op) (bs : List Nat)
    (h : hashInput buf ops = some bs) : ∀ b ∈ bs, b < 256 := by
  rw [hashInput_eq] at h
  cases h
  intro b hb
  obtain ⟨o, _, hb⟩ := List.mem_flatMap.mp hb
  exact enc_byte o b hb

/-- The result of a feed does not depend on the feeds that went through the
same buffer before. -/
theorem C107_scratch (buf buf' : Nat → Nat) (ops : List Op) :
    hashInput buf ops = hashInput buf' ops := by
  rw [hashInput_eq, hashInput_eq]

theorem euro (n : Nat) : hashInput (fun _ => 7)
    [.str (List.replicate n ⟨0x20AC, by decide⟩), .w8 3] =
    some (List.flatten (List.replicate n [0xE2, 0x82, 0xAC]) ++ [0, 1, 3]) := by
  rw [C107_sink]
  simp only [List.flatMap_cons, List.flatMap_nil, Op.enc, List.append_nil, Option.some.injEq,
    List.append_assoc]
  congr 1
  induction n with
  | zero => rfl
  | succ n ih =>
    rw [List.replicate_succ, List.replicate_succ, List.flatMap_cons, List.flatten_cons, ih]
    rfl

-- a feed longer than the buffer, so that a character straddles its end
example : hashInput (fun _ => 7) [.str (List.replicate 20000 ⟨0x20AC, by decide⟩), .w8 3] =
    some (List.flatten (List.replicate 20000 [0xE2, 0x82, 0xAC]) ++ [0, 1, 3]) := euro 20000

/-! ### C108: the feed of syntax -/

/-- Names: equal bytes come from equal names. -/
theorem C108_name (buf buf' : Nat → Nat) (m n : Name)
    (h : hashInput buf m.feed = hashInput buf' n.feed) : m = n := by
  rw [hashInput_eq, hashInput_eq, Option.some.injEq] at h
  exact (name_reads m n [] [] (by simpa only [List.append_nil, enc] using h)).1

/-- Interface entries, types, kinds and their parts: equal bytes come from
equal entries (up to docstrings, which the feed leaves out). -/
theorem C108_info (buf buf' : Nat → Nat) (x y : Ty .info)
    (h : hashInput buf x.feed = hashInput buf' y.feed) : x = y := by
  rw [hashInput_eq, hashInput_eq, Option.some.injEq] at h
  exact (ty_reads x (by trivial) y [] [] (by simpa only [List.append_nil, enc] using h)).1

/-- The items a name is defined by: equal bytes come from equal items.
Partial: for programs where no part of a string literal begins with the
character 5 (`C108_refuted_strings`). -/
theorem C108_items_partial (buf buf' : Nat → Nat) (xs ys : List Item)
    (hx : ∀ x ∈ xs, x.Plain) (hy : ∀ y ∈ ys, y.Plain)
    (h : hashInput buf (feedFragments xs) = hashInput buf' (feedFragments ys)) : xs = ys := by
  rw [hashInput_eq, hashInput_eq, Option.some.injEq] at h
  exact fragments_read xs ys hx hy h

/-- The name `f`. -/
def nf : Name := .name [⟨102, by decide⟩]

/-- `def f():` with a given body. -/
def defF (b : Syn (.list .stmt)) : Item :=
  .decl (.def_ nf .nil .posNIL .kwdNIL none b .noDec .tWild none)

/-- `r"a"`, and `return r"x"`. -/
def bodyA : Syn (.list .stmt) :=
  .cons (.expr (.strings [[⟨97, by decide⟩]]))
    (.cons (.ret (.some (.strings [[⟨120, by decide⟩]]))) .nil)

/-- `r"a" r"…"`, where the second literal consists of the characters 5, 17, 3,
58, 4 and `x`. -/
def bodyB : Syn (.list .stmt) :=
  .cons (.expr (.strings [[⟨97, by decide⟩],
    [⟨5, by decide⟩, ⟨17, by decide⟩, ⟨3, by decide⟩, ⟨58, by decide⟩, ⟨4, by decide⟩,
      ⟨120, by decide⟩]])) .nil

/-- A function that returns a string and one that returns nothing are fed
alike: the byte that ends the list of the parts of a literal is also a
character that a part may begin with. -/
theorem C108_refuted_strings : ∃ x y : Item, x ≠ y ∧
    ∀ buf, hashInput buf (feedFragments [x]) = hashInput buf (feedFragments [y]) := by
  refine ⟨defF bodyA, defF bodyB, ?_, ?_⟩
  · intro h
    simp only [defF, bodyA, bodyB, Item.decl.injEq, Syn.def_.injEq, Syn.cons.injEq,
      Syn.expr.injEq, Syn.strings.injEq] at h
    exact absurd h.2.2.2.2.2.1.1 (by decide)
  · intro buf
    rw [hashInput_eq, hashInput_eq]
    decide +kernel

-- the first of the two is plain, so it shares its bytes with no other plain item
example : (defF bodyA).Plain := by
  simp [defF, bodyA, Item.Plain, Syn.Plain, NoFive]

-- `class C(P[int]): x : ?int` as an interface entry
example : (enc (Ty.feed (.nClass .nil
    (.cons (.wtcon [.right (.noQ nf)] (.tc (.noQ nf) (.cons (.tOpt .tNone) .nil))) .nil)
    (.cons (.bind nf (.nSig (.tSchema .nil (.tOpt .tNone)) .property)) .nil)))).length = 40 := by
  decide +kernel

end Verif.Hash
