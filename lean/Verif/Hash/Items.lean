import Verif.Hash.InjSyn

/-!
Reading back whole statements, declarations and lists of top-level items.
-/

namespace Verif.Hash

theorem syn_reads {s : SS} (x y : Syn s) (r t : List Nat) (hs : s.One) (hx : x.Plain)
    (hy : y.Plain) (h : enc x.feed ++ r = enc y.feed ++ t) : x = y ∧ r = t :=
  (syn_reads_aux (sizeOf x)).1 s x y r t (Nat.le_refl _) hs hx hy h

theorem item_head (i : Item) : ∃ b bs, enc i.feed = b :: bs ∧ b ≠ 5 := by
  cases i with
  | decl d => exact ⟨0, enc d.feed, by simp only [Item.feed, enc_append, enc_w8, enc_nil,
      List.cons_append, List.nil_append], by decide⟩
  | stmt d => exact ⟨1, enc d.feed, by simp only [Item.feed, enc_append, enc_w8, enc_nil,
      List.cons_append, List.nil_append], by decide⟩

theorem item_reads (x y : Item) (r t : List Nat) (hx : x.Plain) (hy : y.Plain)
    (h : enc x.feed ++ r = enc y.feed ++ t) : x = y ∧ r = t := by
  cases x <;> cases y <;>
    simp only [Item.feed, enc_append, enc_w8, enc_nil, List.cons_append, List.nil_append,
      List.cons.injEq] at h
  · obtain ⟨rfl, e⟩ := syn_reads _ _ _ _ (by trivial) hx hy h.2
    exact ⟨rfl, e⟩
  · exact absurd h.1 (by decide)
  · exact absurd h.1 (by decide)
  · obtain ⟨rfl, e⟩ := syn_reads _ _ _ _ (by trivial) hx hy h.2
    exact ⟨rfl, e⟩

theorem items_read : ∀ (xs ys : List Item) (r t : List Nat), (∀ x ∈ xs, x.Plain) →
    (∀ y ∈ ys, y.Plain) →
    enc (feedItems xs) ++ 5 :: r = enc (feedItems ys) ++ 5 :: t → xs = ys ∧ r = t
  | [], [], r, t, _, _, h => by
    simp only [feedItems, enc_nil, List.nil_append, List.cons.injEq] at h
    exact ⟨rfl, h.2⟩
  | [], y :: ys, r, t, _, _, h => by
    obtain ⟨b, bs, e, hb⟩ := item_head y
    simp only [feedItems, enc_append, e, enc_nil, List.nil_append, List.cons_append,
      List.cons.injEq] at h
    exact absurd h.1.symm hb
  | x :: xs, [], r, t, _, _, h => by
    obtain ⟨b, bs, e, hb⟩ := item_head x
    simp only [feedItems, enc_append, e, enc_nil, List.nil_append, List.cons_append,
      List.cons.injEq] at h
    exact absurd h.1 hb
  | x :: xs, y :: ys, r, t, hx, hy, h => by
    simp only [feedItems, enc_append, List.append_assoc] at h
    obtain ⟨rfl, h'⟩ := item_reads x y _ _ (hx x (by simp)) (hy y (by simp)) h
    obtain ⟨rfl, e⟩ := items_read xs ys r t (fun z hz => hx z (by simp [hz]))
      (fun z hz => hy z (by simp [hz])) h'
    exact ⟨rfl, e⟩

theorem fragments_read (xs ys : List Item) (hx : ∀ x ∈ xs, x.Plain) (hy : ∀ y ∈ ys, y.Plain)
    (h : enc (feedFragments xs) = enc (feedFragments ys)) : xs = ys := by
  simp only [feedFragments, enc_append, enc_w8, enc_nil, List.cons_append, List.nil_append,
    List.cons.injEq] at h
  exact (items_read xs ys [] [] hx hy h.2).1

end Verif.Hash
