import Verif.Hash.Spec
import Verif.Hash.InjTy

namespace Verif.Hash

/-- Neither a list nor an optional part. -/
def SS.Base : SS → Prop
  | .list _ => False
  | .opt _ => False
  | _ => True

/-- Not a list. -/
def SS.One : SS → Prop
  | .list _ => False
  | .opt s => s.Base
  | _ => True

theorem SS.Base.one {s : SS} (h : s.Base) : s.One := by
  cases s <;> first | trivial | exact h

theorem syn_head {s : SS} (x : Syn s) (hs : s.One) : ∃ b bs, enc x.feed = b :: bs ∧ b ≠ 5 := by
  cases x <;> first
    | exact False.elim hs
    | (simp only [Syn.feed, List.cons_append, List.nil_append, List.append_assoc, enc_w8]
       exact ⟨_, _, rfl, by decide⟩)

/-- The first byte of a feed that begins with a tag. -/
def hd : List Op → Nat
  | .w8 b :: _ => b.val
  | _ => 0

theorem hd_eq {x y : List Op} {r t : List Nat} (h : enc x ++ r = enc y ++ t)
    (hx : ∃ b os, x = .w8 b :: os) (hy : ∃ b os, y = .w8 b :: os) : hd x = hd y := by
  obtain ⟨b, os, rfl⟩ := hx
  obtain ⟨c, os', rfl⟩ := hy
  simp only [enc_w8, List.cons_append, List.cons.injEq] at h
  exact h.1

theorem syn_tagged {s : SS} (x : Syn s) (hs : s.One) : ∃ b os, x.feed = .w8 b :: os := by
  cases x <;> first
    | exact False.elim hs
    | (simp only [Syn.feed, List.cons_append, List.nil_append, List.append_assoc]
       exact ⟨_, _, rfl⟩)

theorem ann_reads (x : Option (Ty .type)) : Reads feedAnn x := by
  intro y r t h
  cases x <;> cases y <;> encs [feedAnn] at h <;> try (simp at h; done)
  · exact ⟨rfl, const_step h⟩
  · obtain ⟨rfl, rfl⟩ := ty_reads _ (by trivial) _ _ _ (const_step h)
    exact ⟨rfl, rfl⟩

theorem doc_reads (x : Option Str) : Reads feedDoc x := by
  intro y r t h
  cases x <;> cases y <;> encs [feedDoc] at h <;> try (simp at h; done)
  · exact ⟨rfl, const_step h⟩
  · obtain ⟨rfl, rfl⟩ := str_inj _ _ _ _ (const_step h)
    exact ⟨rfl, rfl⟩

theorem str_head (s : Str) (hs : s.head? ≠ some 5) (r : List Nat) :
    ∃ b bs, s.flatMap chrBytes ++ 0 :: 1 :: r = b :: bs ∧ b ≠ 5 := by
  cases s with
  | nil => exact ⟨_, _, rfl, by decide⟩
  | cons c cs =>
    by_cases hc : c.val = 0
    · simp only [List.flatMap_cons, chrBytes, hc, if_true, List.cons_append]
      exact ⟨_, _, rfl, by decide⟩
    · obtain ⟨b, bs, e, hb⟩ := utf8_head c.val
      simp only [List.flatMap_cons, chrBytes, hc, if_false, e, List.cons_append]
      refine ⟨_, _, rfl, ?_⟩
      rintro rfl
      have h5 : c.val = 5 := by omega
      apply hs
      have : c = (5 : Chr) := Fin.ext h5
      simp [this]

theorem strs_read_aux : ∀ (xs ys : List Str) (r t : List Nat), NoFive xs → NoFive ys →
    enc (xs.map Op.str) ++ 5 :: r = enc (ys.map Op.str) ++ 5 :: t → xs = ys ∧ r = t
  | [], [], r, t, _, _, h => ⟨rfl, by simpa [enc_nil] using h⟩
  | [], y :: ys, r, t, _, hy, h => by
    simp only [List.map_cons, List.map_nil, enc_nil, enc_str, List.append_assoc,
      List.nil_append, List.cons_append] at h
    obtain ⟨b, bs, e, hb⟩ := str_head y (hy y (by simp)) (enc (ys.map Op.str) ++ 5 :: t)
    rw [e] at h
    simp only [List.cons.injEq] at h
    exact absurd h.1.symm hb
  | x :: xs, [], r, t, hx, _, h => by
    simp only [List.map_cons, List.map_nil, enc_nil, enc_str, List.append_assoc,
      List.nil_append, List.cons_append] at h
    obtain ⟨b, bs, e, hb⟩ := str_head x (hx x (by simp)) (enc (xs.map Op.str) ++ 5 :: r)
    rw [e] at h
    simp only [List.cons.injEq] at h
    exact absurd h.1 hb
  | x :: xs, y :: ys, r, t, hx, hy, h => by
    simp only [List.map_cons, enc_str, List.append_assoc, List.cons_append] at h
    obtain ⟨rfl, h1⟩ := str_inj _ _ _ _ h
    obtain ⟨rfl, rfl⟩ := strs_read_aux xs ys r t (fun s hs => hx s (by simp [hs]))
      (fun s hs => hy s (by simp [hs])) h1
    exact ⟨rfl, rfl⟩

theorem strs_read (xs ys : List Str) (r t : List Nat) (hx : NoFive xs) (hy : NoFive ys)
    (h : enc (feedStrs xs) ++ r = enc (feedStrs ys) ++ t) : xs = ys ∧ r = t := by
  encs [feedStrs] at h
  exact strs_read_aux xs ys r t hx hy (const_step h)

seal enc Syn.feed Ty.feed Name.feed QName.feed Except.feed feedNames feedStrs feedAnn feedDoc

set_option maxHeartbeats 4000000 in
theorem syn_reads_aux (n : Nat) :
    (∀ (s : SS) (x y : Syn s) (r t : List Nat), sizeOf x ≤ n → s.One → x.Plain → y.Plain →
      enc x.feed ++ r = enc y.feed ++ t → x = y ∧ r = t) ∧
    (∀ (s : SS) (x y : Syn (.list s)) (r t : List Nat), sizeOf x ≤ n → s.One →
      x.Plain → y.Plain → enc x.feed ++ 5 :: r = enc y.feed ++ 5 :: t → x = y ∧ r = t) := by
  induction n with
  | zero =>
    refine ⟨fun s x y r t h => ?_, fun s x y r t h => ?_⟩ <;> cases x <;> simp at h
  | succ n ih =>
    obtain ⟨ihb, ihl⟩ := ih
    refine ⟨fun s x y r t hn hs hx hy h => ?_, fun s x y r t hn hs hx hy h => ?_⟩
    · have ht := hd_eq h (syn_tagged x hs) (syn_tagged y hs)
      cases x <;> cases y <;> first
        | exact False.elim hs
        | with_unfolding_all exact absurd ht (Nat.ne_of_beq_eq_false rfl)
        | (clear ht
           encs [Syn.feed] at h
           simp only [Syn.Plain] at hx hy
           repeat' first
                 | exact ⟨rfl, h⟩
                 | (have h' := strs_read _ _ _ _ hx hy (const_step h); clear h
                    obtain ⟨rfl, h⟩ := h')
                 | replace h := const_step h
                 | (have h' := ihl _ _ _ _ _ (by simp at hn ⊢; omega) (by trivial) (by simp [hx])
                      (by simp [hy]) h
                    clear h; obtain ⟨rfl, h⟩ := h')
                 | (have h' := ihb _ _ _ _ _ (by simp at hn ⊢; omega)
                      (by first | trivial | exact SS.Base.one hs) (by simp [hx])
                      (by simp [hy]) h
                    clear h; obtain ⟨rfl, h⟩ := h')
                 | (have h' := tys_read _ _ _ _ (by trivial) h; clear h; obtain ⟨rfl, h⟩ := h')
                 | (have h' := ty_reads _ (by trivial) _ _ _ h; clear h; obtain ⟨rfl, h⟩ := h')
                 | (have h' := name_reads _ _ _ _ h; clear h; obtain ⟨rfl, h⟩ := h')
                 | (have h' := qname_reads _ _ _ _ h; clear h; obtain ⟨rfl, h⟩ := h')
                 | (have h' := names_read _ _ _ _ h; clear h; obtain ⟨rfl, h⟩ := h')
                 | (have h' := except_reads _ _ _ _ h; clear h; obtain ⟨rfl, h⟩ := h')
                 | (have h' := ann_reads _ _ _ _ h; clear h; obtain ⟨rfl, h⟩ := h')
                 | (have h' := doc_reads _ _ _ _ h; clear h; obtain ⟨rfl, h⟩ := h')
                 | (have h' := int_inj _ _ _ _ h; clear h; obtain ⟨rfl, h⟩ := h')
                 | (have h' := word64_inj _ _ _ _ h; clear h; obtain ⟨rfl, h⟩ := h')
                 | (have h' := str_inj _ _ _ _ h; clear h; obtain ⟨rfl, h⟩ := h')
                 | (have h' := tag_step h; clear h; obtain ⟨e, h⟩ := h'
                    first
                      | obtain rfl := deco_tag_inj _ _ e
                      | obtain rfl := aug_tag_inj _ _ e
                      | obtain rfl := binary_tag_inj _ _ e
                      | obtain rfl := unary_tag_inj _ _ e
                      | obtain rfl := comparison_tag_inj _ _ e
                      | obtain rfl := bool_tag_inj _ _ e))
    · cases x <;> cases y
      · encs [Syn.feed] at h
        exact ⟨rfl, const_step h⟩
      · rename_i y ys
        obtain ⟨b, bs, e, hb⟩ := syn_head y hs
        encs [Syn.feed, e] at h
        simp only [List.cons.injEq] at h
        exact absurd h.1.symm hb
      · rename_i x xs
        obtain ⟨b, bs, e, hb⟩ := syn_head x hs
        encs [Syn.feed, e] at h
        simp only [List.cons.injEq] at h
        exact absurd h.1 hb
      · encs [Syn.feed] at h
        simp only [Syn.Plain] at hx hy
        have h' := ihb _ _ _ _ _ (by simp at hn ⊢; omega) hs hx.1 hy.1 h
        clear h; obtain ⟨rfl, h⟩ := h'
        have h' := ihl _ _ _ _ _ (by simp at hn ⊢; omega) hs hx.2 hy.2 h
        clear h; obtain ⟨rfl, h⟩ := h'
        exact ⟨rfl, h⟩

end Verif.Hash
