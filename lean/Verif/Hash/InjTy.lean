import Verif.Hash.Inj

namespace Verif.Hash

set_option maxHeartbeats 1000000 in
theorem ty_reads_aux (n : Nat) :
    (∀ (s : TS) (x : Ty s), sizeOf x ≤ n → s.Base → Reads Ty.feed x) ∧
    (∀ (s : TS) (x y : Ty (.list s)) (r t : List Nat), sizeOf x ≤ n → s.Base →
      enc x.feed ++ 5 :: r = enc y.feed ++ 5 :: t → x = y ∧ r = t) := by
  induction n with
  | zero =>
    refine ⟨fun s x h => ?_, fun s x y r t h => ?_⟩ <;> cases x <;> simp at h
  | succ n ih =>
    obtain ⟨ihb, ihl⟩ := ih
    refine ⟨fun s x hn hs y r t h => ?_, fun s x y r t hn hs h => ?_⟩
    · cases x <;> cases y <;> first
        | exact False.elim hs
        | (encs [Ty.feed] at h
           first
             | (exfalso; simp at h; done)
             | (repeat' first
                 | exact ⟨rfl, h⟩
                 | replace h := const_step h
                 | (have h' := ihl _ _ _ _ _ (by simp at hn ⊢; omega) (by trivial) h; clear h; obtain ⟨rfl, h⟩ := h')
                 | (have h' := ihb _ _ (by simp at hn ⊢; omega) (by trivial) _ _ _ h; clear h; obtain ⟨rfl, h⟩ := h')
                 | (have h' := name_reads _ _ _ _ h; clear h; obtain ⟨rfl, h⟩ := h')
                 | (have h' := qname_reads _ _ _ _ h; clear h; obtain ⟨rfl, h⟩ := h')
                 | (have h' := names_read _ _ _ _ h; clear h; obtain ⟨rfl, h⟩ := h')
                 | (have h' := steps_read _ _ _ _ h; clear h; obtain ⟨rfl, h⟩ := h')
                 | (have h' := int_inj _ _ _ _ h; clear h; obtain ⟨rfl, h⟩ := h')
                 | (have h' := tag_step h; clear h; obtain ⟨e, h⟩ := h'
                    first
                      | obtain rfl := deco_tag_inj _ _ e
                      | obtain rfl := fx_tag_inj _ _ e)))
    · cases x <;> cases y
      · encs [Ty.feed] at h
        exact ⟨rfl, const_step h⟩
      · rename_i y ys
        obtain ⟨b, bs, e, hb⟩ := ty_head y hs
        encs [Ty.feed, e] at h
        simp only [List.cons.injEq] at h
        exact absurd h.1.symm hb
      · rename_i x xs
        obtain ⟨b, bs, e, hb⟩ := ty_head x hs
        encs [Ty.feed, e] at h
        simp only [List.cons.injEq] at h
        exact absurd h.1 hb
      · encs [Ty.feed] at h
        have h' := ihb _ _ (by simp at hn ⊢; omega) hs _ _ _ h; clear h; obtain ⟨rfl, h⟩ := h'
        have h' := ihl _ _ _ _ _ (by simp at hn ⊢; omega) hs h; clear h; obtain ⟨rfl, h⟩ := h'
        exact ⟨rfl, h⟩

theorem ty_reads {s : TS} (x : Ty s) (hs : s.Base) : Reads Ty.feed x :=
  (ty_reads_aux (sizeOf x)).1 s x (Nat.le_refl _) hs

theorem tys_read {s : TS} (x y : Ty (.list s)) (r t : List Nat) (hs : s.Base)
    (h : enc x.feed ++ 5 :: r = enc y.feed ++ 5 :: t) : x = y ∧ r = t :=
  (ty_reads_aux (sizeOf x)).2 s x y r t (Nat.le_refl _) hs h

end Verif.Hash
