import Verif.Cps.Lemmas.Static

/-!
The parameters of continuations.
-/
namespace Verif.Cps
variable {V W : Type}

theorem nodup_nub : ∀ l : List Nat, (nub l).Nodup
  | [] => List.nodup_nil
  | x :: l => by
    rw [nub, List.nodup_cons]
    exact ⟨by simp, (nodup_nub l).filter _⟩

theorem nodup_extraBinds {Vol Γ us : List Nat} : (extraBinds Vol Γ us).Nodup := (nodup_nub us).filter _

/-- All lists are without duplicates. -/
def AllNodup (l : List (List Nat)) : Prop := ∀ ps ∈ l, ps.Nodup

theorem AllNodup.cons {ps : List Nat} {l l' : List (List Nat)} (h : ps.Nodup) (h1 : AllNodup l) (h2 : AllNodup l') :
    AllNodup (ps :: (l ++ l')) := by
  intro qs hq
  rcases List.mem_cons.1 hq with rfl | hq
  · exact h
  · rcases List.mem_append.1 hq with hq | hq
    · exact h1 qs hq
    · exact h2 qs hq

theorem AllNodup.nil : AllNodup [] := fun _ h => by simp at h

theorem AllNodup.append {l l' : List (List Nat)} (h1 : AllNodup l) (h2 : AllNodup l') : AllNodup (l ++ l') := by
  intro qs hq
  rcases List.mem_append.1 hq with hq | hq
  · exact h1 qs hq
  · exact h2 qs hq

mutual
theorem nodup_cps {Vol : List Nat} : ∀ (ss : Suite V W) (Γ : List Nat) (F : List Frame) (tl : Option (Exp V W)) (pd : Bool)
    (n : Nat), onceS Vol ss = true → AllNodup (paramLists (cps Vol Γ F tl pd ss n).1)
  | .nil, Γ, F, tl, pd, n, _ => by
    rw [cps]
    cases tl <;> exact AllNodup.nil
  | .cons s ss, Γ, F, tl, pd, n, h => by
    rw [onceS, Bool.and_eq_true, Bool.and_eq_true] at h
    have ih := fun Γ F tl pd n => nodup_cps (Vol := Vol) ss Γ F tl pd n h.1.2
    have i1 := fun Γ F tl pd n => nodup_cpsOne (Vol := Vol) s Γ F tl pd n h.1.1
    by_cases hn : needCont false s = true
    · by_cases hc : isCompound s = true
      · rw [cps_comp hn hc]
        split
        · exact i1 _ _ _ _ _
        · split
          · exact i1 _ _ _ _ _
          · refine AllNodup.cons ?_ (ih _ _ _ _ _) (i1 _ _ _ _ _)
            have h3 := h.2
            rw [hn, hc] at h3
            simp only [Bool.and_self, Bool.not_true, Bool.false_or, Bool.and_eq_true, decide_eq_true_eq,
              List.all_eq_true, Bool.or_eq_true, Bool.not_eq_true', decide_eq_false_iff_not] at h3
            rw [seqNts]
            refine List.nodup_append.2 ⟨h3.1.filter _, nodup_extraBinds, ?_⟩
            rintro x hx _ hx' rfl
            rw [List.mem_filter] at hx
            rw [mem_extraBinds] at hx'
            rcases h3.2 x hx.1 with h' | h'
            · exact h' hx'.1
            · exact hx'.2.1 h'
      · cases s with
        | call c =>
          rw [cps]
          dsimp only
          split
          · exact AllNodup.nil
          · exact AllNodup.cons nodup_extraBinds (ih _ _ _ _ _) AllNodup.nil
        | declCall x c =>
          rw [cps]
          dsimp only
          split
          · exact AllNodup.nil
          · refine AllNodup.cons nodup_extraBinds ?_ AllNodup.nil
            rw [paramLists]
            exact ih _ _ _ _ _
        | updCall x c =>
          rw [cps]
          refine AllNodup.cons nodup_extraBinds ?_ AllNodup.nil
          rw [paramLists]
          exact ih _ _ _ _ _
        | mutCall f xs c =>
          rw [cps]
          refine AllNodup.cons nodup_extraBinds ?_ AllNodup.nil
          rw [paramLists]
          exact ih _ _ _ _ _
        | ret e => rw [cps]; exact AllNodup.nil
        | retCall c => rw [cps]; exact AllNodup.nil
        | brk => rw [cps]; exact AllNodup.nil
        | cnt => rw [cps]; exact AllNodup.nil
        | ite e a b => exact absurd rfl hc
        | whl e a b => exact absurd rfl hc
        | tryS f a b => exact absurd rfl hc
        | _ => simp [needCont] at hn
    · rw [cps_simple (by simpa using hn)]
      dsimp only
      rw [paramLists]
      exact ih _ _ _ _ _
theorem nodup_cpsOne {Vol : List Nat} : ∀ (s : Stmt V W) (Γ : List Nat) (F : List Frame) (tl : Option (Exp V W)) (pd : Bool)
    (n : Nat), once Vol s = true → AllNodup (paramLists (cpsOne Vol Γ F tl pd s n).1)
  | .ite e a b, Γ, F, tl, pd, n, h => by
    rw [once, Bool.and_eq_true] at h
    rw [cpsOne]
    exact AllNodup.append (nodup_cps a _ _ _ _ _ h.1) (nodup_cps b _ _ _ _ _ h.2)
  | .whl e a b, Γ, F, tl, pd, n, h => by
    rw [once, Bool.and_eq_true] at h
    rw [cpsOne]
    refine AllNodup.cons nodup_extraBinds ?_ AllNodup.nil
    rw [paramLists]
    exact AllNodup.append (nodup_cps a _ _ _ _ _ h.1) (nodup_cps b _ _ _ _ _ h.2)
  | .tryS f a b, Γ, F, tl, pd, n, h => by
    rw [once, Bool.and_eq_true] at h
    rw [cpsOne]
    refine AllNodup.cons nodup_extraBinds ?_ AllNodup.nil
    rw [paramLists]
    exact AllNodup.append (nodup_cps a _ _ _ _ _ h.1) (nodup_cps b _ _ _ _ _ h.2)
  | .exp _, _, _, _, _, _, _ => by simp [cpsOne, paramLists, AllNodup]
  | .decl _ _, _, _, _, _, _, _ => by simp [cpsOne, paramLists, AllNodup]
  | .upd _ _, _, _, _, _, _, _ => by simp [cpsOne, paramLists, AllNodup]
  | .call _, _, _, _, _, _, _ => by simp [cpsOne, paramLists, AllNodup]
  | .declCall _ _, _, _, _, _, _, _ => by simp [cpsOne, paramLists, AllNodup]
  | .updCall _ _, _, _, _, _, _, _ => by simp [cpsOne, paramLists, AllNodup]
  | .mutCall _ _ _, _, _, _, _, _, _ => by simp [cpsOne, paramLists, AllNodup]
  | .ret _, _, _, _, _, _, _ => by simp [cpsOne, paramLists, AllNodup]
  | .retCall _, _, _, _, _, _, _ => by simp [cpsOne, paramLists, AllNodup]
  | .brk, _, _, _, _, _, _ => by simp [cpsOne, paramLists, AllNodup]
  | .cnt, _, _, _, _, _, _ => by simp [cpsOne, paramLists, AllNodup]
  | .drop, _, _, _, _, _, _ => by simp [cpsOne, paramLists, AllNodup]
  | .pop _, _, _, _, _, _, _ => by simp [cpsOne, paramLists, AllNodup]
  | .raise _, _, _, _, _, _, _ => by simp [cpsOne, paramLists, AllNodup]
end

theorem paramLists_volInits (c : Code V W) : ∀ xs : List Nat, paramLists (volInits xs c) = paramLists c
  | [] => rfl
  | x :: xs => by rw [volInits, paramLists, paramLists_volInits c xs]

end Verif.Cps
