import Verif.Cps.Spec

/-!
Facts about the static functions of the model and the specification.
-/
namespace Verif.Cps
variable {V W : Type}

theorem sub_iff {xs ys : List Nat} : sub xs ys = true ↔ ∀ x ∈ xs, x ∈ ys := by
  simp [sub]

theorem mem_nub {x : Nat} {l : List Nat} : x ∈ nub l ↔ x ∈ l := by
  induction l with
  | nil => simp [nub]
  | cons y ys ih =>
    simp only [nub, List.mem_cons, List.mem_filter, ih, decide_eq_true_eq]
    by_cases h : x = y <;> simp [h]

theorem mem_extraBinds {x : Nat} {Vol Γ us : List Nat} :
    x ∈ extraBinds Vol Γ us ↔ x ∈ us ∧ x ∉ Vol ∧ x ∈ Γ := by
  simp [extraBinds, mem_nub]

theorem mem_seqNts {x : Nat} {Vol Γ : List Nat} {tl : Option (Exp V W)} {s : Stmt V W} {ss : Suite V W} :
    x ∈ seqNts Vol Γ tl s ss ↔ (x ∈ envOf s ∧ (x ∈ readsS ss ∨ x ∈ tlReads tl)) ∨
      (x ∈ updatesS ss ∧ x ∉ Vol ∧ (x ∈ Γ ∨ x ∈ envOf s)) := by
  simp [seqNts, mem_extraBinds]

theorem mem_sureBoth {x : Nat} {fa fb : Bool} {sa sb : List Nat} (h : x ∈ sureBoth fa fb sa sb) :
    (fa = true → x ∈ sa) ∧ (fb = true → x ∈ sb) ∧ (fa = true ∨ fb = true) := by
  cases fa <;> cases fb <;> simp_all [sureBoth]

mutual
/-- All variables a statement declares, in whatever branch. -/
def decls : Stmt V W → List Nat
  | .decl x _ => [x]
  | .declCall x _ => [x]
  | .pop x => [x]
  | .ite _ a b => declsS a ++ declsS b
  | .whl _ b els => declsS b ++ declsS els
  | .tryS _ b h => declsS b ++ declsS h
  | _ => []
def declsS : Suite V W → List Nat
  | .nil => []
  | .cons s ss => decls s ++ declsS ss
end

mutual
theorem sure_sub : ∀ (s : Stmt V W) (x : Nat), x ∈ sure s → x ∈ envOf s ∧ x ∈ bound s ∧ x ∈ decls s
  | .decl y e, x, h => by simpa [sure, envOf, bound, decls] using h
  | .declCall y e, x, h => by simpa [sure, envOf, bound, decls] using h
  | .pop y, x, h => by simpa [sure, envOf, bound, decls] using h
  | .ite e a b, x, h => by
    rw [sure] at h
    have h' := mem_sureBoth h
    have ha := sureS_sub a x
    have hb := sureS_sub b x
    rw [envOf, bound, decls]
    cases fa : falls a <;> cases fb : falls b <;> simp_all [commonEnv]
  | .tryS true a b, x, h => by
    rw [sure] at h
    have h' := mem_sureBoth h
    have ha := sureS_sub a x
    have hb := sureS_sub b x
    rw [envOf, bound, decls]
    cases fa : falls a <;> cases fb : falls b <;> simp_all
  | .tryS false a b, x, h => by
    rw [sure] at h
    have h' := mem_sureBoth h
    have ha := sureS_sub a x
    have hb := sureS_sub b x
    rw [envOf, bound, decls]
    cases fa : falls a <;> cases fb : falls b <;> simp_all [commonEnv]
  | .exp _, x, h => by simp [sure] at h
  | .upd _ _, x, h => by simp [sure] at h
  | .call _, x, h => by simp [sure] at h
  | .updCall _ _, x, h => by simp [sure] at h
  | .mutCall _ _ _, x, h => by simp [sure] at h
  | .ret _, x, h => by simp [sure] at h
  | .retCall _, x, h => by simp [sure] at h
  | .brk, x, h => by simp [sure] at h
  | .cnt, x, h => by simp [sure] at h
  | .whl _ _ _, x, h => by simp [sure] at h
  | .drop, x, h => by simp [sure] at h
  | .raise _, x, h => by simp [sure] at h
theorem sureS_sub : ∀ (ss : Suite V W) (x : Nat), x ∈ sureS ss → x ∈ envOfS ss ∧ x ∈ boundS ss ∧ x ∈ declsS ss
  | .nil, x, h => by simp [sureS] at h
  | .cons s ss, x, h => by
    rw [sureS] at h
    rw [envOfS, boundS, declsS]
    rcases List.mem_append.1 h with h | h
    · have := sure_sub s x h
      simp [this]
    · have := sureS_sub ss x h
      simp [this]
end

mutual
theorem wf_decls {Vol : List Nat} : ∀ (s : Stmt V W) (A L : List Nat), wf Vol A L s = true → ∀ x ∈ decls s, x ∉ L
  | .decl y e, A, L, h, x, hx => by simp [wf, decls] at *; subst hx; exact h.2
  | .declCall y e, A, L, h, x, hx => by simp [wf, decls] at *; subst hx; exact h.2
  | .pop y, A, L, h, x, hx => by simp [wf, decls] at *; subst hx; exact h
  | .ite e a b, A, L, h, x, hx => by
    simp only [wf, Bool.and_eq_true] at h
    rw [decls] at hx
    rcases List.mem_append.1 hx with hx | hx
    · exact wfS_decls a A L h.1.2 x hx
    · exact wfS_decls b A L h.2 x hx
  | .whl e a b, A, L, h, x, hx => by
    simp only [wf, Bool.and_eq_true] at h
    rw [decls] at hx
    rcases List.mem_append.1 hx with hx | hx
    · exact wfS_decls a [] L h.1.2 x hx
    · exact wfS_decls b [] L h.2 x hx
  | .tryS f a b, A, L, h, x, hx => by
    simp only [wf, Bool.and_eq_true] at h
    rw [decls] at hx
    rcases List.mem_append.1 hx with hx | hx
    · exact wfS_decls a A L h.1 x hx
    · exact wfS_decls b A L h.2 x hx
  | .exp _, _, _, _, x, h => by simp [decls] at h
  | .upd _ _, _, _, _, x, h => by simp [decls] at h
  | .call _, _, _, _, x, h => by simp [decls] at h
  | .updCall _ _, _, _, _, x, h => by simp [decls] at h
  | .mutCall _ _ _, _, _, _, x, h => by simp [decls] at h
  | .ret _, _, _, _, x, h => by simp [decls] at h
  | .retCall _, _, _, _, x, h => by simp [decls] at h
  | .brk, _, _, _, x, h => by simp [decls] at h
  | .cnt, _, _, _, x, h => by simp [decls] at h
  | .drop, _, _, _, x, h => by simp [decls] at h
  | .raise _, _, _, _, x, h => by simp [decls] at h
theorem wfS_decls {Vol : List Nat} : ∀ (ss : Suite V W) (A L : List Nat), wfS Vol A L ss = true → ∀ x ∈ declsS ss, x ∉ L
  | .nil, _, _, _, x, h => by simp [declsS] at h
  | .cons s ss, A, L, h, x, hx => by
    simp only [wfS, Bool.and_eq_true] at h
    rw [declsS] at hx
    rcases List.mem_append.1 hx with hx | hx
    · exact wf_decls s _ L h.1.1 x hx
    · have := wfS_decls ss A _ h.1.2 x hx
      simp at this
      exact this.1
end

/-! ### Flow -/

theorem mem_flowSeq_left {f : Flow} {f1 f2 : List Flow} (h : f ∈ f1) (hf : f ≠ .SEQ) : f ∈ flowSeq f1 f2 := by
  unfold flowSeq
  split
  · refine List.mem_append.2 (Or.inl ?_)
    rw [List.diff_cons, List.diff_nil]
    exact (List.mem_erase_of_ne hf).2 h
  · exact h

theorem mem_flowSeq_right {f : Flow} {f1 f2 : List Flow} (h1 : Flow.SEQ ∈ f1) (h : f ∈ f2) : f ∈ flowSeq f1 f2 := by
  unfold flowSeq
  rw [if_pos (by simpa using h1)]
  exact List.mem_append.2 (Or.inr h)

theorem seq_mem_brkseq {f : List Flow} (h : Flow.BRK ∈ f ∨ Flow.SEQ ∈ f) : Flow.SEQ ∈ brkseq f := by
  unfold brkseq
  rw [List.diff_cons, List.diff_cons, List.diff_nil]
  refine (List.mem_erase_of_ne (by decide)).2 ((List.mem_erase_of_ne (by decide)).2 ?_)
  split
  · simp
  · rename_i h'
    rcases h with h | h
    · exact absurd (by simpa using h) h'
    · exact h

mutual
theorem stops_flows : ∀ s : Stmt V W, stops s = true → Flow.SEQ ∈ flows s
  | .ite e a b, h => by
    simp only [stops, Bool.or_eq_true] at h
    rw [flows]
    rcases h with h | h
    · simp [stopsS_flows a h]
    · simp [stopsS_flows b h]
  | .whl e a b, h => by
    simp only [stops, Bool.or_eq_true] at h
    rw [flows]
    rcases h with h | h
    · exact List.mem_append.2 (Or.inl (seq_mem_brkseq (Or.inl (breaksS_flows a h))))
    · simp [stopsS_flows b h]
  | .tryS _ a b, h => by
    simp only [stops, Bool.or_eq_true] at h
    rw [flows]
    rcases h with h | h
    · simp [stopsS_flows a h]
    · simp [stopsS_flows b h]
  | .exp _, _ => by simp [flows]
  | .decl _ _, _ => by simp [flows]
  | .upd _ _, _ => by simp [flows]
  | .call _, _ => by simp [flows]
  | .declCall _ _, _ => by simp [flows]
  | .updCall _ _, _ => by simp [flows]
  | .mutCall _ _ _, _ => by simp [flows]
  | .drop, _ => by simp [flows]
  | .pop _, _ => by simp [flows]
  | .ret _, h => by simp [stops] at h
  | .retCall _, h => by simp [stops] at h
  | .brk, h => by simp [stops] at h
  | .cnt, h => by simp [stops] at h
  | .raise _, h => by simp [stops] at h
theorem stopsS_flows : ∀ ss : Suite V W, stopsS ss = true → Flow.SEQ ∈ flowsS ss
  | .nil, _ => by simp [flowsS]
  | .cons s ss, h => by
    simp only [stopsS, Bool.and_eq_true] at h
    rw [flowsS]
    exact mem_flowSeq_right (stops_flows s h.1) (stopsS_flows ss h.2)
theorem breaks_flows : ∀ s : Stmt V W, breaks s = true → Flow.BRK ∈ flows s
  | .ite e a b, h => by
    simp only [breaks, Bool.or_eq_true] at h
    rw [flows]
    rcases h with h | h
    · simp [breaksS_flows a h]
    · simp [breaksS_flows b h]
  | .whl e a b, h => by
    simp only [breaks] at h
    rw [flows]
    simp [breaksS_flows b h]
  | .tryS _ a b, h => by
    simp only [breaks, Bool.or_eq_true] at h
    rw [flows]
    rcases h with h | h
    · simp [breaksS_flows a h]
    · simp [breaksS_flows b h]
  | .brk, _ => by simp [flows]
  | .exp _, h => by simp [breaks] at h
  | .decl _ _, h => by simp [breaks] at h
  | .upd _ _, h => by simp [breaks] at h
  | .call _, h => by simp [breaks] at h
  | .declCall _ _, h => by simp [breaks] at h
  | .updCall _ _, h => by simp [breaks] at h
  | .mutCall _ _ _, h => by simp [breaks] at h
  | .drop, h => by simp [breaks] at h
  | .pop _, h => by simp [breaks] at h
  | .ret _, h => by simp [breaks] at h
  | .retCall _, h => by simp [breaks] at h
  | .cnt, h => by simp [breaks] at h
  | .raise _, h => by simp [breaks] at h
theorem breaksS_flows : ∀ ss : Suite V W, breaksS ss = true → Flow.BRK ∈ flowsS ss
  | .nil, h => by simp [breaksS] at h
  | .cons s ss, h => by
    simp only [breaksS, Bool.or_eq_true, Bool.and_eq_true] at h
    rw [flowsS]
    rcases h with h | h
    · exact mem_flowSeq_left (breaks_flows s h) (by decide)
    · exact mem_flowSeq_right (stops_flows s h.1) (breaksS_flows ss h.2)
end

theorem falls_of_stops {ss : Suite V W} (h : stopsS ss = true) : falls ss = true := by
  simpa [falls] using stopsS_flows ss h

/-- What a falling branch of an `if` or `try` has set. -/
theorem sure_branch {x : Nat} {a b : Suite V W} (h : x ∈ sureBoth (falls a) (falls b) (sureS a) (sureS b)) :
    (stopsS a = true → x ∈ sureS a) ∧ (stopsS b = true → x ∈ sureS b) :=
  ⟨fun ha => (mem_sureBoth h).1 (falls_of_stops ha), fun hb => (mem_sureBoth h).2.1 (falls_of_stops hb)⟩

/-! ### The generated code -/

theorem cps_simple {Vol Γ : List Nat} {F : List Frame} {tl : Option (Exp V W)} {pd : Bool} {s : Stmt V W}
    {ss : Suite V W} {n : Nat} (h : needCont false s = false) :
    cps Vol Γ F tl pd (.cons s ss) n =
      (.simp (conv Vol pd s) (cps Vol (Γ ++ envOf s) F tl pd ss n).1, (cps Vol (Γ ++ envOf s) F tl pd ss n).2) := by
  cases s <;> first | (simp [needCont] at h; done) | (simp [cps, h])

theorem cps_comp {Vol Γ : List Nat} {F : List Frame} {tl : Option (Exp V W)} {pd : Bool} {s : Stmt V W}
    {ss : Suite V W} {n : Nat} (h : needCont false s = true) (hc : isCompound s = true) :
    cps Vol Γ F tl pd (.cons s ss) n =
      if isLast ss tl then cpsOne Vol Γ F none pd s n
      else if isIf s && (headRaise ss tl).isSome then cpsOne Vol Γ F (headRaise ss tl) pd s n
      else
        (.kdef n (seqNts Vol Γ tl s ss) (cps Vol (Γ ++ envOf s) F tl pd ss (n + 1)).1
          (cpsOne Vol Γ (.seq n (seqNts Vol Γ tl s ss) :: F) none pd s (cps Vol (Γ ++ envOf s) F tl pd ss (n + 1)).2).1,
         (cpsOne Vol Γ (.seq n (seqNts Vol Γ tl s ss) :: F) none pd s (cps Vol (Γ ++ envOf s) F tl pd ss (n + 1)).2).2) := by
  cases s <;> first | (simp [isCompound] at hc; done) | (simp [cps, h])

mutual
theorem cps_le {Vol : List Nat} : ∀ (ss : Suite V W) (Γ : List Nat) (F : List Frame) (tl : Option (Exp V W)) (pd : Bool)
    (n : Nat), n ≤ (cps Vol Γ F tl pd ss n).2
  | .nil, Γ, F, tl, pd, n => by simp [cps]
  | .cons s ss, Γ, F, tl, pd, n => by
    have ih := fun Γ F tl pd n => cps_le (Vol := Vol) ss Γ F tl pd n
    have i1 := fun Γ F tl pd n => cpsOne_le (Vol := Vol) s Γ F tl pd n
    by_cases hn : needCont false s = true
    · by_cases hc : isCompound s = true
      · rw [cps_comp hn hc]
        split
        · exact i1 ..
        · split
          · exact i1 ..
          · have h1 := ih (Γ ++ envOf s) F tl pd (n + 1)
            have h2 := i1 Γ (.seq n (seqNts Vol Γ tl s ss) :: F) none pd (cps Vol (Γ ++ envOf s) F tl pd ss (n + 1)).2
            dsimp only
            omega
      · cases s <;> first
          | (simp [isCompound] at hc; done)
          | (simp [needCont] at hn; done)
          | (rw [cps]; done)
          | (rw [cps]; dsimp only; have := ih Γ F tl pd (n+1); omega)
          | (rw [cps]; dsimp only; split; exact Nat.le_refl _; have := ih Γ F tl pd (n+1); dsimp only; omega)
          | (rename_i x c; rw [cps]; dsimp only; split; exact Nat.le_refl _; have := ih (Γ ++ [x]) F tl pd (n+1); dsimp only; omega)
    · rw [cps_simple (by simpa using hn)]
      exact ih ..
theorem cpsOne_le {Vol : List Nat} : ∀ (s : Stmt V W) (Γ : List Nat) (F : List Frame) (tl : Option (Exp V W)) (pd : Bool)
    (n : Nat), n ≤ (cpsOne Vol Γ F tl pd s n).2
  | .ite e a b, Γ, F, tl, pd, n => by
    rw [cpsOne]
    have h1 := cps_le (Vol := Vol) a Γ F tl pd n
    have h2 := cps_le (Vol := Vol) b Γ F tl pd (cps Vol Γ F tl pd a n).2
    dsimp only
    omega
  | .whl e a b, Γ, F, tl, pd, n => by
    rw [cpsOne]
    have h1 := cps_le (Vol := Vol) a Γ (.loop n (extraBinds Vol Γ (updatesS a ++ updatesS b)) :: F) none pd (n + 1)
    have h2 := cps_le (Vol := Vol) b Γ F none pd
      (cps Vol Γ (.loop n (extraBinds Vol Γ (updatesS a ++ updatesS b)) :: F) none pd a (n + 1)).2
    dsimp only
    omega
  | .tryS _ a b, Γ, F, tl, pd, n => by
    rw [cpsOne]
    have h1 := cps_le (Vol := Vol) a Γ F tl true (n + 1)
    have h2 := cps_le (Vol := Vol) b Γ F tl true (cps Vol Γ F tl true a (n + 1)).2
    dsimp only
    omega
  | .exp _, _, _, _, _, n => by simp [cpsOne]
  | .decl _ _, _, _, _, _, n => by simp [cpsOne]
  | .upd _ _, _, _, _, _, n => by simp [cpsOne]
  | .call _, _, _, _, _, n => by simp [cpsOne]
  | .declCall _ _, _, _, _, _, n => by simp [cpsOne]
  | .updCall _ _, _, _, _, _, n => by simp [cpsOne]
  | .mutCall _ _ _, _, _, _, _, n => by simp [cpsOne]
  | .drop, _, _, _, _, n => by simp [cpsOne]
  | .pop _, _, _, _, _, n => by simp [cpsOne]
  | .ret _, _, _, _, _, n => by simp [cpsOne]
  | .retCall _, _, _, _, _, n => by simp [cpsOne]
  | .brk, _, _, _, _, n => by simp [cpsOne]
  | .cnt, _, _, _, _, n => by simp [cpsOne]
  | .raise _, _, _, _, _, n => by simp [cpsOne]
end

mutual
theorem assigned_conv {Vol : List Nat} : ∀ (s : Stmt V W) (pd : Bool) (x : Nat), x ∈ assignedD (conv Vol pd s) →
    x ∈ decls s ∨ (x ∈ updates s ∧ x ∉ Vol)
  | .ite e a b, pd, x, h => by
    rw [conv, assignedD] at h
    rw [decls, updates]
    rcases List.mem_append.1 h with h | h
    · rcases assigned_convS a pd x h with h | h <;> simp [h]
    · rcases assigned_convS b pd x h with h | h <;> simp [h]
  | .whl e a b, pd, x, h => by
    rw [conv, assignedD] at h
    rw [decls, updates]
    rcases List.mem_append.1 h with h | h
    · rcases assigned_convS a pd x h with h | h <;> simp [h]
    · rcases assigned_convS b pd x h with h | h <;> simp [h]
  | .tryS _ a b, pd, x, h => by
    rw [conv, assignedD] at h
    rw [decls, updates]
    rcases List.mem_append.1 h with h | h
    · rcases assigned_convS a false x h with h | h <;> simp [h]
    · rcases assigned_convS b false x h with h | h <;> simp [h]
  | .decl y e, pd, x, h => by simpa [conv, assignedD, decls, updates] using h
  | .upd y e, pd, x, h => by
    rw [conv] at h
    by_cases hv : y ∈ Vol
    · rw [assignedD] at h
      simp [hv] at h
    · rw [assignedD] at h
      simp [hv] at h
      subst h
      simp [updates, hv]
  | .pop y, pd, x, h => by
    cases pd <;> simpa [conv, assignedD, decls, updates] using h
  | .drop, pd, x, h => by cases pd <;> simp [conv, assignedD] at h
  | .exp _, _, x, h => by simp [conv, assignedD] at h
  | .call _, _, x, h => by simp [conv, assignedD] at h
  | .declCall _ _, _, x, h => by simp [conv, assignedD] at h
  | .updCall _ _, _, x, h => by simp [conv, assignedD] at h
  | .mutCall _ _ _, _, x, h => by simp [conv, assignedD] at h
  | .ret _, _, x, h => by simp [conv, assignedD] at h
  | .retCall _, _, x, h => by simp [conv, assignedD] at h
  | .brk, _, x, h => by simp [conv, assignedD] at h
  | .cnt, _, x, h => by simp [conv, assignedD] at h
  | .raise _, _, x, h => by simp [conv, assignedD] at h
theorem assigned_convS {Vol : List Nat} : ∀ (ss : Suite V W) (pd : Bool) (x : Nat), x ∈ assignedDS (convS Vol pd ss) →
    x ∈ declsS ss ∨ (x ∈ updatesS ss ∧ x ∉ Vol)
  | .nil, pd, x, h => by simp [convS, assignedDS] at h
  | .cons s ss, pd, x, h => by
    rw [convS, assignedDS] at h
    rw [declsS, updatesS]
    rcases List.mem_append.1 h with h | h
    · rcases assigned_conv s pd x h with h | h <;> simp [h]
    · rcases assigned_convS ss pd x h with h | h <;> simp [h]
end

mutual
theorem assigned_cps {Vol : List Nat} : ∀ (ss : Suite V W) (Γ : List Nat) (F : List Frame) (tl : Option (Exp V W))
    (pd : Bool) (n : Nat) (x : Nat), x ∈ assignedC (cps Vol Γ F tl pd ss n).1 →
      x ∈ declsS ss ∨ (x ∈ updatesS ss ∧ x ∉ Vol)
  | .nil, Γ, F, tl, pd, n, x, h => by
    rw [cps] at h
    cases tl <;> simp [endCode, assignedC, assignedD] at h
  | .cons s ss, Γ, F, tl, pd, n, x, h => by
    have ih := fun Γ F tl pd n => assigned_cps (Vol := Vol) ss Γ F tl pd n x
    have i1 := fun Γ F tl pd n => assigned_cpsOne (Vol := Vol) s Γ F tl pd n x
    rw [declsS, updatesS]
    by_cases hn : needCont false s = true
    · by_cases hc : isCompound s = true
      · rw [cps_comp hn hc] at h
        have : ∀ Γ F tl pd n, x ∈ assignedC (cpsOne Vol Γ F tl pd s n).1 →
            x ∈ decls s ++ declsS ss ∨ x ∈ updates s ++ updatesS ss ∧ x ∉ Vol := by
          intro Γ F tl pd n h
          rcases i1 Γ F tl pd n h with h | h <;> simp [h]
        split at h
        · exact this _ _ _ _ _ h
        · split at h
          · exact this _ _ _ _ _ h
          · exact this _ _ _ _ _ h
      · exfalso
        cases s <;> first
          | (simp [isCompound] at hc; done)
          | (simp [needCont] at hn; done)
          | (simp [cps, assignedC] at h; done)
          | (rw [cps] at h; dsimp only at h; split at h <;> simp [assignedC] at h)
    · rw [cps_simple (by simpa using hn)] at h
      rw [assignedC] at h
      rcases List.mem_append.1 h with h | h
      · rcases assigned_conv s pd x h with h | h <;> simp [h]
      · rcases ih _ _ _ _ _ h with h | h <;> simp [h]
theorem assigned_cpsOne {Vol : List Nat} : ∀ (s : Stmt V W) (Γ : List Nat) (F : List Frame) (tl : Option (Exp V W))
    (pd : Bool) (n : Nat) (x : Nat), x ∈ assignedC (cpsOne Vol Γ F tl pd s n).1 →
      x ∈ decls s ∨ (x ∈ updates s ∧ x ∉ Vol)
  | .ite e a b, Γ, F, tl, pd, n, x, h => by
    rw [cpsOne, assignedC] at h
    rw [decls, updates]
    rcases List.mem_append.1 h with h | h
    · rcases assigned_cps a _ _ _ _ _ x h with h | h <;> simp [h]
    · rcases assigned_cps b _ _ _ _ _ x h with h | h <;> simp [h]
  | .whl e a b, Γ, F, tl, pd, n, x, h => by simp [cpsOne, assignedC] at h
  | .tryS _ a b, Γ, F, tl, pd, n, x, h => by simp [cpsOne, assignedC] at h
  | .exp _, _, _, _, _, _, x, h => by simp [cpsOne, assignedC] at h
  | .decl _ _, _, _, _, _, _, x, h => by simp [cpsOne, assignedC] at h
  | .upd _ _, _, _, _, _, _, x, h => by simp [cpsOne, assignedC] at h
  | .call _, _, _, _, _, _, x, h => by simp [cpsOne, assignedC] at h
  | .declCall _ _, _, _, _, _, _, x, h => by simp [cpsOne, assignedC] at h
  | .updCall _ _, _, _, _, _, _, x, h => by simp [cpsOne, assignedC] at h
  | .mutCall _ _ _, _, _, _, _, _, x, h => by simp [cpsOne, assignedC] at h
  | .drop, _, _, _, _, _, x, h => by simp [cpsOne, assignedC] at h
  | .pop _, _, _, _, _, _, x, h => by simp [cpsOne, assignedC] at h
  | .ret _, _, _, _, _, _, x, h => by simp [cpsOne, assignedC] at h
  | .retCall _, _, _, _, _, _, x, h => by simp [cpsOne, assignedC] at h
  | .brk, _, _, _, _, _, x, h => by simp [cpsOne, assignedC] at h
  | .cnt, _, _, _, _, _, x, h => by simp [cpsOne, assignedC] at h
  | .raise _, _, _, _, _, _, x, h => by simp [cpsOne, assignedC] at h
end

theorem fv_convE {Vol : List Nat} {e : Exp V W} : (convE Vol e).fv = e.fv := by
  cases e with
  | var x => rfl
  | op f xs =>
    simp only [convE, TExp.fv, Exp.fv]
    induction xs with
    | nil => rfl
    | cons x xs ih => simp [cv, Arg.fv, ih]

theorem fv_map_cv {Vol : List Nat} {xs : List Nat} : (xs.map (cv Vol)).flatMap Arg.fv = xs := by
  induction xs with
  | nil => rfl
  | cons x xs ih => simp [cv, Arg.fv, ih]

mutual
/-- A statement without continuation still mentions, after the conversion, the variables it reads and the
volatile ones it assigns to. -/
theorem reads_conv {Vol : List Nat} : ∀ (s : Stmt V W) (lp pd : Bool), needCont lp s = false → ∀ x,
    (x ∈ reads s ∨ (x ∈ updates s ∧ x ∈ Vol)) → x ∈ freeD (conv Vol pd s)
  | .ite e a b, lp, pd, hn, x, h => by
    rw [needCont, Bool.or_eq_false_iff] at hn
    rw [conv, freeD, fv_convE]
    rw [reads, updates] at h
    have ha := reads_convS (Vol := Vol) a lp pd hn.1 x
    have hb := reads_convS (Vol := Vol) b lp pd hn.2 x
    simp only [List.mem_append] at *
    tauto
  | .whl e a b, lp, pd, hn, x, h => by
    rw [needCont, Bool.or_eq_false_iff] at hn
    rw [conv, freeD, fv_convE]
    rw [reads, updates] at h
    have ha := reads_convS (Vol := Vol) a true pd hn.1 x
    have hb := reads_convS (Vol := Vol) b lp pd hn.2 x
    simp only [List.mem_append] at *
    tauto
  | .tryS _ a b, lp, pd, hn, x, h => by
    rw [needCont, Bool.or_eq_false_iff] at hn
    rw [conv, freeD]
    rw [reads, updates] at h
    have ha := reads_convS (Vol := Vol) a lp false hn.1 x
    have hb := reads_convS (Vol := Vol) b lp false hn.2 x
    simp only [List.mem_append] at *
    tauto
  | .exp e, lp, pd, hn, x, h => by simpa [conv, freeD, fv_convE, reads, updates] using h
  | .decl y e, lp, pd, hn, x, h => by simpa [conv, freeD, fv_convE, reads, updates] using h
  | .upd y e, lp, pd, hn, x, h => by
    rw [conv, freeD, fv_convE]
    rw [reads, updates] at h
    by_cases hv : y ∈ Vol
    · simp only [hv, decide_true, if_true, List.mem_append, List.mem_singleton]
      simp only [List.mem_singleton] at h
      tauto
    · simp only [hv, decide_false, List.mem_append]
      simp only [List.mem_singleton] at h
      refine Or.inr ?_
      rcases h with h | ⟨h, h'⟩
      · exact h
      · subst h
        exact absurd h' hv
  | .raise e, lp, pd, hn, x, h => by simpa [conv, freeD, fv_convE, reads, updates] using h
  | .pop y, lp, pd, hn, x, h => by simp [reads, updates] at h
  | .drop, _, pd, _, x, h => by simp [reads, updates] at h
  | .brk, _, _, _, x, h => by simp [reads, updates] at h
  | .cnt, _, _, _, x, h => by simp [reads, updates] at h
  | .call _, _, _, hn, x, h => by simp [needCont] at hn
  | .declCall _ _, _, _, hn, x, h => by simp [needCont] at hn
  | .updCall _ _, _, _, hn, x, h => by simp [needCont] at hn
  | .mutCall _ _ _, _, _, hn, x, h => by simp [needCont] at hn
  | .ret _, _, _, hn, x, h => by simp [needCont] at hn
  | .retCall _, _, _, hn, x, h => by simp [needCont] at hn
theorem reads_convS {Vol : List Nat} : ∀ (ss : Suite V W) (lp pd : Bool), needContS lp ss = false → ∀ x,
    (x ∈ readsS ss ∨ (x ∈ updatesS ss ∧ x ∈ Vol)) → x ∈ freeDS (convS Vol pd ss)
  | .nil, _, pd, _, x, h => by simp [readsS, updatesS] at h
  | .cons s ss, lp, pd, hn, x, h => by
    rw [needContS, Bool.or_eq_false_iff] at hn
    rw [convS, freeDS]
    rw [readsS, updatesS] at h
    have ha := reads_conv (Vol := Vol) s lp pd hn.1 x
    have hb := reads_convS (Vol := Vol) ss lp pd hn.2 x
    simp only [List.mem_append] at *
    tauto
end

end Verif.Cps
