import Verif.Unbox.Lemmas
/-!
# The generated code refines the source program
-/
namespace Verif.Unbox
open Verif.IntT

theorem andThen_append {S} (l l' : Outs S) (k : Int → S → Outs S) :
    andThen (l ++ l') k = andThen l k ++ andThen l' k := by
  unfold andThen; rw [List.flatMap_append]

theorem andThen_assoc {S} (l : Outs S) (k f : Int → S → Outs S) :
    andThen (andThen l k) f = andThen l fun v s => andThen (k v s) f := by
  induction l with
  | nil => rfl
  | cons p l ih =>
    have h1 : ∀ k : Int → S → Outs S, andThen (p :: l) k = andThen [p] k ++ andThen l k := by
      intro k; rw [← andThen_append]; rfl
    rw [h1, andThen_append, ih, h1]
    congr 1
    obtain ⟨r, s⟩ := p
    cases r <;> simp [andThen]

theorem andThen_both {S} (m n : S → Outs S) (k : Int → Int → S → Outs S) (f : Int → S → Outs S) (s : S) :
    andThen (both m n k s) f = both m n (fun x y s => andThen (k x y s) f) s := by
  unfold both
  rw [andThen_append, andThen_assoc, andThen_assoc]
  simp only [andThen_assoc]

theorem andThen_wrap {S} (t : Ty) (r : Res Int) (s : S) :
    andThen [(r, s)] (fun v s1 => [(Res.ok (t.wrap v), s1)]) = [(convert t r, s)] := by
  cases r <;> rfl

/-! ### Propagation of undefined behaviour -/

def HasUb {S} (l : Outs S) : Prop := ∃ s, (Res.ub, s) ∈ l

theorem notOk_ub : NotOk .ub := by intro v; simp

theorem hasUb_left {S} {m n : S → Outs S} {k : Int → Int → S → Outs S} {s : S} (h : HasUb (m s)) :
    HasUb (both m n k s) := by
  obtain ⟨s', h⟩ := h
  exact ⟨s', mem_both.2 (.inr (.inl ⟨h, notOk_ub⟩))⟩

theorem hasUb_right {S} {m n : S → Outs S} {k : Int → Int → S → Outs S} {s : S} (h : HasUb (n s)) :
    HasUb (both m n k s) := by
  obtain ⟨s', h⟩ := h
  exact ⟨s', mem_both.2 (.inr (.inr (.inr ⟨h, notOk_ub⟩)))⟩

theorem hasUb_left_right {S} {m n : S → Outs S} {k : Int → Int → S → Outs S} {s s1 : S} {x : Int}
    (hx : (Res.ok x, s1) ∈ m s) (h : HasUb (n s1)) : HasUb (both m n k s) := by
  obtain ⟨s', h⟩ := h
  exact ⟨s', mem_both.2 (.inl ⟨x, s1, hx, .inr ⟨h, notOk_ub⟩⟩)⟩

theorem hasUb_right_left {S} {m n : S → Outs S} {k : Int → Int → S → Outs S} {s s1 : S} {y : Int}
    (hy : (Res.ok y, s1) ∈ n s) (h : HasUb (m s1)) : HasUb (both m n k s) := by
  obtain ⟨s', h⟩ := h
  exact ⟨s', mem_both.2 (.inr (.inr (.inl ⟨y, s1, hy, .inr ⟨h, notOk_ub⟩⟩)))⟩

theorem both_refines {S} {m n m' n' : S → Outs S} {k k' : Int → Int → S → Outs S} {s : S}
    (hm : ∀ s, Refines (m s) (m' s)) (hn : ∀ s, Refines (n s) (n' s))
    (h1 : ∀ x s1 y s2, (Res.ok x, s1) ∈ m' s → (Res.ok y, s2) ∈ n' s1 → Refines (k x y s2) (k' x y s2))
    (h2 : ∀ y s1 x s2, (Res.ok y, s1) ∈ n' s → (Res.ok x, s2) ∈ m' s1 → Refines (k x y s2) (k' x y s2)) :
    Refines (both m n k s) (both m' n' k' s) := by
  intro o ho
  rcases mem_both.1 ho with ⟨x, s1, hx, h⟩ | ⟨hx, hno⟩ | ⟨y, s1, hy, h⟩ | ⟨hy, hno⟩
  · rcases hm s _ hx with hx' | hub
    · rcases h with ⟨y, s2, hy, hk⟩ | ⟨hy, hno⟩
      · rcases hn s1 _ hy with hy' | hub
        · rcases h1 x s1 y s2 hx' hy' o hk with hk' | ⟨s', hub⟩
          · exact .inl (mem_both.2 (.inl ⟨x, s1, hx', .inl ⟨y, s2, hy', hk'⟩⟩))
          · exact .inr ⟨s', mem_both.2 (.inl ⟨x, s1, hx', .inl ⟨y, s2, hy', hub⟩⟩)⟩
        · exact .inr (hasUb_left_right hx' hub)
      · rcases hn s1 _ hy with hy' | hub
        · exact .inl (mem_both.2 (.inl ⟨x, s1, hx', .inr ⟨hy', hno⟩⟩))
        · exact .inr (hasUb_left_right hx' hub)
    · exact .inr (hasUb_left hub)
  · rcases hm s _ hx with hx' | hub
    · exact .inl (mem_both.2 (.inr (.inl ⟨hx', hno⟩)))
    · exact .inr (hasUb_left hub)
  · rcases hn s _ hy with hy' | hub
    · rcases h with ⟨x, s2, hx, hk⟩ | ⟨hx, hno⟩
      · rcases hm s1 _ hx with hx' | hub
        · rcases h2 y s1 x s2 hy' hx' o hk with hk' | ⟨s', hub⟩
          · exact .inl (mem_both.2 (.inr (.inr (.inl ⟨y, s1, hy', .inl ⟨x, s2, hx', hk'⟩⟩))))
          · exact .inr ⟨s', mem_both.2 (.inr (.inr (.inl ⟨y, s1, hy', .inl ⟨x, s2, hx', hub⟩⟩)))⟩
        · exact .inr (hasUb_right_left hy' hub)
      · rcases hm s1 _ hx with hx' | hub
        · exact .inl (mem_both.2 (.inr (.inr (.inl ⟨y, s1, hy', .inr ⟨hx', hno⟩⟩))))
        · exact .inr (hasUb_right_left hy' hub)
    · exact .inr (hasUb_right hub)
  · rcases hn s _ hy with hy' | hub
    · exact .inl (mem_both.2 (.inr (.inr (.inr ⟨hy', hno⟩))))
    · exact .inr (hasUb_right hub)

theorem andThen_refines {S} {l l' : Outs S} {k k' : Int → S → Outs S} (hl : Refines l l')
    (hk : ∀ v s, (Res.ok v, s) ∈ l' → Refines (k v s) (k' v s)) : Refines (andThen l k) (andThen l' k') := by
  have hub' : ∀ {s}, (Res.ub, s) ∈ l' → (Res.ub, s) ∈ andThen l' k' :=
    fun h => mem_andThen.2 (.inr ⟨h, notOk_ub⟩)
  intro o ho
  rcases mem_andThen.1 ho with ⟨v, s, hv, h⟩ | ⟨h, hno⟩
  · rcases hl _ hv with hv' | ⟨s', hub⟩
    · rcases hk v s hv' o h with h' | ⟨s', hub⟩
      · exact .inl (mem_andThen.2 (.inl ⟨v, s, hv', h'⟩))
      · exact .inr ⟨s', mem_andThen.2 (.inl ⟨v, s, hv', hub⟩)⟩
    · exact .inr ⟨s', hub' hub⟩
  · rcases hl _ h with h' | ⟨s', hub⟩
    · exact .inl (mem_andThen.2 (.inr ⟨h', hno⟩))
    · exact .inr ⟨s', hub' hub⟩

/-! ### Ranges of results -/

theorem convert_fits {t : Ty} (ht : IsNum t) {r : Res Int} {v : Int} (h : convert t r = .ok v) : Fits t v := by
  cases r with
  | ok x => simp only [convert, Res.ok.injEq] at h; subst h; exact fits_wrap ht x
  | _ => simp [convert] at h

theorem floordiv_fits {t : Ty} (ht : IsNum t) {x y v : Int} (h : IntT.floordiv t x y = .ok v) : Fits t v := by
  unfold IntT.floordiv at h
  split at h
  · cases h
  · split at h
    · cases h; exact fits_wrap ht _
    · cases h

theorem mod_fits {t : Ty} (ht : IsNum t) {x y v : Int} (h : IntT.mod t x y = .ok v) : Fits t v := by
  unfold IntT.mod at h
  split at h
  · cases h; exact fits_wrap ht _
  · cases h

theorem method_plain {t : Ty} {o : BinOp} (h1 : o ≠ .pow) (h2 : o ≠ .mod) (h3 : o ≠ .fdiv) (x y : Int) :
    method t o x y = convert t (cop t o x y) := by
  cases o with
  | pow => exact absurd rfl h1
  | mod => exact absurd rfl h2
  | fdiv => exact absurd rfl h3
  | _ => rfl

theorem method_fits {t : Ty} (ht : IsNum t) {o : BinOp} {x y v : Int} (hx : Fits t x)
    (hy : o = .pow → Fits t y) (h : method t o x y = .ok v) : Fits t v := by
  cases o with
  | pow => exact pow_fits ht hx (hy rfl) h
  | fdiv => exact floordiv_fits ht h
  | mod =>
    simp only [method] at h
    split at h
    · unfold modUnboxed at h
      split at h
      · cases h
      · exact mod_fits ht h
    · exact mod_fits ht h
  | _ => rw [method_plain (by simp) (by simp) (by simp)] at h; exact convert_fits ht h

theorem eval_fits {S} {W : World S} : ∀ {e : Expr}, Typed W e → ∀ {s s' : S} {v : Int},
    (Res.ok v, s') ∈ eval W e s → Fits e.ty v
  | .lit t n, h, s, s', v, hv => by
    simp only [eval, List.mem_singleton, Prod.mk.injEq, Res.ok.injEq] at hv
    rw [hv.1]; exact h.2
  | .var t x, h, s, s', v, hv => by
    simp only [eval, List.mem_singleton, Prod.mk.injEq, Res.ok.injEq] at hv
    rw [hv.1]; exact h.2 s
  | .call t f, h, s, s', v, hv => by
    simp only [eval, List.mem_singleton] at hv
    exact h.2 s v s' hv.symm
  | .bin t o a b, h, s, s', v, hv => by
    obtain ⟨ha, hb, hta, htb⟩ := h
    have ht : IsNum t := hta ▸ typed_isNum ha
    have key : ∀ x y s1 s2, (Res.ok x, s1) ∈ eval W a s2 → (∃ s3 s4, (Res.ok y, s3) ∈ eval W b s4) →
        method t o x y = .ok v → Fits t v := by
      intro x y s1 s2 hx ⟨s3, s4, hy⟩ hv
      refine method_fits ht (hta ▸ eval_fits ha hx) ?_ hv
      intro ho
      subst ho
      have := eval_fits hb hy
      rw [htb] at this
      exact this
    rw [eval_bin] at hv
    rcases mem_both.1 hv with ⟨x, s1, hx, h⟩ | ⟨hx, hno⟩ | ⟨y, s1, hy, h⟩ | ⟨hy, hno⟩
    · rcases h with ⟨y, s2, hy, hk⟩ | ⟨_, hno⟩
      · simp only [List.mem_singleton, Prod.mk.injEq] at hk
        exact key x y _ _ hx ⟨_, _, hy⟩ hk.1.symm
      · exact absurd rfl (hno v)
    · exact absurd rfl (hno v)
    · rcases h with ⟨x, s2, hx, hk⟩ | ⟨_, hno⟩
      · simp only [List.mem_singleton, Prod.mk.injEq] at hk
        exact key x y _ _ hx ⟨_, _, hy⟩ hk.1.symm
      · exact absurd rfl (hno v)
    · exact absurd rfl (hno v)
  | .un t o a, h, s, s', v, hv => by
    have ht : IsNum t := h.2 ▸ typed_isNum h.1
    rw [eval_un] at hv
    rcases mem_andThen.1 hv with ⟨x, s1, hx, hk⟩ | ⟨_, hno⟩
    · simp only [List.mem_singleton, Prod.mk.injEq, Res.ok.injEq] at hk
      rw [hk.1]; exact fits_wrap ht _
    · exact absurd rfl (hno v)

/-! ### Expressions without effects -/

/-- The results without a number that an expression without effects can have. -/
def Bad (r : Res Int) : Prop := r = .raise .zeroDivision ∨ r = .ub

theorem bad_notOk {r : Res Int} (h : Bad r) : NotOk r := by
  intro v; rcases h with h | h <;> rw [h] <;> simp

theorem convert_out (t : Ty) {r : Res Int} (h : (∃ v, r = .ok v) ∨ Bad r) :
    (∃ v, convert t r = .ok v) ∨ Bad (convert t r) := by
  rcases h with ⟨v, rfl⟩ | rfl | rfl
  · exact .inl ⟨_, rfl⟩
  · exact .inr (.inl rfl)
  · exact .inr (.inr rfl)

theorem cop_out (t : Ty) (o : BinOp) (x y : Int) : (∃ v, cop t o x y = .ok v) ∨ Bad (cop t o x y) := by
  cases o <;> simp only [cop]
  all_goals first
    | exact .inl ⟨_, rfl⟩
    | exact .inr (.inr rfl)
    | (split
       · exact .inl ⟨_, rfl⟩
       · exact .inr (.inr rfl))

/-- The exponents that `Safe` admits. -/
def Expo (t : Ty) (o : BinOp) (y : Int) : Prop :=
  o = .pow → (t.signed = false ∧ t ≠ u64) ∨ (0 ≤ y ∧ y < 2 ^ 63)

theorem method_out {t : Ty} (ht : IsNum t) {o : BinOp} {x y : Int} (hx : Fits t x)
    (hy : o = .pow → Fits t y) (he : Expo t o y) : (∃ v, method t o x y = .ok v) ∨ Bad (method t o x y) := by
  cases o with
  | pow => exact .inl (pow_ok ht hx (hy rfl) (he rfl))
  | fdiv =>
    simp only [method, IntT.floordiv]
    split
    · exact .inr (.inl rfl)
    · split
      · exact .inl ⟨_, rfl⟩
      · exact .inr (.inr rfl)
  | mod =>
    simp only [method, modUnboxed, IntT.mod]
    split
    · split
      · exact .inr (.inl rfl)
      · split
        · exact .inl ⟨_, rfl⟩
        · exact .inr (.inr rfl)
    · split
      · exact .inl ⟨_, rfl⟩
      · exact .inr (.inr rfl)
  | _ => rw [method_plain (by simp) (by simp) (by simp)]; exact convert_out t (cop_out t _ x y)

/-- All results in the list are the same number, or none of them is a number; the state stays. -/
def Dich {S} (l : Outs S) (s : S) : Prop :=
  l ≠ [] ∧ ((∃ v, ∀ o ∈ l, o = (.ok v, s)) ∨ ∀ o ∈ l, o.2 = s ∧ Bad o.1)

theorem isLit_of {p : Int → Prop} {b : Expr} (h : IsLit p b) : ∃ t n, b = .lit t n ∧ p n := by
  cases b with
  | lit t n => exact ⟨t, n, rfl, h⟩
  | _ => cases h

theorem expo_of {S} {W : World S} {t : Ty} {o : BinOp} {b : Expr} {s s' : S} {y : Int}
    (h : o = .pow → (t.signed = false ∧ t ≠ u64) ∨ IsLit (fun n => 0 ≤ n ∧ n < 2 ^ 63) b)
    (hy : (Res.ok y, s') ∈ eval W b s) : Expo t o y := by
  intro ho
  rcases h ho with h | h
  · exact .inl h
  · obtain ⟨t', n, rfl, hn⟩ := isLit_of h
    simp only [eval, List.mem_singleton, Prod.mk.injEq, Res.ok.injEq] at hy
    rw [hy.1]; exact .inr hn

theorem dich_both {S} {m n : S → Outs S} {r : Int → Int → Res Int} {s : S} (hm : Dich (m s) s) (hn : Dich (n s) s)
    (hr : ∀ x y, (Res.ok x, s) ∈ m s → (Res.ok y, s) ∈ n s → (∃ v, r x y = .ok v) ∨ Bad (r x y)) :
    Dich (both m n (fun x y s1 => [(r x y, s1)]) s) s := by
  obtain ⟨hm0, hm⟩ := hm
  obtain ⟨hn0, hn⟩ := hn
  obtain ⟨p, hp⟩ := List.exists_mem_of_ne_nil _ hm0
  obtain ⟨q, hq⟩ := List.exists_mem_of_ne_nil _ hn0
  rcases hm with ⟨x, hm⟩ | hm
  · have hp' := hm p hp; subst hp'
    rcases hn with ⟨y, hn⟩ | hn
    · have hq' := hn q hq; subst hq'
      have hall : ∀ o ∈ both m n (fun x y s1 => [(r x y, s1)]) s, o = (r x y, s) := by
        intro o ho
        rcases mem_both.1 ho with ⟨x', s1, hx, h⟩ | ⟨hx, hno⟩ | ⟨y', s1, hy, h⟩ | ⟨hy, hno⟩
        · have h1 := hm _ hx; simp only [Prod.mk.injEq, Res.ok.injEq] at h1
          obtain ⟨rfl, rfl⟩ := h1
          rcases h with ⟨y', s2, hy, hk⟩ | ⟨hy, hno⟩
          · have h2 := hn _ hy; simp only [Prod.mk.injEq, Res.ok.injEq] at h2
            obtain ⟨rfl, rfl⟩ := h2
            simpa using hk
          · rw [hn _ hy] at hno; exact absurd rfl (hno y)
        · rw [hm _ hx] at hno; exact absurd rfl (hno x)
        · have h1 := hn _ hy; simp only [Prod.mk.injEq, Res.ok.injEq] at h1
          obtain ⟨rfl, rfl⟩ := h1
          rcases h with ⟨x', s2, hx, hk⟩ | ⟨hx, hno⟩
          · have h2 := hm _ hx; simp only [Prod.mk.injEq, Res.ok.injEq] at h2
            obtain ⟨rfl, rfl⟩ := h2
            simpa using hk
          · rw [hm _ hx] at hno; exact absurd rfl (hno x)
        · rw [hn _ hy] at hno; exact absurd rfl (hno y)
      have hin : (r x y, s) ∈ both m n (fun x y s1 => [(r x y, s1)]) s :=
        mem_both.2 (.inl ⟨x, s, hp, .inl ⟨y, s, hq, by simp⟩⟩)
      refine ⟨List.ne_nil_of_mem hin, ?_⟩
      rcases hr x y hp hq with ⟨v, hv⟩ | hb
      · left; exact ⟨v, fun o ho => by rw [hall o ho, hv]⟩
      · right; intro o ho; rw [hall o ho]; exact ⟨rfl, hb⟩
    · have hin : q ∈ both m n (fun x y s1 => [(r x y, s1)]) s :=
        mem_both.2 (.inr (.inr (.inr ⟨hq, bad_notOk (hn q hq).2⟩)))
      refine ⟨List.ne_nil_of_mem hin, .inr ?_⟩
      intro o ho
      rcases mem_both.1 ho with ⟨x', s1, hx, h⟩ | ⟨hx, hno⟩ | ⟨y', s1, hy, h⟩ | ⟨hy, hno⟩
      · have h1 := hm _ hx; simp only [Prod.mk.injEq, Res.ok.injEq] at h1
        obtain ⟨rfl, rfl⟩ := h1
        rcases h with ⟨y', s2, hy, hk⟩ | ⟨hy, hno⟩
        · exact absurd rfl (bad_notOk (hn _ hy).2 y')
        · exact hn _ hy
      · rw [hm _ hx] at hno; exact absurd rfl (hno x)
      · exact absurd rfl (bad_notOk (hn _ hy).2 y')
      · exact hn _ hy
  · have hin : p ∈ both m n (fun x y s1 => [(r x y, s1)]) s :=
      mem_both.2 (.inr (.inl ⟨hp, bad_notOk (hm p hp).2⟩))
    refine ⟨List.ne_nil_of_mem hin, .inr ?_⟩
    intro o ho
    rcases mem_both.1 ho with ⟨x', s1, hx, h⟩ | ⟨hx, hno⟩ | ⟨y', s1, hy, h⟩ | ⟨hy, hno⟩
    · exact absurd rfl (bad_notOk (hm _ hx).2 x')
    · exact hm _ hx
    · have hs : s1 = s := by
        rcases hn with ⟨y, hn⟩ | hn
        · have h1 := hn _ hy; simp only [Prod.mk.injEq] at h1; exact h1.2
        · exact (hn _ hy).1
      subst hs
      rcases h with ⟨x', s2, hx, hk⟩ | ⟨hx, hno⟩
      · exact absurd rfl (bad_notOk (hm _ hx).2 x')
      · exact hm _ hx
    · rcases hn with ⟨y, hn⟩ | hn
      · rw [hn _ hy] at hno; exact absurd rfl (hno y)
      · exact hn _ hy

theorem still_dich {S} {W : World S} : ∀ {e : Expr}, Typed W e → Safe W e → Still W e → ∀ s, Dich (eval W e s) s
  | .lit t n, _, _, _, s => ⟨by simp [eval], .inl ⟨n, by simp [eval]⟩⟩
  | .var t x, _, _, _, s => ⟨by simp [eval], .inl ⟨W.get x s, by simp [eval]⟩⟩
  | .call t f, _, _, hq, s => by
    obtain ⟨v, hv⟩ := hq s
    exact ⟨by simp [eval], .inl ⟨v, by simp [eval, hv]⟩⟩
  | .bin t o a b, h, hs, hq, s => by
    obtain ⟨ha, hb, hta, htb⟩ := h
    obtain ⟨hsa, hsb, _, _, hpow⟩ := hs
    have ht : IsNum t := hta ▸ typed_isNum ha
    rw [eval_bin]
    refine dich_both (still_dich ha hsa hq.1 s) (still_dich hb hsb hq.2 s) ?_
    intro x y hx hy
    refine method_out ht (hta ▸ eval_fits ha hx) ?_ (expo_of hpow hy)
    intro ho
    subst ho
    have := eval_fits hb hy
    rw [htb] at this
    exact this
  | .un t o a, h, hs, hq, s => by
    obtain ⟨h0, hd⟩ := still_dich h.1 hs hq s
    obtain ⟨p, hp⟩ := List.exists_mem_of_ne_nil _ h0
    rw [eval_un]
    rcases hd with ⟨v, hv⟩ | hd
    · have hp' := hv p hp; subst hp'
      refine ⟨List.ne_nil_of_mem (mem_andThen.2 (.inl ⟨v, s, hp, List.mem_singleton.2 rfl⟩)), .inl ⟨methodU t o v, ?_⟩⟩
      intro q hq'
      rcases mem_andThen.1 hq' with ⟨x, s1, hx, hk⟩ | ⟨hx, hno⟩
      · have h1 := hv _ hx; simp only [Prod.mk.injEq, Res.ok.injEq] at h1
        obtain ⟨rfl, rfl⟩ := h1
        simpa using hk
      · rw [hv _ hx] at hno; exact absurd rfl (hno v)
    · refine ⟨List.ne_nil_of_mem (mem_andThen.2 (.inr ⟨hp, bad_notOk (hd p hp).2⟩)), .inr ?_⟩
      intro q hq'
      rcases mem_andThen.1 hq' with ⟨x, s1, hx, hk⟩ | ⟨hx, hno⟩
      · exact absurd rfl (bad_notOk (hd _ hx).2 x)
      · exact hd _ hx

/-! ### Division macros -/

/-- The divisor is a number other than zero, before and after the evaluation of the dividend. -/
def Good {S} (m n : S → Outs S) (s : S) : Prop :=
  ∀ s1, (s1 = s ∨ ∃ x, (Res.ok x, s1) ∈ m s) →
    n s1 ≠ [] ∧ ∀ p ∈ n s1, ∃ y, y ≠ 0 ∧ p = (Res.ok y, s1)

theorem macro_refines {S} {W : World S} {a b : Expr} {cb : S → Outs S} {rest : S → Outs S} {r : Int → Int → Res Int}
    (ha : Typed W a) (hb : Typed W b) (hsa : Safe W a) (hsb : Safe W b)
    (hst : (Still W a ∧ Still W b) ∨ IsLit (· ≠ 0) b)
    (hcb : ∀ s, Refines (cb s) (eval W b s)) (hr0 : ∀ x, Bad (r x 0))
    (hrest : ∀ s, Good (eval W a) (eval W b) s →
      Refines (rest s) (both (eval W a) (eval W b) (fun x y s1 => [(r x y, s1)]) s)) (s : S) :
    Refines (andThen (cb s) fun z s1 => if z = 0 then [(.raise .zeroDivision, s1)] else rest s1)
      (both (eval W a) (eval W b) (fun x y s1 => [(r x y, s1)]) s) := by
  intro o ho
  rcases mem_andThen.1 ho with ⟨z, s1, hz, hk⟩ | ⟨h, hno⟩
  · rcases hcb s _ hz with hz' | hub
    · rcases hst with ⟨hqa, hqb⟩ | hl
      · obtain ⟨hb0, hbd⟩ := still_dich hb hsb hqb s
        obtain ⟨ha0, had⟩ := still_dich ha hsa hqa s
        rcases hbd with ⟨v, hbd⟩ | hbd
        · have h1 := hbd _ hz'; simp only [Prod.mk.injEq, Res.ok.injEq] at h1
          obtain ⟨rfl, rfl⟩ := h1
          by_cases h0 : z = 0
          · subst h0
            rw [if_pos rfl, List.mem_singleton] at hk
            subst hk
            obtain ⟨p, hp⟩ := List.exists_mem_of_ne_nil _ ha0
            rcases had with ⟨x, had⟩ | had
            · have h2 := had p hp; subst h2
              rcases hr0 x with h | h
              · left; exact mem_both.2 (.inl ⟨x, s1, hp, .inl ⟨0, s1, hz', by simp [h]⟩⟩)
              · right; exact ⟨s1, mem_both.2 (.inl ⟨x, s1, hp, .inl ⟨0, s1, hz', by simp [h]⟩⟩)⟩
            · obtain ⟨h2, h3⟩ := had p hp
              obtain ⟨p1, p2⟩ := p
              simp only at h2 h3
              subst h2
              have hno := bad_notOk h3
              rcases h3 with h | h
              · subst h; left; exact mem_both.2 (.inr (.inl ⟨hp, hno⟩))
              · subst h; right; exact ⟨p2, mem_both.2 (.inr (.inl ⟨hp, hno⟩))⟩
          · rw [if_neg h0] at hk
            refine hrest s1 ?_ o hk
            intro s2 hs2
            have : s2 = s1 := by
              rcases hs2 with h | ⟨x, hx⟩
              · exact h
              · rcases had with ⟨x', had⟩ | had
                · have h2 := had _ hx; simp only [Prod.mk.injEq] at h2; exact h2.2
                · exact (had _ hx).1
            subst this
            exact ⟨hb0, fun p hp => ⟨z, h0, hbd p hp⟩⟩
        · exact absurd rfl (bad_notOk (hbd _ hz').2 z)
      · obtain ⟨t, n, rfl, hn⟩ := isLit_of hl
        simp only [eval, List.mem_singleton, Prod.mk.injEq, Res.ok.injEq] at hz'
        obtain ⟨rfl, rfl⟩ := hz'
        rw [if_neg hn] at hk
        refine hrest s1 ?_ o hk
        intro s2 _
        exact ⟨by simp [eval], fun p hp => ⟨z, hn, by simpa [eval] using hp⟩⟩
    · exact .inr (hasUb_right hub)
  · rcases hcb s _ h with h' | hub
    · exact .inl (mem_both.2 (.inr (.inr (.inr ⟨h', hno⟩))))
    · exact .inr (hasUb_right hub)

theorem refines_of_eq {S} {l l' : Outs S} (h : l = l') : Refines l l' := by
  subst h; exact fun o ho => .inl ho

/-- The operators without a macro. -/
theorem ceval_plain {S} (W : World S) (t : Ty) {o : BinOp} (h1 : o ≠ .pow) (h2 : o ≠ .mod) (h3 : o ≠ .fdiv)
    (a b : C) (s : S) : ceval W (genBin t o a b) s =
      both (ceval W a) (ceval W b) (fun x y s1 => [(convert t (cop t o x y), s1)]) s := by
  unfold genBin
  split
  · next h =>
    obtain ⟨rfl, _⟩ := h
    simp only [ceval]
    rw [andThen_both]
    congr 1; funext x y s1
    exact andThen_wrap u1 _ _
  · cases o with
    | pow => exact absurd rfl h1
    | mod => exact absurd rfl h2
    | fdiv => exact absurd rfl h3
    | _ =>
      simp only [ceval]
      rw [andThen_both]
      congr 1
      try (funext x y s1; exact andThen_wrap t _ _)

/-- A quotient by a number other than zero. -/
theorem fdiv_eq {t : Ty} (ht : IsNum t) {x y : Int} (hx : Fits t x) (hy : Fits t y) (h0 : y ≠ 0)
    (h : (t ≠ i8 ∧ t ≠ i16) ∨ y ≠ -1) : cop t .fdiv x y = method t .fdiv x y := by
  simp only [cop, method, IntT.floordiv]
  rw [if_neg h0]
  split
  · next hd => rw [wrap_of_fits ht (fits_tdiv ht hx hy hd h)]
  · rfl

theorem fdiv_u1 {x y : Int} (hx : Fits u1 x) (hy : Fits u1 y) (h0 : y ≠ 0) : method u1 .fdiv x y = .ok x := by
  have hx' : x = 0 ∨ x = 1 := by unfold Fits u1 at hx; simp at hx; omega
  have hy' : y = 1 := by unfold Fits u1 at hy; simp at hy; omega
  subst hy'
  rcases hx' with rfl | rfl <;> decide +kernel

theorem mod_eq {t : Ty} (ht : IsNum t) {x y : Int} (hx : Fits t x) (h0 : y ≠ 0) :
    cop t .mod x y = method t .mod x y := by
  have : IntT.mod t x y = cop t .mod x y := by
    simp only [IntT.mod, cop]
    rw [wrap_of_fits ht (fits_tmod ht y hx)]
  simp only [method, modUnboxed]
  rw [if_neg h0, this]
  simp

theorem mod_u1 {x y : Int} (hx : Fits u1 x) (h0 : y ≠ 0) :
    convert u1 (cop u1 .mod x y) = method u1 .mod x y := by
  have ht : IsNum u1 := by decide
  rw [mod_eq ht hx h0]
  cases h : method u1 .mod x y with
  | ok v =>
    have := method_fits ht hx (by simp) h
    simp only [convert]
    rw [wrap_of_fits ht this]
  | _ => rfl

/-- What the generated code may do, the source program may do. -/
theorem refines {S} {W : World S} : ∀ {e : Expr}, Typed W e → Safe W e → ∀ s,
    Refines (ceval W (compile e) s) (eval W e s)
  | .lit t n, _, _, s => refines_of_eq rfl
  | .var t x, _, _, s => refines_of_eq rfl
  | .call t f, _, _, s => refines_of_eq rfl
  | .un t o a, h, hs, s => by
    have ih := refines h.1 hs s
    have ht : IsNum t := h.2 ▸ typed_isNum h.1
    rw [compile_un h.1 h.2, eval_un]
    unfold genUn
    have key : ∀ (c : C) (f : Int → Int), (∀ v, Fits t v → f v = methodU t o v) →
        (ceval W c s = andThen (ceval W (compile a) s) fun v s1 => [(.ok (f v), s1)]) →
        Refines (ceval W c s) (andThen (eval W a s) fun x s1 => [(.ok (methodU t o x), s1)]) := by
      intro c f hf hc
      rw [hc]
      refine andThen_refines ih ?_
      intro v s1 hv
      exact refines_of_eq (by rw [hf v (h.2 ▸ eval_fits h.1 hv)])
    split
    · next h1 =>
      subst h1
      cases o with
      | pos =>
        refine key _ id ?_ ?_
        · intro v hv; simp only [methodU, cun, id]; rw [wrap_of_fits ht hv]
        · show ceval W (compile a) s = _
          generalize ceval W (compile a) s = l
          unfold andThen
          induction l with
          | nil => rfl
          | cons p l ih =>
            rw [List.flatMap_cons, ← ih]
            obtain ⟨r, s1⟩ := p
            cases r <;> rfl
      | neg =>
        refine key _ (methodU u1 .neg) (fun _ _ => rfl) ?_
        simp only [ceval]; rw [andThen_assoc]; rfl
      | inv =>
        refine key _ (methodU u1 .inv) (fun _ _ => rfl) ?_
        simp only [ceval]; rw [andThen_assoc]; rfl
    · cases o with
      | pos => exact key _ (methodU t .pos) (fun _ _ => rfl) (by simp only [ceval]; rfl)
      | neg =>
        refine key _ (methodU t .neg) (fun _ _ => rfl) ?_
        simp only [ceval]; rw [andThen_assoc]; rfl
      | inv =>
        refine key _ (methodU t .inv) (fun _ _ => rfl) ?_
        simp only [ceval]; rw [andThen_assoc]; rfl
  | .bin t o a b, h, hs, s => by
    obtain ⟨ha, hb, hta, htb⟩ := h
    obtain ⟨hsa, hsb, hdm, hfd, hpow⟩ := hs
    have ht : IsNum t := hta ▸ typed_isNum ha
    have iha := refines ha hsa
    have ihb := refines hb hsb
    rw [compile_bin ha hta, eval_bin]
    have fa : ∀ {x s1 s2}, (Res.ok x, s2) ∈ eval W a s1 → Fits t x := fun hx => hta ▸ eval_fits ha hx
    have fb : ∀ {y s1 s2}, o ≠ .shl → o ≠ .shr → (Res.ok y, s2) ∈ eval W b s1 → Fits t y := by
      intro y s1 s2 h1 h2 hy
      have := eval_fits hb hy
      rw [htb, if_neg (by simp [h1, h2])] at this
      exact this
    have hb1 : o = .fdiv → ∀ {y s1 s2}, (Res.ok y, s2) ∈ eval W b s1 → (t ≠ i8 ∧ t ≠ i16) ∨ y ≠ -1 := by
      intro ho y s1 s2 hy
      rcases hfd ho with h | h
      · exact .inl h
      · obtain ⟨t', n, rfl, hn⟩ := isLit_of h
        simp only [eval, List.mem_singleton, Prod.mk.injEq, Res.ok.injEq] at hy
        rw [hy.1]; exact .inr hn
    by_cases h1 : o = .pow
    · subst h1
      have hg : genBin t .pow (compile a) (compile b) = .pow t (compile a) (compile b) := by
        unfold genBin; rw [if_neg (by simp [u1Ops])]
      rw [hg]
      simp only [ceval]
      refine both_refines iha ihb ?_ ?_
      · intro x s1 y s2 hx hy
        exact refines_of_eq (by rw [powC_eq ht (fa hx) (fb (by simp) (by simp) hy) (expo_of hpow hy rfl)])
      · intro y s1 x s2 hy hx
        exact refines_of_eq (by rw [powC_eq ht (fa hx) (fb (by simp) (by simp) hy) (expo_of hpow hy rfl)])
    by_cases h2 : o = .fdiv
    · subst h2
      have hg : genBin t .fdiv (compile a) (compile b) = .floordiv t (compile a) (compile b) := by
        unfold genBin; rw [if_neg (by simp [u1Ops])]
      rw [hg]
      simp only [ceval]
      refine macro_refines ha hb hsa hsb (hdm (.inl rfl)) ihb (fun x => .inl rfl) ?_ s
      intro s hgood
      split
      · next h1 =>
        subst h1
        intro p hp
        rcases iha s p hp with hp' | hub
        · obtain ⟨r, s1⟩ := p
          by_cases hr : ∃ v, r = .ok v
          · obtain ⟨v, rfl⟩ := hr
            obtain ⟨hn, hall⟩ := hgood s1 (.inr ⟨v, hp'⟩)
            obtain ⟨q, hq⟩ := List.exists_mem_of_ne_nil _ hn
            obtain ⟨y, hy0, rfl⟩ := hall q hq
            left
            refine mem_both.2 (.inl ⟨v, s1, hp', .inl ⟨y, s1, hq, ?_⟩⟩)
            rw [fdiv_u1 (fa hp') (fb (by simp) (by simp) hq) hy0]
            simp
          · left
            exact mem_both.2 (.inr (.inl ⟨hp', fun v hv => hr ⟨v, hv⟩⟩))
        · exact .inr (hasUb_left hub)
      · refine both_refines iha ihb ?_ ?_
        · intro x s1 y s2 hx hy
          obtain ⟨y', hy0, he⟩ := (hgood s1 (.inr ⟨x, hx⟩)).2 _ hy
          simp only [Prod.mk.injEq, Res.ok.injEq] at he
          exact refines_of_eq (by
            rw [fdiv_eq ht (fa hx) (fb (by simp) (by simp) hy) (by rw [he.1]; exact hy0) (hb1 rfl hy)])
        · intro y s1 x s2 hy hx
          obtain ⟨y', hy0, he⟩ := (hgood s (.inl rfl)).2 _ hy
          simp only [Prod.mk.injEq, Res.ok.injEq] at he
          exact refines_of_eq (by
            rw [fdiv_eq ht (fa hx) (fb (by simp) (by simp) hy) (by rw [he.1]; exact hy0) (hb1 rfl hy)])
    by_cases h3 : o = .mod
    · subst h3
      have hg : genBin t .mod (compile a) (compile b) = .modm t (compile a) (compile b) := by
        unfold genBin; rw [if_neg (by simp [u1Ops])]
      rw [hg]
      simp only [ceval]
      have hr0 : ∀ x, Bad (method t .mod x 0) := by
        intro x
        simp only [method, modUnboxed]
        split
        · exact .inl rfl
        · exact .inr rfl
      refine macro_refines ha hb hsa hsb (hdm (.inr rfl)) ihb hr0 ?_ s
      intro s hgood
      split
      · next h1 =>
        subst h1
        refine both_refines iha ihb ?_ ?_
        · intro x s1 y s2 hx hy
          obtain ⟨y', hy0, he⟩ := (hgood s1 (.inr ⟨x, hx⟩)).2 _ hy
          simp only [Prod.mk.injEq, Res.ok.injEq] at he
          exact refines_of_eq (by rw [mod_u1 (fa hx) (by rw [he.1]; exact hy0)])
        · intro y s1 x s2 hy hx
          obtain ⟨y', hy0, he⟩ := (hgood s (.inl rfl)).2 _ hy
          simp only [Prod.mk.injEq, Res.ok.injEq] at he
          exact refines_of_eq (by rw [mod_u1 (fa hx) (by rw [he.1]; exact hy0)])
      · refine both_refines iha ihb ?_ ?_
        · intro x s1 y s2 hx hy
          obtain ⟨y', hy0, he⟩ := (hgood s1 (.inr ⟨x, hx⟩)).2 _ hy
          simp only [Prod.mk.injEq, Res.ok.injEq] at he
          exact refines_of_eq (by rw [mod_eq ht (fa hx) (by rw [he.1]; exact hy0)])
        · intro y s1 x s2 hy hx
          obtain ⟨y', hy0, he⟩ := (hgood s (.inl rfl)).2 _ hy
          simp only [Prod.mk.injEq, Res.ok.injEq] at he
          exact refines_of_eq (by rw [mod_eq ht (fa hx) (by rw [he.1]; exact hy0)])
    rw [ceval_plain W t h1 h3 h2]
    refine both_refines iha ihb ?_ ?_
    · intro x s1 y s2 hx hy
      exact refines_of_eq (by rw [method_plain h1 h3 h2])
    · intro y s1 x s2 hy hx
      exact refines_of_eq (by rw [method_plain h1 h3 h2])

end Verif.Unbox
