import Verif.Unbox.Spec
import Verif.Int.Props
import Mathlib.Tactic.ByContra
/-!
# Lemmas about arithmetic on unboxed numbers
-/
namespace Verif.Unbox
open Verif.IntT

/-! ### Ranges -/

theorem isNum_cases {t : Ty} (h : IsNum t) : t = i8 ∨ t = i16 ∨ t = i32 ∨ t = i64 ∨ t = u8 ∨ t = u16 ∨
    t = u32 ∨ t = u64 ∨ t = u1 := by
  simpa [IsNum] using h

theorem isTy_or {t : Ty} (h : IsNum t) : IsTy t ∨ t = u1 := by
  rcases isNum_cases h with h | h | h | h | h | h | h | h | h <;> subst h <;> decide

theorem fits_iff {t : Ty} (ht : IsNum t) (x : Int) : t.In x ↔ Fits t x := by
  rcases isTy_or ht with h | h
  · exact In_iff h x
  · subst h
    unfold Ty.In Ty.wrap Fits u1
    simp
    omega

theorem fits_wrap {t : Ty} (ht : IsNum t) (x : Int) : Fits t (t.wrap x) :=
  (fits_iff ht _).1 (In_wrap t x)

theorem wrap_of_fits {t : Ty} (ht : IsNum t) {x : Int} (h : Fits t x) : t.wrap x = x :=
  (fits_iff ht x).2 h

theorem fits_zero {t : Ty} (ht : IsNum t) : Fits t 0 := by
  rcases isNum_cases ht with h | h | h | h | h | h | h | h | h <;> subst h <;> decide

/-- Every number between zero and a number of the type is in the type. -/
theorem fits_between {t : Ty} (ht : IsNum t) {x r : Int} (h : Fits t x) (h1 : 0 ≤ x → 0 ≤ r ∧ r ≤ x)
    (h2 : x ≤ 0 → x ≤ r ∧ r ≤ 0) : Fits t r := by
  have h0 := fits_zero ht
  unfold Fits at *
  split at h <;> rename_i hs
  · rw [if_pos hs] at h0 ⊢; omega
  · rw [if_neg hs] at h0 ⊢; omega

theorem tmod_between (x y : Int) : (0 ≤ x → 0 ≤ x.tmod y ∧ x.tmod y ≤ x) ∧ (x ≤ 0 → x ≤ x.tmod y ∧ x.tmod y ≤ 0) := by
  rcases eq_or_ne y 0 with h | h
  · subst h; simp
  obtain ⟨h1, h2, h3, h4, _, _⟩ := tdiv_cases x y h
  constructor
  · intro hx
    refine ⟨h3 hx, ?_⟩
    have := Int.tmod_nonneg y hx
    by_contra hc
    have hm : x.tmod y = x.natAbs % y.natAbs := by
      obtain ⟨n, rfl⟩ := Int.eq_ofNat_of_zero_le hx
      have : (n : Int).tmod y = ((n % y.natAbs : Nat) : Int) := by
        rw [Int.tmod_eq_emod_of_nonneg hx, ← Int.emod_abs, Int.abs_eq_natAbs]; simp
      simpa using this
    have : x.natAbs % y.natAbs ≤ x.natAbs := Nat.mod_le _ _
    omega
  · intro hx
    refine ⟨?_, h4 hx⟩
    have hm : (-x).tmod y = (-x).natAbs % y.natAbs := by
      have hx' : 0 ≤ -x := by omega
      obtain ⟨n, hn⟩ := Int.eq_ofNat_of_zero_le hx'
      rw [hn]
      have : (n : Int).tmod y = ((n % y.natAbs : Nat) : Int) := by
        rw [Int.tmod_eq_emod_of_nonneg (by omega), ← Int.emod_abs, Int.abs_eq_natAbs]; simp
      simpa using this
    rw [Int.neg_tmod] at hm
    have : (-x).natAbs % y.natAbs ≤ (-x).natAbs := Nat.mod_le _ _
    omega

theorem fits_tmod {t : Ty} (ht : IsNum t) {x : Int} (y : Int) (h : Fits t x) : Fits t (x.tmod y) :=
  fits_between ht h (tmod_between x y).1 (tmod_between x y).2

/-- The quotient fits if the type is not a small signed one, or the divisor is not `-1`. -/
theorem fits_tdiv {t : Ty} (ht : IsNum t) {x y : Int} (hx : Fits t x) (hy : Fits t y)
    (hd : divOk t x y = true) (h : (t ≠ i8 ∧ t ≠ i16) ∨ y ≠ -1) : Fits t (x.tdiv y) := by
  have hy0 : y ≠ 0 := by intro h0; subst h0; simp [divOk] at hd
  rcases isTy_or ht with hT | hT
  · by_cases ho : DivOverflow t x y
    · obtain ⟨hs, _, ho⟩ := ho
      rcases h with h | h
      · have : t = i32 ∨ t = i64 := by
          rcases isNum_cases ht with h' | h' | h' | h' | h' | h' | h' | h' | h' <;> subst h' <;>
            simp_all [i8, i16, i32, i64, u8, u16, u32, u64, u1]
        have harith : t.arith = t := by rcases this with h | h <;> subst h <;> rfl
        simp only [divOk, harith, Bool.and_eq_true, decide_eq_true_eq] at hd
        exact (fits_iff ht _).1 hd.2
      · exact absurd ho h
    · exact (holds_quot hT hx hy hy0 ho).1
  · subst hT
    have hy' : y = 1 := by
      unfold Fits u1 at hy; simp at hy; omega
    subst hy'
    simpa using hx

/-! ### Results -/

/-- The results that are no number. -/
def NotOk (r : Res Int) : Prop := ∀ v, r ≠ .ok v

theorem mem_andThen {S} {l : Outs S} {k : Int → S → Outs S} {o : Res Int × S} :
    o ∈ andThen l k ↔ (∃ v s, (Res.ok v, s) ∈ l ∧ o ∈ k v s) ∨ (o ∈ l ∧ NotOk o.1) := by
  unfold andThen
  rw [List.mem_flatMap]
  constructor
  · rintro ⟨⟨r, s⟩, h1, h2⟩
    cases r with
    | ok v => exact .inl ⟨v, s, h1, h2⟩
    | raise e => simp only [List.mem_singleton] at h2; subst h2; exact .inr ⟨h1, by intro v; simp⟩
    | ub => simp only [List.mem_singleton] at h2; subst h2; exact .inr ⟨h1, by intro v; simp⟩
    | diverge => simp only [List.mem_singleton] at h2; subst h2; exact .inr ⟨h1, by intro v; simp⟩
  · rintro (⟨v, s, h1, h2⟩ | ⟨h1, h2⟩)
    · exact ⟨(.ok v, s), h1, h2⟩
    · refine ⟨o, h1, ?_⟩
      obtain ⟨r, s⟩ := o
      cases r with
      | ok v => exact absurd rfl (h2 v)
      | raise e => simp
      | ub => simp
      | diverge => simp

/-- What the evaluation of two operands in either order can give. -/
theorem mem_both {S} {m n : S → Outs S} {k : Int → Int → S → Outs S} {s : S} {o : Res Int × S} :
    o ∈ both m n k s ↔
      (∃ x s1, (Res.ok x, s1) ∈ m s ∧ ((∃ y s2, (Res.ok y, s2) ∈ n s1 ∧ o ∈ k x y s2) ∨ (o ∈ n s1 ∧ NotOk o.1))) ∨
      (o ∈ m s ∧ NotOk o.1) ∨
      (∃ y s1, (Res.ok y, s1) ∈ n s ∧ ((∃ x s2, (Res.ok x, s2) ∈ m s1 ∧ o ∈ k x y s2) ∨ (o ∈ m s1 ∧ NotOk o.1))) ∨
      (o ∈ n s ∧ NotOk o.1) := by
  unfold both
  rw [List.mem_append]
  simp only [mem_andThen]
  rw [or_assoc]

theorem map_eq_andThen {S} (l : Outs S) (f : Int → Res Int) :
    (l.map fun q => match q with
        | (.ok y, s2) => (f y, s2)
        | (r, s2) => (r, s2)) = andThen l fun y s2 => [(f y, s2)] := by
  induction l with
  | nil => rfl
  | cons q l ih =>
    obtain ⟨r, s⟩ := q
    rw [List.map_cons, ih]
    unfold andThen
    rw [List.flatMap_cons]
    cases r <;> rfl

theorem flatMap_eq_andThen {S} (l : Outs S) (k : Int → S → Outs S) :
    (l.flatMap fun p => match p with
        | (.ok x, s1) => k x s1
        | (r, s1) => [(r, s1)]) = andThen l k := by
  unfold andThen
  congr 1
  funext p
  obtain ⟨r, s⟩ := p
  cases r <;> rfl

theorem eval_bin {S} (W : World S) (t : Ty) (o : BinOp) (a b : Expr) (s : S) :
    eval W (.bin t o a b) s = both (eval W a) (eval W b) (fun x y s1 => [(method t o x y, s1)]) s := by
  rw [eval]
  unfold both
  congr 1
  · rw [← flatMap_eq_andThen]
    congr 1; funext p; obtain ⟨r, s1⟩ := p
    cases r with
    | ok x => exact map_eq_andThen (eval W b s1) (fun y => method t o x y)
    | _ => rfl
  · rw [← flatMap_eq_andThen]
    congr 1; funext p; obtain ⟨r, s1⟩ := p
    cases r with
    | ok y => exact map_eq_andThen (eval W a s1) (fun x => method t o x y)
    | _ => rfl

theorem eval_un {S} (W : World S) (t : Ty) (o : UnOp) (a : Expr) (s : S) :
    eval W (.un t o a) s = andThen (eval W a s) fun x s1 => [(.ok (methodU t o x), s1)] := by
  rw [eval]
  exact map_eq_andThen (eval W a s) (fun x => .ok (methodU t o x))

theorem exec_eq {S} (W : World S) (t : Ty) (x : Nat) (o : BinOp) (e : Expr) (s : S) :
    exec W t x o e s = andThen (eval W (.bin t o (.var t x) e) s) fun v s1 => [(.ok v, W.set x v s1)] := by
  unfold exec andThen
  generalize eval W (.bin t o (.var t x) e) s = l
  induction l with
  | nil => rfl
  | cons p l ih =>
    obtain ⟨r, s1⟩ := p
    rw [List.map_cons, ih, List.flatMap_cons]
    cases r <;> rfl

/-! ### The generated code -/

theorem unbox_boxing (t t' : Ty) (e : Expr) : unbox t (boxing e) = unbox t' (boxing e) := by
  cases e <;> rfl

theorem ty_boxing (t : Ty) (e : Expr) {S} {W : World S} (h : Typed W e) : (unbox t (boxing e)).ty = e.ty := by
  induction e generalizing t with
  | lit t' n => rfl
  | var t' x => rfl
  | call t' f => rfl
  | bin t' o a b iha ihb =>
    obtain ⟨ha, hb, hta, htb⟩ := h
    show (unbox t' (boxing a)).ty = t'
    rw [iha _ ha, hta]
  | un t' o a iha =>
    obtain ⟨ha, hta⟩ := h
    show (unbox t' (boxing a)).ty = t'
    rw [iha _ ha, hta]

theorem compile_eq (t : Ty) (e : Expr) : gen (unbox t (boxing e)) = compile e := by
  unfold compile; rw [unbox_boxing t e.ty]

theorem compile_bin {S} {W : World S} {t : Ty} {o : BinOp} {a b : Expr} (ha : Typed W a) (hta : a.ty = t) :
    compile (.bin t o a b) = genBin t o (compile a) (compile b) := by
  rw [← compile_eq t a, ← compile_eq t b]
  show genBin (unbox t (boxing a)).ty o (gen (unbox t (boxing a))) (gen (unbox t (boxing b))) = _
  rw [ty_boxing t a ha, hta]

theorem compile_un {S} {W : World S} {t : Ty} {o : UnOp} {a : Expr} (ha : Typed W a) (hta : a.ty = t) :
    compile (.un t o a) = genUn t o (compile a) := by
  rw [← compile_eq t a]
  show genUn (unbox t (boxing a)).ty o (gen (unbox t (boxing a))) = _
  rw [ty_boxing t a ha, hta]

theorem typed_isNum {S} {W : World S} : ∀ {e : Expr}, Typed W e → IsNum e.ty
  | .lit _ _, h => h.1
  | .var _ _, h => h.1
  | .call _ _, h => h.1
  | .bin t o a b, h => by
    have := typed_isNum h.1
    rw [h.2.2.1] at this
    exact this
  | .un t o a, h => by
    have := typed_isNum h.1
    rw [h.2] at this
    exact this

/-! ### Powers -/

theorem uPow_eq {t : Ty} (ht : IsNum t) (hu : t.signed = false) {a n : Int} (ha : Fits t a) (hn : Fits t n)
    (h63 : n < 2 ^ 63) : uPow t a n = uPowBoxed t a n := by
  rcases isTy_or ht with h | h
  · obtain ⟨r, h1, h2⟩ := C32_upow h hu ha hn
    obtain ⟨r', h3, h4⟩ := C32_upow_boxed_partial h hu ha hn h63
    rw [h1, h3]
    have hw : t.wrap r = t.wrap r' := wrap_congr (dvd_trans_sub h2.1 (dvd_symm_sub h4.1))
    rw [wrap_of_fits ht h2.2, wrap_of_fits ht h4.2] at hw
    rw [hw]
  · subst h
    have ha' : a = 0 ∨ a = 1 := by unfold Fits u1 at ha; simp at ha; omega
    have hn' : n = 0 ∨ n = 1 := by unfold Fits u1 at hn; simp at hn; omega
    rcases ha' with rfl | rfl <;> rcases hn' with rfl | rfl <;> decide +kernel

theorem powC_eq {t : Ty} (ht : IsNum t) {a n : Int} (ha : Fits t a) (hn : Fits t n)
    (h : (t.signed = false ∧ t ≠ u64) ∨ (0 ≤ n ∧ n < 2 ^ 63)) : powC t a n = method t .pow a n := by
  unfold powC method
  by_cases hs : t.signed = true
  · rw [if_pos hs, if_pos hs]
    unfold IntT.pow
    rcases h with h | h
    · rw [h.1] at hs; cases hs
    · rw [if_neg (by omega)]
  · have hs' : t.signed = false := by simpa using hs
    rw [if_neg hs, if_neg hs]
    refine uPow_eq ht hs' ha hn ?_
    rcases h with h | h
    · rcases isNum_cases ht with h' | h' | h' | h' | h' | h' | h' | h' | h' <;> subst h' <;>
        simp [Fits, i8, i16, i32, i64, u8, u16, u32, u64, u1] at hn h <;> omega
    · exact h.2

/-- A power of numbers of the type is a number of the type. -/
theorem pow_fits {t : Ty} (ht : IsNum t) {a n r : Int} (ha : Fits t a) (hn : Fits t n)
    (h : method t .pow a n = .ok r) : Fits t r := by
  unfold method at h
  by_cases hs : t.signed = true
  · rw [if_pos hs] at h
    rcases isTy_or ht with hT | hT
    · by_cases hn0 : 0 ≤ n
      · obtain ⟨r', h1, h2⟩ := C32_pow hT ha hn hn0
        rw [h1] at h; cases h; exact h2.2
      · rw [C32_pow_negative t a (by omega)] at h; cases h
    · subst hT; cases hs
  · rw [if_neg hs] at h
    unfold uPowBoxed at h
    cases hp : intPow (wrap64 a) (wrap64 n) with
    | ok v => rw [hp] at h; simp at h; subst h; exact fits_wrap ht v
    | _ => rw [hp] at h; simp at h

/-- A power never raises a division by zero, and never diverges. -/
theorem pow_ok {t : Ty} (ht : IsNum t) {a n : Int} (ha : Fits t a) (hn : Fits t n)
    (h : (t.signed = false ∧ t ≠ u64) ∨ (0 ≤ n ∧ n < 2 ^ 63)) : ∃ r, method t .pow a n = .ok r := by
  unfold method
  by_cases hs : t.signed = true
  · rw [if_pos hs]
    rcases isTy_or ht with hT | hT
    · have hn0 : 0 ≤ n := by
        rcases h with h | h
        · rw [h.1] at hs; cases hs
        · exact h.1
      obtain ⟨r', h1, h2⟩ := C32_pow hT ha hn hn0
      exact ⟨r', h1⟩
    · subst hT; cases hs
  · rw [if_neg hs]
    unfold uPowBoxed
    rw [wrap64_eq, wrap64_eq, intPow_eq (In_wrap i64 a) (In_wrap i64 n)]
    exact ⟨_, rfl⟩

end Verif.Unbox
