import Verif.Iter.Model
import Mathlib.Data.List.Induction
import Mathlib.Tactic.ByContra
/-!
# C44: the iterator functions agree with the functions on sequences; C45: tuples are ordered lexicographically
-/
namespace Verif.Iter
open Verif

variable {σ τ α β : Type}

/-- An iterator in state `s` gives the elements `l`, in this order, and then stops in state `s'`. -/
def Yields (next : Next σ α) : σ → List α → σ → Prop
  | s, [], s' => next s = .ok (none, s')
  | s, a :: l, s' => ∃ s1, next s = .ok (some a, s1) ∧ Yields next s1 l s'

/-- The iterator of a list, list.c: the state is the remaining elements. -/
def listNext : Next (List α) α
  | [] => .ok (none, [])
  | a :: l => .ok (some a, l)

theorem yields_list : ∀ l : List α, Yields listNext l l []
  | [] => rfl
  | _ :: l => ⟨l, rfl, yields_list l⟩

/-- Numbering from `n`; the number is an `int`. -/
def numbered (n : Int) : List α → List (Int × α)
  | [] => []
  | a :: l => (n, a) :: numbered (n + 1) l

/-- C44: `enumerate` numbers the elements. -/
theorem C44_enumerate {next : Next σ α} : ∀ {l : List α} {s s' : σ} {n : Int}, Yields next s l s' → InI64 n →
    InI64 (n + l.length) → Yields (enumerateNext next) (s, n) (numbered n l) (s', n + l.length)
  | [], s, s', n, h, _, _ => by
    simp only [Yields] at h
    simp [numbered, Yields, enumerateNext, h]
  | a :: l, s, s', n, h, hn, hl => by
    obtain ⟨s1, h1, h2⟩ := h
    simp only [List.length_cons] at hl ⊢
    have h3 : InI64 (n + 1) := by unfold InI64 at *; omega
    have h4 := C44_enumerate (n := n + 1) h2 h3 (by unfold InI64 at *; omega)
    refine ⟨(s1, n + 1), ?_, ?_⟩
    · simp [enumerateNext, h1, wrap64_of_in h3]
    · have : n + ((l.length + 1 : Nat) : Int) = n + 1 + l.length := by omega
      rw [this]
      exact h4

/-- C44: `map` applies the function to every element. -/
theorem C44_map {next : Next σ α} {f : α → Res β} {g : α → β} : ∀ {l : List α} {s s' : σ}, Yields next s l s' →
    (∀ a ∈ l, f a = .ok (g a)) → Yields (mapNext next f) s (l.map g) s'
  | [], s, s', h, _ => by
    simp only [Yields] at h
    simp [Yields, mapNext, h]
  | a :: l, s, s', h, hf => by
    obtain ⟨s1, h1, h2⟩ := h
    refine ⟨s1, ?_, C44_map h2 fun a ha => hf a (by simp [ha])⟩
    simp [mapNext, h1, hf a (by simp), stopOr]

/-- C44: `zip` pairs the elements up to the end of the shorter. -/
theorem C44_zip {next : Next σ α} {next' : Next τ β} : ∀ {l : List α} {l' : List β} {s s' : σ} {t t' : τ}, Yields next s l s' →
    Yields next' t l' t' → ∃ u, Yields (zipNext next next') (s, t) (l.zip l') u
  | [], l', s, s', t, t', h, h' => by
    simp only [Yields] at h
    exact ⟨(s', t), by simp [Yields, zipNext, h]⟩
  | a :: l, [], s, s', t, t', h, h' => by
    obtain ⟨s1, h1, h2⟩ := h
    simp only [Yields] at h'
    exact ⟨(s1, t'), by simp [Yields, zipNext, h1, h']⟩
  | a :: l, b :: l', s, s', t, t', h, h' => by
    obtain ⟨s1, h1, h2⟩ := h
    obtain ⟨t1, h3, h4⟩ := h'
    obtain ⟨u, hu⟩ := C44_zip h2 h4
    exact ⟨u, (s1, t1), by simp [zipNext, h1, h3], hu⟩

theorem filter_skip {next : Next σ α} {f : α → Res Val} {p : α → Bool} : ∀ {l : List α} {s s' : σ} {fuel : Nat},
    Yields next s l s' → (∀ a ∈ l, f a = .ok (.bool (p a))) → l.length < fuel →
    (l.filter p = [] ∧ filterNext next (some f) fuel s = .ok (none, s')) ∨
    ∃ a l' s1, l.filter p = a :: l'.filter p ∧ l'.length < l.length ∧ (∀ a ∈ l', a ∈ l) ∧
      filterNext next (some f) fuel s = .ok (some a, s1) ∧ Yields next s1 l' s'
  | [], s, s', fuel + 1, h, _, _ => by
    simp only [Yields] at h
    exact .inl ⟨rfl, by simp [filterNext, h]⟩
  | a :: l, s, s', fuel + 1, h, hf, hl => by
    obtain ⟨s1, h1, h2⟩ := h
    simp only [List.length_cons] at hl
    have ht : stopOr s1 (test f a) = .ok (some (p a), s1) := by
      simp [test, hf a (by simp), fromBool, stopOr]
    cases hp : p a
    · have e : filterNext next (some f) (fuel + 1) s = filterNext next (some f) fuel s1 := by
        simp [filterNext, h1, ht, hp]
      rw [e, List.filter_cons_of_neg (by simp [hp])]
      rcases filter_skip (fuel := fuel) h2 (fun a ha => hf a (by simp [ha])) (by omega) with h | ⟨b, l', s2, e1, e2, e3, e4, e5⟩
      · exact .inl h
      · exact .inr ⟨b, l', s2, e1, by simp; omega, fun c hc => by simp [e3 c hc], e4, e5⟩
    · refine .inr ⟨a, l, s1, by rw [List.filter_cons_of_pos hp], by simp, fun c hc => by simp [hc], ?_, h2⟩
      simp [filterNext, h1, ht, hp]
  | _, _, _, 0, _, _, h => by omega

/-- C44: `filter` with a function that gives a `bool` keeps the elements for which it is true. -/
theorem C44_filter_partial {next : Next σ α} {f : α → Res Val} {p : α → Bool} {fuel : Nat} {l : List α} {s s' : σ}
    (h : Yields next s l s') (hf : ∀ a ∈ l, f a = .ok (.bool (p a))) (hl : l.length < fuel) :
    Yields (filterNext next (some f) fuel) s (l.filter p) s' := by
  generalize hn : l.length = n at hl
  induction n using Nat.strongRecOn generalizing l s with
  | ind n ih =>
    rcases filter_skip (fuel := fuel) h hf (by omega) with ⟨e1, e2⟩ | ⟨a, l', s1, e1, e2, e3, e4, e5⟩
    · rw [e1]; exact e2
    · rw [e1]
      exact ⟨s1, e4, ih l'.length (by omega) (l := l') e5 (fun a ha => hf a (e3 a ha)) rfl (by omega)⟩

/-- C44 is false for `filter` with other functions: `None` is dereferenced, a result `None` too, and the truth of
other objects is that of their first byte: an `int` that is a multiple of 256 counts as false. -/
theorem C44_refuted_filter (next : Next σ α) (s s1 : σ) (a : α) (fuel : Nat) (h : next s = .ok (some a, s1)) :
    filterNext next none (fuel + 1) s = .ub ∧
    filterNext next (some fun _ => .ok .none) (fuel + 1) s = .ub ∧
    filterNext next (some fun _ => .ok (.other 0)) (fuel + 1) s = filterNext next (some fun _ => .ok (.other 0)) fuel s1 ∧
    filterNext next (some fun _ => .ok (.other 2)) (fuel + 1) s = .ub := by
  refine ⟨?_, ?_, ?_, ?_⟩ <;> simp [filterNext, h, test, fromBool, stopOr]

/-- A loop over an iterator folds its body over the elements. -/
theorem loop_spec {next : Next σ α} {f : β → α → Res β} {g : β → α → β} : ∀ {l : List α} {s s' : σ} {r : β} {fuel : Nat},
    Yields next s l s' → (∀ r a, a ∈ l → f r a = .ok (g r a)) → l.length < fuel →
    loop next f fuel s r = .ok (l.foldl g r)
  | [], s, s', r, fuel + 1, h, _, _ => by
    simp only [Yields] at h
    simp [loop, h]
  | a :: l, s, s', r, fuel + 1, h, hf, hl => by
    obtain ⟨s1, h1, h2⟩ := h
    simp only [List.length_cons] at hl
    have := loop_spec (r := g r a) (fuel := fuel) h2 (fun r a ha => hf r a (by simp [ha])) (by omega)
    simp [loop, h1, hf r a (by simp), stopOr, this]
  | _, _, _, _, 0, _, _, h => by omega

/-- C44: `list` of an iterator has its elements. -/
theorem C44_list {next : Next σ α} {l : List α} {s s' : σ} {fuel : Nat} (h : Yields next s l s') (hl : l.length < fuel) :
    toList next fuel s = .ok l := by
  unfold toList
  rw [loop_spec (g := fun l a => l ++ [a]) h (fun _ _ _ => rfl) hl]
  have : ∀ (l acc : List α), l.foldl (fun l a => l ++ [a]) acc = acc ++ l := by
    intro l
    induction l with
    | nil => intro acc; simp
    | cons a l ih => intro acc; rw [List.foldl_cons, ih]; simp
  rw [this]
  rfl

/-- C44: the sum of integers is their sum, modulo the range of `int`. -/
theorem C44_sum {next : Next σ Int} {l : List Int} {s s' : σ} {fuel : Nat} (h : Yields next s l s') (hl : l.length < fuel)
    (start : Option Int) (hs : ∀ n, start = some n → InI64 n) :
    sum next (fun a b => .ok (wrap64 (a + b))) 0 fuel s start = .ok (wrap64 (start.getD 0 + l.sum)) := by
  unfold sum
  rw [loop_spec (g := fun a b => wrap64 (a + b)) h (fun _ _ _ => rfl) hl]
  have hw : ∀ a b : Int, wrap64 (wrap64 a + b) = wrap64 (a + b) := by
    intro a b
    unfold wrap64
    exact Int.bmod_add_bmod
  have key : ∀ (l : List Int) (r : Int), l.foldl (fun a b => wrap64 (a + b)) (wrap64 r) = wrap64 (r + l.sum) := by
    intro l
    induction l with
    | nil => intro r; simp
    | cons a l ih =>
      intro r
      rw [List.foldl_cons]
      simp only [hw]
      rw [ih, List.sum_cons, Int.add_assoc]
  have h0 : start.getD 0 = wrap64 (start.getD 0) := by
    cases start with
    | none => rfl
    | some n => exact (wrap64_of_in (hs n rfl)).symm
  rw [h0, key, ← h0]

/-- What is asked of `__lt__`: it is the strict part of a total preorder. -/
structure LtOk (lt : α → α → Bool) : Prop where
  asymm : ∀ a b, lt a b = true → lt b a = false
  trans : ∀ a b c, lt b a = false → lt c b = false → lt c a = false

/-- `m` is a greatest element of `l`, the first of them. -/
def FirstMax (lt : α → α → Bool) (l : List α) (m : α) : Prop :=
  ∃ l1 l2, l = l1 ++ m :: l2 ∧ (∀ a ∈ l1, lt a m = true) ∧ ∀ a ∈ l2, lt m a = false

def pick (lt : α → α → Bool) (r a : α) : α := if lt r a then a else r

theorem fold_max {lt : α → α → Bool} (ok : LtOk lt) (r : α) (l : List α) : FirstMax lt (r :: l) (l.foldl (pick lt) r) := by
  induction l using List.reverseRecOn with
  | nil => exact ⟨[], [], rfl, by simp, by simp⟩
  | append_singleton l a ih =>
    obtain ⟨l1, l2, e, h1, h2⟩ := ih
    rw [List.foldl_append, List.foldl_cons, List.foldl_nil]
    generalize List.foldl (pick lt) r l = m at *
    have hs : r :: (l ++ [a]) = l1 ++ m :: l2 ++ [a] := by rw [← e]; rfl
    unfold pick
    cases hlt : lt m a
    · rw [if_neg (by simp)]
      refine ⟨l1, l2 ++ [a], by rw [hs]; simp, h1, fun b hb => ?_⟩
      rcases List.mem_append.1 hb with hb | hb
      · exact h2 b hb
      · rw [List.mem_singleton.1 hb]; exact hlt
    · rw [if_pos rfl]
      refine ⟨l1 ++ m :: l2, [], by rw [hs], fun b hb => ?_, by simp⟩
      have irr : lt m m = false := by
        by_contra hc
        have hc : lt m m = true := by simpa using hc
        have := ok.asymm m m hc
        rw [hc] at this; cases this
      have hle : lt m b = false := by
        rcases List.mem_append.1 hb with hb | hb
        · exact ok.asymm b m (h1 b hb)
        · rcases List.mem_cons.1 hb with rfl | hb
          · exact irr
          · exact h2 b hb
      by_contra hc
      have hc : lt b a = false := by simpa using hc
      have := ok.trans a b m hc hle
      rw [hlt] at this; cases this

theorem fold_body {lt : α → α → Bool} : ∀ (l : List α) (r : α),
    l.foldl (fun (r : Option α) a => match r with | none => some a | some r => if lt r a then some a else some r) (some r) =
      some (l.foldl (pick lt) r)
  | [], _ => rfl
  | a :: l, r => by
    rw [List.foldl_cons, List.foldl_cons, ← fold_body l]
    unfold pick
    simp only
    split <;> rfl

theorem max_loop {next : Next σ α} {lt : α → α → Bool} {l : List α} {s s' : σ} {fuel : Nat} (h : Yields next s l s')
    (hl : l.length < fuel) (r : Option α) :
    loop next (maxBody lt) fuel s r =
      .ok (l.foldl (fun (r : Option α) a => match r with | none => some a | some r => if lt r a then some a else some r) r) := by
  apply loop_spec h _ hl
  intro r a _
  cases r with
  | none => rfl
  | some r => rfl

/-- C44: `max` without a default gives the first greatest element, and raises `ValueError` if there is none.
Missing: `max` with a default, see the refutation. -/
theorem C44_max_partial {next : Next σ α} {lt : α → α → Bool} (ok : LtOk lt) {l : List α} {s s' : σ} {fuel : Nat}
    (h : Yields next s l s') (hl : l.length < fuel) :
    (l = [] ∧ max next lt fuel s none = .raise .valueError) ∨ ∃ m, max next lt fuel s none = .ok m ∧ FirstMax lt l m := by
  unfold max
  rw [max_loop h hl, Res.ok_bind]
  cases l with
  | nil => exact .inl ⟨rfl, rfl⟩
  | cons a l =>
    rw [List.foldl_cons, fold_body]
    exact .inr ⟨_, rfl, fold_max ok a l⟩

/-- C44: `min` gives the first least element, the default if there is no element, and raises `ValueError` if there is
no default either. -/
theorem C44_min {next : Next σ α} {gt : α → α → Bool} (ok : LtOk gt) {l : List α} {s s' : σ} {fuel : Nat}
    (h : Yields next s l s') (hl : l.length < fuel) (dflt : Option α) :
    (l = [] ∧ min next gt fuel s dflt = (match dflt with | some d => .ok d | none => .raise .valueError)) ∨
    ∃ m, min next gt fuel s dflt = .ok m ∧ FirstMax gt l m := by
  unfold min
  rw [max_loop h hl, Res.ok_bind]
  cases l with
  | nil => refine .inl ⟨rfl, ?_⟩; cases dflt <;> rfl
  | cons a l =>
    rw [List.foldl_cons, fold_body]
    exact .inr ⟨_, rfl, fold_max ok a l⟩

/-- C44: `max_def` and `min_def` include the default. -/
theorem C44_max_def {next : Next σ α} {lt : α → α → Bool} (ok : LtOk lt) {l : List α} {s s' : σ} {fuel : Nat}
    (h : Yields next s l s') (hl : l.length < fuel) (d : α) : ∃ m, maxDef next lt fuel s d = .ok m ∧ FirstMax lt (d :: l) m :=
  ⟨_, loop_spec (g := pick lt) h (fun _ _ _ => rfl) hl, fold_max ok d l⟩

/-- C44 is false for `max` with a default: a default that is greater than all elements is the result, although there are
elements (builtin_functions.c:222; `B_min` starts with `NULL`). -/
theorem C44_refuted_max : max listNext (fun a b : Int => decide (a < b)) 3 [1, 2] (some 5) = .ok 5 ∧
    min listNext (fun a b : Int => decide (a > b)) 3 [1, 2] (some 0) = .ok 1 := by decide

/-- C44: `all` and `any`. They stop at the first element that decides. -/
theorem C44_search {next : Next σ α} {truth : α → Bool} : ∀ {l : List α} {s s' : σ} {fuel : Nat}, Yields next s l s' →
    l.length < fuel → (∃ u, search next truth false fuel s = .ok (l.all truth, u)) ∧
      ∃ u, search next truth true fuel s = .ok (l.any truth, u)
  | [], s, s', fuel + 1, h, _ => by
    simp only [Yields] at h
    exact ⟨⟨s', by simp [search, h]⟩, ⟨s', by simp [search, h]⟩⟩
  | a :: l, s, s', fuel + 1, h, hl => by
    obtain ⟨s1, h1, h2⟩ := h
    simp only [List.length_cons] at hl
    obtain ⟨⟨u, hu⟩, ⟨u', hu'⟩⟩ := C44_search (truth := truth) (fuel := fuel) h2 (by omega)
    cases ht : truth a
    · exact ⟨⟨s1, by simp [search, h1, ht]⟩, ⟨u', by simp [search, h1, ht, hu']⟩⟩
    · exact ⟨⟨u, by simp [search, h1, ht, hu]⟩, ⟨s1, by simp [search, h1, ht]⟩⟩
  | _, _, _, 0, _, h => by omega

/-- The hypotheses can be met, and the functions combined. -/
example : Yields (enumerateNext (filterNext (mapNext listNext fun a : Int => .ok (a * 2)) (some fun a => .ok (.bool (a > 3))) 5))
    ([1, 2, 3, 4], 0) [(0, 4), (1, 6), (2, 8)] ([], 3) := by
  have h1 := C44_map (f := fun a : Int => .ok (a * 2)) (g := fun a => a * 2) (yields_list [1, 2, 3, 4]) fun _ _ => rfl
  have h2 := C44_filter_partial (p := fun a => a > 3) (fuel := 5) (f := fun a => .ok (.bool (a > 3))) h1 (fun _ _ => rfl) (by simp)
  exact C44_enumerate (n := 0) h2 (by decide) (by decide)

example : LtOk (fun a b : Int => decide (a < b)) := ⟨by simp; omega, by simp; omega⟩

example : max listNext (fun a b : Int => decide (a < b)) 4 [1, 5, 2] none = .ok 5 := by decide

/-! ### C45 -/

/-- What is asked of the `Ord` of a component, on its values `D`: a strict total order. -/
structure OrdWit.Ok (w : OrdWit α) (D : α → Prop) : Prop where
  eq : ∀ a b, D a → D b → (w.eq a b = true ↔ a = b)
  ne : ∀ a b, D a → D b → w.ne a b = !w.eq a b
  irrefl : ∀ a, D a → w.lt a a = false
  trans : ∀ a b c, D a → D b → D c → w.lt a b = true → w.lt b c = true → w.lt a c = true
  total : ∀ a b, D a → D b → w.lt a b = true ∨ a = b ∨ w.lt b a = true

/-- A tuple of a type: the witnesses, with the values of each component. -/
inductive Typed : List (OrdWit α × (α → Prop)) → List α → Prop
  | nil : Typed [] []
  | cons {w D ws a as} : D a → Typed ws as → Typed ((w, D) :: ws) (a :: as)

/-- The lexicographic order: the first component in which the tuples differ decides. -/
def Lex (ws : List (OrdWit α × (α → Prop))) (as bs : List α) : Prop :=
  ∃ (i : Nat) (w : OrdWit α × (α → Prop)) (a b : α), ws[i]? = some w ∧ as[i]? = some a ∧ bs[i]? = some b ∧ w.1.lt a b = true ∧ as.take i = bs.take i

theorem lex_cons {w : OrdWit α} {D : α → Prop} {ws : List (OrdWit α × (α → Prop))} {a b : α} {as bs : List α} :
    Lex ((w, D) :: ws) (a :: as) (b :: bs) ↔ w.lt a b = true ∨ a = b ∧ Lex ws as bs := by
  constructor
  · rintro ⟨i, v, x, y, h1, h2, h3, h4, h5⟩
    cases i with
    | zero =>
      simp only [List.getElem?_cons_zero, Option.some.injEq] at h1 h2 h3
      subst h1 h2 h3
      exact .inl h4
    | succ i =>
      simp only [List.getElem?_cons_succ, List.take_succ_cons, List.cons.injEq] at h1 h2 h3 h5
      exact .inr ⟨h5.1, i, v, x, y, h1, h2, h3, h4, h5.2⟩
  · rintro (h | ⟨rfl, i, v, x, y, h1, h2, h3, h4, h5⟩)
    · exact ⟨0, (w, D), a, b, rfl, rfl, rfl, h, rfl⟩
    · exact ⟨i + 1, v, x, y, by simpa using h1, by simpa using h2, by simpa using h3, h4, by simp [h5]⟩

theorem lex_nil (as bs : List α) : ¬ Lex [] as bs := by
  rintro ⟨i, w, a, b, h, _⟩
  simp at h

/-- C45: `==` and the comparisons of tuples of the same type. -/
theorem C45_compare : ∀ {ws : List (OrdWit α × (α → Prop))} {as bs : List α}, (∀ w ∈ ws, w.1.Ok w.2) → Typed ws as → Typed ws bs →
    (∃ r, tupleEq (ws.map (·.1)) as bs = .ok r ∧ (r = true ↔ as = bs)) ∧
    (∃ r, tupleLex true (ws.map (·.1)) as bs = .ok r ∧ (r = true ↔ Lex ws as bs)) ∧
    (∃ r, tupleLex false (ws.map (·.1)) as bs = .ok r ∧ (r = true ↔ Lex ws as bs ∨ as = bs))
  | [], _, _, _, .nil, .nil => ⟨⟨true, rfl, by simp⟩, ⟨false, rfl, by simp [lex_nil]⟩, ⟨true, rfl, by simp⟩⟩
  | (w, D) :: ws, a :: as, b :: bs, ok, .cons ha has, .cons hb hbs => by
    have okw : w.Ok D := ok (w, D) (by simp)
    obtain ⟨⟨r1, e1, h1⟩, ⟨r2, e2, h2⟩, ⟨r3, e3, h3⟩⟩ := C45_compare (fun w hw => ok w (by simp [hw])) has hbs
    rw [lex_cons]
    by_cases hab : a = b
    · subst hab
      have he : w.eq a a = true := (okw.eq a a ha ha).2 rfl
      have hn : w.ne a a = false := by rw [okw.ne a a ha ha, he]; rfl
      have hl := okw.irrefl a ha
      refine ⟨⟨r1, by simp [tupleEq, he, e1], by simp [h1]⟩, ⟨r2, by simp [tupleLex, hl, hn, e2], by simp [h2, hl]⟩,
        ⟨r3, by simp [tupleLex, hl, hn, e3], by simp [h3, hl]⟩⟩
    · have he : w.eq a b = false := by
        by_contra hc
        exact hab ((okw.eq a b ha hb).1 (by simpa using hc))
      have hn : w.ne a b = true := by rw [okw.ne a b ha hb, he]; rfl
      refine ⟨⟨false, by simp [tupleEq, he], by simp [hab]⟩, ?_⟩
      cases hl : w.lt a b
      · exact ⟨⟨false, by simp [tupleLex, hl, hn], by simp [hab]⟩, ⟨false, by simp [tupleLex, hl, hn], by simp [hab]⟩⟩
      · exact ⟨⟨true, by simp [tupleLex, hl], by simp⟩, ⟨true, by simp [tupleLex, hl], by simp⟩⟩

/-- C45: the order is a strict total order. -/
theorem C45_order : ∀ {ws : List (OrdWit α × (α → Prop))}, (∀ w ∈ ws, w.1.Ok w.2) →
    (∀ as, Typed ws as → ¬ Lex ws as as) ∧
    (∀ as bs cs, Typed ws as → Typed ws bs → Typed ws cs → Lex ws as bs → Lex ws bs cs → Lex ws as cs) ∧
    (∀ as bs, Typed ws as → Typed ws bs → Lex ws as bs ∨ as = bs ∨ Lex ws bs as)
  | [], _ => by
    refine ⟨fun as _ => lex_nil as as, fun as bs cs _ _ _ h => absurd h (lex_nil as bs), fun as bs h1 h2 => ?_⟩
    cases h1; cases h2
    exact .inr (.inl rfl)
  | (w, D) :: ws, ok => by
    have okw : w.Ok D := ok (w, D) (by simp)
    obtain ⟨ih1, ih2, ih3⟩ := C45_order (ws := ws) fun w hw => ok w (by simp [hw])
    refine ⟨?_, ?_, ?_⟩
    · rintro _ (_ | ⟨ha, has⟩)
      rw [lex_cons, okw.irrefl _ ha]
      simp [ih1 _ has]
    · rintro _ _ _ (_ | ⟨ha, has⟩) (_ | ⟨hb, hbs⟩) (_ | ⟨hc, hcs⟩)
      rw [lex_cons, lex_cons, lex_cons]
      rintro (h | ⟨rfl, h⟩) (h' | ⟨rfl, h'⟩)
      · exact .inl (okw.trans _ _ _ ha hb hc h h')
      · exact .inl h
      · exact .inl h'
      · exact .inr ⟨rfl, ih2 _ _ _ has hbs hcs h h'⟩
    · rintro _ _ (_ | @⟨_, _, _, a, as, ha, has⟩) (_ | @⟨_, _, _, b, bs, hb, hbs⟩)
      rw [lex_cons, lex_cons]
      rcases okw.total a b ha hb with h | rfl | h
      · exact .inl (.inl h)
      · rcases ih3 as bs has hbs with h | rfl | h
        · exact .inl (.inr ⟨rfl, h⟩)
        · exact .inr (.inl rfl)
        · exact .inr (.inr (.inr ⟨rfl, h⟩))
      · exact .inr (.inr (.inl h))

/-- C45: equal tuples are hashed alike, if equal components are; and the digests of the components can be read from what
is hashed, so that tuples with different digests in some component feed different input to the hasher. -/
theorem C45_hash (digest : Nat → α → Nat) : ∀ (n i : Nat) (as bs : List α), as.length = n → bs.length = n →
    ∃ x y, tupleHash digest i n as = .ok x ∧ tupleHash digest i n bs = .ok y ∧
      (x = y ↔ ∀ (k : Nat) (a b : α), as[k]? = some a → bs[k]? = some b → digest (i + k) a = digest (i + k) b)
  | 0, i, as, bs, h1, h2 => by
    rw [List.length_eq_zero_iff] at h1 h2
    subst h1 h2
    exact ⟨[], [], rfl, rfl, by simp⟩
  | n + 1, i, a :: as, b :: bs, h1, h2 => by
    obtain ⟨x, y, hx, hy, h⟩ := C45_hash digest n (i + 1) as bs (by simpa using h1) (by simpa using h2)
    refine ⟨digest i a :: x, digest i b :: y, by simp [tupleHash, hx], by simp [tupleHash, hy], ?_⟩
    rw [List.cons.injEq, h]
    constructor
    · rintro ⟨h3, h4⟩ k c d hc hd
      cases k with
      | zero => simp at hc hd; subst hc hd; exact h3
      | succ k => have := h4 k c d (by simpa using hc) (by simpa using hd); rwa [show i + (k + 1) = i + 1 + k by omega]
    · intro h3
      refine ⟨by simpa using h3 0 a b rfl rfl, fun k c d hc hd => ?_⟩
      have := h3 (k + 1) c d (by simpa using hc) (by simpa using hd)
      rwa [show i + (k + 1) = i + 1 + k by omega] at this

/-- Two components that are integers and one of two values. -/
def intWit : OrdWit Int := ⟨fun a b => a = b, fun a b => a ≠ b, fun a b => a < b⟩

example : intWit.Ok fun _ => True :=
  ⟨by simp [intWit], by simp [intWit], by simp [intWit], by simp [intWit]; omega, by simp [intWit]; omega⟩

example : Typed [(intWit, fun _ => True), (intWit, fun b => b = 0 ∨ b = 1)] [7, 1] := .cons trivial (.cons (.inr rfl) .nil)

example : tupleLex true [intWit, intWit] [1, 5] [1, 7] = .ok true ∧ tupleLex true [intWit, intWit] [2, 5] [1, 7] = .ok false ∧
    tupleLex false [intWit, intWit] [1, 5] [1, 5] = .ok true := by decide

end Verif.Iter
