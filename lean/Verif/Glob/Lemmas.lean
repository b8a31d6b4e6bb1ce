import Verif.Glob.Model
import Verif.Glob.Spec
/-!
# Lemmas for `fs.glob`
-/
namespace Verif.Glob
open Verif

theorem at_app (pre t : Text) (c : Nat) : at_ (pre ++ c :: t) pre.length = .ok c := by
  unfold at_; simp

theorem at_some {t : Text} {i c : Nat} (h : t[i]? = some c) : at_ t i = .ok c := by
  unfold at_; rw [h]

theorem at_drop {t r : Text} {i c : Nat} (h : t.drop i = c :: r) : at_ t i = .ok c := by
  apply at_some
  have := congrArg List.head? h
  rwa [List.head?_drop] at this

theorem here_one (t : Text) (x k : Nat) : here t [x] k = true ↔ t[k]? = some x := by
  unfold here
  rw [decide_eq_true_iff, ← List.head?_drop]
  cases t.drop k with
  | nil => simp
  | cons a l => simp

/-- `findFrom` gives the first place from `i` on. -/
theorem findFrom_spec (t sub : Text) (i : Nat) :
    (∃ k : Nat, findFrom t sub i = k ∧ i ≤ k ∧ k ≤ t.length ∧ here t sub k = true ∧ ∀ j, i ≤ j → j < k → here t sub j = false) ∨
    (findFrom t sub i = -1 ∧ ∀ j, i ≤ j → j ≤ t.length → here t sub j = false) := by
  unfold findFrom
  cases h : (List.range' i (t.length + 1 - i)).find? (here t sub) with
  | none =>
    refine Or.inr ⟨rfl, fun j h1 h2 => ?_⟩
    rw [List.find?_eq_none] at h
    have := h j (List.mem_range'_1.2 ⟨h1, by omega⟩)
    simpa using this
  | some k =>
    rw [List.find?_range'_eq_some] at h
    obtain ⟨h1, h2, h3⟩ := h
    have := List.mem_range'_1.1 h2
    refine Or.inl ⟨k, rfl, by omega, by omega, h1, fun j hj hk => ?_⟩
    simpa using h3 j hj hk

theorem findFrom_hit (pre body t : Text) (c x : Nat) (hx : x ∉ body) :
    findFrom (pre ++ c :: (body ++ x :: t)) [x] (pre.length + 1) = ((pre.length + 1 + body.length : Nat) : Int) := by
  have e : (pre ++ c :: (body ++ x :: t))[pre.length + 1 + body.length]? = some x := by
    rw [List.getElem?_append_right (by omega), show pre.length + 1 + body.length - pre.length = body.length + 1 by omega,
      List.getElem?_cons_succ, List.getElem?_append_right (by omega)]
    simp
  have no : ∀ j, pre.length + 1 ≤ j → j < pre.length + 1 + body.length → here (pre ++ c :: (body ++ x :: t)) [x] j = false := by
    intro j h1 h2
    rw [← Bool.not_eq_true, here_one]
    intro hj
    obtain ⟨m, rfl⟩ : ∃ m, j = pre.length + (m + 1) := ⟨j - pre.length - 1, by omega⟩
    rw [List.getElem?_append_right (by omega), show pre.length + (m + 1) - pre.length = m + 1 by omega,
      List.getElem?_cons_succ, List.getElem?_append_left (by omega)] at hj
    exact hx (List.mem_of_getElem? hj)
  rcases findFrom_spec (pre ++ c :: (body ++ x :: t)) [x] (pre.length + 1) with ⟨k, h1, h2, h3, h4, h5⟩ | ⟨h1, h2⟩
  · rw [h1]
    by_cases hlt : k < pre.length + 1 + body.length
    · rw [no k h2 hlt] at h4; exact absurd h4 (by decide)
    · by_cases hgt : pre.length + 1 + body.length < k
      · have := h5 _ (by omega) hgt
        rw [(here_one _ _ _).2 e] at this
        exact absurd this (by decide)
      · rw [show k = pre.length + 1 + body.length by omega]
  · have := h2 (pre.length + 1 + body.length) (by omega) (by simp; omega)
    rw [(here_one _ _ _).2 e] at this
    exact absurd this (by decide)

theorem findFrom_miss (pre t : Text) (c x : Nat) (hx : x ∉ t) : findFrom (pre ++ c :: t) [x] (pre.length + 1) = -1 := by
  rcases findFrom_spec (pre ++ c :: t) [x] (pre.length + 1) with ⟨k, h1, h2, h3, h4, h5⟩ | ⟨h1, -⟩
  · exfalso
    rw [here_one] at h4
    obtain ⟨m, rfl⟩ : ∃ m, k = pre.length + (m + 1) := ⟨k - pre.length - 1, by omega⟩
    rw [List.getElem?_append_right (by omega), show pre.length + (m + 1) - pre.length = m + 1 by omega,
      List.getElem?_cons_succ] at h4
    exact hx (List.mem_of_getElem? h4)
  · exact h1

/-- The test of fs.act:98 for a separator of one character: the character at `s` is not the separator. -/
theorem nextSep_gt (path r : Text) (s c sep : Nat) (h : path.drop s = c :: r) :
    ((s : Int) < nextSep [sep] path s) ↔ c ≠ sep := by
  have hc : path[s]? = some c := by
    have := congrArg List.head? h
    rwa [List.head?_drop] at this
  have hs : s < path.length := (List.getElem?_eq_some_iff.1 hc).1
  unfold nextSep
  rcases findFrom_spec path [sep] s with ⟨k, h1, h2, h3, h4, h5⟩ | ⟨h1, h2⟩
  · rw [h1, if_neg (by omega)]
    rw [here_one] at h4
    constructor
    · intro hlt he
      subst he
      have := h5 s (by omega) (by omega)
      rw [(here_one _ _ _).2 hc] at this
      exact absurd this (by decide)
    · intro hne
      by_cases he : k = s
      · subst he
        rw [hc] at h4
        exact absurd (Option.some.inj h4) hne
      · omega
  · rw [h1, if_pos rfl]
    refine ⟨fun _ he => ?_, fun _ => by omega⟩
    subst he
    have := h2 s (by omega) (by omega)
    rw [(here_one _ _ _).2 hc] at this
    exact absurd this (by decide)

theorem splitComma_ne (t : Text) : splitComma t ≠ [] := by
  cases t with
  | nil => simp [splitComma]
  | cons c t =>
    unfold splitComma
    split
    · simp
    · split <;> simp

theorem splitComma_free (t : Text) (h : 44 ∉ t) : splitComma t = [t] := by
  induction t with
  | nil => rfl
  | cons c t ih =>
    simp only [List.mem_cons, not_or] at h
    unfold splitComma
    rw [if_neg (fun e => h.1 e.symm), ih h.2]

theorem splitComma_more (a b : Text) (h : 44 ∉ a) : splitComma (a ++ 44 :: b) = a :: splitComma b := by
  induction a with
  | nil => rw [List.nil_append, splitComma, if_pos rfl]
  | cons c a ih =>
    simp only [List.mem_cons, not_or] at h
    rw [List.cons_append, splitComma, if_neg (fun e => h.1 e.symm), ih h.2]

theorem splitComma_mem (t : Text) : ∀ o ∈ splitComma t, ∀ x ∈ o, x ∈ t := by
  induction t with
  | nil => intro o ho x hx; simp [splitComma] at ho; subst ho; simp at hx
  | cons c t ih =>
    intro o ho x hx
    unfold splitComma at ho
    split at ho
    · rcases List.mem_cons.1 ho with rfl | ho
      · simp at hx
      · exact List.mem_cons_of_mem _ (ih o ho x hx)
    · split at ho
      · rename_i he; exact absurd he (splitComma_ne t)
      · rename_i a l he
        rcases List.mem_cons.1 ho with rfl | ho
        · rcases List.mem_cons.1 hx with rfl | hx
          · simp
          · exact List.mem_cons_of_mem _ (ih a (by rw [he]; simp) x hx)
        · exact List.mem_cons_of_mem _ (ih o (by rw [he]; simp [ho]) x hx)

theorem occurs_comma (t : Text) (k : Nat) : Search.OccursAt t [44] k ↔ t[k]? = some 44 := by
  rw [← here_one, here, decide_eq_true_iff]
  unfold Search.OccursAt
  refine ⟨fun h => h.2, fun h => ⟨?_, h⟩⟩
  have := congrArg List.length h
  simp only [List.length_take, List.length_drop, List.length_cons, List.length_nil] at this ⊢
  omega

/-- Splitting as specified is unique. -/
theorem splitsTo_comma {m : Option Nat} {t : Text} {opts : List Text} (h : Str.SplitsTo [44] m t opts) (hm : m = none) :
    opts = splitComma t := by
  induction h with
  | stop => exact absurd hm (by simp)
  | last m t hf =>
    rw [splitComma_free]
    intro hx
    obtain ⟨k, hk⟩ := List.getElem?_of_mem hx
    exact hf k ((occurs_comma t k).2 hk)
  | more m t a b ps ht hj hs hne ih =>
    subst hm
    have ih := ih rfl
    subst ih
    have ht' : t = a ++ 44 :: b := by rw [ht]; simp
    rw [ht', splitComma_more]
    intro hx
    obtain ⟨k, hk⟩ := List.getElem?_of_mem hx
    have hlt : k < a.length := (List.getElem?_eq_some_iff.1 hk).1
    refine hj k hlt ((occurs_comma t k).2 ?_)
    rw [ht', List.getElem?_append_left hlt]
    exact hk

/-! ### The loop over a class -/

theorem classLoop_end (cls : Text) (c n i : Nat) (h : cls.length ≤ i) : classLoop cls c (n + 1) i = .ok false := by
  unfold classLoop; rw [if_neg (by omega)]; rfl

theorem classLoop_range (pre t : Text) (c a b n : Nat) : classLoop (pre ++ a :: 45 :: b :: t) c (n + 1) pre.length =
    if a ≤ c ∧ c ≤ b then .ok true else classLoop (pre ++ a :: 45 :: b :: t) c n (pre.length + 3) := by
  have e1 : at_ (pre ++ a :: 45 :: b :: t) (pre.length + 1) = .ok 45 := by
    have := at_app (pre ++ [a]) (b :: t) 45; simpa using this
  have e2 : at_ (pre ++ a :: 45 :: b :: t) (pre.length + 2) = .ok b := by
    have := at_app (pre ++ [a, 45]) t b; simpa using this
  have ed : dashAt (pre ++ a :: 45 :: b :: t) (pre.length + 1) = .ok true := by
    unfold dashAt; rw [if_pos (by simp; omega), e1]; rfl
  rw [classLoop, if_pos (by simp), ed, Res.ok_bind, if_pos rfl, at_app, Res.ok_bind, e2, Res.ok_bind]
  rfl

theorem classLoop_one (pre t : Text) (c x n : Nat) (h : ∀ b t', t ≠ 45 :: b :: t') :
    classLoop (pre ++ x :: t) c (n + 1) pre.length =
    if x = c then .ok true else classLoop (pre ++ x :: t) c n (pre.length + 1) := by
  have e : dashAt (pre ++ x :: t) (pre.length + 1) = .ok false := by
    unfold dashAt
    by_cases hl : pre.length + 1 + 1 < (pre ++ x :: t).length
    · rw [if_pos hl]
      match t, h with
      | [], _ => simp at hl; omega
      | [y], _ => simp at hl
      | y :: z :: t, h =>
        have e1 : at_ (pre ++ x :: y :: z :: t) (pre.length + 1) = .ok y := by
          have := at_app (pre ++ [x]) (z :: t) y; simpa using this
        rw [e1]
        have : y ≠ 45 := fun hy => h z t (by rw [hy])
        simp [this, Res.bind]
    · rw [if_neg hl]
  rw [classLoop, if_pos (by simp), e, Res.ok_bind, if_neg (by simp), at_app, Res.ok_bind]
  rfl

theorem classLoop_spec (c : Nat) {t : Text} {is : List Item} (h : Items t is) : ∀ (pre : Text) (n : Nat), t.length < n →
    ∃ m, classLoop (pre ++ t) c n pre.length = .ok m ∧ (m = true ↔ ∃ i ∈ is, i.Has c) := by
  induction h with
  | nil =>
    intro pre n hn
    obtain ⟨n, rfl⟩ : ∃ k, n = k + 1 := ⟨n - 1, by simp at hn; omega⟩
    exact ⟨false, classLoop_end _ _ _ _ (by simp), by simp⟩
  | range a b t is h ih =>
    intro pre n hn
    simp only [List.length_cons] at hn
    obtain ⟨n, rfl⟩ : ∃ k, n = k + 1 := ⟨n - 1, by omega⟩
    rw [classLoop_range]
    by_cases hc : a ≤ c ∧ c ≤ b
    · rw [if_pos hc]
      exact ⟨true, rfl, by simp [Item.Has, hc]⟩
    · rw [if_neg hc]
      obtain ⟨m, e, hm⟩ := ih (pre ++ [a, 45, b]) n (by omega)
      refine ⟨m, by simpa using e, ?_⟩
      rw [hm]
      simp [Item.Has, hc]
  | one x t is hne h ih =>
    intro pre n hn
    simp only [List.length_cons] at hn
    obtain ⟨n, rfl⟩ : ∃ k, n = k + 1 := ⟨n - 1, by omega⟩
    rw [classLoop_one _ _ _ _ _ hne]
    by_cases hc : x = c
    · rw [if_pos hc]
      exact ⟨true, rfl, by simp [Item.Has, hc]⟩
    · rw [if_neg hc]
      obtain ⟨m, e, hm⟩ := ih (pre ++ [x]) n (by omega)
      refine ⟨m, by simpa using e, ?_⟩
      rw [hm]
      have : ¬ c = x := fun h => hc h.symm
      simp [Item.Has, this]

/-- Every text is the content of a class in one way (existence). -/
theorem items_total : ∀ (n : Nat) (t : Text), t.length ≤ n → ∃ is, Items t is := by
  intro n
  induction n with
  | zero => intro t ht; cases t with
    | nil => exact ⟨[], .nil⟩
    | cons c t => simp at ht
  | succ n ih =>
    intro t ht
    match t, ht with
    | [], _ => exact ⟨[], .nil⟩
    | c :: t, ht =>
      simp only [List.length_cons] at ht
      by_cases h : ∃ b t', t = 45 :: b :: t'
      · obtain ⟨b, t', rfl⟩ := h
        simp only [List.length_cons] at ht
        obtain ⟨is, hi⟩ := ih t' (by omega)
        exact ⟨_, .range c b t' is hi⟩
      · obtain ⟨is, hi⟩ := ih t (by omega)
        exact ⟨_, .one c t is (fun b t' e => h ⟨b, t', e⟩) hi⟩

theorem class_total (t : Text) : ∃ neg is, Class t neg is := by
  by_cases h1 : t.head? = some 33
  · cases t with
    | nil => simp at h1
    | cons m t => obtain ⟨is, hi⟩ := items_total _ t (Nat.le_refl _); exact ⟨true, is, .neg m t is (Or.inl (by simpa using h1)) hi⟩
  · by_cases h2 : t.head? = some 94
    · cases t with
      | nil => simp at h2
      | cons m t => obtain ⟨is, hi⟩ := items_total _ t (Nat.le_refl _); exact ⟨true, is, .neg m t is (Or.inr (by simpa using h2)) hi⟩
    · obtain ⟨is, hi⟩ := items_total _ t (Nat.le_refl _)
      exact ⟨false, is, .pos t is h1 h2 hi⟩

theorem class_marks {t : Text} {neg : Bool} {is : List Item} (h : Class t neg is) :
    negated t = neg ∧ Items (unmarked t) is := by
  cases h with
  | pos t is h1 h2 hi =>
    have : negated t = false := by unfold negated; simp [h1, h2]
    unfold unmarked
    rw [this]
    exact ⟨rfl, by simpa using hi⟩
  | neg m t is hm hi =>
    have : negated (m :: t) = true := by unfold negated; rcases hm with rfl | rfl <;> simp
    unfold unmarked
    rw [this]
    exact ⟨rfl, by simpa using hi⟩

/-! ### Concatenation of tokens -/

theorem Match.append {D : Text → Prop} {sep : Nat} {a b : List Tok} {u w : Text} (h : Match D sep a u) (h' : Match D sep b w) :
    Match D sep (a ++ b) (u ++ w) := by
  induction h with
  | nil => exact h'
  | lit c ts u _ ih => exact .lit c _ _ ih
  | any c ts u _ ih => exact .any c _ _ ih
  | star v ts u hv _ ih => rw [List.append_assoc]; exact .star v _ _ hv ih
  | dstar v ts u _ ih => rw [List.append_assoc]; exact .dstar v _ _ ih
  | dirs v ts u hv _ ih => rw [List.append_assoc]; exact .dirs v _ _ hv ih
  | cls n is c ts u hc _ ih => exact .cls n is c _ _ hc ih
  | alt os q ts u hq _ ih => rw [List.append_assoc] at ih; exact .alt os q _ _ hq ih

theorem Match.split {D : Text → Prop} {sep : Nat} {l : List Tok} {w : Text} (h : Match D sep l w) :
    ∀ a b, l = a ++ b → ∃ u v, w = u ++ v ∧ Match D sep a u ∧ Match D sep b v := by
  induction h with
  | nil =>
    intro a b e
    obtain ⟨rfl, rfl⟩ := List.append_eq_nil_iff.1 e.symm
    exact ⟨[], [], rfl, .nil, .nil⟩
  | lit c ts w h ih =>
    intro a b e
    cases a with
    | nil => exact ⟨[], _, rfl, .nil, by rw [List.nil_append] at e; rw [← e]; exact .lit c ts w h⟩
    | cons k a =>
      rw [List.cons_append, List.cons_eq_cons] at e
      obtain ⟨rfl, e⟩ := e
      obtain ⟨u, v, rfl, hu, hv⟩ := ih a b e
      exact ⟨c :: u, v, rfl, .lit c a u hu, hv⟩
  | any c ts w h ih =>
    intro a b e
    cases a with
    | nil => exact ⟨[], _, rfl, .nil, by rw [List.nil_append] at e; rw [← e]; exact .any c ts w h⟩
    | cons k a =>
      rw [List.cons_append, List.cons_eq_cons] at e
      obtain ⟨rfl, e⟩ := e
      obtain ⟨u, v, rfl, hu, hv⟩ := ih a b e
      exact ⟨c :: u, v, rfl, .any c a u hu, hv⟩
  | star x ts w hx h ih =>
    intro a b e
    cases a with
    | nil => exact ⟨[], _, rfl, .nil, by rw [List.nil_append] at e; rw [← e]; exact .star x ts w hx h⟩
    | cons k a =>
      rw [List.cons_append, List.cons_eq_cons] at e
      obtain ⟨rfl, e⟩ := e
      obtain ⟨u, v, rfl, hu, hv⟩ := ih a b e
      exact ⟨x ++ u, v, by simp, .star x a u hx hu, hv⟩
  | dstar x ts w h ih =>
    intro a b e
    cases a with
    | nil => exact ⟨[], _, rfl, .nil, by rw [List.nil_append] at e; rw [← e]; exact .dstar x ts w h⟩
    | cons k a =>
      rw [List.cons_append, List.cons_eq_cons] at e
      obtain ⟨rfl, e⟩ := e
      obtain ⟨u, v, rfl, hu, hv⟩ := ih a b e
      exact ⟨x ++ u, v, by simp, .dstar x a u hu, hv⟩
  | dirs x ts w hx h ih =>
    intro a b e
    cases a with
    | nil => exact ⟨[], _, rfl, .nil, by rw [List.nil_append] at e; rw [← e]; exact .dirs x ts w hx h⟩
    | cons k a =>
      rw [List.cons_append, List.cons_eq_cons] at e
      obtain ⟨rfl, e⟩ := e
      obtain ⟨u, v, rfl, hu, hv⟩ := ih a b e
      exact ⟨x ++ u, v, by simp, .dirs x a u hx hu, hv⟩
  | cls n is c ts w hc h ih =>
    intro a b e
    cases a with
    | nil => exact ⟨[], _, rfl, .nil, by rw [List.nil_append] at e; rw [← e]; exact .cls n is c ts w hc h⟩
    | cons k a =>
      rw [List.cons_append, List.cons_eq_cons] at e
      obtain ⟨rfl, e⟩ := e
      obtain ⟨u, v, rfl, hu, hv⟩ := ih a b e
      exact ⟨c :: u, v, rfl, .cls n is c a u hc hu, hv⟩
  | alt os q ts w hq h ih =>
    intro a b e
    cases a with
    | nil => exact ⟨[], _, rfl, .nil, by rw [List.nil_append] at e; rw [← e]; exact .alt os q ts w hq h⟩
    | cons k a =>
      rw [List.cons_append, List.cons_eq_cons] at e
      obtain ⟨rfl, e⟩ := e
      obtain ⟨u, v, rfl, hu, hv⟩ := ih (q ++ a) b (by rw [e, List.append_assoc])
      exact ⟨u, v, rfl, .alt os q a u hq hu, hv⟩

end Verif.Glob
