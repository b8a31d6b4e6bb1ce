import Mathlib.Logic.Function.Basic
import Mathlib.Data.List.Nodup
import Verif.Rts.Model
/-!
# Families of disjoint linked lists
-/
namespace Verif.Rts
open Verif Function

/-- Following `nx` from `p` gives the list. -/
def Chain (nx : Nat → Option Nat) : Option Nat → List Nat → Prop
  | p, [] => p = none
  | p, x :: l => p = some x ∧ Chain nx (nx x) l

theorem Chain.head {nx : Nat → Option Nat} {p : Option Nat} {l : List Nat} (h : Chain nx p l) : p = l.head? := by
  cases l with
  | nil => exact h
  | cons x l => exact h.1

theorem chain_congr {nx nx' : Nat → Option Nat} : ∀ {l : List Nat} {p : Option Nat}, (∀ x ∈ l, nx' x = nx x) →
    Chain nx p l → Chain nx' p l := by
  intro l
  induction l with
  | nil => intro p _ h; exact h
  | cons x l ih =>
    intro p he h
    refine ⟨h.1, ?_⟩
    rw [he x (by simp)]
    exact ih (fun y hy => he y (by simp [hy])) h.2

theorem chain_unique {nx : Nat → Option Nat} : ∀ {l l' : List Nat} {p : Option Nat}, Chain nx p l → Chain nx p l' →
    l = l' := by
  intro l
  induction l with
  | nil =>
    intro l' p h h'
    cases l' with
    | nil => rfl
    | cons x l' => rw [show p = none from h] at h'; cases h'.1
  | cons x l ih =>
    intro l' p h h'
    cases l' with
    | nil => rw [show p = none from h'] at h; cases h.1
    | cons y l' =>
      have e : x = y := Option.some.inj (h.1.symm.trans h'.1)
      subst e
      rw [ih h.2 h'.2]

theorem chain_nil {nx : Nat → Option Nat} {l : List Nat} (h : Chain nx none l) : l = [] := by
  cases l with
  | nil => rfl
  | cons x l => cases h.1

theorem chain_some {nx : Nat → Option Nat} {l : List Nat} {x : Nat} (h : Chain nx (some x) l) :
    ∃ t, l = x :: t ∧ Chain nx (nx x) t := by
  cases l with
  | nil => cases h
  | cons y t => cases h.1; exact ⟨t, rfl, h.2⟩

/-- Two parts of a chain. -/
theorem chain_append {nx : Nat → Option Nat} {B : List Nat} : ∀ {A : List Nat} {p : Option Nat},
    Chain nx p (A ++ B) ↔ (A = [] → Chain nx p B) ∧ (A ≠ [] → p = A.head?) ∧
      (∀ t, A.getLast? = some t → Chain nx (nx t) B) ∧
      ∀ C x y D, A = C ++ x :: y :: D → nx x = some y := by
  intro A
  induction A with
  | nil => intro p; simp
  | cons a A ih =>
    intro p
    rw [List.cons_append]
    constructor
    · rintro ⟨h1, h2⟩
      obtain ⟨i1, i2, i3, i4⟩ := ih.1 h2
      refine ⟨by simp, by simp [h1], ?_, ?_⟩
      · intro t ht
        cases A with
        | nil => simp at ht; subst ht; exact i1 rfl
        | cons b A => rw [List.getLast?_cons_cons] at ht; exact i3 t ht
      · intro C x y D he
        cases C with
        | nil =>
          simp at he
          obtain ⟨rfl, rfl⟩ := he
          exact i2 (by simp)
        | cons c C =>
          simp at he
          exact i4 C x y D he.2
    · rintro ⟨-, h2, h3, h4⟩
      refine ⟨h2 (by simp), ih.2 ⟨?_, ?_, ?_, ?_⟩⟩
      · intro e; subst e; exact h3 a rfl
      · intro e
        cases A with
        | nil => exact absurd rfl e
        | cons b A => exact h4 [] a b A rfl
      · intro t ht
        cases A with
        | nil => simp at ht
        | cons b A => exact h3 t (by rw [List.getLast?_cons_cons]; exact ht)
      · intro C x y D he
        exact h4 (a :: C) x y D (by rw [he]; rfl)

section
variable {L : Type} [DecidableEq L] {linked : L → Prop} {nx nx' : Nat → Option Nat} {head head' : L → Option Nat}
  {ls ls' : L → List Nat}

/-- Disjoint lists without repetition; those at the locations `linked` are chains. -/
structure LL (linked : L → Prop) (nx : Nat → Option Nat) (head : L → Option Nat) (ls : L → List Nat) : Prop where
  chain : ∀ l, linked l → Chain nx (head l) (ls l)
  nodup : ∀ l, (ls l).Nodup
  disj : ∀ l l' x, x ∈ ls l → x ∈ ls l' → l = l'

def Free (ls : L → List Nat) (x : Nat) : Prop := ∀ l, x ∉ ls l

omit [DecidableEq L] in
theorem LL.congr (h : LL linked nx head ls) (hh : ∀ l, linked l → head' l = head l) (hn : ∀ x, nx' x = nx x)
    (hl : ∀ l, ls' l = ls l) : LL linked nx' head' ls' := by
  refine ⟨?_, ?_, ?_⟩
  · intro l hk
    rw [hh l hk, hl]
    exact chain_congr (fun x _ => hn x) (h.chain l hk)
  · intro l; rw [hl]; exact h.nodup l
  · intro l l' x; rw [hl, hl]; exact h.disj l l' x

/-- One list is replaced. -/
theorem LL.set (h : LL linked nx head ls) (l : L) (new : List Nat) (p : Option Nat) (hnd : new.Nodup)
    (hmem : ∀ x ∈ new, x ∈ ls l ∨ Free ls x) (hnx : ∀ l' x, l' ≠ l → x ∈ ls l' → nx' x = nx x)
    (hch : linked l → Chain nx' p new) : LL linked nx' (update head l p) (update ls l new) := by
  have key : ∀ l' x, l' ≠ l → x ∈ new → x ∉ ls l' := by
    intro l' x hne hx hx'
    rcases hmem x hx with h1 | h1
    · exact hne (h.disj l' l x hx' h1)
    · exact h1 l' hx'
  refine ⟨?_, ?_, ?_⟩
  · intro l' hk
    by_cases e : l' = l
    · subst e; simp only [update_self]; exact hch hk
    · simp only [update_of_ne e]
      exact chain_congr (fun x hx => hnx l' x e hx) (h.chain l' hk)
  · intro l'
    by_cases e : l' = l
    · subst e; simp only [update_self]; exact hnd
    · simp only [update_of_ne e]; exact h.nodup l'
  · intro l1 l2 x h1 h2
    by_cases e1 : l1 = l <;> by_cases e2 : l2 = l
    · rw [e1, e2]
    · subst e1
      simp only [update_self] at h1
      simp only [update_of_ne e2] at h2
      exact absurd h2 (key l2 x e2 h1)
    · subst e2
      simp only [update_self] at h2
      simp only [update_of_ne e1] at h1
      exact absurd h1 (key l1 x e1 h2)
    · simp only [update_of_ne e1] at h1
      simp only [update_of_ne e2] at h2
      exact h.disj l1 l2 x h1 h2

/-- The first element leaves the list. -/
theorem LL.pop (h : LL linked nx head ls) {l : L} {x : Nat} {t : List Nat} (hl : ls l = x :: t)
    (hnx : ∀ y, y ≠ x → nx' y = nx y) :
    LL linked nx' (update head l (nx x)) (update ls l t) ∧ Free (update ls l t) x := by
  have hnd := h.nodup l
  rw [hl, List.nodup_cons] at hnd
  refine ⟨h.set l t _ hnd.2 ?_ ?_ ?_, ?_⟩
  · intro y hy; left; rw [hl]; simp [hy]
  · intro l' y hne hy
    apply hnx
    rintro rfl
    exact hne (h.disj l' l y hy (by rw [hl]; simp))
  · intro hk
    have := h.chain l hk
    rw [hl] at this
    refine chain_congr ?_ this.2
    intro y hy
    apply hnx
    rintro rfl
    exact hnd.1 hy
  · intro l' hx
    by_cases e : l' = l
    · subst e; simp only [update_self] at hx; exact hnd.1 hx
    · simp only [update_of_ne e] at hx
      exact e (h.disj l' l x hx (by rw [hl]; simp))

/-- A new first element. -/
theorem LL.push (h : LL linked nx head ls) {l : L} {x : Nat} (hx : Free ls x) (hnx : ∀ y, y ≠ x → nx' y = nx y)
    (hxn : nx' x = head l) : LL linked nx' (update head l (some x)) (update ls l (x :: ls l)) := by
  refine h.set l _ _ ?_ ?_ ?_ ?_
  · rw [List.nodup_cons]; exact ⟨hx l, h.nodup l⟩
  · intro y hy
    rw [List.mem_cons] at hy
    rcases hy with rfl | hy
    · exact .inr hx
    · exact .inl hy
  · intro l' y _ hy
    apply hnx
    rintro rfl
    exact hx l' hy
  · intro hk
    refine ⟨rfl, ?_⟩
    rw [hxn]
    refine chain_congr ?_ (h.chain l hk)
    intro y hy
    apply hnx
    rintro rfl
    exact hx l hy

/-- A new element behind the part `A` of the list. -/
theorem LL.insert (h : LL linked nx head ls) {l : L} {x : Nat} (hx : Free ls x) {A B : List Nat} {t : Nat}
    (hl : ls l = A ++ B) (ht : A.getLast? = some t) (hnx : ∀ y, y ≠ x → y ≠ t → nx' y = nx y)
    (hxn : nx' x = nx t) (htn : nx' t = some x) :
    LL linked nx' (update head l (head l)) (update ls l (A ++ x :: B)) := by
  have htA : t ∈ A := List.mem_of_getLast? ht
  have hnd := h.nodup l
  have hxl := hx l
  rw [hl] at hnd hxl
  refine h.set l _ _ ?_ ?_ ?_ ?_
  · exact (List.nodup_middle).2 (List.nodup_cons.2 ⟨hxl, hnd⟩)
  · intro y hy
    rw [List.mem_append, List.mem_cons] at hy
    rw [hl]
    rcases hy with hy | rfl | hy
    · left; simp [hy]
    · exact .inr hx
    · left; simp [hy]
  · intro l' y hne hy
    apply hnx
    · rintro rfl; exact hx l' hy
    · rintro rfl; exact hne (h.disj l' l y hy (by rw [hl]; simp [htA]))
  · intro hk
    have hc := h.chain l hk
    rw [hl, chain_append] at hc
    obtain ⟨_, c2, c3, c4⟩ := hc
    have hA : A ≠ [] := by rintro rfl; simp at htA
    rw [List.nodup_append] at hnd
    rw [chain_append]
    refine ⟨fun e => absurd e hA, c2, ?_, ?_⟩
    · intro t' ht'
      rw [ht] at ht'
      cases ht'
      refine ⟨htn, ?_⟩
      rw [hxn]
      refine chain_congr ?_ (c3 t ht)
      intro y hy
      apply hnx
      · rintro rfl; exact hxl (by simp [hy])
      · rintro rfl; exact hnd.2.2 y htA y hy rfl
    · intro C u v D he
      rw [hnx u, c4 C u v D he]
      · rintro rfl
        apply hxl
        rw [he]; simp
      · rintro rfl
        have hnA := hnd.1
        rw [he] at hnA ht
        rw [List.getLast?_append, List.getLast?_cons_cons] at ht
        cases hD : (v :: D).getLast? with
        | none => simp at hD
        | some z =>
          rw [hD] at ht
          simp at ht
          subst ht
          rw [List.nodup_append, List.nodup_cons] at hnA
          exact hnA.2.1.1 (List.mem_of_getLast? hD)

/-- A new last element. -/
theorem LL.append (h : LL linked nx head ls) {l : L} {x : Nat} (hx : Free ls x) {p : Option Nat}
    (hnx : ∀ y, y ≠ x → (ls l).getLast? ≠ some y → nx' y = nx y) (hxn : nx' x = none)
    (htn : ∀ t, (ls l).getLast? = some t → nx' t = some x) (hp : p = if ls l = [] then some x else head l)
    (hlink : linked l) : LL linked nx' (update head l p) (update ls l (ls l ++ [x])) := by
  cases ht : (ls l).getLast? with
  | none =>
    rw [List.getLast?_eq_none_iff] at ht
    rw [if_pos ht] at hp
    refine h.set l _ _ ?_ ?_ ?_ ?_
    · rw [ht]; simp
    · intro y hy; rw [ht] at hy; simp at hy; subst hy; exact .inr hx
    · intro l' y _ hy
      apply hnx
      · rintro rfl; exact hx l' hy
      · rw [ht]; simp
    · intro _; rw [ht]; exact ⟨hp, hxn⟩
  | some t =>
    have hne : ls l ≠ [] := by rintro e; rw [e] at ht; simp at ht
    rw [if_neg hne] at hp
    subst hp
    have hc := h.chain l hlink
    rw [← List.append_nil (ls l), chain_append] at hc
    have := h.insert (nx' := nx') hx (A := ls l) (B := []) (List.append_nil _).symm ht
      (fun y h1 h2 => hnx y h1 (by rw [ht]; simpa using Ne.symm h2))
      (by rw [hxn]; exact (hc.2.2.1 t ht).symm) (htn t ht)
    exact this

/-- A new element at a location that is not linked. -/
theorem LL.put (h : LL linked nx head ls) {l : L} {x : Nat} (hx : Free ls x) (hk : ¬ linked l)
    (p : Option Nat) : LL linked nx (update head l p) (update ls l [x]) := by
  refine h.set l [x] p (by simp) ?_ (fun _ _ _ _ => rfl) (fun hk' => absurd hk' hk)
  intro y hy
  simp at hy
  subst hy
  exact .inr hx

/-- The list moves to another location. -/
theorem LL.move (h : LL linked nx head ls) {l l' : L} (hk : linked l' → linked l) :
    LL linked nx (update (update head l none) l' (head l)) (update (update ls l []) l' (ls l)) := by
  have h1 : LL linked nx (update head l none) (update ls l []) :=
    h.set l [] none List.nodup_nil (by simp) (fun _ _ _ _ => rfl) (fun _ => rfl)
  refine h1.set l' (ls l) (head l) (h.nodup l) ?_ (fun _ _ _ _ => rfl) (fun hk' => h.chain l (hk hk'))
  intro x hx
  right
  intro l'' hx'
  by_cases e : l'' = l
  · subst e; simp at hx'
  · rw [update_of_ne e] at hx'
    exact e (h.disj l'' l x hx' hx)

end

/-- The pointer reversal loop. -/
theorem reverseLoop_spec : ∀ (f : Nat) (l : List Nat) (msgs : Nat → Msg) (p : Option Nat) (acc : List Nat)
    (prev : Option Nat), Chain (fun m => (msgs m).next) p l → Chain (fun m => (msgs m).next) prev acc →
    l.Nodup → (∀ x ∈ l, x ∉ acc) → l.length ≤ f →
    ∃ msgs' q, reverseLoop f msgs p prev = .ok (msgs', q) ∧
      Chain (fun m => (msgs' m).next) q (l.reverse ++ acc) ∧ (∀ x, x ∉ l → msgs' x = msgs x) ∧
      ∀ x, msgs' x = { msgs x with next := (msgs' x).next } := by
  intro f
  induction f with
  | zero =>
    intro l msgs p acc prev h1 h2 _ _ hl
    have : l = [] := List.length_eq_zero_iff.1 (by omega)
    subst this
    rw [show p = none from h1]
    exact ⟨msgs, prev, by simp [reverseLoop], h2, fun _ _ => rfl, fun _ => rfl⟩
  | succ f ih =>
    intro l msgs p acc prev h1 h2 hnd hd hl
    cases l with
    | nil =>
      rw [show p = none from h1]
      exact ⟨msgs, prev, by simp [reverseLoop], h2, fun _ _ => rfl, fun _ => rfl⟩
    | cons x l =>
      rw [List.nodup_cons] at hnd
      rw [h1.1, reverseLoop]
      obtain ⟨msgs', q, e1, e2, e3, e4⟩ := ih l (upd msgs x { msgs x with next := prev }) (msgs x).next (x :: acc) (some x)
        (by
          refine chain_congr ?_ h1.2
          intro y hy
          simp only [upd]
          rw [if_neg (by rintro rfl; exact hnd.1 hy)])
        (by
          refine ⟨rfl, ?_⟩
          simp only [upd, if_true]
          refine chain_congr ?_ h2
          intro y hy
          rw [if_neg (by rintro rfl; exact hd y (by simp) hy)])
        hnd.2
        (by
          intro y hy hm
          rw [List.mem_cons] at hm
          rcases hm with rfl | hm
          · exact hnd.1 hy
          · exact hd y (by simp [hy]) hm)
        (by simp at hl; omega)
      refine ⟨msgs', q, e1, ?_, ?_, ?_⟩
      · simpa using e2
      · intro y hy
        rw [List.mem_cons, not_or] at hy
        rw [e3 y hy.2]
        simp [upd, hy.1]
      · intro y
        rw [e4 y]
        simp only [upd]
        split
        · rename_i he; subst he; rfl
        · rfl

end Verif.Rts
