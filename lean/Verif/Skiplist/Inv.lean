import Verif.Skiplist.Model
import Mathlib.Data.List.Perm.Subperm
import Mathlib.Tactic.Tauto
/-!
# Skip list: representation invariant and the search for a position
-/
namespace Verif.Skiplist
open Verif

variable {K V : Type}

/-- Number of levels of a node. -/
def ht (h : Nat → Option (Node K V)) (a : Nat) : Nat :=
  match h a with
  | none => 0
  | some n => n.forward.length

def tall (h : Nat → Option (Node K V)) (i a : Nat) : Bool := i < ht h a

/-- Key and value of a node. -/
def entry (h : Nat → Option (Node K V)) (a : Nat) : Option (K × V) :=
  match h a with
  | none => none
  | some n => n.val.map fun v => (n.key, v)

theorem entry_some {h : Nat → Option (Node K V)} {a : Nat} {e : K × V} (he : entry h a = some e) :
    ∃ n, h a = some n ∧ n.key = e.1 ∧ n.val = some e.2 := by
  unfold entry at he
  split at he
  · cases he
  · next n hn =>
    rw [Option.map_eq_some_iff] at he
    obtain ⟨v, hv, rfl⟩ := he
    exact ⟨n, hn, rfl, hv⟩

theorem entry_of {h : Nat → Option (Node K V)} {a : Nat} {n : Node K V} {v : V} (hn : h a = some n)
    (hv : n.val = some v) : entry h a = some (n.key, v) := by
  unfold entry; rw [hn]; simp [hv]

/-- Each link of each level leads to the next node that has the level. -/
def Links (h : Nat → Option (Node K V)) (l : List Nat) : Prop :=
  ∀ P x R, l = P ++ x :: R → ∀ i, i < ht h x → fwd h x i = .ok (R.find? (tall h i))

/-- The skip list `s` has the nodes `L` and represents the sorted list `m` of keys and values. -/
structure Rep (rank : K → Int) (s : SL K V) (L : List Nat) (m : List (K × V)) : Prop where
  hdr : ht s.heap s.header = maxLevel
  nodup : (s.header :: L).Nodup
  cont : L.map (entry s.heap) = m.map some
  tallest : ∀ a ∈ L, 1 ≤ ht s.heap a ∧ ht s.heap a ≤ s.level + 1
  links : Links s.heap (s.header :: L)
  lvl : s.level < maxLevel
  srt : m.Pairwise fun a b => rank a.1 < rank b.1
  fresh : ∀ a ∈ s.header :: L, a < s.nxt
  items : s.items = L.length

/-- The comparison function orders the keys in `D` by their rank. -/
def CmpOn (cmp : K → K → Int) (rank : K → Int) (D : K → Prop) : Prop :=
  ∀ a b, D a → D b → (cmp a b < 0 ↔ rank a < rank b) ∧ (cmp a b = 0 ↔ rank a = rank b)

theorem tall_of {h : Nat → Option (Node K V)} {i a : Nat} : tall h i a = true ↔ i < ht h a := by
  unfold tall; simp

theorem walk_spec {test : K → Bool} {h : Nat → Option (Node K V)} {l : List Nat} (hl : Links h l) (i : Nat) :
    ∀ (f : Nat) (P : List Nat) (x : Nat) (A B : List Nat), l = P ++ x :: (A ++ B) → i < ht h x →
    (∀ a ∈ A, ∃ n, h a = some n ∧ test n.key = true) →
    (∀ b ∈ B, ∃ n, h b = some n ∧ test n.key = false) → A.length < f →
    ∃ u Q R, walk test h i f x = .ok u ∧ x :: A = Q ++ u :: R ∧ i < ht h u ∧ ∀ a ∈ R, ht h a ≤ i := by
  intro f
  induction f with
  | zero => intro P x A B _ _ _ _ hf; omega
  | succ f ih =>
    intro P x A B e hx hA hB hf
    have hfw := hl P x (A ++ B) e i hx
    rw [walk, hfw, Res.ok_bind, List.find?_append]
    cases hfa : A.find? (tall h i) with
    | none =>
      have hall : ∀ a ∈ A, ht h a ≤ i := by
        intro a ha
        have := List.find?_eq_none.1 hfa a ha
        rw [tall_of] at this
        omega
      rw [Option.none_or]
      cases hfb : B.find? (tall h i) with
      | none => exact ⟨x, [], A, rfl, rfl, hx, hall⟩
      | some y =>
        obtain ⟨n, hn, ht'⟩ := hB y (List.mem_of_find?_eq_some hfb)
        refine ⟨x, [], A, ?_, rfl, hx, hall⟩
        simp only [keyAt, hn, Res.ok_bind, ht']
        rfl
    | some y =>
      rw [Option.some_or]
      have hya := List.mem_of_find?_eq_some hfa
      obtain ⟨n, hn, ht'⟩ := hA y hya
      obtain ⟨hty, A1, A2, hsp, hns⟩ := List.find?_eq_some_iff_append.1 hfa
      subst hsp
      have hty' := tall_of.1 hty
      have e' : l = (P ++ x :: A1) ++ y :: (A2 ++ B) := by rw [e]; simp
      obtain ⟨u, Q, R, h1, h2, h3, h4⟩ := ih (P ++ x :: A1) y A2 B e' hty'
        (fun a ha => hA a (by simp [ha])) hB (by simp at hf; omega)
      refine ⟨u, x :: A1 ++ Q, R, ?_, ?_, h3, h4⟩
      · simp only [keyAt, hn, Res.ok_bind, ht', if_true]
        exact h1
      · rw [List.append_assoc, ← h2]; rfl

/-- The node before the position, on level `i`. -/
def PredAt (h : Nat → Option (Node K V)) (l : List Nat) (i u : Nat) : Prop :=
  ∃ Q R, l = Q ++ u :: R ∧ i < ht h u ∧ ∀ a ∈ R, ht h a ≤ i

theorem descend_spec {test : K → Bool} {h : Nat → Option (Node K V)} {Pre B : List Nat}
    (hl : Links h (Pre ++ B)) {fuel : Nat} (hf : Pre.length ≤ fuel)
    (hB : ∀ b ∈ B, ∃ n, h b = some n ∧ test n.key = false) :
    ∀ (n : Nat) (P : List Nat) (x : Nat) (A : List Nat), Pre = P ++ x :: A → n ≤ ht h x →
    (∀ a ∈ A, ∃ n, h a = some n ∧ test n.key = true) →
    ∃ r, descend test h fuel n x = .ok r ∧ r.2.length = n ∧
      (∀ i u, r.2[i]? = some u → PredAt h Pre i u) ∧ (n ≠ 0 → r.2[0]? = some r.1) ∧ (n = 0 → r.1 = x) := by
  intro n
  induction n with
  | zero =>
    intro P x A e hx hA
    exact ⟨_, rfl, rfl, by simp, by simp, fun _ => rfl⟩
  | succ n ih =>
    intro P x A e hx hA
    obtain ⟨u, Q, R, h1, h2, h3, h4⟩ := walk_spec hl n fuel P x A B (by rw [e]; simp) (by omega) hA hB
      (by rw [e] at hf; simp at hf; omega)
    have e2 : Pre = (P ++ Q) ++ u :: R := by rw [e, h2]; simp
    have hR : ∀ a ∈ R, a ∈ A := by
      intro a ha
      cases Q with
      | nil => rw [List.nil_append] at h2; injection h2 with _ h2; rw [h2]; exact ha
      | cons q Q => rw [List.cons_append] at h2; injection h2 with _ h2; rw [h2]; simp [ha]
    obtain ⟨r, g1, g2, g3, g4, g5⟩ := ih (P ++ Q) u R e2 (by omega) (fun a ha => hA a (hR a ha))
    refine ⟨(r.1, r.2 ++ [u]), ?_, by simp [g2], ?_, ?_, by omega⟩
    · rw [descend, h1, Res.ok_bind, g1]; rfl
    · intro i v hv
      simp only at hv
      rw [List.getElem?_append] at hv
      split at hv
      · exact g3 i v hv
      · next hlt =>
        rw [List.getElem?_singleton] at hv
        split at hv
        · next h0 =>
          injection hv with hv
          have : i = n := by omega
          subst hv; subst this
          exact ⟨P ++ Q, R, e2, h3, h4⟩
        · cases hv
    · intro _
      simp only
      cases n with
      | zero =>
        have : r.2 = [] := List.length_eq_zero_iff.1 g2
        rw [this, g5 rfl]
        rfl
      | succ n =>
        rw [List.getElem?_append_left (by omega)]
        exact g4 (by omega)

theorem mem_ht {h : Nat → Option (Node K V)} {a : Nat} (hp : 0 < ht h a) : ∃ n, h a = some n := by
  unfold ht at hp
  split at hp
  · omega
  · next n hn => exact ⟨n, hn⟩

theorem predAt_zero {h : Nat → Option (Node K V)} {a u : Nat} {A : List Nat} (hA : ∀ a ∈ A, 1 ≤ ht h a)
    (hp : PredAt h (a :: A) 0 u) : ∃ Q, a :: A = Q ++ [u] := by
  obtain ⟨Q, R, e, h1, h2⟩ := hp
  cases R with
  | nil => exact ⟨Q, e⟩
  | cons r R =>
    exfalso
    have hr : r ∈ A := by
      cases Q with
      | nil => rw [List.nil_append] at e; injection e with _ e; rw [e]; simp
      | cons q Q => rw [List.cons_append] at e; injection e with _ e; rw [e]; simp
    have := hA r hr
    have := h2 r (by simp)
    omega

/-- Splitting the nodes at a position of the contents. -/
theorem Rep.split {rank : K → Int} {s : SL K V} {L : List Nat} {mA mB : List (K × V)}
    (h : Rep rank s L (mA ++ mB)) : ∃ A B, L = A ++ B ∧ A.map (entry s.heap) = mA.map some ∧
      B.map (entry s.heap) = mB.map some := by
  have := h.cont
  rw [List.map_append, List.map_eq_append_iff] at this
  obtain ⟨A, B, e, h1, h2⟩ := this
  exact ⟨A, B, e, h1, h2⟩

theorem map_entry_mem {h : Nat → Option (Node K V)} {A : List Nat} {m : List (K × V)}
    (e : A.map (entry h) = m.map some) {a : Nat} (ha : a ∈ A) :
    ∃ n k v, (k, v) ∈ m ∧ h a = some n ∧ n.key = k ∧ n.val = some v := by
  have : entry h a ∈ m.map some := by rw [← e]; exact List.mem_map_of_mem ha
  rw [List.mem_map] at this
  obtain ⟨⟨k, v⟩, hm, he⟩ := this
  obtain ⟨n, h1, h2, h3⟩ := entry_some he.symm
  exact ⟨n, k, v, hm, h1, h2, h3⟩

/-- The search for a position: the test holds for the keys of `mA` and not for those of `mB`. -/
theorem Rep.descend {rank : K → Int} {s : SL K V} {A B : List Nat} {mA mB : List (K × V)}
    (h : Rep rank s (A ++ B) (mA ++ mB)) (hA : A.map (entry s.heap) = mA.map some)
    (hB : B.map (entry s.heap) = mB.map some) {test : K → Bool}
    (tA : ∀ e ∈ mA, test e.1 = true) (tB : ∀ e ∈ mB, test e.1 = false) :
    ∃ r, descend test s.heap s.nxt (s.level + 1) s.header = .ok r ∧ r.2.length = s.level + 1 ∧
      (∀ i u, r.2[i]? = some u → PredAt s.heap (s.header :: A) i u) ∧
      (∃ Q, s.header :: A = Q ++ [r.1]) ∧ fwd s.heap r.1 0 = .ok B.head? := by
  have hnA : ∀ a ∈ A, ∃ n, s.heap a = some n ∧ test n.key = true := by
    intro a ha
    obtain ⟨n, k, v, hm, h1, h2, _⟩ := map_entry_mem hA ha
    exact ⟨n, h1, by rw [h2]; exact tA _ hm⟩
  have hnB : ∀ b ∈ B, ∃ n, s.heap b = some n ∧ test n.key = false := by
    intro a ha
    obtain ⟨n, k, v, hm, h1, h2, _⟩ := map_entry_mem hB ha
    exact ⟨n, h1, by rw [h2]; exact tB _ hm⟩
  have hfuel : (s.header :: A).length ≤ s.nxt := by
    have hsub : (s.header :: A) ⊆ List.range s.nxt := by
      intro a ha
      rw [List.mem_range]
      apply h.fresh
      simp at ha ⊢
      tauto
    have hnd : (s.header :: A).Nodup := by
      have := h.nodup
      rw [← List.cons_append] at this
      exact (List.nodup_append.1 this).1
    have := (List.subperm_of_subset hnd hsub).length_le
    simpa using this
  have hlinks : Links s.heap ((s.header :: A) ++ B) := h.links
  obtain ⟨r, g1, g2, g3, g4, _⟩ := descend_spec hlinks hfuel hnB (s.level + 1) [] s.header A rfl
    (by rw [h.hdr]; exact h.lvl) hnA
  have hp := g3 0 r.1 (g4 (by omega))
  have h1A : ∀ a ∈ A, 1 ≤ ht s.heap a := fun a ha => (h.tallest a (by simp [ha])).1
  obtain ⟨Q, hQ⟩ := predAt_zero h1A hp
  refine ⟨r, g1, g2, g3, ⟨Q, hQ⟩, ?_⟩
  obtain ⟨_, _, _, h0, _⟩ := hp
  rw [hlinks Q r.1 B (by rw [hQ]; simp) 0 h0]
  congr 1
  cases B with
  | nil => rfl
  | cons b B =>
    rw [List.find?_cons_of_pos, List.head?_cons]
    rw [tall_of]
    exact (h.tallest b (by simp)).1

end Verif.Skiplist
