import Verif.Paths.Model
import Verif.Paths.Spec
import Verif.Str.Occ
/-!
# Splitting at slashes, joining, and reading paths
-/
namespace Verif.Paths

open Verif.Str (SplitsTo joinWith Free)
open Verif.Search (OccursAt)

theorem pushHead_ne (c : Nat) (l : List Path) : pushHead c l ≠ [] := by
  cases l <;> simp [pushHead]

theorem splitSlash_ne (p : Path) : splitSlash p ≠ [] := by
  cases p with
  | nil => simp [splitSlash]
  | cons c p =>
    simp only [splitSlash]
    split
    · simp
    · exact pushHead_ne _ _

theorem splitSlash_free (a : Path) (h : slash ∉ a) : splitSlash a = [a] := by
  induction a with
  | nil => rfl
  | cons c a ih =>
    have h1 : c ≠ slash := fun e => h (by simp [e])
    have h2 : slash ∉ a := fun e => h (by simp [e])
    simp only [splitSlash, if_neg h1, ih h2, pushHead]

theorem splitSlash_append (a b : Path) (h : slash ∉ a) :
    splitSlash (a ++ slash :: b) = a :: splitSlash b := by
  induction a with
  | nil => simp [splitSlash]
  | cons c a ih =>
    have h1 : c ≠ slash := fun e => h (by simp [e])
    have h2 : slash ∉ a := fun e => h (by simp [e])
    simp only [List.cons_append, splitSlash, if_neg h1, ih h2, pushHead]

theorem occurs_one {t : Path} {k : Nat} : OccursAt t [slash] k ↔ t[k]? = some slash := by
  unfold OccursAt
  constructor
  · rintro ⟨h1, h2⟩
    have h1' : k < t.length := h1
    rw [List.getElem?_eq_getElem h1']
    rw [List.drop_eq_getElem_cons h1', List.length_singleton, List.take_succ_cons] at h2
    exact congrArg some (List.cons.inj h2).1
  · intro h
    have h1 : k < t.length := by
      rcases Nat.lt_or_ge k t.length with h' | h'
      · exact h'
      · rw [List.getElem?_eq_none h'] at h; cases h
    refine ⟨h1, ?_⟩
    rw [List.getElem?_eq_getElem h1] at h
    rw [List.drop_eq_getElem_cons h1]
    simp [Option.some.inj h]

theorem free_of_not_mem {a : Path} (h : slash ∉ a) : Free [slash] a := by
  intro k hk
  exact h (List.mem_of_getElem? (occurs_one.1 hk))

/-- The model's split is the split that the area Str specifies. -/
theorem splitSlash_splits : ∀ (n : Nat) (p : Path), p.length = n → SplitsTo [47] none p (splitSlash p) := by
  intro n
  induction n using Nat.strongRecOn with
  | ind n ih =>
    intro p hp
    by_cases h : slash ∈ p
    · obtain ⟨a, b, e, ha⟩ := List.eq_append_cons_of_mem h
      rw [e, splitSlash_append a b ha]
      refine .more none _ a b _ (by simp [slash]) ?_ (ih b.length ?_ b rfl) (by simp)
      · intro j hj hk
        have := occurs_one.1 hk
        rw [List.getElem?_append_left hj] at this
        exact ha (List.mem_of_getElem? this)
      · rw [← hp, e]; simp; omega
    · rw [splitSlash_free p h]
      exact .last none p (free_of_not_mem h)

theorem splits_iff {p : Path} {ps : List Path} : SplitsTo [47] none p ps ↔ ps = splitSlash p := by
  constructor
  · intro h; exact h.unique (splitSlash_splits _ p rfl)
  · intro h; rw [h]; exact splitSlash_splits _ p rfl

theorem leads_iff {d e : List Path} {p : Path} : Leads d p e ↔ e = (splitSlash p).foldl stepDir d := by
  unfold Leads
  constructor
  · rintro ⟨ps, h, rfl⟩; rw [splits_iff.1 h]
  · intro h; exact ⟨_, splits_iff.2 rfl, h⟩

theorem climbs_iff {d : List Path} {p : Path} : Climbs d p ↔ Above d (splitSlash p) := by
  unfold Climbs
  constructor
  · rintro ⟨ps, h, h'⟩; rw [← splits_iff.1 h]; exact h'
  · intro h; exact ⟨_, splits_iff.2 rfl, h⟩

theorem plain_iff {p : Path} : Plain p ↔ ∀ q ∈ splitSlash p, q ≠ dot ∧ q ≠ dotdot := by
  constructor
  · intro h; exact h _ (splits_iff.2 rfl)
  · intro h ps hps; rw [splits_iff.1 hps]; exact h

theorem tidy_iff {p : Path} : Tidy p ↔ ∀ l l', splitSlash p = l ++ [] :: l' → dotdot ∉ l' := by
  constructor
  · intro h; exact h _ (splits_iff.2 rfl)
  · intro h ps hps; rw [splits_iff.1 hps]; exact h

theorem pieces_iff {p : Path} {n : Nat} : Pieces p n ↔ (splitSlash p).length = n := by
  unfold Pieces
  constructor
  · rintro ⟨ps, h, h'⟩; rw [← splits_iff.1 h]; exact h'
  · intro h; exact ⟨_, splits_iff.2 rfl, h⟩

theorem abs_iff {p : Path} : Abs p ↔ startsSlash p = true := by
  unfold Abs startsSlash
  cases p <;> simp [slash]

/-- No piece contains a slash. -/
theorem splitSlash_mem {p q : Path} (h : q ∈ splitSlash p) : slash ∉ q := by
  have h1 := (splitSlash_splits _ p rfl).free (by simp) rfl q h
  intro hq
  obtain ⟨k, hk⟩ := List.getElem?_of_mem hq
  exact h1 k (occurs_one.2 hk)

theorem splitSlash_join : ∀ (ps : List Path), ps ≠ [] → (∀ p ∈ ps, slash ∉ p) →
    splitSlash (joinWith [slash] ps) = ps
  | [], h, _ => absurd rfl h
  | [a], _, h => splitSlash_free a (h a (by simp))
  | a :: b :: l, _, h => by
    show splitSlash (a ++ [slash] ++ joinWith [slash] (b :: l)) = _
    rw [List.append_assoc, List.singleton_append, splitSlash_append _ _ (h a (by simp)),
      splitSlash_join (b :: l) (by simp) (fun p hp => h p (List.mem_cons_of_mem _ hp))]

theorem foldl_filter (l : List Path) : ∀ d : List Path,
    (l.filter (· ≠ [])).foldl stepDir d = l.foldl stepDir d := by
  induction l with
  | nil => intro d; rfl
  | cons p l ih =>
    intro d
    by_cases h : p = []
    · subst h
      rw [List.filter_cons_of_neg (by simp), List.foldl_cons, ih]
      simp [stepDir]
    · rw [List.filter_cons_of_pos (by simp [h]), List.foldl_cons, List.foldl_cons, ih]

theorem foldl_filter_dot (l : List Path) : ∀ d : List Path,
    (l.filter (· ≠ dot)).foldl stepDir d = l.foldl stepDir d := by
  induction l with
  | nil => intro d; rfl
  | cons p l ih =>
    intro d
    by_cases h : p = dot
    · subst h
      rw [List.filter_cons_of_neg (by simp), List.foldl_cons, ih]
      simp [stepDir, dot]
    · rw [List.filter_cons_of_pos (by simp [h]), List.foldl_cons, List.foldl_cons, ih]

/-- A name: a piece that goes down. -/
def Name (p : Path) : Prop := p ≠ [] ∧ p ≠ dot ∧ p ≠ dotdot

theorem step_name {d : List Path} {p : Path} (h : Name p) : stepDir d p = d ++ [p] := by
  unfold stepDir
  rw [if_neg, if_neg (show ¬ p = [46, 46] from h.2.2)]
  rintro (e | e)
  · exact h.1 e
  · exact h.2.1 e

theorem foldl_names (l : List Path) (h : ∀ p ∈ l, Name p) : ∀ d : List Path, l.foldl stepDir d = d ++ l := by
  induction l with
  | nil => intro d; simp
  | cons p l ih =>
    intro d
    rw [List.foldl_cons, step_name (h p (by simp)), ih (fun q hq => h q (List.mem_cons_of_mem _ hq))]
    simp

theorem foldl_up (n : Nat) : ∀ d : List Path, (List.replicate n dotdot).foldl stepDir d = d.take (d.length - n) := by
  induction n with
  | zero => intro d; simp
  | succ n ih =>
    intro d
    rw [List.replicate_succ, List.foldl_cons, ih]
    have : stepDir d dotdot = d.dropLast := by
      unfold stepDir dotdot
      rw [if_neg (by simp), if_pos rfl]
    rw [this, List.dropLast_eq_take, List.take_take, List.length_take]
    congr 1
    omega

theorem leads_parts {p : Path} {e : List Path} (h : Leads [] p e) : e = (parts p).foldl stepDir [] := by
  rw [leads_iff.1 h, parts, foldl_filter]

theorem parts_mem {p q : Path} (h : q ∈ parts p) : q ≠ [] ∧ slash ∉ q ∧ q ∈ splitSlash p := by
  have h1 := List.mem_filter.1 h
  exact ⟨by simpa using h1.2, splitSlash_mem h1.1, h1.1⟩

theorem plain_parts {p : Path} (h : Plain p) : ∀ q ∈ parts p, Name q := by
  intro q hq
  obtain ⟨h1, _, h3⟩ := parts_mem hq
  exact ⟨h1, plain_iff.1 h q h3⟩

theorem common_le : ∀ (a b : List Path), common a b ≤ a.length ∧ common a b ≤ b.length
  | [], b => by simp [common]
  | a :: as, [] => by simp [common]
  | a :: as, b :: bs => by
    have := common_le as bs
    by_cases h : a ≠ b
    · simp [common, h]
    · simp only [common, if_neg h, List.length_cons]; omega

theorem common_take : ∀ (a b : List Path), a.take (common a b) = b.take (common a b)
  | [], b => by simp [common]
  | a :: as, [] => by simp [common]
  | a :: as, b :: bs => by
    have := common_take as bs
    by_cases h : a ≠ b
    · simp [common, h]
    · simp only [common, if_neg h, List.take_succ_cons, this]
      rw [Classical.not_not.1 h]

theorem common_comm : ∀ (a b : List Path), common a b = common b a
  | [], [] => rfl
  | [], b :: bs => rfl
  | a :: as, [] => rfl
  | a :: as, b :: bs => by
    simp only [common, common_comm as bs, ne_comm]

/-- One more name changes the common prefix by at most one. -/
theorem common_snoc (T : List Path) : ∀ (d : List Path) (p : Path),
    common d T ≤ common (d ++ [p]) T ∧ common (d ++ [p]) T ≤ common d T + 1 := by
  induction T with
  | nil => intro d p; cases d <;> simp [common]
  | cons t T ih =>
    intro d p
    cases d with
    | nil =>
      simp only [List.nil_append, common]
      split <;> simp
    | cons x d =>
      simp only [List.cons_append, common]
      split
      · simp
      · have := ih d p; omega

/-- The number of steps in the tree of directories. -/
def dist (d T : List Path) : Nat := (d.length - common d T) + (T.length - common d T)

theorem dist_snoc (T d : List Path) (p : Path) : dist (d ++ [p]) T ≤ dist d T + 1 ∧ dist d T ≤ dist (d ++ [p]) T + 1 := by
  have h1 := common_snoc T d p
  have h2 := common_le d T
  have h3 := common_le (d ++ [p]) T
  have h4 : (d ++ [p]).length = d.length + 1 := by simp
  unfold dist
  constructor <;> omega

theorem dist_step (T d : List Path) (p : Path) : dist d T ≤ dist (stepDir d p) T + 1 := by
  unfold stepDir
  split
  · omega
  · split
    · rcases List.eq_nil_or_concat d with h | ⟨d', x, h⟩
      · subst h; simp
      · rw [List.concat_eq_append] at h
        subst h; rw [List.dropLast_concat]; exact (dist_snoc T d' x).1
    · exact (dist_snoc T d p).2

theorem dist_self (T : List Path) : dist T T = 0 := by
  have : common T T = T.length := by
    induction T with
    | nil => rfl
    | cons t T ih => simp [common, ih]
  simp [dist, this]

theorem dist_foldl (l : List Path) : ∀ d : List Path, dist d (l.foldl stepDir d) ≤ l.length := by
  suffices h : ∀ (T d : List Path), l.foldl stepDir d = T → dist d T ≤ l.length by
    intro d; exact h _ d rfl
  intro T
  induction l with
  | nil => intro d h; rw [← h]; simp [dist_self]
  | cons p l ih =>
    intro d h
    have h1 := ih (stepDir d p) h
    have h2 := dist_step T d p
    rw [List.length_cons]; omega

end Verif.Paths
