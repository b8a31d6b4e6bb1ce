import Verif.Argparse.Spec
import Mathlib.Tactic.ByContra
/-! Lemmas: dictionaries, the heap of lists, storing of values. -/
namespace Verif.Argparse

theorem get_put {α β} [DecidableEq α] (d : List (α × β)) (k : α) (v : β) (x : α) :
    get (put d k v) x = if x = k then some v else get d x := by
  induction d with
  | nil =>
    simp only [put, get]
    by_cases h : k = x
    · rw [if_pos h, if_pos h.symm]
    · rw [if_neg h, if_neg (fun e => h e.symm)]
  | cons kv d ih =>
    obtain ⟨k0, v0⟩ := kv
    simp only [put]
    by_cases h0 : k0 = k
    · rw [if_pos h0]
      simp only [get]
      by_cases h : k0 = x
      · rw [if_pos h, if_pos (h.symm.trans h0)]
      · rw [if_neg h, if_neg (fun e => h (h0.trans e.symm)), if_neg h]
    · rw [if_neg h0]
      simp only [get]
      by_cases h : k0 = x
      · rw [if_pos h, if_neg (fun e => h0 (h.trans e)), if_pos h]
      · rw [if_neg h, if_neg h, ih]

theorem get_put_self {α β} [DecidableEq α] (d : List (α × β)) (k : α) (v : β) : get (put d k v) k = some v := by
  rw [get_put, if_pos rfl]

theorem get_put_ne {α β} [DecidableEq α] (d : List (α × β)) {k x : α} (v : β) (h : x ≠ k) :
    get (put d k v) x = get d x := by
  rw [get_put, if_neg h]

theorem mem_keys_put {α β} [DecidableEq α] (d : List (α × β)) (k : α) (v : β) (x : α) :
    x ∈ (put d k v).map Prod.fst ↔ x = k ∨ x ∈ d.map Prod.fst := by
  induction d with
  | nil => simp [put]
  | cons kv d ih =>
    obtain ⟨k0, v0⟩ := kv
    simp only [put]
    by_cases h0 : k0 = k
    · rw [if_pos h0]
      subst h0
      simp
    · rw [if_neg h0]
      simp only [List.map_cons, List.mem_cons, ih]
      constructor
      · rintro (h | h | h)
        · exact .inr (.inl h)
        · exact .inl h
        · exact .inr (.inr h)
      · rintro (h | h | h)
        · exact .inr (.inl h)
        · exact .inl h
        · exact .inr (.inr h)

theorem nodup_put {α β} [DecidableEq α] (d : List (α × β)) (k : α) (v : β) (h : (d.map Prod.fst).Nodup) :
    ((put d k v).map Prod.fst).Nodup := by
  induction d with
  | nil => simp [put]
  | cons kv d ih =>
    obtain ⟨k0, v0⟩ := kv
    simp only [List.map_cons, List.nodup_cons] at h
    simp only [put]
    by_cases h0 : k0 = k
    · rw [if_pos h0]
      simp only [List.map_cons, List.nodup_cons]
      exact h
    · rw [if_neg h0]
      simp only [List.map_cons, List.nodup_cons]
      refine ⟨?_, ih h.2⟩
      rw [mem_keys_put]
      rintro (e | e)
      · exact h0 e
      · exact h.1 e

theorem get_none_iff {α β} [DecidableEq α] (d : List (α × β)) (x : α) : get d x = none ↔ x ∉ d.map Prod.fst := by
  induction d with
  | nil => simp [get]
  | cons kv d ih =>
    obtain ⟨k0, v0⟩ := kv
    simp only [get, List.map_cons, List.mem_cons, not_or]
    by_cases h : k0 = x
    · rw [if_pos h]
      subst h
      simp
    · rw [if_neg h, ih]
      exact ⟨fun e => ⟨fun e' => h e'.symm, e⟩, fun e => e.2⟩

/-! ## The heap -/

/-- Every list object belongs to one option. -/
def Sep (a : Args) : Prop := ∀ k t r, get a.options k = some (t, .list r) →
  r < a.heap.length ∧ ∀ k' t', get a.options k' = some (t', .list r) → k' = k

/-- A list object that no option has. -/
def Fresh (r : Nat) (a : Args) : Prop := r < a.heap.length ∧ ∀ k t, get a.options k ≠ some (t, .list r)

/-- A step from `a` to `a'`, where the options become `m`. -/
structure Next (a a' : Args) (m : Env) : Prop where
  view : view a' = m
  sep : Sep a'
  cmd : a'.cmd = a.cmd
  frame : ∀ r, Fresh r a → Fresh r a' ∧ a'.heap[r]? = a.heap[r]?

theorem Next.refl {a : Args} (h : Sep a) : Next a a (Argparse.view a) := ⟨rfl, h, rfl, fun _ h => ⟨h, rfl⟩⟩

theorem Next.trans {a b c : Args} {m m' : Env} (h : Next a b m) (h' : Next b c m') : Next a c m' :=
  ⟨h'.view, h'.sep, h'.cmd.trans h.cmd, fun r hr =>
    ⟨(h'.frame r (h.frame r hr).1).1, ((h'.frame r (h.frame r hr).1).2).trans (h.frame r hr).2⟩⟩

theorem view_set (a : Args) (k : Txt) (t : OTy) (v : Val) : view (a.set k t v) = upd (view a) k (t, contents a.heap v) := by
  funext x
  simp only [view, upd, Args.set, get_put]
  by_cases h : x = k
  · rw [if_pos h, if_pos h]
    rfl
  · rw [if_neg h, if_neg h]

theorem next_set {a : Args} (hs : Sep a) (k : Txt) (t : OTy) {v : Val} (hv : ∀ r, v ≠ .list r) :
    Next a (a.set k t v) (upd (view a) k (t, contents a.heap v)) := by
  have key : ∀ x t' r, get (a.set k t v).options x = some (t', .list r) → get a.options x = some (t', .list r) := by
    intro x t' r h
    simp only [Args.set, get_put] at h
    by_cases e : x = k
    · rw [if_pos e] at h
      simp only [Option.some.injEq, Prod.mk.injEq] at h
      exact absurd h.2 (hv r)
    · rw [if_neg e] at h
      exact h
  refine ⟨view_set a k t v, ?_, rfl, ?_⟩
  · intro x t' r h
    exact ⟨(hs x t' r (key x t' r h)).1, fun k' t'' h' => (hs x t' r (key x t' r h)).2 k' t'' (key k' t'' r h')⟩
  · intro r hr
    exact ⟨⟨hr.1, fun x t' h => hr.2 x t' (key x t' r h)⟩, rfl⟩

/-- A new list. -/
theorem next_new {a : Args} (hs : Sep a) (k : Txt) (l : List Txt) :
    Next a ({ a with heap := a.heap ++ [l] }.set k .strlist (.list a.heap.length))
      (upd (view a) k (.strlist, .list l)) := by
  have old : ∀ x t r, get a.options x = some (t, .list r) → r < a.heap.length := fun x t r h => (hs x t r h).1
  have key : ∀ x t r, get (put a.options k (OTy.strlist, Val.list a.heap.length)) x = some (t, .list r) →
      (x = k ∧ r = a.heap.length) ∨ (x ≠ k ∧ get a.options x = some (t, .list r)) := by
    intro x t r h
    rw [get_put] at h
    by_cases e : x = k
    · rw [if_pos e] at h
      simp only [Option.some.injEq, Prod.mk.injEq, Val.list.injEq] at h
      exact .inl ⟨e, h.2.symm⟩
    · rw [if_neg e] at h
      exact .inr ⟨e, h⟩
  refine ⟨?_, ?_, rfl, ?_⟩
  · funext x
    simp only [view, upd, Args.set, get_put]
    by_cases h : x = k
    · rw [if_pos h, if_pos h]
      simp [contents]
    · rw [if_neg h, if_neg h]
      cases e : get a.options x with
      | none => rfl
      | some tv =>
        obtain ⟨t, v⟩ := tv
        cases v with
        | list r =>
          have := old x t r e
          simp only [Option.map_some, contents, Option.some.injEq, Prod.mk.injEq, DVal.list.injEq, true_and]
          rw [List.getElem?_append_left this]
        | _ => rfl
  · intro x t r h
    simp only [Args.set] at h ⊢
    rcases key x t r h with ⟨e, rfl⟩ | ⟨e, h1⟩
    · refine ⟨by simp, fun k' t' h' => ?_⟩
      rcases key k' t' _ h' with ⟨e', _⟩ | ⟨_, h2⟩
      · exact e'.trans e.symm
      · exact absurd (old _ _ _ h2) (Nat.lt_irrefl _)
    · refine ⟨by simp only [List.length_append]; exact Nat.lt_add_right _ (old _ _ _ h1), fun k' t' h' => ?_⟩
      rcases key k' t' _ h' with ⟨_, e'⟩ | ⟨_, h2⟩
      · exact absurd (old _ _ _ h1) (by omega)
      · exact (hs _ _ _ h1).2 _ _ h2
  · intro r hr
    simp only [Args.set]
    refine ⟨⟨by simp only [List.length_append]; exact Nat.lt_add_right _ hr.1, fun x t h => ?_⟩,
      List.getElem?_append_left hr.1⟩
    rcases key x t r h with ⟨_, e⟩ | ⟨_, h2⟩
    · exact absurd hr.1 (by omega)
    · exact hr.2 _ _ h2

/-- A list that is there already. -/
theorem next_old {a : Args} (hs : Sep a) (k : Txt) (v : Txt) {t : OTy} {r : Nat}
    (h0 : get a.options k = some (t, .list r)) :
    Next a ({ a with heap := a.heap.modify r (· ++ [v]) }.set k .strlist (.list r))
      (upd (view a) k (.strlist, .list (a.heap[r]?.getD [] ++ [v]))) := by
  have hr := (hs k t r h0).1
  have key : ∀ x t' q, get (put a.options k (OTy.strlist, Val.list r)) x = some (t', .list q) →
      ∃ t'', get a.options x = some (t'', .list q) := by
    intro x t' q h
    rw [get_put] at h
    by_cases e : x = k
    · rw [if_pos e] at h
      simp only [Option.some.injEq, Prod.mk.injEq, Val.list.injEq] at h
      rw [e, ← h.2]
      exact ⟨t, h0⟩
    · rw [if_neg e] at h
      exact ⟨t', h⟩
  refine ⟨?_, ?_, rfl, ?_⟩
  · funext x
    simp only [view, upd, Args.set, get_put]
    by_cases h : x = k
    · rw [if_pos h, if_pos h]
      simp [contents, List.getElem?_modify, hr]
    · rw [if_neg h, if_neg h]
      cases e : get a.options x with
      | none => rfl
      | some tv =>
        obtain ⟨t', v'⟩ := tv
        cases v' with
        | list q =>
          have : r ≠ q := fun e' => h ((hs k t r h0).2 x t' (e' ▸ e))
          simp [contents, List.getElem?_modify, this]
        | _ => rfl
  · intro x t' q h
    simp only [Args.set] at h ⊢
    obtain ⟨t'', h1⟩ := key x t' q h
    refine ⟨by simpa using (hs _ _ _ h1).1, fun k' t3 h' => ?_⟩
    obtain ⟨t4, h2⟩ := key k' t3 q h'
    exact (hs _ _ _ h1).2 _ _ h2
  · intro q hq
    simp only [Args.set]
    refine ⟨⟨by simpa using hq.1, fun x t' h => ?_⟩, ?_⟩
    · obtain ⟨t'', h1⟩ := key x t' q h
      exact hq.2 _ _ h1
    · have : r ≠ q := fun e => hq.2 k t (e ▸ h0)
      simp [List.getElem?_modify, this]

theorem next_append {a : Args} (hs : Sep a) (k v : Txt) :
    Next a (appendTo a k v) (upd (view a) k (.strlist, .list (sofar (view a) k ++ [v]))) := by
  have other : (∀ t r, get a.options k ≠ some (t, .list r)) →
      Next a ({ a with heap := a.heap ++ [[v]] }.set k .strlist (.list a.heap.length))
        (upd (view a) k (.strlist, .list (sofar (view a) k ++ [v]))) := by
    intro h
    have e : sofar (view a) k = [] := by
      simp only [sofar, view]
      cases e : get a.options k with
      | none => rfl
      | some tv =>
        obtain ⟨t, w⟩ := tv
        cases w with
        | list r => exact absurd e (h t r)
        | _ => rfl
    rw [e]
    exact next_new hs k [v]
  simp only [appendTo]
  cases e : get a.options k with
  | none => exact other (by rw [e]; intro t r h; cases h)
  | some tv =>
    obtain ⟨t, w⟩ := tv
    cases w with
    | list r =>
      have : sofar (view a) k = a.heap[r]?.getD [] := by simp [sofar, view, e, contents]
      rw [this]
      exact next_old hs k v e
    | bool b => exact other (by rw [e]; intro t r h; cases h)
    | int n => exact other (by rw [e]; intro t r h; cases h)
    | str s => exact other (by rw [e]; intro t r h; cases h)

/-- Storing a value. -/
theorem store_next (pi : Txt → Option Int) {a : Args} (hs : Sep a) (k : Txt) (t : OTy) (v : Txt) :
    match assign pi (view a) k t v with
    | none => store pi a k t v = .error .argument
    | some m => ∃ a', store pi a k t v = .ok a' ∧ Next a a' m := by
  cases t with
  | bool => exact ⟨_, rfl, next_set hs k .bool (v := .bool true) (by intro r h; cases h)⟩
  | int =>
    simp only [assign, store]
    cases pi v with
    | none => rfl
    | some n => exact ⟨_, rfl, next_set hs k .int (v := .int n) (by intro r h; cases h)⟩
  | str => exact ⟨_, rfl, next_set hs k .str (v := .str v) (by intro r h; cases h)⟩
  | strlist => exact ⟨_, rfl, next_append hs k v⟩

theorem assignAll_append (pi : Txt → Option Int) (m : Env) (gs hs : List Given) :
    assignAll pi m (gs ++ hs) = (assignAll pi m gs).bind fun m' => assignAll pi m' hs := by
  induction gs generalizing m with
  | nil => rfl
  | cons g gs ih =>
    simp only [List.cons_append, assignAll]
    cases assign pi m g.name g.ty g.v with
    | none => rfl
    | some m' => exact ih m'

/-! ## Defaults -/

theorem optDefaults_next : ∀ (opts : List (Txt × Spec)) (a : Args), (opts.map Prod.fst).Nodup → Sep a →
    (∀ k t r, get opts k = some ⟨t, some (.list r)⟩ → Fresh r a ∧
      ∀ k' t', get opts k' = some ⟨t', some (.list r)⟩ → k' = k) →
    view (optDefaults opts a) = defaults opts a.heap (view a) ∧ Sep (optDefaults opts a) ∧
      (optDefaults opts a).heap = a.heap ∧ (optDefaults opts a).cmd = a.cmd ∧
      ∀ r, Fresh r a → (∀ k t, get opts k ≠ some ⟨t, some (.list r)⟩) → Fresh r (optDefaults opts a)
  | [], a, _, hs, _ => ⟨rfl, hs, rfl, rfl, fun _ h _ => h⟩
  | (k, ⟨t, none⟩) :: opts, a, hn, hs, hl => by
    simp only [List.map_cons, List.nodup_cons] at hn
    have hk : get opts k = none := (get_none_iff _ _).2 hn.1
    have sub : ∀ x s, get opts x = some s → get ((k, (⟨t, none⟩ : Spec)) :: opts) x = some s := by
      intro x s h
      simp only [get]
      rw [if_neg (fun e => by rw [e] at hk; rw [hk] at h; cases h)]
      exact h
    obtain ⟨h1, h2, h3, h4, h5⟩ := optDefaults_next opts a hn.2 hs (fun x t' r h =>
      ⟨(hl x t' r (sub _ _ h)).1, fun x' t'' h' => (hl x t' r (sub _ _ h)).2 x' t'' (sub _ _ h')⟩)
    simp only [optDefaults]
    refine ⟨?_, h2, h3, h4, fun r hr hn' => h5 r hr (fun x t' h => hn' x t' (sub _ _ h))⟩
    rw [h1]
    funext x
    simp only [defaults, get]
    by_cases e : k = x
    · subst e
      rw [hk, if_pos rfl]
    · rw [if_neg e]
  | (k, ⟨t, some v⟩) :: opts, a, hn, hs, hl => by
    simp only [List.map_cons, List.nodup_cons] at hn
    have hk : get opts k = none := (get_none_iff _ _).2 hn.1
    have ne : ∀ x s, get opts x = some s → x ≠ k := by
      intro x s h e
      rw [e, hk] at h
      cases h
    have self : get ((k, (⟨t, some v⟩ : Spec)) :: opts) k = some ⟨t, some v⟩ := by
      simp only [get, if_pos]
    have sub : ∀ x s, get opts x = some s → get ((k, (⟨t, some v⟩ : Spec)) :: opts) x = some s := by
      intro x s h
      simp only [get]
      rw [if_neg (fun e => ne x s h e.symm)]
      exact h
    have key : ∀ x t' r, get (a.set k t v).options x = some (t', .list r) →
        (x = k ∧ v = .list r) ∨ get a.options x = some (t', .list r) := by
      intro x t' r h
      simp only [Args.set, get_put] at h
      by_cases e : x = k
      · rw [if_pos e] at h
        simp only [Option.some.injEq, Prod.mk.injEq] at h
        exact .inl ⟨e, h.2⟩
      · rw [if_neg e] at h
        exact .inr h
    have hs' : Sep (a.set k t v) := by
      intro x t' r h
      rcases key x t' r h with ⟨e, ev⟩ | h1
      · subst ev
        have hf := (hl k t r self).1
        refine ⟨hf.1, fun x' t'' h' => ?_⟩
        rcases key x' t'' r h' with ⟨e', _⟩ | h2
        · exact e'.trans e.symm
        · exact absurd h2 (hf.2 _ _)
      · refine ⟨(hs _ _ _ h1).1, fun x' t'' h' => ?_⟩
        rcases key x' t'' r h' with ⟨e', ev⟩ | h2
        · subst ev
          exact absurd h1 ((hl k t r self).1.2 _ _)
        · exact (hs _ _ _ h1).2 _ _ h2
    obtain ⟨h1, h2, h3, h4, h5⟩ := optDefaults_next opts (a.set k t v) hn.2 hs' (fun x t' r h => by
      refine ⟨⟨(hl x t' r (sub _ _ h)).1.1, fun x' t'' h' => ?_⟩,
        fun x' t'' h' => (hl x t' r (sub _ _ h)).2 x' t'' (sub _ _ h')⟩
      rcases key x' t'' r h' with ⟨e', ev⟩ | h2
      · subst ev
        exact ne x _ h ((hl x t' r (sub _ _ h)).2 k t self).symm
      · exact (hl x t' r (sub _ _ h)).1.2 _ _ h2)
    simp only [optDefaults]
    refine ⟨?_, h2, h3, h4, fun r hr hn' => h5 r ⟨hr.1, fun x t' h => ?_⟩ (fun x t' h => hn' x t' (sub _ _ h))⟩
    · rw [h1, view_set]
      funext x
      simp only [defaults, get, upd]
      by_cases e : k = x
      · subst e
        rw [hk, if_pos rfl, if_pos rfl]
      · rw [if_neg e]
        cases get opts x with
        | none => exact if_neg (fun e' => e e'.symm)
        | some s =>
          obtain ⟨t', d⟩ := s
          cases d with
          | none => exact if_neg (fun e' => e e'.symm)
          | some v' => rfl
    · rcases key x t' r h with ⟨e', ev⟩ | h2
      · subst ev
        exact hn' k t self
      · exact hr.2 _ _ h2

theorem argDefaults_next : ∀ (args : List Arg) (a : Args), Sep a →
    Next a (argDefaults args a) (argDefs args (view a))
  | [], a, hs => by
    have : argDefs [] (view a) = view a := by
      funext x
      simp [argDefs]
    rw [this]
    exact Next.refl hs
  | g :: args, a, hs => by
    simp only [argDefaults]
    by_cases h : g.required = false ∧ g.nargs = .many
    · rw [if_pos h]
      have n1 := next_new hs g.name []
      have n2 := argDefaults_next args _ n1.sep
      rw [n1.view] at n2
      have e : argDefs (g :: args) (view a) = argDefs args (upd (view a) g.name (.strlist, .list [])) := by
        funext x
        simp only [argDefs, List.mem_cons, exists_eq_or_imp, upd]
        by_cases h1 : ∃ g ∈ args, g.name = x ∧ g.required = false ∧ g.nargs = .many
        · rw [if_pos (.inr h1), if_pos h1]
        · rw [if_neg h1]
          by_cases h2 : x = g.name
          · rw [if_pos (.inl ⟨h2.symm, h⟩), if_pos h2]
          · rw [if_neg h2, if_neg]
            rintro (h3 | h3)
            · exact h2 h3.1.symm
            · exact h1 h3
      rw [e]
      exact n1.trans n2
    · rw [if_neg h]
      have e : argDefs (g :: args) (view a) = argDefs args (view a) := by
        funext x
        simp only [argDefs, List.mem_cons, exists_eq_or_imp]
        by_cases h1 : ∃ g ∈ args, g.name = x ∧ g.required = false ∧ g.nargs = .many
        · rw [if_pos (.inr h1), if_pos h1]
        · rw [if_neg h1, if_neg]
          rintro (h3 | h3)
          · exact h h3.2
          · exact h1 h3
      rw [e]
      exact argDefaults_next args a hs

/-! ## Parsers that are built -/

/-- The options and short names of parsers. -/
structure Ok (p : Parser) : Prop where
  nodup : (p.opts.map Prod.fst).Nodup
  known : ∀ c n, get p.shorts c = some n → ∃ s, get p.opts n = some s
  dash : get p.shorts 45 = none

theorem addShort_ok {alnum : Nat → Bool} (h45 : alnum 45 = false) {shorts : List (Nat × Txt)} {name : Txt}
    {s : Option Txt} {q : List (Nat × Txt)} (h : addShort alnum shorts name s = .ok q) :
    (∀ c n, get q c = some n → n = name ∨ get shorts c = some n) ∧ (get shorts 45 = none → get q 45 = none) := by
  match s with
  | none =>
    simp only [addShort, Except.ok.injEq] at h
    subst h
    exact ⟨fun c n h => .inr h, id⟩
  | some [] => simp [addShort] at h
  | some [c] =>
    simp only [addShort] at h
    by_cases ha : alnum c = true
    · rw [if_pos ha] at h
      cases e : get shorts c with
      | some n => rw [e] at h; simp at h
      | none =>
        rw [e] at h
        simp only [Except.ok.injEq] at h
        subst h
        constructor
        · intro x n hx
          rw [get_put] at hx
          by_cases ex : x = c
          · rw [if_pos ex] at hx
            exact .inl (Option.some.inj hx).symm
          · rw [if_neg ex] at hx
            exact .inr hx
        · intro hn
          rw [get_put, if_neg (fun e => by rw [← e, h45] at ha; cases ha)]
          exact hn
    · rw [if_neg ha] at h
      cases h
  | some (_ :: _ :: _) => simp [addShort] at h

theorem put_ok {opts : List (Txt × Spec)} {shorts q : List (Nat × Txt)} {name : Txt} {s : Spec} {args args' : List Arg}
    {cmds cmds' : Cmds} (h : Ok (.mk opts shorts args cmds))
    (hq : (∀ c n, get q c = some n → n = name ∨ get shorts c = some n) ∧ (get shorts 45 = none → get q 45 = none)) :
    Ok (.mk (put opts name s) q args' cmds') := by
  refine ⟨nodup_put _ _ _ h.nodup, ?_, hq.2 h.dash⟩
  intro c n hc
  simp only [Parser.opts, Parser.shorts] at hc ⊢
  rw [get_put]
  by_cases e : n = name
  · rw [if_pos e]
    exact ⟨s, rfl⟩
  · rw [if_neg e]
    exact h.known c n ((hq.1 c n hc).resolve_left e)

theorem built_ok {alnum : Nat → Bool} (h45 : alnum 45 = false) {p : Parser} (h : Built alnum p) : Ok p := by
  induction h with
  | empty => exact ⟨List.nodup_nil, fun c n h => by simp [empty, Parser.shorts, get] at h, rfl⟩
  | @bool p q n s _ hq ih =>
    obtain ⟨opts, shorts, args, cmds⟩ := p
    simp only [addBool] at hq
    cases e : addShort alnum shorts n s with
    | error e' => rw [e] at hq; cases hq
    | ok q' =>
      rw [e] at hq
      cases hq
      exact put_ok ih (addShort_ok h45 e)
  | @option p q n t d s _ hq ih =>
    obtain ⟨opts, shorts, args, cmds⟩ := p
    simp only [addOption] at hq
    cases eo : get opts n with
    | some s => rw [eo] at hq; cases hq
    | none =>
      rw [eo] at hq
      cases t with
      | bool => cases hq
      | int | str | strlist =>
        cases e : addShort alnum shorts n s with
        | error e' => simp only at hq; rw [e] at hq; cases hq
        | ok q' =>
          simp only at hq
          rw [e] at hq
          cases hq
          exact put_ok ih (addShort_ok h45 e)
  | @arg p q n r k _ hq ih =>
    obtain ⟨opts, shorts, args, cmds⟩ := p
    simp only [addArg] at hq
    split at hq
    · cases hq
    · cases hq
      exact ⟨ih.nodup, ih.known, ih.dash⟩
  | @cmd p c n f _ _ ih _ =>
    obtain ⟨opts, shorts, args, cmds⟩ := p
    exact ⟨ih.nodup, ih.known, ih.dash⟩

theorem withHelp_eq (p : Parser) :
    withHelp p = (.mk (optsH p) p.shorts p.args p.cmds, (get p.opts help).isNone) := by
  obtain ⟨opts, shorts, args, cmds⟩ := p
  simp only [withHelp, optsH, Parser.opts, Parser.shorts, Parser.args, Parser.cmds]
  cases get opts help <;> rfl

theorem optsH_ok {p : Parser} (h : Ok p) (args : List Arg) (cmds : Cmds) : Ok (.mk (optsH p) p.shorts args cmds) := by
  obtain ⟨opts, shorts, args', cmds'⟩ := p
  simp only [optsH, Parser.opts, Parser.shorts]
  cases e : get opts help with
  | some _ => exact ⟨h.nodup, h.known, h.dash⟩
  | none => exact put_ok h ⟨fun c n h => .inr h, id⟩

end Verif.Argparse
