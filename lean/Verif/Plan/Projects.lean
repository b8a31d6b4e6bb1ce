import Verif.Plan.Lemmas
/-!
# C140 to C142: projects, search paths, providers
-/
namespace Verif.Plan

variable {ctxs : Ctxs}

theorem depsOf_nil {d : Nat} (h : d ∉ keys ctxs) : depsOf ctxs d = [] := by
  rw [depsOf, find_none.2 h]; rfl

/-! ## `projDepClosure` -/

theorem mem_foldl_dfs (F : List Nat → Nat → List Nat) (P : Nat → Nat → Prop)
    (hF : ∀ acc n x, x ∈ F acc n ↔ x ∈ acc ∨ P n x) : ∀ (ds acc : List Nat) (x : Nat),
    x ∈ ds.foldl F acc ↔ x ∈ acc ∨ ∃ n ∈ ds, P n x
  | [], acc, x => by simp
  | d :: ds, acc, x => by
    rw [List.foldl_cons, mem_foldl_dfs F P hF ds _ x, hF]
    simp only [List.mem_cons, exists_eq_or_imp]
    tauto

theorem mem_dfs (hk : (keys ctxs).Nodup) : ∀ (f : Nat) (S : List Nat), rem (keys ctxs) S < f → ∀ (acc : List Nat) (n x : Nat),
    x ∈ dfs ctxs f S acc n ↔ x ∈ acc ∨ Avoid (Dep ctxs) S n x
  | 0, S, hf, acc, n, x => by omega
  | f + 1, S, hf, acc, n, x => by
    rw [dfs]
    by_cases hn : n ∈ S
    · rw [if_pos hn]
      exact ⟨.inl, fun h => h.resolve_right fun h => h.not_mem hn⟩
    · rw [if_neg hn, avoid_iff hn]
      by_cases hu : n ∈ keys ctxs
      · have hf' : rem (keys ctxs) (n :: S) < f := by
          have := rem_lt (keys ctxs) (S := S) (T := n :: S) (by simp +contextual) hu hn (by simp)
          omega
        rw [List.mem_cons, mem_foldl_dfs _ (Avoid (Dep ctxs) (n :: S)) (mem_dfs hk f (n :: S) hf')]
        simp only [mem_depsOf hk]
        tauto
      · rw [depsOf_nil hu]
        have : ∀ d, ¬ Dep ctxs n d := fun d h => hu h.key
        simp only [List.foldl_nil, List.mem_cons, this, false_and, exists_false, or_false]
        tauto

/-- **C140.** The closure of a project has the project, what it depends on, what that depends on, and so on. -/
theorem C140_partial (hk : (keys ctxs).Nodup) (root d : Nat) :
    d ∈ projDepClosure ctxs root ↔ Reach (Dep ctxs) root d := by
  rw [projDepClosure, List.mem_reverse, mem_dfs hk _ _ (by rw [rem_nil, keys, List.length_map]; omega), avoid_nil]
  simp

/-- Each entry of the list, which is read from its end, comes behind the entries that it depends on. -/
def Sorted (ctxs : Ctxs) (l : List Nat) : Prop := ∀ b n a, l = b ++ n :: a → ∀ d, Dep ctxs n d → d ∈ a

theorem Sorted.cons {l : List Nat} {n : Nat} (h : Sorted ctxs l) (hn : ∀ d, Dep ctxs n d → d ∈ l) : Sorted ctxs (n :: l) := by
  intro b m a he d hd
  cases b with
  | nil => cases he; exact hn d hd
  | cons c b => cases he; exact h b m a rfl d hd

theorem dfs_mem_acc {f : Nat} {S acc : List Nat} {n x : Nat} (h : x ∈ acc) : x ∈ dfs ctxs f S acc n := by
  induction f generalizing S acc n x with
  | zero => exact h
  | succ f ih =>
    rw [dfs]
    split
    · exact h
    · refine .tail _ ?_
      generalize depsOf ctxs n = ds
      induction ds generalizing acc with
      | nil => exact h
      | cons d ds ihd => exact ihd (ih h)

theorem dfs_sorted (hk : (keys ctxs).Nodup) (r : Nat → Nat) (hr : ∀ a b, Dep ctxs a b → r b < r a) : ∀ (f : Nat) (S : List Nat),
    rem (keys ctxs) S < f → ∀ (acc : List Nat) (n : Nat), (∀ s ∈ S, r n < r s) → Sorted ctxs acc →
    Sorted ctxs (dfs ctxs f S acc n)
  | 0, S, hf, acc, n, _, h => by omega
  | f + 1, S, hf, acc, n, hs, h => by
    rw [dfs]
    split
    · exact h
    · next hn =>
      by_cases hu : n ∈ keys ctxs
      · have hf' : rem (keys ctxs) (n :: S) < f := by
          have := rem_lt (keys ctxs) (S := S) (T := n :: S) (by simp +contextual) hu hn (by simp)
          omega
        have key : ∀ (ds acc : List Nat), (∀ d ∈ ds, Dep ctxs n d) → Sorted ctxs acc →
            Sorted ctxs (ds.foldl (fun a n' => dfs ctxs f (n :: S) a n') acc) ∧
            (∀ x ∈ acc, x ∈ ds.foldl (fun a n' => dfs ctxs f (n :: S) a n') acc) ∧
            ∀ d ∈ ds, d ∈ ds.foldl (fun a n' => dfs ctxs f (n :: S) a n') acc := by
          intro ds
          induction ds with
          | nil => intro acc _ h; exact ⟨h, fun _ h => h, by simp⟩
          | cons d ds ih =>
            intro acc hd h
            have hdn := hr n d (hd d (by simp))
            have hs' : ∀ s ∈ n :: S, r d < r s := by
              intro s hs'
              rcases List.mem_cons.1 hs' with rfl | hs'
              · exact hdn
              · exact Nat.lt_trans hdn (hs s hs')
            have hdS : d ∉ n :: S := fun hd' => Nat.lt_irrefl _ (hs' d hd')
            obtain ⟨h1, h2, h3⟩ := ih (dfs ctxs f (n :: S) acc d) (fun d' h' => hd d' (.tail _ h'))
              (dfs_sorted hk r hr f (n :: S) hf' acc d hs' h)
            rw [List.foldl_cons]
            refine ⟨h1, fun x hx => h2 x (dfs_mem_acc hx), fun d' hd' => ?_⟩
            rcases List.mem_cons.1 hd' with rfl | hd'
            · exact h2 _ ((mem_dfs hk f (n :: S) hf' acc d' d').2 (.inr (.here hdS)))
            · exact h3 d' hd'
        obtain ⟨h1, _, h3⟩ := key (depsOf ctxs n) acc (fun d hd => (mem_depsOf hk).1 hd) h
        exact h1.cons fun d hd => h3 d ((mem_depsOf hk).2 hd)
      · rw [depsOf_nil hu]
        exact h.cons fun d hd => absurd hd.key hu

/-- In front of each entry stands what the project depends on, if no project depends on itself. -/
theorem C140_first_partial (hk : (keys ctxs).Nodup) (ha : Acyclic (Dep ctxs)) (root : Nat) (a b : List Nat) (n : Nat)
    (h : projDepClosure ctxs root = a ++ n :: b) (d : Nat) (hd : Dep ctxs n d) : d ∈ a := by
  obtain ⟨r, hr⟩ := ha
  have hs := dfs_sorted hk r hr (ctxs.length + 1) [] (by rw [rem_nil, keys, List.length_map]; omega) [] root (by simp)
    (by intro b n a h; simp at h)
  rw [projDepClosure] at h
  have h' := congrArg List.reverse h
  rw [List.reverse_reverse, List.reverse_append, List.reverse_cons, List.append_assoc] at h'
  have := hs _ n _ h' d hd
  simpa using this

/-- The project stands at the end. -/
theorem C140_last (ctxs : Ctxs) (root : Nat) : (projDepClosure ctxs root).getLast? = some root := by
  rw [projDepClosure, dfs]
  simp

/-- A project that two others depend on is listed twice. -/
theorem C140_refuted_once : projDepClosure [(0, [1, 2]), (1, [3]), (2, [3])] 0 = [3, 1, 3, 2, 0] := by decide

/-- `k` diamonds, each on top of another. -/
def diamonds : Nat → Ctxs
  | 0 => []
  | k + 1 => (3 * (k + 1), [3 * (k + 1) + 1, 3 * (k + 1) + 2]) :: (3 * (k + 1) + 1, [3 * k]) :: (3 * (k + 1) + 2, [3 * k]) :: diamonds k

theorem diamonds_top : ∀ (K k : Nat), k < K → depsOf (diamonds K) (3 * (k + 1)) = [3 * (k + 1) + 1, 3 * (k + 1) + 2]
  | K + 1, k, h => by
    by_cases hk : k = K
    · subst hk; simp [depsOf, find, diamonds]
    · have := diamonds_top K k (by omega)
      rw [depsOf, find] at this
      rw [depsOf, find, diamonds, List.find?_cons_of_neg (by simp; omega), List.find?_cons_of_neg (by simp; omega), List.find?_cons_of_neg (by simp; omega)]
      exact this

theorem diamonds_side : ∀ (K k i : Nat), k < K → (i = 1 ∨ i = 2) → depsOf (diamonds K) (3 * (k + 1) + i) = [3 * k]
  | K + 1, k, i, h, hi => by
    by_cases hk : k = K
    · subst hk; rcases hi with rfl | rfl <;> simp [depsOf, find, diamonds]
    · have := diamonds_side K k i (by omega) hi
      rw [depsOf, find] at this
      rw [depsOf, find, diamonds, List.find?_cons_of_neg (by simp; omega), List.find?_cons_of_neg (by simp; omega), List.find?_cons_of_neg (by simp; omega)]
      exact this

theorem diamonds_length : ∀ K, (diamonds K).length = 3 * K
  | 0 => rfl
  | K + 1 => by rw [diamonds]; simp only [List.length_cons, diamonds_length K]; omega

theorem diamonds_dfs (K : Nat) : ∀ (k : Nat), k ≤ K → ∀ (f : Nat) (S acc : List Nat), 2 * k + 1 ≤ f → (∀ s ∈ S, 3 * k + 2 < s) →
    acc.length + 2 ^ k ≤ (dfs (diamonds K) f S acc (3 * k)).length
  | 0, _, f, S, acc, hf, hs => by
    obtain ⟨f, rfl⟩ : ∃ f', f = f' + 1 := ⟨f - 1, by omega⟩
    rw [dfs, if_neg (fun h => by have := hs _ h; omega), List.length_cons]
    have : ∀ (ds acc : List Nat) (F : List Nat → Nat → List Nat), (∀ a n, a.length ≤ (F a n).length) → acc.length ≤ (ds.foldl F acc).length := by
      intro ds
      induction ds with
      | nil => intro acc F _; exact Nat.le_refl _
      | cons d ds ih => intro acc F hF; exact Nat.le_trans (hF acc d) (ih _ F hF)
    have hz : depsOf (diamonds K) 0 = [] := by
      apply depsOf_nil
      clear hf hs this
      intro h
      have : ∀ K, ∀ x ∈ keys (diamonds K), 0 < x := by
        intro K
        induction K with
        | zero => intro x hx; simp [keys, diamonds] at hx
        | succ K ih =>
          intro x hx
          simp only [keys, diamonds, List.map_cons, List.mem_cons] at hx
          rcases hx with rfl | rfl | rfl | hx
          · omega
          · omega
          · omega
          · exact ih x hx
      exact absurd (this K 0 h) (by omega)
    rw [Nat.mul_zero, hz]
    simp
  | k + 1, hk, f, S, acc, hf, hs => by
    obtain ⟨f, rfl⟩ : ∃ f', f = f' + 2 := ⟨f - 2, by omega⟩
    rw [dfs, if_neg (fun h => by have := hs _ h; omega), diamonds_top K k (by omega), List.length_cons]
    simp only [List.foldl_cons, List.foldl_nil]
    have side : ∀ (acc : List Nat) (i : Nat), (i = 1 ∨ i = 2) →
        acc.length + 2 ^ k ≤ (dfs (diamonds K) (f + 1) (3 * (k + 1) :: S) acc (3 * (k + 1) + i)).length := by
      intro acc i hi
      rw [dfs]
      have hn : 3 * (k + 1) + i ∉ 3 * (k + 1) :: S := by
        intro h
        rcases List.mem_cons.1 h with h | h
        · omega
        · have := hs _ h; omega
      rw [if_neg hn, diamonds_side K k i (by omega) hi, List.length_cons]
      simp only [List.foldl_cons, List.foldl_nil]
      have := diamonds_dfs K k (by omega) f ((3 * (k + 1) + i) :: (3 * (k + 1)) :: S) acc (by omega) (by
        intro s h
        rcases List.mem_cons.1 h with rfl | h
        · omega
        · rcases List.mem_cons.1 h with rfl | h
          · omega
          · have := hs s h; omega)
      omega
    have h1 := side acc 1 (.inl rfl)
    have h2 := side (dfs (diamonds K) (f + 1) (3 * (k + 1) :: S) acc (3 * (k + 1) + 1)) 2 (.inr rfl)
    rw [Nat.pow_succ]
    omega

/-- With `k` diamonds on top of each other, that is `3 * k + 1` projects, the list has `2 ^ k` entries at least. -/
theorem C140_refuted_length (k : Nat) : 2 ^ k ≤ (projDepClosure (diamonds k) (3 * k)).length := by
  rw [projDepClosure, List.length_reverse]
  have := diamonds_dfs k k (Nat.le_refl _) ((diamonds k).length + 1) [] [] (by rw [diamonds_length]; omega) (by simp)
  simpa using this

/-! ## `depTypePathsFromMap` -/

/-- What holds of the result of `go` and between its steps: `S0` was seen before, `node` is being looked at. -/
structure Going (ctxs : Ctxs) (S0 : List Nat) (node : Nat) (r : List Nat × List Nat) : Prop where
  old : ∀ x ∈ S0, x ∈ r.1
  seen : ∀ x ∈ r.1, x ∈ S0 ∨ x ∈ r.2 ∨ x ∉ keys ctxs
  new : ∀ x ∈ r.2, x ∈ r.1 ∧ x ∉ S0 ∧ x ∈ keys ctxs ∧ Reach (Dep ctxs) node x
  once : r.2.Nodup
  deps : ∀ x ∈ r.2, ∀ d, Dep ctxs x d → d ∈ r.1

theorem typesGo_ok (hk : (keys ctxs).Nodup) : ∀ (f : Nat) (S : List Nat) (node : Nat), rem (keys ctxs) (node :: S) < f →
    node ∈ keys ctxs →
    Going ctxs (node :: S) node (typesGo ctxs f S node) ∧ ∀ d, Dep ctxs node d → d ∈ (typesGo ctxs f S node).1
  | 0, S, node, hf, _ => by omega
  | f + 1, S, node, hf, hn => by
    rw [typesGo]
    cases hfind : find ctxs node with
    | none => exact absurd hn (find_none.1 hfind)
    | some ds =>
      have hds : ∀ d, d ∈ ds ↔ Dep ctxs node d := by
        intro d
        rw [← mem_depsOf hk, depsOf, hfind]; rfl
      have key : ∀ (ds : List Nat) (r : List Nat × List Nat), (∀ d ∈ ds, Dep ctxs node d) → Going ctxs (node :: S) node r →
          Going ctxs (node :: S) node (ds.foldl (fun r d =>
            match find ctxs d with
            | none => (d :: r.1, r.2)
            | some _ =>
              if d ∈ r.1 then r
              else
                let q := typesGo ctxs f (d :: r.1) d
                (q.1, r.2 ++ [d] ++ q.2)) r) ∧
          (∀ x ∈ r.1, x ∈ (ds.foldl (fun r d =>
            match find ctxs d with
            | none => (d :: r.1, r.2)
            | some _ =>
              if d ∈ r.1 then r
              else
                let q := typesGo ctxs f (d :: r.1) d
                (q.1, r.2 ++ [d] ++ q.2)) r).1) ∧
          ∀ d ∈ ds, d ∈ (ds.foldl (fun r d =>
            match find ctxs d with
            | none => (d :: r.1, r.2)
            | some _ =>
              if d ∈ r.1 then r
              else
                let q := typesGo ctxs f (d :: r.1) d
                (q.1, r.2 ++ [d] ++ q.2)) r).1 := by
        intro ds
        induction ds with
        | nil => intro r _ h; exact ⟨h, fun _ h => h, by simp⟩
        | cons d ds ih =>
          intro r hd h
          have hd0 := hd d (by simp)
          suffices hs : ∃ r', (match find ctxs d with
            | none => (d :: r.1, r.2)
            | some _ =>
              if d ∈ r.1 then r
              else
                let q := typesGo ctxs f (d :: r.1) d
                (q.1, r.2 ++ [d] ++ q.2)) = r' ∧ Going ctxs (node :: S) node r' ∧ (∀ x ∈ r.1, x ∈ r'.1) ∧ d ∈ r'.1 by
            obtain ⟨r', he, h1, h2, h3⟩ := hs
            rw [List.foldl_cons, he]
            obtain ⟨i1, i2, i3⟩ := ih r' (fun d' h' => hd d' (.tail _ h')) h1
            refine ⟨i1, fun x hx => i2 x (h2 x hx), fun d' hd' => ?_⟩
            rcases List.mem_cons.1 hd' with rfl | hd'
            · exact i2 _ h3
            · exact i3 d' hd'
          cases hf' : find ctxs d with
          | none =>
            refine ⟨_, rfl, ⟨fun x hx => .tail _ (h.old x hx), ?_, ?_, h.once, fun x hx d' h' => .tail _ (h.deps x hx d' h')⟩,
              fun x hx => .tail _ hx, by simp⟩
            · intro x hx
              rcases List.mem_cons.1 hx with rfl | hx
              · exact .inr (.inr (find_none.1 hf'))
              · exact h.seen x hx
            · intro x hx
              obtain ⟨h1, h2⟩ := h.new x hx
              exact ⟨.tail _ h1, h2⟩
          | some ds' =>
            by_cases hdr : d ∈ r.1
            · refine ⟨r, by simp only [if_pos hdr], h, fun _ h => h, hdr⟩
            · have hdk : d ∈ keys ctxs := by
                by_contra hc
                rw [find_none.2 hc] at hf'
                cases hf'
              have hfu : rem (keys ctxs) (d :: d :: r.1) < f := by
                have h1 := rem_le (keys ctxs) h.old
                have h2 := rem_lt (keys ctxs) (S := r.1) (T := d :: d :: r.1) (fun x hx => .tail _ (.tail _ hx)) hdk hdr (by simp)
                omega
              obtain ⟨g, gd⟩ := typesGo_ok hk f (d :: r.1) d hfu hdk
              refine ⟨((typesGo ctxs f (d :: r.1) d).1, r.2 ++ [d] ++ (typesGo ctxs f (d :: r.1) d).2), by simp only [if_neg hdr],
                ⟨?_, ?_, ?_, ?_, ?_⟩, ?_, ?_⟩
              · exact fun x hx => g.old x (.tail _ (.tail _ (h.old x hx)))
              · intro x hx
                rcases g.seen x hx with h' | h' | h'
                · rcases List.mem_cons.1 h' with rfl | h'
                  · exact .inr (.inl (by simp))
                  · rcases List.mem_cons.1 h' with rfl | h'
                    · exact .inr (.inl (by simp))
                    · rcases h.seen x h' with h'' | h'' | h''
                      · exact .inl h''
                      · exact .inr (.inl (by simp [h'']))
                      · exact .inr (.inr h'')
                · exact .inr (.inl (by simp [h']))
                · exact .inr (.inr h')
              · intro x hx
                simp only [List.append_assoc, List.singleton_append, List.mem_append, List.mem_cons] at hx
                rcases hx with hx | rfl | hx
                · obtain ⟨h1, h2⟩ := h.new x hx
                  exact ⟨g.old x (.tail _ (.tail _ h1)), h2⟩
                · exact ⟨g.old x (by simp), fun h' => hdr (h.old x h'), hdk, .single hd0⟩
                · obtain ⟨h1, h2, h3, h4⟩ := g.new x hx
                  exact ⟨h1, fun h' => h2 (.tail _ (.tail _ (h.old x h'))), h3, .head hd0 h4⟩
              · rw [List.append_assoc, List.singleton_append, List.nodup_append]
                refine ⟨h.once, List.nodup_cons.2 ⟨fun h' => (g.new d h').2.1 (by simp), g.once⟩, ?_⟩
                rintro x hx y hy rfl
                have hxr := (h.new x hx).1
                rcases List.mem_cons.1 hy with rfl | hy
                · exact hdr hxr
                · exact (g.new x hy).2.1 (.tail _ (.tail _ hxr))
              · intro x hx d' h'
                simp only [List.append_assoc, List.singleton_append, List.mem_append, List.mem_cons] at hx
                rcases hx with hx | rfl | hx
                · exact g.old d' (.tail _ (.tail _ (h.deps x hx d' h')))
                · exact gd d' h'
                · exact g.deps x hx d' h'
              · exact fun x hx => g.old x (.tail _ (.tail _ hx))
              · exact g.old d (by simp)
      obtain ⟨h1, _, h3⟩ := key ds (node :: S, []) (fun d h => (hds d).1 h)
        ⟨fun _ h => h, fun x h => .inl h, by simp, by simp, by simp⟩
      exact ⟨h1, fun d hd => h3 d ((hds d).2 hd)⟩

/-- **C141.** The search path of a project has the known projects that it depends on in any number of steps, each
once, without itself. -/
theorem C141 (hk : (keys ctxs).Nodup) (root : Nat) : (depTypePaths ctxs root).Nodup ∧
    ∀ d, d ∈ depTypePaths ctxs root ↔ d ≠ root ∧ d ∈ keys ctxs ∧ Reach (Dep ctxs) root d := by
  by_cases hr : root ∈ keys ctxs
  · obtain ⟨g, gd⟩ := typesGo_ok hk (ctxs.length + 1) [] root (by
      have := rem_le (keys ctxs) (S := []) (T := [root]) (by simp)
      rw [rem_nil, keys, List.length_map] at this
      rw [keys]; omega) hr
    have hall : ∀ d, Reach (Dep ctxs) root d → d ∈ (typesGo ctxs (ctxs.length + 1) [] root).1 := by
      intro d h3
      induction h3 with
      | refl => exact g.old root (by simp)
      | @tail b c _ hbc ih =>
        rcases g.seen b ih with h | h | h
        · simp only [List.mem_singleton] at h
          subst h
          exact gd c hbc
        · exact g.deps b h c hbc
        · exact absurd hbc.key h
    rw [depTypePaths]
    refine ⟨g.once, fun d => ⟨fun h => ?_, fun ⟨h1, h2, h3⟩ => ?_⟩⟩
    · obtain ⟨_, h2, h3, h4⟩ := g.new d h
      exact ⟨fun he => h2 (by simp [he]), h3, h4⟩
    · rcases g.seen d (hall d h3) with h | h | h
      · simp only [List.mem_singleton] at h
        exact absurd h h1
      · exact h
      · exact absurd h2 h
  · have : depTypePaths ctxs root = [] := by rw [depTypePaths, typesGo, find_none.2 hr]
    rw [this]
    refine ⟨by simp, fun d => ⟨by simp, fun ⟨h1, _, h3⟩ => ?_⟩⟩
    rcases Relation.ReflTransGen.cases_head h3 with h | ⟨c, hc, _⟩
    · exact absurd h.symm h1
    · exact absurd hc.key hr

/-! ## Providers -/

/-- **C142.** The task on which an import waits is the one whose interface is read, if one project of the closure
at most declares the module. -/
theorem C142_partial (hk : (keys ctxs).Nodup) (p0 : Nat) (mods : Nat → List Mod) (own : Mod → Mod) (mn : Mod)
    (hm : ∀ p, p ∉ keys ctxs → mods p = []) (hown : own mn ∉ mods p0)
    (hu : ∀ p q, Reach (Dep ctxs) p0 p → Reach (Dep ctxs) p0 q → mn ∈ mods p → mn ∈ mods q → p = q) :
    provider mods p0 own (projDepClosure ctxs p0) mn = (searched mods p0 (depTypePaths ctxs p0) mn).map fun p => (p, mn) := by
  rw [provider, if_neg hown]
  have hmem : ∀ p, p ∈ projDepClosure ctxs p0 ∧ mn ∈ mods p ↔ p ∈ p0 :: depTypePaths ctxs p0 ∧ mn ∈ mods p := by
    intro p
    rw [C140_partial hk, List.mem_cons, (C141 hk p0).2 p]
    constructor
    · rintro ⟨h1, h2⟩
      refine ⟨?_, h2⟩
      by_cases he : p = p0
      · exact .inl he
      · refine .inr ⟨he, ?_, h1⟩
        by_contra hc
        rw [hm p hc] at h2
        cases h2
    · rintro ⟨rfl | ⟨_, _, h⟩, h2⟩
      · exact ⟨.refl, h2⟩
      · exact ⟨h, h2⟩
  cases hs : searched mods p0 (depTypePaths ctxs p0) mn with
  | none =>
    rw [searched, List.find?_eq_none] at hs
    have : (projDepClosure ctxs p0).filter (fun p => mn ∈ mods p) = [] := by
      rw [List.filter_eq_nil_iff]
      intro p hp hd
      rw [decide_eq_true_eq] at hd
      exact hs p ((hmem p).1 ⟨hp, hd⟩).1 (by simpa using hd)
    rw [this]; rfl
  | some p =>
    have h1 := List.find?_some hs
    have h2 := List.mem_of_find?_eq_some hs
    rw [decide_eq_true_eq] at h1
    have h3 := (hmem p).2 ⟨h2, h1⟩
    have hp := (C140_partial hk p0 p).1 h3.1
    rw [Option.map_some, List.getLast?_map]
    have hin : p ∈ (projDepClosure ctxs p0).filter (fun p => mn ∈ mods p) := by simp [h3.1, h1]
    have hall : ∀ q ∈ (projDepClosure ctxs p0).filter (fun p => mn ∈ mods p), q = p := by
      intro q hq
      rw [List.mem_filter, decide_eq_true_eq] at hq
      exact hu q p ((C140_partial hk p0 q).1 hq.1) hp hq.2 h1
    generalize (projDepClosure ctxs p0).filter (fun p => mn ∈ mods p) = l at hin hall
    cases hl : l.getLast? with
    | none => rw [List.getLast?_eq_none_iff] at hl; subst hl; cases hin
    | some q => rw [hall q (List.mem_of_getLast? hl)]; rfl

/-- Two dependencies with modules of the same name: the import waits for that of the second and reads that of the
first. -/
theorem C142_refuted :
    let ctxs : Ctxs := [(0, [1, 2]), (1, []), (2, [])]
    let mods : Nat → List Mod := fun p => if p = 1 ∨ p = 2 then [[7, 8]] else []
    provider mods 0 (fun m => 5 :: m) (projDepClosure ctxs 0) [7, 8] = some (2, [7, 8]) ∧
    searched mods 0 (depTypePaths ctxs 0) [7, 8] = some 1 := by decide

/-- A diamond whose bottom declares the module. -/
example : (keys [(0, [1, 2]), (1, [3]), (2, [3]), (3, [])]).Nodup ∧
    provider (fun p => if p = 3 then [[7, 8]] else []) 0 (fun m => 5 :: m) (projDepClosure [(0, [1, 2]), (1, [3]), (2, [3]), (3, [])] 0) [7, 8]
      = some (3, [7, 8]) ∧ depTypePaths [(0, [1, 2]), (1, [3]), (2, [3]), (3, [])] 0 = [1, 3, 2] := by decide

example : Acyclic (Dep [(0, [1, 2]), (1, [3]), (2, [3]), (3, [])]) := by
  refine ⟨fun n => 10 - n, fun a b => ?_⟩
  rintro ⟨ds, h, hb⟩
  simp only [List.mem_cons, Prod.mk.injEq, List.not_mem_nil, or_false] at h
  rcases h with ⟨rfl, rfl⟩ | ⟨rfl, rfl⟩ | ⟨rfl, rfl⟩ | ⟨rfl, rfl⟩
  · simp only [List.mem_cons, List.not_mem_nil, or_false] at hb
    rcases hb with rfl | rfl <;> decide
  · simp only [List.mem_cons, List.not_mem_nil, or_false] at hb
    subst hb; decide
  · simp only [List.mem_cons, List.not_mem_nil, or_false] at hb
    subst hb; decide
  · cases hb

end Verif.Plan
