import Verif.TestCache.Model
import Mathlib.Data.Countable.Basic
import Mathlib.Logic.Equiv.List
/-!
# C181, C182, C183: results of tests are used again for the same test, code and context
-/
namespace Verif.TestCache

theorem digit_inj : ∀ a < 16, ∀ b < 16, digit a = digit b → a = b := by decide

theorem hex_inj : ∀ {a b : Bytes}, hex a = hex b → a = b
  | [], [], _ => rfl
  | [], _ :: _, h => by cases h
  | _ :: _, [], h => by cases h
  | x :: a, y :: b, h => by
    rw [hex, hex, List.cons.injEq, List.cons.injEq] at h
    obtain ⟨h1, h2, h3⟩ := h
    have hx := x.toNat_lt; have hy := y.toNat_lt
    have e1 := digit_inj _ (by omega) _ (by omega) h1
    have e2 := digit_inj _ (by omega) _ (by omega) h2
    have : x = y := UInt8.toNat_inj.1 (by omega)
    rw [this, hex_inj h3]

theorem hex_ne {a : Bytes} (h : a.length = 32) : hex a ≠ [] := by
  cases a with
  | nil => cases h
  | cons x a => intro e; cases e

theorem key_inj {m n m' n' : Text} (h : ':' ∉ m) (h' : ':' ∉ m') (e : key m n = key m' n') : m = m' ∧ n = n' := by
  unfold key at e
  induction m generalizing m' with
  | nil =>
    cases m' with
    | nil => exact ⟨rfl, (List.cons.inj e).2⟩
    | cons c m' => exact absurd ((List.cons.inj e).1 ▸ List.mem_cons_self) h'
  | cons c m ih =>
    cases m' with
    | nil => exact absurd ((List.cons.inj e).1.symm ▸ List.mem_cons_self) h
    | cons c' m' =>
      rw [List.cons_append, List.cons_append, List.cons.injEq] at e
      obtain ⟨a, b⟩ := ih (fun x => h (List.mem_cons_of_mem _ x)) (fun x => h' (List.mem_cons_of_mem _ x)) e.2
      exact ⟨by rw [e.1, a], b⟩

theorem infoOf_eq {H : Hash} {r : Run} (hp : Proper r) {m n : Text} (h : (m, n) ∈ r.tests) :
    infoOf H r (key m n) = runHash H r m n := by
  unfold infoOf
  cases hf : r.tests.reverse.find? (fun t => key t.1 t.2 = key m n) with
  | none =>
    have := List.find?_eq_none.1 hf (m, n) (List.mem_reverse.2 h)
    simp at this
  | some t =>
    have h1 := List.find?_some hf
    have h2 := List.mem_reverse.1 (List.mem_of_find?_eq_some hf)
    obtain ⟨a, b⟩ := key_inj (hp t h2) (hp _ h) (of_decide_eq_true h1)
    show runHash H r t.1 t.2 = _
    rw [a, b]

/-! ## Names -/

theorem strip_prefix {p s x : Text} (h : stripPrefix p s = some x) : s = p ++ x := by
  unfold stripPrefix at h
  split at h
  · rename_i hp
    obtain ⟨t, rfl⟩ := hp
    have := Option.some.inj h
    rw [List.drop_left] at this
    rw [this]
  · cases h

theorem strip_suffix {p s x : Text} (h : stripSuffix p s = some x) : s = x ++ p := by
  unfold stripSuffix at h
  split at h
  · rename_i hp
    obtain ⟨t, rfl⟩ := hp
    have := Option.some.inj h
    rw [List.length_append, Nat.add_sub_cancel, List.take_left] at this
    rw [this]
  · cases h

theorem candidates_stands {n c : Text} (h : c ∈ candidates n) : Stands n c := by
  unfold candidates at h
  rw [List.mem_filterMap] at h
  obtain ⟨o, ho, rfl⟩ : ∃ o, o ∈ _ ∧ o = some c := by
    obtain ⟨o, a, b⟩ := h; exact ⟨o, a, b⟩
  simp only [List.mem_cons, List.not_mem_nil, or_false] at ho
  rcases ho with h | h | h | h | h
  · exact .inl (Option.some.inj h).symm
  · exact .inr (.inl (strip_suffix h.symm))
  · exact .inr (.inr (.inl (strip_prefix h.symm)))
  · obtain ⟨y, a, b⟩ := Option.bind_eq_some_iff.1 h.symm
    refine .inr (.inr (.inr ?_))
    rw [strip_suffix a, strip_prefix b]
  · obtain ⟨y, a, b⟩ := Option.bind_eq_some_iff.1 h.symm
    refine .inr (.inr (.inr ?_))
    rw [strip_prefix a, strip_suffix b, List.append_assoc]

theorem record_some {names : Text → Option NameInfo} {n : Text} {i : NameInfo} (h : record names n = some i) :
    ∃ c, Stands n c ∧ names c = some i := by
  obtain ⟨c, hc, h⟩ := List.exists_of_findSome?_eq_some h
  exact ⟨c, candidates_stands hc, h⟩

theorem made {r : Run} {m n c : Text} {i : NameInfo} (hs : Stands n c) (h : r.names m c = some i) : Made r m n i.impl (depsOf r i) := by
  refine ⟨c, i, hs, h, rfl, by simp [depsOf], fun j q h hj => ?_⟩
  unfold depsOf
  rw [List.getElem?_map, hj]
  cases q <;> rfl

/-! ## What is in the cache -/

theorem update_same {H : Hash} {r : Run} {c : Cache} {x : Result} : update H r c x (key x.mod x.name) = some ⟨(infoOf H r (key x.mod x.name)).getD [], x.res⟩ := by
  unfold update; rw [if_pos rfl]

/-- An entry of the cache comes from a result of the list or from before. -/
theorem fold_entry {H : Hash} {r : Run} {xs : List Result} : ∀ {c : Cache} {k : Text} {e : Entry}, xs.foldl (update H r) c k = some e →
    (∃ x ∈ xs, k = key x.mod x.name ∧ e = ⟨(infoOf H r k).getD [], x.res⟩) ∨ c k = some e := by
  induction xs with
  | nil => intro c k e h; exact .inr h
  | cons x xs ih =>
    intro c k e h
    rcases ih h with ⟨y, m, a, b⟩ | h
    · exact .inl ⟨y, List.mem_cons_of_mem _ m, a, b⟩
    · unfold update at h
      by_cases hk : k = key x.mod x.name
      · rw [if_pos hk] at h
        exact .inl ⟨x, List.mem_cons_self, hk, by rw [hk]; exact (Option.some.inj h).symm⟩
      · rw [if_neg hk] at h
        exact .inr h

theorem one_names (H : Hash) (r : Run) (c : Cache) (t : Text × Text) : (one H r c t).mod = t.1 ∧ (one H r c t).name = t.2 := by
  unfold one; split <;> exact ⟨rfl, rfl⟩

theorem one_ran {H : Hash} {r : Run} {c : Cache} {t : Text × Text} (h : (one H r c t).cached = false) : (one H r c t).res = r.outcome t.1 t.2 := by
  unfold one at h ⊢
  split at h
  · cases h
  · rfl

theorem entry_origin {H : Hash} {h : List Event} (hp : ∀ r, .run r ∈ h → Proper r) {m n : Text} (hm : ':' ∉ m) {e : Entry}
    (he : cache H h (key m n) = some e) :
    ∃ r, .run r ∈ h ∧ r.useCache = true ∧ (m, n) ∈ r.tests ∧ e.run = (infoOf H r (key m n)).getD [] ∧ e.res = r.outcome m n := by
  induction h with
  | nil => cases he
  | cons ev h ih =>
    cases ev with
    | lose => cases he
    | run r =>
      rw [cache, after] at he
      have ih' : cache H h (key m n) = some e → _ := fun x => ih (fun r hr => hp r (List.mem_cons_of_mem _ hr)) x
      have up : (∃ r, .run r ∈ h ∧ r.useCache = true ∧ (m, n) ∈ r.tests ∧ e.run = (infoOf H r (key m n)).getD [] ∧ e.res = r.outcome m n) →
          ∃ r', .run r' ∈ .run r :: h ∧ r'.useCache = true ∧ (m, n) ∈ r'.tests ∧ e.run = (infoOf H r' (key m n)).getD [] ∧ e.res = r'.outcome m n := by
        rintro ⟨r', a, b⟩; exact ⟨r', List.mem_cons_of_mem _ a, b⟩
      by_cases hu : r.useCache = true
      · rw [if_pos hu] at he
        rcases fold_entry he with ⟨x, hx, hk, rfl⟩ | he
        · obtain ⟨hx1, hx2⟩ := List.mem_filter.1 hx
          obtain ⟨t, ht, rfl⟩ := List.mem_map.1 hx1
          have hn := one_names H r (cache H h) t
          rw [hn.1, hn.2] at hk
          obtain ⟨a, b⟩ := key_inj hm (hp r List.mem_cons_self t ht) hk
          subst a; subst b
          exact ⟨r, List.mem_cons_self, hu, ht, rfl, one_ran (by simpa using hx2)⟩
        · exact up (ih' he)
      · rw [if_neg hu] at he
        exact up (ih' he)

theorem reuse_some {H : Hash} {r : Run} {c : Cache} {m n : Text} {x : Res} (h : reuse H r c m n = some x) :
    ∃ e, c (key m n) = some e ∧ infoOf H r (key m n) = some e.run ∧ e.res = x ∧ (x.output = none ∨ r.snapOk m n = true) := by
  unfold reuse at h
  cases hc : cachedOf H r c m n with
  | none => rw [hc] at h; cases h
  | some y =>
    rw [hc] at h
    simp only at h
    split at h
    · rename_i ho
      have := Option.some.inj h; subst this
      unfold cachedOf at hc
      split at hc
      · rename_i e hh h1 h2
        split at hc
        · rename_i he
          have := Option.some.inj hc; subst this
          refine ⟨e, h1, by rw [h2, he], rfl, ?_⟩
          rw [Bool.or_eq_true, Option.isNone_iff_eq_none] at ho
          exact ho
        · cases hc
      · cases hc
    · cases h

/-- **C181** A result that is taken from the cache is that of an earlier run of the same test, in
the same context (version of the compiler, target, optimisation, mode, arguments), where the
definition that the test is made from had the same hash, and what it uses had the same hashes; if it
has output, the snapshot files are as they should be. Every other result is that of running the
test now. -/
theorem C181 {H : Hash} {h : List Event} {r : Run} (hp : ∀ r', .run r' ∈ h → Proper r') (hr : Proper r)
    (hc : NoClash H (fun r' => r' = r ∨ .run r' ∈ h)) {x : Result} (hx : x ∈ results H r (cache H h)) :
    (x.mod, x.name) ∈ r.tests ∧ (x.cached = false → x.res = r.outcome x.mod x.name) ∧
    (x.cached = true → (x.res.output = none ∨ r.snapOk x.mod x.name = true) ∧ r.useCache = true ∧
      ∃ r' impl deps deps', .run r' ∈ h ∧ (x.mod, x.name) ∈ r'.tests ∧ x.res = r'.outcome x.mod x.name ∧ r'.ctx = r.ctx ∧
        Made r x.mod x.name impl deps ∧ Made r' x.mod x.name impl deps' ∧ deps.Perm deps') := by
  obtain ⟨t, ht, rfl⟩ := List.mem_map.1 hx
  have hn := one_names H r (cache H h) t
  rw [hn.1, hn.2]
  refine ⟨ht, fun hf => one_ran hf, fun hf => ?_⟩
  obtain ⟨m, n⟩ := t
  have hu : r.useCache = true ∧ reuse H r (cache H h) m n = some (one H r (cache H h) (m, n)).res := by
    unfold one at hf ⊢
    by_cases hu : r.useCache = true
    · simp only [if_pos hu] at hf ⊢
      cases hre : reuse H r (cache H h) m n with
      | none => rw [hre] at hf; cases hf
      | some y => exact ⟨hu, rfl⟩
    · simp only [if_neg hu] at hf
      cases hf
  obtain ⟨hu, hre⟩ := hu
  obtain ⟨e, h1, h2, h3, h4⟩ := reuse_some hre
  refine ⟨h4, hu, ?_⟩
  obtain ⟨r', hr', -, ht', h5, h6⟩ := entry_origin hp (hr _ ht) h1
  rw [infoOf_eq (hp r' hr') ht'] at h5
  rw [infoOf_eq hr ht] at h2
  unfold runHash at h2 h5
  obtain ⟨i, hi, h2⟩ := Option.map_eq_some_iff.1 h2
  cases hi' : record (r'.names m) n with
  | none =>
    rw [hi'] at h5
    exact absurd (h2.trans h5) (hex_ne (H.len _))
  | some i' =>
    rw [hi'] at h5
    have hsha := hex_inj (h2.trans h5)
    obtain ⟨c, hs, hnm⟩ := record_some hi
    obtain ⟨c', hs', hnm'⟩ := record_some hi'
    have e1 := hc r r' (.inl rfl) (.inr hr') _ _ (.run hnm) (.run hnm') hsha
    unfold runInput at e1
    obtain ⟨e2, ectx⟩ := List.append_inj' e1 (by rw [H.len, H.len])
    obtain ⟨eimpl, edeps⟩ := List.append_inj' e2 (by rw [H.len, H.len])
    have ectx := H.encCtx_inj _ _ (hc r r' (.inl rfl) (.inr hr') _ _ .ctx .ctx ectx)
    have edeps := H.encDeps_inj _ _ (hc r r' (.inl rfl) (.inr hr') _ _ (.deps hnm) (.deps hnm') edeps)
    refine ⟨r', i.impl, depsOf r i, depsOf r' i', hr', ht', by rw [← h3]; exact h6, ectx.symm, made hs hnm, by rw [eimpl]; exact made hs' hnm', ?_⟩
    have p1 := List.mergeSort_perm (depsOf r i) (fun a b => H.le a.1 b.1)
    have p2 := List.mergeSort_perm (depsOf r' i') (fun a b => H.le a.1 b.1)
    rw [edeps] at p1
    exact p1.symm.trans p2

/-- The definition with the name of the test counts, if there is one. -/
theorem C181_exact {names : Text → Option NameInfo} {n : Text} {i : NameInfo} (h : names n = some i) : record names n = some i := by
  unfold record candidates
  rw [List.filterMap_cons_some (f := id) (a := some n) (b := n) rfl, List.findSome?_cons, h]

/-! ## The same again -/

theorem fold_keep {H : Hash} {r : Run} {k : Text} {xs : List Result} : ∀ {c : Cache}, (∀ x ∈ xs, k ≠ key x.mod x.name) →
    xs.foldl (update H r) c k = c k := by
  induction xs with
  | nil => intro c _; rfl
  | cons x xs ih =>
    intro c h
    rw [List.foldl_cons, ih (fun y m => h y (List.mem_cons_of_mem _ m))]
    unfold update
    rw [if_neg (h x List.mem_cons_self)]

theorem fold_has {H : Hash} {r : Run} {k : Text} {v : Res} {xs : List Result} : ∀ {c : Cache}, (∀ x ∈ xs, k = key x.mod x.name → x.res = v) →
    (∃ x ∈ xs, k = key x.mod x.name) → xs.foldl (update H r) c k = some ⟨(infoOf H r k).getD [], v⟩ := by
  induction xs with
  | nil => rintro c _ ⟨x, m, -⟩; cases m
  | cons x xs ih =>
    intro c h hex
    rw [List.foldl_cons]
    by_cases hl : ∃ y ∈ xs, k = key y.mod y.name
    · exact ih (fun y m => h y (List.mem_cons_of_mem _ m)) hl
    · rw [fold_keep (fun y m e => hl ⟨y, m, e⟩)]
      obtain ⟨y, m, e⟩ := hex
      rcases List.mem_cons.1 m with rfl | m
      · rw [e, update_same, ← e, h y List.mem_cons_self e]
      · exact absurd ⟨y, m, e⟩ hl

/-- **C182** If nothing that counts changes, a test is not run again: the second of two runs shows the
result of the first. (What counts: the context, the definition of the test, the hashes of what it
uses; and for a result with output, the snapshot files.) -/
theorem C182 {H : Hash} {c : Cache} {r r' : Run} (hr : Proper r) (hr' : Proper r') (hu : r.useCache = true) (hu' : r'.useCache = true)
    {m n : Text} (ht : (m, n) ∈ r.tests) (ht' : (m, n) ∈ r'.tests) {i i' : NameInfo}
    (hi : record (r.names m) n = some i) (hi' : record (r'.names m) n = some i')
    (himpl : i.impl = i'.impl) (hdeps : depsOf r i = depsOf r' i') (hctx : r.ctx = r'.ctx)
    {v : Res} (hv : (⟨m, n, v, true⟩ : Result) ∈ results H r c ∨ (⟨m, n, v, false⟩ : Result) ∈ results H r c)
    (ho : v.output = none ∨ r'.snapOk m n = true) :
    one H r' (after H r c) (m, n) = ⟨m, n, v, true⟩ := by
  have hone : (one H r c (m, n)).res = v := by
    rcases hv with hv | hv <;>
    · obtain ⟨t, -, e⟩ := List.mem_map.1 hv
      have hn := one_names H r c t
      rw [e] at hn
      have : t = (m, n) := Prod.ext hn.1.symm hn.2.symm
      rw [← this, e]
  have hrun : runHash H r m n = runHash H r' m n := by
    unfold runHash
    rw [hi, hi', Option.map_some, Option.map_some]
    unfold runInput depsInput
    rw [himpl, hdeps, hctx]
  have hsome : ∃ s, runHash H r m n = some s := ⟨_, by unfold runHash; rw [hi]; rfl⟩
  obtain ⟨s, hs⟩ := hsome
  have hentry : after H r c (key m n) = some ⟨s, v⟩ := by
    unfold after
    rw [if_pos hu]
    have uniq : ∀ t ∈ r.tests, key m n = key t.1 t.2 → t = (m, n) := by
      intro t h e
      obtain ⟨a, b⟩ := key_inj (hr _ ht) (hr t h) e
      exact Prod.ext a.symm b.symm
    have uniq' : ∀ x ∈ (results H r c).filter (fun x => !x.cached), key m n = key x.mod x.name → x = one H r c (m, n) := by
      intro x hx e
      obtain ⟨t, h, rfl⟩ := List.mem_map.1 (List.mem_filter.1 hx).1
      rw [(one_names H r c t).1, (one_names H r c t).2] at e
      rw [uniq t h e]
    cases hcd : (one H r c (m, n)).cached with
    | false =>
      rw [fold_has (v := v), infoOf_eq hr ht, hs]
      · rfl
      · intro x hx e
        rw [uniq' x hx e, hone]
      · refine ⟨one H r c (m, n), List.mem_filter.2 ⟨List.mem_map.2 ⟨_, ht, rfl⟩, by rw [hcd]; rfl⟩, ?_⟩
        rw [(one_names H r c (m, n)).1, (one_names H r c (m, n)).2]
    | true =>
      rw [fold_keep]
      · have hre : reuse H r c m n = some v := by
          rw [← hone]
          unfold one at hcd ⊢
          simp only [if_pos hu] at hcd ⊢
          cases hre : reuse H r c m n with
          | none => rw [hre] at hcd; cases hcd
          | some y => rfl
        obtain ⟨e, h1, h2, h3, -⟩ := reuse_some hre
        rw [infoOf_eq hr ht, hs] at h2
        rw [h1, ← h3, Option.some.inj h2]
      · intro x hx e
        have := (List.mem_filter.1 hx).2
        rw [uniq' x hx e, hcd] at this
        cases this
  have hreuse : reuse H r' (after H r c) m n = some v := by
    unfold reuse cachedOf
    rw [hentry, infoOf_eq hr' ht', ← hrun, hs]
    simp only [if_true]
    rw [if_pos (by rw [Bool.or_eq_true, Option.isNone_iff_eq_none]; exact ho)]
  unfold one
  simp only [if_pos hu', hreuse]

/-! ## Results of tests that did not end -/

/-- **C183** (partial) If all tests that are run complete, so are the results from the cache; missing:
the others, see `C183_refuted`. -/
theorem C183_partial {H : Hash} {h : List Event} {r : Run} (hp : ∀ r', .run r' ∈ h → Proper r') (hr : Proper r)
    (hc : NoClash H (fun r' => r' = r ∨ .run r' ∈ h)) (hall : ∀ r', .run r' ∈ h → ∀ t ∈ r'.tests, (r'.outcome t.1 t.2).complete = true)
    {x : Result} (hx : x ∈ results H r (cache H h)) (hcd : x.cached = true) : x.res.complete = true := by
  obtain ⟨-, r', _, _, _, a, b, c, -⟩ := ((C181 hp hr hc hx).2.2 hcd).2
  rw [c]
  exact hall r' a _ b

/-- A module `m` with the test `_test_a`, which the user interrupts or which passes. -/
def sample (o : Res) : Run where
  ctx := ⟨[], [], [], [], []⟩
  names m n := if m = ['m'] ∧ n = test ++ ['a'] then some ⟨[3], []⟩ else none
  tests := [(['m'], test ++ ['a'])]
  outcome _ _ := o
  snapOk _ _ := false
  useCache := true

theorem sample_proper (o : Res) : Proper (sample o) := by
  intro t ht
  simp only [sample, List.mem_singleton] at ht
  subst ht
  decide

def passed : Res := ⟨true, some true, none, none, []⟩

/-- **C183** is false: the result of a test that the user interrupted is kept, and shown again instead
of running the test, whatever the hash function is. -/
theorem C183_refuted (H : Hash) :
    results H (sample passed) (cache H [.run (sample interrupted)]) = [⟨['m'], test ++ ['a'], interrupted, true⟩] ∧ interrupted.complete = false := by
  refine ⟨?_, rfl⟩
  have hi : ∀ o, record ((sample o).names ['m']) (test ++ ['a']) = some ⟨[3], []⟩ := fun o => C181_exact (by simp [sample])
  have := C182 (H := H) (c := fun _ => none) (sample_proper interrupted) (sample_proper passed) rfl rfl (m := ['m']) (n := test ++ ['a'])
    List.mem_cons_self List.mem_cons_self (hi _) (hi _) rfl rfl rfl (v := interrupted) (.inr (List.mem_cons_self)) (.inl rfl)
  show [one H (sample passed) (after H (sample interrupted) (fun _ => none)) (['m'], test ++ ['a'])] = _
  rw [this]

/-! ## Examples -/

instance : Countable Char := Function.Injective.countable (f := Char.toNat) (fun _ _ h => Char.toNat_inj.1 h)
instance : Countable UInt8 := Function.Injective.countable (f := UInt8.toNat) (fun _ _ h => UInt8.toNat_inj.1 h)
instance : Countable Ctx := Function.Injective.countable (f := fun c : Ctx => (c.version, c.target, c.optimize, c.mode, c.args))
  (fun a b h => by cases a; cases b; simp only [Prod.mk.injEq] at h; obtain ⟨rfl, rfl, rfl, rfl, rfl⟩ := h; rfl)
instance : Countable QN := Function.Injective.countable
  (f := fun q : QN => match q with
    | .noq n => ((0 : Nat), ([] : Text), n)
    | .qname m n => (1, m, n)
    | .gname m n => (2, m, n))
  (fun a b h => by cases a <;> cases b <;> simp_all)

/-- There are hashes that do not clash in the runs of the example. -/
theorem sample_noclash : ∃ H : Hash, NoClash H (fun r => ∃ o, r = sample o) := by
  obtain ⟨f, hf⟩ := exists_injective_nat Ctx
  obtain ⟨g, hg⟩ := exists_injective_nat (List (QN × Bytes))
  refine ⟨⟨fun x => x.headD 0 :: List.replicate 31 0, fun x => by simp, fun c => 1 :: List.replicate (f c) 0, fun a b h => ?_,
    fun d => 2 :: List.replicate (g d) 0, fun a b h => ?_, fun _ _ => true⟩, ?_⟩
  · have := congrArg List.length (List.cons.inj h).2
    rw [List.length_replicate, List.length_replicate] at this
    exact hf this
  · have := congrArg List.length (List.cons.inj h).2
    rw [List.length_replicate, List.length_replicate] at this
    exact hg this
  · have hnm : ∀ {o m c i}, (sample o).names m c = some i → i = ⟨[3], []⟩ := by
      intro o m c i h
      simp only [sample] at h
      split at h
      · exact (Option.some.inj h).symm
      · cases h
    rintro r r' ⟨o, rfl⟩ ⟨o', rfl⟩ x y hx hy e
    have e := (List.cons.inj e).1
    cases hx with
    | ctx =>
      cases hy with
      | ctx => rfl
      | deps h => exact absurd e (show (1 : UInt8) ≠ 2 by decide)
      | run h => rw [hnm h] at e; exact absurd e (show (1 : UInt8) ≠ 3 by decide)
    | deps h =>
      cases hy with
      | ctx => exact absurd e (show (2 : UInt8) ≠ 1 by decide)
      | deps h' => rw [hnm h, hnm h']; rfl
      | run h' => rw [hnm h'] at e; exact absurd e (show (2 : UInt8) ≠ 3 by decide)
    | run h =>
      cases hy with
      | ctx => rw [hnm h] at e; exact absurd e (show (3 : UInt8) ≠ 1 by decide)
      | deps h' => rw [hnm h] at e; exact absurd e (show (3 : UInt8) ≠ 2 by decide)
      | run h' => rw [hnm h, hnm h']; rfl

/-- The second run takes the result from the cache, and C181 says where it comes from. -/
example : ∃ H : Hash, ∃ x ∈ results H (sample interrupted) (cache H [.run (sample passed)]), x.cached = true ∧ x.res.complete = true := by
  obtain ⟨H, hH⟩ := sample_noclash
  have hi : ∀ o, record ((sample o).names ['m']) (test ++ ['a']) = some ⟨[3], []⟩ := fun o => C181_exact (by simp [sample])
  have h2 := C182 (H := H) (c := fun _ => none) (sample_proper passed) (sample_proper interrupted) rfl rfl (m := ['m']) (n := test ++ ['a'])
    List.mem_cons_self List.mem_cons_self (hi _) (hi _) rfl rfl rfl (v := passed) (.inr (List.mem_cons_self)) (.inl rfl)
  have hm : (⟨['m'], test ++ ['a'], passed, true⟩ : Result) ∈ results H (sample interrupted) (cache H [.run (sample passed)]) := by
    rw [← h2]; exact List.mem_cons_self
  refine ⟨H, _, hm, rfl, ?_⟩
  refine C183_partial (h := [.run (sample passed)]) ?_ (sample_proper _) ?_ ?_ hm rfl
  · intro r h
    rcases List.mem_cons.1 h with h | h
    · cases h; exact sample_proper _
    · cases h
  · refine fun r r' a b => hH r r' ?_ ?_
    · rcases a with a | a
      · exact ⟨_, a⟩
      · rcases List.mem_cons.1 a with a | a
        · cases a; exact ⟨_, rfl⟩
        · cases a
    · rcases b with a | a
      · exact ⟨_, a⟩
      · rcases List.mem_cons.1 a with a | a
        · cases a; exact ⟨_, rfl⟩
        · cases a
  · intro r h t _
    rcases List.mem_cons.1 h with h | h
    · cases h; rfl
    · cases h

end Verif.TestCache
