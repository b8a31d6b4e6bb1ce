import Verif.Paths.Lemmas
/-!
# C154, C155: relative paths lead where they should
-/
namespace Verif.Paths

open Verif.Str (SplitsTo joinWith Free)

theorem tidy_tail {p : Path} {ps : List Path}
    (h : ∀ l l', p :: ps = l ++ [] :: l' → dotdot ∉ l') : ∀ l l', ps = l ++ [] :: l' → dotdot ∉ l' := by
  intro l l' e
  exact h (p :: l) l' (by rw [e]; rfl)

theorem loop_noUp (ps : List Path) (h : dotdot ∉ ps) : ∀ res, resolveLoop res ps = .ok (res ++ ps) := by
  induction ps with
  | nil => intro res; simp [resolveLoop]
  | cons p ps ih =>
    intro res
    have h1 : p ≠ dotdot := fun e => h (by simp [e])
    have h2 : dotdot ∉ ps := fun e => h (by simp [e])
    rw [resolveLoop, if_neg h1, ih h2]
    simp

theorem above_noUp (ps : List Path) (h : dotdot ∉ ps) : ∀ d, ¬ Above d ps := by
  induction ps with
  | nil => intro d h; exact h
  | cons p ps ih =>
    intro d h'
    rcases h' with ⟨e, _⟩ | h'
    · exact h (by rw [e]; simp [dotdot])
    · exact ih (fun e => h (by simp [e])) _ h'

/-- What the loop delivers: a list of pieces that leads to the right directory. -/
def Good (r : Res (List Path)) (d : List Path) (ps : List Path) : Prop :=
  match r with
  | .ok res => res.foldl stepDir [] = ps.foldl stepDir d ∧ ¬ Above d ps ∧
      ∀ p ∈ res, p ∈ d ∨ p ∈ ps
  | .raise e => e = .valueError ∧ Above d ps
  | _ => False

theorem loop_good (ps : List Path) : ∀ d : List Path, (∀ p ∈ d, Name p) →
    (∀ l l', ps = l ++ [] :: l' → dotdot ∉ l') → Good (resolveLoop d (ps.filter (· ≠ dot))) d ps := by
  induction ps with
  | nil =>
    intro d hd _
    refine ⟨?_, id, fun p hp => .inl hp⟩
    simpa using foldl_names d hd []
  | cons p ps ih =>
    intro d hd ht
    have ht' := tidy_tail ht
    by_cases h1 : p = dot
    · subst h1
      rw [List.filter_cons_of_neg (by simp)]
      have := ih d hd ht'
      have hs : stepDir d dot = d := by simp [stepDir, dot]
      revert this
      generalize resolveLoop d _ = r
      intro h
      cases r with
      | ok res =>
        obtain ⟨a, b, c⟩ := h
        refine ⟨by rw [List.foldl_cons, hs]; exact a, ?_, ?_⟩
        · rintro (⟨e, _⟩ | h)
          · exact absurd e (by decide)
          · rw [hs] at h; exact b h
        · intro q hq
          rcases c q hq with h | h
          · exact .inl h
          · exact .inr (List.mem_cons_of_mem _ h)
      | raise e => exact ⟨h.1, .inr (by rw [hs]; exact h.2)⟩
      | ub => exact h
      | diverge => exact h
    · rw [List.filter_cons_of_pos (by simp [h1])]
      by_cases h2 : p = dotdot
      · subst h2
        rw [resolveLoop, if_pos rfl]
        have hs : stepDir d dotdot = d.dropLast := by
          unfold stepDir dotdot
          rw [if_neg (by simp), if_pos rfl]
        by_cases h3 : d = []
        · rw [if_pos h3]
          exact ⟨rfl, .inl ⟨rfl, h3⟩⟩
        · rw [if_neg h3]
          have := ih d.dropLast (fun q hq => hd q (List.dropLast_subset _ hq)) ht'
          revert this
          generalize resolveLoop d.dropLast _ = r
          intro h
          cases r with
          | ok res =>
            obtain ⟨a, b, c⟩ := h
            refine ⟨by rw [List.foldl_cons, hs]; exact a, ?_, ?_⟩
            · rintro (⟨_, e⟩ | h)
              · exact h3 e
              · rw [hs] at h; exact b h
            · intro q hq
              rcases c q hq with h | h
              · exact .inl (List.dropLast_subset _ h)
              · exact .inr (List.mem_cons_of_mem _ h)
          | raise e => exact ⟨h.1, .inr (by rw [hs]; exact h.2)⟩
          | ub => exact h
          | diverge => exact h
      · rw [resolveLoop, if_neg h2]
        by_cases h3 : p = []
        · subst h3
          have hup : dotdot ∉ ps := ht [] ps rfl
          rw [loop_noUp _ (fun h => hup (List.mem_filter.1 h).1)]
          refine ⟨?_, ?_, ?_⟩
          · have hn : stepDir d [] = d := by simp [stepDir]
            rw [List.append_assoc, List.foldl_append, foldl_names d hd, List.nil_append,
              List.singleton_append, List.foldl_cons, foldl_filter_dot, List.foldl_cons]
          · exact above_noUp _ (by
              intro h
              rcases List.mem_cons.1 h with h | h
              · exact absurd h (by decide)
              · exact hup h) d
          · intro q hq
            rcases List.mem_append.1 hq with h | h
            · rcases List.mem_append.1 h with h | h
              · exact .inl h
              · exact .inr (by rw [List.mem_singleton.1 h]; simp)
            · exact .inr (List.mem_cons_of_mem _ (List.mem_filter.1 h).1)
        · have hp : Name p := ⟨h3, h1, h2⟩
          have hs : stepDir d p = d ++ [p] := step_name hp
          have := ih (d ++ [p]) (by
            intro q hq
            rcases List.mem_append.1 hq with h | h
            · exact hd q h
            · rw [List.mem_singleton.1 h]; exact hp) ht'
          revert this
          generalize resolveLoop (d ++ [p]) _ = r
          intro h
          cases r with
          | ok res =>
            obtain ⟨a, b, c⟩ := h
            refine ⟨by rw [List.foldl_cons, hs]; exact a, ?_, ?_⟩
            · rintro (⟨e, _⟩ | h)
              · exact h2 e
              · rw [hs] at h; exact b h
            · intro q hq
              rcases c q hq with h | h
              · rcases List.mem_append.1 h with h | h
                · exact .inl h
                · exact .inr (by rw [List.mem_singleton.1 h]; simp)
              · exact .inr (List.mem_cons_of_mem _ h)
          | raise e => exact ⟨h.1, .inr (by rw [hs]; exact h.2)⟩
          | ub => exact h
          | diverge => exact h

theorem joinAbs_leads (res : List Path) (h : ∀ p ∈ res, slash ∉ p) :
    Abs (joinAbs res) ∧ Leads [] (joinAbs res) (res.foldl stepDir []) := by
  unfold joinAbs
  by_cases h0 : res = []
  · subst h0
    exact ⟨⟨[], rfl⟩, leads_iff.2 rfl⟩
  · rw [if_neg h0]
    refine ⟨⟨_, rfl⟩, leads_iff.2 ?_⟩
    have : splitSlash (slash :: joinWith [slash] res) = [] :: res := by
      rw [show splitSlash (slash :: joinWith [slash] res) = [] :: splitSlash (joinWith [slash] res) from
        if_pos rfl, splitSlash_join res h0 h]
    rw [this, List.foldl_cons]
    rfl

/-- C154, where it holds: a plain absolute start and a relative path with no empty piece before
`..`. The answer is absolute and leads from the root where the relative path leads from the
start; ValueError is raised exactly when the relative path asks for the parent of the root.
Missing: starts with `.` or `..`, and empty pieces before `..`, see the refutations. -/
theorem C154_partial {s r : Path} {d e : List Path} (hs : Abs s) (hp : Plain s) (ht : Tidy r)
    (hr : ¬ Abs r) (hd : Leads [] s d) (he : Leads d r e) :
    (∃ a, resolve s r = .ok a ∧ Abs a ∧ Leads [] a e ∧ ¬ Climbs d r) ∨
    (resolve s r = .raise .valueError ∧ Climbs d r) := by
  unfold resolve
  rw [if_neg (by rw [abs_iff.1 hs]; simp), if_neg (fun h => hr (abs_iff.2 h))]
  by_cases h0 : r = [] ∨ r = dot
  · rw [if_pos h0]
    refine .inl ⟨s, rfl, hs, ?_, ?_⟩
    · have : e = d := by
        rw [leads_iff] at he
        rcases h0 with h | h <;> subst h <;> exact he
      rw [this]; exact hd
    · rw [climbs_iff]
      rcases h0 with h | h <;> subst h
      · rintro (⟨h, _⟩ | h)
        · cases h
        · exact h
      · rintro (⟨h, _⟩ | h)
        · cases h
        · exact h
  · rw [if_neg h0]
    have hd' : d = parts s := by
      rw [leads_parts hd]
      simpa using foldl_names (parts s) (plain_parts hp) []
    have hn : ∀ p ∈ d, Name p := by rw [hd']; exact plain_parts hp
    have := loop_good (splitSlash r) d hn (tidy_iff.1 ht)
    rw [← hd']
    revert this
    generalize resolveLoop d _ = x
    intro h
    cases x with
    | ok res =>
      obtain ⟨a, b, c⟩ := h
      have hsl : ∀ p ∈ res, slash ∉ p := by
        intro p hp
        rcases c p hp with h | h
        · rw [hd'] at h; exact (parts_mem h).2.1
        · exact splitSlash_mem h
      obtain ⟨j1, j2⟩ := joinAbs_leads res hsl
      refine .inl ⟨joinAbs res, rfl, j1, ?_, fun h => b (climbs_iff.1 h)⟩
      rw [leads_iff.1 he, ← a]; exact j2
    | raise e' =>
      refine .inr ⟨?_, climbs_iff.2 h.2⟩
      rw [h.1]; rfl
    | ub => exact absurd h id
    | diverge => exact absurd h id

/-- An absolute path is its own resolution. -/
theorem C154_absolute {s r : Path} (hs : Abs s) (hr : Abs r) : resolve s r = .ok r := by
  unfold resolve
  rw [if_neg (by rw [abs_iff.1 hs]; simp), if_pos (abs_iff.1 hr)]

/-- A start that is not absolute is refused. -/
theorem C154_start {s : Path} (hs : ¬ Abs s) (r : Path) : resolve s r = .raise .valueError := by
  unfold resolve
  rw [if_pos (fun h => hs (abs_iff.2 h))]

theorem relParts_mem {tp fp : List Path} {q : Path} (h : q ∈ relParts tp fp) : q = dotdot ∨ q ∈ tp := by
  rcases List.mem_append.1 h with h | h
  · exact .inl (List.eq_of_mem_replicate h)
  · exact .inr (List.mem_of_mem_drop h)

theorem joinRel_split {rel : List Path} (h : ∀ p ∈ rel, slash ∉ p) :
    splitSlash (joinRel rel) = if rel = [] then [dot] else rel := by
  unfold joinRel
  by_cases h0 : rel = []
  · rw [if_pos h0, if_pos h0]; rfl
  · rw [if_neg h0, if_neg h0, splitSlash_join rel h0 h]

theorem rel_slash (t f : Path) : ∀ p ∈ relParts (parts t) (parts f), slash ∉ p := by
  intro p hp
  rcases relParts_mem hp with h | h
  · rw [h]; decide
  · exact (parts_mem h).2.1

theorem joinRel_foldl {rel : List Path} (h : ∀ p ∈ rel, slash ∉ p) (d : List Path) :
    (splitSlash (joinRel rel)).foldl stepDir d = rel.foldl stepDir d := by
  rw [joinRel_split h]
  by_cases h0 : rel = []
  · rw [if_pos h0, h0]; simp [stepDir, dot]
  · rw [if_neg h0]

/-- Both paths are absolute: there is an answer. -/
theorem getRelative_ok {t f : Path} (ht : Abs t) (hf : Abs f) :
    getRelative t f = .ok (joinRel (relParts (parts t) (parts f))) := by
  unfold getRelative
  rw [if_neg]
  rintro (h | h)
  · exact h (abs_iff.1 ht)
  · exact h (abs_iff.1 hf)

/-- C155, where it holds: for every absolute target and every plain absolute directory there is an
answer, it is no absolute path, and read in the directory it leads to the target.
Missing: directories with `.` or `..`, see the refutation. -/
theorem C155_partial {t f : Path} {d e : List Path} (ht : Abs t) (hf : Abs f) (hp : Plain f)
    (hd : Leads [] f d) (he : Leads [] t e) :
    ∃ r, getRelative t f = .ok r ∧ ¬ Abs r ∧ Leads d r e := by
  refine ⟨_, getRelative_ok ht hf, ?_, ?_⟩
  · rintro ⟨q, hq⟩
    have h1 := joinRel_split (rel_slash t f)
    rw [hq] at h1
    have h2 : splitSlash (47 :: q) = [] :: splitSlash q := if_pos rfl
    rw [h2] at h1
    by_cases h0 : relParts (parts t) (parts f) = []
    · rw [if_pos h0] at h1
      exact absurd (List.cons.inj h1).1 (by decide)
    · rw [if_neg h0] at h1
      have : ([] : Path) ∈ relParts (parts t) (parts f) := by rw [← h1]; simp
      rcases relParts_mem this with h | h
      · exact absurd h (by decide)
      · exact (parts_mem h).1 rfl
  · rw [leads_iff, joinRel_foldl (rel_slash t f)]
    have hd' : d = parts f := by
      rw [leads_parts hd]
      simpa using foldl_names (parts f) (plain_parts hp) []
    rw [leads_parts he, relParts, List.foldl_append, foldl_up, hd']
    have hl := common_le (parts t) (parts f)
    have hc : (parts f).take ((parts f).length - ((parts f).length - common (parts t) (parts f)))
        = (parts t).take (common (parts t) (parts f)) := by
      rw [common_take]; congr 1; omega
    have hn : ∀ p ∈ (parts t).take (common (parts t) (parts f)), Name p := by
      rw [common_take]
      intro p hp'
      exact plain_parts hp p (List.mem_of_mem_take hp')
    rw [hc]
    conv => lhs; rw [← List.take_append_drop (common (parts t) (parts f)) (parts t)]
    rw [List.foldl_append, foldl_names _ hn, List.nil_append]

/-- The answer is as short as any: no relative path that leads from the directory to the target has
fewer pieces. -/
theorem C155_shortest {t f r : Path} {d e : List Path} {n m : Nat} (ht : Plain t) (hf : Plain f)
    (hd : Leads [] f d) (he : Leads [] t e) (hr : getRelative t f = .ok r) (hn : Pieces r n)
    {q : Path} (hq : Leads d q e) (hm : Pieces q m) : n ≤ m := by
  have hr' : r = joinRel (relParts (parts t) (parts f)) := by
    unfold getRelative at hr
    split at hr
    · cases hr
    · exact (Res.ok.inj hr).symm
  have hd' : d = parts f := by
    rw [leads_parts hd]
    simpa using foldl_names (parts f) (plain_parts hf) []
  have he' : e = parts t := by
    rw [leads_parts he]
    simpa using foldl_names (parts t) (plain_parts ht) []
  rw [pieces_iff] at hn hm
  rw [leads_iff] at hq
  have h1 : 1 ≤ m := by
    rw [← hm]
    exact List.length_pos_iff.2 (splitSlash_ne q)
  have h2 : dist d e ≤ m := by rw [← hm, hq]; exact dist_foldl _ d
  rw [hr', joinRel_split (rel_slash t f)] at hn
  by_cases h0 : relParts (parts t) (parts f) = []
  · rw [if_pos h0] at hn
    rw [← hn]; exact h1
  · rw [if_neg h0, relParts, List.length_append, List.length_replicate, List.length_drop] at hn
    rw [hd', he', dist, common_comm] at h2
    omega

/-- C155: a path that is not absolute is refused. -/
theorem C155_absolute {t f : Path} (h : ¬ Abs t ∨ ¬ Abs f) : getRelative t f = .raise .valueError := by
  unfold getRelative
  rw [if_pos]
  rcases h with h | h
  · exact .inl (fun h' => h (abs_iff.2 h'))
  · exact .inr (fun h' => h (abs_iff.2 h'))

theorem rel_above (ps : List Path) (h : ∀ p ∈ ps, Name p) : ∀ d, ¬ Above d ps := by
  intro d
  exact above_noUp ps (fun h' => (h _ h').2.2 rfl) d

theorem above_up (n : Nat) (ps : List Path) (h : ∀ p ∈ ps, Name p) : ∀ d : List Path, n ≤ d.length →
    ¬ Above d (List.replicate n dotdot ++ ps) := by
  induction n with
  | zero => intro d _; simpa using rel_above ps h d
  | succ n ih =>
    intro d hn
    rw [List.replicate_succ, List.cons_append]
    rintro (⟨_, e⟩ | h')
    · rw [e] at hn; simp at hn
    · have hs : stepDir d dotdot = d.dropLast := by
        unfold stepDir dotdot
        rw [if_neg (by simp), if_pos rfl]
      rw [hs] at h'
      exact ih d.dropLast (by rw [List.length_dropLast]; omega) h'

/-- The two functions together: for plain absolute paths, resolving the relative path against the
directory gives an absolute path to the target.
Missing: targets and directories with `.` or `..`, see the refutation. -/
theorem C155_roundtrip_partial {t f : Path} {e : List Path} (ht : Abs t) (hf : Abs f)
    (hpt : Plain t) (hpf : Plain f) (he : Leads [] t e) :
    ∃ r a, getRelative t f = .ok r ∧ resolve f r = .ok a ∧ Abs a ∧ Leads [] a e := by
  have hd : Leads [] f (parts f) := by
    rw [leads_iff, ← foldl_filter]
    have h := foldl_names (parts f) (plain_parts hpf) []
    rw [List.nil_append] at h
    exact h.symm
  obtain ⟨r, h1, h2, h3⟩ := C155_partial ht hf hpf hd he
  have hr : r = joinRel (relParts (parts t) (parts f)) := by
    rw [getRelative_ok ht hf] at h1; exact (Res.ok.inj h1).symm
  have hne : ∀ p ∈ splitSlash r, p ≠ [] := by
    rw [hr, joinRel_split (rel_slash t f)]
    intro p hp
    by_cases h0 : relParts (parts t) (parts f) = []
    · rw [if_pos h0] at hp; rw [List.mem_singleton.1 hp]; decide
    · rw [if_neg h0] at hp
      rcases relParts_mem hp with h | h
      · rw [h]; decide
      · exact (parts_mem h).1
  have htidy : Tidy r := by
    rw [tidy_iff]
    intro l l' h
    exact absurd rfl (hne [] (by rw [h]; simp))
  rcases C154_partial hf hpf htidy h2 hd h3 with ⟨a, a1, a2, a3, _⟩ | ⟨_, hc⟩
  · exact ⟨r, a, h1, a1, a2, a3⟩
  · exfalso
    rw [climbs_iff, hr, joinRel_split (rel_slash t f)] at hc
    by_cases h0 : relParts (parts t) (parts f) = []
    · rw [if_pos h0] at hc
      exact above_noUp [dot] (by decide) _ hc
    · rw [if_neg h0] at hc
      refine above_up _ _ ?_ _ (Nat.sub_le _ _) hc
      intro p hp
      exact plain_parts hpt p (List.mem_of_mem_drop hp)

/-- The pieces of a path without `.` or `..`, for the examples. -/
theorem plain_of {p : Path} (h : (splitSlash p).all (fun q => q ≠ dot ∧ q ≠ dotdot) = true) : Plain p := by
  rw [plain_iff]
  intro q hq
  have := List.all_eq_true.1 h q hq
  simpa using this

/-- C154 is false with an empty piece before `..`: in `/s`, `a//../b` leads to `/s/b`, the answer
is `/s/a/b`. -/
theorem C154_refuted_empty : ∃ s r a d e, Abs s ∧ Plain s ∧ ¬ Abs r ∧ Leads [] s d ∧ Leads d r e ∧
    resolve s r = .ok a ∧ ¬ Leads [] a e := by
  refine ⟨[47, 115], [97, 47, 47, 46, 46, 47, 98], [47, 115, 47, 97, 47, 98], [[115]], [[115], [98]],
    ⟨_, rfl⟩, plain_of (by decide), ?_, leads_iff.2 (by decide), leads_iff.2 (by decide), by decide, ?_⟩
  · rw [abs_iff]; decide
  · rw [leads_iff]; decide

/-- C154 is false for a start with `..`: in `/a/..`, which is the root, `../x` leads to
`/x`, the answer is `/a/x`. -/
theorem C154_refuted_start : ∃ s r a d e, Abs s ∧ Tidy r ∧ ¬ Abs r ∧ Leads [] s d ∧ Leads d r e ∧
    resolve s r = .ok a ∧ ¬ Leads [] a e := by
  refine ⟨[47, 97, 47, 46, 46], [46, 46, 47, 120], [47, 97, 47, 120], [], [[120]],
    ⟨_, rfl⟩, ?_, ?_, leads_iff.2 (by decide), leads_iff.2 (by decide), by decide, ?_⟩
  · rw [tidy_iff]
    intro l l' h
    exact absurd (show ([] : Path) ∈ splitSlash [46, 46, 47, 120] from by rw [h]; simp) (by decide)
  · rw [abs_iff]; decide
  · rw [leads_iff]; decide

/-- C155 is false for a directory with `..`: from `/a/..`, which is the root, to `/a/x` the answer
is `../x`, which leads to `/x`. -/
theorem C155_refuted : ∃ t f r d e, Abs t ∧ Plain t ∧ Abs f ∧ Leads [] f d ∧ Leads [] t e ∧
    getRelative t f = .ok r ∧ ¬ Leads d r e := by
  refine ⟨[47, 97, 47, 120], [47, 97, 47, 46, 46], [46, 46, 47, 120], [], [[97], [120]],
    ⟨_, rfl⟩, plain_of (by decide), ⟨_, rfl⟩, leads_iff.2 (by decide), leads_iff.2 (by decide), by decide, ?_⟩
  rw [leads_iff]; decide

/-- The round trip is false for a target with `..`: from `/a` to `/..`, which is the root, the
relative path is `../..`, and resolving it against `/a` raises ValueError. -/
theorem C155_refuted_roundtrip : ∃ t f r, Abs t ∧ Abs f ∧ Plain f ∧ getRelative t f = .ok r ∧
    resolve f r = .raise .valueError := by
  refine ⟨[47, 46, 46], [47, 97], [46, 46, 47, 46, 46], ⟨_, rfl⟩, ⟨_, rfl⟩, plain_of (by decide),
    by decide, by decide⟩

/-- The hypotheses of C154_partial: `/s/t`, `../a/` leads to `/s/a/`. -/
example : Abs [47, 115, 47, 116] ∧ Plain [47, 115, 47, 116] ∧ Tidy [46, 46, 47, 97, 47] ∧
    ¬ Abs [46, 46, 47, 97, 47] ∧ Leads [] [47, 115, 47, 116] [[115], [116]] ∧
    Leads [[115], [116]] [46, 46, 47, 97, 47] [[115], [97]] ∧
    resolve [47, 115, 47, 116] [46, 46, 47, 97, 47] = .ok [47, 115, 47, 97, 47] := by
  refine ⟨⟨_, rfl⟩, plain_of (by decide), ?_, by rw [abs_iff]; decide, leads_iff.2 (by decide),
    leads_iff.2 (by decide), by decide⟩
  rw [tidy_iff]
  intro l l' h
  have hsp : splitSlash [46, 46, 47, 97, 47] = [[46, 46], [97], []] := by decide
  rw [hsp] at h
  rcases l with _ | ⟨_, _ | ⟨_, _ | ⟨_, l⟩⟩⟩
  · simp at h
  · simp at h
  · simp at h; rw [h.2.2]; simp
  · simp at h

/-- A relative path that asks for the parent of the root. -/
example : resolve [47, 115] [46, 46, 47, 46, 46] = .raise .valueError ∧
    Climbs [[115]] [46, 46, 47, 46, 46] := by
  refine ⟨by decide, climbs_iff.2 ?_⟩
  show Above [[115]] [dotdot, dotdot]
  exact .inr (.inl ⟨rfl, rfl⟩)

/-- The hypotheses of C155: from `/a/b/c` to `/a//x` by `../../x`. -/
example : Abs [47, 97, 47, 47, 120] ∧ Plain [47, 97, 47, 47, 120] ∧ Abs [47, 97, 47, 98, 47, 99] ∧
    Plain [47, 97, 47, 98, 47, 99] ∧ Leads [] [47, 97, 47, 98, 47, 99] [[97], [98], [99]] ∧
    Leads [] [47, 97, 47, 47, 120] [[97], [120]] ∧
    getRelative [47, 97, 47, 47, 120] [47, 97, 47, 98, 47, 99] = .ok [46, 46, 47, 46, 46, 47, 120] ∧
    Pieces [46, 46, 47, 46, 46, 47, 120] 3 :=
  ⟨⟨_, rfl⟩, plain_of (by decide), ⟨_, rfl⟩, plain_of (by decide), leads_iff.2 (by decide),
    leads_iff.2 (by decide), by decide, pieces_iff.2 (by decide)⟩

/-- Refused arguments. -/
example : ¬ Abs [97] ∧ getRelative [97] [47] = .raise .valueError ∧ resolve [97] [98] = .raise .valueError ∧
    resolve [47] [47, 98] = .ok [47, 98] := ⟨by rw [abs_iff]; decide, by decide, by decide, by decide⟩

end Verif.Paths
