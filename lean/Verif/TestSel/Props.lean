import Verif.TestSel.Model
/-!
# C193: selection of tests by name
-/
namespace Verif.TestSel

theorem hit_single {p : Pattern} (h : p.rest = []) (s : Text) : Hit p s ↔ Whole p s := by
  have e : anchored p = [⟨true, p.first, true⟩] := by unfold anchored; rw [h]; rfl
  unfold Hit
  rw [e]
  constructor
  · rintro ⟨b, hb, x, y, z, hs, hm, hx, hz⟩
    rw [List.mem_singleton] at hb
    subst hb
    rw [hx rfl, hz rfl, List.nil_append, List.append_nil] at hs
    subst hs
    exact ⟨_, .inl rfl, hm⟩
  · rintro ⟨r, hr, hm⟩
    rw [h] at hr
    rcases hr with rfl | hr
    · exact ⟨_, List.mem_singleton.2 rfl, [], s, [], by simp, hm, fun _ => rfl, fun _ => rfl⟩
    · cases hr

theorem close_mem {b c : Branch} {cs : List Branch} (h : c = b ∨ c ∈ cs) : ∃ d ∈ close b cs, d.re = c.re := by
  induction cs generalizing b with
  | nil =>
    rcases h with rfl | h
    · exact ⟨_, List.mem_singleton.2 rfl, rfl⟩
    · cases h
  | cons x xs ih =>
    rw [close]
    rcases h with rfl | h
    · exact ⟨_, List.mem_cons_self, rfl⟩
    · obtain ⟨d, hd, e⟩ := ih (List.mem_cons.1 h)
      exact ⟨d, List.mem_cons_of_mem _ hd, e⟩

/-- What a pattern matches as a whole is found. -/
theorem whole_hit {p : Pattern} {s : Text} (h : Whole p s) : Hit p s := by
  obtain ⟨r, hr, hm⟩ := h
  have : ∃ d ∈ anchored p, d.re = r := by
    unfold anchored
    rcases hr with rfl | hr
    · exact close_mem (c := ⟨true, p.first, false⟩) (.inl rfl)
    · exact close_mem (c := ⟨false, r, false⟩) (.inr (List.mem_map.2 ⟨r, hr, rfl⟩))
  obtain ⟨d, hd, e⟩ := this
  exact ⟨d, hd, [], s, [], by simp, by rw [e]; exact hm, fun _ => rfl, fun _ => rfl⟩

theorem mem_given {ps : List (Option Pattern)} {p : Pattern} : p ∈ ps.filterMap id ↔ some p ∈ ps := by
  simp [List.mem_filterMap]

theorem none_given {ps : List (Option Pattern)} : ps.filterMap id = [] ↔ ∀ p, some p ∉ ps := by
  rw [List.eq_nil_iff_forall_not_mem]
  exact forall_congr' fun p => not_congr mem_given

/-- **C193** (partial) A test is selected iff no pattern is given, or one matches the whole of its name or of
its name as shown; missing: patterns with `|` outside of groups, see `C193_refuted`. -/
theorem C193_partial {ps : List (Option Pattern)} (h : ∀ p, some p ∈ ps → p.rest = []) (n : Text) : Selected ps n ↔ Wanted ps n := by
  unfold Selected Wanted
  rw [none_given]
  refine or_congr_right ?_
  constructor
  · rintro ⟨p, hp, hh⟩
    have hp := mem_given.1 hp
    exact ⟨p, hp, hh.imp (hit_single (h p hp) _).1 (hit_single (h p hp) _).1⟩
  · rintro ⟨p, hp, hh⟩
    exact ⟨p, mem_given.2 hp, hh.imp (hit_single (h p hp) _).2 (hit_single (h p hp) _).2⟩

/-- With any patterns, no test that is wanted is left out. -/
theorem C193_all {ps : List (Option Pattern)} {n : Text} (h : Wanted ps n) : Selected ps n := by
  rcases h with h | ⟨p, hp, hh⟩
  · exact .inl (none_given.2 h)
  · exact .inr ⟨p, mem_given.2 hp, hh.imp whole_hit whole_hit⟩

/-- The pattern of a word. -/
def word : Text → Re
  | [] => .eps
  | c :: cs => .cat (.chr c) (word cs)

theorem word_matches {w s : Text} : Matches (word w) s ↔ s = w := by
  induction w generalizing s with
  | nil =>
    constructor
    · intro h; cases h; rfl
    · rintro rfl; exact .eps
  | cons c cs ih =>
    constructor
    · intro h
      cases h with
      | cat h1 h2 =>
        cases h1
        rw [ih.1 h2]; rfl
    · rintro rfl
      exact .cat (.chr c) (ih.2 rfl)

example : Selected [some ⟨word "foo".toList, []⟩] "_test_foo".toList :=
  (C193_partial (by
    intro p hp
    rw [List.mem_singleton] at hp
    cases hp; rfl) _).2 (.inr ⟨_, List.mem_singleton.2 rfl, .inr ⟨_, .inl rfl, word_matches.2 (by decide)⟩⟩)

/-- The pattern `foo|bar`. -/
def either : Pattern := ⟨word "foo".toList, [word "bar".toList]⟩

/-- It also selects the tests `food` and `rebar`. -/
theorem C193_refuted :
    (Selected [some either] "food".toList ∧ ¬ Wanted [some either] "food".toList) ∧
    (Selected [some either] "rebar".toList ∧ ¬ Wanted [some either] "rebar".toList) := by
  have hno : ∀ n : Text, n ≠ "foo".toList → n ≠ "bar".toList → displayName n = n → ¬ Wanted [some either] n := by
    intro n h1 h2 h3 hw
    rcases hw with hw | ⟨p, hp, hh⟩
    · exact hw either (List.mem_singleton.2 rfl)
    · rw [List.mem_singleton] at hp
      have := Option.some.inj hp
      subst this
      rw [h3, or_self] at hh
      obtain ⟨r, hr, hm⟩ := hh
      rcases hr with rfl | hr
      · exact h1 (word_matches.1 hm)
      · have hr : r = word "bar".toList := List.mem_singleton.1 hr
        subst hr
        exact h2 (word_matches.1 hm)
  refine ⟨⟨.inr ⟨either, List.mem_singleton.2 rfl, .inl ?_⟩, hno _ (by decide) (by decide) (by decide)⟩,
    ⟨.inr ⟨either, List.mem_singleton.2 rfl, .inl ?_⟩, hno _ (by decide) (by decide) (by decide)⟩⟩
  · exact ⟨⟨true, word "foo".toList, false⟩, List.mem_cons_self, [], "foo".toList, "d".toList, rfl, word_matches.2 rfl, fun _ => rfl, fun h => (by cases h)⟩
  · exact ⟨⟨false, word "bar".toList, true⟩, List.mem_cons_of_mem _ (List.mem_singleton.2 rfl), "re".toList, "bar".toList, [], rfl, word_matches.2 rfl,
      fun h => (by cases h), fun _ => rfl⟩

/-- `displayTestName` takes off what the compiler puts around the name of a test. -/
theorem C193_display (n : Text) (h : ¬ "_wrapper".toList.isSuffixOf n) :
    displayName ("_test_".toList ++ n) = n ∧ displayName ("_test_".toList ++ (n ++ "_wrapper".toList)) = n := by
  have hp : ∀ m : Text, "_test_".toList.isPrefixOf ("_test_".toList ++ m) = true := fun m => by
    rw [List.isPrefixOf_iff_prefix]; exact List.prefix_append _ _
  have hd : ∀ m : Text, ("_test_".toList ++ m).drop 6 = m := fun m => rfl
  constructor
  · unfold displayName
    simp only
    rw [if_pos (hp n), hd, if_neg h]
  · unfold displayName
    simp only
    rw [if_pos (hp _), hd, if_pos (by rw [List.isSuffixOf_iff_suffix]; exact List.suffix_append _ _)]
    have : (n ++ "_wrapper".toList).length - 8 = n.length := by
      rw [List.length_append]
      have : "_wrapper".toList.length = 8 := by decide
      omega
    rw [this, List.take_left']
    rfl

example : displayName "_test_foo_wrapper".toList = "foo".toList := (C193_display "foo".toList (by decide)).2

end Verif.TestSel
