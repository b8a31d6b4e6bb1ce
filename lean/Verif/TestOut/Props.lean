import Verif.TestOut.Model
/-!
# C189, C190: output of tests
-/
namespace Verif.TestOut

/-! ## Counting -/

/-- What is known after the chunks `ps`. -/
structure Inv (s : List Text × (Text → Option Nat)) (ps : List Text) : Prop where
  nodup : s.1.Nodup
  mem : ∀ c, c ∈ s.1 ↔ c ∈ ps
  cnt : ∀ c, s.2 c = if c ∈ ps then some (ps.count c) else none
  sub : s.1.Sublist ps

theorem inv_step {s : List Text × (Text → Option Nat)} {ps : List Text} (h : Inv s ps) (c : Text) : Inv (stepCount s c) (ps ++ [c]) := by
  have hc := h.cnt c
  by_cases hm : c ∈ ps
  · rw [if_pos hm] at hc
    have e : (stepCount s c).1 = s.1 := by unfold stepCount; simp [hc]
    refine ⟨by rw [e]; exact h.nodup, ?_, ?_, by rw [e]; exact h.sub.trans (List.sublist_append_left _ _)⟩
    · intro x
      rw [e, h.mem, List.mem_append, List.mem_singleton]
      exact ⟨.inl, fun hx => hx.elim id (fun hx => hx ▸ hm)⟩
    · intro x
      show (if x = c then some ((s.2 c).getD 0 + 1) else s.2 x) = _
      by_cases hx : x = c
      · subst hx
        rw [if_pos rfl, if_pos (by simp), hc, List.count_append]; simp
      · rw [if_neg hx, h.cnt, List.count_append]
        have : List.count x [c] = 0 := List.count_eq_zero.2 (by simpa using hx)
        simp [this, hx]
  · rw [if_neg hm] at hc
    have e : (stepCount s c).1 = s.1 ++ [c] := by unfold stepCount; simp [hc]
    refine ⟨?_, ?_, ?_, by rw [e]; exact h.sub.append (List.Sublist.refl _)⟩
    · rw [e, List.nodup_append]
      refine ⟨h.nodup, by simp, ?_⟩
      intro a ha b hb hab
      rw [List.mem_singleton] at hb
      subst hb; subst hab
      exact hm ((h.mem _).1 ha)
    · intro x
      rw [e, List.mem_append, List.mem_append, h.mem]
    · intro x
      show (if x = c then some ((s.2 c).getD 0 + 1) else s.2 x) = _
      by_cases hx : x = c
      · subst hx
        rw [if_pos rfl, if_pos (by simp), hc, List.count_append, List.count_eq_zero.2 hm]; simp
      · rw [if_neg hx, h.cnt, List.count_append]
        have : List.count x [c] = 0 := List.count_eq_zero.2 (by simpa using hx)
        simp [this, hx]

theorem inv_fold {s : List Text × (Text → Option Nat)} {ps : List Text} (h : Inv s ps) (qs : List Text) : Inv (qs.foldl stepCount s) (ps ++ qs) := by
  induction qs generalizing s ps with
  | nil => simpa using h
  | cons q qs ih =>
    have := ih (inv_step h q)
    rw [List.append_assoc] at this
    exact this

/-- What the counts of chunks are to be: each chunk once, in the order of first appearance, with the
number of its appearances. -/
structure Counted (ps : List Text) (r : List (Text × Nat)) : Prop where
  nodup : (r.map (·.1)).Nodup
  mem : ∀ c n, (c, n) ∈ r ↔ c ∈ ps ∧ n = ps.count c
  order : (r.map (·.1)).Sublist ps

theorem counts_counted (ps : List Text) : Counted ps (counts ps) := by
  have h := inv_fold (s := ([], fun _ => none)) (ps := []) ⟨by simp, by simp, by simp, by simp⟩ ps
  rw [List.nil_append] at h
  have e : (counts ps).map (·.1) = (ps.foldl stepCount ([], fun _ => none)).1 := by
    unfold counts
    simp only [List.map_map]
    exact List.map_id _
  refine ⟨by rw [e]; exact h.nodup, ?_, by rw [e]; exact h.sub⟩
  intro c n
  unfold counts
  simp only [List.mem_map]
  constructor
  · rintro ⟨x, hx, he⟩
    obtain ⟨rfl, rfl⟩ := Prod.mk.inj he
    have hx := (h.mem x).1 hx
    refine ⟨hx, ?_⟩
    rw [h.cnt, if_pos hx]; rfl
  · rintro ⟨hc, rfl⟩
    refine ⟨c, (h.mem c).2 hc, ?_⟩
    rw [h.cnt, if_pos hc]; rfl

/-! ## Lines -/

theorem linesGo_line {l : Text} (h : '\n' ∉ l) (cur s : Text) : linesGo cur (l ++ '\n' :: s) = (cur.reverse ++ l) :: linesGo [] s := by
  induction l generalizing cur with
  | nil => simp [linesGo]
  | cons c l ih =>
    have hc : c ≠ '\n' := fun e => h (by rw [e]; exact List.mem_cons_self)
    rw [List.cons_append, linesGo, if_neg hc, ih (fun hm => h (List.mem_cons_of_mem _ hm))]
    simp

theorem lines_text {ls : List Text} (h : ∀ l ∈ ls, '\n' ∉ l) : lines (text ls) = ls := by
  unfold lines
  induction ls with
  | nil => rfl
  | cons l ls ih =>
    unfold text at ih ⊢
    rw [List.flatMap_cons, List.append_assoc, List.singleton_append, linesGo_line (h l List.mem_cons_self),
      ih (fun x hx => h x (List.mem_cons_of_mem _ hx))]
    rfl

/-! ## Trimming -/

theorem dropWhile_split (s : Text) : ∃ a, s = a ++ s.dropWhile isSpace ∧ ∀ c ∈ a, isSpace c = true := by
  refine ⟨s.takeWhile isSpace, (List.takeWhile_append_dropWhile).symm, ?_⟩
  intro c hc
  induction s with
  | nil => cases hc
  | cons x xs ih =>
    rw [List.takeWhile_cons] at hc
    split at hc
    · rename_i hx
      rcases List.mem_cons.1 hc with rfl | hc
      · exact hx
      · exact ih hc
    · cases hc

theorem dropWhile_head {s : Text} {c : Char} {r : Text} (h : s.dropWhile isSpace = c :: r) : isSpace c = false := by
  induction s with
  | nil => cases h
  | cons x xs ih =>
    rw [List.dropWhile_cons] at h
    split at h
    · exact ih h
    · rename_i hx
      have : x = c := (List.cons.inj h).1
      rw [← this]; simpa using hx

theorem trim_trimmed (x : Text) : Trimmed x (trim x) := by
  obtain ⟨b, hb, hbs⟩ := dropWhile_split x.reverse
  obtain ⟨a, ha, has⟩ := dropWhile_split (dropEnd x)
  refine ⟨a, b.reverse, ?_, has, ?_, ?_, ?_⟩
  · have h1 : x = dropEnd x ++ b.reverse := by
      have := congrArg List.reverse hb
      rw [List.reverse_reverse, List.reverse_append] at this
      exact this
    show x = a ++ (trim x ++ b.reverse)
    rw [← List.append_assoc]
    unfold trim
    rw [← ha]
    exact h1
  · intro c hc; exact hbs c (List.mem_reverse.1 hc)
  · intro c r h; exact dropWhile_head h
  · intro c r h
    have h1 : dropEnd x = (a ++ r) ++ [c] := by
      rw [List.append_assoc, ← h]; exact ha
    unfold dropEnd at h1
    have h2 := congrArg List.reverse h1
    rw [List.reverse_reverse, List.reverse_append] at h2
    exact dropWhile_head h2

theorem dropWhile_spaces {a : Text} (ha : ∀ c ∈ a, isSpace c = true) (s : Text) : (a ++ s).dropWhile isSpace = s.dropWhile isSpace := by
  induction a with
  | nil => rfl
  | cons c a ih =>
    rw [List.cons_append, List.dropWhile_cons, if_pos (ha c List.mem_cons_self), ih (fun x hx => ha x (List.mem_cons_of_mem _ hx))]

theorem dropWhile_stop {s : Text} (h : ∀ c r, s = c :: r → isSpace c = false) : s.dropWhile isSpace = s := by
  cases s with
  | nil => rfl
  | cons c r => rw [List.dropWhile_cons, if_neg (by rw [h c r rfl]; simp)]

/-- There is only one way to trim. -/
theorem trimmed_unique {x y : Text} (h : Trimmed x y) : y = trim x := by
  obtain ⟨a, b, hx, ha, hb, h1, h2⟩ := h
  have hb' : ∀ c ∈ b.reverse, isSpace c = true := fun c hc => hb c (List.mem_reverse.1 hc)
  have ha' : ∀ c ∈ a.reverse, isSpace c = true := fun c hc => ha c (List.mem_reverse.1 hc)
  have hs : ∀ c r, y.reverse = c :: r → isSpace c = false := by
    intro c r e
    refine h2 c r.reverse ?_
    have := congrArg List.reverse e
    rw [List.reverse_reverse, List.reverse_cons] at this
    exact this
  unfold trim dropEnd
  rw [hx, List.reverse_append, List.reverse_append, List.append_assoc, dropWhile_spaces hb']
  cases hy : y.reverse with
  | nil =>
    have hy0 : y = [] := by simpa using hy
    have := dropWhile_spaces ha' []
    rw [List.append_nil] at this
    rw [List.nil_append, this, hy0]; rfl
  | cons c r =>
    have hc := hs c r hy
    rw [List.cons_append, List.dropWhile_cons, if_neg (by rw [hc]; simp)]
    have e : (c :: (r ++ a.reverse)).reverse = a ++ y := by
      rw [← List.cons_append, ← hy, List.reverse_append, List.reverse_reverse, List.reverse_reverse]
    rw [e, dropWhile_spaces ha, dropWhile_stop h1]

theorem trim_nl (s : Text) : trim ('\n' :: s) = trim s := by
  obtain ⟨a, b, hx, ha, hb, h1, h2⟩ := trim_trimmed s
  refine (trimmed_unique ⟨'\n' :: a, b, ?_, ?_, hb, h1, h2⟩).symm
  · rw [List.cons_append, ← hx]
  · intro c hc
    rcases List.mem_cons.1 hc with rfl | hc
    · decide
    · exact ha c hc

/-! ## Splitting -/

theorem add_fold {cur : Text} (hc : cur ≠ []) (ls : List Text) : ls.foldl add cur = List.intercalate ['\n'] (cur :: ls) := by
  induction ls generalizing cur with
  | nil => simp [List.intercalate]
  | cons l ls ih =>
    have e : add cur l = cur ++ '\n' :: l := by unfold add; simp [hc]
    rw [List.foldl_cons, e, ih (by simp)]
    cases ls <;> simp [List.intercalate]

theorem trim_fold (ls : List Text) : trim (ls.foldl add []) = trim (List.intercalate ['\n'] ls) := by
  induction ls with
  | nil => rfl
  | cons l ls ih =>
    rw [List.foldl_cons]
    have e : add [] l = l := rfl
    rw [e]
    cases l with
    | nil =>
      rw [ih]
      cases ls with
      | nil => rfl
      | cons x xs =>
        have : List.intercalate ['\n'] ([] :: x :: xs) = '\n' :: List.intercalate ['\n'] (x :: xs) := by simp [List.intercalate]
        rw [this, trim_nl]
    | cons c l => rw [add_fold (by simp)]

theorem plain_fold {ls : List Text} (h : ∀ l ∈ ls, isMarker l = false) (s : St) : ls.foldl step s = ⟨s.chunks, ls.foldl add s.current, s.seen⟩ := by
  induction ls generalizing s with
  | nil => rfl
  | cons l ls ih =>
    have hl := h l List.mem_cons_self
    have e : step s l = ⟨s.chunks, add s.current l, s.seen⟩ := by unfold step; simp [hl]
    rw [List.foldl_cons, e, ih (fun x hx => h x (List.mem_cons_of_mem _ hx))]
    rfl

theorem iters_fold {its : Iters} (h : Ok its) (s : St) (hs : s.seen = true) :
    ∃ t, (its.flatMap (fun it => it.1 :: it.2)).foldl step s = t ∧ t.seen = true ∧
      t.chunks ++ [trim t.current] = s.chunks ++ trim s.current :: its.map (fun it => trim (List.intercalate ['\n'] it.2)) := by
  induction its generalizing s with
  | nil => exact ⟨s, rfl, hs, rfl⟩
  | cons it its ih =>
    obtain ⟨-, hm, hp⟩ := h it List.mem_cons_self
    rw [List.flatMap_cons, List.foldl_append, List.foldl_cons]
    have e : step s it.1 = ⟨s.chunks ++ [trim s.current], [], true⟩ := by unfold step; simp [hm, hs]
    rw [e, plain_fold (fun l hl => (hp l hl).2)]
    obtain ⟨t, ht, h1, h2⟩ := ih (fun x hx => h x (List.mem_cons_of_mem _ hx)) ⟨s.chunks ++ [trim s.current], it.2.foldl add [], true⟩ rfl
    refine ⟨t, ht, h1, ?_⟩
    rw [h2]
    simp only [List.map_cons, trim_fold, List.append_assoc, List.singleton_append]

theorem split_pre {pre : List Text} (hpre : ∀ l ∈ pre, Plain l) {its : Iters} (h : Ok its) (hne : its ≠ []) :
    split (text (pre ++ its.flatMap (fun it => it.1 :: it.2))) = its.map (fun it => trim (List.intercalate ['\n'] it.2)) := by
  have hl : ∀ l ∈ pre ++ its.flatMap (fun it => it.1 :: it.2), '\n' ∉ l := by
    intro l hm
    rcases List.mem_append.1 hm with hm | hm
    · exact (hpre l hm).1
    · obtain ⟨it, hit, hm⟩ := List.mem_flatMap.1 hm
      obtain ⟨h1, -, h3⟩ := h it hit
      rcases List.mem_cons.1 hm with rfl | hm
      · exact h1
      · exact (h3 l hm).1
  unfold split
  rw [lines_text hl, List.foldl_append, plain_fold (fun l hl => (hpre l hl).2)]
  cases its with
  | nil => exact absurd rfl hne
  | cons it its =>
    obtain ⟨-, hm, hp⟩ := h it List.mem_cons_self
    rw [List.flatMap_cons, List.foldl_append, List.foldl_cons]
    have e : step ⟨[], pre.foldl add [], false⟩ it.1 = ⟨[], [], true⟩ := by unfold step; simp [hm]
    rw [e, plain_fold (fun l hl => (hp l hl).2)]
    obtain ⟨t, ht, h1, h2⟩ := iters_fold (fun x hx => h x (List.mem_cons_of_mem _ hx)) ⟨[], it.2.foldl add [], true⟩ rfl
    simp only
    rw [ht, if_pos h1, h2]
    simp only [List.nil_append, List.map_cons, trim_fold]

/-- `ch` are the chunks of the iterations: the output of each, trimmed. -/
def Chunks (its : Iters) (ch : List Text) : Prop := List.Forall₂ (fun it c => Trimmed (List.intercalate ['\n'] it.2) c) its ch

theorem chunks_split {its : Iters} (h : Ok its) (hne : its ≠ []) : Chunks its (split (outputOf its)) := by
  have := split_pre (pre := []) (by simp) h hne
  rw [List.nil_append] at this
  unfold outputOf
  rw [this]
  unfold Chunks
  clear this hne h
  induction its with
  | nil => exact .nil
  | cons it its ih => exact .cons (trim_trimmed _) ih

theorem chunks_len {its : Iters} {ch : List Text} (h : Chunks its ch) : its.length = ch.length := by
  unfold Chunks at h
  induction h with
  | nil => rfl
  | cons _ _ ih => rw [List.length_cons, List.length_cons, ih]

theorem combined_zip {o e : List Text} (h : o.length = e.length) : combined o e = List.zipWith render o e := by
  unfold combined
  apply List.ext_getElem
  · simp [h]
  · intro n h1 h2
    have hn : n < e.length := by simpa [h] using h1
    have hn' : n < o.length := by omega
    simp [getChunk, hn, hn']

/-- **C189** The output of the iterations of a test is taken apart as it was printed: the chunks are
the trimmed outputs of the iterations, those of stdout and stderr of the same iteration are put
together, and equal ones are shown once, in order, with the number of iterations they come from. -/
theorem C189 {outs errs : Iters} (ho : Ok outs) (he : Ok errs) (hne : outs ≠ []) (hl : outs.length = errs.length) :
    ∃ co ce, Chunks outs co ∧ Chunks errs ce ∧
      Counted ((List.zipWith render co ce).filter (fun c => !(trim c).isEmpty)) (dedup (outputOf outs) (outputOf errs)) := by
  have hne' : errs ≠ [] := by
    intro h
    rw [h] at hl
    exact hne (List.length_eq_zero_iff.1 hl)
  have h1 := chunks_split ho hne
  have h2 := chunks_split he hne'
  refine ⟨_, _, h1, h2, ?_⟩
  unfold dedup
  rw [combined_zip (by
    have a := chunks_len h1
    have b := chunks_len h2
    omega)]
  exact counts_counted _

/-- If stdout and stderr have different numbers of chunks (as after a crash), those without a counterpart
are put together with nothing; no chunk is left out. -/
theorem C189_uneven (o e : List Text) (i : Nat) (hi : i < o.length ∨ i < e.length) :
    (combined o e)[i]? = some (render (o[i]?.getD []) (e[i]?.getD [])) := by
  have hm : i < max o.length e.length := by omega
  have key : ∀ xs : List Text, getChunk xs i = xs[i]?.getD [] := by
    intro xs
    unfold getChunk
    split
    · rw [List.getD_eq_getElem?_getD]
    · rename_i h
      rw [List.getElem?_eq_none (by omega)]; rfl
  unfold combined
  rw [List.getElem?_map, List.getElem?_range hm, Option.map_some, key, key]

example : (combined ["a".toList] [])[0]? = some (render "a".toList []) := C189_uneven _ _ 0 (.inl (by decide))

theorem infix_intercalate {x : Text} {ls : List Text} (h : x ∈ ls) : x <:+: List.intercalate ['\n'] ls := by
  induction ls with
  | nil => cases h
  | cons l ls ih =>
    cases ls with
    | nil =>
      rw [List.mem_singleton] at h
      subst h
      simp [List.intercalate]
    | cons m ls =>
      have e : List.intercalate ['\n'] (l :: m :: ls) = l ++ ('\n' :: List.intercalate ['\n'] (m :: ls)) := by simp [List.intercalate]
      rw [e]
      rcases List.mem_cons.1 h with rfl | h
      · exact (List.prefix_append _ _).isInfix
      · obtain ⟨a, b, hab⟩ := ih h
        exact ⟨l ++ '\n' :: a, b, by rw [← hab]; simp⟩

theorem section_infix {l label t : Text} (h : l ∈ lines t) : (' ' :: ' ' :: l) <:+: section' label t := by
  obtain ⟨a, b, hab⟩ := infix_intercalate (List.mem_map.2 ⟨l, h, rfl⟩ : (' ' :: ' ' :: l) ∈ (lines t).map (fun l => ' ' :: ' ' :: l))
  unfold section'
  exact ⟨label ++ (":\n".toList ++ a), b, by rw [← hab]; simp⟩

theorem lines_nil {t l : Text} (h : l ∈ lines t) : t.isEmpty = false := by
  cases t with
  | nil => cases h
  | cons => rfl

/-- What is shown of an iteration contains each line of its stdout and stderr. -/
theorem C189_lines {out err l : Text} (h : l ∈ lines (trim out) ∨ l ∈ lines (trim err)) : (' ' :: ' ' :: l) <:+: render out err := by
  unfold render
  rcases h with h | h
  · refine (section_infix (label := "STDOUT".toList) h).trans (infix_intercalate (List.mem_append_left _ ?_))
    rw [lines_nil h]
    exact List.mem_singleton.2 rfl
  · refine (section_infix (label := "STDERR".toList) h).trans (infix_intercalate (List.mem_append_right _ ?_))
    rw [lines_nil h]
    exact List.mem_singleton.2 rfl

example : "  b".toList <:+: render "a\nb\n".toList [] := C189_lines (l := "b".toList) (.inl (by decide))

def sampleIters : Iters := [("== Running test, iteration: 0".toList, ["a".toList]), ("== Running test, iteration: 1".toList, ["b".toList, "c".toList])]

theorem sample_ok : Ok sampleIters := by
  intro it hit
  simp only [sampleIters, List.mem_cons, List.not_mem_nil, or_false] at hit
  rcases hit with rfl | rfl
  · refine ⟨by decide, by decide, ?_⟩
    intro l hl
    rw [List.mem_singleton] at hl
    subst hl
    exact ⟨by decide, by decide⟩
  · refine ⟨by decide, by decide, ?_⟩
    intro l hl
    simp only [List.mem_cons, List.not_mem_nil, or_false] at hl
    rcases hl with rfl | rfl <;> exact ⟨by decide, by decide⟩

example : ∃ co ce, Chunks sampleIters co ∧ Chunks sampleIters ce ∧
    Counted ((List.zipWith render co ce).filter (fun c => !(trim c).isEmpty)) (dedup (outputOf sampleIters) (outputOf sampleIters)) :=
  C189 sample_ok sample_ok (by simp [sampleIters]) rfl

/-- **C190** (partial) Without any marker all output is kept, but for spaces at its ends; missing: output
before the first marker, see `C190_refuted`. -/
theorem C190_partial {ls : List Text} (h : ∀ l ∈ ls, Plain l) {y : Text} (hy : Trimmed (text ls) y) :
    split (text ls) = if y = [] then [] else [y] := by
  have hy := trimmed_unique hy
  unfold split
  rw [lines_text (fun l hl => (h l hl).1), plain_fold (fun l hl => (h l hl).2)]
  simp only [Bool.false_eq_true, if_false]
  rw [hy]
  simp [List.isEmpty_iff]

example : split (text ["a".toList]) = ["a".toList] :=
  C190_partial (y := "a".toList) (by
    intro l hl
    rw [List.mem_singleton] at hl
    subst hl
    exact ⟨by decide, by decide⟩) (trim_trimmed _)

/-- Whatever is printed before the first iteration starts is left out. -/
theorem C190_refuted {pre : List Text} (hpre : ∀ l ∈ pre, Plain l) {its : Iters} (h : Ok its) (hne : its ≠ []) :
    split (text pre ++ outputOf its) = split (outputOf its) := by
  have h1 := split_pre hpre h hne
  have h2 := split_pre (pre := []) (by simp) h hne
  rw [List.nil_append] at h2
  unfold outputOf
  rw [h2, ← h1]
  unfold text
  rw [List.flatMap_append]

/-- So it is not shown. -/
theorem C190_lost {pre : List Text} (hpre : ∀ l ∈ pre, Plain l) {its : Iters} (h : Ok its) (hne : its ≠ []) (err : Text) :
    dedup (text pre ++ outputOf its) err = dedup (outputOf its) err := by
  unfold dedup
  rw [C190_refuted hpre h hne]

example : split (text ["warning".toList] ++ outputOf sampleIters) = split (outputOf sampleIters) :=
  C190_refuted (by
    intro l hl
    rw [List.mem_singleton] at hl
    subst hl
    exact ⟨by decide, by decide⟩) sample_ok (by simp [sampleIters])

end Verif.TestOut
