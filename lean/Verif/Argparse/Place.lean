import Verif.Argparse.Scan
/-! Lemmas: positional arguments, and the parser as a whole. -/
namespace Verif.Argparse

/-- Single values, one after the other. -/
def ones : Env → List Arg → List Txt → Env
  | m, g :: gs, w :: ws => ones (upd m g.name (.str, .str w)) gs ws
  | m, _, _ => m

theorem ones_other : ∀ (gs : List Arg) (ws : List Txt) (m : Env) (k : Txt), (∀ g ∈ gs.take ws.length, g.name ≠ k) →
    ones m gs ws k = m k
  | [], _, _, _, _ => by simp [ones]
  | _ :: _, [], _, _, _ => by simp [ones]
  | g :: gs, w :: ws, m, k, h => by
    rw [ones, ones_other gs ws _ k (fun g' hg => h g' (by simp [hg]))]
    simp only [upd]
    rw [if_neg]
    exact fun e => h g (by simp) e.symm

theorem ones_nth : ∀ (gs : List Arg) (ws : List Txt) (m : Env) (i : Nat) (g : Arg) (w : Txt),
    (gs.map Arg.name).Nodup → gs[i]? = some g → ws[i]? = some w → ones m gs ws g.name = some (.str, .str w)
  | [], _, _, _, _, _, _, h, _ => by simp at h
  | _ :: _, [], _, _, _, _, _, _, h => by simp at h
  | g0 :: gs, w0 :: ws, m, 0, g, w, hn, h1, h2 => by
    simp only [List.getElem?_cons_zero, Option.some.injEq] at h1 h2
    subst h1 h2
    simp only [List.map_cons, List.nodup_cons] at hn
    rw [ones, ones_other]
    · simp [upd]
    · intro g hg e
      exact hn.1 (List.mem_map.2 ⟨g, List.mem_of_mem_take hg, e⟩)
  | g0 :: gs, w0 :: ws, m, i + 1, g, w, hn, h1, h2 => by
    simp only [List.getElem?_cons_succ] at h1 h2
    simp only [List.map_cons, List.nodup_cons] at hn
    exact ones_nth gs ws _ i g w hn.2 h1 h2

theorem ones_args : ∀ (gs : List Arg) (ws : List Txt) (m : Env), ones m (gs.take ws.length) ws = ones m gs ws
  | [], _, _ => by simp
  | _ :: _, [], _ => rfl
  | g :: gs, w :: ws, m => by
    simp only [List.length_cons, List.take_succ_cons, ones]
    exact ones_args gs ws _

theorem ones_words : ∀ (gs : List Arg) (ws : List Txt) (m : Env), ones m gs (ws.take gs.length) = ones m gs ws
  | [], _, _ => by simp [ones]
  | _ :: _, [], _ => rfl
  | g :: gs, w :: ws, m => by
    simp only [List.length_cons, List.take_succ_cons, ones]
    exact ones_words gs ws _

theorem name_inj {gs : List Arg} (h : (gs.map Arg.name).Nodup) {g g' : Arg} (hg : g ∈ gs) (hg' : g' ∈ gs)
    (e : g'.name = g.name) : g' = g := by
  induction gs with
  | nil => simp at hg
  | cons x gs ih =>
    simp only [List.map_cons, List.nodup_cons] at h
    rcases List.mem_cons.1 hg with rfl | hg1 <;> rcases List.mem_cons.1 hg' with rfl | hg2
    · rfl
    · exact absurd (e ▸ List.mem_map_of_mem hg2) h.1
    · exact absurd (e ▸ List.mem_map_of_mem hg1) h.1
    · exact ih h.2 hg1 hg2

theorem place_ones : ∀ (pre gs : List Arg) (xs ys : List Txt) (a : Args) (rest : List Txt),
    (∀ g ∈ pre, g.nargs = .one) → xs.length = pre.length → Sep a →
    ∃ a', Next a a' (ones (view a) pre xs) ∧ place (xs ++ ys) (pre ++ gs) a rest = place ys gs a' rest
  | [], gs, [], ys, a, rest, _, _, hs => ⟨a, by rw [show ones (view a) [] [] = view a from rfl]; exact Next.refl hs, rfl⟩
  | [], _, _ :: _, _, _, _, _, h, _ => by simp at h
  | _ :: _, _, [], _, _, _, _, h, _ => by simp at h
  | g :: pre, gs, x :: xs, ys, a, rest, h1, hl, hs => by
    have n1 := next_set hs g.name .str (v := .str x) (by intro r h; cases h)
    obtain ⟨a', n2, e⟩ := place_ones pre gs xs ys _ rest (fun g' hg => h1 g' (by simp [hg])) (by simpa using hl) n1.sep
    rw [n1.view] at n2
    refine ⟨a', n1.trans n2, ?_⟩
    rw [← e]
    simp only [List.cons_append, place, h1 g (by simp)]

/-- An argument that takes several, with enough for those after it. -/
theorem place_many (g : Arg) (post : List Arg) (hg : g.nargs = .many) : ∀ (ys zs : List Txt) (a : Args) (rest : List Txt),
    ys ≠ [] → zs.length = post.length → Sep a →
    ∃ a', Next a a' (upd (view a) g.name (.strlist, .list (sofar (view a) g.name ++ ys))) ∧
      place (ys ++ zs) (g :: post) a rest = place zs post a' rest
  | [], _, _, _, h, _, _ => absurd rfl h
  | [y], zs, a, rest, _, hl, hs => by
    refine ⟨appendTo a g.name y, next_append hs g.name y, ?_⟩
    simp only [List.cons_append, List.nil_append, place, hg, hl, if_pos]
  | y :: y' :: ys, zs, a, rest, _, hl, hs => by
    have n1 := next_append hs g.name y
    obtain ⟨a', n2, e⟩ := place_many g post hg (y' :: ys) zs _ rest (by simp) hl n1.sep
    have e1 : upd (view (appendTo a g.name y)) g.name
        (.strlist, .list (sofar (view (appendTo a g.name y)) g.name ++ (y' :: ys))) =
        upd (view a) g.name (.strlist, .list (sofar (view a) g.name ++ (y :: y' :: ys))) := by
      rw [n1.view]
      funext x
      simp only [upd, sofar, if_pos]
      by_cases h : x = g.name
      · rw [if_pos h, if_pos h]
        simp
      · rw [if_neg h, if_neg h, if_neg h]
    rw [e1] at n2
    refine ⟨a', n1.trans n2, ?_⟩
    rw [← e]
    have : ((y' :: ys) ++ zs).length ≠ post.length := by simp; omega
    simp only [List.cons_append, place, hg]
    rw [if_neg (by simpa using this)]
    simp only [place, hg]

/-- Not enough for those after it. -/
theorem place_few (g : Arg) (post : List Arg) (hg : g.nargs = .many) : ∀ (ys : List Txt) (a : Args) (rest : List Txt),
    ys ≠ [] → ys.length ≤ post.length → Sep a →
    ∃ a', Next a a' (upd (view a) g.name (.strlist, .list (sofar (view a) g.name ++ ys))) ∧
      place ys (g :: post) a rest = (a', g :: post, rest)
  | [], _, _, h, _, _ => absurd rfl h
  | [y], a, rest, _, hl, hs => by
    refine ⟨appendTo a g.name y, next_append hs g.name y, ?_⟩
    simp only [place, hg]
    rw [if_neg]
    intro e
    simp only [List.length_cons, List.length_nil] at hl e
    omega
  | y :: y' :: ys, a, rest, _, hl, hs => by
    have n1 := next_append hs g.name y
    obtain ⟨a', n2, e⟩ := place_few g post hg (y' :: ys) _ rest (by simp) (by simp at hl ⊢; omega) n1.sep
    have e1 : upd (view (appendTo a g.name y)) g.name
        (.strlist, .list (sofar (view (appendTo a g.name y)) g.name ++ (y' :: ys))) =
        upd (view a) g.name (.strlist, .list (sofar (view a) g.name ++ (y :: y' :: ys))) := by
      rw [n1.view]
      funext x
      simp only [upd, sofar, if_pos]
      by_cases h : x = g.name
      · rw [if_pos h, if_pos h]
        simp
      · rw [if_neg h, if_neg h, if_neg h]
    rw [e1] at n2
    refine ⟨a', n1.trans n2, ?_⟩
    rw [← e]
    have : (y' :: ys).length ≠ post.length := by simp at hl ⊢; omega
    simp only [place, hg]
    rw [if_neg this]
    simp only [place, hg]

theorem place_left : ∀ (ws : List Txt) (a : Args) (rest : List Txt), place ws [] a rest = (a, [], rest ++ ws)
  | [], a, rest => by simp [place]
  | w :: ws, a, rest => by
    simp only [place]
    rw [place_left ws]
    simp

/-- The options that are not positional arguments. -/
theorem place_other (k : Txt) : ∀ (ws : List Txt) (gs : List Arg) (a : Args) (rest : List Txt), (∀ g ∈ gs, g.name ≠ k) → Sep a →
    view (place ws gs a rest).1 k = view a k ∧ ∀ g ∈ (place ws gs a rest).2.1, g ∈ gs
  | [], gs, a, rest, _, _ => by simp [place]
  | w :: ws, [], a, rest, h, hs => by
    rw [place_left]
    exact ⟨rfl, fun g hg => by simp at hg⟩
  | w :: ws, g :: gs, a, rest, h, hs => by
    have hk := h g (by simp)
    have hgs : ∀ g' ∈ gs, g'.name ≠ k := fun g' hg => h g' (by simp [hg])
    cases hn : g.nargs with
    | one =>
      have n1 := next_set hs g.name .str (v := .str w) (by intro r h; cases h)
      obtain ⟨e1, e2⟩ := place_other k ws gs _ rest hgs n1.sep
      simp only [place, hn]
      refine ⟨?_, fun g' hg => by simp [e2 g' hg]⟩
      rw [e1, n1.view]
      exact if_neg (fun e => hk e.symm)
    | many =>
      have n1 := next_append hs g.name w
      have hx : ∀ g' ∈ (if ws.length = gs.length then gs else g :: gs), g' ∈ g :: gs := by
        intro g' hg
        split at hg
        · simp [hg]
        · exact hg
      obtain ⟨e1, e2⟩ := place_other k ws (if ws.length = gs.length then gs else g :: gs) _ rest
        (fun g' hg => h g' (hx g' hg)) n1.sep
      simp only [place, hn]
      refine ⟨?_, fun g' hg => hx g' (e2 g' hg)⟩
      rw [e1, n1.view]
      exact if_neg (fun e => hk e.symm)
    | star =>
      simp only [place, hn]
      exact place_other k ws (g :: gs) a rest h hs
    | other =>
      simp only [place, hn]
      exact place_other k ws (g :: gs) a rest h hs

/-! ## Options stay -/

/-- No option of `a` disappears. -/
def Keeps (a a' : Args) : Prop := ∀ k, get a.options k ≠ none → get a'.options k ≠ none

theorem Keeps.refl (a : Args) : Keeps a a := fun _ h => h
theorem Keeps.trans {a b c : Args} (h : Keeps a b) (h' : Keeps b c) : Keeps a c := fun k hk => h' k (h k hk)

theorem keeps_put (a : Args) (heap : List (List Txt)) (k : Txt) (v : OTy × Val) (c : Option Nat) :
    Keeps a ⟨put a.options k v, heap, c⟩ := by
  intro x hx
  simp only [get_put]
  by_cases h : x = k
  · rw [if_pos h]
    simp
  · rw [if_neg h]
    exact hx

theorem keeps_append (a : Args) (k v : Txt) : Keeps a (appendTo a k v) ∧ get (appendTo a k v).options k ≠ none := by
  have e : ∃ heap r, appendTo a k v = ⟨put a.options k (.strlist, .list r), heap, a.cmd⟩ := by
    simp only [appendTo]
    split <;> exact ⟨_, _, rfl⟩
  obtain ⟨heap, r, e⟩ := e
  rw [e]
  refine ⟨keeps_put _ _ _ _ _, ?_⟩
  simp [get_put_self]

/-- Every positional argument is left or has a value. -/
theorem place_bound : ∀ (ws : List Txt) (gs : List Arg) (a : Args) (rest : List Txt),
    Keeps a (place ws gs a rest).1 ∧
      ∀ g ∈ gs, g ∈ (place ws gs a rest).2.1 ∨ get (place ws gs a rest).1.options g.name ≠ none
  | [], gs, a, rest => by
    simp only [place]
    exact ⟨Keeps.refl a, fun g hg => .inl hg⟩
  | w :: ws, [], a, rest => by
    rw [place_left]
    exact ⟨Keeps.refl a, fun g hg => by simp at hg⟩
  | w :: ws, g :: gs, a, rest => by
    cases hn : g.nargs with
    | one =>
      have k1 : Keeps a (a.set g.name .str (.str w)) := keeps_put _ _ _ _ _
      obtain ⟨h1, h2⟩ := place_bound ws gs (a.set g.name .str (.str w)) rest
      simp only [place, hn]
      refine ⟨k1.trans h1, fun g' hg => ?_⟩
      rcases List.mem_cons.1 hg with rfl | hg
      · exact .inr (h1 _ (by simp [Args.set, get_put_self]))
      · exact h2 g' hg
    | many =>
      obtain ⟨k1, k2⟩ := keeps_append a g.name w
      simp only [place, hn]
      obtain ⟨h1, h2⟩ := place_bound ws (if ws.length = gs.length then gs else g :: gs) (appendTo a g.name w) rest
      refine ⟨k1.trans h1, fun g' hg => ?_⟩
      rcases List.mem_cons.1 hg with rfl | hg
      · exact .inr (h1 _ k2)
      · exact h2 g' (by split <;> simp [hg])
    | star =>
      simp only [place, hn]
      exact place_bound ws (g :: gs) a rest
    | other =>
      simp only [place, hn]
      exact place_bound ws (g :: gs) a rest

/-! ## The parser -/

variable {pi : Txt → Option Int}

theorem view_empty (heap : List (List Txt)) (c : Option Nat) : view ⟨[], heap, c⟩ = fun _ => none := by
  funext k
  simp [view, get]

theorem sep_empty (heap : List (List Txt)) (c : Option Nat) : Sep ⟨[], heap, c⟩ := by
  intro k t r h
  simp [get] at h

theorem ownH {p : Parser} {heap : List (List Txt)} (h : OwnLists p.opts heap) : OwnLists (optsH p) heap := by
  simp only [optsH]
  cases e : get p.opts help with
  | some _ => exact h
  | none =>
    have key : ∀ k t r, get (put p.opts help (⟨.bool, some (.bool false)⟩ : Spec)) k = some ⟨t, some (.list r)⟩ →
        get p.opts k = some ⟨t, some (.list r)⟩ := by
      intro k t r h
      rw [get_put] at h
      by_cases e : k = help
      · rw [if_pos e] at h
        simp at h
      · rw [if_neg e] at h
        exact h
    intro k t r hk
    exact ⟨(h k t r (key _ _ _ hk)).1, fun k' t' hk' => (h k t r (key _ _ _ hk)).2 k' t' (key _ _ _ hk')⟩

/-- The options before the loop. -/
theorem start_next {opts : List (Txt × Spec)} {a : Args} (args : List Arg) (hn : (opts.map Prod.fst).Nodup)
    (hs : Sep a) (ho : OwnLists opts a.heap)
    (hf : ∀ k t r, get opts k = some ⟨t, some (.list r)⟩ → Fresh r a) :
    view (argDefaults args (optDefaults opts a)) = argDefs args (defaults opts a.heap (view a)) ∧
      Sep (argDefaults args (optDefaults opts a)) ∧ (argDefaults args (optDefaults opts a)).cmd = a.cmd ∧
      ∀ r, Fresh r a → (∀ k t, get opts k ≠ some ⟨t, some (.list r)⟩) →
        Fresh r (argDefaults args (optDefaults opts a)) ∧ (argDefaults args (optDefaults opts a)).heap[r]? = a.heap[r]? := by
  obtain ⟨h1, h2, h3, h4, h5⟩ := optDefaults_next opts a hn hs (fun k t r h => ⟨hf k t r h, (ho k t r h).2⟩)
  have n := argDefaults_next args _ h2
  refine ⟨by rw [n.view, h1], n.sep, n.cmd.trans h4, fun r hr hr' => ?_⟩
  obtain ⟨f1, f2⟩ := n.frame r (h5 r hr hr')
  exact ⟨f1, by rw [f2, h3]⟩

/-- The loop over a line. -/
theorem scan_line {opts : List (Txt × Spec)} {shorts : List (Nat × Txt)} {args : List Arg} {cmds : Cmds}
    (hok : Ok (.mk opts shorts args cmds)) {a : Args} (hs : Sep a) (ho : OwnLists opts a.heap)
    (hf : ∀ k t r, get opts k = some ⟨t, some (.list r)⟩ → Fresh r a)
    {is : List Item} {gs : List Given} {ws : List Txt} (h : MeansAll opts shorts cmds false is gs ws) (e : Option (List Txt)) :
    match assignAll pi (argDefs args (defaults opts a.heap (view a))) gs with
    | none => scan pi opts shorts args cmds (line is ++ ending e) a = .error .argument
    | some m => ∃ a', view a' = m ∧ Sep a' ∧ a'.cmd = a.cmd ∧
        scan pi opts shorts args cmds (line is ++ ending e) a = .ok ⟨a', ws ++ e.getD [], none⟩ := by
  obtain ⟨h1, h2, h3, _⟩ := start_next (opts := opts) args hok.nodup hs ho hf
  have hl := loop_items (pi := pi) (shorts := shorts) hok.dash h (line is ++ ending e) (ending e) (line is ++ ending e).length 0
    ⟨argDefaults args (optDefaults opts a), [], none⟩ rfl h2 rfl (by omega)
  simp only at hl
  simp only [scan]
  rw [← h1]
  cases ea : assignAll pi (view (argDefaults args (optDefaults opts a))) gs with
  | none =>
    rw [ea] at hl
    exact hl
  | some m =>
    rw [ea] at hl
    obtain ⟨a', n', p', n1, hd, hle, hl⟩ := hl
    refine ⟨a', n1.view, n1.sep, n1.cmd.trans h3, ?_⟩
    rw [hl, loop_ending _ e n' p' _ hd hle]
    simp

/-- The types of the options given are those of the parser. -/
theorem means_typed {opts : List (Txt × Spec)} {shorts : List (Nat × Txt)} {cmds : Cmds} {sel : Bool} {is : List Item}
    {gs : List Given} {ws : List Txt} (h : MeansAll opts shorts cmds sel is gs ws) :
    ∀ g ∈ gs, ∃ d, get opts g.name = some ⟨g.ty, d⟩ := by
  have flags : ∀ {cs gs}, Flags opts shorts cs gs → ∀ g ∈ gs, ∃ d, get opts g.name = some ⟨g.ty, d⟩ := by
    intro cs gs h
    induction h with
    | nil => intro g hg; simp at hg
    | cons h1 h2 _ ih =>
      intro g hg
      rcases List.mem_cons.1 hg with rfl | hg
      · exact ⟨_, h2⟩
      · exact ih g hg
  induction h with
  | nil => intro g hg; simp at hg
  | cons hi _ ih =>
    intro g hg
    rcases List.mem_append.1 hg with hg | hg
    · cases hi with
      | long _ _ ho => rw [List.mem_singleton.1 hg]; exact ⟨_, ho⟩
      | longEq _ ho _ => rw [List.mem_singleton.1 hg]; exact ⟨_, ho⟩
      | longSep _ _ ho _ => rw [List.mem_singleton.1 hg]; exact ⟨_, ho⟩
      | flags _ hf => exact flags hf g hg
      | inl _ _ ho _ => rw [List.mem_singleton.1 hg]; exact ⟨_, ho⟩
      | sep hf _ ho _ =>
        rcases List.mem_append.1 hg with hg | hg
        · exact flags hf g hg
        · rw [List.mem_singleton.1 hg]; exact ⟨_, ho⟩
      | raw _ => simp at hg
    · exact ih g hg

/-- A flag remains a flag. -/
theorem assignAll_flag (k : Txt) : ∀ (gs : List Given) (m m' : Env), (∀ g ∈ gs, g.name = k → g.ty = .bool) →
    (∃ b, m k = some (.bool, .bool b)) → assignAll pi m gs = some m' → ∃ b, m' k = some (.bool, .bool b)
  | [], m, m', _, hm, h => by
    simp only [assignAll, Option.some.injEq] at h
    exact h ▸ hm
  | g :: gs, m, m', hg, hm, h => by
    simp only [assignAll] at h
    cases e : assign pi m g.name g.ty g.v with
    | none => rw [e] at h; cases h
    | some m1 =>
      rw [e] at h
      refine assignAll_flag k gs m1 m' (fun g' h' => hg g' (by simp [h'])) ?_ h
      by_cases hk : g.name = k
      · have ht := hg g (by simp) hk
        rw [ht] at e
        simp only [assign, Option.some.injEq] at e
        rw [← e]
        exact ⟨true, by simp [upd, hk]⟩
      · have : m1 k = m k := by
          have hk' : k ≠ g.name := fun e => hk e.symm
          cases ht : g.ty <;> rw [ht] at e <;> simp only [assign] at e
          · rw [← Option.some.inj e]; simp [upd, hk']
          · cases hp : pi g.v with
            | none => rw [hp] at e; cases e
            | some n => rw [hp] at e; rw [← Option.some.inj e]; simp [upd, hk']
          · rw [← Option.some.inj e]; simp [upd, hk']
          · rw [← Option.some.inj e]; simp [upd, hk']
        rw [this]
        exact hm

theorem getBool_view {a : Args} {k : Txt} {b : Bool} (h : view a k = some (.bool, .bool b)) : a.getBool k = .ok b := by
  simp only [view] at h
  simp only [Args.getBool]
  cases e : get a.options k with
  | none => rw [e] at h; cases h
  | some tv =>
    obtain ⟨t, v⟩ := tv
    rw [e] at h
    simp only [Option.map_some, Option.some.injEq, Prod.mk.injEq] at h
    obtain ⟨rfl, h2⟩ := h
    cases v with
    | bool b' =>
      simp only [contents, DVal.bool.injEq] at h2
      rw [h2]
    | int n => simp [contents] at h2
    | str s => simp [contents] at h2
    | list r => simp [contents] at h2

/-- The parser on a line without command. -/
theorem parse_line {alnum : Nat → Bool} (h45 : alnum 45 = false) {p : Parser} (hb : Built alnum p) {heap : List (List Txt)}
    (ho : OwnLists p.opts heap) {is : List Item} {gs : List Given} {ws : List Txt}
    (h : MeansAll (optsH p) p.shorts p.cmds false is gs ws) (e : Option (List Txt)) (prog : Txt) :
    match assignAll pi (argDefs p.args (defaults (optsH p) heap (fun _ => none))) gs with
    | none => parse pi p heap (prog :: (line is ++ ending e)) = .error .argument
    | some m => ∃ a, view a = m ∧ Sep a ∧ a.cmd = none ∧
        parse pi p heap (prog :: (line is ++ ending e)) = (do
          let o := finish (optsH p) p.shorts p.args ⟨a, ws ++ e.getD [], p.cmds⟩
          checkHelp (get p.opts help).isNone o
          checkArgs o
          .ok (o.res, o.after)) := by
  have hok := optsH_ok (built_ok h45 hb) p.args p.cmds
  have sc := scan_line (pi := pi) hok (a := ⟨[], heap, none⟩) (sep_empty _ _) (ownH ho)
    (fun k t r hk => ⟨(ownH ho k t r hk).1, fun k' t' h' => by simp [get] at h'⟩) h e
  rw [view_empty] at sc
  simp only at sc
  have pe : parse pi p heap (prog :: (line is ++ ending e)) = (do
      let o ← consume pi (.mk (optsH p) p.shorts p.args p.cmds) (line is ++ ending e) ⟨[], heap, none⟩
      checkHelp (get p.opts help).isNone o
      checkArgs o
      .ok (o.res, o.after)) := by
    simp only [parse, withHelp_eq]
  rw [pe]
  cases ea : assignAll pi (argDefs p.args (defaults (optsH p) heap (fun _ => none))) gs with
  | none =>
    rw [ea] at sc
    simp only at sc ⊢
    rw [consume, sc]
    rfl
  | some m =>
    rw [ea] at sc
    obtain ⟨a, h1, h2, h3, sc⟩ := sc
    refine ⟨a, h1, h2, h3, ?_⟩
    rw [consume, sc]
    rfl

/-- What `help` is. -/
theorem help_flag {p : Parser} (hn : get p.opts help = none) (hg : ∀ g ∈ p.args, g.name ≠ help) {heap : List (List Txt)}
    {sel : Bool} {is : List Item} {gs : List Given} {ws : List Txt} (h : MeansAll (optsH p) p.shorts p.cmds sel is gs ws) {m : Env}
    (hm : assignAll pi (argDefs p.args (defaults (optsH p) heap (fun _ => none))) gs = some m) :
    ∃ b, m help = some (.bool, .bool b) := by
  have ho : get (optsH p) help = some ⟨.bool, some (.bool false)⟩ := by
    simp [optsH, hn, get_put_self]
  refine assignAll_flag help gs _ m ?_ ?_ hm
  · intro g hg' e
    obtain ⟨d, hd⟩ := means_typed h g hg'
    rw [e, ho] at hd
    simp only [Option.some.injEq, Spec.mk.injEq] at hd
    exact hd.1.symm
  · refine ⟨false, ?_⟩
    simp only [argDefs, defaults, ho]
    rw [if_neg]
    · rfl
    · rintro ⟨g, h1, h2, _⟩
      exact hg g h1 h2

end Verif.Argparse
