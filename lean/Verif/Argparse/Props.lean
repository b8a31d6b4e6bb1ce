import Verif.Argparse.Place
/-!
# C90, C91: what a command line means
-/
namespace Verif.Argparse

variable {pi : Txt → Option Int}

/-- The options before anything is given. -/
def start (p : Parser) (heap : List (List Txt)) : Env := argDefs p.args (defaults (optsH p) heap (fun _ => none))

theorem view_none (a : Args) (k : Txt) : view a k = none ↔ get a.options k = none := by
  simp only [view, Option.map_eq_none_iff]

/-- The end of `parse`, when no help is asked for. -/
theorem finish_plain {p : Parser} {a : Args} {m : Env} (ha : view a = m) (hs : Sep a) (words : List Txt)
    (hh : get p.opts help = none → (∀ g ∈ p.args, g.name ≠ help) ∧ m help = some (.bool, .bool false)) :
    (do
      let o := finish (optsH p) p.shorts p.args ⟨a, words, p.cmds⟩
      checkHelp (get p.opts help).isNone o
      checkArgs o
      Except.ok (o.res, o.after)) =
    if ∃ g ∈ (place words p.args a []).2.1, g.required = true ∧ get (place words p.args a []).1.options g.name = none then
      .error .argument
    else .ok ((place words p.args a []).1, .mk (optsH p) p.shorts (place words p.args a []).2.1 p.cmds) := by
  have hc : checkHelp (get p.opts help).isNone (finish (optsH p) p.shorts p.args ⟨a, words, p.cmds⟩) = .ok () := by
    simp only [checkHelp, finish]
    cases e : get p.opts help with
    | some _ => rfl
    | none =>
      obtain ⟨h1, h2⟩ := hh e
      have : view (place words p.args a []).1 help = some (.bool, .bool false) := by
        rw [(place_other help words p.args a [] h1 hs).1, ha, h2]
      simp only [Option.isNone_none, if_pos, getBool_view this]
      rfl
  simp only [hc]
  have hk : checkArgs (finish (optsH p) p.shorts p.args ⟨a, words, p.cmds⟩) =
      if ∃ g ∈ (place words p.args a []).2.1, g.required = true ∧ get (place words p.args a []).1.options g.name = none then
        .error .argument else .ok () := rfl
  rw [hk]
  by_cases hx : ∃ g ∈ (place words p.args a []).2.1, g.required = true ∧ get (place words p.args a []).1.options g.name = none
  · rw [if_pos hx, if_pos hx]
    rfl
  · rw [if_neg hx, if_neg hx]
    rfl

/-- **C90.** A command line that is made of well formed parts sets the options as they are given, in all spellings: the last value
counts, flags are set, lists are collected, the others keep their defaults; what is no number is rejected; `--help` gives
the usage. -/
theorem C90_options {alnum : Nat → Bool} (h45 : alnum 45 = false) {p : Parser} (hb : Built alnum p) {heap : List (List Txt)}
    (ho : OwnLists p.opts heap) {is : List Item} {gs : List Given} {ws : List Txt}
    (h : MeansAll (optsH p) p.shorts p.cmds false is gs ws) (e : Option (List Txt)) (prog : Txt) :
    match assignAll pi (start p heap) gs with
    | none => parse pi p heap (prog :: (line is ++ ending e)) = .error .argument
    | some m =>
      (get p.opts help = none → (∀ g ∈ p.args, g.name ≠ help) → m help = some (.bool, .bool true) →
        parse pi p heap (prog :: (line is ++ ending e)) = .error .usage) ∧
      (∀ a q, parse pi p heap (prog :: (line is ++ ending e)) = .ok (a, q) →
        ∀ k, (∀ g ∈ p.args, g.name ≠ k) → view a k = m k) ∧
      (p.args = [] → ¬ (get p.opts help = none ∧ m help = some (.bool, .bool true)) →
        ∃ a q, parse pi p heap (prog :: (line is ++ ending e)) = .ok (a, q) ∧ view a = m ∧ a.cmd = none) := by
  have pl := parse_line (pi := pi) h45 hb ho h e prog
  rw [start]
  cases ea : assignAll pi (argDefs p.args (defaults (optsH p) heap (fun _ => none))) gs with
  | none =>
    rw [ea] at pl
    exact pl
  | some m =>
    rw [ea] at pl
    obtain ⟨a, h1, h2, h3, pl⟩ := pl
    refine ⟨?_, ?_, ?_⟩
    · intro hn hg hm
      rw [pl]
      have : view (place (ws ++ e.getD []) p.args a []).1 help = some (.bool, .bool true) := by
        rw [(place_other help _ p.args a [] hg h2).1, h1, hm]
      have hc : checkHelp (get p.opts help).isNone (finish (optsH p) p.shorts p.args ⟨a, ws ++ e.getD [], p.cmds⟩) =
          .error .usage := by
        simp only [checkHelp, finish, hn, Option.isNone_none, if_pos, getBool_view this]
        rfl
      simp only [hc]
      rfl
    · intro a' q hp k hk
      rw [pl] at hp
      have e1 : a' = (place (ws ++ e.getD []) p.args a []).1 := by
        simp only at hp
        cases hc : checkHelp (get p.opts help).isNone (finish (optsH p) p.shorts p.args ⟨a, ws ++ e.getD [], p.cmds⟩) with
        | error x => rw [hc] at hp; cases hp
        | ok u =>
          rw [hc] at hp
          cases hc2 : checkArgs (finish (optsH p) p.shorts p.args ⟨a, ws ++ e.getD [], p.cmds⟩) with
          | error x => rw [hc2] at hp; cases hp
          | ok u =>
            rw [hc2] at hp
            cases hp
            rfl
      rw [e1, (place_other k _ p.args a [] hk h2).1, h1]
    · intro ha hm
      have hh : get p.opts help = none → (∀ g ∈ p.args, g.name ≠ help) ∧ m help = some (.bool, .bool false) := by
        intro hn
        have hg : ∀ g ∈ p.args, g.name ≠ help := by rw [ha]; intro g hg; simp at hg
        refine ⟨hg, ?_⟩
        obtain ⟨b, hb⟩ := help_flag hn hg h ea
        cases b with
        | false => exact hb
        | true => exact absurd ⟨hn, hb⟩ hm
      rw [pl, finish_plain h1 h2 _ hh, ha, place_left]
      rw [if_neg (by rintro ⟨g, hg, _⟩; simp at hg)]
      exact ⟨_, _, rfl, h1, h3⟩

/-- The methods of the result give the values. -/
theorem C90_getters (a : Args) (k : Txt) :
    (∀ b, a.getBool k = .ok b ↔ view a k = some (.bool, .bool b)) ∧
    (∀ n, a.getInt k = .ok n ↔ view a k = some (.int, .int n)) ∧
    (∀ s, a.getStr k = .ok s ↔ view a k = some (.str, .str s)) ∧
    (∀ l, a.getStrlist k = .ok l ↔ view a k = some (.strlist, .list l)) := by
  simp only [view, Args.getBool, Args.getInt, Args.getStr, Args.getStrlist]
  cases get a.options k with
  | none => refine ⟨?_, ?_, ?_, ?_⟩ <;> intro x <;> exact ⟨fun h => by simp at h, fun h => by simp at h⟩
  | some tv =>
    obtain ⟨t, v⟩ := tv
    cases t <;> cases v <;> simp [contents]

/-! ## Positional arguments -/

theorem assignAll_other (k : Txt) : ∀ (gs : List Given) (m m' : Env), (∀ g ∈ gs, g.name ≠ k) →
    assignAll pi m gs = some m' → m' k = m k
  | [], m, m', _, h => by
    simp only [assignAll, Option.some.injEq] at h
    rw [h]
  | g :: gs, m, m', hg, h => by
    simp only [assignAll] at h
    cases e : assign pi m g.name g.ty g.v with
    | none => rw [e] at h; cases h
    | some m1 =>
      rw [e] at h
      rw [assignAll_other k gs m1 m' (fun g' h' => hg g' (by simp [h'])) h]
      have hk' : k ≠ g.name := fun e => hg g (by simp) e.symm
      cases ht : g.ty <;> rw [ht] at e <;> simp only [assign] at e
      · rw [← Option.some.inj e]; simp [upd, hk']
      · cases hp : pi g.v with
        | none => rw [hp] at e; cases e
        | some n => rw [hp] at e; rw [← Option.some.inj e]; simp [upd, hk']
      · rw [← Option.some.inj e]; simp [upd, hk']
      · rw [← Option.some.inj e]; simp [upd, hk']

/-- The values of positional arguments before they are given. -/
theorem arg_start {p : Parser} {heap : List (List Txt)} {is : List Item} {gs : List Given} {ws : List Txt}
    (h : MeansAll (optsH p) p.shorts p.cmds false is gs ws) {m : Env} (hm : assignAll pi (start p heap) gs = some m)
    (hnames : (p.args.map Arg.name).Nodup) (hopt : ∀ g ∈ p.args, get (optsH p) g.name = none) {g : Arg} (hg : g ∈ p.args) :
    m g.name = if g.required = false ∧ g.nargs = .many then some (.strlist, .list []) else none := by
  rw [assignAll_other g.name gs _ m ?_ hm]
  · simp only [start, argDefs, defaults, hopt g hg]
    by_cases hr : g.required = false ∧ g.nargs = .many
    · rw [if_pos hr, if_pos ⟨g, hg, rfl, hr⟩]
    · rw [if_neg hr, if_neg]
      rintro ⟨g', hg', e, hr'⟩
      have : g' = g := name_inj hnames hg hg' e
      exact hr (this ▸ hr')
  · intro x hx e
    obtain ⟨d, hd⟩ := means_typed h x hx
    rw [e, hopt g hg] at hd
    cases hd

theorem optsH_help (p : Parser) : get (optsH p) help ≠ none := by
  simp only [optsH]
  cases e : get p.opts help with
  | some _ => simp [e]
  | none => simp [get_put_self]

/-- The result of `parse` in terms of the options and the other arguments. -/
theorem parse_place {alnum : Nat → Bool} (h45 : alnum 45 = false) {p : Parser} (hb : Built alnum p) {heap : List (List Txt)}
    (ho : OwnLists p.opts heap) {is : List Item} {gs : List Given} {ws : List Txt}
    (h : MeansAll (optsH p) p.shorts p.cmds false is gs ws) (e : Option (List Txt)) (prog : Txt)
    (hopt : ∀ g ∈ p.args, get (optsH p) g.name = none) {m : Env} (hm : assignAll pi (start p heap) gs = some m)
    (hhelp : ¬ (get p.opts help = none ∧ m help = some (.bool, .bool true))) :
    ∃ a, view a = m ∧ Sep a ∧ parse pi p heap (prog :: (line is ++ ending e)) =
      if ∃ g ∈ (place (ws ++ e.getD []) p.args a []).2.1,
          g.required = true ∧ get (place (ws ++ e.getD []) p.args a []).1.options g.name = none then .error .argument
      else .ok ((place (ws ++ e.getD []) p.args a []).1,
        .mk (optsH p) p.shorts (place (ws ++ e.getD []) p.args a []).2.1 p.cmds) := by
  have pl := parse_line (pi := pi) h45 hb ho h e prog
  rw [start] at hm
  rw [hm] at pl
  obtain ⟨a, h1, h2, _, pl⟩ := pl
  refine ⟨a, h1, h2, ?_⟩
  rw [pl, finish_plain h1 h2]
  intro hn
  have hg : ∀ g ∈ p.args, g.name ≠ help := fun g hg e => optsH_help p (e ▸ hopt g hg)
  refine ⟨hg, ?_⟩
  obtain ⟨b, hb⟩ := help_flag hn hg h hm
  cases b with
  | false => exact hb
  | true => exact absurd ⟨hn, hb⟩ hhelp

/-- **C91.** Arguments that are no options, when every positional argument takes one value: they are taken in order; it is
an error if a required one gets none. -/
theorem C91_singles {alnum : Nat → Bool} (h45 : alnum 45 = false) {p : Parser} (hb : Built alnum p) {heap : List (List Txt)}
    (ho : OwnLists p.opts heap) {is : List Item} {gs : List Given} {ws : List Txt}
    (h : MeansAll (optsH p) p.shorts p.cmds false is gs ws) (e : Option (List Txt)) (prog : Txt)
    (hopt : ∀ g ∈ p.args, get (optsH p) g.name = none) (hnames : (p.args.map Arg.name).Nodup) {m : Env}
    (hm : assignAll pi (start p heap) gs = some m)
    (hhelp : ¬ (get p.opts help = none ∧ m help = some (.bool, .bool true))) (hone : ∀ g ∈ p.args, g.nargs = .one)
    (words : List Txt) (hw : words = ws ++ e.getD []) :
    ((∃ g ∈ p.args.drop words.length, g.required = true) →
      parse pi p heap (prog :: (line is ++ ending e)) = .error .argument) ∧
    ((∀ g ∈ p.args.drop words.length, g.required = false) →
      ∃ a q, parse pi p heap (prog :: (line is ++ ending e)) = .ok (a, q) ∧
        (∀ (i : Nat) g w, p.args[i]? = some g → words[i]? = some w → view a g.name = some (.str, .str w)) ∧
        (∀ g ∈ p.args.drop words.length, view a g.name = none) ∧
        ∀ k, (∀ g ∈ p.args, g.name ≠ k) → view a k = m k) := by
  obtain ⟨a, h1, h2, pp⟩ := parse_place h45 hb ho h e prog hopt hm hhelp
  rw [← hw] at pp
  -- the arguments that get a value, and the words taken
  obtain ⟨b, nb, eb, lb⟩ : ∃ b, Next a b (ones m p.args words) ∧ (place words p.args a []).1 = b ∧
      (place words p.args a []).2.1 = p.args.drop words.length := by
    by_cases hl : words.length ≤ p.args.length
    · obtain ⟨b, n, pe⟩ := place_ones (p.args.take words.length) (p.args.drop words.length) words [] a []
        (fun g hg => hone g (List.mem_of_mem_take hg)) (by simp [hl]) h2
      rw [List.take_append_drop, List.append_nil] at pe
      have eo : ones (view a) (p.args.take words.length) words = ones m p.args words := by
        rw [h1, ones_args]
      rw [eo] at n
      refine ⟨b, n, ?_⟩
      rw [pe]
      simp [place]
    · have hl : p.args.length ≤ words.length := by omega
      obtain ⟨b, n, pe⟩ := place_ones p.args [] (words.take p.args.length) (words.drop p.args.length) a []
        hone (by simp [hl]) h2
      rw [List.take_append_drop, List.append_nil] at pe
      rw [ones_words, h1] at n
      refine ⟨b, n, ?_⟩
      rw [pe, place_left]
      simp [hl]
  have hdrop : ∀ g ∈ p.args.drop words.length, view b g.name = none := by
    intro g hg
    have hga := List.mem_of_mem_drop hg
    rw [nb.view, ones_other]
    · rw [arg_start h hm hnames hopt hga, if_neg]
      rw [hone g hga]
      simp
    · intro g' hg' en
      have hsplit := hnames
      rw [← List.take_append_drop words.length p.args, List.map_append, List.nodup_append] at hsplit
      exact hsplit.2.2 _ (List.mem_map_of_mem hg') _ (List.mem_map_of_mem hg) en
  rw [pp, eb, lb]
  constructor
  · rintro ⟨g, hg, hr⟩
    rw [if_pos ⟨g, hg, hr, (view_none b g.name).1 (hdrop g hg)⟩]
  · intro hr
    rw [if_neg (by rintro ⟨g, hg, hr', _⟩; rw [hr g hg] at hr'; cases hr')]
    refine ⟨b, _, rfl, ?_, hdrop, ?_⟩
    · intro i g w hi hw
      rw [nb.view]
      exact ones_nth _ _ _ i g w hnames hi hw
    · intro k hk
      rw [nb.view]
      exact ones_other _ _ _ _ (fun g hg => hk g (List.mem_of_mem_take hg))

/-- **C91.** With one positional argument that takes several values: those before it take the first arguments, those after it
the last ones, it takes all in between. -/
theorem C91_many {alnum : Nat → Bool} (h45 : alnum 45 = false) {p : Parser} (hb : Built alnum p) {heap : List (List Txt)}
    (ho : OwnLists p.opts heap) {is : List Item} {gs : List Given} {ws : List Txt}
    (h : MeansAll (optsH p) p.shorts p.cmds false is gs ws) (e : Option (List Txt)) (prog : Txt)
    (hopt : ∀ g ∈ p.args, get (optsH p) g.name = none) (hnames : (p.args.map Arg.name).Nodup) {m : Env}
    (hm : assignAll pi (start p heap) gs = some m)
    (hhelp : ¬ (get p.opts help = none ∧ m help = some (.bool, .bool true)))
    {pre post : List Arg} {g : Arg} (hargs : p.args = pre ++ g :: post) (hg : g.nargs = .many)
    (hpre : ∀ g ∈ pre, g.nargs = .one) (hpost : ∀ g ∈ post, g.nargs = .one)
    {xs ys zs : List Txt} (hw : ws ++ e.getD [] = xs ++ ys ++ zs) (hxs : xs.length = pre.length) (hys : ys ≠ [])
    (hzs : zs.length = post.length) :
    ∃ a q, parse pi p heap (prog :: (line is ++ ending e)) = .ok (a, q) ∧
      (∀ (i : Nat) g w, pre[i]? = some g → xs[i]? = some w → view a g.name = some (.str, .str w)) ∧
      view a g.name = some (.strlist, .list ys) ∧
      (∀ (i : Nat) g w, post[i]? = some g → zs[i]? = some w → view a g.name = some (.str, .str w)) ∧
      ∀ k, (∀ g ∈ p.args, g.name ≠ k) → view a k = m k := by
  obtain ⟨a, h1, h2, pp⟩ := parse_place h45 hb ho h e prog hopt hm hhelp
  have mg := arg_start h hm hnames hopt (g := g) (by rw [hargs]; simp)
  rw [hargs] at hnames
  rw [List.map_append, List.map_cons, List.nodup_append, List.nodup_cons] at hnames
  obtain ⟨n1, ⟨n2, n3⟩, n4⟩ := hnames
  obtain ⟨a1, x1, e1⟩ := place_ones pre (g :: post) xs (ys ++ zs) a [] hpre hxs h2
  obtain ⟨a2, x2, e2⟩ := place_many g post hg ys zs a1 [] hys hzs x1.sep
  obtain ⟨a3, x3, e3⟩ := place_ones post [] zs [] a2 [] hpost hzs x2.sep
  have pe : place (ws ++ e.getD []) p.args a [] = (a3, [], []) := by
    rw [hw, hargs, List.append_assoc, e1, e2]
    rw [List.append_nil, List.append_nil] at e3
    rw [e3]
    simp [place]
  rw [pe] at pp
  rw [if_neg (by rintro ⟨g, hg, _⟩; simp at hg)] at pp
  have hs : sofar (view a1) g.name = [] := by
    have : view a1 g.name = if g.required = false ∧ g.nargs = .many then some (.strlist, .list []) else none := by
      rw [x1.view, ones_other, h1, mg]
      intro g' hg' en
      exact n4 _ (List.mem_map_of_mem (List.mem_of_mem_take hg')) g.name (by simp) en
    simp only [sofar, this]
    split
    · rename_i hh
      split at hh
      · simp only [Option.some.injEq, Prod.mk.injEq, DVal.list.injEq] at hh
        exact hh.2.symm
      · cases hh
    · rfl
  rw [hs, List.nil_append] at x2
  refine ⟨a3, _, pp, ?_, ?_, ?_, ?_⟩
  · intro i g' w hi hw'
    have hm' : g' ∈ pre := List.mem_of_getElem? hi
    rw [x3.view, ones_other, x2.view, upd, if_neg, x1.view]
    · exact ones_nth _ _ _ i g' w n1 hi hw'
    · intro en
      exact n4 _ (List.mem_map_of_mem hm') g.name (by simp) en
    · intro g2 hg2 en
      exact n4 _ (List.mem_map_of_mem hm') _ (List.mem_cons_of_mem _ (List.mem_map_of_mem (List.mem_of_mem_take hg2))) en.symm
  · rw [x3.view, ones_other, x2.view, upd, if_pos rfl]
    intro g2 hg2 en
    exact n2 (en ▸ List.mem_map_of_mem (List.mem_of_mem_take hg2))
  · intro i g' w hi hw'
    rw [x3.view]
    exact ones_nth _ _ _ i g' w n3 hi hw'
  · intro k hk
    rw [hargs] at hk
    rw [x3.view, ones_other, x2.view, upd, if_neg, x1.view, ones_other, h1]
    · intro g2 hg2
      exact hk g2 (by simp [List.mem_of_mem_take hg2])
    · exact fun en => hk g (by simp) en.symm
    · intro g2 hg2
      exact hk g2 (by simp [List.mem_of_mem_take hg2])

/-- **C91.** Too few arguments: those before the one that takes several come first, then that one. It is an error if a required
one gets nothing. -/
theorem C91_few {alnum : Nat → Bool} (h45 : alnum 45 = false) {p : Parser} (hb : Built alnum p) {heap : List (List Txt)}
    (ho : OwnLists p.opts heap) {is : List Item} {gs : List Given} {ws : List Txt}
    (h : MeansAll (optsH p) p.shorts p.cmds false is gs ws) (e : Option (List Txt)) (prog : Txt)
    (hopt : ∀ g ∈ p.args, get (optsH p) g.name = none) (hnames : (p.args.map Arg.name).Nodup) {m : Env}
    (hm : assignAll pi (start p heap) gs = some m)
    (hhelp : ¬ (get p.opts help = none ∧ m help = some (.bool, .bool true)))
    {pre post : List Arg} {g : Arg} (hargs : p.args = pre ++ g :: post) (hg : g.nargs = .many)
    (hpre : ∀ g ∈ pre, g.nargs = .one) (hpost : ∀ g ∈ post, g.nargs = .one) (words : List Txt) (hw : words = ws ++ e.getD [])
    (hfew : words.length < pre.length + 1 + post.length) (unset : List Arg)
    (hun : unset = if words.length ≤ pre.length then p.args.drop words.length else post) :
    ((∃ g ∈ unset, g.required = true) → parse pi p heap (prog :: (line is ++ ending e)) = .error .argument) ∧
    ((∀ g ∈ unset, g.required = false) →
      ∃ a q, parse pi p heap (prog :: (line is ++ ending e)) = .ok (a, q) ∧
        (∀ (i : Nat) g w, pre[i]? = some g → words[i]? = some w → view a g.name = some (.str, .str w)) ∧
        (pre.length < words.length → view a g.name = some (.strlist, .list (words.drop pre.length))) ∧
        (∀ g ∈ unset, view a g.name = m g.name) ∧
        ∀ k, (∀ g ∈ p.args, g.name ≠ k) → view a k = m k) := by
  obtain ⟨a, h1, h2, pp⟩ := parse_place h45 hb ho h e prog hopt hm hhelp
  have ms : ∀ g' ∈ p.args, g'.required = true → m g'.name = none := by
    intro g' hg' hr
    rw [arg_start h hm hnames hopt hg', if_neg (by rw [hr]; simp)]
  have mg := arg_start h hm hnames hopt (g := g) (by rw [hargs]; simp)
  have hn0 := hnames
  rw [hargs, List.map_append, List.map_cons, List.nodup_append, List.nodup_cons] at hnames
  obtain ⟨n1, ⟨n2, n3⟩, n4⟩ := hnames
  rw [← hw] at pp
  by_cases hle : words.length ≤ pre.length
  · rw [if_pos hle] at hun
    obtain ⟨a1, x1, e1⟩ := place_ones (pre.take words.length) (p.args.drop words.length) words [] a []
      (fun g hg => hpre g (List.mem_of_mem_take hg)) (by simp [hle]) h2
    have es : pre.take words.length ++ p.args.drop words.length = p.args := by
      rw [hargs, List.drop_append_of_le_length hle, ← List.append_assoc, List.take_append_drop]
    have pe : place words p.args a [] = (a1, unset, []) := by
      rw [List.append_nil, es] at e1
      rw [e1, hun]
      simp [place]
    rw [h1, ones_args] at x1
    have keep : ∀ g' ∈ unset, view a1 g'.name = m g'.name := by
      intro g' hg'
      rw [x1.view, ones_other]
      intro g2 hg2 en
      rw [hun] at hg'
      rw [← es, List.map_append, List.nodup_append] at hn0
      exact hn0.2.2 _ (List.mem_map_of_mem hg2) _ (List.mem_map_of_mem hg') en
    have hsub : ∀ g' ∈ unset, g' ∈ p.args := by
      intro g' hg'
      rw [hun] at hg'
      exact List.mem_of_mem_drop hg'
    rw [pp, pe]
    constructor
    · rintro ⟨g', hg', hr⟩
      rw [if_pos ⟨g', hg', hr, (view_none _ _).1 ((keep g' hg').trans (ms g' (hsub g' hg') hr))⟩]
    · intro hr
      rw [if_neg (by rintro ⟨g', hg', hr', _⟩; rw [hr g' hg'] at hr'; cases hr')]
      refine ⟨a1, _, rfl, ?_, fun hlt => absurd hlt (by omega), keep, ?_⟩
      · intro i g' w hi hw'
        rw [x1.view]
        exact ones_nth _ _ _ i g' w n1 hi hw'
      · intro k hk
        rw [x1.view]
        rw [hargs] at hk
        exact ones_other _ _ _ _ (fun g2 hg2 => hk g2 (by simp [List.mem_of_mem_take hg2]))
  · rw [if_neg hle] at hun
    subst hun
    obtain ⟨a1, x1, e1⟩ := place_ones pre (g :: unset) (words.take pre.length) (words.drop pre.length) a [] hpre
      (by simp; omega) h2
    obtain ⟨a2, x2, e2⟩ := place_few g unset hg (words.drop pre.length) a1 []
      (by intro hd; have := congrArg List.length hd; simp at this; omega) (by simp; omega) x1.sep
    rw [ones_words, h1] at x1
    have pe : place words p.args a [] = (a2, g :: unset, []) := by
      rw [List.take_append_drop, ← hargs] at e1
      rw [e1, e2]
    have hs : sofar (view a1) g.name = [] := by
      have : view a1 g.name = if g.required = false ∧ g.nargs = .many then some (.strlist, .list []) else none := by
        rw [x1.view, ones_other, mg]
        intro g' hg' en
        exact n4 _ (List.mem_map_of_mem (List.mem_of_mem_take hg')) g.name (by simp) en
      simp only [sofar, this]
      split
      · rename_i hh
        split at hh
        · simp only [Option.some.injEq, Prod.mk.injEq, DVal.list.injEq] at hh
          exact hh.2.symm
        · cases hh
      · rfl
    rw [hs, List.nil_append] at x2
    have gset : view a2 g.name = some (.strlist, .list (words.drop pre.length)) := by
      rw [x2.view, upd, if_pos rfl]
    have keep : ∀ g' ∈ unset, view a2 g'.name = m g'.name := by
      intro g' hg'
      rw [x2.view, upd, if_neg, x1.view, ones_other]
      · intro g2 hg2 en
        exact n4 _ (List.mem_map_of_mem (List.mem_of_mem_take hg2)) _ (List.mem_cons_of_mem _ (List.mem_map_of_mem hg')) en
      · intro en
        exact n2 (en ▸ List.mem_map_of_mem hg')
    rw [pp, pe]
    constructor
    · rintro ⟨g', hg', hr⟩
      rw [if_pos ⟨g', by simp [hg'], hr, (view_none _ _).1 ((keep g' hg').trans (ms g' (by rw [hargs]; simp [hg']) hr))⟩]
    · intro hr
      rw [if_neg]
      · refine ⟨a2, _, rfl, ?_, fun _ => gset, keep, ?_⟩
        · intro i g' w hi hw'
          rw [x2.view, upd, if_neg, x1.view]
          · exact ones_nth _ _ _ i g' w n1 hi hw'
          · intro en
            exact n4 _ (List.mem_map_of_mem (List.mem_of_getElem? hi)) g.name (by simp) en
        · intro k hk
          rw [hargs] at hk
          rw [x2.view, upd, if_neg, x1.view, ones_other]
          · intro g2 hg2
            exact hk g2 (by simp [List.mem_of_mem_take hg2])
          · exact fun en => hk g (by simp) en.symm
      · rintro ⟨g', hg', hr', hn'⟩
        rcases List.mem_cons.1 hg' with rfl | hg'
        · rw [← view_none, gset] at hn'
          cases hn'
        · rw [hr g' hg'] at hr'
          cases hr'

/-- **C91.** Whatever the command line, if parsing succeeds then every required positional argument of the parser has a value. -/
theorem C91_required {p : Parser} {heap : List (List Txt)} {argv : List Txt} {a : Args} {q : Parser}
    (h : parse pi p heap argv = .ok (a, q)) : ∀ g ∈ p.args, g.required = true → view a g.name ≠ none := by
  cases argv with
  | nil => cases h
  | cons prog argv =>
    simp only [parse, withHelp_eq] at h
    cases hc : consume pi (.mk (optsH p) p.shorts p.args p.cmds) argv ⟨[], heap, none⟩ with
    | error x => rw [hc] at h; cases h
    | ok o =>
      rw [hc] at h
      have h : (do
          checkHelp (get p.opts help).isNone o
          checkArgs o
          Except.ok (o.res, o.after)) = .ok (a, q) := h
      cases hk : checkHelp (get p.opts help).isNone o with
      | error x => rw [hk] at h; cases h
      | ok u =>
        rw [hk] at h
        have h : (do checkArgs o; Except.ok (o.res, o.after)) = .ok (a, q) := h
        by_cases hx : ∃ g ∈ o.after.args, g.required = true ∧ get o.res.options g.name = none
        · rw [checkArgs, if_pos hx] at h
          cases h
        · rw [checkArgs, if_neg hx] at h
          have h : Except.ok (o.res, o.after) = (.ok (a, q) : Except Err _) := h
          cases h
          have ho : ∃ c, o = finish (optsH p) p.shorts p.args c := by
            rw [consume] at hc
            cases hs : scan pi (optsH p) p.shorts p.args p.cmds argv ⟨[], heap, none⟩ with
            | error x => rw [hs] at hc; cases hc
            | ok s =>
              rw [hs] at hc
              simp only at hc
              cases hsel : s.sel with
              | none =>
                rw [hsel] at hc
                cases hc
                exact ⟨_, rfl⟩
              | some n =>
                rw [hsel] at hc
                simp only at hc
                cases hr : runCmd pi p.cmds n s.rest s.res with
                | error x => rw [hr] at hc; cases hc
                | ok c =>
                  rw [hr] at hc
                  cases hc
                  exact ⟨_, rfl⟩
          obtain ⟨c, rfl⟩ := ho
          intro g hg hr hn
          rw [view_none] at hn
          rcases (place_bound c.rest p.args c.res []).2 g hg with hl | hb
          · exact hx ⟨g, hl, hr, hn⟩
          · exact hb hn

end Verif.Argparse
