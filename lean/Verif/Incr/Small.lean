import Mathlib.Data.List.Sort
import Verif.Incr.Again

/-!
# A small language with imports

Modules with definitions that mention names, and the three forms of imports.  The names in scope are
found as in `Env.hs`: `getImps` (lines 1353-1355) adds the imports in order, `importSome` (1425-1430)
stops if a name is not there, `importAll` (1432-1433) adds all names but extensions, later ones hide
earlier ones; definitions of the module hide imported names.  Extensions are found by the solver
among all modules that are imported, not by name (`wit`).

Modules and names are numbers.  Names from 10 on are derived (`Derived` in `Syntax.hs`), such as
those of extensions (`extensionName`, `Names.hs` lines 78-85); names from 100 on are not public.
-/

namespace Verif.Incr.Small

/-- Hashes without collisions. -/
inductive H where
  | nil
  | leaf (n : Nat)
  | cons (a b : H)
deriving DecidableEq

def enc : List H → H
  | [] => .nil
  | h :: l => .cons h (enc l)

theorem enc_inj : ∀ {l l' : List H}, enc l = enc l' → l = l'
  | [], [], _ => rfl
  | [], _ :: _, h => by cases h
  | _ :: _, [], h => by cases h
  | a :: l, b :: l', h => by
      simp only [enc, H.cons.injEq] at h
      rw [h.1, enc_inj h.2]

inductive Imp where
  | mod (m : Nat)
  | pick (m n : Nat)
  | all (m : Nat)
deriving DecidableEq

def Imp.of : Imp → Nat
  | .mod m => m
  | .pick m _ => m
  | .all m => m

inductive Ref where
  | plain (n : Nat)
  | qual (m n : Nat)
  | wit (n : Nat)
deriving DecidableEq

structure Def where
  name : Nat
  sig : Nat
  body : Nat
  refs : List Ref
deriving DecidableEq

structure Src where
  imps : List Imp
  defs : List Def
deriving DecidableEq

inductive Tgt where
  | here (n : Nat)
  | there (m n : Nat)
deriving DecidableEq

abbrev Env := Nat → Option (Nat → Option H)

def derived (n : Nat) : Bool := decide (10 ≤ n)

/-- The interface of a name of another module. -/
def face (env : Env) (d : Nat × Nat) : Option H := (env d.1).bind (fun f => f d.2)

/-- The module from which an import brings a name. -/
def provides (env : Env) (n : Nat) : Imp → Option Nat
  | .mod _ => none
  | .pick m k => if k = n then some m else none
  | .all m => if derived n then none else if (face env (m, n)).isSome then some m else none

/-- A name of another module, if it is there. -/
def there (env : Env) (m n : Nat) : Option Tgt :=
  if (face env (m, n)).isSome then some (.there m n) else none

/-- What a mention of a name means. -/
def target (env : Env) (s : Src) : Ref → Option Tgt
  | .plain n =>
      if n ∈ s.defs.map Def.name then some (.here n)
      else
        match s.imps.reverse.findSome? (provides env n) with
        | some m => there env m n
        | none => none
  | .qual m n => if Imp.mod m ∈ s.imps then there env m n else none
  | .wit n => (s.imps.map Imp.of).findSome? (fun m => there env m n)

def targets (env : Env) (s : Src) : List Ref → Option (List Tgt)
  | [] => some []
  | r :: rs =>
      match target env s r, targets env s rs with
      | some t, some ts => some (t :: ts)
      | _, _ => none

def Tgt.local? : Tgt → Option Nat
  | .here n => some n
  | .there _ _ => none

def Tgt.ext? : Tgt → Option (Nat × Nat)
  | .here _ => none
  | .there m n => some (m, n)

/-- The typed item holds the interfaces of what it mentions. -/
def Tgt.face (env : Env) : Tgt → Option H
  | .here _ => none
  | .there m n => Small.face env (m, n)

structure Item where
  name : Nat
  body : Nat
  uses : List (Tgt × Option H)
deriving DecidableEq

def item (env : Env) (d : Def) (ts : List Tgt) : Item :=
  ⟨d.name, d.body, ts.map (fun t => (t, t.face env))⟩

/-- The signature mentions no names. -/
def entry (d : Def) (ts : List Tgt) : Entry Nat Nat H where
  name := d.name
  self := .leaf d.sig
  sigLocals := []
  sigExt := []
  impl := some
    { own := .cons (.leaf d.sig) (.leaf d.body)
      locals := (ts.filterMap Tgt.local?).dedup.insertionSort (· ≤ ·)
      ext := (ts.filterMap Tgt.ext?).dedup }

def elabs (env : Env) (s : Src) : List Def → Option (List (Entry Nat Nat H × Item))
  | [] => some []
  | d :: ds =>
      match targets env s d.refs, elabs env s ds with
      | some ts, some l => some ((entry d ts, item env d ts) :: l)
      | _, _ => none

/-- `noItem`. -/
def picked (env : Env) : Imp → Bool
  | .pick m n => (face env (m, n)).isSome
  | _ => true

def front (s : Src) (env : Env) : Option (Typed Nat Nat H (List Item)) :=
  if s.imps.all (picked env) && decide (s.defs.map Def.name).Nodup then
    (elabs env s s.defs).map (fun l => { entries := l.map Prod.fst, content := l.map Prod.snd })
  else none

/-- The hash of a name: of its own hash, those of the names of the module that it mentions, to some
depth, and those of names of other modules. -/
def fin (self : Nat → Option H) (loc : Nat → List Nat) (ext : Nat → List ((Nat × Nat) × H)) :
    Nat → Nat → Option H
  | 0, n => self n
  | k + 1, n => (self n).map (fun h => .cons h (.cons
      (enc ((loc n).map (fun l => (fin self loc ext k l).getD .nil)))
      (enc ((ext n).map (fun x => .cons (.leaf x.1.1) (.cons (.leaf x.1.2) x.2))))))

def pair (x : Nat × Option H) : H :=
  .cons (.leaf x.1) (match x.2 with | some h => .cons .nil h | none => .nil)

theorem pair_inj : ∀ x y, pair x = pair y → x = y := by
  rintro ⟨a, x⟩ ⟨b, y⟩ h
  simp only [pair, H.cons.injEq, H.leaf.injEq] at h
  obtain ⟨rfl, h⟩ := h
  cases x <;> cases y <;> simp_all

/-- The key of names from 10 on comes between those of the others, as with `OrdD_Foo` and `zeta`. -/
def nameKey (n : Nat) : Nat := if 10 ≤ n then 2 * (n - 10) + 1 else 2 * n

def sortKey (l : List Nat) : List Nat := l.insertionSort (fun a b => nameKey a ≤ nameKey b)

/-- The compiler of this language. -/
def compiler (front : Src → Env → Option (Typed Nat Nat H (List Item)))
    (key : List Nat → List Nat) : Compiler Nat Nat H Src (List Item) where
  final self loc ext := fin self loc ext 4
  whole i l := .cons (.leaf i) (enc (l.map pair))
  key := key
  isPub n := decide (n < 100)
  derived := derived
  imps s := s.imps.map Imp.of
  front := front

/-- Sources for which incremental builds are right: names are imported one by one and mentioned, and
no extensions of other modules are used. -/
def Ref.simple (s : Src) : Ref → Bool
  | .plain n => decide (n < 10) || decide (n ∈ s.defs.map Def.name)
  | .qual _ n => decide (n < 10)
  | .wit _ => false

def Imp.simple (s : Src) : Imp → Bool
  | .mod _ => true
  | .pick m n => decide (n ∉ s.defs.map Def.name) &&
      decide (s.imps.reverse.findSome? (provides (fun _ => none) n) = some m) &&
      s.defs.any (fun d => decide (Ref.plain n ∈ d.refs))
  | .all _ => false

def simple (s : Src) : Bool :=
  s.imps.all (Imp.simple s) && s.defs.all (fun d => d.refs.all (Ref.simple s))

def simpleFront (s : Src) (env : Env) : Option (Typed Nat Nat H (List Item)) :=
  if simple s then front s env else none

/-! ## The laws -/

theorem ideal (f) (key) : Ideal (compiler f key) := by
  constructor <;>
  · intro l l' h
    simp only [compiler, H.cons.injEq, true_and] at h
    exact List.map_injective_iff.2 (fun x y => pair_inj x y) (enc_inj h)

theorem domain (f) (key) : Domain (compiler f key) := by
  intro self loc ext n h
  simp [compiler, fin, h]

theorem elabs_fst {env : Env} {s : Src} : ∀ {ds : List Def} {l}, elabs env s ds = some l →
    ∀ x ∈ l, ∃ d ∈ ds, ∃ ts, targets env s d.refs = some ts ∧ x = (entry d ts, item env d ts)
  | [], l, h, x, hx => by simp only [elabs, Option.some.injEq] at h; subst h; cases hx
  | d :: ds, l, h, x, hx => by
      simp only [elabs] at h
      cases h1 : targets env s d.refs with
      | none => simp [h1] at h
      | some ts =>
          cases h2 : elabs env s ds with
          | none => simp [h1, h2] at h
          | some l' =>
              simp only [h1, h2, Option.some.injEq] at h
              subst h
              rcases List.mem_cons.1 hx with rfl | hx
              · exact ⟨d, by simp, ts, h1, rfl⟩
              · obtain ⟨d', hd, r⟩ := elabs_fst h2 x hx
                exact ⟨d', by simp [hd], r⟩

theorem elabs_all {env : Env} {s : Src} : ∀ {ds : List Def} {l}, elabs env s ds = some l →
    ∀ d ∈ ds, ∃ ts, targets env s d.refs = some ts ∧ (entry d ts, item env d ts) ∈ l
  | [], _, _, d, hd => by cases hd
  | d :: ds, l, h, d', hd' => by
      simp only [elabs] at h
      cases h1 : targets env s d.refs with
      | none => simp [h1] at h
      | some ts =>
          cases h2 : elabs env s ds with
          | none => simp [h1, h2] at h
          | some l' =>
              simp only [h1, h2, Option.some.injEq] at h
              subst h
              rcases List.mem_cons.1 hd' with rfl | hd'
              · exact ⟨ts, h1, by simp⟩
              · obtain ⟨ts', e1, e2⟩ := elabs_all h2 d' hd'
                exact ⟨ts', e1, by simp [e2]⟩

theorem elabs_names {env : Env} {s : Src} : ∀ {ds : List Def} {l}, elabs env s ds = some l →
    (l.map Prod.fst).map Entry.name = ds.map Def.name
  | [], l, h => by simp only [elabs, Option.some.injEq] at h; subst h; rfl
  | d :: ds, l, h => by
      simp only [elabs] at h
      cases h1 : targets env s d.refs with
      | none => simp [h1] at h
      | some ts =>
          cases h2 : elabs env s ds with
          | none => simp [h1, h2] at h
          | some l' =>
              simp only [h1, h2, Option.some.injEq] at h
              subst h
              simp only [List.map_cons, elabs_names h2, entry]

theorem front_some {s : Src} {env : Env} {t : Typed Nat Nat H (List Item)}
    (h : front s env = some t) : s.imps.all (picked env) = true ∧
      (s.defs.map Def.name).Nodup ∧ ∃ l, elabs env s s.defs = some l ∧
        t = { entries := l.map Prod.fst, content := l.map Prod.snd } := by
  simp only [front] at h
  split at h
  · rename_i hc
    simp only [Bool.and_eq_true, decide_eq_true_eq] at hc
    simp only [Option.map_eq_some_iff] at h
    obtain ⟨l, h1, h2⟩ := h
    exact ⟨hc.1, hc.2, l, h1, h2.symm⟩
  · cases h

theorem simpleFront_some {s : Src} {env : Env} {t : Typed Nat Nat H (List Item)}
    (h : simpleFront s env = some t) : simple s = true ∧ front s env = some t := by
  simp only [simpleFront] at h
  split at h
  · exact ⟨by assumption, h⟩
  · cases h

theorem distinct (key) : Distinct (compiler simpleFront key) := by
  intro s env t h
  obtain ⟨-, h⟩ := simpleFront_some h
  obtain ⟨-, hn, l, hl, rfl⟩ := front_some h
  simp only [elabs_names hl]
  exact hn

theorem keyed (f) : Keyed (compiler f id) := fun _ _ _ _ _ _ => rfl

theorem there_some {env : Env} {m n : Nat} {t : Tgt} (h : there env m n = some t) :
    t = .there m n ∧ (face env (m, n)).isSome := by
  simp only [there] at h
  split at h
  · rename_i hf
    simp only [Option.some.injEq] at h
    exact ⟨h.symm, hf⟩
  · cases h

theorem there_congr {env env' : Env} {m n : Nat} {t : Tgt} (h : there env m n = some t)
    (he : face env' (m, n) = face env (m, n)) : there env' m n = some t := by
  simp only [there, he] at h ⊢
  exact h

theorem provides_simple {s : Src} (hs : s.imps.all (Imp.simple s) = true) (env env' : Env) (n : Nat) :
    ∀ l : List Imp, (∀ i ∈ l, i ∈ s.imps) →
      l.findSome? (provides env n) = l.findSome? (provides env' n)
  | [], _ => rfl
  | i :: l, h => by
      have ih := provides_simple hs env env' n l fun j hj => h j (by simp [hj])
      have hi := List.all_eq_true.1 hs i (h i (by simp))
      cases i with
      | mod m => simp only [List.findSome?_cons, provides, ih]
      | pick m k => simp only [List.findSome?_cons, provides, ih]
      | all m => simp [Imp.simple] at hi

/-- A target in another module is not derived, and stays if the interface does. -/
theorem target_simple {s : Src} (hs : simple s = true) {env env' : Env} {r : Ref}
    (hr : Ref.simple s r = true) {t : Tgt} (h : target env s r = some t)
    (hf : ∀ d, t.ext? = some d → derived d.2 = false → face env' d = face env d) :
    target env' s r = some t := by
  simp only [simple, Bool.and_eq_true] at hs
  cases r with
  | wit n => simp [Ref.simple] at hr
  | qual m n =>
      simp only [Ref.simple, decide_eq_true_eq] at hr
      simp only [target] at h ⊢
      split at h
      · rename_i hm
        rw [if_pos hm]
        have := (there_some h).1
        exact there_congr h (hf (m, n) (by rw [this]; rfl) (by simp [derived]; omega))
      · cases h
  | plain n =>
      simp only [target] at h ⊢
      split at h
      · rename_i hn
        rw [if_pos hn]; exact h
      · rename_i hn
        rw [if_neg hn]
        have hlt : n < 10 := by simpa [Ref.simple, hn] using hr
        rw [← provides_simple hs.1 env env' n _ (fun i hi => List.mem_reverse.1 hi)]
        cases hp : s.imps.reverse.findSome? (provides env n) with
        | none => rw [hp] at h; cases h
        | some m =>
            rw [hp] at h
            have h : there env m n = some t := h
            have := (there_some h).1
            exact there_congr h (hf (m, n) (by rw [this]; rfl) (by simp [derived]; omega))

theorem targets_simple {s : Src} (hs : simple s = true) {env env' : Env} :
    ∀ {rs : List Ref} {ts}, (∀ r ∈ rs, Ref.simple s r = true) → targets env s rs = some ts →
      (∀ d ∈ ts.filterMap Tgt.ext?, derived d.2 = false → face env' d = face env d) →
      targets env' s rs = some ts
  | [], ts, _, h, _ => h
  | r :: rs, ts, hr, h, hf => by
      simp only [targets] at h ⊢
      cases h1 : target env s r with
      | none => simp [h1] at h
      | some t =>
          cases h2 : targets env s rs with
          | none => simp [h1, h2] at h
          | some ts' =>
              simp only [h1, h2, Option.some.injEq] at h
              subst h
              rw [target_simple hs (hr r (by simp)) h1 fun d hd =>
                  hf d (List.mem_filterMap.2 ⟨t, by simp, hd⟩),
                targets_simple hs (fun r hr' => hr r (by simp [hr'])) h2 fun d hd =>
                  hf d (by
                    obtain ⟨x, hx, e⟩ := List.mem_filterMap.1 hd
                    exact List.mem_filterMap.2 ⟨x, by simp [hx], e⟩)]

/-- No target of a simple source is derived. -/
theorem targets_plain {s : Src} {env : Env} : ∀ {rs : List Ref} {ts},
    (∀ r ∈ rs, Ref.simple s r = true) → targets env s rs = some ts →
      ∀ d ∈ ts.filterMap Tgt.ext?, derived d.2 = false
  | [], ts, _, h, d, hd => by simp only [targets, Option.some.injEq] at h; subst h; cases hd
  | r :: rs, ts, hr, h, d, hd => by
      simp only [targets] at h
      cases h1 : target env s r with
      | none => simp [h1] at h
      | some t =>
          cases h2 : targets env s rs with
          | none => simp [h1, h2] at h
          | some ts' =>
              simp only [h1, h2, Option.some.injEq] at h
              subst h
              have hr0 := hr r (by simp)
              obtain ⟨x, hx, e⟩ := List.mem_filterMap.1 hd
              rcases List.mem_cons.1 hx with rfl | hx
              · cases r with
                | wit n => simp [Ref.simple] at hr0
                | qual m n =>
                    simp only [target] at h1
                    split at h1
                    · rw [(there_some h1).1] at e
                      cases e
                      simp only [Ref.simple, decide_eq_true_eq] at hr0
                      simp [derived]; omega
                    · cases h1
                | plain n =>
                    simp only [target] at h1
                    split at h1
                    · cases h1; cases e
                    · rename_i hn
                      have hlt : n < 10 := by simpa [Ref.simple, hn] using hr0
                      split at h1
                      · rw [(there_some h1).1] at e
                        cases e
                        simp [derived]; omega
                      · cases h1
              · exact targets_plain (fun r hr' => hr r (by simp [hr'])) h2 d
                  (List.mem_filterMap.2 ⟨x, hx, e⟩)

theorem elabs_congr {s : Src} {env env' : Env} : ∀ {ds : List Def} {l},
    elabs env s ds = some l →
    (∀ d ∈ ds, ∀ ts, targets env s d.refs = some ts →
      targets env' s d.refs = some ts ∧ item env' d ts = item env d ts) →
    elabs env' s ds = some l
  | [], l, h, _ => h
  | d :: ds, l, h, hc => by
      simp only [elabs] at h ⊢
      cases h1 : targets env s d.refs with
      | none => simp [h1] at h
      | some ts =>
          cases h2 : elabs env s ds with
          | none => simp [h1, h2] at h
          | some l' =>
              simp only [h1, h2, Option.some.injEq] at h
              subst h
              obtain ⟨e1, e2⟩ := hc d (by simp) ts h1
              rw [e1, elabs_congr h2 fun d hd => hc d (by simp [hd])]
              simp only [e2]

theorem localFront (key) : Local (compiler simpleFront key) := by
  intro s env env' t h _ hf
  obtain ⟨hs, h⟩ := simpleFront_some h
  obtain ⟨hp, hn, l, hl, rfl⟩ := front_some h
  have hs' := hs
  simp only [simple, Bool.and_eq_true] at hs'
  have hsimple : ∀ d ∈ s.defs, ∀ r ∈ d.refs, Ref.simple s r = true := fun d hd =>
    List.all_eq_true.1 (List.all_eq_true.1 hs'.2 d hd)
  -- the interfaces of what is mentioned
  have hface : ∀ d ∈ s.defs, ∀ ts, targets env s d.refs = some ts →
      ∀ x ∈ ts.filterMap Tgt.ext?, face env' x = face env x := by
    intro d hd ts hts x hx
    obtain ⟨ts', e1, e2⟩ := elabs_all hl d hd
    rw [hts] at e1
    cases e1
    refine hf (entry d ts) (List.mem_map.2 ⟨_, e2, rfl⟩) x ?_
    refine List.mem_append_right _ (List.mem_filter.2 ⟨List.mem_dedup.2 hx, ?_⟩)
    have := targets_plain (hsimple d hd) hts x hx
    show (!derived x.2) = true
    rw [this]; rfl
  have helab : elabs env' s s.defs = some l := by
    refine elabs_congr hl fun d hd ts hts => ⟨?_, ?_⟩
    · exact targets_simple hs (hsimple d hd) hts fun x hx _ => hface d hd ts hts x hx
    · simp only [item]
      refine congrArg _ (List.map_congr_left fun x hx => ?_)
      cases x with
      | here n => rfl
      | there m n =>
          simp only [Tgt.face]
          rw [hface d hd ts hts (m, n) (List.mem_filterMap.2 ⟨_, hx, rfl⟩)]
  have hpick : s.imps.all (picked env') = true := by
    refine List.all_eq_true.2 fun i hi => ?_
    have hi1 := List.all_eq_true.1 hs'.1 i hi
    have hi2 := List.all_eq_true.1 hp i hi
    cases i with
    | mod m => rfl
    | all m => rfl
    | pick m n =>
        simp only [Imp.simple, Bool.and_eq_true, decide_eq_true_eq, List.any_eq_true] at hi1
        obtain ⟨⟨hi3, hi4⟩, d, hd, hr⟩ := hi1
        obtain ⟨ts, e1, -⟩ := elabs_all hl d hd
        have ht : Tgt.there m n ∈ ts := by
          clear hl helab hface hsimple
          generalize d.refs = rs at hr e1
          induction rs generalizing ts with
          | nil => cases hr
          | cons r rs ih =>
              simp only [targets] at e1
              cases h1 : target env s r with
              | none => simp [h1] at e1
              | some t =>
                  cases h2 : targets env s rs with
                  | none => simp [h1, h2] at e1
                  | some ts' =>
                      simp only [h1, h2, Option.some.injEq] at e1
                      subst e1
                      rcases List.mem_cons.1 hr with rfl | hr
                      · simp only [target, hi3, if_false] at h1
                        rw [provides_simple hs'.1 env (fun _ => none) n _
                          (fun i hi => List.mem_reverse.1 hi), hi4] at h1
                        have h1 : there env m n = some t := h1
                        rw [(there_some h1).1]; simp
                      · exact List.mem_cons_of_mem _ (ih _ hr h2)
        have := hface d hd ts e1 (m, n) (List.mem_filterMap.2 ⟨_, ht, rfl⟩)
        simp only [picked] at hi2 ⊢
        rw [this]; exact hi2
  show simpleFront s env' = _
  simp only [simpleFront, hs, if_true, front, hpick, hn, decide_true, Bool.and_self, helab,
    Option.map_some]

theorem laws : Laws (compiler simpleFront id) :=
  ⟨ideal _ _, domain _ _, distinct _, localFront _, keyed _⟩

end Verif.Incr.Small
