import Verif.Seed.Model
/-!
# C174, C175: the packages that a build needs are in the cache before Zig runs
-/
namespace Verif.Seed

open Verif.Zon (Text Dep)

/-- A dependency has been dealt with. -/
structure Handled (W : World) (s : St) (d : Dir) (dep : Dep) : Prop where
  dir : dep.lzy = false → ∀ p, dep.path = some p → p ≠ [] → W.resolve d p ∈ s.dirs
  hash : dep.lzy = false → (∀ p, dep.path = some p → p = []) → ∀ u h, dep.url = some u → dep.hash = some h → h ∈ s.hashes

/-- All dependencies of a package have been dealt with. -/
def Done (W : World) (s : St) (d : Dir) : Prop := ∀ deps, W.manifest d = some deps → ∀ nd ∈ deps, Handled W s d nd.2

/-- The walk only adds. -/
structure Grows (s t : St) : Prop where
  dirs : ∀ x ∈ s.dirs, x ∈ t.dirs
  hashes : ∀ x ∈ s.hashes, x ∈ t.hashes
  cache : ∀ x ∈ s.cache, x ∈ t.cache

theorem Grows.refl (s : St) : Grows s s := ⟨fun _ h => h, fun _ h => h, fun _ h => h⟩
theorem Grows.trans {s t u : St} (a : Grows s t) (b : Grows t u) : Grows s u :=
  ⟨fun x h => b.dirs x (a.dirs x h), fun x h => b.hashes x (a.hashes x h), fun x h => b.cache x (a.cache x h)⟩

theorem Handled.mono {W : World} {s t : St} {d : Dir} {dep : Dep} (g : Grows s t) (h : Handled W s d dep) : Handled W t d dep :=
  ⟨fun a p b c => g.dirs _ (h.dir a p b c), fun a b u k c e => g.hashes _ (h.hash a b u k c e)⟩

/-- What a part of the walk does. -/
structure Post (W : World) (s t : St) : Prop where
  grows : Grows s t
  done : ∀ x ∈ t.dirs, x ∈ s.dirs ∨ Done W t x

theorem Post.refl (W : World) (s : St) : Post W s s := ⟨.refl s, fun _ h => .inl h⟩
theorem Post.trans {W : World} {s t u : St} (a : Post W s t) (b : Post W t u) : Post W s u := by
  refine ⟨a.grows.trans b.grows, fun x hx => ?_⟩
  rcases b.done x hx with h | h
  · rcases a.done x h with h | h
    · exact .inl h
    · exact .inr (fun deps e nd m => (h deps e nd m).mono b.grows)
  · exact .inr h

/-- What holds during the walk. -/
structure Inv (W : World) (roots : List Dir) (c0 : List Text) (s : St) : Prop where
  reach : ∀ d ∈ s.dirs, Reach W roots d
  once : s.dirs.Nodup
  hash : ∀ h ∈ s.hashes, ∃ u, Needs W roots u h
  logged : ∀ x ∈ s.log, Needs W roots x.1 x.2 ∧ x.2 ∈ s.hashes ∧ x.2 ∉ c0
  fetched : (s.log.map Prod.snd).Nodup
  kept : ∀ h ∈ c0, h ∈ s.cache
  cached : ∀ h ∈ s.hashes, h ∈ s.cache ∨ ∃ u, (u, h) ∈ s.log ∧ W.serves u ≠ some h
  origin : ∀ h ∈ s.cache, h ∈ c0 ∨ ∃ x ∈ s.log, W.serves x.1 = some h

theorem fetch_grows (W : World) (s : St) (u h : Text) : Grows s (fetch W s u h) := by
  refine ⟨fun _ a => a, fun _ a => a, fun x a => ?_⟩
  show x ∈ (match W.serves u with | some k => k :: s.cache | none => s.cache)
  split
  · exact List.mem_cons_of_mem _ a
  · exact a

theorem seedHash_post (W : World) (s : St) (u h : Text) : Post W s (seedHash W s u h) ∧ h ∈ (seedHash W s u h).hashes := by
  unfold seedHash
  have g : Grows s { s with hashes := h :: s.hashes } := ⟨fun _ a => a, fun _ a => List.mem_cons_of_mem _ a, fun _ a => a⟩
  by_cases h1 : h ∈ s.hashes
  · rw [if_pos h1]; exact ⟨.refl W s, h1⟩
  · rw [if_neg h1]
    by_cases h2 : h ∈ s.cache
    · rw [if_pos h2]; exact ⟨⟨g, fun x a => .inl a⟩, List.mem_cons_self⟩
    · rw [if_neg h2]; exact ⟨⟨g.trans (fetch_grows _ _ _ _), fun x a => .inl a⟩, List.mem_cons_self⟩

theorem seedHash_inv {W : World} {roots : List Dir} {c0 : List Text} {s : St} (i : Inv W roots c0 s) {u h : Text}
    (hn : Needs W roots u h) : Inv W roots c0 (seedHash W s u h) := by
  unfold seedHash
  by_cases h1 : h ∈ s.hashes
  · rw [if_pos h1]; exact i
  · rw [if_neg h1]
    have hh : ∀ k ∈ h :: s.hashes, ∃ u, Needs W roots u k := by
      intro k hk
      rcases List.mem_cons.1 hk with rfl | hk
      · exact ⟨u, hn⟩
      · exact i.hash k hk
    by_cases h2 : h ∈ s.cache
    · rw [if_pos h2]
      refine ⟨i.reach, i.once, hh, fun x hx => ?_, i.fetched, i.kept, ?_, i.origin⟩
      · obtain ⟨a, b, c⟩ := i.logged x hx
        exact ⟨a, List.mem_cons_of_mem _ b, c⟩
      · intro k hk
        rcases List.mem_cons.1 hk with rfl | hk
        · exact .inl h2
        · exact i.cached k hk
    · rw [if_neg h2]
      have g := (fetch_grows W { s with hashes := h :: s.hashes } u h).cache
      refine ⟨i.reach, i.once, hh, ?_, ?_, fun k hk => g k (i.kept k hk), ?_, ?_⟩
      · intro x hx
        rcases List.mem_cons.1 (show x ∈ (u, h) :: s.log from hx) with rfl | hx
        · exact ⟨hn, List.mem_cons_self, fun c => h2 (i.kept h c)⟩
        · obtain ⟨a, b, c⟩ := i.logged x hx
          exact ⟨a, List.mem_cons_of_mem _ b, c⟩
      · show (h :: s.log.map Prod.snd).Nodup
        refine List.nodup_cons.2 ⟨?_, i.fetched⟩
        intro m
        obtain ⟨x, hx, rfl⟩ := List.mem_map.1 m
        exact h1 (i.logged x hx).2.1
      · intro k hk
        rcases List.mem_cons.1 (show k ∈ h :: s.hashes from hk) with rfl | hk
        · by_cases e : W.serves u = some k
          · left
            show k ∈ (match W.serves u with | some k => k :: s.cache | none => s.cache)
            rw [e]; exact List.mem_cons_self
          · right; exact ⟨u, List.mem_cons_self, e⟩
        · rcases i.cached k hk with c | ⟨v, c, e⟩
          · exact .inl (g k c)
          · exact .inr ⟨v, List.mem_cons_of_mem _ c, e⟩
      · intro k hk
        have hk' : k ∈ (match W.serves u with | some k => k :: s.cache | none => s.cache) := hk
        have old : k ∈ s.cache → k ∈ c0 ∨ ∃ x ∈ (u, h) :: s.log, W.serves x.1 = some k := by
          intro hk
          rcases i.origin k hk with c | ⟨x, hx, e⟩
          · exact .inl c
          · exact .inr ⟨x, List.mem_cons_of_mem _ hx, e⟩
        split at hk'
        · rename_i k' e
          rcases List.mem_cons.1 hk' with rfl | hk'
          · exact .inr ⟨(u, h), List.mem_cons_self, e⟩
          · exact old hk'
        · exact old hk'

/-- What `goDir` has to do for its callers. -/
def Good (W : World) (roots : List Dir) (c0 : List Text) (rec : St → Dir → Option St) : Prop :=
  ∀ s d t, rec s d = some t → (Post W s t ∧ d ∈ t.dirs) ∧ (Reach W roots d → Inv W roots c0 s → Inv W roots c0 t)

theorem goDep_good {W : World} {roots : List Dir} {c0 : List Text} {rec : St → Dir → Option St} (hr : Good W roots c0 rec)
    {pkg : Dir} {s t : St} {nd : Text × Dep} (h : goDep W rec pkg s nd = some t) :
    (Post W s t ∧ Handled W t pkg nd.2) ∧
    ((∃ deps, W.manifest pkg = some deps ∧ nd ∈ deps) → Reach W roots pkg → Inv W roots c0 s → Inv W roots c0 t) := by
  unfold goDep at h
  by_cases hl : nd.2.lzy = true
  · rw [if_pos hl] at h
    have := Option.some.inj h; subst this
    exact ⟨⟨.refl W s, ⟨fun e => by rw [hl] at e; (cases e), fun e => by rw [hl] at e; (cases e)⟩⟩, fun _ _ i => i⟩
  · rw [if_neg hl] at h
    have hl' : nd.2.lzy = false := by simpa using hl
    split at h
    · rename_i c p hp
      obtain ⟨⟨a, b⟩, e⟩ := hr _ _ _ h
      refine ⟨⟨a, ⟨fun _ q hq _ => ?_, fun _ hq => ?_⟩⟩, ?_⟩
      · rw [hp] at hq
        rw [← Option.some.inj hq]; exact b
      · exact absurd (hq _ hp) (by simp)
      · rintro ⟨deps, m1, m2⟩ r i
        exact e (.step r ⟨deps, nd.1, nd.2, _, m1, m2, hl', hp, by simp, rfl⟩) i
    · rename_i hp
      have hpath : ∀ p, nd.2.path = some p → p = [] := by
        intro p e
        cases p with
        | nil => rfl
        | cons c p => exact absurd e (hp c p)
      split at h
      · rename_i u k hu hk
        have := Option.some.inj h; subst this
        obtain ⟨a, b⟩ := seedHash_post W s u k
        refine ⟨⟨a, ⟨fun _ q hq hne => absurd (hpath q hq) hne, fun _ _ u' k' _ hk' => ?_⟩⟩, ?_⟩
        · rw [hk] at hk'
          rw [← Option.some.inj hk']; exact b
        · rintro ⟨deps, m1, m2⟩ r i
          exact seedHash_inv i ⟨pkg, r, deps, nd.1, nd.2, m1, m2, hl', hpath, hu, hk⟩
      · rename_i hn
        have := Option.some.inj h; subst this
        exact ⟨⟨.refl W s, ⟨fun _ q hq hne => absurd (hpath q hq) hne, fun _ _ u' k' hu' hk' => absurd hk' (hn u' k' hu')⟩⟩, fun _ _ i => i⟩

theorem goDeps_good {W : World} {roots : List Dir} {c0 : List Text} {rec : St → Dir → Option St} (hr : Good W roots c0 rec)
    {pkg : Dir} {ds : List (Text × Dep)} : ∀ {s t : St}, goDeps W rec pkg ds s = some t →
    (Post W s t ∧ ∀ nd ∈ ds, Handled W t pkg nd.2) ∧
    ((∃ deps, W.manifest pkg = some deps ∧ ∀ nd ∈ ds, nd ∈ deps) → Reach W roots pkg → Inv W roots c0 s → Inv W roots c0 t) := by
  induction ds with
  | nil =>
    intro s t h
    have := Option.some.inj h; subst this
    exact ⟨⟨.refl W s, fun nd m => by cases m⟩, fun _ _ i => i⟩
  | cons nd ds ih =>
    intro s t h
    obtain ⟨s1, h1, h2⟩ := Option.bind_eq_some_iff.1 h
    obtain ⟨⟨a, b⟩, c⟩ := goDep_good hr h1
    obtain ⟨⟨a', b'⟩, c'⟩ := ih h2
    refine ⟨⟨a.trans a', fun x m => ?_⟩, ?_⟩
    · rcases List.mem_cons.1 m with rfl | m
      · exact b.mono a'.grows
      · exact b' x m
    · rintro ⟨deps, m1, m2⟩ r i
      exact c' ⟨deps, m1, fun x m => m2 x (List.mem_cons_of_mem _ m)⟩ r (c ⟨deps, m1, m2 nd List.mem_cons_self⟩ r i)

theorem goDir_good (W : World) (roots : List Dir) (c0 : List Text) (n : Nat) : Good W roots c0 (goDir W n) := by
  induction n with
  | zero => intro s d t h; cases h
  | succ n ih =>
    intro s d t h
    rw [goDir] at h
    by_cases hd : d ∈ s.dirs
    · rw [if_pos hd] at h
      have := Option.some.inj h; subst this
      exact ⟨⟨.refl W s, hd⟩, fun _ i => i⟩
    · rw [if_neg hd] at h
      have g : Grows s { s with dirs := d :: s.dirs } := ⟨fun _ a => List.mem_cons_of_mem _ a, fun _ a => a, fun _ a => a⟩
      have hi : Reach W roots d → Inv W roots c0 s → Inv W roots c0 { s with dirs := d :: s.dirs } := by
        intro r i
        refine ⟨fun x hx => ?_, List.nodup_cons.2 ⟨hd, i.once⟩, i.hash, i.logged, i.fetched, i.kept, i.cached, i.origin⟩
        rcases List.mem_cons.1 hx with rfl | hx
        · exact r
        · exact i.reach x hx
      split at h
      · rename_i hm
        have := Option.some.inj h; subst this
        refine ⟨⟨⟨g, fun x hx => ?_⟩, List.mem_cons_self⟩, hi⟩
        rcases List.mem_cons.1 hx with rfl | hx
        · right; intro deps e; rw [hm] at e; cases e
        · exact .inl hx
      · rename_i deps hm
        obtain ⟨⟨a, b⟩, c⟩ := goDeps_good ih h
        refine ⟨⟨⟨g.trans a.grows, fun x hx => ?_⟩, a.grows.dirs d List.mem_cons_self⟩, fun r i => c ⟨deps, hm, fun _ m => m⟩ r (hi r i)⟩
        rcases a.done x hx with hx | hx
        · rcases List.mem_cons.1 (show x ∈ d :: s.dirs from hx) with rfl | hx
          · right; intro deps' e nd m
            rw [hm] at e
            rw [← Option.some.inj e] at m
            exact b nd m
          · exact .inl hx
        · exact .inr hx

theorem goAll_good (W : World) (roots : List Dir) (c0 : List Text) (n : Nat) {ds : List Dir} : ∀ {s t : St}, goAll W n ds s = some t →
    (Post W s t ∧ ∀ d ∈ ds, d ∈ t.dirs) ∧ ((∀ d ∈ ds, d ∈ roots) → Inv W roots c0 s → Inv W roots c0 t) := by
  induction ds with
  | nil =>
    intro s t h
    have := Option.some.inj h; subst this
    exact ⟨⟨.refl W s, fun nd m => by cases m⟩, fun _ i => i⟩
  | cons d ds ih =>
    intro s t h
    obtain ⟨s1, h1, h2⟩ := Option.bind_eq_some_iff.1 h
    obtain ⟨⟨a, b⟩, c⟩ := goDir_good W roots c0 n _ _ _ h1
    obtain ⟨⟨a', b'⟩, c'⟩ := ih h2
    refine ⟨⟨a.trans a', fun x m => ?_⟩, ?_⟩
    · rcases List.mem_cons.1 m with rfl | m
      · exact a'.grows.dirs _ b
      · exact b' x m
    · intro m i
      exact c' (fun x h => m x (List.mem_cons_of_mem _ h)) (c (.root (m d List.mem_cons_self)) i)

/-! ## The walk ends -/

/-- Manifests that have not been read. -/
def left (ms : List Dir) (s : St) : Nat := (ms.filter (fun d => d ∉ s.dirs)).length

theorem left_mono {ms : List Dir} {s t : St} (h : ∀ x ∈ s.dirs, x ∈ t.dirs) : left ms t ≤ left ms s := by
  unfold left
  induction ms with
  | nil => simp
  | cons d ms ih =>
    rw [List.filter_cons, List.filter_cons]
    by_cases h1 : d ∈ s.dirs
    · rw [if_neg (by simpa using h d h1), if_neg (by simpa using h1)]; exact ih
    · rw [if_pos (show decide (d ∉ s.dirs) = true by simpa using h1)]
      split
      · simpa using ih
      · rw [List.length_cons]; omega

theorem left_lt {ms : List Dir} {s : St} {d : Dir} (hd : d ∈ ms) (hs : d ∉ s.dirs) :
    left ms { s with dirs := d :: s.dirs } < left ms s := by
  induction ms with
  | nil => cases hd
  | cons x ms ih =>
    have hm : left ms { s with dirs := d :: s.dirs } ≤ left ms s := left_mono (fun _ a => List.mem_cons_of_mem _ a)
    unfold left at hm ih ⊢
    rw [List.filter_cons, List.filter_cons]
    by_cases e : x = d
    · subst e
      rw [if_neg (by simp), if_pos (by simpa using hs), List.length_cons]
      omega
    · have hd' : d ∈ ms := by
        rcases List.mem_cons.1 hd with h | h
        · exact absurd h.symm e
        · exact h
      have := ih hd'
      by_cases hx : x ∈ s.dirs
      · rw [if_neg (by simp [hx]), if_neg (by simpa using hx)]; exact this
      · rw [if_pos (by simp [hx, e]), if_pos (by simpa using hx), List.length_cons, List.length_cons]; omega

theorem goDeps_ends {W : World} {ms : List Dir} {n : Nat} (hn : ∀ s d, left ms s < n → ∃ t, goDir W n s d = some t)
    {pkg : Dir} {ds : List (Text × Dep)} : ∀ {s : St}, left ms s < n → ∃ t, goDeps W (goDir W n) pkg ds s = some t := by
  induction ds with
  | nil => intro s _; exact ⟨s, rfl⟩
  | cons nd ds ih =>
    intro s hs
    have : ∃ t, goDep W (goDir W n) pkg s nd = some t := by
      unfold goDep
      split
      · exact ⟨s, rfl⟩
      · split
        · exact hn _ _ hs
        · split
          · exact ⟨_, rfl⟩
          · exact ⟨_, rfl⟩
    obtain ⟨t, ht⟩ := this
    have g := (goDep_good (goDir_good W [] [] n) ht).1.1.grows.dirs
    obtain ⟨t', ht'⟩ := ih (s := t) (Nat.lt_of_le_of_lt (left_mono g) hs)
    exact ⟨t', by rw [goDeps, ht]; exact ht'⟩

theorem goDir_ends {W : World} {ms : List Dir} (hf : Finite W ms) (n : Nat) : ∀ s d, left ms s < n → ∃ t, goDir W n s d = some t := by
  induction n with
  | zero => intro s d h; omega
  | succ n ih =>
    intro s d h
    rw [goDir]
    by_cases hd : d ∈ s.dirs
    · rw [if_pos hd]; exact ⟨_, rfl⟩
    · rw [if_neg hd]
      split
      · exact ⟨_, rfl⟩
      · rename_i deps hm
        by_cases hms : d ∈ ms
        · exact goDeps_ends ih (by have := left_lt hms hd; omega)
        · rw [hf d hms deps hm]; exact ⟨_, rfl⟩

theorem goAll_ends {W : World} {ms : List Dir} (hf : Finite W ms) {n : Nat} (hn : ms.length < n) {ds : List Dir} :
    ∀ s, ∃ t, goAll W n ds s = some t := by
  induction ds with
  | nil => intro s; exact ⟨s, rfl⟩
  | cons d ds ih =>
    intro s
    obtain ⟨t, ht⟩ := goDir_ends hf n s d (Nat.lt_of_le_of_lt (List.length_filter_le _ _) hn)
    obtain ⟨t', ht'⟩ := ih t
    exact ⟨t', by rw [goAll, ht]; exact ht'⟩

theorem start_inv (W : World) (roots : List Dir) (c0 : List Text) : Inv W roots c0 (start c0) :=
  ⟨fun d h => (by cases h), List.nodup_nil, fun h m => (by cases m), fun x m => (by cases m), List.nodup_nil, fun _ h => h,
    fun h m => (by cases m), fun _ h => .inl h⟩

/-- What the walk has looked at is what the build reads. -/
theorem walk_dirs {W : World} {roots : List Dir} {c0 : List Text} {n : Nat} {t : St} (h : goAll W n roots (start c0) = some t) (d : Dir) :
    Reach W roots d → d ∈ t.dirs := by
  obtain ⟨⟨a, b⟩, -⟩ := goAll_good W roots c0 n h
  intro r
  induction r with
  | root m => exact b _ m
  | @step d e _ l ih =>
    obtain ⟨deps, name, dep, p, h1, h2, h3, h4, h5, rfl⟩ := l
    rcases a.done d ih with x | x
    · cases x
    · exact (x deps h1 _ h2).dir h3 p h4 h5

theorem walk_hashes {W : World} {roots : List Dir} {c0 : List Text} {n : Nat} {t : St} (h : goAll W n roots (start c0) = some t)
    {u k : Text} (hn : Needs W roots u k) : k ∈ t.hashes := by
  obtain ⟨⟨a, -⟩, -⟩ := goAll_good W roots c0 n h
  obtain ⟨d, r, deps, name, dep, h1, h2, h3, h4, h5, h6⟩ := hn
  rcases a.done d (walk_dirs h d r) with x | x
  · cases x
  · exact (x deps h1 _ h2).hash h3 h4 u k h5 h6

/-- **C174** The walk ends, also if packages depend on one another in circles. It reads exactly the
packages that the build reads, each once. It downloads only archives that the build needs and that
were not in the cache, none twice. -/
theorem C174 {W : World} {ms : List Dir} (hf : Finite W ms) (roots : List Dir) (c0 : List Text) {n : Nat} (hn : ms.length < n) :
    ∃ t, goAll W n roots (start c0) = some t ∧ (∀ d, d ∈ t.dirs ↔ Reach W roots d) ∧ t.dirs.Nodup ∧
      (∀ u h, (u, h) ∈ t.log → Needs W roots u h ∧ h ∉ c0) ∧ (t.log.map Prod.snd).Nodup := by
  obtain ⟨t, ht⟩ := goAll_ends hf hn (ds := roots) (start c0)
  have i := (goAll_good W roots c0 n ht).2 (fun _ h => h) (start_inv W roots c0)
  exact ⟨t, ht, fun d => ⟨i.reach d, walk_dirs ht d⟩, i.once, fun u h m => ⟨(i.logged _ m).1, (i.logged _ m).2.2⟩, i.fetched⟩

/-- **C175** (partial) After the walk every archive that the build needs is in the cache, if each of
the addresses that manifests give for it serves it; missing: archives of which one address does
not, see `C175_refuted`. -/
theorem C175_partial {W : World} {roots : List Dir} {c0 : List Text} {n : Nat} {t : St} (ht : goAll W n roots (start c0) = some t)
    {u h : Text} (hn : Needs W roots u h) (hs : ∀ v, Needs W roots v h → W.serves v = some h) : h ∈ t.cache := by
  have i := (goAll_good W roots c0 n ht).2 (fun _ h => h) (start_inv W roots c0)
  rcases i.cached h (walk_hashes ht hn) with c | ⟨v, m, e⟩
  · exact c
  · exact absurd (hs v (i.logged _ m).1) e

/-- What is in the cache after the walk was there before or was downloaded for the build. -/
theorem C175_origin {W : World} {roots : List Dir} {c0 : List Text} {n : Nat} {t : St} (ht : goAll W n roots (start c0) = some t)
    (h : Text) (hc : h ∈ t.cache) : h ∈ c0 ∨ ∃ u k, Needs W roots u k ∧ W.serves u = some h := by
  have i := (goAll_good W roots c0 n ht).2 (fun _ h => h) (start_inv W roots c0)
  rcases i.origin h hc with c | ⟨x, m, e⟩
  · exact .inl c
  · exact .inr ⟨x.1, x.2, (i.logged x m).1, e⟩

/-- What was in the cache stays. -/
theorem C175_kept {W : World} {roots : List Dir} {c0 : List Text} {n : Nat} {t : St} (ht : goAll W n roots (start c0) = some t)
    (h : Text) (hc : h ∈ c0) : h ∈ t.cache :=
  ((goAll_good W roots c0 n ht).2 (fun _ h => h) (start_inv W roots c0)).kept h hc

/-! ## Samples -/

/-- Packages `a` and `b` that depend on one another; both need the archive with hash `h`, `a` from
`x`, `b` from `y`. -/
def pair : World where
  manifest d := if d = ['a'] then some [(['b'], ⟨none, none, some ['b'], false⟩), (['c'], ⟨some ['x'], some ['h'], none, false⟩)]
    else if d = ['b'] then some [(['a'], ⟨none, none, some ['a'], false⟩), (['c'], ⟨some ['y'], some ['h'], none, false⟩)]
    else some []
  resolve _ p := p
  serves u := if u = ['x'] then some ['h'] else none

theorem pair_finite : Finite pair [['a'], ['b']] := by
  intro d hd deps h
  simp only [List.mem_cons, List.not_mem_nil, or_false, not_or] at hd
  simp only [pair] at h
  rw [if_neg hd.1, if_neg hd.2] at h
  exact (Option.some.inj h).symm

theorem pair_needs : Needs pair [['a']] ['x'] ['h'] :=
  ⟨['a'], .root List.mem_cons_self, _, ['c'], _, rfl, List.mem_cons_of_mem _ List.mem_cons_self, rfl, (by simp), rfl, rfl⟩

example : ∃ t, goAll pair 3 [['a']] (start []) = some t ∧ (∀ d, d ∈ t.dirs ↔ Reach pair [['a']] d) ∧ t.dirs.Nodup ∧
    (∀ u h, (u, h) ∈ t.log → Needs pair [['a']] u h ∧ h ∉ []) ∧ (t.log.map Prod.snd).Nodup :=
  C174 pair_finite [['a']] [] (by decide)

/-- The archive has two addresses and the first does not serve it: the second is not tried. -/
theorem C175_refuted : ∃ (W : World) (roots : List Dir) (u h : Text) (t : St), Needs W roots u h ∧ W.serves u = some h ∧
    (∀ n, 3 ≤ n → goAll W n roots (start []) = some t) ∧ h ∉ t.cache := by
  refine ⟨pair, [['a']], ['x'], ['h'], ⟨[['b'], ['a']], [['h']], [], [(['y'], ['h'])]⟩, pair_needs, rfl, ?_, by simp⟩
  intro n hn
  obtain ⟨n, rfl⟩ : ∃ m, n = m + 3 := ⟨n - 3, by omega⟩
  simp [goAll, goDir, goDeps, goDep, pair, start, seedHash, fetch]

/-- The same archive, and both addresses serve it. -/
example : ∃ t, goAll { pair with serves := fun _ => some ['h'] } 3 [['a']] (start []) = some t ∧ ['h'] ∈ t.cache := by
  obtain ⟨t, ht⟩ := goAll_ends (W := { pair with serves := fun _ => some ['h'] }) (ms := [['a'], ['b']]) pair_finite (n := 3)
    (by decide) (ds := [['a']]) (start [])
  refine ⟨t, ht, C175_partial ht (u := ['x']) ?_ (fun _ _ => rfl)⟩
  exact ⟨['a'], .root List.mem_cons_self, _, ['c'], _, rfl, List.mem_cons_of_mem _ List.mem_cons_self, rfl, (by simp), rfl, rfl⟩

end Verif.Seed
