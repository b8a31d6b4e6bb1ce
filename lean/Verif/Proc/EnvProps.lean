import Verif.Proc.Env
/-!
# C168: the process sees the environment that it was given
-/
namespace Verif.Proc.Env

theorem cstr_eq {b : Bytes} (h : 0 ∉ b) : cstr b = b := by
  unfold cstr
  induction b with
  | nil => rfl
  | cons x b ih =>
    have hx : x ≠ 0 := fun h0 => h (h0 ▸ List.mem_cons_self)
    rw [List.takeWhile_cons_of_pos (by simpa using hx), ih (fun h0 => h (List.mem_cons_of_mem _ h0))]

/-- Names without "=" are told apart by "name=". -/
theorem prefix_iff {a k v : Bytes} (ha : (61 : UInt8) ∉ a) (hk : (61 : UInt8) ∉ k) :
    k ++ [61] <+: a ++ [61] ++ v ↔ a = k := by
  induction k generalizing a with
  | nil =>
    cases a with
    | nil => simp
    | cons x a =>
      have : (61 : UInt8) ≠ x := fun h => ha (h ▸ List.mem_cons_self)
      simp [List.cons_prefix_cons, this]
  | cons y k ih =>
    cases a with
    | nil =>
      have : y ≠ 61 := fun h => hk (h ▸ List.mem_cons_self)
      simp [List.cons_prefix_cons, this]
    | cons x a =>
      have h1 := ih (a := a) (fun h => ha (List.mem_cons_of_mem _ h)) (fun h => hk (List.mem_cons_of_mem _ h))
      simp only [List.cons_append, List.cons_prefix_cons]
      constructor
      · rintro ⟨rfl, h⟩
        rw [h1.1 h]
      · intro h
        injection h with h2 h3
        exact ⟨h2.symm, h1.2 h3⟩

/-- The environment made of a dict answers as the dict. -/
theorem getenv_map {d : Dict} (hk : ∀ kv ∈ d, (61 : UInt8) ∉ kv.1 ∧ 0 ∉ kv.1 ∧ 0 ∉ kv.2) {k : Bytes} (h61 : (61 : UInt8) ∉ k) :
    getenv k (d.map entry) = get k d := by
  induction d with
  | nil => rfl
  | cons kv d ih =>
    obtain ⟨a, v⟩ := kv
    obtain ⟨h1, h2, h3⟩ := hk _ List.mem_cons_self
    have he : entry (a, v) = a ++ [61] ++ v := by simp [entry, cstr_eq h2, cstr_eq h3]
    simp only [List.map_cons, getenv, get, he]
    by_cases hak : a = k
    · rw [if_pos ((prefix_iff h1 h61).2 hak), if_pos hak, hak]
      simp
    · rw [if_neg (fun h => hak ((prefix_iff h1 h61).1 h)), if_neg hak]
      exact ih (fun kv hm => hk kv (List.mem_cons_of_mem _ hm))

theorem get_append (a b : Dict) (k : Bytes) : get k (a ++ b) = (get k a).or (get k b) := by
  induction a with
  | nil => rfl
  | cons kv a ih =>
    obtain ⟨x, v⟩ := kv
    simp only [List.cons_append, get]
    split
    · rfl
    · exact ih

/-- **C168**, no environment given: the process has that of the program. -/
theorem C168_inherit (parent : List Bytes) : child parent none = parent := rfl

/-- What the docstring of Process says: the given variables, and PATH of the program if it is not
given. -/
def expected (parent : List Bytes) (d : Dict) (k : Bytes) : Option Bytes :=
  (get k d).or (if k = path then getenv path parent else none)

/-- **C168** for names without "=" and zero bytes and values without zero bytes: every variable has
its value in the process. The names `k` asked for have no "=", as no variable has. Missing: other
keys and values (`C168_refuted_name`, `C168_refuted_value`). -/
theorem C168_partial (parent : List Bytes) {d : Dict}
    (hk : ∀ kv ∈ d, (61 : UInt8) ∉ kv.1 ∧ 0 ∉ kv.1 ∧ 0 ∉ kv.2) (hp : ∀ v, getenv path parent = some v → 0 ∉ v)
    {k : Bytes} (h61 : (61 : UInt8) ∉ k) : getenv k (child parent (some d)) = expected parent d k := by
  unfold child expected
  simp only [newEnv]
  by_cases hg : get path d = none
  · rw [if_pos hg]
    cases hv : getenv path parent with
    | none =>
      simp only
      rw [getenv_map hk h61]
      split <;> simp
    | some v =>
      simp only
      rw [getenv_map ?_ h61]
      · unfold add
        rw [get_append]
        simp only [get]
        by_cases hkp : k = path
        · subst hkp; simp
        · have : ¬ path = k := fun h => hkp h.symm
          simp [hkp, this]
      · intro kv hm
        rcases List.mem_append.1 hm with hm | hm
        · exact hk kv hm
        · rw [List.mem_singleton.1 hm]
          exact ⟨(by decide : (61 : UInt8) ∉ path), (by decide : (0 : UInt8) ∉ path), hp v hv⟩
  · rw [if_neg hg]
    simp only
    rw [getenv_map hk h61]
    by_cases hkp : k = path
    · subst hkp
      cases h : get path d with
      | none => exact absurd h hg
      | some v => rfl
    · simp [hkp]

/-- **C168** is false for names with "=": a variable "A=B" of value "C" is seen as "A" of value
"B=C". -/
theorem C168_refuted_name : getenv [65] (child [] (some [([65, 61, 66], [67])])) = some [66, 61, 67] ∧
    expected [] [([65, 61, 66], [67])] [65] = none := by decide

/-- **C168** is false for values with zero bytes: the value ends there. -/
theorem C168_refuted_value : getenv [65] (child [] (some [([65], [66, 0, 67])])) = some [66] ∧
    expected [] [([65], [66, 0, 67])] [65] = some [66, 0, 67] := by decide

/-- Hypotheses of `C168_partial`: PATH of the program is used. -/
example : (∀ kv ∈ ([([65], [66, 61])] : Dict), (61 : UInt8) ∉ kv.1 ∧ 0 ∉ kv.1 ∧ 0 ∉ kv.2) ∧
    (∀ v, getenv path [path ++ [61, 47]] = some v → 0 ∉ v) ∧
    getenv path (child [path ++ [61, 47]] (some [([65], [66, 61])])) = some [47] ∧
    getenv [65] (child [path ++ [61, 47]] (some [([65], [66, 61])])) = some [66, 61] := by
  refine ⟨by decide, ?_, by decide, by decide⟩
  intro v hv
  have : getenv path [path ++ [61, 47]] = some [47] := by decide
  rw [this] at hv
  cases hv; decide

end Verif.Proc.Env
