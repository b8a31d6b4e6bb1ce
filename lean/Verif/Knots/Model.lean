import Mathlib.Data.List.Basic
import Mathlib.Data.List.Dedup
/-!
# Model of WitKnots.hs; C169, C170

Witnesses of extensions hold the witnesses they need as attributes, which are created in
`__init__`. Witnesses that need each other in a cycle would be created endlessly;
`tieDeclKnots`, compiler/lib/src/Acton/WitKnots.hs:44-63, adds optional parameters to `__init__`
through which a witness hands itself and others on. Modelled: the search for cycles, the
parameters and the calls that result, and the creation of witnesses at run time.

A witness class is a number. Not modelled: type arguments and witness arguments of the calls (a
cycle that comes back with other arguments stops the compiler, WitKnots.hs:49-50; here the
arguments of a cycle are the same), attributes that are not witnesses of the group, `Typedef`s.
-/
namespace Verif.Knots

/-- For each class the classes that its attributes call, `witDeps`, WitKnots.hs:91-105: only
those of the group (`ws`), each once. -/
abbrev Deps := List (Nat × List Nat)

/-- The classes that a class calls: `snd $ head deps0`, WitKnots.hs:113. -/
def next (deps : Deps) (w : Nat) : List Nat :=
  match deps.filter (fun d => d.1 = w) with
  | [] => []
  | d :: _ => d.2

/-- The other classes: `deps1`, WitKnots.hs:112. -/
def rest (deps : Deps) (w : Nat) : Deps := deps.filter (fun d => d.1 ≠ w)

theorem length_rest_lt {deps : Deps} {w : Nat} {d : Nat × List Nat} {l : Deps}
    (h : deps.filter (fun d => d.1 = w) = d :: l) : (rest deps w).length < deps.length := by
  unfold rest
  have hm : d ∈ deps.filter (fun d => d.1 = w) := by rw [h]; exact List.mem_cons_self
  have := List.mem_filter.1 hm
  apply List.length_filter_lt_length_iff_exists.2
  exact ⟨d, this.1, by simpa using this.2⟩

/-- `witChains`, WitKnots.hs:109-116. -/
def chains (deps : Deps) (w : Nat) : List (List Nat) :=
  match _h : deps.filter (fun d => d.1 = w) with
  | [] => [[w]]
  | d :: _ => d.2.flatMap (fun a => (chains (rest deps w) a).map (fun as => w :: as))
termination_by deps.length
decreasing_by exact length_rest_lt _h

/-- `wchains`, WitKnots.hs:61. -/
def wchains (deps : Deps) : List (List Nat) := deps.flatMap (fun d => chains deps d.1)

/-- The first two cases of `collect`, WitKnots.hs:118-125. -/
def isCycle (ch : List Nat) : Bool := decide (1 < ch.length) && decide (ch.head? = ch.getLast?)

/-- `cycles`, WitKnots.hs:62. -/
def cycles (deps : Deps) : List (List Nat) := (wchains deps).filter isCycle

/-- `hd` in a chain `hd:tl` that goes through `n`, WitKnots.hs:132. -/
def origin (n : Nat) : List Nat → Option Nat
  | [] => none
  | hd :: tl => if hd ≠ n ∧ n ∈ tl then some hd else none

/-- `chainOrigins`, WitKnots.hs:132. -/
def origins (cyc : List (List Nat)) (n : Nat) : List Nat := (cyc.filterMap (origin n)).dedup

/-- `cycledeps`, WitKnots.hs:63, 129; without cycles nothing is changed, WitKnots.hs:47. -/
def cycledeps (deps : Deps) : List (Nat × List Nat) :=
  if cycles deps = [] then [] else deps.map (fun d => (d.1, origins (cycles deps) d.1))

/-- `depsof`, WitKnots.hs:151-153. -/
def depsof (cd : List (Nat × List Nat)) (w : Nat) : List Nat :=
  match cd.find? (fun d => d.1 = w) with
  | none => []
  | some d => d.2

/-! ## Creation at run time -/

/-- An attribute that was set: of which object, of which class, to which object. `stack` is not in
the code: the objects whose `__init__` runs at that time, with their classes, innermost first. -/
structure Link where
  owner : Nat
  cls : Nat
  obj : Nat
  stack : List (Nat × Nat)
  deriving DecidableEq, Repr

/-- The objects, given by their classes, and the attributes. -/
structure St where
  objs : List Nat
  links : List Link
  deriving DecidableEq, Repr

/-- The parameters `W_x` of a call of `d` in the class `me`, WitKnots.hs:192-198: `extra`. -/
def args (cd : List (Nat × List Nat)) (me self : Nat) (env : Nat → Option Nat) (d x : Nat) : Option Nat :=
  if x ∈ depsof cd d then
    if x = me then some self
    else if x ∈ depsof cd me then env x
    else none
  else none

/-- What an attribute is set to without a call, `tieCall` and `depKnot`, WitKnots.hs:188-191,
209-210: `self`, or the parameter if it is not None. -/
def given (cd : List (Nat × List Nat)) (me self : Nat) (env : Nat → Option Nat) (d : Nat) : Option Nat :=
  if d = me ∧ me ∈ cd.map Prod.fst then some self
  else if d ∈ depsof cd me then env d
  else none

/-- The attributes of an object, one after the other; `create` makes a new object. -/
def fields (cd : List (Nat × List Nat)) (me self : Nat) (env : Nat → Option Nat) (stack : List (Nat × Nat))
    (create : Nat → (Nat → Option Nat) → St → Option (Nat × St)) : List Nat → St → Option St
  | [], st => some st
  | d :: ds, st =>
    match given cd me self env d with
    | some o => fields cd me self env stack create ds { st with links := st.links ++ [⟨self, d, o, stack⟩] }
    | none =>
      match create d (args cd me self env d) st with
      | none => none
      | some (o, st') => fields cd me self env stack create ds { st' with links := st'.links ++ [⟨self, d, o, stack⟩] }

/-- The creation of an object of the class `me` with the parameters `env`; `none` if there are
more than `fuel` calls of `__init__` in one another. -/
def create (deps : Deps) (cd : List (Nat × List Nat)) : Nat → List (Nat × Nat) → Nat → (Nat → Option Nat) → St → Option (Nat × St)
  | 0, _, _, _, _ => none
  | fuel + 1, stack, me, env, st =>
    match fields cd me st.objs.length env ((me, st.objs.length) :: stack)
        (create deps cd fuel ((me, st.objs.length) :: stack)) (next deps me) { st with objs := st.objs ++ [me] } with
    | none => none
    | some st' => some (st.objs.length, st')

/-- A witness made by other code, which passes None for all `W_x` (the `opts` of `NExt`,
WitKnots.hs:156-160). -/
def make (deps : Deps) (fuel w : Nat) (st : St) : Option (Nat × St) :=
  create deps (cycledeps deps) fuel [] w (fun _ => none) st

end Verif.Knots
