import Verif.Argparse.Model
/-!
# Specification: command lines

What a command line means, after the documentation at the beginning of base/src/argparse.act (lines 1-183).
-/
namespace Verif.Argparse

/-- Parsers made with `add_bool`, `add_option`, `add_arg` and `add_cmd`. -/
inductive Built (alnum : Nat → Bool) : Parser → Prop
  | empty : Built alnum empty
  | bool {p q n s} : Built alnum p → addBool alnum p n s = .ok q → Built alnum q
  | option {p q n t d s} : Built alnum p → addOption alnum p n t d s = .ok q → Built alnum q
  | arg {p q n r k} : Built alnum p → addArg p n r k = .ok q → Built alnum q
  | cmd {p c n f} : Built alnum p → Built alnum c → Built alnum (addCmd p n f c)

/-- Values of options, lists by their contents. -/
inductive DVal
  | bool (b : Bool) | int (n : Int) | str (s : Txt) | list (l : List Txt)
  deriving DecidableEq, Repr

/-- What options are set to. -/
abbrev Env := Txt → Option (OTy × DVal)

/-- The contents of a value. -/
def contents (heap : List (List Txt)) : Val → DVal
  | .bool b => .bool b
  | .int n => .int n
  | .str s => .str s
  | .list r => .list (heap[r]?.getD [])

/-- The options of a result. -/
def view (a : Args) : Env := fun k => (get a.options k).map fun tv => (tv.1, contents a.heap tv.2)

/-- Change of one option. -/
def upd (m : Env) (k : Txt) (v : OTy × DVal) : Env := fun x => if x = k then some v else m x

/-- The strings that a list option has so far. -/
def sofar (m : Env) (k : Txt) : List Txt :=
  match m k with
  | some (_, .list l) => l
  | _ => []

/-- Giving the option `k` of type `ty` on the command line, with value `v`: the last value counts, lists collect all;
`none`: no number. -/
def assign (pi : Txt → Option Int) (m : Env) (k : Txt) (ty : OTy) (v : Txt) : Option Env :=
  match ty with
  | .bool => some (upd m k (.bool, .bool true))
  | .int => (pi v).map fun n => upd m k (.int, .int n)
  | .str => some (upd m k (.str, .str v))
  | .strlist => some (upd m k (.strlist, .list (sofar m k ++ [v])))

/-- An option that is given: its name, type and value. -/
structure Given where
  name : Txt
  ty : OTy
  v : Txt

/-- Several options, one after the other. -/
def assignAll (pi : Txt → Option Int) : Env → List Given → Option Env
  | m, [] => some m
  | m, g :: gs => match assign pi m g.name g.ty g.v with
    | none => none
    | some m' => assignAll pi m' gs

/-- The defaults. -/
def defaults (opts : List (Txt × Spec)) (heap : List (List Txt)) (m : Env) : Env := fun k =>
  match get opts k with
  | some ⟨ty, some v⟩ => some (ty, contents heap v)
  | _ => m k

/-- The defaults of positional arguments: the empty list. -/
def argDefs (args : List Arg) (m : Env) : Env := fun k =>
  if ∃ g ∈ args, g.name = k ∧ g.required = false ∧ g.nargs = .many then some (.strlist, .list []) else m k

/-- The lists that are defaults exist, and no two options have the same list object as default. -/
def OwnLists (opts : List (Txt × Spec)) (heap : List (List Txt)) : Prop :=
  ∀ k t r, get opts k = some ⟨t, some (.list r)⟩ →
    r < heap.length ∧ ∀ k' t', get opts k' = some ⟨t', some (.list r)⟩ → k' = k

/-- The parts of a command line: `--name`, `--name=v`, `--name v`, `-abc`, `-cv`, `-abc v`, anything else. -/
inductive Item
  | long (n : Txt)
  | longEq (n v : Txt)
  | longSep (n v : Txt)
  | flags (cs : Txt)
  | inl (c : Nat) (v : Txt)
  | sep (cs : Txt) (c : Nat) (v : Txt)
  | raw (t : Txt)

/-- The arguments of a part. -/
def Item.args : Item → List Txt
  | .long n => [45 :: 45 :: n]
  | .longEq n v => [45 :: 45 :: (n ++ 61 :: v)]
  | .longSep n v => [45 :: 45 :: n, v]
  | .flags cs => [45 :: cs]
  | .inl c v => [45 :: c :: v]
  | .sep cs c v => [45 :: (cs ++ [c]), v]
  | .raw t => [t]

/-- The arguments of several parts. -/
def line (is : List Item) : List Txt := is.flatMap Item.args

/-- `cs` are flags; the options given by them. -/
inductive Flags (opts : List (Txt × Spec)) (shorts : List (Nat × Txt)) : Txt → List Given → Prop
  | nil : Flags opts shorts [] []
  | cons {c cs n d gs} : get shorts c = some n → get opts n = some ⟨.bool, d⟩ → Flags opts shorts cs gs →
      Flags opts shorts (c :: cs) (⟨n, .bool, []⟩ :: gs)

/-- The name of an argument that begins with `--`: up to `=`. -/
def Key (body n : Txt) : Prop := 61 ∉ n ∧ (body = n ∨ ∃ v, body = n ++ 61 :: v)

/-- An argument that the parser does not know: no option of it, no command unless there is one already (`sel`). -/
inductive Unknown (opts : List (Txt × Spec)) (shorts : List (Nat × Txt)) (cmds : Cmds) (sel : Bool) : Txt → Prop
  | long {b n} : b ≠ [] → Key b n → get opts n = none → Unknown opts shorts cmds sel (45 :: 45 :: b)
  | short {c cs} : c ≠ 45 → (∀ x ∈ c :: cs, get shorts x = none) → Unknown opts shorts cmds sel (45 :: c :: cs)
  | dash : (sel = false → cmds.get [45] = none) → Unknown opts shorts cmds sel [45]
  | word {t} : t.head? ≠ some 45 → (sel = false → cmds.get t = none) → Unknown opts shorts cmds sel t

/-- The part is well formed for a parser; the options that it gives; the arguments that are no options. -/
inductive Means (opts : List (Txt × Spec)) (shorts : List (Nat × Txt)) (cmds : Cmds) (sel : Bool) :
    Item → List Given → List Txt → Prop
  | long {n d} : n ≠ [] → 61 ∉ n → get opts n = some ⟨.bool, d⟩ → Means opts shorts cmds sel (.long n) [⟨n, .bool, []⟩] []
  | longEq {n v t d} : 61 ∉ n → get opts n = some ⟨t, d⟩ → t ≠ .bool →
      Means opts shorts cmds sel (.longEq n v) [⟨n, t, v⟩] []
  | longSep {n v t d} : n ≠ [] → 61 ∉ n → get opts n = some ⟨t, d⟩ → t ≠ .bool →
      Means opts shorts cmds sel (.longSep n v) [⟨n, t, v⟩] []
  | flags {cs gs} : cs ≠ [] → Flags opts shorts cs gs → Means opts shorts cmds sel (.flags cs) gs []
  | inl {c n v t d} : v ≠ [] → get shorts c = some n → get opts n = some ⟨t, d⟩ → t ≠ .bool →
      Means opts shorts cmds sel (.inl c v) [⟨n, t, v⟩] []
  | sep {cs gs c n v t d} : Flags opts shorts cs gs → get shorts c = some n → get opts n = some ⟨t, d⟩ → t ≠ .bool →
      Means opts shorts cmds sel (.sep cs c v) (gs ++ [⟨n, t, v⟩]) []
  | raw {t} : Unknown opts shorts cmds sel t → Means opts shorts cmds sel (.raw t) [] [t]

/-- The same for several parts. -/
inductive MeansAll (opts : List (Txt × Spec)) (shorts : List (Nat × Txt)) (cmds : Cmds) (sel : Bool) :
    List Item → List Given → List Txt → Prop
  | nil : MeansAll opts shorts cmds sel [] [] []
  | cons {i is g gs w ws} : Means opts shorts cmds sel i g w → MeansAll opts shorts cmds sel is gs ws →
      MeansAll opts shorts cmds sel (i :: is) (g ++ gs) (w ++ ws)

/-- The end of a command line: nothing, or `--` and arguments that are no options. -/
def ending : Option (List Txt) → List Txt
  | none => []
  | some ws => [45, 45] :: ws

/-- The options of the parser with `--help`. -/
def optsH (p : Parser) : List (Txt × Spec) :=
  match get p.opts help with
  | some _ => p.opts
  | none => put p.opts help ⟨.bool, some (.bool false)⟩

end Verif.Argparse
