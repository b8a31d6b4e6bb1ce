/-!
# Model: parsing of command lines (base/src/argparse.act)

Strings are lists of code points. The string operations used (`startswith`, `find`, slices, `in`) are those of the areas Str
and Slice and are written with list functions here. A dictionary is a list of pairs with distinct keys in order of insertion.
Lists of strings are objects: they are shared by the default of an option and the result, and `append` changes them in place
(lines 485-491, 517-523, 561-567, 622-628), so values refer to a heap of lists. `int(val)` is a parameter `pi`
(`none`: ValueError). Not modelled: the texts of help and of exceptions (`print_usage`, `get_usage`, lines 340-394), `prog`, `left`, and the
state of a parser after an exception.
-/
namespace Verif.Argparse

/-- A string: its code points. -/
abbrev Txt := List Nat

/-- The types of options (lines 309, 314): "bool" of `add_bool`; "int", "str" and "strlist" of `add_option`. -/
inductive OTy
  | bool | int | str | strlist
  deriving DecidableEq, Repr

/-- Values of options; a list is a reference to the heap. -/
inductive Val
  | bool (b : Bool) | int (n : Int) | str (s : Txt) | list (r : Nat)
  deriving DecidableEq, Repr

/-- `nargs` of a positional argument (line 328): "?", "+", "*", anything else. -/
inductive Nargs
  | one | many | star | other
  deriving DecidableEq, Repr

/-- The exceptions: ArgumentError, its subclass PrintUsage (lines 217-221), and builtin ones. -/
inductive Err
  | argument | usage | key | index | value
  deriving DecidableEq, Repr

/-- An entry of `Parser.opts` (line 285); `name`, `nargs`, `help` and `short` play no role in parsing. -/
structure Spec where
  ty : OTy
  dflt : Option Val
  deriving DecidableEq, Repr

/-- An entry of `Parser.args` (line 287). -/
structure Arg where
  name : Txt
  required : Bool
  nargs : Nargs
  deriving DecidableEq, Repr

/-! `Parser` (lines 283-297). `add_cmd` makes a new parser each time, so parsers form a tree. The handler of a command is
a number. -/
mutual
inductive Parser
  | mk (opts : List (Txt × Spec)) (shorts : List (Nat × Txt)) (args : List Arg) (cmds : Cmds)
inductive Cmds
  | nil
  | cons (name : Txt) (fn : Nat) (p : Parser) (more : Cmds)
end

/-- Lookup in a dictionary. -/
def get {α β} [DecidableEq α] : List (α × β) → α → Option β
  | [], _ => none
  | (k, v) :: d, x => if k = x then some v else get d x

/-- Assignment in a dictionary. -/
def put {α β} [DecidableEq α] : List (α × β) → α → β → List (α × β)
  | [], x, w => [(x, w)]
  | (k, v) :: d, x, w => if k = x then (k, w) :: d else (k, v) :: put d x w

/-- Lookup in `cmds`. -/
def Cmds.get : Cmds → Txt → Option (Nat × Parser)
  | .nil, _ => none
  | .cons n f p r, x => if n = x then some (f, p) else r.get x

/-- Assignment in `cmds`. -/
def Cmds.put : Cmds → Txt → Nat → Parser → Cmds
  | .nil, x, g, q => .cons x g q .nil
  | .cons n f p r, x, g, q => if n = x then .cons n g q r else .cons n f p (r.put x g q)

/-- `Parser(cmd)`, lines 291-297. -/
def empty : Parser := .mk [] [] [] .nil

/-- The check of the short name in lines 300-307 and 317-324. `isalnum` is for one character: `alnum`. -/
def addShort (alnum : Nat → Bool) (shorts : List (Nat × Txt)) (name : Txt) : Option Txt → Except Err (List (Nat × Txt))
  | none => .ok shorts
  | some [c] => if alnum c then
      match get shorts c with
      | some _ => .error .argument
      | none => .ok (put shorts c name)
    else .error .argument
  | some _ => .error .argument

/-- `add_bool`, lines 299-309. -/
def addBool (alnum : Nat → Bool) : Parser → Txt → Option Txt → Except Err Parser
  | .mk opts shorts args cmds, name, short => do
    let shorts ← addShort alnum shorts name short
    .ok (.mk (put opts name ⟨.bool, some (.bool false)⟩) shorts args cmds)

/-- `add_option`, lines 311-326. A type of another name is an error (line 314), as is "bool". -/
def addOption (alnum : Nat → Bool) : Parser → Txt → OTy → Option Val → Option Txt → Except Err Parser
  | .mk opts shorts args cmds, name, ty, dflt, short =>
    match get opts name with
    | some _ => .error .argument
    | none => match ty with
      | .bool => .error .argument
      | ty => do
        let shorts ← addShort alnum shorts name short
        .ok (.mk (put opts name ⟨ty, dflt⟩) shorts args cmds)

/-- `add_arg`, lines 328-333. -/
def addArg : Parser → Txt → Bool → Nargs → Except Err Parser
  | .mk opts shorts args cmds, name, required, nargs =>
    if (nargs = .many ∨ nargs = .star) ∧ ∃ a ∈ args, a.nargs = .many ∨ a.nargs = .star then .error .argument
    else .ok (.mk opts shorts (args ++ [⟨name, required, nargs⟩]) cmds)

/-- `add_cmd`, lines 335-338, together with what is done to the new parser afterwards. -/
def addCmd : Parser → Txt → Nat → Parser → Parser
  | .mk opts shorts args cmds, name, fn, child => .mk opts shorts args (cmds.put name fn child)

/-- `Args` (lines 224-232), and the heap of lists. `cmd_parser` only serves the help text. -/
structure Args where
  options : List (Txt × OTy × Val)
  heap : List (List Txt)
  cmd : Option Nat
  deriving DecidableEq, Repr

/-- `res.options[key] = ("type"=ty, "value"=v)`. -/
def Args.set (a : Args) (key : Txt) (ty : OTy) (v : Val) : Args := { a with options := put a.options key (ty, v) }

/-- Lines 485-491 (and 517-523, 561-567, 622-628): the list in the options, if there is one, or a new one; append; assign. -/
def appendTo (a : Args) (key : Txt) (v : Txt) : Args :=
  match get a.options key with
  | some (_, .list r) => { a with heap := a.heap.modify r (· ++ [v]) }.set key .strlist (.list r)
  | _ => { a with heap := a.heap ++ [[v]] }.set key .strlist (.list a.heap.length)

/-- Lines 475-491, 509-523, 553-567: store the value of an option. -/
def store (pi : Txt → Option Int) (a : Args) (key : Txt) (ty : OTy) (v : Txt) : Except Err Args :=
  match ty with
  | .bool => .ok (a.set key .bool (.bool true))
  | .int => match pi v with
    | some n => .ok (a.set key .int (.int n))
    | none => .error .argument
  | .str => .ok (a.set key .str (.str v))
  | .strlist => .ok (appendTo a key v)

/-- Lines 434-437: the defaults of the options. -/
def optDefaults : List (Txt × Spec) → Args → Args
  | [], a => a
  | (k, s) :: r, a => optDefaults r (match s.dflt with
    | some v => a.set k s.ty v
    | none => a)

/-- Lines 438-441: the defaults of the positional arguments. -/
def argDefaults : List Arg → Args → Args
  | [], a => a
  | g :: r, a => argDefaults r (
    if g.required = false ∧ g.nargs = .many then
      { a with heap := a.heap ++ [[]] }.set g.name .strlist (.list a.heap.length)
    else a)

/-- The variables of the loop of lines 443-600: `res`, `rest`, the command found (`cmd_parser`). -/
structure St where
  res : Args
  rest : List Txt
  sel : Option Txt
  deriving DecidableEq, Repr

/-- Lines 454-494: an argument that begins with `--`; `nxt` is `argv[p+1]`. The number is what is added to `skip`. -/
def long (pi : Txt → Option Int) (opts : List (Txt × Spec)) (arg : Txt) (nxt : Option Txt) (s : St) :
    Except Err (St × Nat) :=
  let body := arg.drop 2
  let key := body.takeWhile (· ≠ 61)
  match get opts key with
  | none => .ok ({ s with rest := s.rest ++ [arg] }, 0)
  | some spec =>
    if spec.ty = .bool then .ok ({ s with res := s.res.set key .bool (.bool true) }, 0)
    else if 61 ∈ body then do
      let a ← store pi s.res key spec.ty ((body.dropWhile (· ≠ 61)).drop 1)
      .ok ({ s with res := a }, 0)
    else match nxt with
      | none => .error .argument
      | some v => do
        let a ← store pi s.res key spec.ty v
        .ok ({ s with res := a }, 1)

/-- Lines 527-572: the loop over the characters of a group; returns the options, the unknown characters, and what is added
to `skip`. -/
def group (pi : Txt → Option Int) (opts : List (Txt × Spec)) (shorts : List (Nat × Txt)) (nxt : Option Txt) :
    Txt → Args → Txt → Except Err (Args × Txt × Nat)
  | [], a, unk => .ok (a, unk, 0)
  | c :: cs, a, unk =>
    match get shorts c with
    | none => group pi opts shorts nxt cs a (unk ++ [c])
    | some key => match get opts key with
      | none => .error .key
      | some spec =>
        if spec.ty = .bool then group pi opts shorts nxt cs (a.set key .bool (.bool true)) unk
        else if cs ≠ [] then .error .argument
        else match nxt with
          | none => .error .argument
          | some v => do
            let a ← store pi a key spec.ty v
            .ok (a, unk, 1)

/-- Lines 575-579: the unknown characters are passed on. -/
def passOn (s : St) (r : Args × Txt × Nat) : St × Nat :=
  (if r.2.1 = [] then { s with res := r.1 } else { s with res := r.1, rest := s.rest ++ [45 :: r.2.1] }, r.2.2)

/-- Lines 527-585: a group of short options. -/
def grouped (pi : Txt → Option Int) (opts : List (Txt × Spec)) (shorts : List (Nat × Txt)) (cs : Txt) (nxt : Option Txt)
    (s : St) : Except Err (St × Nat) := do
  let r ← group pi opts shorts nxt cs s.res []
  .ok (passOn s r)

/-- Lines 495-585: an argument `-` followed by `cs`. -/
def short (pi : Txt → Option Int) (opts : List (Txt × Spec)) (shorts : List (Nat × Txt)) (cs : Txt) (nxt : Option Txt)
    (s : St) : Except Err (St × Nat) :=
  match cs with
  | c :: d :: more => match get shorts c with
    | none => grouped pi opts shorts cs nxt s
    | some key => match get opts key with
      | none => .error .key
      | some spec =>
        if spec.ty ≠ .bool then do
          let a ← store pi s.res key spec.ty (d :: more)
          .ok ({ s with res := a }, 0)
        else grouped pi opts shorts cs nxt s
  | _ => grouped pi opts shorts cs nxt s

/-- Lines 586-600: a command or another argument. -/
def word (cmds : Cmds) (arg : Txt) (s : St) : St :=
  match cmds.get arg with
  | some (f, _) => match s.sel with
    | none => { s with res := { s.res with cmd := some f }, sel := some arg }
    | some _ => { s with rest := s.rest ++ [arg] }
  | none => { s with rest := s.rest ++ [arg] }

/-- The body of the loop for an argument other than `--`. -/
def step (pi : Txt → Option Int) (opts : List (Txt × Spec)) (shorts : List (Nat × Txt)) (cmds : Cmds) (arg : Txt)
    (nxt : Option Txt) (s : St) : Except Err (St × Nat) :=
  match arg with
  | 45 :: 45 :: _ => long pi opts arg nxt s
  | 45 :: c :: cs => short pi opts shorts (c :: cs) nxt s
  | _ => .ok (word cmds arg s, 0)

/-- The loop of lines 443-600: `n` iterations are left, `p` is the position `i + skip`. -/
def loop (pi : Txt → Option Int) (opts : List (Txt × Spec)) (shorts : List (Nat × Txt)) (cmds : Cmds) (argv : List Txt) :
    Nat → Nat → St → Except Err St
  | 0, _, s => .ok s
  | n + 1, p, s =>
    match argv[p]? with
    | none => .ok s
    | some arg =>
      if arg = [45, 45] then .ok { s with rest := s.rest ++ argv.drop (p + 1) }
      else match step pi opts shorts cmds arg argv[p + 1]? s with
        | .error e => .error e
        | .ok (s', k) => loop pi opts shorts cmds argv n (p + k + 1) s'

/-- Lines 609-631: the positional arguments; returns the options, what is left of `self.args`, and the rest. -/
def place : List Txt → List Arg → Args → List Txt → Args × List Arg × List Txt
  | [], gs, a, rest => (a, gs, rest)
  | w :: ws, [], a, rest => place ws [] a (rest ++ [w])
  | w :: ws, g :: gs, a, rest =>
    match g.nargs with
    | .one => place ws gs (a.set g.name .str (.str w)) rest
    | .many => place ws (if ws.length = gs.length then gs else g :: gs) (appendTo a g.name w) rest
    | _ => place ws (g :: gs) a rest

/-- The result of `_parse_and_consume`, with the parser afterwards. -/
structure Outcome where
  res : Args
  rest : List Txt
  after : Parser

/-- The result of running the parser of a command, with the commands afterwards. -/
structure CmdOutcome where
  res : Args
  rest : List Txt
  after : Cmds

/-- Lines 607-633: what is done with the positional arguments. -/
def finish (opts : List (Txt × Spec)) (shorts : List (Nat × Txt)) (args : List Arg) (c : CmdOutcome) : Outcome :=
  let r := place c.rest args c.res []
  ⟨r.1, r.2.2, .mk opts shorts r.2.1 c.after⟩

/-- The loop of lines 443-600 from its beginning. -/
def scan (pi : Txt → Option Int) (opts : List (Txt × Spec)) (shorts : List (Nat × Txt)) (args : List Arg) (cmds : Cmds)
    (argv : List Txt) (a : Args) : Except Err St :=
  loop pi opts shorts cmds argv argv.length 0 ⟨argDefaults args (optDefaults opts a), [], none⟩

mutual
/-- `_parse_and_consume`, lines 424-633. -/
def consume (pi : Txt → Option Int) : Parser → List Txt → Args → Except Err Outcome
  | .mk opts shorts args cmds, argv, a =>
    match scan pi opts shorts args cmds argv a with
    | .error e => .error e
    | .ok s => match s.sel with
      | none => .ok (finish opts shorts args ⟨s.res, s.rest, cmds⟩)
      | some n => match runCmd pi cmds n s.rest s.res with
        | .error e => .error e
        | .ok c => .ok (finish opts shorts args c)

/-- Lines 603-605: `_parse_and_consume` of the parser of the command. -/
def runCmd (pi : Txt → Option Int) : Cmds → Txt → List Txt → Args → Except Err CmdOutcome
  | .nil, _, _, _ => .error .key
  | .cons n f p r, x, argv, a =>
    if n = x then
      match consume pi p argv a with
      | .error e => .error e
      | .ok o => .ok ⟨o.res, o.rest, .cons n f o.after r⟩
    else
      match runCmd pi r x argv a with
      | .error e => .error e
      | .ok c => .ok ⟨c.res, c.rest, .cons n f p c.after⟩
end

/-- `Args.get_bool`, lines 234-244. -/
def Args.getBool (a : Args) (key : Txt) : Except Err Bool :=
  match get a.options key with
  | none => .error .argument
  | some (.bool, .bool b) => .ok b
  | some _ => .error .value

/-- `Args.get_int`, lines 246-256. -/
def Args.getInt (a : Args) (key : Txt) : Except Err Int :=
  match get a.options key with
  | none => .error .argument
  | some (.int, .int n) => .ok n
  | some _ => .error .value

/-- `Args.get_str`, lines 258-268. -/
def Args.getStr (a : Args) (key : Txt) : Except Err Txt :=
  match get a.options key with
  | none => .error .argument
  | some (.str, .str s) => .ok s
  | some _ => .error .value

/-- `Args.get_strlist`, lines 270-280: the contents of the list that it returns. -/
def Args.getStrlist (a : Args) (key : Txt) : Except Err (List Txt) :=
  match get a.options key with
  | none => .error .argument
  | some (.strlist, .list r) => .ok (a.heap[r]?.getD [])
  | some _ => .error .value

/-- "help" -/
def help : Txt := [104, 101, 108, 112]

/-- Lines 400-403: `--help` is added when there is none. -/
def withHelp : Parser → Parser × Bool
  | .mk opts shorts args cmds =>
    match get opts help with
    | some _ => (.mk opts shorts args cmds, false)
    | none => (.mk (put opts help ⟨.bool, some (.bool false)⟩) shorts args cmds, true)

/-- Lines 413-416. -/
def checkHelp (injected : Bool) (o : Outcome) : Except Err Unit :=
  if injected then do
    if (← o.res.getBool help) then .error .usage else .ok ()
  else .ok ()

/-- `self.args`. -/
def Parser.args : Parser → List Arg
  | .mk _ _ args _ => args

/-- `self.opts`. -/
def Parser.opts : Parser → List (Txt × Spec)
  | .mk opts _ _ _ => opts

/-- `self.short_opts`. -/
def Parser.shorts : Parser → List (Nat × Txt)
  | .mk _ shorts _ _ => shorts

/-- `self.cmds`. -/
def Parser.cmds : Parser → Cmds
  | .mk _ _ _ cmds => cmds

/-- Lines 418-420. -/
def checkArgs (o : Outcome) : Except Err Unit :=
  if ∃ g ∈ o.after.args, g.required = true ∧ get o.res.options g.name = none then .error .argument else .ok ()

/-- `parse`, lines 396-422, at the top level, with lists `heap` made before. Returns the result and the parser
afterwards. -/
def parse (pi : Txt → Option Int) (p : Parser) (heap : List (List Txt)) : List Txt → Except Err (Args × Parser)
  | [] => .error .index
  | _ :: argv => do
    let o ← consume pi (withHelp p).1 argv ⟨[], heap, none⟩
    checkHelp (withHelp p).2 o
    checkArgs o
    .ok (o.res, o.after)

end Verif.Argparse
