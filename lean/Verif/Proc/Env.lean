import Mathlib.Data.List.Basic
import Verif.Proc.Run
/-!
# Model of the environment of a process; C168

base/src/process.act:100-108 with `_get_env_path`, base/src/process.ext.c:261-285, and the part of
`_create_process` that builds `options->env`, 118-137. A dict is the list of its items, in the
order of its iteration, with distinct keys. Strings are their bytes in UTF-8. Environments are
what `execve` takes: a list of byte strings. Not modelled: a PATH of the program that is not
UTF-8.
-/
namespace Verif.Proc.Env

/-- A dict of strings. -/
abbrev Dict := List (Bytes × Bytes)

/-- The bytes of "PATH". -/
def path : Bytes := [80, 65, 84, 72]

/-- `getenv`: what follows "name=" in the first entry that begins so. -/
def getenv (name : Bytes) : List Bytes → Option Bytes
  | [] => none
  | e :: es => if name ++ [61] <+: e then some (e.drop (name.length + 1)) else getenv name es

/-- Lookup in a dict. -/
def get (k : Bytes) : Dict → Option Bytes
  | [] => none
  | (a, v) :: d => if a = k then some v else get k d

/-- `new["PATH"] = v` in a copy of a dict without it. -/
def add (d : Dict) (v : Bytes) : Dict := d ++ [(path, v)]

/-- `new_env`, base/src/process.act:100-108; `parent` is the environment of the program. -/
def newEnv (parent : List Bytes) : Option Dict → Option Dict
  | none => none
  | some d => if get path d = none then
      match getenv path parent with
      | none => some d
      | some v => some (add d v)
    else some d

/-- A C string: up to the first zero byte. -/
def cstr (b : Bytes) : Bytes := b.takeWhile (· ≠ 0)

/-- An entry, base/src/process.ext.c:126-133. -/
def entry (kv : Bytes × Bytes) : Bytes := cstr kv.1 ++ [61] ++ cstr kv.2

/-- The environment of the process; libuv passes its own if `options->env` is NULL. -/
def child (parent : List Bytes) (env : Option Dict) : List Bytes :=
  match newEnv parent env with
  | none => parent
  | some d => d.map entry

end Verif.Proc.Env
