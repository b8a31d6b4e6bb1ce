import Verif.Lift.Model

/-!
# Nested functions and their scopes

An evaluator in which inner functions find the variables of enclosing functions in their frames
(`ev`), used for the program as written (`FEnv`) and, with no enclosing functions, for the lifted
program; and the programs in which no inner name hides an outer one (`Scoped`).
-/

namespace Verif.Lift

/-- The local variables of a call. -/
abbrev Frame := List (Nm × Nat)

/-- A variable is that of the innermost frame that has it. -/
def look : List Frame → Nm → Option Nat
  | [], _ => none
  | fr :: fs, x => match fr.lookup x with
    | some v => some v
    | none => look fs x

/-- Assignment is to the innermost frame. -/
def set : List Frame → Nm → Nat → List Frame
  | [], x, v => [[(x, v)]]
  | fr :: fs, x, v => ((x, v) :: fr) :: fs

/-- What evaluation gives: a number, several numbers, or the frames and the number returned. -/
def Res : Srt → Type
  | .e => Nat
  | .es => List Nat
  | .s => List Frame × Option Nat
  | .ds => Unit

/-- How functions are found: parameters, body, the functions known to the body, and how many frames
enclose it; and what is known after a group of declarations. -/
structure Lang (φ E : Type) where
  find : E → φ → Option (List Nm × Syn φ .s × E × Nat)
  push : E → Syn φ .ds → Nat → E

/-- The test of `if` and `while`. -/
def zero : Res .e → Bool
  | (0 : Nat) => true
  | (_ + 1 : Nat) => false

/-- Evaluation, `n` calls and statements deep.  `I` says what the operations do, `γ` what the names
of the module are.  A function that does not return gives `0`. -/
def ev {φ E : Type} (Λ : Lang φ E) (I : Nat → List Nat → Option Nat) (γ : Nm → Option Nat) :
    Nat → E → List Frame → {s : Srt} → Syn φ s → Option (Res s)
  | 0, _, _, _, _ => none
  | _ + 1, _, fs, _, .var x => match look fs x with
    | some v => some v
    | none => γ x
  | n + 1, Φ, fs, _, .op k as => (ev Λ I γ n Φ fs as).bind fun vs => I k vs
  | n + 1, Φ, fs, _, .call f as =>
    (ev Λ I γ n Φ fs as).bind fun vs => (Λ.find Φ f).bind fun d =>
      if d.1.length = vs.length then
        (ev Λ I γ n d.2.2.1 (d.1.zip vs :: fs.drop (fs.length - d.2.2.2)) d.2.1).map
          fun r => r.2.getD 0
      else none
  | _ + 1, _, _, _, .enil => some []
  | n + 1, Φ, fs, _, .econs a as =>
    (ev Λ I γ n Φ fs a).bind fun v => (ev Λ I γ n Φ fs as).map fun vs => v :: vs
  | _ + 1, _, fs, _, .done => some (fs, none)
  | n + 1, Φ, fs, _, .assign x a r =>
    (ev Λ I γ n Φ fs a).bind fun v => ev Λ I γ n Φ (set fs x v) r
  | n + 1, Φ, fs, _, .ifs c b1 b2 r =>
    (ev Λ I γ n Φ fs c).bind fun v =>
      (if zero v then ev Λ I γ n Φ fs b2 else ev Λ I γ n Φ fs b1).bind fun q =>
        match q.2 with
        | some _ => some q
        | none => ev Λ I γ n Φ q.1 r
  | n + 1, Φ, fs, _, .whl c b r =>
    (ev Λ I γ n Φ fs c).bind fun v =>
      if zero v then ev Λ I γ n Φ fs r
      else (ev Λ I γ n Φ fs b).bind fun q =>
        match q.2 with
        | some _ => some q
        | none => ev Λ I γ n Φ q.1 (.whl c b r)
  | n + 1, Φ, fs, _, .ret a _ => (ev Λ I γ n Φ fs a).map fun v => (fs, some v)
  | n + 1, Φ, fs, _, .decl ds r => ev Λ I γ n (Λ.push Φ ds fs.length) fs r
  | _ + 1, _, _, _, .dnil => some ()
  | _ + 1, _, _, _, .dcons _ _ _ _ => some ()

/-- The functions known at a place: those of the module, and groups declared inside `k` frames. -/
inductive FEnv where
  | top (ds : Syn Nm .ds)
  | group (ds : Syn Nm .ds) (k : Nat) (outer : FEnv)

/-- The innermost function of a name. -/
def FEnv.find : FEnv → Nm → Option (List Nm × Syn Nm .s × FEnv × Nat)
  | .top ds, f => (ds.defs.lookup f).map fun d => (d.1, d.2, .top ds, 0)
  | .group ds k Φ, f => match ds.defs.lookup f with
    | some d => some (d.1, d.2, .group ds k Φ, k)
    | none => Φ.find f

/-- The program as written. -/
def src : Lang Nm FEnv := ⟨FEnv.find, fun Φ ds k => .group ds k Φ⟩

/-- The lifted program: all functions are known everywhere, and none is inside another. -/
def tgt (T : List TDef) : Lang TName Unit :=
  ⟨fun _ f => (T.lookup f).map fun d => (d.1, d.2, (), 0), fun _ _ _ => ()⟩

/-- The function `f` of the module on given numbers. -/
def runSrc (I : Nat → List Nat → Option Nat) (γ : Nm → Option Nat) (n : Nat) (ds : Syn Nm .ds)
    (f : Nm) (vs : List Nat) : Option Nat :=
  (src.find (.top ds) f).bind fun d =>
    if d.1.length = vs.length then
      (ev src I γ n d.2.2.1 [d.1.zip vs] d.2.1).map fun r => r.2.getD 0
    else none

/-- The function `f` of the lifted module on given numbers. -/
def runTgt (I : Nat → List Nat → Option Nat) (γ : Nm → Option Nat) (n : Nat) (T : List TDef)
    (f : Nm) (vs : List Nat) : Option Nat :=
  ((tgt T).find () (.top f)).bind fun d =>
    if d.1.length = vs.length then
      (ev (tgt T) I γ n () [d.1.zip vs] d.2.1).map fun r => r.2.getD 0
    else none

namespace Syn

/-- The variables that a suite assigns. -/
def vars : {s : Srt} → Syn Nm s → List Nm
  | _, .done => []
  | _, .assign x _ r => x :: r.vars
  | _, .ifs _ b1 b2 r => b1.vars ++ b2.vars ++ r.vars
  | _, .whl _ b r => b.vars ++ r.vars
  | _, .ret _ r => r.vars
  | _, .decl _ r => r.vars
  | _, _ => []

/-- The end of a suite can be reached: it does not return on every way. -/
def through : {s : Srt} → Syn Nm s → Bool
  | _, .done => true
  | _, .assign _ _ r => r.through
  | _, .ifs _ b1 b2 r => (b1.through || b2.through) && r.through
  | _, .whl _ _ r => r.through
  | _, .ret _ _ => false
  | _, .decl _ r => r.through
  | _, _ => false

/-- The variables that a suite has assigned when it reaches its end. -/
def sure : {s : Srt} → Syn Nm s → List Nm
  | _, .done => []
  | _, .assign x _ r => x :: r.sure
  | _, .ifs _ b1 b2 r =>
    (if b1.through then (if b2.through then b1.sure.filter (· ∈ b2.sure) else b1.sure)
      else if b2.through then b2.sure else []) ++ r.sure
  | _, .whl _ _ r => r.sure
  | _, .ret _ r => r.sure
  | _, .decl _ r => r.sure
  | _, _ => []

/-- Nothing is hidden, and inner functions use only variables that have a value.  `V` are the names
of all enclosing scopes, `W` those of them that are variables of a function, `D` those that have been
assigned. -/
def Scoped : {s : Srt} → (V W : Nm → Prop) → (D : List Nm) → Syn Nm s → Prop
  | _, V, W, D, .assign x _ r => r.Scoped V W (x :: D)
  | _, V, W, D, .ifs c b1 b2 r => b1.Scoped V W D ∧ b2.Scoped V W D ∧
      r.Scoped V W ((Syn.ifs c b1 b2 .done).sure ++ D)
  | _, V, W, D, .whl _ b r => b.Scoped V W D ∧ r.Scoped V W D
  | _, V, W, D, .ret _ r => r.Scoped V W D
  | _, V, W, D, .decl ds r => ds.names.Nodup ∧ ds.Scoped V W D ∧ r.Scoped V W D
  | _, V, W, D, .dcons _ ps b ds =>
      (∀ x ∈ ps ++ b.assigned, ¬ V x) ∧
      (∀ x ∈ freeDef ps b, V x ∧ (W x → x ∈ D)) ∧
      b.Scoped (fun x => V x ∨ x ∈ ps ++ b.assigned) (fun x => W x ∨ x ∈ ps ++ b.vars) (ps ++ D) ∧
      ds.Scoped V W D
  | _, _, _, _, _ => True

end Syn

/-- A module in which no inner name hides an outer one; `G` are its names other than functions, and
those it imports. -/
def ScopedModule (G : Nm → Prop) (ds : Syn Nm .ds) : Prop :=
  ds.names.Nodup ∧ ds.Scoped (fun x => G x ∨ x ∈ ds.names) (fun _ => False) []

/-- From `f`, a function of the group whose free names include `x` can be reached by following free
names. -/
inductive Reach (F : FMap) : Nm → Nm → Prop where
  | here {f vs x} : F.lookup f = some vs → x ∈ vs → Reach F f x
  | step {f vs g x} : F.lookup f = some vs → g ∈ vs → Reach F g x → Reach F f x

end Verif.Lift
