import Verif.Deact.Props
/-!
# C137: methods of actors keep their meaning, and where they do not
-/
namespace Verif.Deact

variable {V : Type}

/-- The environment in which the deactorizer works on the methods of an actor (Deactorizer.hs:136-152). -/
def Scope.env (sc : Scope) : Env := ⟨sc.wrapped, sc.stvars, sc.names, []⟩

/-- **C137.** A method does the same before and behind the deactorizer: it returns the same value and leaves
the same attributes, whatever its calls do and whatever closures are, if

* its parameters are no state variables,
* its local variables have no names of the actor, and neither have those of nested functions,
* lambdas in dictionaries and sets mention no state variables,
* statements with a lambda over state variables have calls only at the root. -/
theorem C137_partial (I : Interp V) (sc : Scope) (hsc : sc.Ok) (aft : Aft) (haft : aft ∉ sc.stvars) (k : Nat)
    (ps : List Name) (b : Stms) (hp : ∀ p ∈ ps, p ∉ sc.stvars)
    (hb : ∀ m ∈ assigneds b, m ∉ sc.stvars → m ∉ ps → m ∉ sc.names)
    (ht : Tidy sc (binds sc ps b) b) (G : Frame V) (vs : List V) (σ : St V) :
    tcall I k G ps (deMethod aft sc.env ps b) vs σ = call I sc aft k G ps b vs σ := by
  have hf0 : Fits sc sc.env [] := ⟨by simp [Scope.env], by simp [Scope.env], rfl, by simp [Scope.env]⟩
  have hf := hf0.defn (ps := ps) (b := b) ⟨hp, fun m h1 h2 h3 => .inl (hb m h1 h2 h3)⟩
  rw [List.append_nil] at hf
  have hfree := binds_free (sc := sc) (B := []) (ps := ps) (b := b) (by simp) hp
  rw [List.append_nil] at hfree
  have hass := binds_assigned sc [] ps b
  rw [List.append_nil] at hass
  exact (runs_ok I sc hsc aft haft k b (shadow ps sc.env) (binds sc ps b) (bindAll I ps vs G) (bindAll I ps vs G) σ
    ⟨hf, hfree, fun _ _ => rfl, by simp [shadow, Scope.env]⟩ rfl ht hass).result I

/-- A loop: the attributes are the same however many turns it takes. -/
theorem C137_loop_partial (I : Interp V) (sc : Scope) (hsc : sc.Ok) (aft : Aft) (haft : aft ∉ sc.stvars)
    (ps : List Name) (b : Stms) (hp : ∀ p ∈ ps, p ∉ sc.stvars)
    (hb : ∀ m ∈ assigneds b, m ∉ sc.stvars → m ∉ ps → m ∉ sc.names)
    (ht : Tidy sc (binds sc ps b) b) (G : Frame V) (vs : List V) (σ : St V) (v : V × St V) :
    (∃ k0, ∀ k, k0 ≤ k → call I sc aft k G ps b vs σ = v) ↔
      ∃ k0, ∀ k, k0 ≤ k → tcall I k G ps (deMethod aft sc.env ps b) vs σ = v := by
  simp only [C137_partial I sc hsc aft haft _ ps b hp hb ht]

/-! ## A case that meets the conditions, and cases that violate them -/

/-- Numbers, and functions that read the attributes. -/
inductive Val
  | int (i : Int)
  | fn (f : List Int → (Attr → Int) → Int)

def Val.toInt : Val → Int
  | .int i => i
  | .fn _ => 0

/-- Names: `x` is a state variable, `c` a constant, `f` a method. -/
abbrev x : Name := 0
abbrev c : Name := 1
abbrev f : Name := 2
/-- Local names -/
abbrev g : Name := 5
abbrev d : Name := 6
/-- Names defined elsewhere: `$AFTERf`, and a function that adds one to `x` -/
abbrev aftN : Name := 8
abbrev inc : Name := 9

abbrev scA : Scope := ⟨[x, c, f], [x], [f]⟩

/-- Calls of `inc` add one to `x`; calls of functions read the attributes; `tup 0` has the value of its last element. -/
def I0 : Interp Val where
  lit := .int
  tup := fun _ vs => vs.getLastD (.int 0)
  dict := fun vs => vs.getLastD (.int 0)
  app := fun v vs σ =>
    match v with
    | .int _ => (.int 0, put σ (x, false) (.int ((σ (x, false)).toInt + 1)))
    | .fn h => (.int (h (vs.map Val.toInt) fun a => (σ a).toInt), σ)
  clo := fun F => .fn fun vs s => (F (vs.map .int) fun a => .int (s a)).1.toInt
  truth := fun v => v.toInt ≠ 0
  none := .int 0

/-- `x` is 1, all other attributes are 3. -/
def σ0 : St Val := fun a => .int (if a.1 = x then 1 else 3)

def G0 : Frame Val := fun _ => .int 7

abbrev seq : List Stm → Stms := List.foldr Stms.cons .nil

/-- `g = lambda: x + y; x = 2; inc(); after 1: f(x); return g()` -/
def okBody : Stms := seq [.assign g (.lam [] (.tup 0 [.var inc, .var x])), .assign x (.lit 2), .expr (.app (.var inc) []),
  .after (.lit 1) (.app (.var f) [.var x]), .ret (.app (.var g) [])]

example : scA.Ok ∧ aftN ∉ scA.stvars ∧ (∀ p ∈ ([] : List Name), p ∉ scA.stvars) ∧
    (∀ m ∈ assigneds okBody, m ∉ scA.stvars → m ∉ ([] : List Name) → m ∉ scA.names) ∧ Tidy scA (binds scA [] okBody) okBody := by
  refine ⟨⟨by decide, by decide⟩, by decide, by decide, by decide, ?_⟩
  simp [okBody, Tidy, TidyS, Steady, Seen, Seens, SimpleS, Simple, Calm, Calms, lamfreeS, lamfree, lamfrees, free, frees]

/-- It returns the value that `x` had when the lambda was made. -/
example : (call I0 scA aftN 0 G0 [] okBody [] σ0).1 = .int 1 ∧
    (tcall I0 0 G0 [] (deMethod aftN scA.env [] okBody) [] σ0).1 = .int 1 := ⟨rfl, rfl⟩

/-- `def m(x): g = lambda: x; return x` where `x` is also a state variable: the parameter is overwritten by the
state variable that is sampled for the lambda. -/
theorem C137_refuted_parameter :
    let b := seq [.assign g (.lam [] (.var x)), .ret (.var x)]
    (call I0 scA aftN 0 G0 [x] b [.int 42] σ0).1 = .int 42 ∧
    (tcall I0 0 G0 [x] (deMethod aftN scA.env [x] b) [.int 42] σ0).1 = .int 1 := ⟨rfl, rfl⟩

/-- `def m(): c = 5; return 0` where `c` is also a variable of the actor: the attribute is overwritten. -/
theorem C137_refuted_variable :
    let b := seq [.assign c (.lit 5), .ret (.lit 0)]
    (call I0 scA aftN 0 G0 [] b [] σ0).2 (c, false) = .int 3 ∧
    (tcall I0 0 G0 [] (deMethod aftN scA.env [] b) [] σ0).2 (c, false) = .int 5 := ⟨rfl, rfl⟩

/-- `def m(): def f(): return 10; return f()` where `f` is also a method of the actor: the method is called. -/
theorem C137_refuted_function :
    let b := seq [.defn f [] (seq [.ret (.lit 10)]), .ret (.app (.var f) [])]
    (call I0 scA aftN 0 G0 [] b [] σ0).1 = .int 10 ∧
    (tcall I0 0 G0 [] (deMethod aftN scA.env [] b) [] σ0).1 = .int 0 := ⟨rfl, rfl⟩

/-- `d = {..: lambda: x}; x = 2; return d[..]()`: the lambda does not keep the value of `x`; in a list it does. -/
theorem C137_refuted_dict :
    let b (e : Ex) := seq [.assign d e, .assign x (.lit 2), .ret (.app (.var d) [])]
    let b1 := b (.dict [.lam [] (.var x)])
    let b2 := b (.tup 0 [.lam [] (.var x)])
    (call I0 scA aftN 0 G0 [] b1 [] σ0).1 = .int 1 ∧
    (tcall I0 0 G0 [] (deMethod aftN scA.env [] b1) [] σ0).1 = .int 2 ∧
    (call I0 scA aftN 0 G0 [] b2 [] σ0).1 = .int 1 ∧
    (tcall I0 0 G0 [] (deMethod aftN scA.env [] b2) [] σ0).1 = .int 1 := ⟨rfl, rfl, rfl, rfl⟩

/-- `return (lambda: x, inc(), x)`: the last `x` is the value before `inc()`; without the lambda it is the value
behind it. -/
theorem C137_refuted_sampled :
    let b1 := seq [.ret (.tup 0 [.lam [] (.var x), .app (.var inc) [], .var x])]
    let b2 := seq [.ret (.tup 0 [.app (.var inc) [], .var x])]
    (call I0 scA aftN 0 G0 [] b1 [] σ0).1 = .int 2 ∧
    (tcall I0 0 G0 [] (deMethod aftN scA.env [] b1) [] σ0).1 = .int 1 ∧
    (tcall I0 0 G0 [] (deMethod aftN scA.env [] b2) [] σ0).1 = .int 2 := ⟨rfl, rfl, rfl⟩

end Verif.Deact
