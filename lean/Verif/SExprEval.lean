import Verif.SExpr
import Verif.Traverse
/-!
# The evaluator of S-expressions — model of `examples/s_expressions.rs`, lines 46-56 and 248-384

The evaluator walks over the syntax tree with typed handles.  Here it is a reading program (`Verif/Program.lean`): every
`clone()` of a handle is there, and every drop.  Temporaries are dropped at the end of the statement, as in Rust; in
what order those of one statement are dropped is not modelled.  Handles that are still alive when the code panics stay
alive: unwinding is not modelled.
-/
namespace Rowan.SExpr
open Prog

/-- `kind_from_raw`: `assert!(raw.0 <= ROOT as u16)`, then a `transmute` — examples/s_expressions.rs:49-52. -/
def Kind.ofRaw (raw : SyntaxKind) : Option Kind :=
  [lParen, rParen, word, whitespace, error, list, atom, root].find? (·.raw = raw)

/-- `SyntaxNode::kind` — src/api.rs:112-114. -/
def kindOf (h : Nat) : RProg Kind := do
  match Kind.ofRaw (← look h).kind with
  | some k => pure k
  | none => .panic

/-! ### Casts -/

/-- `X::cast(node.clone()).is_some()` for `X` = `Atom` or `List` — examples/s_expressions.rs:258-260, 282. -/
def isCast (kind : Kind) (h : Nat) : RProg Bool := do
  let c ← clone h
  let k ← kindOf c
  drop c
  pure (k = kind)

/-- `Sexp::cast`; takes the handle — examples/s_expressions.rs:281-287. -/
def sexpCast (h : Nat) : RProg (Option Nat) := do
  if ← isCast .atom h then pure (some h)
  else if ← isCast .list h then pure (some h)
  else do
    drop h
    pure none

/-- `enum SexpKind` — examples/s_expressions.rs:275-278. -/
inductive SexpKind where
  | atom (h : Nat)
  | list (h : Nat)

/-- `Sexp::kind` — examples/s_expressions.rs:289-294. -/
def sexpKind (h : Nat) : RProg SexpKind := do
  let c ← clone h
  if (← kindOf c) = .atom then pure (.atom c)
  else do
    drop c
    let c ← clone h
    if (← kindOf c) = .list then pure (.list c)
    else .panic

/-- `next` of `self.0.children().filter_map(Sexp::cast)` — examples/s_expressions.rs:301, 336; `k` bounds the number of
rounds. -/
def sexpsNext : Nat → Kids → RProg (Option Nat × Kids)
  | 0, _ => .diverge
  | k + 1, it => do
    match ← kidsNext true it with
    | (none, it) => pure (none, it)
    | (some c, it) => do
      match ← sexpCast c with
      | some x => pure (some x, it)
      | none => sexpsNext k it

/-- `self.sexps().nth(i)` (`Iterator::nth`, standard library): it drops `i` items and returns the next one.
(Used at examples/s_expressions.rs:339-344.) -/
def sexpsNth (k : Nat) : Nat → Kids → RProg (Option Nat × Kids)
  | 0, it => sexpsNext k it
  | i + 1, it => do
    match ← sexpsNext k it with
    | (none, it) => pure (none, it)
    | (some x, it) => do
      drop x
      sexpsNth k i it

/-! ### Atoms -/

/-- `enum Op` — examples/s_expressions.rs:305-310. -/
inductive Op where
  | add | sub | div | mul
deriving DecidableEq, Repr

/-- `Atom::text` — examples/s_expressions.rs:326-331. -/
def atomText (h : Nat) : RProg (List Char) := do
  match (← look h).green with
  | .token _ => .panic
  | .node g =>
    match g.slice.head?.map GChild.asRef with
    | some (.token t) => pure t.text
    | _ => .panic

/-- `Atom::as_op` — examples/s_expressions.rs:316-325. -/
def asOp (h : Nat) : RProg (Option Op) := do
  let s ← atomText h
  pure (
    if s = ['+'] then some .add
    else if s = ['-'] then some .sub
    else if s = ['*'] then some .mul
    else if s = ['/'] then some .div
    else none)

/-- The values of type `i64`. (The type of examples/s_expressions.rs:313-357.) -/
def inI64 (n : Int) : Bool := -9223372036854775808 ≤ n && n ≤ 9223372036854775807

/-- `checked_mul`, `checked_add`, `checked_sub` (standard library).
(Inside `parse`, called at examples/s_expressions.rs:314.) -/
def checked (n : Int) : Option Int := if inI64 n then some n else none

/-- `char::to_digit(10)` on a byte (standard library). (Inside `parse`, called at examples/s_expressions.rs:314.) -/
def digit (c : Char) : Option Int := if '0' ≤ c ∧ c ≤ '9' then some (c.toNat - 48) else none

/-- The loop of `i64::from_str` (standard library, `from_str_radix`). (Called at examples/s_expressions.rs:314.) -/
def parseDigits (neg : Bool) : Int → List Char → Option Int
  | acc, [] => some acc
  | acc, c :: cs => do
    let d ← digit c
    let acc ← checked (acc * 10)
    let acc ← checked (if neg then acc - d else acc + d)
    parseDigits neg acc cs

/-- `str::parse::<i64>().ok()` (standard library): an optional sign and at least one digit.
(Called at examples/s_expressions.rs:314.) -/
def parseI64 : List Char → Option Int
  | [] => none
  | ['+'] | ['-'] => none
  | '+' :: cs => parseDigits false 0 cs
  | '-' :: cs => parseDigits true 0 cs
  | cs => parseDigits false 0 cs

/-- `Atom::eval` — examples/s_expressions.rs:313-315. -/
def atomEval (h : Nat) : RProg (Option Int) := do pure (parseI64 (← atomText h))

/-! ### Lists -/

/-- `+`, `-`, `*` on `i64`: with overflow checks (`ck`) a panic, else the result modulo 2^64.
(examples/s_expressions.rs:345-350.) -/
def arith (ck : Bool) (n : Int) : RProg Int :=
  if inI64 n then pure n
  else if ck then .panic
  else pure ((n + 9223372036854775808) % 18446744073709551616 - 9223372036854775808)

/-- `match op { … }` — examples/s_expressions.rs:345-351.  Division of `i64` rounds towards zero; `i64::MIN / -1`
panics in every build. -/
def apply (ck : Bool) (a b : Int) : Op → RProg (Option Int)
  | .add => do pure (some (← arith ck (a + b)))
  | .sub => do pure (some (← arith ck (a - b)))
  | .mul => do pure (some (← arith ck (a * b)))
  | .div =>
    if b = 0 then pure none
    else if a = -9223372036854775808 ∧ b = -1 then .panic
    else pure (some (a.tdiv b))

/-- `match self.sexps().nth(0)?.kind() { Atom(atom) => atom.as_op()?, _ => return None }` —
examples/s_expressions.rs:339-342. -/
def listOp (k : Nat) (h : Nat) : RProg (Option Op) := do
  let it ← kids h
  let (x, it) ← sexpsNth k 0 it
  match x with
  | none => do
    kidsDrop it
    pure none
  | some x => do
    match ← sexpKind x with
    | .atom c => do
      let o ← asOp c
      drop c
      drop x
      kidsDrop it
      pure o
    | .list c => do
      drop c
      drop x
      kidsDrop it
      pure none

/-- `self.sexps().nth(i)?.eval()` — examples/s_expressions.rs:343-344; `ev` is `Sexp::eval`. -/
def listArg (k : Nat) (ev : Nat → RProg (Option Int)) (i : Nat) (h : Nat) : RProg (Option Int) := do
  let it ← kids h
  let (x, it) ← sexpsNth k i it
  match x with
  | none => do
    kidsDrop it
    pure none
  | some x => do
    let v ← ev x
    drop x
    kidsDrop it
    pure v

/-- `List::eval` — examples/s_expressions.rs:338-353. -/
def listEval (ck : Bool) (k : Nat) (ev : Nat → RProg (Option Int)) (h : Nat) : RProg (Option Int) := do
  match ← listOp k h with
  | none => pure none
  | some op => do
    match ← listArg k ev 1 h with
    | none => pure none
    | some arg1 => do
      match ← listArg k ev 2 h with
      | none => pure none
      | some arg2 => apply ck arg1 arg2 op

/-- `Sexp::eval` — examples/s_expressions.rs:356-363.  The bound is for the depth of the recursion and for the loops. -/
def sexpEval (ck : Bool) : Nat → Nat → RProg (Option Int)
  | 0, _ => .diverge
  | fuel + 1, h => do
    match ← sexpKind h with
    | .atom c => do
      let v ← atomEval c
      drop c
      pure v
    | .list c => do
      let v ← listEval ck (fuel + 1) (sexpEval ck fuel) c
      drop c
      pure v

/-! ### Files -/

/-- `collect` of `root.sexps().map(|it| it.eval())` — examples/s_expressions.rs:381. -/
def collect (ck : Bool) (fuel : Nat) : Nat → Kids → RProg (List (Option Int))
  | 0, _ => .diverge
  | k + 1, it => do
    match ← sexpsNext fuel it with
    | (none, it) => do
      kidsDrop it
      pure []
    | (some x, it) => do
      let v ← sexpEval ck fuel x
      drop x
      let vs ← collect ck fuel k it
      pure (v :: vs)

/-- `parse(…).root()` after `self.syntax()` has made the handle, and `root.sexps().map(|it| it.eval()).collect()` —
examples/s_expressions.rs:365-369, 380-381. -/
def evalFile (ck : Bool) (fuel : Nat) (h : Nat) : RProg (List (Option Int)) := do
  if (← kindOf h) = .root then do
    let it ← kids h
    collect ck fuel fuel it
  else .panic

end Rowan.SExpr
