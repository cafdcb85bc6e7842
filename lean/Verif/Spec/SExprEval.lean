import Verif.SExprEval
import Verif.Spec.SExpr
import Verif.Spec.Traverse
/-!
# Specification: what S-expressions mean

Expressions are numbers and operations on two expressions; their values are integers without bounds.  `Denotes` says
which trees are expressions.  `Evaluates` is the evaluation of trees with 64-bit integers, step by step.
-/
namespace Rowan

mutual
/-- The number of elements of a tree. -/
def Tree.size : Tree → Nat
  | .token _ _ => 1
  | .node _ cs => 1 + Tree.sizes cs
def Tree.sizes : List Tree → Nat
  | [] => 0
  | t :: ts => t.size + Tree.sizes ts
end

namespace SExpr

/-! ### Words -/

/-- The number that a sequence of digits stands for. -/
def decimal (ds : List Char) : Nat := ds.foldl (fun n c => 10 * n + (c.toNat - 48)) 0

/-- Digits with or without a sign. -/
inductive Numeral : List Char → Int → Prop
  | plain (ds) : ds ≠ [] → (∀ c ∈ ds, c.isDigit = true) → Numeral ds (decimal ds)
  | plus (ds) : ds ≠ [] → (∀ c ∈ ds, c.isDigit = true) → Numeral ('+' :: ds) (decimal ds)
  | minus (ds) : ds ≠ [] → (∀ c ∈ ds, c.isDigit = true) → Numeral ('-' :: ds) (-(decimal ds : Int))

/-- The range of `i64`. -/
def Fits (n : Int) : Prop := -2 ^ 63 ≤ n ∧ n < 2 ^ 63

/-- The four operators. -/
inductive Operator : List Char → Op → Prop
  | add : Operator ['+'] .add
  | sub : Operator ['-'] .sub
  | mul : Operator ['*'] .mul
  | div : Operator ['/'] .div

/-! ### Expressions -/

inductive Exp where
  | num (n : Int)
  | op (o : Op) (a b : Exp)

/-- The exact result; there is none if the second number is zero in a division.  Division rounds towards zero. -/
def Op.exact : Op → Int → Int → Option Int
  | .add, x, y => some (x + y)
  | .sub, x, y => some (x - y)
  | .mul, x, y => some (x * y)
  | .div, x, y => if y = 0 then none else some (x.tdiv y)

/-- The value of an expression, calculated without bounds. -/
def Exp.value : Exp → Option Int
  | num n => some n
  | op o a b => do
    let x ← a.value
    let y ← b.value
    o.exact x y

/-- All numbers that come up are in the range of `i64`. -/
def Exp.AllFit : Exp → Prop
  | num n => Fits n
  | op o a b => a.AllFit ∧ b.AllFit ∧ ∀ n, (op o a b).value = some n → Fits n

/-- The elements of a list or file that are atoms or lists: not white space, parentheses and errors. -/
def items (ts : List Tree) : List Tree := ts.filter fun t => t.isNode && (t.kind == Kind.atom.raw || t.kind == Kind.list.raw)

/-- A number is an expression, if it is in the range of `i64`; so is a list that starts with an operator and two
expressions.  What else is in the list does not matter, nor whether it is closed. -/
inductive Denotes : Tree → Exp → Prop
  | num {s n k ts} : Numeral s n → Fits n → Denotes (.node Kind.atom.raw (.token k s :: ts)) (.num n)
  | op {ts s o a b x y more k us} : items ts = .node Kind.atom.raw (.token k s :: us) :: a :: b :: more → Operator s o →
      Denotes a x → Denotes b y → Denotes (.node Kind.list.raw ts) (.op o x y)

/-! ### Evaluation with 64-bit integers -/

/-- The outcome of an operation whose exact result is `n`: with overflow checks (`ck`) it is `n` or a panic; without, the
number in the range that is equal to it modulo 2^64, except that a division whose result is out of range panics. -/
def Rounds (ck : Bool) (o : Op) (n : Int) : Res Int → Prop
  | .ok m => Fits m ∧ (m = n ∨ (ck = false ∧ o ≠ .div ∧ ∃ q : Int, m = n + q * 2 ^ 64))
  | .panic => ¬ Fits n ∧ (ck = true ∨ o = .div)
  | _ => False

/-- `Evaluates ck t r`: the outcome of evaluating `t` from left to right.  `r = .ok none` stands for "no value". -/
inductive Evaluates (ck : Bool) : Tree → Res (Option Int) → Prop
  /-- a number -/
  | num {s n k ts} : Numeral s n → Fits n → Evaluates ck (.node Kind.atom.raw (.token k s :: ts)) (.ok (some n))
  /-- any other word -/
  | word {s k ts} : (∀ n, Numeral s n → ¬ Fits n) → Evaluates ck (.node Kind.atom.raw (.token k s :: ts)) (.ok none)
  /-- a list that does not start with an operator -/
  | noOp {ts} : (∀ k s us more, items ts = .node Kind.atom.raw (.token k s :: us) :: more → ∀ o, ¬ Operator s o) →
      Evaluates ck (.node Kind.list.raw ts) (.ok none)
  /-- a list that consists of an operator only -/
  | noArg {ts s o k us} : Operator s o → items ts = [.node Kind.atom.raw (.token k s :: us)] →
      Evaluates ck (.node Kind.list.raw ts) (.ok none)
  /-- a list that consists of an operator and one operand -/
  | oneArg {ts s o k us a x} : Operator s o → items ts = [.node Kind.atom.raw (.token k s :: us), a] →
      Evaluates ck a (.ok (some x)) → Evaluates ck (.node Kind.list.raw ts) (.ok none)
  /-- the first operand has no value, or its evaluation panics -/
  | left {ts s o k us a more r} : Operator s o → items ts = .node Kind.atom.raw (.token k s :: us) :: a :: more →
      Evaluates ck a r → (∀ x, r ≠ .ok (some x)) → Evaluates ck (.node Kind.list.raw ts) r
  /-- the first operand has a value, the second has not, or its evaluation panics -/
  | right {ts s o k us a b more x r} : Operator s o → items ts = .node Kind.atom.raw (.token k s :: us) :: a :: b :: more →
      Evaluates ck a (.ok (some x)) → Evaluates ck b r → (∀ x, r ≠ .ok (some x)) → Evaluates ck (.node Kind.list.raw ts) r
  /-- division by zero -/
  | zero {ts s o k us a b more x y} : Operator s o → items ts = .node Kind.atom.raw (.token k s :: us) :: a :: b :: more →
      Evaluates ck a (.ok (some x)) → Evaluates ck b (.ok (some y)) → o.exact x y = none →
      Evaluates ck (.node Kind.list.raw ts) (.ok none)
  /-- both operands have values -/
  | op {ts s o k us a b more x y n r} : Operator s o → items ts = .node Kind.atom.raw (.token k s :: us) :: a :: b :: more →
      Evaluates ck a (.ok (some x)) → Evaluates ck b (.ok (some y)) → o.exact x y = some n → Rounds ck o n r →
      Evaluates ck (.node Kind.list.raw ts) (r >>= fun m => .ok (some m))

/-- The outcomes one after the other; after a panic nothing is evaluated. -/
inductive EvaluatesAll (ck : Bool) : List Tree → Res (List (Option Int)) → Prop
  | nil : EvaluatesAll ck [] (.ok [])
  | cons {t ts v r} : Evaluates ck t (.ok v) → EvaluatesAll ck ts r → EvaluatesAll ck (t :: ts) (r >>= fun vs => .ok (v :: vs))
  | panic {t ts} : Evaluates ck t .panic → EvaluatesAll ck (t :: ts) .panic

/-- The list `u` is an operation; its operands have the values `x` and `y`. -/
def Operands (ck : Bool) (u : Tree) (o : Op) (x y : Int) : Prop :=
  ∃ ts s k us a b more, u = .node Kind.list.raw ts ∧ items ts = .node Kind.atom.raw (.token k s :: us) :: a :: b :: more ∧
    Operator s o ∧ Evaluates ck a (.ok (some x)) ∧ Evaluates ck b (.ok (some y))

/-- A tree that the evaluator can read: all kinds of nodes are kinds of the language, and every atom starts with a token. -/
inductive Readable : Tree → Prop
  | token {k : SyntaxKind} {s} : Readable (.token k s)
  | atom {k : SyntaxKind} {s ts} : (∀ t ∈ ts, Readable t) → Readable (.node Kind.atom.raw (.token k s :: ts))
  | node {k : Kind} {ts} : k ≠ .atom → (∀ t ∈ ts, Readable t) → Readable (.node k.raw ts)

/-- What a program does whose outcome is `v` and that keeps no handles. -/
def Ends {α : Type} (p : RProg α) (r : Nat) (s : HSt) (gs : List GElem) (n : Nat) (J : List Live) (rest lk : List Nat)
    (v : Res α) : Prop :=
  (∃ a, v = .ok a ∧ p.Returns r s gs n J rest lk fun b N => b = a ∧ N = []) ∨ (v = .panic ∧ p.Panics r s gs n J rest lk)

end SExpr
end Rowan
