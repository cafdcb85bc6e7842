import Verif.Math
import Verif.Spec.Leaves
/-!
# Specification: what arithmetic expressions look like as trees

The kinds are those of `enum SyntaxKind` in `examples/math.rs`.
-/
namespace Rowan.Math

/-- White space. -/
def Space (ts : List Tree) : Prop := ∀ t ∈ ts, ∃ s, t = .token Kind.whitespace.raw s

/-- An operand, after white space: a number, or a token that is none in an error node, or an empty error node where the
input ends (`missing`). -/
inductive Val : List Tree → Bool → Prop
  | number (ws s) : Space ws → Val (ws ++ [.token Kind.number.raw s]) false
  | error (ws) (k : Kind) (s) : Space ws → k ≠ .number → k ≠ .whitespace →
      Val (ws ++ [.node Kind.error.raw [.token k.raw s]]) false
  | missing (ws) : Space ws → Val (ws ++ [.node Kind.error.raw []]) true

/-- Operands joined by operators that are in `ops`, grouped to the left.  Only the last operand can be missing. -/
inductive Chain (ops : List Kind) (gap : List Tree → Prop) (operand : List Tree → Bool → Prop) : List Tree → Bool → Prop
  | one {us missing} : operand us missing → Chain ops gap operand us missing
  | op {us ws k vs missing} (s) : Chain ops gap operand us false → gap ws → k ∈ ops → operand vs missing →
      Chain ops gap operand [.node Kind.operation.raw (us ++ ws ++ .token k.raw s :: vs)] missing

/-- Products and quotients of operands. -/
abbrev Product := Chain [.mul, .div] Space Val

/-- A product with the white space behind it. -/
def Term (us : List Tree) (missing : Bool) : Prop :=
  ∃ vs ws, us = vs ++ ws ∧ Product vs missing ∧ Space ws ∧ (missing = true → ws = [])

/-- Sums and differences of terms. -/
abbrev Sum := Chain [.add, .sub] (· = []) Term

/-- `t` is an expression. -/
def IsExpr (t : Tree) (missing : Bool) : Prop := ∃ us, t = .node Kind.root.raw us ∧ Sum us missing

/-- An expression ends before these tokens: they do not begin with white space or an operator. -/
def Ends (rest : List Tok) : Prop :=
  ∀ k ∈ rest.head?.map (·.1), k ≠ .whitespace ∧ k ≠ .add ∧ k ≠ .sub ∧ k ≠ .mul ∧ k ≠ .div

/-! ### Arithmetic -/

/-- A sum of products, as one writes it: a first operand, then operators with their operands. -/
structure Expr where
  first : List Char × List (Kind × List Char)
  more : List (Kind × (List Char × List (Kind × List Char)))

/-- The tokens of a product.  (Operators have any text.) -/
def productTokens (text : Kind → List Char) (p : List Char × List (Kind × List Char)) : List Tok :=
  (.number, p.1) :: p.2.flatMap fun x => [(x.1, text x.1), (.number, x.2)]

/-- The tokens of a sum of products. -/
def Expr.tokens (text : Kind → List Char) (e : Expr) : List Tok :=
  productTokens text e.first ++ e.more.flatMap fun x => (x.1, text x.1) :: productTokens text x.2

/-- The operators are where they belong. -/
def Expr.Ok (e : Expr) : Prop :=
  (∀ x ∈ e.first.2, x.1 = .mul ∨ x.1 = .div) ∧
    ∀ x ∈ e.more, (x.1 = .add ∨ x.1 = .sub) ∧ ∀ y ∈ x.2.2, y.1 = .mul ∨ y.1 = .div

section
variable {α : Type} (num : List Char → α) (ap : Kind → α → α → α)

/-- The value of a product, from the left. -/
def productValue (p : List Char × List (Kind × List Char)) : α :=
  p.2.foldl (fun v x => ap x.1 v (num x.2)) (num p.1)

/-- The value of a sum of products, from the left: products first. -/
def Expr.value (e : Expr) : α :=
  e.more.foldl (fun v x => ap x.1 v (productValue num ap x.2)) (productValue num ap e.first)

/-- Is it something other than white space? -/
def solid (t : Tree) : Bool := t.isNode || t.kind != Kind.whitespace.raw

/-- The value of a tree: that of the operands, with the operator of the node; white space does not count. -/
inductive Means : Tree → α → Prop
  | num (s) : Means (.token Kind.number.raw s) (num s)
  | op {cs a b s x y} (k : Kind) : cs.filter solid = [a, .token k.raw s, b] → Means a x → Means b y →
      Means (.node Kind.operation.raw cs) (ap k x y)
  | root {cs a x} : cs.filter solid = [a] → Means a x → Means (.node Kind.root.raw cs) x

end
end Rowan.Math
