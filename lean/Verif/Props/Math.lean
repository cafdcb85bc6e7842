import Verif.MathLemmas2
import Verif.Props.Builder
/-!
# C59: the parser of arithmetic expressions
-/
namespace Rowan.Math

section
variable {env : HashEnv} {cacheOf : Nat → Nat} {b : Nat} {w w' : World} {l₀ l : List (WOp × BOut)}

/-- **C59.** Whatever the tokens are, the parser does not panic and does not run forever.  It reads the tokens up to the
end of an expression (`rest` is what it leaves); its tree has exactly the tokens read, in this order, and is an
expression. -/
theorem C59_parse {fuel : Nat} {ts : List Tok} {r : Res (List Tok)} (h₀ : Run env cacheOf {} l₀ w)
    (hb : w.builders b = {}) (hf : ts.length < fuel) (h : (parse fuel ts).Exec env cacheOf b w l w' r) :
    ∃ n read rest missing, rootsOf b l = [n] ∧ r = .ok rest ∧ ts = read ++ rest ∧
      n.tree.leaves = read.map (fun t => (t.1.raw, t.2)) ∧ IsExpr n.tree missing ∧ (missing = true → rest = []) ∧ Ends rest := by
  obtain ⟨us, m, xs, rest, h1, h2, h3, h4, h5, h6⟩ := parseAdd_sound hf
  have he := h.eval (h₀.inv (worldInv_init env cacheOf))
  rw [hb, show Builder.abs {} = {} from rfl, parse_eval h6] at he
  simp only [Prod.mk.injEq] at he
  obtain ⟨-, e1, e2⟩ := he
  cases hr : rootsOf b l with
  | nil => simp [hr] at e1
  | cons n ns =>
    cases ns with
    | cons _ _ => simp [hr] at e1
    | nil =>
      simp [hr] at e1
      refine ⟨n, xs, rest, m, rfl, e2.symm, h1, ?_, ⟨us, e1.symm, h3⟩, h4, h5⟩
      rw [← e1, Tree.leaves_node, ← h2]
      rfl

/-- C59: the grammar is not ambiguous: there is only one way to read tokens as an expression and a rest. -/
theorem C59_unique {t t' : Tree} {m m' : Bool} {rest rest' : List Tok} (h : IsExpr t m) (h' : IsExpr t' m')
    (hm : m = true → rest = []) (hm' : m' = true → rest' = []) (he : Ends rest) (he' : Ends rest')
    (e : t.leaves ++ rest.map (fun t => (t.1.raw, t.2)) = t'.leaves ++ rest'.map (fun t => (t.1.raw, t.2))) :
    t = t' ∧ rest = rest' := by
  obtain ⟨us, rfl, h1⟩ := h
  obtain ⟨us', rfl, h1'⟩ := h'
  obtain ⟨xs, h2, h3⟩ := parseAdd_complete h1
  obtain ⟨xs', h2', h3'⟩ := parseAdd_complete h1'
  have hx : xs ++ rest = xs' ++ rest' := raws_inj (by
    rw [raws_append, raws_append, h2, h2']
    simpa [raws] using e)
  have i := h3 ((xs ++ rest).length + 1) rest (by omega) hm he
  have i' := h3' ((xs ++ rest).length + 1) rest' (by rw [hx]; omega) hm' he'
  rw [← hx] at i'
  obtain ⟨e1, e2⟩ := i.det i'
  simp only [Prod.mk.injEq, true_and] at e2
  exact ⟨by rw [e1], e2⟩

/-- **C59, precedence.** If the tokens, without the white space, are a sum of products, then all of them are read, and
the tree has the value of this sum: multiplication and division come first, and operators of the same rank apply from
left to right.  This holds for any meaning of numbers and operators. -/
theorem C59_precedence {fuel : Nat} {ts : List Tok} {r : Res (List Tok)} (h₀ : Run env cacheOf {} l₀ w)
    (hb : w.builders b = {}) (hf : ts.length < fuel) (h : (parse fuel ts).Exec env cacheOf b w l w' r)
    {e : Expr} (he : e.Ok) (text : Kind → List Char) (ht : ts.filter (fun t => t.1 != .whitespace) = e.tokens text) :
    ∃ n, rootsOf b l = [n] ∧ r = .ok [] ∧ n.tree.leaves = ts.map (fun t => (t.1.raw, t.2)) ∧
      ∀ {α : Type} (num : List Char → α) (ap : Kind → α → α → α) (v : α), Means num ap n.tree v ↔ v = e.value num ap := by
  obtain ⟨n, read, rest, m, h1, h2, h3, h4, h5, h6, h7⟩ := C59_parse h₀ hb hf h
  have key : ∀ {α : Type} (num : List Char → α) (ap : Kind → α → α → α),
      rest = [] ∧ Means num ap n.tree (e.value num ap) := by
    intro α num ap
    obtain ⟨us, i1, i2, i3⟩ := expr_of num ap text he ht
    obtain ⟨e1, e2⟩ := C59_unique (rest' := []) h5 ⟨us, rfl, i1⟩ h6 (by simp) h7 (by simp [Ends])
      (by rw [h4, ← List.map_append, ← h3]; simpa [raws] using i3.symm)
    exact ⟨e2, e1 ▸ i2⟩
  obtain rfl : rest = [] := (key (α := Unit) (fun _ => ()) (fun _ _ _ => ())).1
  refine ⟨n, h1, h2, by simpa [h3] using h4, fun num ap v => ⟨fun hv => hv.det (key num ap).2, ?_⟩⟩
  rintro rfl
  exact (key num ap).2

/-- C59: the parser is not lossless.  Two numbers next to each other: the second one is not in the tree. -/
theorem C59_lossless_fails : ∃ (t : Tree) (rest : List Tok),
    (parse 3 [(.number, ['1']), (.number, ['2'])]).eval {} = ({}, [t], .ok rest) ∧ t.text = ['1'] ∧ rest ≠ [] :=
  ⟨.node 8 [.token 5 ['1']], [(.number, ['2'])], by decide +kernel, by decide, by decide⟩

/-- C59: these theorems are about executions that exist, from every reachable state of a program. -/
theorem C59_runs_exist (h₀ : Run env cacheOf {} l₀ w) (b fuel : Nat) (ts : List Tok) :
    ∃ l w' r, (parse fuel ts).Exec env cacheOf b w l w' r :=
  BProg.exec_exists _ w (h₀.inv (worldInv_init env cacheOf)) (h₀.bounded (worldInv_init env cacheOf) bounded_init)

end

/-! ### A concrete case: `1 + 2 * 3 + 4` -/

/-- The tokens in `main` — examples/math.rs:131-146. -/
def mainTokens : List Tok := [(.number, ['1']), (.whitespace, [' ']), (.add, ['+']), (.whitespace, [' ']), (.number, ['2']),
  (.whitespace, [' ']), (.mul, ['*']), (.whitespace, [' ']), (.number, ['3']), (.whitespace, [' ']), (.add, ['+']),
  (.whitespace, [' ']), (.number, ['4'])]

def mainExpr : Expr := ⟨(['1'], []), [(.add, (['2'], [(.mul, ['3'])])), (.add, (['4'], []))]⟩

def opText : Kind → List Char
  | .add => ['+']
  | .sub => ['-']
  | .mul => ['*']
  | .div => ['/']
  | _ => []

/-- The tree that the documentation of the example shows (and white space) — examples/math.rs:1-14. -/
example : (parse 14 mainTokens).eval {} = ({}, [.node 8 [.node 7 [.node 7 [.token 5 ['1'], .token 0 [' '], .token 1 ['+'],
    .node 7 [.token 0 [' '], .token 5 ['2'], .token 0 [' '], .token 3 ['*'], .token 0 [' '], .token 5 ['3']],
    .token 0 [' ']], .token 1 ['+'], .token 0 [' '], .token 5 ['4']]]], .ok []) := by decide +kernel
example : mainExpr.Ok := by
  refine ⟨by simp [mainExpr], fun x hx => ?_⟩
  simp [mainExpr] at hx
  rcases hx with rfl | rfl <;> simp
example : mainTokens.filter (fun t => t.1 != .whitespace) = mainExpr.tokens opText := by decide
example : mainExpr.value (fun s => s.length) (fun k x y => if k = .mul then 10 * x * y else x + y) = 12 := by decide
/-- Operands that are missing or wrong. -/
example : (parse 5 [(.add, ['+']), (.mul, ['*']), (.whitespace, [' '])]).eval {} =
    ({}, [.node 8 [.node 7 [.node 6 [.token 1 ['+']], .token 3 ['*'], .token 0 [' '], .node 6 []]]], .ok []) := by decide +kernel
example : ∃ l w' n, (parse 14 mainTokens).Exec (constEnv 5) id 0 {} l w' (.ok []) ∧ rootsOf 0 l = [n] ∧
    n.tree.leaves = mainTokens.map (fun t => (t.1.raw, t.2)) := by
  obtain ⟨l, w', r, h⟩ := C59_runs_exist (env := constEnv 5) (cacheOf := id) (.nil {}) 0 14 mainTokens
  obtain ⟨n, h1, h2, h3, -⟩ := C59_precedence (e := mainExpr) (.nil {}) rfl (by decide) h (by
    refine ⟨by simp [mainExpr], fun x hx => ?_⟩
    simp [mainExpr] at hx
    rcases hx with rfl | rfl <;> simp) opText (by decide)
  exact ⟨l, w', n, h2 ▸ h, h1, h3⟩

end Rowan.Math
