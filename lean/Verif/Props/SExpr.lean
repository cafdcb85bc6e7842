import Verif.SExprLemmas2
import Verif.Props.Builder
/-!
# C58: the S-expression parser of the tutorial
-/
namespace Rowan.SExpr

section
variable {env : HashEnv} {cacheOf : Nat → Nat} {b : Nat} {w w' : World} {l₀ l : List (WOp × BOut)}

/-- C58: the lexer cuts every text into tokens, in the only way that fits the description of the tokens. -/
theorem C58_lex (text : List Char) :
    ((lex text).map (·.2)).flatten = text ∧ (∀ t ∈ lex text, Lexed t) ∧ Maximal (lex text) ∧
      ∀ ts : List Tok, (ts.map (·.2)).flatten = text → (∀ t ∈ ts, Lexed t) → Maximal ts → ts = lex text := by
  refine ⟨lexLoop_text _ _ (Nat.le_refl _), lexLoop_lexed _ _, lexLoop_maximal _ _, ?_⟩
  rintro ts rfl h1 h2
  exact (lexLoop_unique _ ts h1 h2 (Nat.le_refl _)).symm

/-- **C58.** Whatever the tokens are, the parser does not panic and does not run forever: there is a bound on the steps
of its loops.  Its tree has exactly these tokens, in this order, and it is a tree of the grammar.  The errors are one
for every stray closing parenthesis, then one for every list that is not closed. -/
theorem C58_parse {fuel : Nat} {ts : List Tok} {r : Res (List Msg)} (h₀ : Run env cacheOf {} l₀ w)
    (hb : w.builders b = {}) (hl : ∀ t ∈ ts, t.1.isLexed = true) (hf : 3 * ts.length + 3 ≤ fuel)
    (h : (parse' fuel ts).Exec env cacheOf b w l w' r) :
    ∃ n stray missing, rootsOf b l = [n] ∧ n.tree.leaves = ts.map (fun t => (t.1.raw, t.2)) ∧ IsFile n.tree stray missing ∧
      r = .ok (List.replicate stray .unmatched ++ List.replicate missing .expected) := by
  obtain ⟨t, x, y, h1, h2, h3⟩ := parse'_spec hl hf
  have he := h.eval (h₀.inv (worldInv_init env cacheOf))
  rw [hb, show Builder.abs {} = {} from rfl, h1] at he
  simp only [Prod.mk.injEq] at he
  obtain ⟨-, e1, e2⟩ := he
  cases hr : rootsOf b l with
  | nil => simp [hr] at e1
  | cons n ns =>
    cases ns with
    | cons _ _ => simp [hr] at e1
    | nil =>
      simp [hr] at e1
      subst e1
      exact ⟨n, x, y, rfl, h2, h3, e2.symm⟩

theorem lex_length (text : List Char) : (lex text).length ≤ text.length := by
  obtain ⟨e1, e2, _⟩ := C58_lex text
  have : ∀ ts : List Tok, (∀ t ∈ ts, Lexed t) → ts.length ≤ ((ts.map (·.2)).flatten).length := by
    intro ts
    induction ts with
    | nil => simp
    | cons t ts ih =>
      intro ht
      obtain ⟨c, cs, e, _⟩ := (ht t (by simp)).head
      have := ih fun x hx => ht x (by simp [hx])
      simp only [List.map_cons, List.flatten_cons, e, List.length_append, List.length_cons]
      omega
  have := this _ e2
  rwa [e1] at this

/-- C58: the tree of a text has this text, and there are no errors if and only if the parentheses are balanced. -/
theorem C58_text {fuel : Nat} {text : List Char} {r : Res (List Msg)} (h₀ : Run env cacheOf {} l₀ w)
    (hb : w.builders b = {}) (hf : 3 * text.length + 3 ≤ fuel) (h : (parse fuel text).Exec env cacheOf b w l w' r) :
    ∃ n errors, rootsOf b l = [n] ∧ n.tree.text = text ∧ r = .ok errors ∧ (errors = [] ↔ Balanced (lex text)) := by
  obtain ⟨e1, e2, _⟩ := C58_lex text
  have hlen := lex_length text
  obtain ⟨n, x, y, h1, h2, h3, h4⟩ := C58_parse h₀ hb (fun t ht => (e2 t ht).isLexed) (by omega) h
  refine ⟨n, _, h1, ?_, h4, ?_⟩
  · rw [Tree.text_leaves, h2]
    simpa [List.map_map, Function.comp_def] using e1
  · have := h3.scans
    rw [h2] at this
    have hbal := scans_balanced (lex text) 0 0
    rw [show scans (0, 0) (raws (lex text)) = (y, x) from this] at hbal
    simp only [Prod.mk.injEq, Nat.zero_add] at hbal
    rw [Balanced, ← hbal]
    simp; omega

/-- C58: the grammar is not ambiguous.  So the tree, too, is the only one for these tokens, and any two ways of
counting parentheses agree. -/
theorem C58_unique {t t' : Tree} {n m n' m' : Nat} (h : IsFile t n m) (h' : IsFile t' n' m')
    (e : t.leaves = t'.leaves) : t = t' ∧ n = n' ∧ m = m' := by
  have h1 := h.feed
  have h2 := h.scans
  rw [e, h'.feed] at h1
  rw [e, h'.scans] at h2
  cases h1; cases h2
  exact ⟨rfl, rfl, rfl⟩

/-- C58: these theorems are about executions that exist, from every reachable state of a program. -/
theorem C58_runs_exist (h₀ : Run env cacheOf {} l₀ w) (b fuel : Nat) (text : List Char) :
    ∃ l w' r, (parse fuel text).Exec env cacheOf b w l w' r :=
  BProg.exec_exists _ w (h₀.inv (worldInv_init env cacheOf)) (h₀.bounded (worldInv_init env cacheOf) bounded_init)

end

/-! ### A concrete case -/

/-- `(+ 1) )(` has one stray parenthesis, and one is missing. -/
example : IsFile (.node 7 [.node 5 [.token 0 ['('], .node 6 [.token 2 ['+']], .token 3 [' '], .node 6 [.token 2 ['1']], .token 1 [')']],
    .token 3 [' '], .node 4 [.token 1 [')']], .node 5 [.token 0 ['(']]]) 1 1 :=
  ⟨[_, _, _], [_], rfl, .closed (.list _ _ [_, _, _] (by
    simp only [List.mem_cons, List.not_mem_nil, or_false, forall_eq_or_imp, forall_eq]
    exact ⟨.atom _, .space _, .atom _⟩)) (.closed (.space _) (.stray _ .nil)), .unclosed [] _ 1 (by simp) (.list _ _ 0 (.closed _ (by simp)))⟩
example : lex "(+ 1) )(".toList = [(.lParen, ['(']), (.word, ['+']), (.whitespace, [' ']), (.word, ['1']), (.rParen, [')']),
    (.whitespace, [' ']), (.rParen, [')']), (.lParen, ['('])] := by decide
/-- The program on an empty builder without cache. -/
example : (parse 40 "(+ 1) )(".toList).eval {} = ({}, [.node 7 [.node 5 [.token 0 ['('], .node 6 [.token 2 ['+']], .token 3 [' '],
    .node 6 [.token 2 ['1']], .token 1 [')']], .token 3 [' '], .node 4 [.token 1 [')']], .node 5 [.token 0 ['(']]]],
    .ok [.unmatched, .expected]) := by decide +kernel
theorem demo_balanced : Balanced (lex "(+ (* 15 2) 62)".toList) := by
  have := (scans_balanced (lex "(+ (* 15 2) 62)".toList) 0 0).mp (by decide +kernel)
  simpa only [Balanced, Nat.zero_add] using this
/-- The parser in a program whose cache sees only collisions. -/
example : ∃ l w' n, (parse 100 "(+ (* 15 2) 62)".toList).Exec (constEnv 5) id 0 {} l w' (.ok []) ∧ rootsOf 0 l = [n] ∧
    n.tree.text = "(+ (* 15 2) 62)".toList := by
  obtain ⟨l, w', r, h⟩ := C58_runs_exist (env := constEnv 5) (cacheOf := id) (.nil {}) 0 100 "(+ (* 15 2) 62)".toList
  obtain ⟨n, es, h1, h2, h3, h4⟩ := C58_text (.nil {}) rfl (by decide) h
  rw [h3, h4.mpr demo_balanced] at h
  exact ⟨l, w', n, h, h1, h2⟩

end Rowan.SExpr
