import Verif.MathPrintLemmas
import Verif.Props.Math
import Verif.Props.SExprEval
import Verif.Props.Dump
/-!
# C63: printing the tree of an expression

The model is `Verif/MathPrint.lean`, the specification `Verif/Spec/MathPrint.lean`.  `print` takes its argument by value; the
programs here call it with a clone of a handle, so that the handle stays in use.
-/
namespace Rowan.Math
open RProg Prog

section
variable {s : HSt} {gs : List GElem} {n r : Nat} {J : List Live} {rest lk : List Nat} {dbg : List Char → List Char}

/-- **C63.**  `print(0, element)` for any element of any tree on the heap: if all kinds are known, it prints one line per
element of the tree, in document order; otherwise it panics.  All handles that it makes or takes are dropped. -/
theorem C63_print (h : Running [r] s gs n J rest lk) {j : Live} (hj : j ∈ J) {P : List Nat} (hp : s.Loc j.obj r P) {fuel : Nat}
    (hf : (s.tree j.obj).size ≤ fuel) :
    ∃ v, SExpr.Ends (do let c ← clone j.id; print dbg fuel 0 c) r s gs n J rest lk v ∧
      (∀ out, v = .ok out → Known (s.tree j.obj) ∧ Printed dbg (s.tree j.obj) out) ∧
      (v = .panic → ¬ Known (s.tree j.obj)) := by
  obtain ⟨-, -, hm, -, ht', -⟩ := h.elem hj hp
  refine ⟨outT dbg 0 (s.tree j.obj), ?_, ?_, ?_⟩
  · have hc := (Comp.clone hm fun c => print_comp (dbg := dbg) _ _ 0 hf (.refl _) ht').heap h
    rcases outT_ends (dbg := dbg) 0 (s.tree j.obj) with ⟨a, h1, -⟩ | h1
    · refine .inl ⟨a, h1, ?_⟩
      rw [h1] at hc
      refine hc.returns hj h ?_
      rintro b L ⟨rfl, hl⟩
      exact ⟨[], hl, rfl, rfl⟩
    · refine .inr ⟨h1, ?_⟩
      rw [h1] at hc
      exact hc.panics
  · intro out ho
    rcases outT_ends (dbg := dbg) 0 (s.tree j.obj) with ⟨a, -, hk⟩ | h1
    · refine ⟨hk, (printed_iff hk).mpr ?_⟩
      have := outT_ok (dbg := dbg) _ _ [] (Tree.at?_nil _) hk
      exact Res.ok.inj (ho.symm.trans this)
    · rw [h1] at ho; cases ho
  · intro ho hk
    have := outT_ok (dbg := dbg) _ _ [] (Tree.at?_nil _) hk
    rw [show 2 * ([] : List Nat).length = 0 from rfl, ho] at this
    cases this

/-- C63: for each tree with known kinds there is exactly one such output. -/
theorem C63_unique {t : Tree} (ht : Known t) : ∃ out, Printed dbg t out ∧ ∀ out', Printed dbg t out' → out' = out :=
  ⟨_, (printed_iff ht).mpr rfl, fun _ h => (printed_iff ht).mp h⟩

/-- **C63.**  The output determines the tree: kinds, structure and texts. -/
theorem C63_injective (hd : Quotes dbg) {t u : Tree} (ht : Known t) (hu : Known u) {out : List Char} (h : Printed dbg t out)
    (h' : Printed dbg u out) : t = u :=
  printed_inj hd ht hu h h'

end

section
variable {env : HashEnv} {cacheOf : Nat → Nat} {b : Nat} {w w' : World} {l₀ l : List (WOp × BOut)}

/-- **C63.**  Whatever the tokens are, the tree that the parser makes of them can be printed: once it is on the heap, `print`
returns and does not panic. -/
theorem C63_parse {fuel : Nat} {ts : List Tok} {res : Res (List Tok)} (h₀ : Run env cacheOf {} l₀ w)
    (hb : w.builders b = {}) (hf : ts.length < fuel) (hx : (parse fuel ts).Exec env cacheOf b w l w' res)
    (dbg : List Char → List Char) :
    ∃ g out, rootsOf b l = [g] ∧ Printed dbg g.tree out ∧
      ∀ {s : HSt} {gs : List GElem} {n r : Nat} {J : List Live} {rest lk : List Nat}, Running [r] s gs n J rest lk →
        ∀ {j : Live}, j ∈ J → ∀ {P : List Nat}, s.Loc j.obj r P → s.tree j.obj = g.tree → ∀ {fuel' : Nat},
          g.tree.size ≤ fuel' →
          (do let c ← clone j.id; print dbg fuel' 0 c : RProg (List Char)).Returns r s gs n J rest lk
            fun a N => a = out ∧ N = [] := by
  obtain ⟨g, read, rest, m, h1, -, -, -, h2, -⟩ := C59_parse h₀ hb hf hx
  have hk := h2.known
  obtain ⟨out, h3, h4⟩ := C63_unique (dbg := dbg) hk
  refine ⟨g, out, h1, h3, fun hR j hj P hp ht fuel' hf' => ?_⟩
  obtain ⟨v, h5, h6, h7⟩ := C63_print (dbg := dbg) hR hj hp (fuel := fuel') (by rw [ht]; exact hf')
  rw [ht] at h6 h7
  rcases h5 with ⟨a, rfl, h5⟩ | ⟨rfl, -⟩
  · rw [← h4 a (h6 a rfl).2]
    exact h5
  · exact absurd hk (h7 rfl)

end

/-! ### Concrete cases -/

theorem quotes_rust : Quotes (fun x => '"' :: quoted x) where
  start _ := rfl
  line x := by simp [quoted_line]
  inj h := quoted_inj (List.cons.inj h).2

/-- The tree of `main`. -/
def mainTree : Tree := .node 8 [.node 7 [.node 7 [.token 5 ['1'], .token 0 [' '], .token 1 ['+'],
    .node 7 [.token 0 [' '], .token 5 ['2'], .token 0 [' '], .token 3 ['*'], .token 0 [' '], .token 5 ['3']],
    .token 0 [' ']], .token 1 ['+'], .token 0 [' '], .token 5 ['4']]]

/-- What `main` prints for it — examples/math.rs:149-150. -/
def mainOut : List Char := (String.intercalate "\n" ["- ROOT", "  - OPERATION", "    - OPERATION", "      - \"1\" NUMBER",
  "      - \" \" WHITESPACE", "      - \"+\" ADD", "      - OPERATION", "        - \" \" WHITESPACE", "        - \"2\" NUMBER",
  "        - \" \" WHITESPACE", "        - \"*\" MUL", "        - \" \" WHITESPACE", "        - \"3\" NUMBER",
  "      - \" \" WHITESPACE", "    - \"+\" ADD", "    - \" \" WHITESPACE", "    - \"4\" NUMBER", ""]).toList

theorem mainTree_out : outT (fun x => '"' :: quoted x) 0 mainTree = .ok mainOut := by decide +kernel

/-- `main` prints this on the heap. -/
theorem C63_main : ∃ s gs x e, s.tree x = mainTree ∧ Running [x] s gs 1 [⟨0, x, e⟩] [] [] ∧
    (do let c ← clone 0; print (fun x => '"' :: quoted x) 100 0 c : RProg (List Char)).Returns x s gs 1 [⟨0, x, e⟩] [] []
      fun a N => a = mainOut ∧ N = [] := by
  obtain ⟨s, gs, x, e, hl, ht, hR⟩ := SExpr.C60_heap 8 mainTree.children
  have ht : s.tree x = mainTree := ht
  refine ⟨s, gs, x, e, ht, hR, ?_⟩
  obtain ⟨v, h1, h2, h3⟩ := C63_print (dbg := fun x => '"' :: quoted x) (j := ⟨0, x, e⟩) hR (List.mem_singleton.mpr rfl) hl
    (fuel := 100) (by show (s.tree x).size ≤ 100; rw [ht]; decide +kernel)
  rw [show (Live.obj ⟨0, x, e⟩ : Nat) = x from rfl, ht] at h2 h3
  obtain ⟨a, h4, hk⟩ | h4 := outT_ends (dbg := fun x => '"' :: quoted x) 0 mainTree
  · have h5 := outT_ok (dbg := fun x => '"' :: quoted x) mainTree mainTree [] (Tree.at?_nil _) hk
    rw [show 2 * ([] : List Nat).length = 0 from rfl, mainTree_out] at h5
    rcases h1 with ⟨a, rfl, h1⟩ | ⟨rfl, -⟩
    · have := (printed_iff hk).mp (h2 a rfl).2
      rw [Res.ok.inj h5, ← this]
      exact h1
    · exact absurd hk (h3 rfl)
  · rw [mainTree_out] at h4
    cases h4

/-- A kind that the language does not have: `print` panics. -/
theorem C63_unknown : ∃ s gs x e, s.tree x = .node 8 [.token 9 ['1']] ∧ Running [x] s gs 1 [⟨0, x, e⟩] [] [] ∧
    (do let c ← clone 0; print (fun x => '"' :: quoted x) 100 0 c : RProg (List Char)).Panics x s gs 1 [⟨0, x, e⟩] [] [] := by
  obtain ⟨s, gs, x, e, hl, ht, hR⟩ := SExpr.C60_heap 8 [.token 9 ['1']]
  refine ⟨s, gs, x, e, ht, hR, ?_⟩
  obtain ⟨v, h1, h2, -⟩ := C63_print (dbg := fun x => '"' :: quoted x) (j := ⟨0, x, e⟩) hR (List.mem_singleton.mpr rfl) hl
    (fuel := 100) (by show (s.tree x).size ≤ 100; rw [ht]; decide +kernel)
  rw [show (Live.obj ⟨0, x, e⟩ : Nat) = x from rfl, ht] at h2
  rcases h1 with ⟨a, rfl, h1⟩ | ⟨-, h1⟩
  · obtain ⟨k, hk⟩ := (h2 a rfl).1 [0] (.token 9 ['1']) (by decide)
    have : (9 : SyntaxKind) = k.raw := hk
    cases k <;> exact absurd this (by decide)
  · exact h1

/-- The premises of `C63_injective` can be met. -/
example : Quotes (fun x => '"' :: quoted x) ∧ Known mainTree ∧ Printed (fun x => '"' :: quoted x) mainTree mainOut := by
  obtain ⟨a, h1, hk⟩ | h1 := outT_ends (dbg := fun x => '"' :: quoted x) 0 mainTree
  · have h2 := outT_ok (dbg := fun x => '"' :: quoted x) mainTree mainTree [] (Tree.at?_nil _) hk
    exact ⟨quotes_rust, hk, (printed_iff hk).mpr (Res.ok.inj (mainTree_out.symm.trans h2))⟩
  · rw [mainTree_out] at h1
    cases h1

/-- The premises of `C63_parse` can be met. -/
example : ∃ l w' r g, (parse 14 mainTokens).Exec (constEnv 5) id 0 {} l w' r ∧ rootsOf 0 l = [g] ∧
    ∃ out, Printed (fun x => '"' :: quoted x) g.tree out := by
  obtain ⟨l, w', r, h⟩ := C59_runs_exist (env := constEnv 5) (cacheOf := id) (.nil {}) 0 14 mainTokens
  obtain ⟨g, out, h1, h2, -⟩ := C63_parse (.nil {}) rfl (by decide) h (fun x => '"' :: quoted x)
  exact ⟨l, w', r, g, h, h1, out, h2⟩

end Rowan.Math
