import Verif.SExprEvalLemmas2
import Verif.Props.SExpr
import Verif.Props.Traverse
/-!
# Evaluation of S-expressions (C60)

The model is `Verif/SExprEval.lean`, the specification `Verif/Spec/SExprEval.lean`.  `ck` stands for a build with overflow
checks.
-/
namespace Rowan.SExpr
open RProg

section
variable {s : HSt} {gs : List GElem} {n r : Nat} {J : List Live} {rest lk : List Nat}

/-- **C60.**  `eval()` on an atom or a list of any tree on the heap has the outcome that the specification says; it is the
only one (`C60_unique`).  All handles that it makes are dropped. -/
theorem C60_eval (h : Running [r] s gs n J rest lk) {j : Live} (hj : j ∈ J) {P : List Nat} (hp : s.Loc j.obj r P)
    (ht : Readable (s.tree j.obj)) (hk : items [s.tree j.obj] = [s.tree j.obj]) (ck : Bool) {fuel : Nat}
    (hf : (s.tree j.obj).size ≤ fuel) :
    ∃ v, Evaluates ck (s.tree j.obj) v ∧ Ends (sexpEval ck fuel j.id) r s gs n J rest lk v := by
  obtain ⟨-, -, hm, -, ht', -⟩ := h.elem hj hp
  have hk' := (mem_items (ts := [s.tree j.obj]) (t := s.tree j.obj) (by rw [hk]; simp)).2
  obtain ⟨v, h1, h2⟩ := sexpEval_comp ck _ _ ht hk' hf
  refine ⟨v, h1, ?_⟩
  have hc := (h2 hm ht').heap h
  rcases h1.ends with rfl | ⟨a, rfl⟩
  · exact .inr ⟨rfl, hc.panics⟩
  · refine .inl ⟨a, rfl, hc.returns hj h ?_⟩
    rintro b L ⟨rfl, hl⟩
    exact ⟨[], hl, rfl, rfl⟩

/-- **C60**, for a whole file: `root.sexps().map(|it| it.eval()).collect()` on the tree of the parser. -/
theorem C60_file (h : Running [r] s gs n J rest lk) {j : Live} (hj : j ∈ J) {P : List Nat} (hp : s.Loc j.obj r P)
    {stray missing : Nat} (ht : IsFile (s.tree j.obj) stray missing) (ck : Bool) {fuel : Nat}
    (hf : (s.tree j.obj).size ≤ fuel) :
    ∃ v, EvaluatesAll ck (items (s.tree j.obj).children) v ∧ Ends (evalFile ck fuel j.id) r s gs n J rest lk v := by
  obtain ⟨-, -, hm, -, ht', -⟩ := h.elem hj hp
  obtain ⟨ts, e, hr⟩ := ht.readable
  rw [e] at ht' hf ⊢
  obtain ⟨v, h1, h2⟩ := evalFile_comp (ck := ck) hr hf
  refine ⟨v, h1, ?_⟩
  have hc := (h2 hm ht').heap h
  rcases h1.ends with ⟨a, rfl⟩ | rfl
  · refine .inl ⟨a, rfl, hc.returns hj h ?_⟩
    rintro b L ⟨rfl, hl⟩
    exact ⟨[], hl, rfl, rfl⟩
  · exact .inr ⟨rfl, hc.panics⟩

end

/-- **C60.**  There is one outcome. -/
theorem C60_unique {ck : Bool} {t : Tree} {v v' : Res (Option Int)} (h : Evaluates ck t v) (h' : Evaluates ck t v') : v = v' :=
  h.det h'

/-- **C60.**  There is one outcome of a file. -/
theorem C60_unique_file {ck : Bool} {ts : List Tree} {v v' : Res (List (Option Int))} (h : EvaluatesAll ck ts v)
    (h' : EvaluatesAll ck ts v') : v = v' := h.det h'

/-- **C60.**  If all numbers that come up are in the range of `i64`, the outcome is the value of the expression, in
both kinds of builds. -/
theorem C60_value {ck : Bool} {t : Tree} {e : Exp} {v : Res (Option Int)} (hd : Denotes t e) (hf : e.AllFit)
    (h : Evaluates ck t v) : v = .ok e.value := h.det (hd.evaluates hf)

/-- **C60.**  In a build with overflow checks an expression whose evaluation returns has the value that is returned. -/
theorem C60_checked {t : Tree} {e : Exp} {v : Option Int} (hd : Denotes t e) (h : Evaluates true t (.ok v)) :
    v = e.value := by
  obtain ⟨r, h1, rfl | rfl⟩ := hd.checked
  · cases h.det h1
  · cases h.det h1; rfl

/-- **C60.**  What has a value is an expression, and only one. -/
theorem C60_some {ck : Bool} {t : Tree} {v : Int} (h : Evaluates ck t (.ok (some v))) :
    ∃ e, Denotes t e ∧ ∀ e', Denotes t e' → e' = e := by
  obtain ⟨e, he⟩ := h.denotes rfl
  exact ⟨e, he, fun e' he' => he'.det he⟩

/-- **C60.**  The result of an operation is in the range of `i64`, and in a build without overflow checks it is the exact
result modulo 2^64. -/
theorem C60_range {ck : Bool} {t : Tree} {v : Int} (h : Evaluates ck t (.ok (some v))) : Fits v :=
  h.fits rfl

/-- **C60.**  Evaluation panics only where an operation on two numbers overflows; without overflow checks, only where
`-2^63` is divided by `-1`. -/
theorem C60_panic {ck : Bool} {t : Tree} (h : Evaluates ck t .panic) :
    ∃ p u o x y z, t.at? p = some u ∧ Operands ck u o x y ∧ o.exact x y = some z ∧ ¬ Fits z ∧
      (ck = true ∨ (o = .div ∧ x = -2 ^ 63 ∧ y = -1)) := by
  obtain ⟨p, u, o, x, y, z, h1, h2, h3, h4, h5⟩ := h.overflow rfl
  refine ⟨p, u, o, x, y, z, h1, h2, h3, h4, h5.imp_right ?_⟩
  rintro rfl
  obtain ⟨_, _, _, _, a, b, _, -, -, -, ha, hb⟩ := h2
  refine ⟨rfl, ?_⟩
  have fx := C60_range ha
  have fy := C60_range hb
  simp only [Op.exact] at h3
  split at h3
  · cases h3
  · rename_i hy
    cases h3
    exact Classical.byContradiction fun hc => h4 (fits_tdiv fx hy hc)

section
variable {env : HashEnv} {cacheOf : Nat → Nat} {b : Nat} {w w' : World} {l₀ l : List (WOp × BOut)}

/-- **C60**, from the text to the values: whatever the text is, a handle on the tree that the parser has built for it
(C58) is evaluated as the specification says. -/
theorem C60_text {fuel : Nat} {text : List Char} {errors : Res (List Msg)} (h₀ : Run env cacheOf {} l₀ w)
    (hb : w.builders b = {}) (hf : 3 * text.length + 3 ≤ fuel) (hx : (parse fuel text).Exec env cacheOf b w l w' errors) :
    ∃ g, rootsOf b l = [g] ∧ g.tree.text = text ∧
      ∀ {s : HSt} {gs : List GElem} {n r : Nat} {J : List Live} {rest lk : List Nat}, Running [r] s gs n J rest lk →
        ∀ {j : Live}, j ∈ J → ∀ {P : List Nat}, s.Loc j.obj r P → s.tree j.obj = g.tree → ∀ (ck : Bool) {fuel' : Nat},
          g.tree.size ≤ fuel' →
          ∃ v, EvaluatesAll ck (items g.tree.children) v ∧ Ends (evalFile ck fuel' j.id) r s gs n J rest lk v := by
  obtain ⟨g, es, h1, h2, -, -⟩ := C58_text h₀ hb hf hx
  have hlen := lex_length text
  obtain ⟨g', x, y, h3, -, h4, -⟩ := C58_parse (ts := lex text) h₀ hb (fun t ht => ((C58_lex text).2.1 t ht).isLexed) (by omega) hx
  rw [h1] at h3
  cases h3
  refine ⟨g, h1, h2, fun hR j hj P hp ht ck fuel' hf' => ?_⟩
  rw [← ht] at h4 hf' ⊢
  exact C60_file hR hj hp h4 ck hf'

end

/-! ### A heap that holds a given tree -/

theorem grow (t : Tree) : ∀ {s : HSt} {gs : List GElem}, HReach s gs [] [] →
    ∃ gtop gs' g, HReach { s with gtop := gtop } (g :: gs') [] [] ∧ g.tree = t ∧ ∀ e ∈ gs, e ∈ gs' := by
  refine Tree.rec (motive_1 := fun t => ∀ {s : HSt} {gs : List GElem}, HReach s gs [] [] →
    ∃ gtop gs' g, HReach { s with gtop := gtop } (g :: gs') [] [] ∧ g.tree = t ∧ ∀ e ∈ gs, e ∈ gs')
    (motive_2 := fun ts => ∀ {s : HSt} {gs : List GElem}, HReach s gs [] [] →
    ∃ gtop gs', ∃ es : List GElem, HReach { s with gtop := gtop } gs' [] [] ∧ es.map GElem.tree = ts ∧ (∀ e ∈ es, e ∈ gs') ∧
      ∀ e ∈ gs, e ∈ gs') ?_ ?_ ?_ ?_ t
  · intro k text s gs h
    exact ⟨_, _, _, HReach.token k text h, rfl, fun e he => he⟩
  · intro k cs ih s gs h
    obtain ⟨g1, gs', es, h1, h2, h3, h4⟩ := ih h
    refine ⟨g1 + 1, gs', _, HReach.node (s := { s with gtop := g1 }) k es h1 h3, ?_, h4⟩
    rw [GElem.tree, GNode.tree_new, h2]
  · intro s gs h
    exact ⟨s.gtop, gs, [], h, rfl, nofun, fun e he => he⟩
  · intro t ts ih1 ih2 s gs h
    obtain ⟨g1, gs1, g, h1, h2, h3⟩ := ih1 h
    obtain ⟨g2, gs2, es, h4, h5, h6, h7⟩ := ih2 h1
    refine ⟨g2, gs2, g :: es, h4, by rw [List.map_cons, h2, h5], ?_, fun e he => h7 e (List.mem_cons_of_mem _ (h3 e he))⟩
    intro e he
    rcases List.mem_cons.mp he with rfl | he
    · exact h7 _ (List.mem_cons_self ..)
    · exact h6 e he

/-- **C60.**  Every tree can be on the heap, with one handle on its top node (so that the premises of `C60_eval`
and `C60_file` can be met for every tree). -/
theorem C60_heap (k : SyntaxKind) (ts : List Tree) :
    ∃ s gs x e, s.Loc x x [] ∧ s.tree x = .node k ts ∧ Running [x] s gs 1 [⟨0, x, e⟩] [] [] := by
  obtain ⟨gtop, gs, g, h, ht, -⟩ := grow (.node k ts) (HReach.init 0 0)
  cases g with
  | token g => cases ht
  | node g =>
    letI : Greens := ⟨.node g :: gs⟩
    obtain ⟨kids, h0⟩ := h.ok'
    obtain ⟨x, s', e1, -, e3⟩ := Cur.newRoot_ok h0 (Cur.held_uni h0 (List.mem_cons_self ..))
    have hr := HReach.ok (.newRoot false g) h (rest := []) (new := [x]) (s' := s')
      ⟨.refl _, by simp [Call.uses], by simp [Call.nodes], by simp⟩ (by rw [Call.exec, H.bind_ok e1]; rfl)
    obtain ⟨e, -, hR⟩ := C49_start_one (x := x) (rest := []) hr (.refl _) e3.loc
    exact ⟨s', _, x, e, e3.loc, by rw [HSt.tree, e3.green]; exact ht, hR⟩

/-! ### Concrete cases -/

/-- The tree of a word. -/
def demoAtom (w : String) : Tree := .node 6 [.token 2 w.toList]

/-- `(op a b)`. -/
def demoOp (op : String) (a b : Tree) : Tree :=
  .node 5 [.token 0 ['('], demoAtom op, .token 3 [' '], a, .token 3 [' '], b, .token 1 [')']]

/-- `(+ (* 15 2) 62)`. -/
def demoList : Tree := demoOp "+" (demoOp "*" (demoAtom "15") (demoAtom "2")) (demoAtom "62")

theorem demoNum (n : Nat) (w : String) (h : (w.toList ≠ [] ∧ ∀ c ∈ w.toList, c.isDigit = true) ∧ decimal w.toList = n ∧ n < 2 ^ 63) :
    Denotes (demoAtom w) (.num n) := by
  obtain ⟨⟨h1, h2⟩, h3, h4⟩ := h
  have := Numeral.plain w.toList h1 h2
  rw [h3] at this
  exact .num this (by simp only [Fits]; omega)

theorem demoList_denotes : Denotes demoList (.op .add (.op .mul (.num 15) (.num 2)) (.num 62)) :=
  .op (k := 2) (us := []) (more := []) (a := demoOp "*" (demoAtom "15") (demoAtom "2")) (b := demoAtom "62") (by decide +kernel) .add
    (.op (k := 2) (us := []) (more := []) (a := demoAtom "15") (b := demoAtom "2") (by decide +kernel) .mul (demoNum 15 "15" (by decide)) (demoNum 2 "2" (by decide)))
    (demoNum 62 "62" (by decide))

theorem demoList_fit : Exp.AllFit (.op .add (.op .mul (.num 15) (.num 2)) (.num 62)) := by
  simp [Exp.AllFit, Exp.value, Op.exact, Fits]

/-- The value is 92, in both kinds of builds. -/
theorem demoList_value {ck : Bool} : Evaluates ck demoList (.ok (some 92)) := demoList_denotes.evaluates demoList_fit

example {ck : Bool} {v : Res (Option Int)} (h : Evaluates ck demoList v) : v = .ok (some 92) :=
  C60_value demoList_denotes demoList_fit h
example : ∃ e, Denotes demoList e ∧ ∀ e', Denotes demoList e' → e' = e := C60_some (ck := false) demoList_value
example := C60_checked demoList_denotes demoList_value
example := C60_unique (ck := true) demoList_value demoList_value
example : Fits 92 := C60_range (ck := true) demoList_value

/-- `(/ -9223372036854775808 -1)`. -/
def minList : Tree := demoOp "/" (demoAtom "-9223372036854775808") (demoAtom "-1")

/-- **C60.**  It is not true that the evaluator never panics: `(/ -9223372036854775808 -1)` makes it panic, in a build with
overflow checks and in one without. -/
theorem C60_min (ck : Bool) : Evaluates ck minList .panic ∧
    ∃ s gs x e, s.tree x = minList ∧ Running [x] s gs 1 [⟨0, x, e⟩] [] [] ∧
      (sexpEval ck 100 0).Panics x s gs 1 [⟨0, x, e⟩] [] [] := by
  have h1 : Evaluates ck minList .panic := by
    refine .op (o := .div) (x := -2 ^ 63) (y := -1) (n := 2 ^ 63) (r := .panic) (k := 2) (us := [])
      (a := demoAtom "-9223372036854775808") (b := demoAtom "-1") (more := []) .div (by decide +kernel)
      ?_ ?_ (by decide) ⟨by simp [Fits], .inr rfl⟩
    · exact .num (Numeral.minus ['9', '2', '2', '3', '3', '7', '2', '0', '3', '6', '8', '5', '4', '7', '7', '5', '8', '0', '8']
        (by simp) (by decide)) (by simp [Fits])
    · exact .num (Numeral.minus ['1'] (by simp) (by decide)) (by simp [Fits])
  refine ⟨h1, ?_⟩
  obtain ⟨s, gs, x, e, hl, ht, hR⟩ := C60_heap 5 minList.children
  have ht : s.tree x = minList := ht
  refine ⟨s, gs, x, e, ht, hR, ?_⟩
  obtain ⟨v, h2, h3⟩ := C60_eval hR (List.mem_singleton.mpr rfl) hl (by
    show Readable (s.tree x)
    rw [ht]
    refine Closed.readable (.list _ _ [_, _, _, _, _] ?_)
    simp only [List.mem_cons, List.not_mem_nil, or_false, forall_eq_or_imp, forall_eq]
    exact ⟨.atom _, .space _, .atom _, .space _, .atom _⟩) (by show items [s.tree x] = [s.tree x]; rw [ht]; decide +kernel) ck
    (fuel := 100) (by show (s.tree x).size ≤ 100; rw [ht]; decide +kernel)
  rw [show (Live.obj ⟨0, x, e⟩ : Nat) = x from rfl, ht] at h2
  cases h2.det h1
  rcases h3 with ⟨a, h3, -⟩ | ⟨-, h3⟩
  · cases h3
  · exact h3

example (ck : Bool) := C60_panic (C60_min ck).1

/-- The text in `main` — examples/s_expressions.rs:373-379. -/
def mainText : List Char := "\n92\n(+ 62 30)\n(/ 92 0)\nnan\n(+ (* 15 2) 62)\n".toList
def mainFile : Tree :=
  .node 7 [.token 3 ['\n'], demoAtom "92", .token 3 ['\n'], demoOp "+" (demoAtom "62") (demoAtom "30"), .token 3 ['\n'],
    demoOp "/" (demoAtom "92") (demoAtom "0"), .token 3 ['\n'], demoAtom "nan", .token 3 ['\n'], demoList, .token 3 ['\n']]

/-- The assertion in `main` holds: the parser builds the tree, and the values are these. -/
theorem C60_main (ck : Bool) : (parse 200 mainText).eval {} = ({}, [mainFile], .ok []) ∧ IsFile mainFile 0 0 ∧
    EvaluatesAll ck (items mainFile.children) (.ok [some 92, some 92, none, none, some 92]) := by
  refine ⟨by decide +kernel, ?_, ?_⟩
  · refine ⟨[], [_, _, _, _, _, _, _, _, _, _, _], rfl, .nil, .closed _ ?_⟩
    have op : ∀ {w a b}, Closed a → Closed b → Closed (demoOp w a b) := by
      intro w a b ha hb
      refine .list _ _ [_, _, _, _, _] ?_
      simp only [List.mem_cons, List.not_mem_nil, or_false, forall_eq_or_imp, forall_eq]
      exact ⟨.atom _, .space _, ha, .space _, hb⟩
    simp only [List.mem_cons, List.not_mem_nil, or_false, forall_eq_or_imp, forall_eq]
    exact ⟨.space _, .atom _, .space _, op (.atom _) (.atom _), .space _, op (.atom _) (.atom _), .space _, .atom _, .space _,
      op (op (.atom _) (.atom _)) (.atom _), .space _⟩
  · rw [show items mainFile.children = [demoAtom "92", demoOp "+" (demoAtom "62") (demoAtom "30"),
      demoOp "/" (demoAtom "92") (demoAtom "0"), demoAtom "nan", demoList] from by decide +kernel]
    have n92 := demoNum 92 "92" (by decide)
    have plus := Denotes.op (ts := (demoOp "+" (demoAtom "62") (demoAtom "30")).children) (k := 2) (us := []) (more := [])
      (by decide +kernel) .add (demoNum 62 "62" (by decide)) (demoNum 30 "30" (by decide))
    have zero := Denotes.op (ts := (demoOp "/" (demoAtom "92") (demoAtom "0")).children) (k := 2) (us := []) (more := [])
      (by decide +kernel) .div n92 (demoNum 0 "0" (by decide))
    refine .cons (r := .ok [some 92, none, none, some 92]) (n92.evaluates (by simp [Exp.AllFit, Fits])) ?_
    refine .cons (r := .ok [none, none, some 92]) (plus.evaluates (by simp [Exp.AllFit, Exp.value, Op.exact, Fits])) ?_
    refine .cons (r := .ok [none, some 92]) (zero.evaluates (by simp [Exp.AllFit, Exp.value, Op.exact, Fits])) ?_
    refine .cons (r := .ok [some 92]) (.word fun n hn => ?_) (.cons demoList_value .nil)
    rw [show "nan".toList = ['n', 'a', 'n'] from by decide] at hn
    generalize hs : ['n', 'a', 'n'] = s at hn
    cases hn with
    | plain _ _ h => subst hs; exact absurd h (by decide)
    | plus | minus => simp at hs

/-- Together with `C60_file` and `C60_heap`: on the heap the program returns these values. -/
theorem C60_main_heap (ck : Bool) : ∃ s gs x e, s.tree x = mainFile ∧ Running [x] s gs 1 [⟨0, x, e⟩] [] [] ∧
    (evalFile ck 100 0).Returns x s gs 1 [⟨0, x, e⟩] [] [] fun vs N => vs = [some 92, some 92, none, none, some 92] ∧ N = [] := by
  obtain ⟨-, h1, h2⟩ := C60_main ck
  obtain ⟨s, gs, x, e, hl, ht, hR⟩ := C60_heap 7 mainFile.children
  have ht : s.tree x = mainFile := ht
  refine ⟨s, gs, x, e, ht, hR, ?_⟩
  obtain ⟨v, h3, h4⟩ := C60_file (j := ⟨0, x, e⟩) hR (List.mem_singleton.mpr rfl) hl (stray := 0) (missing := 0)
    (by show IsFile (s.tree x) 0 0; rw [ht]; exact h1) ck
    (fuel := 100) (by show (s.tree x).size ≤ 100; rw [ht]; decide +kernel)
  rw [show (Live.obj ⟨0, x, e⟩ : Nat) = x from rfl, ht] at h3
  cases h3.det h2
  rcases h4 with ⟨a, h4, h5⟩ | ⟨h4, -⟩
  · cases h4; exact h5
  · cases h4

/-- The program runs on a heap that holds the tree of `(+ (* 15 2) 62)`; it returns 92 and leaves one handle. -/
def evalDemo : Conf := after [
  .token 0 ['('], .token 1 [')'], .token 3 [' '],
  .token 2 ['+'], .node 6 [0], .token 2 ['*'], .node 6 [0], .token 2 ['1', '5'], .node 6 [0], .token 2 ['2'], .node 6 [0],
  .token 2 ['6', '2'], .node 6 [0], .node 5 [12, 6, 10, 4, 10, 2, 11], .node 5 [13, 9, 11, 0, 11, 1, 12], .node 7 [0],
  .root false 0]
attribute [irreducible] evalDemo
example : evalDemo.s.tree 0 = .node 7 [demoList] := by decide +kernel
example : (match (evalFile true 60 0).exec ⟨1, [(0, 0)]⟩ evalDemo.s with
    | .ok (.ok vs w) s => vs == [some 92] && w.held == [(0, 0)] && s.rc 0 == 1
    | _ => false) = true := by decide +kernel

end Rowan.SExpr
