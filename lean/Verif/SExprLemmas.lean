import Verif.Spec.SExpr
/-!
# Lemmas about the S-expression parser

Unless their comments cite lines of `/repo`, the definitions in this file are vocabulary of the proofs and model no code.
-/
namespace Rowan

theorem Tree.leavess_eq (ts : List Tree) : Tree.leavess ts = ts.flatMap Tree.leaves := by
  induction ts with
  | nil => rfl
  | cons t ts ih => simp [Tree.leavess, ih]

@[simp] theorem Tree.leavess_append (a b : List Tree) : Tree.leavess (a ++ b) = Tree.leavess a ++ Tree.leavess b := by
  simp [Tree.leavess_eq]
@[simp] theorem Tree.leaves_node (k cs) : (Tree.node k cs).leaves = Tree.leavess cs := by simp [Tree.leaves]
@[simp] theorem Tree.leaves_token (k s) : (Tree.token k s).leaves = [(k, s)] := by simp [Tree.leaves]
@[simp] theorem Tree.leavess_nil : Tree.leavess [] = [] := by simp [Tree.leavess]
@[simp] theorem Tree.leavess_cons (t ts) : Tree.leavess (t :: ts) = t.leaves ++ Tree.leavess ts := by simp [Tree.leavess]

/-- The text of a tree is that of its tokens. -/
theorem Tree.text_leaves (t : Tree) : t.text = (t.leaves.map (·.2)).flatten := by
  induction t using Tree.ind with
  | tok k s => simp
  | nd k cs ih =>
    rw [Tree.text_node, Tree.leaves_node]
    induction cs with
    | nil => simp
    | cons c cs ihc =>
      simp [ih c (by simp), ihc (fun c hc => ih c (by simp [hc]))]

namespace SExpr
open BProg

/-- Tokens as they are in the tree. -/
def raws (ts : List Tok) : List (SyntaxKind × List Char) := ts.map fun t => (t.1.raw, t.2)

@[simp] theorem raws_cons (t : Tok) (ts) : raws (t :: ts) = (t.1.raw, t.2) :: raws ts := rfl
@[simp] theorem raws_nil : raws [] = [] := rfl

theorem skipWs_adds (es : List Msg) : ∀ (ts : List Tok) (fuel : Nat), ts.length < fuel → ∃ us rest,
    (skipWs fuel ⟨ts, es⟩).Adds us ((), ⟨rest, es⟩) ∧ Tree.leavess us ++ raws rest = raws ts ∧
    (∀ t ∈ us, Closed t) ∧ current ⟨rest, es⟩ ≠ some .whitespace ∧ (∃ ws, ts = ws ++ rest)
  | [], fuel + 1, _ => ⟨[], [], by simpa [skipWs, current] using Adds.ret _, rfl, by simp, by simp [current], [], rfl⟩
  | (k, s) :: ts, fuel + 1, h => by
    by_cases hk : k = .whitespace
    · obtain ⟨us, rest, h1, h2, h3, h4, ws, h5⟩ := skipWs_adds es ts fuel (by simpa using h)
      refine ⟨.token k.raw s :: us, rest, ?_, by simp [h2], ?_, h4, (k, s) :: ws, by simp [h5]⟩
      · subst hk
        simp only [skipWs, current, List.head?_cons, Option.map_some, if_true, bump, call_bind, ret_bind]
        exact h1.token _ _
      · subst hk
        intro t ht
        rcases List.mem_cons.mp ht with rfl | ht
        · exact .space s
        · exact h3 t ht
    · refine ⟨[], (k, s) :: ts, ?_, by simp, by simp, by simp [current, hk], [], rfl⟩
      simp only [skipWs, current, List.head?_cons, Option.map_some, Option.some.injEq, if_neg hk]
      exact Adds.ret _

/-- All tokens come from the lexer. -/
def AllLexed (ts : List Tok) : Prop := ∀ t ∈ ts, t.1.isLexed = true

/-- What `sexp` does. -/
def SexpSpec (ts : List Tok) (es : List Msg) (m : BProg (SexpRes × Parser)) : Prop :=
  ∃ us r rest es', m.Adds us (r, ⟨rest, es'⟩) ∧ Tree.leavess us ++ raws rest = raws ts ∧ (∃ xs, ts = xs ++ rest) ∧
    match r with
    | .eof => rest = [] ∧ es' = es ∧ ∀ t ∈ us, Closed t
    | .rParen => (∃ s tl, rest = (.rParen, s) :: tl) ∧ es' = es ∧ ∀ t ∈ us, Closed t
    | .ok => rest.length < ts.length ∧ ∃ n, Items us n ∧ (n ≠ 0 → rest = []) ∧ es' = es ++ List.replicate n .expected

def ListSpec (ts : List Tok) (es : List Msg) (m : BProg (Unit × Parser)) : Prop :=
  ∃ t rest es', m.Adds [t] ((), ⟨rest, es'⟩) ∧ t.leaves ++ raws rest = raws ts ∧ (∃ xs, ts = xs ++ rest) ∧
    rest.length < ts.length ∧ ((Closed t ∧ es' = es) ∨
      ∃ n, Unclosed t n ∧ rest = [] ∧ es' = es ++ List.replicate n .expected)

def LoopSpec (ts : List Tok) (es : List Msg) (m : BProg (Unit × Parser)) : Prop :=
  ∃ us rest es', m.Adds us ((), ⟨rest, es'⟩) ∧ Tree.leavess us ++ raws rest = raws ts ∧ (∃ xs, ts = xs ++ rest) ∧
    ((∃ vs s, us = vs ++ [.token Kind.rParen.raw s] ∧ (∀ t ∈ vs, Closed t) ∧ es' = es) ∨
      ∃ n, Items us n ∧ rest = [] ∧ es' = es ++ List.replicate (n + 1) .expected)

theorem Closed.leaves_ne {t : Tree} (h : Closed t) : t.leaves ≠ [] := by
  cases h <;> simp

theorem closed_nil {us : List Tree} (h : ∀ t ∈ us, Closed t) (e : Tree.leavess us = []) : us = [] := by
  cases us with
  | nil => rfl
  | cons t us =>
    simp only [Tree.leavess_cons, List.append_eq_nil_iff] at e
    exact absurd e.1 (h t (by simp)).leaves_ne

theorem Items.append {us vs : List Tree} {n : Nat} (h : ∀ t ∈ us, Closed t) (h' : Items vs n) : Items (us ++ vs) n := by
  cases h' with
  | closed _ hv =>
    refine .closed _ fun t ht => ?_
    rcases List.mem_append.mp ht with ht | ht
    · exact h t ht
    · exact hv t ht
  | unclosed ts u _ hv hu =>
    rw [← List.append_assoc]
    refine .unclosed _ _ _ (fun t ht => ?_) hu
    rcases List.mem_append.mp ht with ht | ht
    · exact h t ht
    · exact hv t ht

theorem Items.zero {us : List Tree} (h : Items us 0) : ∀ t ∈ us, Closed t := by
  cases h with
  | closed _ h => exact h
  | unclosed _ _ _ _ hu => cases hu

theorem parser_spec : ∀ (fuel : Nat) (ts : List Tok) (es : List Msg), AllLexed ts →
    (3 * ts.length + 2 ≤ fuel → SexpSpec ts es (sexp fuel ⟨ts, es⟩)) ∧
    (3 * ts.length + 1 ≤ fuel → current ⟨ts, es⟩ = some .lParen → ListSpec ts es (list fuel ⟨ts, es⟩)) ∧
    (3 * ts.length + 3 ≤ fuel → LoopSpec ts es (listLoop fuel ⟨ts, es⟩))
  | 0, ts, es, _ => ⟨by omega, by omega, by omega⟩
  | fuel + 1, ts, es, hl => by
    refine ⟨fun hf => ?_, fun hf hc => ?_, fun hf => ?_⟩
    · obtain ⟨us, rest, h1, h2, h3, h4, ws, h5⟩ := skipWs_adds es ts fuel (by omega)
      have hl' : AllLexed rest := fun t ht => hl t (by simp [h5, ht])
      have hlen : rest.length ≤ ts.length := by simp [h5]
      simp only [SexpSpec, sexp]
      cases rest with
      | nil =>
        refine ⟨us, .eof, [], es, h1.bind' (us := []) ?_ (by simp), h2, ⟨ts, by simp⟩, rfl, rfl, h3⟩
        exact Adds.ret _
      | cons t tl =>
        obtain ⟨k, s⟩ := t
        have hk := hl' (k, s) (by simp)
        cases k with
        | list => cases hk
        | atom => cases hk
        | root => cases hk
        | whitespace => exact absurd rfl h4
        | rParen =>
          refine ⟨us, .rParen, _, es, h1.bind' (us := []) ?_ (by simp), h2, ⟨ws, h5⟩, ⟨s, tl, rfl⟩, rfl, h3⟩
          exact Adds.ret _
        | word =>
          refine ⟨us ++ [.node Kind.atom.raw [.token Kind.word.raw s]], .ok, tl, es, h1.bind' ?_ rfl, by simpa using h2,
            ⟨ws ++ [(.word, s)], by simp [h5]⟩, by simp at hlen; omega, 0, .append h3 (.closed _ (by simpa using .atom s)),
            by simp, by simp⟩
          exact Adds.node (p := .call (.token Kind.word.raw s) (.ret ((), (⟨tl, es⟩ : Parser))))
            (f := fun x => .ret (SexpRes.ok, x.2)) _ (.token _ _ (Adds.ret _)) (Adds.ret _)
        | error =>
          refine ⟨us ++ [.token Kind.error.raw s], .ok, tl, es, h1.bind' ?_ rfl, by simpa using h2,
            ⟨ws ++ [(.error, s)], by simp [h5]⟩, by simp at hlen; omega, 0, .append h3 (.closed _ (by simpa using .junk s)),
            by simp, by simp⟩
          exact .token _ _ (Adds.ret _)
        | lParen =>
          obtain ⟨t, rest, es', i1, i2, ⟨xs, i3⟩, i4, i5⟩ :=
            (parser_spec fuel ((.lParen, s) :: tl) es hl').2.1 (by omega) rfl
          have i6 : ∃ n, Items [t] n ∧ (n ≠ 0 → rest = []) ∧ es' = es ++ List.replicate n .expected := by
            rcases i5 with ⟨j1, j2⟩ | ⟨n, j1, j2, j3⟩
            · exact ⟨0, .closed _ (by simpa using j1), by simp, by simpa using j2⟩
            · exact ⟨n, .unclosed [] t n (by simp) j1, fun _ => j2, j3⟩
          obtain ⟨n, j1, j2, j3⟩ := i6
          refine ⟨us ++ [t], .ok, rest, es', h1.bind' ?_ rfl, by simpa [i2] using h2, ⟨ws ++ xs, by simp [h5, i3]⟩, by omega, n,
            .append h3 j1, j2, j3⟩
          exact i1.bind' (Adds.ret _) (by simp)
    · obtain ⟨s, tl, rfl⟩ : ∃ s tl, ts = (.lParen, s) :: tl := by
        cases ts with
        | nil => simp [current] at hc
        | cons t tl =>
          obtain ⟨k, s⟩ := t
          simp only [current, List.head?_cons, Option.map_some, Option.some.injEq] at hc
          exact ⟨s, tl, by rw [hc]⟩
      obtain ⟨us, rest, es', i1, i2, ⟨xs, i3⟩, i4⟩ :=
        (parser_spec fuel tl es fun t ht => hl t (by simp [ht])).2.2 (by simp at hf; omega)
      refine ⟨.node Kind.list.raw (.token Kind.lParen.raw s :: us), rest, es', ?_, by simp [i2],
        ⟨(.lParen, s) :: xs, by simp [i3]⟩, by simp [i3]; omega, ?_⟩
      · simp only [list, current, List.head?_cons, Option.map_some, if_true, bump, call_bind, ret_bind]
        exact Adds.node (p := .call (.token Kind.lParen.raw s) (listLoop fuel ⟨tl, es⟩)) (f := fun x => .ret ((), x.2)) _
          (i1.token _ _) (Adds.ret _)
      · rcases i4 with ⟨vs, s', rfl, j1, j2⟩ | ⟨n, j1, j2, j3⟩
        · exact .inl ⟨.list s s' vs j1, j2⟩
        · exact .inr ⟨n + 1, .list s us n j1, j2, j3⟩
    · obtain ⟨us, r, rest, es', i1, i2, ⟨xs, i3⟩, i4⟩ := (parser_spec fuel ts es hl).1 (by omega)
      simp only [LoopSpec, listLoop]
      cases r with
      | eof =>
        obtain ⟨rfl, rfl, j1⟩ := i4
        refine ⟨us, [], _, i1.bind' (us := []) ?_ (by simp), i2, ⟨xs, i3⟩, .inr ⟨0, .closed _ j1, rfl, rfl⟩⟩
        exact Adds.ret _
      | rParen =>
        obtain ⟨⟨s, tl, rfl⟩, rfl, j1⟩ := i4
        refine ⟨us ++ [.token Kind.rParen.raw s], tl, _, i1.bind' ?_ rfl, by simpa using i2,
          ⟨xs ++ [(.rParen, s)], by simp [i3]⟩, .inl ⟨us, s, rfl, j1, rfl⟩⟩
        exact .token _ _ (Adds.ret _)
      | ok =>
        obtain ⟨j1, n, j2, j3, rfl⟩ := i4
        obtain ⟨us', rest', es'', k1, k2, ⟨xs', k3⟩, k4⟩ := (parser_spec fuel rest (es ++ List.replicate n .expected)
          fun t ht => hl t (by simp [i3, ht])).2.2 (by omega)
        refine ⟨us ++ us', rest', es'', i1.bind' k1 rfl, by simp [k2, i2], ⟨xs ++ xs', by simp [i3, k3]⟩, ?_⟩
        by_cases hn : n = 0
        · subst hn
          rcases k4 with ⟨vs, s, rfl, l1, l2⟩ | ⟨m, l1, l2, l3⟩
          · refine .inl ⟨us ++ vs, s, by simp, ?_, by simpa using l2⟩
            intro t ht
            rcases List.mem_append.mp ht with ht | ht
            · exact j2.zero t ht
            · exact l1 t ht
          · exact .inr ⟨m, .append j2.zero l1, l2, by simpa using l3⟩
        · obtain rfl := j3 hn
          have hnil : Tree.leavess us' = [] ∧ raws rest' = [] := by simpa using k2
          rcases k4 with ⟨vs, s, rfl, l1, l2⟩ | ⟨m, l1, l2, l3⟩
          · simp at hnil
          · have : us' = [] ∧ m = 0 := by
              cases l1 with
              | closed _ h => exact ⟨closed_nil h hnil.1, rfl⟩
              | unclosed vs u _ _ hu => cases hu; simp at hnil
            obtain ⟨rfl, rfl⟩ := this
            exact .inr ⟨n, by simpa using j2, l2, by simp [l3, List.replicate_succ']⟩

theorem Tops.append {us vs : List Tree} {n : Nat} (h : ∀ t ∈ us, Closed t) (h' : Tops vs n) : Tops (us ++ vs) n := by
  induction us with
  | nil => exact h'
  | cons u us ih => exact .closed (h u (by simp)) (ih fun t ht => h t (by simp [ht]))

theorem parseLoop_spec : ∀ (fuel : Nat) (ts : List Tok) (es : List Msg), AllLexed ts → 3 * ts.length + 3 ≤ fuel →
    ∃ us vs n m, (parseLoop fuel ⟨ts, es⟩).Adds (us ++ vs) ((), ⟨[], es ++ List.replicate n .unmatched ++
      List.replicate m .expected⟩) ∧ Tree.leavess (us ++ vs) = raws ts ∧ Tops us n ∧ Items vs m
  | 0, _, _, _, hf => by omega
  | fuel + 1, ts, es, hl, hf => by
    obtain ⟨us, r, rest, es', i1, i2, ⟨xs, i3⟩, i4⟩ := (parser_spec fuel ts es hl).1 (by omega)
    simp only [parseLoop]
    cases r with
    | eof =>
      obtain ⟨rfl, rfl, j1⟩ := i4
      refine ⟨[], us, 0, 0, i1.bind' (us := []) ?_ (by simp), by simpa using i2, .nil, .closed _ j1⟩
      simpa using Adds.ret _
    | rParen =>
      obtain ⟨⟨s, tl, rfl⟩, rfl, j1⟩ := i4
      obtain ⟨us', vs, n, m, k1, k2, k3, k4⟩ := parseLoop_spec fuel tl (es' ++ [.unmatched])
        (fun t ht => hl t (by simp [i3, ht])) (by simp [i3] at hf; omega)
      refine ⟨us ++ .node Kind.error.raw [.token Kind.rParen.raw s] :: us', vs, n + 1, m,
        i1.bind' (us := .node Kind.error.raw [.token Kind.rParen.raw s] :: (us' ++ vs)) ?_ (by simp), ?_,
        .append j1 (.stray s k3), k4⟩
      · refine Adds.node (p := .call (.token Kind.rParen.raw s) (.ret ((), (⟨tl, es' ++ [.unmatched]⟩ : Parser))))
          (f := fun x => parseLoop fuel x.2) _ (.token _ _ (Adds.ret _)) ?_
        simpa [List.replicate_succ] using k1
      · simp only [Tree.leavess_append] at k2
        rw [← i2]
        simp [k2]
    | ok =>
      obtain ⟨j1, n, j2, j3, rfl⟩ := i4
      obtain ⟨us', vs, n', m, k1, k2, k3, k4⟩ := parseLoop_spec fuel rest (es ++ List.replicate n .expected)
        (fun t ht => hl t (by simp [i3, ht])) (by omega)
      by_cases hn : n = 0
      · subst hn
        exact ⟨us ++ us', vs, n', m, i1.bind' (us := us' ++ vs) (by simpa using k1) (by simp),
          by rw [List.append_assoc, Tree.leavess_append, k2, i2], .append j2.zero k3, k4⟩
      · obtain rfl := j3 hn
        have hnil : Tree.leavess us' = [] ∧ Tree.leavess vs = [] := by simpa using k2
        have e1 : us' = [] ∧ n' = 0 := by
          cases k3 with
          | nil => exact ⟨rfl, rfl⟩
          | closed h _ => simp [h.leaves_ne] at hnil
          | stray s _ => simp at hnil
        have e2 : vs = [] ∧ m = 0 := by
          cases k4 with
          | closed _ h => exact ⟨closed_nil h hnil.2, rfl⟩
          | unclosed vs u _ _ hu => cases hu; simp at hnil
        obtain ⟨rfl, rfl⟩ := e1
        obtain ⟨rfl, rfl⟩ := e2
        exact ⟨[], us, 0, n, i1.bind' (us := []) (by simpa using k1) (by simp), by simpa using i2, .nil, j2⟩

/-- What the parser does with any tokens. -/
theorem parse'_spec {fuel : Nat} {ts : List Tok} (hl : AllLexed ts) (hf : 3 * ts.length + 3 ≤ fuel) :
    ∃ t n m, (parse' fuel ts).eval {} = ({}, [t], .ok (List.replicate n .unmatched ++ List.replicate m .expected)) ∧
      t.leaves = raws ts ∧ IsFile t n m := by
  obtain ⟨us, vs, n, m, h1, h2, h3, h4⟩ := parseLoop_spec fuel ts [] hl hf
  refine ⟨.node Kind.root.raw (us ++ vs), n, m, ?_, by simpa using h2, us, vs, rfl, h3, h4⟩
  have : (parseTokens fuel ⟨ts, []⟩).Adds [.node Kind.root.raw (us ++ vs)]
      ((), ⟨[], List.replicate n .unmatched ++ List.replicate m .expected⟩) := by
    obtain ⟨fuel, rfl⟩ : ∃ f, fuel = f + 1 := ⟨fuel - 1, by omega⟩
    have := Adds.node (f := fun x => .ret ((), x.2)) (c := ((), (⟨[], List.replicate n .unmatched ++ List.replicate m .expected⟩ : Parser)))
      (us := []) Kind.root.raw (Adds.bind' (f := fun x => skipWs (fuel + 1) x.2) h1 (us := []) (vs := us ++ vs) (by
      simpa [skipWs, current] using Adds.ret _) (by simp)) (Adds.ret _)
    simpa [parseTokens, BProg.bind_assoc'] using this
  rw [parse', eval_bind (this {})]
  simp [BProg.eval, SpecBuilder.step]

end SExpr
end Rowan
