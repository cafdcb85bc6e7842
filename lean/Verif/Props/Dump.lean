import Verif.DumpLemmas
import Verif.Props.Debug
/-!
# What the dump of a tree tells about it (C62)

The dump `{:#?}` is what tests of parsers compare.
-/
namespace Rowan

/-! ### Lines -/

/-- What the line for the element at `q` says. -/
def Tree.label (t : Tree) (q : List Nat) : SyntaxKind × TextRange × Option (List Char) :=
  match t.at? q with
  | none => (0, TextRange.at_ 0 0, none)
  | some s => (s.kind, TextRange.at_ (blen (t.before q)) (blen s.text),
      match s with
      | .node _ _ => none
      | .token _ x => some (shownText x))

def dumpRow (env : DebugEnv) (d : Nat) (x : SyntaxKind × TextRange × Option (List Char)) : List Char :=
  indent d ++ (env.kind x.1 ++ '@' :: (env.range x.2.1 ++
    match x.2.2 with
    | none => []
    | some x => ' ' :: env.str x))

theorem dumpRow_line {env : DebugEnv} (he : env.Lawful) (d : Nat) (x : SyntaxKind × TextRange × Option (List Char)) :
    '\n' ∉ dumpRow env d x := by
  obtain ⟨k, R, o⟩ := x
  have h1 := not_mem_indent (c := '\n') (by decide) d
  have h2 := he.kind_line k
  have h3 := he.range_line R
  cases o with
  | none => simp [dumpRow, h1, h2, h3]
  | some x =>
    have h4 := he.str_line x
    simp [dumpRow, h1, h2, h3, h4]

theorem dumpRow_inj {env : DebugEnv} (he : env.Lawful) {d e : Nat} {x y : SyntaxKind × TextRange × Option (List Char)}
    (h : dumpRow env d x = dumpRow env e y) : d = e ∧ x = y := by
  obtain ⟨k, R, o⟩ := x
  obtain ⟨l, S, o'⟩ := y
  have start : ∀ (k : SyntaxKind) (z : List Char), (env.kind k ++ '@' :: z).head? ≠ some ' ' := by
    intro k z
    have := he.kind_start k
    cases hk : env.kind k with
    | nil => simp
    | cons c cs => rw [hk] at this; simpa using this
  obtain ⟨rfl, h1⟩ := indent_inj (start _ _) (start _ _) h
  obtain ⟨h2, h3⟩ := split_char (he.kind_at k) (he.kind_at l) h1
  cases he.kind_inj h2
  have hR := he.range_space R
  have hS := he.range_space S
  cases o with
  | none =>
    cases o' with
    | none =>
      simp only [List.append_nil] at h3
      cases he.range_inj h3
      exact ⟨rfl, rfl⟩
    | some y =>
      simp only [List.append_nil] at h3
      rw [h3] at hR
      simp at hR
  | some x =>
    cases o' with
    | none =>
      simp only [List.append_nil] at h3
      rw [← h3] at hS
      simp at hS
    | some y =>
      obtain ⟨h4, h5⟩ := split_char hR hS h3
      cases he.range_inj h4
      cases he.str_inj h5
      exact ⟨rfl, rfl⟩

theorem Tree.line_eq (env : DebugEnv) {t s : Tree} {q : List Nat} (d : Nat) (h : t.at? q = some s) :
    indent d ++ t.line env q = dumpRow env d (t.label q) := by
  rw [Tree.line, Tree.label, h]
  cases s <;> simp [dumpRow]

/-! ### Texts before a position -/

theorem Tree.before_append : ∀ (p : List Nat) {t s : Tree} (q : List Nat), t.at? p = some s →
    t.before (p ++ q) = t.before p ++ s.before q
  | [], t, s, q, h => by
    simp only [Tree.at?_nil, Option.some.injEq] at h
    subst h
    simp [Tree.before]
  | i :: p, t, s, q, h => by
    rw [Tree.at?_cons] at h
    cases hc : t.children[i]? with
    | none => rw [hc] at h; simp at h
    | some c =>
      rw [hc] at h
      simp only [Option.bind_some] at h
      simp only [List.cons_append, Tree.before, hc, Tree.before_append p q h, List.append_assoc]

theorem Tree.glimpse_len (t : Tree) : t.glimpse.2.2.1 = blen t.text := by cases t <;> simp [Tree.glimpse, Tree.text]

theorem Tree.LooksLike.kid {t u : Tree} (h : t.LooksLike u) (i : Nat) :
    (t.children[i]? = none ∧ u.children[i]? = none) ∨
      ∃ c d, t.children[i]? = some c ∧ u.children[i]? = some d ∧ c.LooksLike d := by
  have hi := h [i]
  simp only [Tree.at?_cons, Tree.at?_nil] at hi
  cases hc : t.children[i]? with
  | none =>
    cases hd : u.children[i]? with
    | none => exact .inl ⟨rfl, rfl⟩
    | some d => rw [hc, hd] at hi; simp at hi
  | some c =>
    cases hd : u.children[i]? with
    | none => rw [hc, hd] at hi; simp at hi
    | some d =>
      refine .inr ⟨c, d, rfl, rfl, fun q => ?_⟩
      have := h (i :: q)
      simpa [Tree.at?_cons, hc, hd] using this

theorem texts_len : ∀ {ts us : List Tree}, (∀ i : Nat, ts[i]?.map (fun t => blen t.text) = us[i]?.map fun t => blen t.text) →
    ∀ i : Nat, blen (Tree.texts (ts.take i)) = blen (Tree.texts (us.take i))
  | _, _, _, 0 => by simp
  | [], [], _, i + 1 => rfl
  | [], u :: us, h, i + 1 => by have := h 0; simp at this
  | t :: ts, [], h, i + 1 => by have := h 0; simp at this
  | t :: ts, u :: us, h, i + 1 => by
    have h0 := h 0
    simp only [List.getElem?_cons_zero, Option.map_some, Option.some.injEq] at h0
    have := texts_len (ts := ts) (us := us) (fun i => by simpa using h (i + 1)) i
    simp only [List.take_succ_cons, Tree.texts, blen_append]
    omega

theorem Tree.LooksLike.before : ∀ (q : List Nat) {t u : Tree}, t.LooksLike u → blen (t.before q) = blen (u.before q)
  | [], _, _, _ => rfl
  | i :: q, t, u, h => by
    have h1 := texts_len (ts := t.children) (us := u.children) (fun i => by
      rcases h.kid i with ⟨h1, h2⟩ | ⟨c, d, h1, h2, h3⟩
      · rw [h1, h2]
      · have := h3 []
        simp only [Tree.at?_nil, Option.map_some, Option.some.injEq] at this
        rw [h1, h2, Option.map_some, Option.map_some, ← Tree.glimpse_len, ← Tree.glimpse_len, this]) i
    simp only [Tree.before, blen_append, h1]
    rcases h.kid i with ⟨h1, h2⟩ | ⟨c, d, h1, h2, h3⟩
    · rw [h1, h2]
    · rw [h1, h2]
      simp only [h3.before q]

/-- A tree all of whose tokens are short looks like no other tree. -/
theorem Tree.LooksLike.eq : ∀ {t u : Tree}, t.LooksLike u → t.Short → t = u := by
  intro t
  refine Tree.rec (motive_1 := fun t => ∀ {u : Tree}, t.LooksLike u → t.Short → t = u)
    (motive_2 := fun ts => ∀ {us : List Tree}, (∀ i : Nat, (ts[i]? = none ∧ us[i]? = none) ∨
      ∃ c d, ts[i]? = some c ∧ us[i]? = some d ∧ c.LooksLike d) → (∀ t ∈ ts, t.Short) → ts = us) ?_ ?_ ?_ ?_ t
  · intro k x u h hs
    have h0 := h []
    have hx := hs [] k x rfl
    cases u with
    | node => simp [Tree.glimpse] at h0
    | token l y =>
      simp only [Tree.at?_nil, Option.map_some, Tree.glimpse, Option.some.injEq, Prod.mk.injEq, true_and] at h0
      obtain ⟨rfl, h1, h2⟩ := h0
      rw [shownText, if_pos hx, shownText, if_pos (by omega)] at h2
      rw [h2]
  · intro k ts ih u h hs
    have h0 := h []
    cases u with
    | token => simp [Tree.glimpse] at h0
    | node l us =>
      simp only [Tree.at?_nil, Option.map_some, Tree.glimpse, Option.some.injEq, Prod.mk.injEq, true_and] at h0
      obtain ⟨rfl, -⟩ := h0
      rw [ih (us := us) h.kid]
      intro c hc
      obtain ⟨i, hi, rfl⟩ := List.mem_iff_getElem.mp hc
      intro q l x hx
      refine hs (i :: q) l x ?_
      rw [Tree.at?_cons, show (Tree.node k ts).children = ts from rfl, List.getElem?_eq_getElem hi]
      exact hx
  · intro us h _
    cases us with
    | nil => rfl
    | cons u us =>
      rcases h 0 with ⟨-, h2⟩ | ⟨_, _, h1, _⟩
      · simp at h2
      · simp at h1
  · intro t ts ih1 ih2 us h hs
    cases us with
    | nil =>
      rcases h 0 with ⟨h1, -⟩ | ⟨_, _, _, h2, _⟩
      · simp at h1
      · simp at h2
    | cons u us =>
      have h0 : t.LooksLike u := by
        rcases h 0 with ⟨h1, -⟩ | ⟨_, _, h1, h2, h3⟩
        · simp at h1
        · simp only [List.getElem?_cons_zero, Option.some.injEq] at h1 h2
          subst h1; subst h2
          exact h3
      rw [ih1 h0 (hs t (List.mem_cons_self ..)), ih2 (us := us) (fun i => by simpa using h (i + 1))
        fun t ht => hs t (List.mem_cons_of_mem _ ht)]

/-! ### C62 -/

section
variable {r r' : Root} {env : DebugEnv} {n m : SNode} {s u : Tree}

/-- **C62.**  Two nodes, of the same or of different trees, have the same dump if and only if they start at the same
offset and look alike: at every position below them there are elements of the same sort, kind, length and shown text. -/
theorem C62_dump_iff (hc : r.green.Coherent) (hc' : r'.green.Coherent) (he : env.Lawful) (hn : Reach r (.node n))
    (hm : Reach r' (.node m)) (hs : r.tree.at? n.path = some s) (hu : r'.tree.at? m.path = some u) :
    n.debugAlternate env = m.debugAlternate env ↔ n.textRange.start = m.textRange.start ∧ s.LooksLike u := by
  rw [C25_dump hc env hn hs, C25_dump hc' env hm hu, Res.ok.injEq]
  have key : ∀ {t : Tree} {p : List Nat} {s : Tree}, t.at? p = some s →
      (Tree.descend Tree.all s p).flatMap (fun q => indent (q.length - p.length) ++ t.line env q ++ ['\n']) =
        (Tree.descend Tree.all s p).flatMap fun q => dumpRow env (q.length - p.length) (t.label q) ++ ['\n'] := by
    intro t p s ht
    rw [List.flatMap_def, List.flatMap_def]
    congr 1
    refine List.map_congr_left fun q hq => ?_
    obtain ⟨v, rfl, hv⟩ := (mem_descend s p q).mp hq
    obtain ⟨x, hx⟩ := Option.isSome_iff_exists.mp hv
    rw [Tree.line_eq env _ (s := x) (by rw [Tree.at?_append, ht]; exact hx)]
  rw [key hs, key hu, dump_inj (fun d x => dumpRow_line he d x) (fun h => dumpRow_inj he h)]
  obtain ⟨_, -, -, sn, -⟩ := C11_ranges hn
  obtain ⟨_, -, -, sm, -⟩ := C11_ranges hm
  have sn : n.textRange.start = blen (r.tree.before n.path) := sn
  have sm : m.textRange.start = blen (r'.tree.before m.path) := sm
  rw [sn, sm]
  have lab : ∀ {t s : Tree} {p q : List Nat} {x : Tree}, t.at? p = some s → s.at? q = some x →
      t.label (p ++ q) = (x.kind, TextRange.at_ (blen (t.before p) + blen (s.before q)) (blen x.text),
        match x with
        | .node _ _ => none
        | .token _ x => some (shownText x)) := by
    intro t s p q x hp hq
    rw [Tree.label, Tree.at?_append, hp, Option.bind_some, hq]
    simp only [Tree.before_append p q hp, blen_append]
  constructor
  · intro h
    refine ⟨?_, fun q => ?_⟩
    · have h0 := h []
      simp only [Tree.at?_nil, Option.map_some, Option.some.injEq] at h0
      rw [lab hs (Tree.at?_nil s), lab hu (Tree.at?_nil u)] at h0
      simpa [Tree.before] using congrArg TextRange.start (congrArg (·.2.1) h0)
    · have hq := h q
      cases h1 : s.at? q with
      | none =>
        cases h2 : u.at? q with
        | none => rfl
        | some y => rw [h1, h2] at hq; simp at hq
      | some x =>
        cases h2 : u.at? q with
        | none => rw [h1, h2] at hq; simp at hq
        | some y =>
          rw [h1, h2, Option.map_some, Option.map_some, Option.some.injEq, lab hs h1, lab hu h2, Prod.mk.injEq, Prod.mk.injEq] at hq
          obtain ⟨hk, hR, ht⟩ := hq
          have e1 := congrArg TextRange.start hR
          have e2 := congrArg TextRange.stop hR
          simp only [TextRange.at_] at e1 e2
          have hlen : blen x.text = blen y.text := by omega
          cases x with
          | node k ts =>
            cases y with
            | token => simp at ht
            | node l us =>
              have hk : k = l := hk
              simp only [Option.map_some, Tree.glimpse, hk]
              rw [← hk, hlen, hk]
          | token k x =>
            cases y with
            | node => simp at ht
            | token l y =>
              have hk : k = l := hk
              simp only [Option.some.injEq] at ht
              simp only [Option.map_some, Tree.glimpse, hk, ht]
              rw [show blen x = blen y from hlen]
  · rintro ⟨h0, h⟩ q
    have hq := h q
    cases h1 : s.at? q with
    | none =>
      cases h2 : u.at? q with
      | none => rfl
      | some y => rw [h1, h2] at hq; simp at hq
    | some x =>
      cases h2 : u.at? q with
      | none => rw [h1, h2] at hq; simp at hq
      | some y =>
        rw [h1, h2, Option.map_some, Option.map_some, Option.some.injEq] at hq
        rw [Option.map_some, Option.map_some, lab hs h1, lab hu h2, h0, h.before q]
        have hl := Tree.glimpse_len x
        rw [hq, Tree.glimpse_len] at hl
        rw [← hl]
        cases x with
        | node k ts =>
          cases y with
          | token => simp [Tree.glimpse] at hq
          | node l us =>
            simp only [Tree.glimpse, Prod.mk.injEq] at hq
            rw [show (Tree.node k ts).kind = (Tree.node l us).kind from hq.2.1]
        | token k x =>
          cases y with
          | node => simp [Tree.glimpse] at hq
          | token l y =>
            simp only [Tree.glimpse, Prod.mk.injEq] at hq
            rw [show (Tree.token k x).kind = (Tree.token l y).kind from hq.2.1]
            simp only [hq.2.2.2]

/-- **C62.**  If one of two nodes with the same dump has only tokens shorter than 25 bytes, both have the same content: the
dump determines the tree. -/
theorem C62_dump (hc : r.green.Coherent) (hc' : r'.green.Coherent) (he : env.Lawful) (hn : Reach r (.node n))
    (hm : Reach r' (.node m)) (hs : r.tree.at? n.path = some s) (hu : r'.tree.at? m.path = some u) (hsh : s.Short)
    (h : n.debugAlternate env = m.debugAlternate env) : s = u ∧ n.textRange = m.textRange := by
  obtain ⟨h1, h2⟩ := (C62_dump_iff hc hc' he hn hm hs hu).mp h
  have e := h2.eq hsh
  refine ⟨e, ?_⟩
  subst e
  obtain ⟨x, ex, -, -, ln, -⟩ := C11_ranges hn
  obtain ⟨y, ey, -, -, lm, -⟩ := C11_ranges hm
  rw [SElem.path_node, hs] at ex
  rw [SElem.path_node, hu] at ey
  cases ex
  cases ey
  have ln : n.textRange.stop - n.textRange.start = blen s.text := ln
  have lm : m.textRange.stop - m.textRange.start = blen s.text := lm
  have := n.textRange.le
  have := m.textRange.le
  ext <;> omega

end

/-! ### How Rust shows kinds, ranges and strings -/

/-- `{:?}` of a string, reduced to the escapes of quotes, backslashes and line breaks. -/
def quoted : List Char → List Char
  | [] => ['"']
  | c :: cs => (if c = '"' then ['\\', '"'] else if c = '\\' then ['\\', '\\'] else if c = '\n' then ['\\', 'n'] else [c]) ++
      quoted cs

/-- `SyntaxKind(3)`, `1..4` and `"a"`. -/
def rustEnv : DebugEnv where
  kind k := 'S' :: 'y' :: 'n' :: 't' :: 'a' :: 'x' :: 'K' :: 'i' :: 'n' :: 'd' :: '(' :: (Nat.toDigits 10 k.toNat ++ [')'])
  range R := Nat.toDigits 10 R.start ++ ('.' :: '.' :: Nat.toDigits 10 R.stop)
  str x := '"' :: quoted x

theorem toDigits_inj {a b : Nat} (h : Nat.toDigits 10 a = Nat.toDigits 10 b) : a = b := by
  have := congrArg (Nat.ofDigitChars 10 · 0) h
  simpa [Nat.ofDigitChars_toDigits] using this

theorem not_mem_toDigits {c : Char} (hc : c.isDigit = false) (n : Nat) : c ∉ Nat.toDigits 10 n := by
  intro h
  rw [Nat.isDigit_of_mem_toDigits (by decide) (by decide) h] at hc
  cases hc

theorem quoted_inj : ∀ {x y : List Char}, quoted x = quoted y → x = y := by
  have ne : ∀ x : List Char, quoted x ≠ [] := by
    intro x
    cases x with
    | nil => simp [quoted]
    | cons c cs =>
      simp only [quoted]
      split
      · simp
      split
      · simp
      split <;> simp
  intro x
  induction x with
  | nil =>
    intro y h
    cases y with
    | nil => rfl
    | cons c cs =>
      simp only [quoted] at h
      split at h
      · simp at h
      split at h
      · simp at h
      split at h
      · simp at h
      · simp only [List.singleton_append, List.cons.injEq] at h
        exact absurd h.2.symm (ne cs)
  | cons c cs ih =>
    intro y h
    cases y with
    | nil =>
      simp only [quoted] at h
      split at h
      · simp at h
      split at h
      · simp at h
      split at h
      · simp at h
      · simp only [List.singleton_append, List.cons.injEq] at h
        exact absurd h.2 (ne cs)
    | cons d ds =>
      simp only [quoted] at h
      have main : c = d ∧ quoted cs = quoted ds := by
        by_cases c1 : c = '"' <;> by_cases d1 : d = '"' <;> by_cases c2 : c = '\\' <;> by_cases d2 : d = '\\' <;>
          by_cases c3 : c = '\n' <;> by_cases d3 : d = '\n' <;> simp_all <;> exact absurd h.1.symm d2
      rw [main.1, ih main.2]

theorem quoted_line : ∀ x : List Char, '\n' ∉ quoted x
  | [] => by simp [quoted]
  | c :: cs => by
    have := quoted_line cs
    simp only [quoted, List.mem_append, not_or]
    refine ⟨?_, this⟩
    split
    · simp
    split
    · simp
    split
    · simp
    · rename_i h; simp [Ne.symm h]

theorem rustEnv_kind (k : SyntaxKind) : rustEnv.kind k =
    'S' :: 'y' :: 'n' :: 't' :: 'a' :: 'x' :: 'K' :: 'i' :: 'n' :: 'd' :: '(' :: (Nat.toDigits 10 k.toNat ++ [')']) := rfl
theorem rustEnv_range (R : TextRange) :
    rustEnv.range R = Nat.toDigits 10 R.start ++ ('.' :: '.' :: Nat.toDigits 10 R.stop) := rfl
theorem rustEnv_str (x : List Char) : rustEnv.str x = '"' :: quoted x := rfl
attribute [irreducible] rustEnv

theorem rustEnv_lawful : rustEnv.Lawful where
  kind_inj h := by
    rw [rustEnv_kind, rustEnv_kind] at h
    simp only [List.cons.injEq, true_and] at h
    exact UInt16.toNat_inj.mp (toDigits_inj (List.append_cancel_right h))
  range_inj {R S} h := by
    rw [rustEnv_range, rustEnv_range] at h
    obtain ⟨h1, h2⟩ := split_char (not_mem_toDigits (by decide) _) (not_mem_toDigits (by decide) _) h
    simp only [List.cons.injEq, true_and] at h2
    exact TextRange.ext (toDigits_inj h1) (toDigits_inj h2)
  str_inj h := by
    rw [rustEnv_str, rustEnv_str] at h
    simp only [List.cons.injEq, true_and] at h
    exact quoted_inj h
  kind_start k := by rw [rustEnv_kind]; simp
  kind_at k := by
    have := not_mem_toDigits (c := '@') (by decide) k.toNat
    rw [rustEnv_kind]
    simp [this]
  kind_line k := by
    have := not_mem_toDigits (c := '\n') (by decide) k.toNat
    rw [rustEnv_kind]
    simp [this]
  range_space R := by
    have h1 := not_mem_toDigits (c := ' ') (by decide) R.start
    have h2 := not_mem_toDigits (c := ' ') (by decide) R.stop
    rw [rustEnv_range]
    simp [h1, h2]
  range_line R := by
    have h1 := not_mem_toDigits (c := '\n') (by decide) R.start
    have h2 := not_mem_toDigits (c := '\n') (by decide) R.stop
    rw [rustEnv_range]
    simp [h1, h2]
  str_line x := by
    rw [rustEnv_str]
    simp [quoted_line]

/-! ### Concrete cases -/

theorem synTree_short : synRoot.tree.Short := by
  intro q k x h
  have : ∀ q ∈ Tree.descend Tree.all synRoot.tree [], ∀ s, synRoot.tree.at? q = some s → blen s.text < 25 := by
    decide +kernel
  exact this q ((mem_descend _ _ _).mpr ⟨q, rfl, by rw [h]; rfl⟩) _ h

/-- The dump of the example tree is that of no other tree. -/
example {r : Root} {n : SNode} {s : Tree} (hc : r.green.Coherent) (hn : Reach r (.node n)) (hs : r.tree.at? n.path = some s)
    (h : synTop.debugAlternate rustEnv = n.debugAlternate rustEnv) : synRoot.tree = s :=
  (C62_dump synGreen_coherent hc rustEnv_lawful synTop_reach hn rfl hs synTree_short h).1

/-- A tree with one token. -/
def longGreen (x : List Char) : GNode := GNode.new 9 1 [.token (GToken.new 8 2 x)]
def longText (c : Char) : List Char := List.replicate 24 'a' ++ [c]

theorem longGreen_wf (x : List Char) : GElem.WF (.node (longGreen x)) :=
  (Made.node 9 1 [.token (GToken.new 8 2 x)] (by
    intro e he
    simp only [List.mem_singleton] at he
    subst he
    exact .token ..)).wf

theorem longGreen_coherent (x : List Char) : GElem.Coherent (.node (longGreen x)) := by
  intro a ha b hb hab
  simp only [GElem.subs, GNode.subs, longGreen, GNode.new, GNode.layout, GChild.subss, GChild.subs, GChild.ofElem,
    GToken.new, List.mem_cons, List.not_mem_nil, or_false, List.append_nil] at ha hb
  rcases ha with rfl | rfl <;> rcases hb with rfl | rfl
  · rfl
  · exact absurd (show 9 = 8 from hab) (by decide)
  · exact absurd (show 8 = 9 from hab) (by decide)
  · rfl

/-- **C62 is false for long tokens**: the dumps of two trees with tokens of 25 bytes are the same although their texts are
different. -/
theorem C62_long_tokens : ∃ (r r' : Root) (n m : SNode), Reach r (.node n) ∧ Reach r' (.node m) ∧ n.path = [] ∧ m.path = [] ∧
    r.green.Coherent ∧ r'.green.Coherent ∧ n.debugAlternate rustEnv = m.debugAlternate rustEnv ∧ r.tree.text ≠ r'.tree.text := by
  have h1 : Reach ⟨false, 0, .node (longGreen (longText 'x'))⟩ (.node (.root false 0 (longGreen (longText 'x')))) :=
    Reach.top (longGreen_wf _)
  have h2 : Reach ⟨false, 0, .node (longGreen (longText 'y'))⟩ (.node (.root false 0 (longGreen (longText 'y')))) :=
    Reach.top (longGreen_wf _)
  refine ⟨_, _, _, _, h1, h2, rfl, rfl, longGreen_coherent _, longGreen_coherent _, ?_, by decide +kernel⟩
  rw [C62_dump_iff (longGreen_coherent _) (longGreen_coherent _) rustEnv_lawful h1 h2
    (s := .node 1 [.token 2 (longText 'x')]) (u := .node 1 [.token 2 (longText 'y')]) rfl rfl]
  refine ⟨rfl, fun q => ?_⟩
  match q with
  | [] => decide +kernel
  | [0] => decide +kernel
  | 0 :: _ :: _ => rfl
  | (_ + 1) :: _ => rfl

end Rowan
