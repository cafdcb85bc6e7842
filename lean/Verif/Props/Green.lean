import Verif.Green
/-!
# C01 – C04: green trees
-/
namespace Rowan

/-! ### Specification -/

/-- Every green element a user can get hold of through the public green API: `GreenToken::new`,
`GreenNode::new`, the four edit methods, and reading children back. -/
inductive Made : GElem → Prop
  | token (a k s) : Made (.token (GToken.new a k s))
  | node (a k els) : (∀ e ∈ els, Made e) → Made (.node (GNode.new a k els))
  | child {n e} : Made (.node n) → e ∈ n.children → Made e
  | replace {n x} (a i) : Made (.node n) → Made x → Made (.node (n.replaceChild a i x))
  | insert {n x m} (a i) : Made (.node n) → Made x → n.insertChild a i x = some m → Made (.node m)
  | remove {n m} (a i) : Made (.node n) → n.removeChild a i = some m → Made (.node m)
  | splice {n xs m} (a i j) : Made (.node n) → (∀ x ∈ xs, Made x) →
      n.spliceChildren a i j xs = some m → Made (.node m)

mutual
/-- The tokens below a green node, left to right (specification; reads only the child structure,
no cached length or offset). -/
def GNode.tokens : GNode → List GToken
  | .mk _ _ _ cs => GChild.tokenss cs
def GChild.tokens : GChild → List GToken
  | .node _ n => n.tokens
  | .token _ t => [t]
def GChild.tokenss : List GChild → List GToken
  | [] => []
  | c :: cs => c.tokens ++ GChild.tokenss cs
end

/-! ### Helper lemmas -/

theorem vecSplice_eq_some {α : Type} {l : List α} {a b : Nat} {xs r : List α} :
    vecSplice l a b xs = some r ↔ a ≤ b ∧ b ≤ l.length ∧ r = l.take a ++ xs ++ l.drop b := by
  unfold vecSplice
  split <;> simp_all [eq_comm]
  intro h1 h2; omega

theorem GElem.wf_new (a k) (es : List GElem) (h : ∀ e ∈ es, e.WF) :
    GElem.WF (.node (GNode.new a k es)) := GNode.wf_new a k es h

theorem Made.wf {e : GElem} (h : Made e) : e.WF := by
  induction h with
  | token => trivial
  | node a k els _ ih => exact GElem.wf_new a k els ih
  | child _ hm ih => exact ((GNode.wf_iff _).mp ih).2 _ hm
  | @replace n x a i _ _ ih1 ih2 =>
    refine GElem.wf_new _ _ _ ?_
    intro e he
    simp only [List.mem_mapIdx] at he
    obtain ⟨j, hj, rfl⟩ := he
    split
    · exact ih2
    · exact ((GNode.wf_iff _).mp ih1).2 _ (by simp)
  | @insert n x m a i _ _ heq ih1 ih2 =>
    simp only [GNode.insertChild, GNode.spliceChildren, Option.map_eq_some_iff] at heq
    obtain ⟨l, hl, rfl⟩ := heq
    obtain ⟨-, -, rfl⟩ := vecSplice_eq_some.mp hl
    refine GElem.wf_new _ _ _ ?_
    intro e he
    simp only [List.mem_append, List.mem_singleton] at he
    rcases he with (he | rfl) | he
    · exact ((GNode.wf_iff _).mp ih1).2 _ (List.mem_of_mem_take he)
    · exact ih2
    · exact ((GNode.wf_iff _).mp ih1).2 _ (List.mem_of_mem_drop he)
  | @remove n m a i _ heq ih1 =>
    simp only [GNode.removeChild, GNode.spliceChildren, Option.map_eq_some_iff] at heq
    obtain ⟨l, hl, rfl⟩ := heq
    obtain ⟨-, -, rfl⟩ := vecSplice_eq_some.mp hl
    refine GElem.wf_new _ _ _ ?_
    intro e he
    simp only [List.mem_append, List.not_mem_nil, or_false] at he
    rcases he with he | he
    · exact ((GNode.wf_iff _).mp ih1).2 _ (List.mem_of_mem_take he)
    · exact ((GNode.wf_iff _).mp ih1).2 _ (List.mem_of_mem_drop he)
  | @splice n xs m a i j _ _ heq ih1 ih2 =>
    simp only [GNode.spliceChildren, Option.map_eq_some_iff] at heq
    obtain ⟨l, hl, rfl⟩ := heq
    obtain ⟨-, -, rfl⟩ := vecSplice_eq_some.mp hl
    refine GElem.wf_new _ _ _ ?_
    intro e he
    simp only [List.mem_append] at he
    rcases he with (he | he) | he
    · exact ((GNode.wf_iff _).mp ih1).2 _ (List.mem_of_mem_take he)
    · exact ih2 _ he
    · exact ((GNode.wf_iff _).mp ih1).2 _ (List.mem_of_mem_drop he)

mutual
theorem GNode.display_tokens : ∀ n : GNode, n.display = n.tokens.flatMap GToken.text
  | .mk a k l cs => by simp [GNode.display, GNode.tokens, GChild.displays_tokens cs]
theorem GChild.display_tokens : ∀ c : GChild, c.display = c.tokens.flatMap GToken.text
  | .node r n => by simp [GChild.display, GChild.tokens, GNode.display_tokens n]
  | .token r t => by simp [GChild.display, GChild.tokens]
theorem GChild.displays_tokens : ∀ cs : List GChild,
    GChild.displays cs = (GChild.tokenss cs).flatMap GToken.text
  | [] => by simp [GChild.tokenss]
  | c :: cs => by
    simp [GChild.tokenss, GChild.display_tokens c, GChild.displays_tokens cs]
end

mutual
theorem GNode.eq_tree : ∀ a b : GNode, a.eq b = true → a.tree = b.tree
  | .mk _ k l cs, .mk _ k' l' cs', h => by
    simp only [GNode.eq, Bool.and_eq_true, beq_iff_eq] at h
    simp [GNode.tree, h.1.1, GChild.eqs_trees cs cs' h.2]
theorem GChild.eq_tree : ∀ a b : GChild, a.eq b = true → a.tree = b.tree
  | .node r n, .node r' n', h => by
    simp only [GChild.eq, Bool.and_eq_true, beq_iff_eq] at h
    simp [GChild.tree, GNode.eq_tree n n' h.2]
  | .token r t, .token r' t', h => by
    simp only [GChild.eq, Bool.and_eq_true, beq_iff_eq] at h
    simp [GChild.tree, GToken.tree, h.2]
  | .node _ _, .token _ _, h => by simp [GChild.eq] at h
  | .token _ _, .node _ _, h => by simp [GChild.eq] at h
theorem GChild.eqs_trees : ∀ a b : List GChild, GChild.eqs a b = true →
    GChild.trees a = GChild.trees b
  | [], [], _ => rfl
  | c :: cs, c' :: cs', h => by
    simp only [GChild.eqs, Bool.and_eq_true] at h
    simp [GChild.eq_tree c c' h.1, GChild.eqs_trees cs cs' h.2]
  | [], _ :: _, h => by simp [GChild.eqs] at h
  | _ :: _, [], h => by simp [GChild.eqs] at h
end

mutual
theorem GNode.eq_of_tree : ∀ a b : GNode, a.WF → b.WF → a.tree = b.tree → a.eq b = true
  | .mk _ k l cs, .mk _ k' l' cs', ha, hb, h => by
    have l1 := GNode.textLen_eq _ ha
    have l2 := GNode.textLen_eq _ hb
    simp only [GNode.WF] at ha hb
    rw [h] at l1
    simp only [GNode.tree, Tree.node.injEq] at h
    simp only [GNode.eq, Bool.and_eq_true, beq_iff_eq]
    exact ⟨⟨h.1, by rw [← l2] at l1; exact l1⟩, GChild.eqs_of_trees cs cs' 0 l l' ha hb h.2⟩
theorem GChild.eq_of_tree : ∀ a b : GChild, a.WF → b.WF → a.relOffset = b.relOffset →
    a.tree = b.tree → a.eq b = true
  | .node r n, .node r' n', ha, hb, hr, h => by
    simp only [GChild.WF] at ha hb
    simp only [GChild.relOffset] at hr
    simp only [GChild.tree] at h
    simp only [GChild.eq, Bool.and_eq_true, beq_iff_eq]
    exact ⟨hr, GNode.eq_of_tree n n' ha hb h⟩
  | .token r t, .token r' t', _, _, hr, h => by
    simp only [GChild.relOffset] at hr
    simp only [GChild.tree, GToken.tree, Tree.token.injEq] at h
    simp [GChild.eq, h, hr]
  | .node _ n, .token _ _, _, _, _, h => by
    simp [GChild.tree, GNode.tree_eq, GToken.tree] at h
  | .token _ _, .node _ n, _, _, _, h => by
    simp [GChild.tree, GNode.tree_eq, GToken.tree] at h
theorem GChild.eqs_of_trees : ∀ (a b : List GChild) (off l l' : Nat), GChild.WFs off l a →
    GChild.WFs off l' b → GChild.trees a = GChild.trees b → GChild.eqs a b = true
  | [], [], _, _, _, _, _, _ => by simp [GChild.eqs]
  | c :: cs, c' :: cs', off, l, l', ha, hb, h => by
    simp only [GChild.WFs] at ha hb
    simp only [GChild.trees_cons, List.cons.injEq] at h
    simp only [GChild.eqs, Bool.and_eq_true]
    have e1 := GChild.textLen_eq c ha.2.1
    have e2 := GChild.textLen_eq c' hb.2.1
    rw [h.1, ← e2] at e1
    refine ⟨GChild.eq_of_tree c c' ha.2.1 hb.2.1 (by rw [ha.1, hb.1]) h.1, ?_⟩
    refine GChild.eqs_of_trees cs cs' _ l l' ha.2.2 ?_ h.2
    rw [e1]; exact hb.2.2
  | [], _ :: _, _, _, _, _, _, h => by simp at h
  | _ :: _, [], _, _, _, _, _, h => by simp at h
end

mutual
theorem GNode.eq_hash : ∀ a b : GNode, a.eq b = true → a.hashWords = b.hashWords
  | .mk _ k l cs, .mk _ k' l' cs', h => by
    simp only [GNode.eq, Bool.and_eq_true, beq_iff_eq] at h
    have := GChild.eqs_hash cs cs' h.2
    simp [GNode.hashWords, h.1.1, h.1.2, this.1, this.2]
theorem GChild.eq_hash : ∀ a b : GChild, a.eq b = true → a.hashWords = b.hashWords
  | .node r n, .node r' n', h => by
    simp only [GChild.eq, Bool.and_eq_true, beq_iff_eq] at h
    simp [GChild.hashWords, h.1, GNode.eq_hash n n' h.2]
  | .token r t, .token r' t', h => by
    simp only [GChild.eq, Bool.and_eq_true, beq_iff_eq] at h
    simp [GChild.hashWords, h]
  | .node _ _, .token _ _, h => by simp [GChild.eq] at h
  | .token _ _, .node _ _, h => by simp [GChild.eq] at h
theorem GChild.eqs_hash : ∀ a b : List GChild, GChild.eqs a b = true →
    a.length = b.length ∧ GChild.hashWordss a = GChild.hashWordss b
  | [], [], _ => by simp
  | c :: cs, c' :: cs', h => by
    simp only [GChild.eqs, Bool.and_eq_true] at h
    have := GChild.eqs_hash cs cs' h.2
    simp [GChild.hashWordss, GChild.eq_hash c c' h.1, this.1, this.2]
  | [], _ :: _, h => by simp [GChild.eqs] at h
  | _ :: _, [], h => by simp [GChild.eqs] at h
end

/-! ### Theorems -/

/-- **C01** Displaying a green node gives exactly the texts of its tokens in order, and `text_len`
is exactly the UTF-8 byte length of that string, for every green node the API can produce. -/
theorem C01_lossless (n : GNode) (h : Made (.node n)) :
    n.display = n.tokens.flatMap GToken.text ∧
    n.textLen = (String.ofList n.display).utf8ByteSize := by
  refine ⟨n.display_tokens, ?_⟩
  rw [blen_eq_utf8ByteSize, GNode.textLen_eq n h.wf, GNode.display_eq]; rfl

/-- **C01**, children: each child starts, relative to its parent, after exactly the bytes of the
preceding children. -/
theorem C01_child_offsets (n : GNode) (h : Made (.node n)) (i : Nat) (c : GChild)
    (hc : n.slice[i]? = some c) :
    c.relOffset = blen ((n.slice.take i).flatMap GChild.display) ∧
    c.asRef.textLen = blen c.display := by
  constructor
  · rw [GNode.relOffset_eq h.wf hc, Tree.texts_eq, GNode.tree_children]
    congr 1
    simp only [GNode.children, ← List.map_take, List.flatMap_map]
    congr 1; funext c
    rw [GChild.tree_asRef, GChild.display_eq]
  · have := GNode.wf_child (n := n) h.wf (List.mem_of_getElem? hc)
    rw [GChild.wf_asRef] at this
    rw [GChild.textLen_eq c this, GChild.display_eq]; rfl

/-- A non-trivial tree for the non-vacuity checks: a node with an empty token, a multi-byte token
and a nested node, edited afterwards. -/
def exTok (a : Nat) (k : SyntaxKind) (s : String) : GElem := .token (GToken.new a k s.toList)
def exGreen : GNode :=
  GNode.new 4 10 [exTok 0 1 "", exTok 1 2 "é→", .node (GNode.new 3 11 [exTok 2 3 "ab"])]

theorem exGreen_made : Made (.node exGreen) := by
  refine .node _ _ _ ?_
  intro e he
  simp only [List.mem_cons, List.not_mem_nil, or_false] at he
  rcases he with rfl | rfl | rfl
  · exact .token ..
  · exact .token ..
  · refine .node _ _ _ ?_
    intro e he
    simp only [List.mem_cons, List.not_mem_nil, or_false] at he
    subst he; exact .token ..

example : exGreen.display = "é→ab".toList ∧ exGreen.textLen = 7 ∧
    exGreen.slice.map GChild.relOffset = [0, 0, 5] := by decide

/-- **C02** `replace_child`: the result has the old kind and the old children with one entry
overwritten (none if the index is out of range). -/
theorem C02_replace_child (n : GNode) (a i : Nat) (x : GElem) :
    (n.replaceChild a i x).kind = n.kind ∧
    (n.replaceChild a i x).children = n.children.set i x ∧
    (Made (.node n) → Made x → Made (.node (n.replaceChild a i x))) := by
  refine ⟨rfl, ?_, fun h1 h2 => .replace a i h1 h2⟩
  simp only [GNode.replaceChild, GNode.children_new]
  apply List.ext_getElem
  · simp
  · intro j h1 h2
    simp only [List.getElem_mapIdx, List.getElem_set, beq_iff_eq]
    by_cases h : j = i <;> simp [h, Ne.symm]

/-- **C02** `insert_child`: panics exactly past the end, otherwise inserts one child. -/
theorem C02_insert_child (n : GNode) (a i : Nat) (x : GElem) :
    (n.insertChild a i x = none ↔ n.children.length < i) ∧
    ∀ m, n.insertChild a i x = some m →
      m.kind = n.kind ∧ m.children = n.children.insertIdx i x := by
  constructor
  · simp [GNode.insertChild, GNode.spliceChildren, vecSplice]
  · intro m hm
    simp only [GNode.insertChild, GNode.spliceChildren, Option.map_eq_some_iff] at hm
    obtain ⟨l, hl, rfl⟩ := hm
    obtain ⟨-, h2, rfl⟩ := vecSplice_eq_some.mp hl
    refine ⟨rfl, ?_⟩
    rw [GNode.children_new]
    generalize n.children = cs at *
    clear hl
    induction cs generalizing i with
    | nil => simp at h2; subst h2; simp
    | cons c cs ih =>
      cases i with
      | zero => simp
      | succ i => simp at h2; simp; simpa using ih i h2

/-- **C02** `remove_child`: panics exactly out of range, otherwise erases one child. -/
theorem C02_remove_child (n : GNode) (a i : Nat) :
    (n.removeChild a i = none ↔ n.children.length ≤ i) ∧
    ∀ m, n.removeChild a i = some m →
      m.kind = n.kind ∧ m.children = n.children.eraseIdx i := by
  constructor
  · simp [GNode.removeChild, GNode.spliceChildren, vecSplice]; omega
  · intro m hm
    simp only [GNode.removeChild, GNode.spliceChildren, Option.map_eq_some_iff] at hm
    obtain ⟨l, hl, rfl⟩ := hm
    obtain ⟨-, h2, rfl⟩ := vecSplice_eq_some.mp hl
    exact ⟨rfl, by rw [GNode.children_new]; simp [List.eraseIdx_eq_take_drop_succ]⟩

/-- **C02** `splice_children`: panics exactly on a reversed or out-of-range range, otherwise
replaces that range. -/
theorem C02_splice_children (n : GNode) (a i j : Nat) (xs : List GElem) :
    (n.spliceChildren a i j xs = none ↔ j < i ∨ n.children.length < j) ∧
    ∀ m, n.spliceChildren a i j xs = some m →
      m.kind = n.kind ∧ m.children = n.children.take i ++ xs ++ n.children.drop j := by
  constructor
  · simp only [GNode.spliceChildren, vecSplice, Option.map_eq_none_iff]
    split <;> simp <;> omega
  · intro m hm
    simp only [GNode.spliceChildren, Option.map_eq_some_iff] at hm
    obtain ⟨l, hl, rfl⟩ := hm
    obtain ⟨-, -, rfl⟩ := vecSplice_eq_some.mp hl
    exact ⟨rfl, by simp⟩

/-- **C02**, lengths and offsets of edit results are exact again (instance of C01, since edit
results are `Made`). -/
theorem C02_lengths_exact (n : GNode) (a i j : Nat) (xs : List GElem) (m : GNode)
    (hn : Made (.node n)) (hx : ∀ x ∈ xs, Made x) (hm : n.spliceChildren a i j xs = some m) :
    m.textLen = blen m.display ∧
    ∀ k c, m.slice[k]? = some c → c.relOffset = blen ((m.slice.take k).flatMap GChild.display) := by
  have hM : Made (.node m) := .splice a i j hn hx hm
  refine ⟨?_, fun k c hk => (C01_child_offsets m hM k c hk).1⟩
  rw [(C01_lossless m hM).2, blen_eq_utf8ByteSize]

example : ((exGreen.spliceChildren 9 1 2 [exTok 7 5 "ß", exTok 8 5 "x"]).map
    fun m => (m.display, m.textLen, m.slice.map GChild.relOffset)) =
    some ("ßxab".toList, 5, [0, 0, 2, 3]) := by decide
example : (exGreen.insertChild 9 4 (exTok 7 5 "ß")).isNone = true ∧
    (exGreen.removeChild 9 3).isNone = true := by decide

/-- **C03** Equality of green nodes the API can produce is equality of the plain trees they stand
for: kinds, token texts and shape; addresses and sharing play no role. -/
theorem C03_structural_eq (a b : GNode) (ha : Made (.node a)) (hb : Made (.node b)) :
    a.eq b = true ↔ a.tree = b.tree :=
  ⟨GNode.eq_tree a b, GNode.eq_of_tree a b ha.wf hb.wf⟩

/-- **C03** for tokens. -/
theorem C03_structural_eq_token (a b : GToken) :
    a.eq b = true ↔ a.kind = b.kind ∧ a.text = b.text := by
  simp [GToken.eq]

/-- **C03** equal green nodes feed the same words to a hasher. -/
theorem C03_eq_hash (a b : GNode) (h : a.eq b = true) : a.hashWords = b.hashWords :=
  GNode.eq_hash a b h

/-- Two separately allocated copies are equal; a different nesting of the same text is not. -/
example : exGreen.eq (GNode.new 104 10 [exTok 100 1 "", exTok 101 2 "é→",
      .node (GNode.new 103 11 [exTok 102 3 "ab"])]) = true ∧
    exGreen.eq (GNode.new 104 10 [exTok 100 1 "", exTok 101 2 "é→", exTok 102 3 "ab"]) = false := by
  decide

end Rowan
