import Verif.Text
/-!
# Specification vocabulary: plain trees

A syntax tree as a user thinks of it: a token has a kind and a text, a node has a kind and an
ordered list of children.  No cached lengths, no offsets, no addresses.  All theorem statements
about rowan trees are phrased through this type.
-/
namespace Rowan

inductive Tree where
  | token (kind : SyntaxKind) (text : List Char)
  | node (kind : SyntaxKind) (children : List Tree)
deriving Repr

namespace Tree

def kind : Tree → SyntaxKind
  | token k _ => k
  | node k _ => k

def children : Tree → List Tree
  | token _ _ => []
  | node _ cs => cs

def isNode : Tree → Bool
  | token _ _ => false
  | node _ _ => true

mutual
/-- The text of a tree: the concatenation of its token texts, left to right. -/
def text : Tree → List Char
  | token _ t => t
  | node _ cs => texts cs
/-- The text of a list of trees. -/
def texts : List Tree → List Char
  | [] => []
  | t :: ts => t.text ++ texts ts
end

/-- Byte length of the text of a tree. -/
def len (t : Tree) : Nat := blen t.text

theorem ind {P : Tree → Prop} (tok : ∀ k s, P (token k s))
    (nd : ∀ k cs, (∀ c ∈ cs, P c) → P (node k cs)) : ∀ t, P t
  | token k s => tok k s
  | node k cs => nd k cs (fun c _ => ind tok nd c)

theorem texts_eq (ts : List Tree) : texts ts = ts.flatMap text := by
  induction ts with
  | nil => rfl
  | cons t ts ih => simp [texts, ih]

@[simp] theorem texts_append (a b : List Tree) : texts (a ++ b) = texts a ++ texts b := by
  simp [texts_eq]

@[simp] theorem text_node (k cs) : (node k cs).text = texts cs := by simp [text]
@[simp] theorem text_token (k s) : (token k s).text = s := by simp [text]
@[simp] theorem texts_nil : texts [] = [] := by simp [texts]
@[simp] theorem texts_cons (t ts) : texts (t :: ts) = t.text ++ texts ts := by simp [texts]

mutual
/-- Decidable equality of trees (used only to let examples compute). -/
def beq : Tree → Tree → Bool
  | token k s, token k' s' => k == k' && s == s'
  | node k cs, node k' cs' => k == k' && beqs cs cs'
  | _, _ => false
def beqs : List Tree → List Tree → Bool
  | [], [] => true
  | t :: ts, t' :: ts' => beq t t' && beqs ts ts'
  | _, _ => false
end

mutual
theorem beq_iff : ∀ a b : Tree, beq a b = true ↔ a = b
  | token k s, token k' s' => by simp [beq]
  | node k cs, node k' cs' => by simp [beq, beqs_iff cs cs']
  | token _ _, node _ _ => by simp [beq]
  | node _ _, token _ _ => by simp [beq]
theorem beqs_iff : ∀ a b : List Tree, beqs a b = true ↔ a = b
  | [], [] => by simp [beqs]
  | t :: ts, t' :: ts' => by simp [beqs, beq_iff t t', beqs_iff ts ts']
  | [], _ :: _ => by simp [beqs]
  | _ :: _, [] => by simp [beqs]
end

instance : DecidableEq Tree := fun a b => decidable_of_iff _ (beq_iff a b)

/-! ### Positions

A position in a tree is the list of child indices leading to it. -/

/-- The subtree at a path. -/
def at? : Tree → List Nat → Option Tree
  | t, [] => some t
  | t, i :: p =>
    match t.children[i]? with
    | some c => c.at? p
    | none => none

/-- The text strictly before the element at a path: everything to its left in the whole tree. -/
def before : Tree → List Nat → List Char
  | _, [] => []
  | t, i :: p =>
    texts (t.children.take i) ++ (match t.children[i]? with
      | some c => c.before p
      | none => [])

/-- The text strictly after the element at a path. -/
def after : Tree → List Nat → List Char
  | _, [] => []
  | t, i :: p =>
    (match t.children[i]? with
      | some c => c.after p
      | none => []) ++ texts (t.children.drop (i + 1))

/-- Replace the subtree at a path. -/
def set : Tree → List Nat → Tree → Tree
  | _, [], s => s
  | token k t, _ :: _, _ => token k t
  | node k cs, i :: p, s => node k (cs.modify i (fun c => c.set p s))

@[simp] theorem at?_nil (t : Tree) : t.at? [] = some t := by simp [at?]

theorem at?_cons (t : Tree) (i : Nat) (p : List Nat) :
    t.at? (i :: p) = (t.children[i]?).bind (·.at? p) := by
  simp only [at?]; cases t.children[i]? <;> rfl

theorem at?_append (t : Tree) (p q : List Nat) : t.at? (p ++ q) = (t.at? p).bind (·.at? q) := by
  induction p generalizing t with
  | nil => simp
  | cons i p ih =>
    simp only [List.cons_append, at?_cons]
    cases t.children[i]? <;> simp [ih]

theorem at?_snoc (t : Tree) (p : List Nat) (i : Nat) :
    t.at? (p ++ [i]) = (t.at? p).bind (fun s => s.children[i]?) := by
  rw [at?_append]; congr 1; funext s; rw [at?_cons]; cases s.children[i]? <;> simp

theorem text_eq_children (t : Tree) (h : t.isNode = true) : t.text = texts t.children := by
  cases t <;> simp_all [isNode, children]

theorem isNode_of_child {t : Tree} {i : Nat} {c : Tree} (h : t.children[i]? = some c) :
    t.isNode = true := by cases t <;> simp_all [children, isNode]

/-- A tree's text is: text before a position, text at it, text after it. -/
theorem text_split {t : Tree} {p : List Nat} {s : Tree} (h : t.at? p = some s) :
    t.text = t.before p ++ s.text ++ t.after p := by
  induction p generalizing t with
  | nil => simp [at?] at h; simp [h, before, after]
  | cons i p ih =>
    rw [at?_cons] at h
    cases hc : t.children[i]? with
    | none => simp [hc] at h
    | some c =>
      simp [hc] at h
      have := ih h
      simp only [before, after, hc]
      rw [text_eq_children t (isNode_of_child hc)]
      have hsplit : t.children = t.children.take i ++ c :: t.children.drop (i + 1) := by
        obtain ⟨hi, rfl⟩ := List.getElem?_eq_some_iff.mp hc
        simp
      conv => lhs; rw [hsplit]
      simp [this]

theorem before_snoc {t : Tree} {p : List Nat} {s : Tree} (h : t.at? p = some s) (i : Nat) :
    t.before (p ++ [i]) = t.before p ++ texts (s.children.take i) := by
  induction p generalizing t with
  | nil =>
    simp [at?] at h; subst h
    simp only [List.nil_append, before]
    cases t.children[i]? <;> simp
  | cons j p ih =>
    rw [at?_cons] at h
    cases hc : t.children[j]? with
    | none => simp [hc] at h
    | some c =>
      simp [hc] at h
      simp only [List.cons_append, before, hc]
      rw [ih h]; simp

end Tree

end Rowan
