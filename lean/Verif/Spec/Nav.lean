import Verif.Spec.Tree
/-!
# Specification vocabulary: navigation on plain trees

Positions are paths (lists of child indices from the root).
-/
namespace Rowan
namespace Tree

/-- The positions of the children of the element at `p`, left to right. -/
def kids (t : Tree) (p : List Nat) : List (List Nat) :=
  match t.at? p with
  | some s => (List.range s.children.length).map fun i => p ++ [i]
  | none => []

/-- The siblings to the right of position `p`, nearest first. -/
def later (t : Tree) (p : List Nat) : List (List Nat) :=
  match p.getLast? with
  | some i => (t.kids p.dropLast).drop (i + 1)
  | none => []

/-- The siblings to the left of position `p`, nearest first. -/
def earlier (t : Tree) (p : List Nat) : List (List Nat) :=
  match p.getLast? with
  | some i => ((t.kids p.dropLast).take i).reverse
  | none => []

/-- Does the element at position `p` satisfy `P`? -/
def sat (t : Tree) (P : Tree → Bool) (p : List Nat) : Bool :=
  match t.at? p with
  | some s => P s
  | none => false

/-- Is it a node of a kind accepted by `m`? -/
def nodeOf (m : SyntaxKind → Bool) (t : Tree) : Bool := t.isNode && m t.kind
/-- Is its kind accepted by `m`? -/
def ofKind (m : SyntaxKind → Bool) (t : Tree) : Bool := m t.kind

/-- The position itself and all enclosing positions, innermost first. -/
def upward (p : List Nat) : List (List Nat) :=
  (List.range (p.length + 1)).reverse.map fun k => p.take k

theorem kids_eq {t s : Tree} {p : List Nat} (h : t.at? p = some s) :
    t.kids p = (List.range s.children.length).map fun i => p ++ [i] := by simp [kids, h]

@[simp] theorem later_snoc (t : Tree) (p : List Nat) (i : Nat) :
    t.later (p ++ [i]) = (t.kids p).drop (i + 1) := by simp [later]
@[simp] theorem earlier_snoc (t : Tree) (p : List Nat) (i : Nat) :
    t.earlier (p ++ [i]) = ((t.kids p).take i).reverse := by simp [earlier]
@[simp] theorem later_nil (t : Tree) : t.later [] = [] := rfl
@[simp] theorem earlier_nil (t : Tree) : t.earlier [] = [] := rfl

theorem upward_snoc (p : List Nat) (i : Nat) : upward (p ++ [i]) = (p ++ [i]) :: upward p := by
  simp only [upward, List.length_append, List.length_cons, List.length_nil, Nat.zero_add]
  rw [List.range_succ, List.reverse_append]
  simp only [List.reverse_singleton, List.singleton_append, List.map_cons]
  congr 1
  · exact List.take_of_length_le (by simp)
  · apply List.map_congr_left
    intro k hk
    simp at hk
    rw [List.take_append_of_le_length (by omega)]

end Tree
end Rowan
