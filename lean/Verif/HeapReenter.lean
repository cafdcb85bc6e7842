import Verif.Spec.Reenter
import Verif.Spec.Borrow
/-!
# Searching by kind with a predicate that runs code of the program

`first_child_by_kind`, `first_child_or_token_by_kind`, `next_sibling_by_kind` and `next_sibling_or_token_by_kind` call
the predicate while they iterate over the slice of children of a green node, which they have borrowed through a raw
pointer.  In `Verif.Heap` the predicate is a function of the kind; here it runs code, which can change the heap.
-/
namespace Rowan
namespace Cur

/-- How the iteration over the borrowed slice ends. (The `find_map` of src/cursor.rs:393-402, :436-443, :702-711,
:737-747.) -/
inductive Scan.End where
  /-- it has read the slice after the green node was freed -/
  | freed
  /-- no element was accepted -/
  | none (C : Conf)
  /-- the element `c` with index `i` was accepted -/
  | found (c : GChild) (i : Nat) (C : Conf)

/-- The iteration over the rest of the slice of the green node `g`: each element is read from the slice, the predicate
is asked about its kind, and if it says yes the element is read from the slice again.  With `nodes`, tokens are not
accepted — src/cursor.rs:393-402, :436-443, :702-711, :737-747.  (The green child itself is alive when `g` is.  A panic
of the predicate ends the search; the unwinding frees nothing that the search holds, so it is not a case here.) -/
inductive Scan (M : Matcher) (g : GNode) (nodes : Bool) : List (GChild × Nat) → Conf → Scan.End → Prop
  | nil {C} : Scan M g nodes [] C (.none C)
  | freed {x xs C} : ¬ C.Holds (.node g) → Scan M g nodes (x :: xs) C .freed
  | no {x xs C C1 e} : C.Holds (.node g) → M x.1.asRef.kind C false C1 → Scan M g nodes xs C1 e →
      Scan M g nodes (x :: xs) C e
  | yesFreed {x xs C C1} : C.Holds (.node g) → M x.1.asRef.kind C true C1 → ¬ C1.Holds (.node g) →
      Scan M g nodes (x :: xs) C .freed
  | token {x xs C C1 e} : C.Holds (.node g) → M x.1.asRef.kind C true C1 → C1.Holds (.node g) →
      (nodes && !isNode x) = true → Scan M g nodes xs C1 e → Scan M g nodes (x :: xs) C e
  | yes {c i xs C C1} : C.Holds (.node g) → M c.asRef.kind C true C1 → C1.Holds (.node g) →
      (nodes && !isNode (c, i)) = false → Scan M g nodes ((c, i) :: xs) C (.found c i C1)

/-- How a search ends. (src/cursor.rs:389-403, :429-444, :698-712, :733-748.) -/
inductive SearchEnd where
  /-- it has accessed freed memory -/
  | freed
  /-- after what the predicate has done, which has left the program in state `C`, the rest of the search ends with `o` -/
  | done (C : Conf) (o : HOut (Option Nat))

/-- The part of the search after the iteration: the handle is made by `f`.
(src/cursor.rs:397-400, :440-442, :706-709, :741-746.) -/
def Scan.End.finish (f : Option (GChild × Nat) → H (Option Nat)) : Scan.End → SearchEnd
  | freed => .freed
  | none C => .done C (f .none C.s)
  | found c i C => .done C (f (some (c, i)) C.s)

/-- `first_child_by_kind` (`nodes`) and `first_child_or_token_by_kind` of the node `p` — src/cursor.rs:698-712,
:733-748. -/
def FirstBy (nodes : Bool) (M : Matcher) (p : Nat) (C : Conf) (r : SearchEnd) : Prop :=
  ∃ g e, greenRef p C.s = .ok g C.s ∧ Scan M g nodes g.slice.zipIdx C e ∧ r = e.finish (viaSelf p)

/-- `next_sibling_by_kind` (`nodes`) and `next_sibling_or_token_by_kind` of `p` — src/cursor.rs:389-403, :429-444. -/
def NextBy (nodes : Bool) (M : Matcher) (p : Nat) (C : Conf) (r : SearchEnd) : Prop :=
  match C.s.parent p with
  | none => r = .done C (.ok none C.s)
  | some q => ∃ g e, greenRef q C.s = .ok g C.s ∧ Scan M g nodes (g.slice.zipIdx.drop (C.s.index p + 1)) C e ∧
      r = e.finish (viaParent p)

end Cur
end Rowan
