import Verif.Spec.Handles
import Verif.Builder
/-!
# Specification vocabulary: depth-first walks
-/
namespace Rowan
namespace Tree

mutual
/-- The enter/leave events of the depth-first walk of `t`, placed at position `p`.  Only children
satisfying `sel` are visited; below positions satisfying `skip` nothing is visited. -/
def walk (sel : Tree → Bool) (skip : List Nat → Bool) : Tree → List Nat → List (WalkEvent (List Nat))
  | token _ _, p => [.enter p, .leave p]
  | node _ cs, p => .enter p :: ((if skip p then [] else walks sel skip cs p 0) ++ [.leave p])
/-- The walks of the children `cs` of position `p`, the first of which has index `i`. -/
def walks (sel : Tree → Bool) (skip : List Nat → Bool) :
    List Tree → List Nat → Nat → List (WalkEvent (List Nat))
  | [], _, _ => []
  | c :: cs, p, i => (if sel c then walk sel skip c (p ++ [i]) else []) ++ walks sel skip cs p (i + 1)
end

mutual
/-- The positions of `t` (placed at `p`) in depth-first preorder, visiting only children satisfying
`sel`. -/
def descend (sel : Tree → Bool) : Tree → List Nat → List (List Nat)
  | token _ _, p => [p]
  | node _ cs, p => p :: descends sel cs p 0
def descends (sel : Tree → Bool) : List Tree → List Nat → Nat → List (List Nat)
  | [], _, _ => []
  | c :: cs, p, i => (if sel c then descend sel c (p ++ [i]) else []) ++ descends sel cs p (i + 1)
end

/-- Visit everything. -/
def all : Tree → Bool := fun _ => true

end Tree

/-- The handle inside an event. -/
def WalkEvent.elem {α : Type} : WalkEvent α → α
  | .enter a => a
  | .leave a => a

/-- Skip nothing. -/
def noSkip : List Nat → Bool := fun _ => false

/-- The element of an enter event. -/
def WalkEvent.entered {α : Type} : WalkEvent α → Option α
  | .enter a => some a
  | .leave _ => none

/-- The state of a walk after `k` calls of `next`, by a caller that calls `skip_subtree` right after
each `Enter` of a position satisfying `skip`. -/
def PreorderT.drive (skip : List Nat → Bool) (it : PreorderT) :
    Nat → Res PreorderT
  | 0 => .ok it
  | k + 1 => do
    let it ← it.drive skip k
    let (ev, it) ← it.step
    .ok (match ev with
      | some (.enter e) => if skip e.path then it.skipSubtree else it
      | _ => it)

/-- What the `k`-th call returns. -/
def PreorderT.nth (skip : List Nat → Bool) (it : PreorderT) (k : Nat) :
    Res (Option (WalkEvent SElem)) := do
  let it ← it.drive skip k
  let (ev, _) ← it.step
  .ok ev

def Preorder.drive (skip : List Nat → Bool) (it : Preorder) :
    Nat → Res Preorder
  | 0 => .ok it
  | k + 1 => do
    let it ← it.drive skip k
    let (ev, it) ← it.step
    .ok (match ev with
      | some (.enter e) => if skip e.path then it.skipSubtree else it
      | _ => it)

def Preorder.nth (skip : List Nat → Bool) (it : Preorder) (k : Nat) :
    Res (Option (WalkEvent SNode)) := do
  let it ← it.drive skip k
  let (ev, _) ← it.step
  .ok ev

/-- `descendants_with_tokens()`: `preorder_with_tokens().filter_map(Enter)`; the elements it has
yielded when the inner walk has been advanced `k` times — src/cursor.rs:861-867. -/
def SNode.descendantsWithTokens (n : SNode) (k : Nat) : List SElem :=
  (List.range k).filterMap fun i =>
    match PreorderT.nth noSkip (PreorderT.new n) i with
    | .ok (some ev) => ev.entered
    | _ => none

/-- `descendants()` — src/cursor.rs:854-859. -/
def SNode.descendants (n : SNode) (k : Nat) : List SNode :=
  (List.range k).filterMap fun i =>
    match Preorder.nth noSkip (Preorder.new n) i with
    | .ok (some ev) => ev.entered
    | _ => none

/-- Within one tree an address holds one object: elements with the same address are the same. -/
def GElem.Coherent (g : GElem) : Prop := ∀ a ∈ g.subs, ∀ b ∈ g.subs, a.addr = b.addr → a = b

end Rowan
