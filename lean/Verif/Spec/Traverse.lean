import Verif.Spec.Program
import Verif.Traverse
import Verif.Spec.Walk
/-!
# Specification vocabulary: results of traversals and the handles for them

`L` and `F` list the handles a program holds: numbers, and what they denote.
-/
namespace Rowan
namespace RProg

/-- The result is the element `b`, with a new handle for it; else the program holds what it held before. -/
def Got (L : List (Nat × SElem)) : Option Nat → Option SElem → List (Nat × SElem) → Prop
  | none, none, L' => L'.Perm L
  | some i, some z, L' => L'.Perm ((i, z) :: L)
  | _, _, _ => False

/-- The result are the elements `bs`, with a new handle for each. -/
def GotL (F : List (Nat × SElem)) : List Nat → List SElem → List (Nat × SElem) → Prop
  | [], [], L => L.Perm F
  | a :: as, b :: bs, L => ∃ F', L.Perm ((a, b) :: F') ∧ GotL F as bs F'
  | _, _, _ => False

end RProg

namespace Prog

/-- The event `b`, with a new handle for its element. -/
def GotE (F : List (Nat × SElem)) : Option (WalkEvent Nat) → Option (WalkEvent SElem) → List (Nat × SElem) → Prop
  | none, none, L => L.Perm F
  | some (.enter i), some (.enter z), L => L.Perm ((i, z) :: F)
  | some (.leave i), some (.leave z), L => L.Perm ((i, z) :: F)
  | _, _, _ => False

/-- The events `bs`, with a new handle for each. -/
def GotEs (F : List (Nat × SElem)) : List (WalkEvent Nat) → List (WalkEvent SElem) → List (Nat × SElem) → Prop
  | [], [], L => L.Perm F
  | a :: as, b :: bs, L => ∃ F', GotE F' (some a) (some b) L ∧ GotEs F as bs F'
  | _, _, _ => False

/-- Handles for the tokens found. -/
def GotT (F : List (Nat × SElem)) : TokenAtOffset Nat → TokenAtOffset SToken → List (Nat × SElem) → Prop
  | .none, .none, L => L.Perm F
  | .single i, .single t, L => L.Perm ((i, .token t) :: F)
  | .between i j, .between t u, L => L.Perm ((i, .token t) :: (j, .token u) :: F)
  | _, _, _ => False

end Prog
/-- The positions at which an element is whose kind and range satisfy `sk`. -/
def Tree.skipAt (t : Tree) (sk : SyntaxKind → TextRange → Bool) (q : List Nat) : Bool :=
  match t.at? q with
  | some x => sk x.kind (TextRange.at_ (blen (t.before q)) (blen x.text))
  | none => false

/-- Handle number `i` of the program is the element at position `P` of the tree with top element `r`. -/
def Live.At (s : HSt) (r : Nat) (J : List Live) (i : Nat) (P : List Nat) : Prop :=
  ∃ j ∈ J, j.id = i ∧ s.Loc j.obj r P

/-- The numbers and positions of the handles. -/
def Live.places (J : List Live) : List (Nat × List Nat) := J.map fun j => (j.id, j.snap.path)

/-- The program, all of whose handles `J` are in the tree with top element `r`, returns.  It still has its handles, in the
same places of the unchanged tree; in addition it has exactly the handles `N`, given by number and position; its result
and these new handles are related by `Q`.  It has lost no handle, and what the handles `rest` of others denote is the
same.  The exception is the abort when a reference count would overflow, for which at least `rcMax - 2` handles must
exist. -/
def RProg.Returns {α : Type} (p : RProg α) (r : Nat) (s : HSt) (gs : List GElem) (n : Nat) (J : List Live)
    (rest lk : List Nat) (Q : α → List (Nat × List Nat) → Prop) : Prop :=
  (p.exec ⟨n, Live.objs J⟩ s = .abort ∧ Cur.rcMax ≤ p.peak ⟨n, Live.snaps J⟩ + (rest ++ lk).length + 2) ∨
  ∃ a s' n' J' N, p.exec ⟨n, Live.objs J⟩ s = .ok (.ok a ⟨n', Live.objs J'⟩) s' ∧
    Running [r] s' gs n' J' rest lk ∧ s'.tree r = s.tree r ∧ SameSnaps rest s s' ∧
    (Live.places J').Perm (N ++ Live.places J) ∧ (∀ x ∈ N, Live.At s' r J' x.1 x.2) ∧ Q a N

/-- The program panics; nobody else notices. -/
def RProg.Panics {α : Type} (p : RProg α) (r : Nat) (s : HSt) (gs : List GElem) (n : Nat) (J : List Live)
    (rest lk : List Nat) : Prop :=
  (p.exec ⟨n, Live.objs J⟩ s = .abort ∧ Cur.rcMax ≤ p.peak ⟨n, Live.snaps J⟩ + (rest ++ lk).length + 2) ∨
  ∃ s' n' J', p.exec ⟨n, Live.objs J⟩ s = .ok (.panic ⟨n', Live.objs J'⟩) s' ∧
    Running [r] s' gs n' J' rest lk ∧ SameSnaps rest s s'

namespace RProg

/-- The result of a search: a new handle at position `P`, or none and no new handle. -/
def One (P : Option (List Nat)) (a : Option Nat) (N : List (Nat × List Nat)) : Prop :=
  N.map Prod.fst = a.toList ∧ N.map Prod.snd = P.toList

/-- The result lists the new handles; they are at the positions `Ps`, in this order. -/
def All (Ps : List (List Nat)) (as : List Nat) (N : List (Nat × List Nat)) : Prop :=
  N.map Prod.fst = as ∧ N.map Prod.snd = Ps

/-- The result are walk events for the new handles; with positions in place of handles, they are `W`. -/
def Events (W : List (WalkEvent (List Nat))) (evs : List (WalkEvent Nat)) (N : List (Nat × List Nat)) : Prop :=
  N.map Prod.fst = evs.map WalkEvent.elem ∧ List.zipWith (fun ev x => ev.map fun _ => x.2) evs N = W

end RProg
end Rowan
