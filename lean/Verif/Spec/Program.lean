import Verif.Program
import Verif.Spec.Handles
/-!
# Specification vocabulary: what a reading program computes

`RProg.eval` runs a program on values: on the plain trees and positions its handles denote, without heap, reference
counts and pointers.  `HSt.Snap` says which value a handle of the heap denotes.
-/
namespace Rowan

/-- The child with index `i` — src/cursor.rs:935-940. -/
def SNode.childAt (i : Nat) (n : SNode) : Option SElem :=
  (n.green.slice[i]?).map fun c => SElem.new c.asRef n i (n.offset + c.relOffset)

/-- The navigation functions on values. -/
def Nav.on : Nav → SElem → Option SElem
  | parent, e => e.parent.map .node
  | nextSibling, e => e.nextSibling.map .node
  | nextSiblingByKind m, e => (e.nextSiblingByKind m).map .node
  | prevSibling, e => e.prevSibling.map .node
  | nextSiblingOrToken, e => e.nextSiblingOrToken
  | nextSiblingOrTokenByKind m, e => e.nextSiblingOrTokenByKind m
  | prevSiblingOrToken, e => e.prevSiblingOrToken
  | firstChild, .node n => n.firstChild.map .node
  | firstChildByKind m, .node n => (n.firstChildByKind m).map .node
  | lastChild, .node n => n.lastChild.map .node
  | firstChildOrToken, .node n => n.firstChildOrToken
  | firstChildOrTokenByKind m, .node n => n.firstChildOrTokenByKind m
  | lastChildOrToken, .node n => n.lastChildOrToken
  | childAt i, .node n => n.childAt i
  | _, .token _ => none

/-- Is the element of the type the function needs? -/
def Nav.fits (f : Nav) : SElem → Bool
  | .node _ => true
  | .token _ => !f.onNodes

def SElem.obs (e : SElem) : Obs := ⟨e.kind, e.textRange, e.index, e.mutable, e.green⟩

/-- The next sibling, for `to_next_sibling[_or_token]`; whether the handle is moved in place makes no difference
to the values (C13). -/
def SElem.nextOf (nodes : Bool) (e : SElem) : Option SElem :=
  if nodes then e.nextSibling.map .node else e.nextSiblingOrToken

/-- The run on a snapshot. -/
def RProg.eval {α : Type} : RProg α → Env SElem → Out SElem α
  | ret a, v => .ok a v
  | panic, v => .panic v
  | diverge, _ => .diverge
  | nav f h k, v =>
    match v.get h with
    | none => .misuse
    | some e =>
      if f.fits e then
        match f.on e with
        | none => (k none).eval v
        | some x => (k (some v.next)).eval (v.add x)
      else .misuse
  | toNext nodes h k, v =>
    match v.get h with
    | none => .misuse
    | some e =>
      match e.nextOf nodes with
      | none => (k none).eval (v.del h)
      | some x => (k (some v.next)).eval ((v.del h).add x)
  | clone h k, v =>
    match v.get h with
    | none => .misuse
    | some e => (k v.next).eval (v.add e)
  | drop h k, v =>
    match v.get h with
    | none => .misuse
    | some _ => k.eval (v.del h)
  | look h k, v =>
    match v.get h with
    | none => .misuse
    | some e => (k e.obs).eval v

/-- How many handles a run on a snapshot holds at most, counting those that `to_next_sibling` may lose. -/
def RProg.peak {α : Type} : RProg α → Env SElem → Nat
  | ret _, v | panic, v | diverge, v => v.held.length
  | nav f h k, v =>
    match v.get h with
    | none => v.held.length
    | some e =>
      match f.on e with
      | none => max v.held.length ((k none).peak v)
      | some x => max v.held.length ((k (some v.next)).peak (v.add x))
  | toNext nodes h k, v =>
    match v.get h with
    | none => v.held.length
    | some e =>
      match e.nextOf nodes with
      | none => max v.held.length ((k none).peak (v.del h) + if e.parent = none then 1 else 0)
      | some x => max v.held.length ((k (some v.next)).peak ((v.del h).add x))
  | clone h k, v =>
    match v.get h with
    | none => v.held.length
    | some e => max v.held.length ((k v.next).peak (v.add e))
  | drop h k, v =>
    match v.get h with
    | none => v.held.length
    | some _ => max v.held.length (k.peak (v.del h))
  | look h k, v =>
    match v.get h with
    | none => v.held.length
    | some e => max v.held.length ((k e.obs).peak v)

/-- How many handles the run may lose: `to_next_sibling` loses its handle if that is an unshared immutable root
(C39). -/
def RProg.lost {α : Type} : RProg α → Env SElem → Nat
  | ret _, _ | panic, _ | diverge, _ => 0
  | nav f h k, v =>
    match v.get h with
    | none => 0
    | some e =>
      match f.on e with
      | none => (k none).lost v
      | some x => (k (some v.next)).lost (v.add x)
  | toNext nodes h k, v =>
    match v.get h with
    | none => 0
    | some e =>
      match e.nextOf nodes with
      | none => (k none).lost (v.del h) + if e.parent = none then 1 else 0
      | some x => (k (some v.next)).lost ((v.del h).add x)
  | clone h k, v =>
    match v.get h with
    | none => 0
    | some e => (k v.next).lost (v.add e)
  | drop h k, v =>
    match v.get h with
    | none => 0
    | some _ => k.lost (v.del h)
  | look h k, v =>
    match v.get h with
    | none => 0
    | some e => (k e.obs).lost v

/-! ### Snapshots of a heap -/

/-- The value `e` is what handle `x` denotes now: the same position in a tree with the same content and
mutability.  The top element of the tree is one of `T`. -/
def HSt.Snap (s : HSt) (T : List Nat) (x : Nat) (e : SElem) : Prop :=
  ∃ r ∈ T, s.Loc x r e.path ∧ e.rootOf = ⟨s.mutable r, s.index r, s.green r⟩ ∧ Reach e.rootOf e

/-- What the handles `hs` denote is the same in both states. -/
def SameSnaps (hs : List Nat) (s s' : HSt) : Prop := ∀ w ∈ hs, ∀ T e, s.Snap T w e → s'.Snap T w e

/-- A handle of a program: its number, the object in the heap, and the value it denotes. -/
structure Live where
  id : Nat
  obj : Nat
  snap : SElem

/-- The handles as the heap run sees them, and as the run on the snapshot sees them. -/
def Live.objs (J : List Live) : List (Nat × Nat) := J.map fun j => (j.id, j.obj)
def Live.snaps (J : List Live) : List (Nat × SElem) := J.map fun j => (j.id, j.snap)

/-- A program that holds the handles `J` can be in the state `s`; somebody else holds the handles `rest`, and the
handles `lk` were lost without dropping them.  `n` is the number of the next handle; the handles `J` are in the trees
with the top elements `T`. -/
structure Running (T : List Nat) (s : HSt) (gs : List GElem) (n : Nat) (J : List Live) (rest lk : List Nat) : Prop where
  reach : ∃ hs, hs.Perm (J.map Live.obj ++ rest) ∧ HReach s gs hs lk
  ids : (J.map Live.id).Nodup
  low : ∀ j ∈ J, j.id < n
  snap : ∀ j ∈ J, s.Snap T j.obj j.snap

/-- The two runs end in the same way, with the same result, and with handles that denote the same values. -/
def SameOut {α : Type} (T : List Nat) (s : HSt) (gs : List GElem) (rest lk : List Nat) : Out SElem α → Out Nat α → Prop
  | .ok a v, .ok b w => a = b ∧ v.next = w.next ∧ ∃ J, v.held = Live.snaps J ∧ w.held = Live.objs J ∧
      Running T s gs v.next J rest lk
  | .panic v, .panic w => v.next = w.next ∧ ∃ J, v.held = Live.snaps J ∧ w.held = Live.objs J ∧
      Running T s gs v.next J rest lk
  | .diverge, .diverge => True
  | _, _ => False

/-- The program, run in state `s` with the handles `J`, behaves like the computation `r` on values: it returns, panics or
loops as `r` does.  When it returns, its result, the value of `r` and the handles it then holds (with what they denote)
are related by `Q`; it has lost no handle.  Nobody else notices: what the other handles `rest` denote is the same.
The exception is the abort when a reference count would overflow, for which at least `rcMax - 2` handles must exist. -/
def RProg.Answers {α β : Type} (p : RProg α) (T : List Nat) (s : HSt) (gs : List GElem) (n : Nat) (J : List Live)
    (rest lk : List Nat) (r : Res β) (Q : α → β → List (Nat × SElem) → Prop) : Prop :=
  (p.exec ⟨n, Live.objs J⟩ s = .abort ∧ Cur.rcMax ≤ p.peak ⟨n, Live.snaps J⟩ + (rest ++ lk).length + 2) ∨
  ∃ s', SameSnaps rest s s' ∧
    match r with
    | .ok b => ∃ a n' J', p.exec ⟨n, Live.objs J⟩ s = .ok (.ok a ⟨n', Live.objs J'⟩) s' ∧
        Running T s' gs n' J' rest lk ∧ ∃ L, (Live.snaps J').Perm L ∧ Q a b L
    | .panic => ∃ n' J', p.exec ⟨n, Live.objs J⟩ s = .ok (.panic ⟨n', Live.objs J'⟩) s' ∧
        Running T s' gs n' J' rest lk
    | .diverge => p.exec ⟨n, Live.objs J⟩ s = .ok .diverge s'
    | .ub => False

end Rowan
