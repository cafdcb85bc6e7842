import Verif.HeapState
/-!
# Specification vocabulary: sorted rings

What the intrusive list is meant to be, without reference to how it is traversed.
-/
namespace Rowan

/-- `next` goes from each element of `l` to the following one, from the last to the first, and `prev`
is the way back. -/
def RingSpec (next prev : Nat → Option Nat) (l : List Nat) : Prop :=
  ∀ i (h : i < l.length),
    next l[i] = some (l[(i + 1) % l.length]'(Nat.mod_lt _ (by omega))) ∧
    prev (l[(i + 1) % l.length]'(Nat.mod_lt _ (by omega))) = some l[i]

/-- The list with head cell `first` of object `q` holds exactly `l`, sorted by key without ties. -/
structure SortedRing (s : HSt) (q : Nat) (l : List Nat) : Prop where
  head : s.first q = l.head?
  ring : RingSpec s.next s.prev l
  sorted : l.Pairwise (fun a b => s.index a < s.index b)

/-- The abstract list: elements with their keys. -/
abbrev KeyList := List (Nat × Nat)

/-- What a program can do with one list. -/
inductive SllOp where
  /-- give `p` the key `k` and link it -/
  | insert (p k : Nat)
  /-- unlink `p` -/
  | remove (p : Nat)
  /-- add one to all keys `≥ k` -/
  | open_ (k : Nat)
  /-- subtract one from all keys greater than the key of `p`, and unlink `p` -/
  | close (p : Nat)
deriving DecidableEq, Repr

/-- Effect on the abstract list.  Inserting a key that is present changes nothing. -/
def SllOp.abs : SllOp → KeyList → KeyList
  | insert p k, l =>
    if l.any (fun e => e.2 == k) then l
    else l.filter (fun e => e.2 < k) ++ (p, k) :: l.filter (fun e => k < e.2)
  | remove p, l => l.filter (fun e => e.1 ≠ p)
  | open_ k, l => l.map fun e => if k ≤ e.2 then (e.1, e.2 + 1) else e
  | close p, l =>
    match l.find? (fun e => e.1 == p) with
    | some (_, k) => (l.filter (fun e => e.1 ≠ p)).map fun e => if k < e.2 then (e.1, e.2 - 1) else e
    | none => l

/-- The call is allowed: the object exists, is (not) in the list as required. -/
def SllOp.Ok (s : HSt) : SllOp → KeyList → Prop
  | insert p _, l => s.live p = true ∧ p ∉ l.map (·.1)
  | remove p, l => p ∈ l.map (·.1)
  | open_ _, _ => True
  | close p, l => p ∈ l.map (·.1)

end Rowan
