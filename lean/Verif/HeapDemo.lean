import Verif.HeapReach
import Verif.HeapRoom
import Verif.Spec.History
/-!
# Running concrete programs over the cursor API

Used for the examples beside the theorems: a concrete program is run on the model, and every state it passes
through is reachable (`run_reach`).

Unless their comments cite lines of `/repo`, the definitions in this file are vocabulary of the proofs and model no code.
-/
namespace Rowan

/-- One step of a concrete program. -/
inductive Act where
  /-- make a green token -/
  | token (k : SyntaxKind) (text : List Char)
  /-- make a green node from the green elements held at the given places -/
  | node (k : SyntaxKind) (es : List Nat)
  /-- keep the green node or token of a handle -/
  | green (h : Nat)
  /-- make a tree from the green node held at the given place -/
  | root (mutable : Bool) (i : Nat)
  /-- any other call that returns -/
  | call (c : Call)
  /-- a call that fails an assertion, which is caught -/
  | fails (c : Call)

/-- Remove one occurrence of each. -/
def takeOut : List Nat → List Nat → Option (List Nat)
  | [], hs => some hs
  | x :: xs, hs => if x ∈ hs then takeOut xs (hs.erase x) else none

theorem takeOut_perm : ∀ {xs hs rest : List Nat}, takeOut xs hs = some rest → hs.Perm (xs ++ rest)
  | [], hs, rest, h => by cases h; exact .refl _
  | x :: xs, hs, rest, h => by
    simp only [takeOut] at h
    split at h
    · rename_i hx
      exact (List.perm_cons_erase hx).trans ((takeOut_perm h).cons x)
    · cases h

/-- Is it a call of `new_root[_mut]`? -/
def Call.isNew : Call → Bool
  | newRoot .. => true
  | _ => false

/-- Check that safe code can make the call; the result is the list of the handles kept. -/
def Call.ready? (c : Call) (s : HSt) (hs : List Nat) : Option (List Nat) :=
  match takeOut c.takes hs with
  | none => none
  | some rest =>
    if c.uses.all (rest.contains ·) && c.nodes.all (fun h => (s.tree h).isNode) && !c.isNew then some rest
    else none

theorem Call.ready_of {c : Call} {s : HSt} {hs rest : List Nat} {gs : List GElem}
    (h : c.ready? s hs = some rest) : c.Ready s gs hs rest := by
  simp only [Call.ready?] at h
  split at h
  · cases h
  · rename_i r hr
    split at h <;> cases h
    rename_i hb
    simp only [Bool.and_eq_true, List.all_eq_true, List.contains_iff_mem, Bool.not_eq_true'] at hb
    exact ⟨takeOut_perm hr, hb.1.1, hb.1.2, fun m g e => by subst e; simp [isNew] at hb⟩

/-- One step. -/
def Act.run (a : Act) (c : Conf) : Option Conf :=
  match a with
  | token k text => some ⟨{ c.s with gtop := c.s.gtop + 1 }, .token ⟨c.s.gtop, k, text⟩ :: c.gs, c.hs, c.lk⟩
  | node k es =>
    some ⟨{ c.s with gtop := c.s.gtop + 1 },
      .node (GNode.new c.s.gtop k (es.filterMap fun i => c.gs[i]?)) :: c.gs, c.hs, c.lk⟩
  | green h => if h ∈ c.hs then some ⟨c.s, c.s.green h :: c.gs, c.hs, c.lk⟩ else none
  | root m i =>
    match c.gs[i]? with
    | some (.node g) =>
      match (Call.newRoot m g).exec c.s with
      | .ok new s' => some ⟨s', c.gs, new ++ c.hs, c.lk⟩
      | _ => none
    | _ => none
  | call f =>
    match f.ready? c.s c.hs with
    | some rest =>
      match f.exec c.s with
      | .ok new s' => some ⟨s', c.gs, new ++ rest, f.lost c.s ++ c.lk⟩
      | _ => none
    | none => none
  | fails f =>
    match f.ready? c.s c.hs with
    | some rest =>
      match f.exec c.s with
      | .panic .assert s' => some ⟨s', c.gs, rest, c.lk⟩
      | _ => none
    | none => none

/-- All steps. -/
def runActs : List Act → Conf → Option Conf
  | [], c => some c
  | a :: as, c =>
    match a.run c with
    | some c' => runActs as c'
    | none => none

/-- Before the first step. -/
def Conf.start : Conf := ⟨{ HSt.empty 0 with slack := 0 }, [], [], []⟩

theorem Act.run_reach {a : Act} {c c' : Conf} (h : c.Reach) (e : a.run c = some c') : c'.Reach := by
  cases a with
  | token k text => cases e; exact .token k text h
  | node k es =>
    cases e
    refine .node k _ h fun e he => ?_
    obtain ⟨i, _, hi⟩ := List.mem_filterMap.mp he
    exact List.mem_of_getElem? hi
  | green p =>
    simp only [run] at e
    split at e <;> cases e
    exact .green h ‹_›
  | root m i =>
    simp only [run] at e
    split at e
    · rename_i g hg
      split at e <;> cases e
      rename_i hx
      exact .ok (rest := c.hs) (.newRoot m g) h
        ⟨.refl _, by simp [Call.uses], by simp [Call.nodes], fun _ _ e => by
          cases e; exact List.mem_of_getElem? hg⟩ hx
    · cases e
  | call f =>
    simp only [run] at e
    split at e
    · rename_i hr
      split at e <;> cases e
      exact .ok f h (Call.ready_of hr) ‹_›
    · cases e
  | fails f =>
    simp only [run] at e
    split at e
    · rename_i hr
      split at e <;> cases e
      exact .caught f h (Call.ready_of hr) ‹_›
    · cases e

theorem runActs_reach : ∀ {as : List Act} {c c' : Conf}, c.Reach → runActs as c = some c' → c'.Reach
  | [], _, _, h, e => by cases e; exact h
  | a :: as, c, c', h, e => by
    simp only [runActs] at e
    split at e
    · exact runActs_reach (Act.run_reach h ‹_›) e
    · cases e

/-- The state after a program; the state before the first step if it cannot be run. -/
def after (as : List Act) : Conf := (runActs as Conf.start).getD Conf.start

theorem after_reach (as : List Act) : (after as).Reach := by
  have h0 : Conf.start.Reach := .init 0 0
  rw [after]
  cases e : runActs as Conf.start with
  | none => exact h0
  | some c => exact runActs_reach h0 e

/-- A mutable tree `[a b [cc]]` with handles on all its elements: 0 the top node, 1 and 2 the tokens `a` and
`b`, 3 the inner node, 4 the token in it.  Object 5 is the top node of an immutable tree of the same green
node. -/
def demo : Conf := after [
  .token 1 ['a'], .token 1 ['b'], .token 2 ['c', 'c'], .node 10 [0], .node 20 [3, 2, 0],
  .root true 0,
  .call (.nav .firstChildOrToken 0), .call (.nav .nextSiblingOrToken 1), .call (.nav .lastChildOrToken 0),
  .call (.nav .firstChildOrToken 3), .root false 0]

theorem HSt.Loc.child' {s : HSt} {p q r i : Nat} {P : List Nat} (h1 : s.live p = true) (h2 : s.parent p = some q)
    (h3 : s.index p = i) (h4 : s.Loc q r P) : s.Loc p r (P ++ [i]) := h3 ▸ .child h1 h2 h4

/-- The value returned. -/
def HOut.val? {α : Type} : HOut α → Option α
  | .ok a _ => some a
  | _ => none

/-- The content of an element after a call that returns. -/
def HOut.tree? {α : Type} (o : HOut α) (p : Nat) : Option Tree :=
  match o with
  | .ok _ s => some (s.tree p)
  | _ => none

/-- The content of the trees of `demo`. -/
def demoTree : Tree := .node 20 [.token 1 ['a'], .token 1 ['b'], .node 10 [.token 2 ['c', 'c']]]

example : demo.hs = [5, 4, 3, 2, 1, 0] ∧ demo.lk = [] ∧ demo.s.top = 6 := by decide +kernel
theorem demo_reach : demo.Reach := after_reach _
attribute [irreducible] demo
theorem HReach.room {s : HSt} {gs : List GElem} {hs lk : List Nat} {n : Nat} (h : HReach s gs hs lk)
    (h1 : n < Cur.rcMax) (h2 : ∀ p < s.top, s.rc p + n ≤ Cur.rcMax) : s.Room n := by
  letI : Greens := ⟨gs⟩
  obtain ⟨kids, hi⟩ := h.ok'
  exact ⟨h1, fun p hp => h2 p (hi.top p hp)⟩

theorem demo_room : demo.s.Room 1000 := demo_reach.room (by decide +kernel) (by decide +kernel)
theorem demo_tree : demo.s.tree 0 = demoTree ∧ demo.s.tree 5 = demoTree := by decide +kernel

theorem HSt.Room.mono {s : HSt} {m n : Nat} (h : s.Room n) (hm : m ≤ n) : s.Room m :=
  ⟨by have := h.1; omega, fun p hp => by have := h.2 p hp; omega⟩

end Rowan
