import Verif.Spec.EditWalk
import Verif.WalkLemmas
import Verif.EditLemmas
import Verif.Props.Edit
/-!
# Walks over plain trees: which event follows

The definitions in this file are vocabulary of the proofs and model no code.
-/
namespace Rowan

/-- The event after `ev` in the walk of tree `T` from position `S`. -/
def evNext (sel : Tree → Bool) (T : Tree) (S : List Nat) : WalkEvent (List Nat) → Option (WalkEvent (List Nat))
  | .enter P =>
    match (T.kids P).find? (T.sat sel) with
    | some Q => some (.enter Q)
    | none => some (.leave P)
  | .leave P =>
    if P = S then none
    else
      match (T.later P).find? (T.sat sel) with
      | some Q => some (.enter Q)
      | none => if P = [] then none else some (.leave P.dropLast)

/-- The first event of the walks of the children `cs` of position `P`, the first of which has index `i`; after them `P` is
left. -/
def kidEv (sel : Tree → Bool) (P : List Nat) : Nat → List Tree → WalkEvent (List Nat)
  | _, [] => .leave P
  | i, c :: cs => if sel c then .enter (P ++ [i]) else kidEv sel P (i + 1) cs

namespace Tree

theorem find_kids {sel : Tree → Bool} {T : Tree} {P : List Nat} {k : SyntaxKind} : ∀ {pre cs : List Tree},
    T.at? P = some (node k (pre ++ cs)) →
    (match ((T.kids P).drop pre.length).find? (T.sat sel) with
     | some Q => WalkEvent.enter Q
     | none => .leave P) = kidEv sel P pre.length cs
  | pre, [], h => by
    rw [kids_eq h, List.drop_eq_nil_of_le (by simp [children])]; rfl
  | pre, c :: cs, h => by
    have ih := find_kids (sel := sel) (pre := pre ++ [c]) (cs := cs) (by simpa using h)
    have hlt : pre.length < (T.kids P).length := by rw [kids_eq h]; simp [children]
    have hget : (T.kids P)[pre.length] = P ++ [pre.length] := by simp [kids_eq h]
    have hsat : T.sat sel (P ++ [pre.length]) = sel c := by
      have : T.at? (P ++ [pre.length]) = some c := by rw [at?_snoc, h]; simp [children]
      rw [sat, this]
    rw [List.drop_eq_getElem_cons hlt, hget, List.find?_cons, hsat, kidEv]
    cases sel c with
    | true => rfl
    | false =>
      simp only [Bool.false_eq_true, if_false]
      simpa using ih

theorem evNext_enter {sel : Tree → Bool} {T : Tree} {P S : List Nat} {k : SyntaxKind} {cs : List Tree}
    (h : T.at? P = some (node k cs)) : evNext sel T S (.enter P) = some (kidEv sel P 0 cs) := by
  have := find_kids (sel := sel) (pre := []) (cs := cs) (P := P) (T := T) h
  rw [evNext]
  rw [List.length_nil, List.drop_zero] at this
  rw [← this]
  cases (T.kids P).find? (T.sat sel) <;> rfl

theorem evNext_token {sel : Tree → Bool} {T : Tree} {P S : List Nat} {k : SyntaxKind} {x : List Char}
    (h : T.at? P = some (token k x)) : evNext sel T S (.enter P) = some (.leave P) := by
  rw [evNext, kids_eq h]; rfl

theorem evNext_leave {sel : Tree → Bool} {T : Tree} {P S : List Nat} {k : SyntaxKind} {pre cs : List Tree} {c : Tree}
    (h : T.at? P = some (node k (pre ++ c :: cs))) (hS : P ++ [pre.length] ≠ S) :
    evNext sel T S (.leave (P ++ [pre.length])) = some (kidEv sel P (pre.length + 1) cs) := by
  have := find_kids (sel := sel) (pre := pre ++ [c]) (cs := cs) (P := P) (T := T) (k := k) (by simpa using h)
  rw [evNext, if_neg hS, later_snoc]
  rw [List.length_append, List.length_singleton] at this
  rw [← this]
  cases ((T.kids P).drop (pre.length + 1)).find? (T.sat sel) <;> simp

end Tree

theorem walk_head (sel : Tree → Bool) (t : Tree) (P : List Nat) : ∃ l, Tree.walk sel noSkip t P = .enter P :: l := by
  cases t with
  | token k x => exact ⟨[.leave P], by rw [Tree.walk]⟩
  | node k cs => exact ⟨_, by rw [Tree.walk]⟩

theorem walk_last (sel : Tree → Bool) (t : Tree) (P : List Nat) : ∃ l, Tree.walk sel noSkip t P = l ++ [.leave P] := by
  cases t with
  | token k x => exact ⟨[.enter P], by rw [Tree.walk]; rfl⟩
  | node k cs => exact ⟨.enter P :: Tree.walks sel noSkip cs P 0, by rw [Tree.walk]; simp [noSkip]⟩

theorem walks_head (sel : Tree → Bool) (P : List Nat) : ∀ (cs : List Tree) (i : Nat),
    ∃ l, Tree.walks sel noSkip cs P i ++ [.leave P] = kidEv sel P i cs :: l
  | [], i => ⟨[], by rw [Tree.walks, kidEv]; rfl⟩
  | c :: cs, i => by
    rw [Tree.walks, kidEv]
    cases sel c with
    | true =>
      obtain ⟨l, hl⟩ := walk_head sel c (P ++ [i])
      simp only [if_true, hl]
      exact ⟨_, rfl⟩
    | false => simpa using walks_head sel P cs (i + 1)

theorem linked_one {α : Type} {f : α → Option α} (a : α) : Linked f [a] := trivial

mutual
/-- Successive events of the walk follow each other. -/
theorem walk_evNext (sel : Tree → Bool) (T : Tree) (S : List Nat) : ∀ (t : Tree) (P : List Nat), T.at? P = some t →
    S <+: P → Linked (evNext sel T S) (Tree.walk sel noSkip t P)
  | .token k x, P, h, _ => by
    rw [Tree.walk]
    exact ⟨Tree.evNext_token h, trivial⟩
  | .node k cs, P, h, hS => by
    rw [Tree.walk]
    simp only [noSkip, Bool.false_eq_true, if_false]
    have := walks_evNext sel T S k P [] cs h hS
    obtain ⟨l, hl⟩ := walks_head sel P cs 0
    rw [List.length_nil] at this
    rw [hl] at this ⊢
    exact ⟨Tree.evNext_enter h, this⟩
theorem walks_evNext (sel : Tree → Bool) (T : Tree) (S : List Nat) (k : SyntaxKind) (P : List Nat) : ∀ (pre cs : List Tree),
    T.at? P = some (.node k (pre ++ cs)) → S <+: P →
    Linked (evNext sel T S) (Tree.walks sel noSkip cs P pre.length ++ [.leave P])
  | pre, [], h, hS => by rw [Tree.walks]; trivial
  | pre, c :: cs, h, hS => by
    have ih := walks_evNext sel T S k P (pre ++ [c]) cs (by simpa using h) hS
    rw [List.length_append, List.length_singleton] at ih
    rw [Tree.walks]
    cases hc : sel c with
    | false => simpa using ih
    | true =>
      simp only [if_true, List.append_assoc]
      refine linked_append (walk_evNext sel T S c (P ++ [pre.length]) ?_ ?_) ih ?_
      · rw [Tree.at?_snoc, h]; simp [Tree.children]
      · exact hS.trans (List.prefix_append ..)
      · intro a b ha hb
        obtain ⟨l, hl⟩ := walk_last sel c (P ++ [pre.length])
        obtain ⟨l', hl'⟩ := walks_head sel P cs (pre.length + 1)
        rw [hl] at ha
        rw [hl'] at hb
        simp at ha hb
        subst ha hb
        refine Tree.evNext_leave h fun e => ?_
        have := hS.length_le
        rw [← e, List.length_append, List.length_singleton] at this
        omega
end

theorem linked_mid {α : Type} {f : α → Option α} : ∀ {l1 l2 : List α} {a b : α}, Linked f (l1 ++ a :: b :: l2) → f a = some b
  | [], _, _, _, h => h.1
  | [_], _, _, _, h => h.2.1
  | _ :: y :: l1, _, _, _, h => linked_mid (l1 := y :: l1) h.2

/-- The event after `e` in the list of events. -/
theorem evNext_of_walk {sel : Tree → Bool} {T u : Tree} {S : List Nat} (h : T.at? S = some u)
    {l1 l2 : List (WalkEvent (List Nat))} {e : WalkEvent (List Nat)} (hw : Tree.walk sel noSkip u S = l1 ++ e :: l2) :
    evNext sel T S e = l2.head? := by
  have hl := walk_evNext sel T S u S h (List.prefix_refl S)
  rw [hw] at hl
  cases l2 with
  | cons b l2 => rw [linked_mid hl]; rfl
  | nil =>
    obtain ⟨l, hl⟩ := walk_last sel u S
    rw [hw] at hl
    have := (List.append_inj' hl rfl).2
    simp at this
    subst this
    simp [evNext]

mutual
/-- Events are about positions of the tree. -/
theorem walk_pos {sel : Tree → Bool} {T : Tree} : ∀ (t : Tree) (P : List Nat), T.at? P = some t →
    ∀ e ∈ Tree.walk sel noSkip t P, P <+: e.elem ∧ ∃ u, T.at? e.elem = some u
  | .token k x, P, h, e, he => by
    rw [Tree.walk] at he
    have : e.elem = P := by
      simp at he
      rcases he with rfl | rfl <;> rfl
    rw [this]
    exact ⟨List.prefix_refl P, _, h⟩
  | .node k cs, P, h, e, he => by
    rw [Tree.walk] at he
    simp only [noSkip, Bool.false_eq_true, if_false, List.mem_cons, List.mem_append, List.not_mem_nil, or_false] at he
    rcases he with rfl | he | rfl
    · exact ⟨List.prefix_refl P, _, h⟩
    · exact walks_pos k P [] cs h e he
    · exact ⟨List.prefix_refl P, _, h⟩
theorem walks_pos {sel : Tree → Bool} {T : Tree} (k : SyntaxKind) (P : List Nat) : ∀ (pre cs : List Tree),
    T.at? P = some (.node k (pre ++ cs)) →
    ∀ e ∈ Tree.walks sel noSkip cs P pre.length, P <+: e.elem ∧ ∃ u, T.at? e.elem = some u
  | pre, [], h, e, he => by rw [Tree.walks] at he; cases he
  | pre, c :: cs, h, e, he => by
    rw [Tree.walks, List.mem_append] at he
    rcases he with he | he
    · split at he
      · obtain ⟨h1, h2⟩ := walk_pos c (P ++ [pre.length]) (by rw [Tree.at?_snoc, h]; simp [Tree.children]) e he
        exact ⟨(List.prefix_append ..).trans h1, h2⟩
      · cases he
    · have := walks_pos (sel := sel) k P (pre ++ [c]) cs (by simpa using h) e
      rw [List.length_append, List.length_singleton] at this
      exact this he
end

end Rowan
