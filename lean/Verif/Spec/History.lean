import Verif.Spec.Api
/-!
# Specification vocabulary: histories of programs over the cursor API
-/
namespace Rowan

/-- A state of a program: the heap, the green nodes and tokens it holds, the handles it holds, the handles it
has lost without dropping them.  See `HReach`. -/
structure Conf where
  s : HSt
  gs : List GElem
  hs : List Nat
  lk : List Nat

namespace Conf

/-- The state is reachable. -/
def Reach (C : Conf) : Prop := HReach C.s C.gs C.hs C.lk

/-- A step of a program, see the constructors of `HReach`.  If the step is a call, it is recorded together with
the handles that the program keeps during the call. -/
inductive Step : Conf → Option (Call × List Nat) → Conf → Prop
  | token (C : Conf) (k : SyntaxKind) (text : List Char) :
      Step C none ⟨{ C.s with gtop := C.s.gtop + 1 }, .token ⟨C.s.gtop, k, text⟩ :: C.gs, C.hs, C.lk⟩
  | node (C : Conf) (k : SyntaxKind) (es : List GElem) : (∀ e ∈ es, e ∈ C.gs) →
      Step C none ⟨{ C.s with gtop := C.s.gtop + 1 }, .node (GNode.new C.s.gtop k es) :: C.gs, C.hs, C.lk⟩
  | green (C : Conf) {h : Nat} : h ∈ C.hs → Step C none ⟨C.s, C.s.green h :: C.gs, C.hs, C.lk⟩
  | sub (C : Conf) {e x : GElem} : e ∈ C.gs → x ∈ e.subs → Step C none ⟨C.s, x :: C.gs, C.hs, C.lk⟩
  | dropGreen (C : Conf) {gs' : List GElem} : (∀ e ∈ gs', e ∈ C.gs) → Step C none ⟨C.s, gs', C.hs, C.lk⟩
  /-- a call returns -/
  | ok (C : Conf) {rest new : List Nat} {s' : HSt} (c : Call) : c.Ready C.s C.gs C.hs rest →
      c.exec C.s = .ok new s' → Step C (some (c, rest)) ⟨s', C.gs, new ++ rest, c.lost C.s ++ C.lk⟩
  /-- a call panics with a failed assertion, which is caught -/
  | caught (C : Conf) {rest : List Nat} {s' : HSt} (c : Call) : c.Ready C.s C.gs C.hs rest →
      c.exec C.s = .panic .assert s' → Step C (some (c, rest)) ⟨s', C.gs, rest, C.lk⟩
  /-- `splice_children` panics because the index is too large, although it fits into 32 bits, and the unwinding frees
  the element that could not be inserted -/
  | unwound (C : Conf) {rest : List Nat} {s' : HSt} {q a b : Nat} {ins : List Nat} (c : Call) :
      c.Ready C.s C.gs C.hs rest → c.Splices q a b ins →
      c.exec C.s = .panic .range s' → a + ins.length ≤ 2 ^ 32 ∧ (∀ p ∈ ins, ∀ y, ¬ s'.Stray p y) →
      Step C (some (c, rest)) ⟨s', C.gs, rest, C.lk⟩

/-- From state `C` the program gets to a state by any number of steps.  It keeps the handle `x` all the time, and
every call it makes satisfies `P`. -/
inductive Run (P : HSt → Call → Prop) (x : Nat) (C : Conf) : Conf → Prop
  | refl : Run P x C C
  | step {C1 C2 l} : Run P x C C1 → Step C1 l C2 →
      (∀ c rest, l = some (c, rest) → x ∈ rest ∧ P C1.s c) → Run P x C C2

end Conf

/-- The content of the element `x` is changed by the call: `x` is an ancestor of a detached or moved element, or
the node whose children are spliced, or an ancestor of it. -/
def Call.Alters (s : HSt) (x : Nat) : Call → Prop
  | detach p => s.Above x p ∧ x ≠ p
  | splice q _ _ ins => s.Above x q ∨ ∃ p ∈ ins, s.Above x p ∧ x ≠ p
  | attach q _ p => s.Above x q ∨ s.Above x p ∧ x ≠ p
  | _ => False

/-- Neither element contains the other. -/
def HSt.Apart (s : HSt) (x y : Nat) : Prop := ¬ s.Above x y ∧ ¬ s.Above y x

end Rowan
