import Verif.Spec.History
/-!
# Specification: `splice_children` with an iterator that runs code of its own
-/
namespace Rowan

/-- `q.splice_children(a..b, to_insert)` was called in state `C` and has got to a state: the elements that the iterator has
returned up to now had the contents `ts` when it returned them.  `next()` of the iterator runs arbitrary code over
the cursor API, each call of which satisfies `P`; it cannot drop the handle `q`, which is borrowed.  The elements it
returns neither contain `q` nor are inside `q` at that time. -/
inductive Conf.Lazy (P : HSt → Call → Prop) (C : Conf) (q a b : Nat) : Conf → List Tree → Prop
  /-- the deletion loop -/
  | start {rest new : List Nat} {s' : HSt} : (Call.splice q a b []).Ready C.s C.gs C.hs rest →
      Call.exec (.splice q a b []) C.s = .ok new s' → Lazy P C q a b ⟨s', C.gs, rest, C.lk⟩ []
  /-- the iterator runs code -/
  | code {C1 C2 : Conf} {ts : List Tree} : Lazy P C q a b C1 ts → C1.Run P q C2 → Lazy P C q a b C2 ts
  /-- the iterator returns `p`, which is attached -/
  | insert {C1 : Conf} {ts : List Tree} {p : Nat} {rest new : List Nat} {s' : HSt} : Lazy P C q a b C1 ts →
      (Call.attach q (a + ts.length) p).Ready C1.s C1.gs C1.hs rest → C1.s.Apart p q →
      Call.exec (.attach q (a + ts.length) p) C1.s = .ok new s' →
      Lazy P C q a b ⟨s', C1.gs, rest, C1.lk⟩ (ts ++ [C1.s.tree p])

end Rowan
