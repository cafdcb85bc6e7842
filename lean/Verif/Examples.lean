import Verif.Spec.Walk
import Verif.Props.Green
/-!
# A concrete tree used in the non-vacuity examples

```text
1@0..6
  2@0..1 "a"
  3@1..4
    4@1..1
    2@1..2 "a"      (same green token as the first "a")
    2@2..4 "é"
  4@4..4            (same green node as the other empty node)
  5@4..6 "bc"
```

Unless their comments cite lines of `/repo`, the definitions in this file are vocabulary of the proofs and model no code.
-/
namespace Rowan

def synEmpty : GNode := GNode.new 7 4 []
def synInner : GNode := GNode.new 8 3 [.node synEmpty, exTok 0 2 "a", exTok 2 2 "é"]
def synGreen : GNode :=
  GNode.new 9 1 [exTok 0 2 "a", .node synInner, .node synEmpty, exTok 1 5 "bc"]

/-- The immutable tree. -/
def synRoot : Root := ⟨false, 0, .node synGreen⟩
/-- A mutable tree with a stale root index. -/
def synRootMut : Root := ⟨true, 3, .node synGreen⟩

theorem synGreen_made : Made (.node synGreen) := by
  refine .node _ _ _ ?_
  intro e he
  simp only [List.mem_cons, List.not_mem_nil, or_false] at he
  rcases he with rfl | rfl | rfl | rfl
  · exact .token ..
  · refine .node _ _ _ ?_
    intro e he
    simp only [List.mem_cons, List.not_mem_nil, or_false] at he
    rcases he with rfl | rfl | rfl
    · exact .node _ _ _ (by simp)
    · exact .token ..
    · exact .token ..
  · exact .node _ _ _ (by simp)
  · exact .token ..

theorem synGreen_wf : GElem.WF (.node synGreen) := synGreen_made.wf

theorem synGreen_coherent : GElem.Coherent (.node synGreen) := by
  intro a ha b hb hab
  simp only [GElem.subs, GNode.subs, synGreen, synInner, synEmpty, exTok, GNode.new, GNode.layout,
    GChild.subss, GChild.subs, GChild.ofElem, GToken.new, List.mem_cons, List.mem_append,
    List.not_mem_nil, or_false, List.append_nil] at ha hb
  rcases ha with rfl | rfl | (rfl | rfl | rfl | rfl) | rfl | rfl <;>
    rcases hb with rfl | rfl | (rfl | rfl | rfl | rfl) | rfl | rfl <;>
    first | rfl | (exfalso; revert hab; decide)

/-- The top handle. -/
def synTop : SNode := .root false 0 synGreen
/-- The handle of the inner node. -/
def synInnerH : SNode := .child synTop 1 1 synInner

end Rowan
