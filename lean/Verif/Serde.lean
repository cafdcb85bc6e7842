import Verif.Position
/-!
# Serialization — model of src/serde_impls.rs, and TokenAtOffset — src/utility_types.rs

A serializer is user code; what the model produces is the tree of values handed to it (serde's data
model restricted to what is used here).  Serializers that report an error are
modelled in `Verif/Fmt.lean`.
-/
namespace Rowan

/-- The values handed to the serializer.  `range` is the value of `text-size`'s own `Serialize`.
(What src/serde_impls.rs:26-66 passes to `serde`.) -/
inductive SerVal where
  | str (s : List Char)
  | range (start stop : Nat)
  | map (entries : List (String × SerVal))
  | seq (items : List SerVal)

/-- Run `f` on each element in order, stopping at the first failure. (`try_for_each`, src/serde_impls.rs:60-63.) -/
def Res.mapList {α β : Type} (f : α → Res β) : List α → Res (List β)
  | [] => .ok []
  | a :: as => do
    let b ← f a
    let bs ← Res.mapList f as
    .ok (b :: bs)

/-- `Serialize` for tokens (src/serde_impls.rs:39-50), nodes (26-37) and `Children` (54-66).
`dk` is the `Debug` output of a kind; `k` bounds the recursion depth. -/
def serElem (dk : SyntaxKind → List Char) : Nat → SElem → Res SerVal
  | 0, _ => .diverge
  | _ + 1, .token t =>
    .ok (.map [("kind", .str (dk t.kind)), ("text_range", .range t.textRange.start t.textRange.stop),
      ("text", .str t.text)])
  | k + 1, .node n => do
    let children ← Res.mapList (serElem dk k) n.childrenWithTokens
    .ok (.map [("kind", .str (dk n.kind)), ("text_range", .range n.textRange.start n.textRange.stop),
      ("children", .seq children)])

/-- One element, src/serde_impls.rs:60-63. -/
def SElem.serialize (dk : SyntaxKind → List Char) (e : SElem) : Res SerVal :=
  serElem dk e.green.subs.length e

namespace TokenAtOffset
variable {α β : Type}

/-- src/utility_types.rs:97-103. -/
def map (f : α → β) : TokenAtOffset α → TokenAtOffset β
  | .none => .none
  | .single a => .single (f a)
  | .between l r => .between (f l) (f r)

/-- src/utility_types.rs:106-112. -/
def rightBiased : TokenAtOffset α → Option α
  | .none => Option.none
  | .single a => some a
  | .between _ r => some r

/-- src/utility_types.rs:115-121. -/
def leftBiased : TokenAtOffset α → Option α
  | .none => Option.none
  | .single a => some a
  | .between l _ => some l

/-- `Iterator::next`: what it returns and the iterator left behind — src/utility_types.rs:127-139. -/
def next : TokenAtOffset α → Option α × TokenAtOffset α
  | .none => (Option.none, .none)
  | .single a => (some a, .none)
  | .between l r => (some l, .single r)

/-- src/utility_types.rs:141-147. -/
def sizeHint : TokenAtOffset α → Nat × Option Nat
  | .none => (0, some 0)
  | .single _ => (1, some 1)
  | .between _ _ => (2, some 2)

/-- The iterator after `k` calls of `next`. (Repeated calls of src/utility_types.rs:127-139.) -/
def after (t : TokenAtOffset α) : Nat → TokenAtOffset α
  | 0 => t
  | k + 1 => (t.after k).next.2

end TokenAtOffset
end Rowan
