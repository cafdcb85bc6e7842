import Verif.Spec.Forest
/-!
# Specification vocabulary: trees that a program has no handle in
-/
namespace Rowan
namespace Forest

/-- The handles `bs` are in trees of their own: no tree has one of them and another handle. -/
def Apart (bs : List Nat) (F : Forest) : Prop :=
  ∀ e ∈ F.env.held, ∀ e' ∈ F.env.held, e.1 ∈ bs → e'.1 ∉ bs → e.2.1 ≠ e'.2.1

/-- The handles `bs` denote the same places in both forests, and the trees that they are in are the same. -/
structure Spares (bs : List Nat) (F F' : Forest) : Prop where
  held : F'.env.held.filter (fun e => bs.contains e.1) = F.env.held.filter (fun e => bs.contains e.1)
  tree : ∀ e ∈ F.env.held, e.1 ∈ bs → F'.tree e.2.1 = F.tree e.2.1
  mutable : ∀ e ∈ F.env.held, e.1 ∈ bs → F'.mutable e.2.1 = F.mutable e.2.1

/-- Only the handles `bs` are held; new ones will be numbered from `n`. -/
def only (bs : List Nat) (n : Nat) (F : Forest) : Forest :=
  { F with env := ⟨n, F.env.held.filter fun e => bs.contains e.1⟩ }

end Forest

/-- The handles that are held, apart from `bs`. -/
def Env.others {X : Type} (bs : List Nat) (v : Env X) : List Nat := (v.held.map Prod.fst).filter fun h => !bs.contains h

/-- A run of a program that holds the handles `bs`, too, and does not use them, ends as the run without them ends, and keeps
them. -/
def FOut.Framed {α : Type} (bs : List Nat) (F : Forest) : FOut (α × Forest) → FOut (α × Forest) → Prop
  | .ok (a, G), .ok (b, G') => a = b ∧ G = G'.dels bs ∧ F.Spares bs G' ∧ G'.Apart bs
  | .panic G, .panic G' => G = G'.dels bs ∧ F.Spares bs G' ∧ G'.Apart bs
  | .broken, .broken => True
  | .wild, .wild => True
  | .diverge, .diverge => True
  | .misuse, _ => True
  | _, _ => False

/-- Two runs on heaps end in the same way, with the same result. -/
def HOut.Agree {α : Type} : HOut (EOut α) → HOut (EOut α) → Prop
  | .ok (.ok a _) _, .ok (.ok b _) _ => a = b
  | .ok (.panic _) _, .ok (.panic _) _ => True
  | .diverge, .diverge => True
  | _, _ => False

end Rowan
