/-!
# Outcomes of modelled calls

A panic, an access to freed memory and an exhausted recursion/loop bound are explicit outcomes.
Loops whose termination is not structural are modelled with a step bound; `diverge` is the outcome
when the bound is used up, and the theorems show that it never is (or that it is for every bound).
-/
namespace Rowan

/-- Outcome of a function of src/: a value, a panic, undefined behaviour, or a loop that ran out of its step bound; modelling vocabulary. -/
inductive Res (α : Type) where
  | ok (a : α)
  | panic
  | ub
  | diverge
deriving DecidableEq, Repr

namespace Res

/-- Sequencing of statements; modelling vocabulary, not in src/. -/
@[inline] protected def bind {α β : Type} : Res α → (α → Res β) → Res β
  | ok a, f => f a
  | panic, _ => panic
  | ub, _ => ub
  | diverge, _ => diverge

instance : Monad Res where
  pure := ok
  bind := Res.bind

/-- `Option` with `none` read as a panic (`unwrap`, `expect`, indexing).
(Standard library, used throughout, e.g. src/cursor.rs:356-357.) -/
def ofOption {α : Type} : Option α → Res α
  | some a => ok a
  | none => panic

@[simp] theorem pure_eq {α : Type} (a : α) : (pure a : Res α) = ok a := rfl
@[simp] theorem ok_bind {α β : Type} (a : α) (f : α → Res β) : (ok a >>= f) = f a := rfl
@[simp] theorem panic_bind {α β : Type} (f : α → Res β) : ((panic : Res α) >>= f) = panic := rfl
@[simp] theorem ub_bind {α β : Type} (f : α → Res β) : ((ub : Res α) >>= f) = ub := rfl
@[simp] theorem diverge_bind {α β : Type} (f : α → Res β) : ((diverge : Res α) >>= f) = diverge := rfl
@[simp] theorem ofOption_some {α : Type} (a : α) : ofOption (some a) = ok a := rfl
@[simp] theorem ofOption_none {α : Type} : ofOption (none : Option α) = panic := rfl

theorem bind_eq_ok {α β : Type} {x : Res α} {f : α → Res β} {b : β} :
    (x >>= f) = ok b ↔ ∃ a, x = ok a ∧ f a = ok b := by
  cases x <;> simp

end Res

end Rowan
