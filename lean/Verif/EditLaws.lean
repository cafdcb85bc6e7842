import Verif.DetachAll
/-!
# Moving elements — clients of src/cursor.rs
-/
namespace Rowan
namespace EProg

/-- `splice_children` — src/cursor.rs:942-958; a panic is not caught. -/
def splice (q a b : Nat) (ins : List Nat) : EProg Unit :=
  .req (.splice q a b ins) fun
    | .done _ => .ret ()
    | .panicked => .panic

end EProg
end Rowan
