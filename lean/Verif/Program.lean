import Verif.HeapApi
/-!
# Programs that only read

A program that looks at trees through handles: it navigates, clones and drops handles and looks at elements,
and what it does next can depend on everything it has seen.  The functions of src/cursor.rs that are built from
the navigation functions (iterators, searches, traversals) are such programs, see `Verif/Traverse.lean`.

A program names its handles by numbers: the first handle it gets is 0, the next one 1, and so on.  The same program
can be run on the heap (`RProg.exec`; a handle is the address of a `NodeData`) and on a snapshot (`RProg.eval` in
`Verif/Spec/Program.lean`; a handle is a value of `Verif/Cursor.lean`).
-/
namespace Rowan

/-- What one sees of an element without navigating: `kind()`, `text_range()`, `index()`, `is_mutable()`, and
`green()`, which is the content (for a token its text).  The key that `==` and `Hash` use is the address of the green data and the start
of the range — src/cursor.rs:301-307. -/
structure Obs where
  kind : SyntaxKind
  range : TextRange
  index : Nat
  mutable : Bool
  green : GElem

/-- src/cursor.rs:301-307. -/
def Obs.key (o : Obs) : Nat × Nat := (o.green.addr, o.range.start)

/-- A program with result `α`; every step says how it goes on, depending on the outcome.
(A client of src/cursor.rs:552-1260.) -/
inductive RProg (α : Type) : Type where
  | ret (a : α)
  /-- `unwrap`, `assert!`, … -/
  | panic
  /-- the step bound of a loop is used up -/
  | diverge
  | nav (f : Nav) (h : Nat) (k : Option Nat → RProg α)
  /-- `to_next_sibling`, `to_next_sibling_or_token`; the handle is passed by value -/
  | toNext (nodes : Bool) (h : Nat) (k : Option Nat → RProg α)
  | clone (h : Nat) (k : Nat → RProg α)
  | drop (h : Nat) (k : RProg α)
  | look (h : Nat) (k : Obs → RProg α)

namespace RProg
/-- Sequencing. (Sequencing in a client of src/cursor.rs; not itself in the code.) -/
protected def bind {α β : Type} : RProg α → (α → RProg β) → RProg β
  | ret a, f => f a
  | panic, _ => panic
  | diverge, _ => diverge
  | nav g h k, f => nav g h fun o => (k o).bind f
  | toNext b h k, f => toNext b h fun o => (k o).bind f
  | clone h k, f => clone h fun o => (k o).bind f
  | drop h k, f => drop h (k.bind f)
  | look h k, f => look h fun o => (k o).bind f

instance : Monad RProg where
  pure := ret
  bind := RProg.bind
end RProg

/-- The handles a program holds, by their numbers; `next` is the number of the next one.
(A client's variables; not in src/cursor.rs.) -/
structure Env (X : Type) where
  next : Nat
  held : List (Nat × X)

namespace Env
variable {X : Type}
/-- A client's variables; not in src/cursor.rs. -/
def get (v : Env X) (h : Nat) : Option X := v.held.lookup h
/-- A client stores a handle returned by src/cursor.rs in a new variable. -/
def add (v : Env X) (x : X) : Env X := ⟨v.next + 1, (v.next, x) :: v.held⟩
/-- A client gives up a variable; not in src/cursor.rs. -/
def del (v : Env X) (h : Nat) : Env X := { v with held := v.held.filter fun p => p.1 != h }
end Env

/-- How a run ends; `misuse` is the use of a handle that is not held (or of a token where a node is needed), which
the type system of Rust excludes.  After a panic the handles are still held: unwinding drops them.
(A client of src/cursor.rs.) -/
inductive Out (X α : Type) where
  | ok (a : α) (v : Env X)
  | panic (v : Env X)
  | diverge
  | misuse

/-- Sequencing in a client of src/cursor.rs; not itself in the code. -/
def Out.bind {X α β : Type} : Out X α → (α → Env X → Out X β) → Out X β
  | ok a v, f => f a v
  | panic v, _ => panic v
  | diverge, _ => diverge
  | misuse, _ => misuse

/-- `kind()`, `text_range()`, `index()`, `is_mutable()` (src/cursor.rs:576-578) and `green()`. -/
def Cur.look (p : Nat) : H Obs := do
  let k ← Cur.kind p
  let r ← Cur.textRange p
  let i ← Cur.index p
  let m ← H.rd p HSt.mutable
  let g ← Cur.green p
  pure ⟨k, r, i, m, g⟩

/-- The run on the heap. (A client of src/cursor.rs:552-1260.) -/
def RProg.exec {α : Type} : RProg α → Env Nat → H (Out Nat α)
  | ret a, v => pure (.ok a v)
  | panic, v => pure (.panic v)
  | diverge, _ => pure .diverge
  | nav f h k, v =>
    match v.get h with
    | none => pure .misuse
    | some p => do
      match ← f.run p with
      | none => (k none).exec v
      | some q => (k (some v.next)).exec (v.add q)
  | toNext nodes h k, v =>
    match v.get h with
    | none => pure .misuse
    | some p => do
      match ← Cur.toNextOf nodes p with
      | none => (k none).exec (v.del h)
      | some q => (k (some v.next)).exec ((v.del h).add q)
  | clone h k, v =>
    match v.get h with
    | none => pure .misuse
    | some p => do
      let q ← Cur.clone p
      (k v.next).exec (v.add q)
  | drop h k, v =>
    match v.get h with
    | none => pure .misuse
    | some p => do
      Cur.drop p
      k.exec (v.del h)
  | look h k, v =>
    match v.get h with
    | none => pure .misuse
    | some p => do
      let o ← Cur.look p
      (k o).exec v

end Rowan
