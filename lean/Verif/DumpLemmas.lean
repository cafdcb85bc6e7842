import Verif.Spec.Dump
import Verif.Props.Walk
/-!
# Lists of lines with depths determine trees

Unless their comments cite lines of `/repo`, the definitions in this file are vocabulary of the proofs and model no code.
-/
namespace Rowan

/-! ### Splitting -/

theorem split_char {α : Type} {c : α} : ∀ {a b u v : List α}, c ∉ a → c ∉ b → a ++ c :: u = b ++ c :: v → a = b ∧ u = v
  | [], [], _, _, _, _, h => ⟨rfl, by simpa using h⟩
  | [], y :: b, _, _, _, hb, h => by
    simp only [List.nil_append, List.cons_append, List.cons.injEq] at h
    exact absurd h.1 (by rintro rfl; simp at hb)
  | x :: a, [], _, _, ha, _, h => by
    simp only [List.nil_append, List.cons_append, List.cons.injEq] at h
    exact absurd h.1 (by rintro rfl; simp at ha)
  | x :: a, y :: b, _, _, ha, hb, h => by
    simp only [List.cons_append, List.cons.injEq] at h
    simp only [List.mem_cons, not_or] at ha hb
    obtain ⟨rfl, h⟩ := h
    obtain ⟨rfl, h'⟩ := split_char ha.2 hb.2 h
    exact ⟨rfl, h'⟩

theorem lines_inj {α β : Type} {f : β → List α} {c : α} (hc : ∀ x, c ∉ f x) (hf : ∀ {x y}, f x = f y → x = y) :
    ∀ {xs ys : List β}, xs.flatMap (fun x => f x ++ [c]) = ys.flatMap (fun x => f x ++ [c]) → xs = ys
  | [], [], _ => rfl
  | [], y :: ys, h => by simp at h
  | x :: xs, [], h => by simp at h
  | x :: xs, y :: ys, h => by
    simp only [List.flatMap_cons, List.append_assoc, List.singleton_append] at h
    obtain ⟨h1, h2⟩ := split_char (hc x) (hc y) h
    rw [hf h1, lines_inj hc hf h2]

theorem indent_succ (d : Nat) : indent (d + 1) = ' ' :: ' ' :: indent d := rfl

theorem indent_inj : ∀ {d e : Nat} {u v : List Char}, u.head? ≠ some ' ' → v.head? ≠ some ' ' →
    indent d ++ u = indent e ++ v → d = e ∧ u = v
  | 0, 0, u, v, _, _, h => ⟨rfl, h⟩
  | 0, e + 1, u, v, hu, _, h => by
    rw [show indent 0 ++ u = u from rfl] at h
    exact absurd (by rw [h]; rfl) hu
  | d + 1, 0, u, v, _, hv, h => by
    rw [show indent 0 ++ v = v from rfl] at h
    exact absurd (by rw [← h]; rfl) hv
  | d + 1, e + 1, u, v, hu, hv, h => by
    simp only [indent_succ, List.cons_append, List.cons.injEq, true_and] at h
    obtain ⟨rfl, h'⟩ := indent_inj hu hv h
    exact ⟨rfl, h'⟩

theorem not_mem_indent {c : Char} (hc : c ≠ ' ') : ∀ d, c ∉ indent d
  | 0 => by simp [indent]
  | d + 1 => by simp [indent_succ, hc, not_mem_indent hc d]

/-! ### Trees as lists of depths and labels -/

inductive Rose (α : Type) where
  | node (a : α) (cs : List (Rose α))

namespace Rose
variable {α : Type}

mutual
def rows : Nat → Rose α → List (Nat × α)
  | d, node a cs => (d, a) :: rowsL (d + 1) cs
def rowsL : Nat → List (Rose α) → List (Nat × α)
  | _, [] => []
  | d, c :: cs => rows d c ++ rowsL d cs
end

theorem head_rows (d : Nat) : ∀ t : Rose α, ∃ a l, rows d t = (d, a) :: l
  | node a cs => ⟨a, _, by rw [rows]⟩

mutual
theorem rows_inj : ∀ (t u : Rose α) (d : Nat) (R S : List (Nat × α)), (∀ x ∈ R.head?, x.1 ≤ d) → (∀ x ∈ S.head?, x.1 ≤ d) →
    rows d t ++ R = rows d u ++ S → t = u ∧ R = S
  | node a cs, node b cs', d, R, S, hR, hS, h => by
    simp only [rows, List.cons_append, List.cons.injEq, Prod.mk.injEq, true_and] at h
    obtain ⟨rfl, h⟩ := h
    obtain ⟨rfl, h'⟩ := rowsL_inj cs cs' (d + 1) R S (fun x hx => Nat.lt_succ_of_le (hR x hx))
      (fun x hx => Nat.lt_succ_of_le (hS x hx)) h
    exact ⟨rfl, h'⟩
theorem rowsL_inj : ∀ (ts us : List (Rose α)) (d : Nat) (R S : List (Nat × α)), (∀ x ∈ R.head?, x.1 < d) →
    (∀ x ∈ S.head?, x.1 < d) → rowsL d ts ++ R = rowsL d us ++ S → ts = us ∧ R = S
  | [], [], d, R, S, _, _, h => ⟨rfl, by simpa [rowsL] using h⟩
  | [], u :: us, d, R, S, hR, _, h => by
    obtain ⟨a, l, e⟩ := head_rows d u
    simp only [rowsL, e, List.nil_append, List.cons_append] at h
    exact absurd (hR (d, a) (by rw [h]; rfl)) (Nat.lt_irrefl _)
  | t :: ts, [], d, R, S, _, hS, h => by
    obtain ⟨a, l, e⟩ := head_rows d t
    simp only [rowsL, e, List.nil_append, List.cons_append] at h
    exact absurd (hS (d, a) (by rw [← h]; rfl)) (Nat.lt_irrefl _)
  | t :: ts, u :: us, d, R, S, hR, hS, h => by
    have low : ∀ (ts : List (Rose α)) (R : List (Nat × α)), (∀ x ∈ R.head?, x.1 < d) →
        ∀ x ∈ (rowsL d ts ++ R).head?, x.1 ≤ d := by
      intro ts R hR x hx
      cases ts with
      | nil => exact Nat.le_of_lt (hR x (by simpa [rowsL] using hx))
      | cons t ts =>
        obtain ⟨a, l, e⟩ := head_rows d t
        simp only [rowsL, e, List.cons_append, List.head?_cons, Option.mem_def, Option.some.injEq] at hx
        subst hx
        exact Nat.le_refl _
    simp only [rowsL, List.append_assoc] at h
    obtain ⟨rfl, h'⟩ := rows_inj t u d _ _ (low ts R hR) (low us S hS) h
    obtain ⟨rfl, h''⟩ := rowsL_inj ts us d R S hR hS h'
    exact ⟨rfl, h''⟩
end

end Rose

namespace Tree
variable {α : Type}

mutual
/-- The tree with a label for every position. -/
def deco (f : List Nat → α) : Tree → List Nat → Rose α
  | token _ _, p => .node (f p) []
  | node _ cs, p => .node (f p) (decos f cs p 0)
def decos (f : List Nat → α) : List Tree → List Nat → Nat → List (Rose α)
  | [], _, _ => []
  | c :: cs, p, i => deco f c (p ++ [i]) :: decos f cs p (i + 1)
end

mutual
theorem rows_deco (f : List Nat → α) : ∀ (t : Tree) (p : List Nat) (b : Nat), b ≤ p.length →
    (descend all t p).map (fun q => (q.length - b, f q)) = Rose.rows (p.length - b) (deco f t p)
  | token _ _, p, b, _ => by simp [descend, deco, Rose.rows, Rose.rowsL]
  | node _ cs, p, b, hb => by
    simp only [descend, deco, Rose.rows, List.map_cons, List.cons.injEq, true_and]
    rw [rowsL_decos f cs p 0 b hb, show p.length + 1 - b = p.length - b + 1 from by omega]
theorem rowsL_decos (f : List Nat → α) : ∀ (cs : List Tree) (p : List Nat) (i b : Nat), b ≤ p.length →
    (descends all cs p i).map (fun q => (q.length - b, f q)) = Rose.rowsL (p.length + 1 - b) (decos f cs p i)
  | [], p, i, b, _ => by simp [descends, decos, Rose.rowsL]
  | c :: cs, p, i, b, hb => by
    simp only [descends, decos, Rose.rowsL, all, if_true, List.map_append]
    rw [rows_deco f c (p ++ [i]) b (by simp; omega), rowsL_decos f cs p (i + 1) b hb]
    simp
end

theorem decos_getElem? (f : List Nat → α) : ∀ (cs : List Tree) (p : List Nat) (i j : Nat),
    (decos f cs p i)[j]? = cs[j]?.map fun c => deco f c (p ++ [i + j])
  | [], p, i, j => by simp [decos]
  | c :: cs, p, i, 0 => by simp [decos]
  | c :: cs, p, i, j + 1 => by
    simp only [decos, List.getElem?_cons_succ, decos_getElem? f cs p (i + 1) j]
    rw [show i + 1 + j = i + (j + 1) from by omega]

theorem deco_eq (f : List Nat → α) (t : Tree) (p : List Nat) : deco f t p = .node (f p) (decos f t.children p 0) := by
  cases t <;> simp [deco, children, decos]

/-- Trees with the same labels have the same positions, with the same labels. -/
theorem deco_at {f g : List Nat → α} : ∀ (q : List Nat) {t u : Tree} {p p' : List Nat}, deco f t p = deco g u p' →
    (t.at? q).map (fun _ => f (p ++ q)) = (u.at? q).map fun _ => g (p' ++ q)
  | [], t, u, p, p', h => by
    rw [deco_eq, deco_eq] at h
    injection h with h1 h2
    simpa using h1
  | i :: q, t, u, p, p', h => by
    rw [deco_eq, deco_eq] at h
    injection h with h1 h2
    have h3 := congrArg (·[i]?) h2
    simp only [decos_getElem?, Nat.zero_add] at h3
    rw [at?_cons, at?_cons]
    cases hc : t.children[i]? with
    | none =>
      rw [hc] at h3
      cases hc' : u.children[i]? with
      | none => simp
      | some c' => rw [hc'] at h3; simp at h3
    | some c =>
      rw [hc] at h3
      cases hc' : u.children[i]? with
      | none => rw [hc'] at h3; simp at h3
      | some c' =>
        rw [hc'] at h3
        simp only [Option.map_some, Option.some.injEq] at h3
        have := deco_at q h3
        simpa using this

mutual
/-- The converse. -/
theorem deco_of_at {f g : List Nat → α} : ∀ (t u : Tree) (p p' : List Nat),
    (∀ q, (t.at? q).map (fun _ => f (p ++ q)) = (u.at? q).map fun _ => g (p' ++ q)) → deco f t p = deco g u p'
  | t, u, p, p', h => by
    have h0 := h []
    simp only [at?_nil, Option.map_some, List.append_nil, Option.some.injEq] at h0
    rw [deco_eq, deco_eq, h0]
    congr 1
    cases t with
    | token k x =>
      have : u.children = [] := by
        cases hc : u.children with
        | nil => rfl
        | cons c cs =>
          have := h [0]
          rw [at?_cons, at?_cons, hc] at this
          simp [children] at this
      rw [this]
      simp [children, decos]
    | node k cs =>
      refine decos_of_at cs u.children p p' 0 fun j q => ?_
      have := h (j :: q)
      rw [at?_cons, at?_cons] at this
      simp only [Nat.zero_add]
      exact this
theorem decos_of_at {f g : List Nat → α} : ∀ (ts us : List Tree) (p p' : List Nat) (i : Nat),
    (∀ j q, (ts[j]?.bind (·.at? q)).map (fun _ => f (p ++ (i + j) :: q)) =
      (us[j]?.bind (·.at? q)).map fun _ => g (p' ++ (i + j) :: q)) → decos f ts p i = decos g us p' i
  | [], [], p, p', i, h => by simp [decos]
  | [], u :: us, p, p', i, h => by have := h 0 []; simp at this
  | t :: ts, [], p, p', i, h => by have := h 0 []; simp at this
  | t :: ts, u :: us, p, p', i, h => by
    rw [decos, decos, deco_of_at t u (p ++ [i]) (p' ++ [i]) fun q => ?_, decos_of_at ts us p p' (i + 1) fun j q => ?_]
    · have := h (j + 1) q
      simpa [show i + 1 + j = i + (j + 1) from by omega] using this
    · have := h 0 q
      simpa using this
end

end Tree

/-- Two dumps with one line per element are the same if and only if the lines at each position are. -/
theorem dump_inj {β : Type} {row : Nat → β → List Char} (hline : ∀ d x, '\n' ∉ row d x)
    (hrow : ∀ {d e x y}, row d x = row e y → d = e ∧ x = y) {f g : List Nat → β} {t u : Tree} {p p' : List Nat} :
    (Tree.descend Tree.all t p).flatMap (fun q => row (q.length - p.length) (f q) ++ ['\n']) =
      (Tree.descend Tree.all u p').flatMap (fun q => row (q.length - p'.length) (g q) ++ ['\n']) ↔
    ∀ q, (t.at? q).map (fun _ => f (p ++ q)) = (u.at? q).map fun _ => g (p' ++ q) := by
  have key : ∀ (f : List Nat → β) (t : Tree) (p : List Nat),
      (Tree.descend Tree.all t p).flatMap (fun q => row (q.length - p.length) (f q) ++ ['\n']) =
        (Rose.rows 0 (Tree.deco f t p)).flatMap fun x => row x.1 x.2 ++ ['\n'] := by
    intro f t p
    have := Tree.rows_deco f t p p.length (Nat.le_refl _)
    rw [Nat.sub_self] at this
    rw [← this, List.flatMap_map]
  rw [key, key]
  constructor
  · intro h q
    have h1 := lines_inj (f := fun x : Nat × β => row x.1 x.2) (fun x => hline x.1 x.2)
      (fun {x y} e => Prod.ext (hrow e).1 (hrow e).2) h
    have h2 := (Rose.rows_inj _ _ 0 [] [] (by simp) (by simp) (by simpa using h1)).1
    exact Tree.deco_at q h2
  · intro h
    rw [Tree.deco_of_at t u p p' h]

end Rowan
