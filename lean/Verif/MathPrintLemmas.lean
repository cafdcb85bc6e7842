import Verif.Spec.MathPrint
import Verif.SExprEvalLemmas
import Verif.DumpLemmas
/-!
# Printing on snapshots

Unless their comments cite lines of `/repo`, the definitions in this file are vocabulary of the proofs and model no code.
-/
namespace Rowan.Math
open RProg Prog

theorem ofRaw_raw (k : Kind) : Kind.ofRaw k.raw = some k := by cases k <;> decide

theorem ofRaw_eq {raw : SyntaxKind} {k : Kind} (h : Kind.ofRaw raw = some k) : raw = k.raw := by
  have := List.find?_some h
  simpa using (of_decide_eq_true this).symm

mutual
/-- The outcome of `print`. -/
def outT (dbg : List Char → List Char) (indent : Nat) : Tree → Res (List Char)
  | .token k x =>
    match Kind.ofRaw k with
    | none => .panic
    | some kind => .ok (List.replicate indent ' ' ++ ('-' :: ' ' :: dbg x ++ ' ' :: kind.name ++ ['\n']))
  | .node k ts =>
    match Kind.ofRaw k with
    | none => .panic
    | some kind => outTs dbg (indent + 2) ts >>= fun out =>
        .ok (List.replicate indent ' ' ++ ('-' :: ' ' :: kind.name ++ ['\n']) ++ out)
def outTs (dbg : List Char → List Char) (indent : Nat) : List Tree → Res (List Char)
  | [] => .ok []
  | t :: ts => outT dbg indent t >>= fun a => outTs dbg indent ts >>= fun b => .ok (a ++ b)
end

variable {dbg : List Char → List Char}

theorem printKids_comp {body : Nat → RProg (List Char)} {ind : Nat} : ∀ (k : Nat) {it : Kids} {p : SNode} {nx : Option SElem}
    {xs : List SElem} {L F : List (Nat × SElem)}, it.Holds p nx F L → (it.initialized = false → nx = none) →
    Yields false p nx it.initialized xs → xs.length < k →
    (∀ x ∈ xs, ∀ {h : Nat} {L F : List (Nat × SElem)}, L.Perm ((h, x) :: F) →
      Comp (body h) L (outT dbg ind x.green.tree) (SExpr.Same F)) →
    Comp (printKids body k it) L (outTs dbg ind (xs.map fun e => e.green.tree)) (SExpr.Same F) := by
  intro k
  induction k with
  | zero => intro it p nx xs L F _ _ _ hk; omega
  | succ k ih =>
    intro it p nx xs L F hh h0 hy hk hb
    rw [printKids]
    refine .step (kidsNext_comp hh h0) fun x L' hq => ?_
    obtain ⟨a, it'⟩ := x
    obtain ⟨hi, F', hg, hh'⟩ := hq
    cases xs with
    | nil =>
      rw [show kidsVal false p nx it.initialized = none from hy] at hg hh'
      obtain ⟨rfl, -, h2⟩ | ⟨_, _, _, h, _⟩ := hg.cases
      · exact kidsDrop_comp hh' (.pure ⟨rfl, h2⟩)
      · cases h
    | cons x xs =>
      rw [hy.1] at hg hh'
      obtain ⟨_, h, _⟩ | ⟨c, z, rfl, h, h2⟩ := hg.cases
      · cases h
      cases h
      have hhF : ∃ K, L'.Perm ((c, x) :: K) ∧ it'.Holds p (some x) F K := by
        obtain ⟨q, K, h3, h4⟩ := hh'
        obtain ⟨K', h5, h6⟩ := (h4.perm h2 (.refl _)).under
        exact ⟨(it'.parent, .node p) :: K', by perms h3 h5, q, K', .refl _, h6⟩
      obtain ⟨K, hK, hhK⟩ := hhF
      rw [List.map_cons, outTs]
      refine .bind (hb x (List.mem_cons_self ..) hK) fun a b L2 _ hq => ?_
      obtain ⟨rfl, h3⟩ := hq
      refine .perm h3 (.bind (ih hhK (by rw [hi]; nofun) (by rw [hi]; exact hy.2) (by simpa using hk)
        fun x hx => hb x (List.mem_cons_of_mem _ hx)) fun a b L2 _ hq => ?_)
      obtain ⟨rfl, h4⟩ := hq
      exact .pure ⟨rfl, h4⟩

theorem print_comp : ∀ (fuel : Nat) (t : Tree) (ind : Nat), t.size ≤ fuel → ∀ {h : Nat} {e : SElem} {L F : List (Nat × SElem)},
    L.Perm ((h, e) :: F) → e.green.tree = t → Comp (print dbg fuel ind h) L (outT dbg ind t) (SExpr.Same F) := by
  intro fuel
  induction fuel with
  | zero => intro t _ hs; have := SExpr.size_pos t; omega
  | succ fuel ih =>
    intro t ind hs h e L F hl ht
    have hm : (h, e) ∈ L := hl.mem_iff.mpr (List.mem_cons_self ..)
    rw [print]
    refine .look hm ?_
    have hk : (SElem.obs e).kind = t.kind := SExpr.selem_kind ht
    have hg : (SElem.obs e).green = e.green := rfl
    rw [hk, hg]
    cases t with
    | token k x =>
      cases e with
      | node p =>
        have : (GNode.tree p.green).isNode = true := GNode.tree_isNode _
        rw [show GNode.tree p.green = _ from ht] at this
        cases this
      | token t =>
        have ht : Tree.token t.green.kind t.green.text = .token k x := ht
        injection ht with h1 h2
        rw [outT]
        cases hr : Kind.ofRaw k with
        | none =>
          rw [show (Tree.token k x).kind = k from rfl, hr]
          exact .panic
        | some kind =>
          rw [show (Tree.token k x).kind = k from rfl, hr]
          refine .drop hl (.pure ⟨?_, .refl _⟩)
          rw [h2]
    | node k ts =>
      obtain ⟨p, rfl, hp⟩ := SExpr.selem_node ht
      rw [outT]
      cases hr : Kind.ofRaw k with
      | none =>
        rw [show (Tree.node k ts).kind = k from rfl, hr]
        exact .panic
      | some kind =>
        rw [show (Tree.node k ts).kind = k from rfl, hr]
        refine kids_comp hm fun it L2 hh hi => ?_
        have hkids : kidsOf false p = p.kids := by simp [kidsOf]
        have htr := SExpr.kids_trees hp
        have hlen : p.kids.length = ts.length := by rw [← htr, List.length_map]
        rw [Tree.size] at hs
        have hsz := SExpr.length_le_sizes ts
        have hy := yields_kids false p
        rw [hkids] at hy
        have hc := printKids_comp (dbg := dbg) (body := print dbg fuel (ind + 2)) (ind := ind + 2) (fuel + 1) hh (fun _ => rfl)
          (by rw [hi]; exact hy) (by omega) (fun x hx h L F hl => ih _ _ (by
            have := SExpr.size_mem (ts := ts) (t := x.green.tree) (by rw [← htr]; exact List.mem_map.mpr ⟨x, hx, rfl⟩)
            omega) hl rfl)
        rw [htr] at hc
        refine .bind hc fun a b L3 _ hq => ?_
        obtain ⟨rfl, h3⟩ := hq
        exact .drop (h3.trans hl) (.pure ⟨rfl, .refl _⟩)

/-! ### What is printed -/

/-- A line, with its indentation and without the line break. -/
def row (dbg : List Char → List Char) (d : Nat) (x : Kind × Option (List Char)) : List Char :=
  indent d ++ ('-' :: ' ' ::
    match x.2 with
    | none => x.1.name
    | some y => dbg y ++ ' ' :: x.1.name)

/-- What the line for the element at `q` says. -/
def label (t : Tree) (q : List Nat) : Kind × Option (List Char) :=
  match t.at? q with
  | some (.token k x) => ((Kind.ofRaw k).getD .error, some x)
  | some (.node k _) => ((Kind.ofRaw k).getD .error, none)
  | none => (.error, none)

theorem replicate_indent : ∀ d : Nat, List.replicate (2 * d) ' ' = indent d
  | 0 => rfl
  | d + 1 => by
    rw [show 2 * (d + 1) = 2 * d + 1 + 1 from by omega, List.replicate_succ, List.replicate_succ, replicate_indent d]
    rfl

theorem Known.kid {k : SyntaxKind} {ts : List Tree} (h : Known (.node k ts)) : ∀ t ∈ ts, Known t := by
  intro t ht q s hq
  obtain ⟨i, hi, rfl⟩ := List.mem_iff_getElem.mp ht
  refine h (i :: q) s ?_
  rw [Tree.at?_cons, show (Tree.node k ts).children = ts from rfl, List.getElem?_eq_getElem hi]
  exact hq

theorem known_token {k : Kind} {x : List Char} : Known (.token k.raw x) := by
  intro q s hq
  cases q with
  | nil => cases hq; exact ⟨k, rfl⟩
  | cons i q => simp [Tree.at?_cons, Tree.children] at hq

theorem known_node {k : Kind} {ts : List Tree} (h : ∀ t ∈ ts, Known t) : Known (.node k.raw ts) := by
  intro q s hq
  cases q with
  | nil => cases hq; exact ⟨k, rfl⟩
  | cons i q =>
    rw [Tree.at?_cons, show (Tree.node k.raw ts).children = ts from rfl] at hq
    cases hc : ts[i]? with
    | none => rw [hc] at hq; simp at hq
    | some c =>
      rw [hc] at hq
      exact h c (List.mem_of_getElem? hc) q s hq

mutual
theorem outT_ok (T : Tree) : ∀ (t : Tree) (p : List Nat), T.at? p = some t → Known t →
    outT dbg (2 * p.length) t = .ok ((Tree.descend Tree.all t p).flatMap fun q => row dbg q.length (label T q) ++ ['\n'])
  | .token k x, p, hp, h => by
    obtain ⟨k, rfl⟩ := h [] _ rfl
    simp [outT, ofRaw_raw, Tree.descend, row, label, hp, replicate_indent]
  | .node k ts, p, hp, h => by
    obtain ⟨kd, hk⟩ := h [] _ rfl
    have hk : k = kd.raw := hk
    subst hk
    have := outTs_ok T ts p 0 (fun j c hc => by
      rw [Nat.zero_add, Tree.at?_snoc, hp]
      exact hc) h.kid
    rw [outT, ofRaw_raw]
    simp only [show 2 * p.length + 2 = 2 * (p.length + 1) from by omega, this, Res.ok_bind]
    simp [Tree.descend, row, label, hp, replicate_indent, ofRaw_raw]
theorem outTs_ok (T : Tree) : ∀ (ts : List Tree) (p : List Nat) (i : Nat), (∀ (j : Nat) c, ts[j]? = some c → T.at? (p ++ [i + j]) = some c) →
    (∀ t ∈ ts, Known t) → outTs dbg (2 * (p.length + 1)) ts =
      .ok ((Tree.descends Tree.all ts p i).flatMap fun q => row dbg q.length (label T q) ++ ['\n'])
  | [], p, i, _, _ => by simp [outTs, Tree.descends]
  | t :: ts, p, i, hp, h => by
    have h1 := outT_ok T t (p ++ [i]) (hp 0 t rfl) (h t (List.mem_cons_self ..))
    have h2 := outTs_ok T ts p (i + 1) (fun j c hc => by
      have := hp (j + 1) c (by simpa using hc)
      rwa [show i + 1 + j = i + (j + 1) from by omega]) (fun t ht => h t (List.mem_cons_of_mem _ ht))
    rw [List.length_append, List.length_singleton] at h1
    rw [outTs, h1, h2]
    simp [Tree.descends, Tree.all]
end

mutual
theorem outT_ends (ind : Nat) : ∀ t : Tree, (∃ a, outT dbg ind t = .ok a ∧ Known t) ∨ outT dbg ind t = .panic
  | .token k x => by
    rw [outT]
    cases hr : Kind.ofRaw k with
    | none => exact .inr rfl
    | some kd => exact .inl ⟨_, rfl, ofRaw_eq hr ▸ known_token⟩
  | .node k ts => by
    rw [outT]
    cases hr : Kind.ofRaw k with
    | none => exact .inr rfl
    | some kd =>
      rcases outTs_ends (ind + 2) ts with ⟨a, h1, h2⟩ | h1
      · simp only [h1]
        exact .inl ⟨_, rfl, ofRaw_eq hr ▸ known_node h2⟩
      · simp only [h1]
        exact .inr rfl
theorem outTs_ends (ind : Nat) : ∀ ts : List Tree, (∃ a, outTs dbg ind ts = .ok a ∧ ∀ t ∈ ts, Known t) ∨ outTs dbg ind ts = .panic
  | [] => .inl ⟨[], rfl, nofun⟩
  | t :: ts => by
    rw [outTs]
    rcases outT_ends ind t with ⟨a, h1, h2⟩ | h1
    · rcases outTs_ends ind ts with ⟨b, h3, h4⟩ | h3
      · simp only [h1, h3]
        refine .inl ⟨_, rfl, fun u hu => ?_⟩
        rcases List.mem_cons.mp hu with rfl | hu
        · exact h2
        · exact h4 u hu
      · simp only [h1, h3]
        exact .inr rfl
    · simp only [h1]
      exact .inr rfl
end

theorem Known.root {t : Tree} (h : Known t) : ∃ k : Kind, t.kind = k.raw := h [] t rfl

theorem shows_label {T s : Tree} {q : List Nat} (hT : Known T) (h : T.at? q = some s) : ∀ x, Shows dbg s x ↔ x = row dbg 0 (label T q) := by
  intro x
  obtain ⟨k, hk⟩ := hT q s h
  cases s with
  | token k' y =>
    have hk : k' = k.raw := hk
    subst hk
    have e : row dbg 0 (label T q) = ['-', ' '] ++ dbg y ++ [' '] ++ k.name := by
      simp [row, label, h, ofRaw_raw, indent]
    rw [e]
    constructor
    · intro hs
      generalize ht : Tree.token k.raw y = t at hs
      cases hs with
      | node => cases ht
      | token l z =>
        injection ht with h1 h2
        have : k = l := by have := ofRaw_raw k; rw [h1, ofRaw_raw] at this; exact (Option.some.inj this).symm
        rw [this, h2]
    · rintro rfl
      exact .token k y
  | node k' ts =>
    have hk : k' = k.raw := hk
    subst hk
    have e : row dbg 0 (label T q) = ['-', ' '] ++ k.name := by
      simp [row, label, h, ofRaw_raw, indent]
    rw [e]
    constructor
    · intro hs
      generalize ht : Tree.node k.raw ts = t at hs
      cases hs with
      | token => cases ht
      | node l z =>
        injection ht with h1 h2
        have : k = l := by have := ofRaw_raw k; rw [h1, ofRaw_raw] at this; exact (Option.some.inj this).symm
        rw [this]
    · rintro rfl
      exact .node k ts

theorem printed_iff {t : Tree} (h : Known t) {out : List Char} : Printed dbg t out ↔
    out = (Tree.descend Tree.all t []).flatMap fun q => row dbg q.length (label t q) ++ ['\n'] := by
  have key : ∀ line : List Nat → List Char, (∀ q s, t.at? q = some s → Shows dbg s (line q)) →
      ((Tree.descend Tree.all t []).flatMap fun q => indent q.length ++ line q ++ ['\n']) =
        (Tree.descend Tree.all t []).flatMap fun q => row dbg q.length (label t q) ++ ['\n'] := by
    intro line hl
    rw [List.flatMap_def, List.flatMap_def]
    congr 1
    refine List.map_congr_left fun q hq => ?_
    obtain ⟨v, rfl, hv⟩ := (mem_descend t [] q).mp hq
    obtain ⟨x, hx⟩ := Option.isSome_iff_exists.mp hv
    rw [(shows_label h hx _).mp (hl _ x hx)]
    simp [row, indent]
  constructor
  · rintro ⟨line, hl, rfl⟩
    exact key line hl
  · rintro rfl
    have hl : ∀ q s, t.at? q = some s → Shows dbg s (row dbg 0 (label t q)) := fun q s hq => (shows_label h hq _).mpr rfl
    exact ⟨_, hl, (key _ hl).symm⟩

/-! ### The output determines the tree -/

theorem name_facts (k : Kind) : '\n' ∉ k.name ∧ ' ' ∉ k.name ∧ k.name.head? ≠ some '"' := by
  cases k <;> decide

theorem name_inj {k l : Kind} (h : k.name = l.name) : k = l := by
  revert h
  cases k <;> cases l <;> decide

theorem row_line (hd : Quotes dbg) (d : Nat) (x : Kind × Option (List Char)) : '\n' ∉ row dbg d x := by
  obtain ⟨k, o⟩ := x
  have h1 := not_mem_indent (c := '\n') (by decide) d
  have h2 := (name_facts k).1
  cases o with
  | none => simp [row, h1, h2]
  | some x =>
    have h3 := hd.line x
    simp [row, h1, h2, h3]

theorem row_inj (hd : Quotes dbg) {d e : Nat} {x y : Kind × Option (List Char)} (h : row dbg d x = row dbg e y) : d = e ∧ x = y := by
  obtain ⟨k, o⟩ := x
  obtain ⟨l, o'⟩ := y
  obtain ⟨rfl, h1⟩ := indent_inj (by simp) (by simp) h
  simp only [List.cons.injEq, true_and] at h1
  have q : ∀ (k l : Kind) (x : List Char), k.name ≠ dbg x ++ ' ' :: l.name := by
    intro k l x e
    refine (name_facts k).2.2 ?_
    rw [e, List.head?_append, hd.start]
    rfl
  cases o with
  | none =>
    cases o' with
    | none => exact ⟨rfl, by rw [name_inj h1]⟩
    | some y => exact (q _ _ _ h1).elim
  | some x =>
    cases o' with
    | none => exact (q _ _ _ h1.symm).elim
    | some y =>
      have h2 := congrArg List.reverse h1
      simp only [List.reverse_append, List.reverse_cons, List.append_assoc, List.singleton_append] at h2
      obtain ⟨h3, h4⟩ := split_char (by simpa using (name_facts k).2.1) (by simpa using (name_facts l).2.1) h2
      rw [List.reverse_inj] at h3 h4
      rw [name_inj h3, hd.inj h4]
      exact ⟨rfl, rfl⟩

theorem tree_of_labels : ∀ {t u : Tree}, Known t → Known u →
    (∀ q, (t.at? q).map (fun _ => label t q) = (u.at? q).map fun _ => label u q) → t = u := by
  intro t u
  revert u
  have kinj : ∀ {k l : Kind}, (Kind.ofRaw k.raw).getD .error = (Kind.ofRaw l.raw).getD .error → k = l := by
    intro k l h
    simpa [ofRaw_raw] using h
  refine fun {u} => Tree.rec (motive_1 := fun t => ∀ {u : Tree}, Known t → Known u →
      (∀ q, (t.at? q).map (fun _ => label t q) = (u.at? q).map fun _ => label u q) → t = u)
    (motive_2 := fun ts => ∀ {us : List Tree}, (∀ t ∈ ts, Known t) → (∀ t ∈ us, Known t) →
      (∀ (i : Nat) q, (ts[i]?.bind (·.at? q)).map (fun _ => ts[i]?.map (label · q)) =
        (us[i]?.bind (·.at? q)).map fun _ => us[i]?.map (label · q)) → ts = us) ?_ ?_ ?_ ?_ t
  · intro k x u ht hu h
    have h0 := h []
    obtain ⟨kd, hk⟩ := ht.root
    have hk : k = kd.raw := hk
    subst hk
    cases u with
    | node => simp [label] at h0
    | token l y =>
      obtain ⟨ld, hl⟩ := hu.root
      have hl : l = ld.raw := hl
      subst hl
      simp only [Tree.at?_nil, Option.map_some, label, Option.some.injEq, Prod.mk.injEq] at h0
      rw [kinj h0.1, h0.2]
  · intro k ts ih u ht hu h
    have h0 := h []
    obtain ⟨kd, hk⟩ := ht.root
    have hk : k = kd.raw := hk
    subst hk
    cases u with
    | token => simp [label] at h0
    | node l us =>
      obtain ⟨ld, hl⟩ := hu.root
      have hl : l = ld.raw := hl
      subst hl
      simp only [Tree.at?_nil, Option.map_some, label, Option.some.injEq, Prod.mk.injEq] at h0
      rw [kinj h0.1, ih (us := us) ht.kid hu.kid fun i q => ?_]
      have hq := h (i :: q)
      have lab : ∀ {k : SyntaxKind} {ts : List Tree} {c : Tree}, ts[i]? = some c → label (.node k ts) (i :: q) = label c q := by
        intro k ts c hc
        rw [label, label, Tree.at?_cons, show (Tree.node k ts).children = ts from rfl, hc, Option.bind_some]
      rw [Tree.at?_cons, Tree.at?_cons, show (Tree.node kd.raw ts).children = ts from rfl,
        show (Tree.node ld.raw us).children = us from rfl] at hq
      cases hc : ts[i]? with
      | none =>
        cases hd : us[i]? with
        | none => rfl
        | some d =>
          rw [hc, hd] at hq
          cases hz : d.at? q <;> simp_all
      | some c =>
        rw [lab hc] at hq
        cases hd : us[i]? with
        | none =>
          rw [hc, hd] at hq
          cases hz : c.at? q <;> simp_all
        | some d =>
          rw [lab hd, hc, hd] at hq
          simp only [Option.bind_some] at hq ⊢
          cases hz : c.at? q <;> cases hz' : d.at? q <;> simp_all
  · intro us _ _ h
    cases us with
    | nil => rfl
    | cons u us => have := h 0 []; simp at this
  · intro t ts ih1 ih2 us ht hu h
    cases us with
    | nil => have := h 0 []; simp at this
    | cons u us =>
      rw [ih1 (ht t (List.mem_cons_self ..)) (hu u (List.mem_cons_self ..)) fun q => ?_,
        ih2 (us := us) (fun t h => ht t (List.mem_cons_of_mem _ h)) (fun t h => hu t (List.mem_cons_of_mem _ h))
          fun i q => by simpa using h (i + 1) q]
      have := h 0 q
      simp only [List.getElem?_cons_zero, Option.bind_some, Option.map_some] at this
      cases hz : t.at? q <;> cases hz' : u.at? q <;> simp_all

theorem printed_inj (hd : Quotes dbg) {t u : Tree} (ht : Known t) (hu : Known u) {out : List Char} (h : Printed dbg t out)
    (h' : Printed dbg u out) : t = u := by
  rw [printed_iff ht] at h
  rw [printed_iff hu, h] at h'
  have := (dump_inj (p := []) (p' := []) (fun d x => row_line hd d x) (fun h => row_inj hd h)).mp (by simpa using h')
  exact tree_of_labels ht hu (by simpa using this)

/-! ### Trees of expressions -/

theorem Val.known {us : List Tree} {m : Bool} (h : Val us m) : ∀ t ∈ us, Known t := by
  have sp : ∀ {ws : List Tree}, Space ws → ∀ t ∈ ws, Known t := by
    intro ws hw t ht
    obtain ⟨s, rfl⟩ := hw t ht
    exact known_token
  cases h with
  | number ws s hw =>
    intro t ht
    rcases List.mem_append.mp ht with ht | ht
    · exact sp hw t ht
    · rw [List.mem_singleton.mp ht]; exact known_token
  | error ws k s hw =>
    intro t ht
    rcases List.mem_append.mp ht with ht | ht
    · exact sp hw t ht
    · rw [List.mem_singleton.mp ht]
      refine known_node fun t ht => ?_
      rw [List.mem_singleton.mp ht]; exact known_token
  | missing ws hw =>
    intro t ht
    rcases List.mem_append.mp ht with ht | ht
    · exact sp hw t ht
    · rw [List.mem_singleton.mp ht]
      exact known_node nofun

theorem Chain.known {ops : List Kind} {gap : List Tree → Prop} {operand : List Tree → Bool → Prop} {us : List Tree} {m : Bool}
    (hg : ∀ ws, gap ws → ∀ t ∈ ws, Known t) (ho : ∀ us m, operand us m → ∀ t ∈ us, Known t)
    (h : Chain ops gap operand us m) : ∀ t ∈ us, Known t := by
  induction h with
  | one h => exact ho _ _ h
  | op s _ hw _ hv ih =>
    intro t ht
    rw [List.mem_singleton.mp ht]
    refine known_node fun t ht => ?_
    rcases List.mem_append.mp ht with ht | ht
    · rcases List.mem_append.mp ht with ht | ht
      · exact ih t ht
      · exact hg _ hw t ht
    · rcases List.mem_cons.mp ht with rfl | ht
      · exact known_token
      · exact ho _ _ hv t ht

theorem IsExpr.known {t : Tree} {m : Bool} (h : IsExpr t m) : Known t := by
  have sp : ∀ (ws : List Tree), Space ws → ∀ t ∈ ws, Known t := by
    intro ws hw t ht
    obtain ⟨s, rfl⟩ := hw t ht
    exact known_token
  obtain ⟨us, rfl, h⟩ := h
  refine known_node (Chain.known (by rintro ws rfl t ht; cases ht) ?_ h)
  rintro us m ⟨vs, ws, rfl, hp, hw, -⟩ t ht
  rcases List.mem_append.mp ht with ht | ht
  · exact Chain.known sp (fun _ _ h => Val.known h) hp t ht
  · exact sp ws hw t ht

end Rowan.Math
