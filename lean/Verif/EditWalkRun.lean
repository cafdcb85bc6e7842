import Verif.EditWalk
import Verif.EditWalkTree
import Verif.ForestFrozen
/-!
# Runs of walks on forests

The definitions in this file are vocabulary of the proofs and model no code.
-/
namespace Rowan

/-- All handles have numbers below the next one. -/
def Env.Low {X : Type} (v : Env X) : Prop := ∀ x ∈ v.held, x.1 < v.next

namespace Env
variable {X Y : Type}

theorem get_add_self (v : Env X) (x : X) : (v.add x).get v.next = some x := by
  simp [Env.add, Env.get]

theorem get_mem {v : Env X} {h : Nat} {x : X} (e : v.get h = some x) : (h, x) ∈ v.held := by
  obtain ⟨n, l⟩ := v
  simp only [Env.get] at e
  induction l with
  | nil => cases e
  | cons a l ih =>
    rw [List.lookup_cons] at e
    split at e
    next hh => cases e; simp at hh; subst hh; exact List.mem_cons_self
    · exact List.mem_cons_of_mem _ (ih e)

theorem Low.get {v : Env X} (hv : v.Low) {h : Nat} {x : X} (e : v.get h = some x) : h < v.next := hv _ (get_mem e)

theorem Low.add {v : Env X} (hv : v.Low) (x : X) : (v.add x).Low := by
  intro y hy
  simp only [Env.add, List.mem_cons] at hy ⊢
  rcases hy with rfl | hy
  · exact Nat.lt_succ_self _
  · exact Nat.lt_succ_of_lt (hv y hy)

theorem Low.dels {v : Env X} (hv : v.Low) (hs : List Nat) : (v.dels hs).Low := by
  intro y hy
  simp only [Env.dels, List.mem_filter] at hy
  exact hv y hy.1

theorem Low.map {v : Env X} (hv : v.Low) (f : X → Y) : (v.map f).Low := by
  intro y hy
  simp only [Env.map, List.mem_map] at hy
  obtain ⟨a, ha, rfl⟩ := hy
  exact hv a ha

/-- The numbers of the handles held. -/
def ids (v : Env X) : List Nat := v.held.map Prod.fst

@[simp] theorem ids_add (v : Env X) (x : X) : (v.add x).ids = v.next :: v.ids := rfl
@[simp] theorem ids_map (v : Env X) (f : X → Y) : (v.map f).ids = v.ids := by simp [ids, Env.map]
@[simp] theorem ids_dels (v : Env X) (hs : List Nat) : (v.dels hs).ids = v.ids.filter (!hs.contains ·) := by
  simp only [ids, Env.dels, List.filter_map]
  rfl
@[simp] theorem next_add (v : Env X) (x : X) : (v.add x).next = v.next + 1 := rfl
@[simp] theorem next_map (v : Env X) (f : X → Y) : (v.map f).next = v.next := rfl
@[simp] theorem next_dels (v : Env X) (hs : List Nat) : (v.dels hs).next = v.next := rfl
theorem length_held (v : Env X) : v.held.length = v.ids.length := by simp [ids]
theorem low_iff {v : Env X} : v.Low ↔ ∀ x ∈ v.ids, x < v.next := by
  simp only [Low, ids, List.mem_map]
  exact ⟨fun h x ⟨a, ha, e⟩ => e ▸ h a ha, fun h x hx => h _ ⟨x, hx, rfl⟩⟩
end Env

namespace EProg
variable {α β : Type}

theorem bind_def (p : EProg α) (f : α → EProg β) : p >>= f = p.bind f := rfl
theorem pure_def (a : α) : (pure a : EProg α) = .ret a := rfl

/-- What a run does before `f`, it does before whatever follows. -/
theorem run_bind (f : α → EProg β) : ∀ (p : EProg α) {F F' : Forest} {a : α}, p.run F = .ok (a, F') →
    (p >>= f).run F = (f a).run F' ∧ (p >>= f).peak F = max (p.peak F) ((f a).peak F' + p.lost F) ∧
      (p >>= f).lost F = p.lost F + (f a).lost F'
  | .ret a, F, F', _, e => by cases e; simp [bind_def, EProg.bind, peak, lost]
  | .panic, F, F', _, e => by cases e
  | .diverge, F, F', _, e => by cases e
  | .look h k, F, F', a, e => by
    simp only [bind_def, EProg.bind, run, peak, lost] at e ⊢
    cases hx : F.env.get h with
    | none => rw [hx] at e; cases e
    | some x =>
      simp only [hx] at e ⊢
      cases ho : F.sight x with
      | none => rw [ho] at e; cases e
      | some o =>
        simp only [ho] at e ⊢
        exact run_bind f (k o) e
  | .same h h' k, F, F', a, e => by
    simp only [bind_def, EProg.bind, run, peak, lost] at e ⊢
    cases hx : F.env.get h with
    | none => rw [hx] at e; cases e
    | some x =>
      cases hy : F.env.get h' with
      | none => rw [hx, hy] at e; cases e
      | some y =>
        simp only [hx, hy] at e ⊢
        cases ho : F.eq x y with
        | none => rw [ho] at e; cases e
        | some o =>
          simp only [ho] at e ⊢
          exact run_bind f (k o) e
  | .req r k, F, F', a, e => by
    simp only [bind_def, EProg.bind, run, peak, lost] at e ⊢
    cases hr : r.on F with
    | ok b =>
      obtain ⟨_ | x, F1⟩ := b
      · simp only [hr] at e ⊢
        obtain ⟨h1, h2, h3⟩ := run_bind f (k (.done none)) e
        rw [bind_def] at h1 h2 h3
        rw [h1, h2, h3]
        exact ⟨rfl, by omega, by omega⟩
      · simp only [hr] at e ⊢
        obtain ⟨h1, h2, h3⟩ := run_bind f (k (.done (some F.env.next))) e
        rw [bind_def] at h1 h2 h3
        rw [h1, h2, h3]
        exact ⟨rfl, by omega, by omega⟩
    | panic F1 =>
      simp only [hr] at e ⊢
      obtain ⟨h1, h2, h3⟩ := run_bind f (k .panicked) e
      rw [bind_def] at h1 h2 h3
      rw [h1, h2, h3]
      exact ⟨rfl, by omega, by omega⟩
    | broken => simp only [hr] at e; split at e <;> cases e
    | wild => simp only [hr] at e; cases e
    | diverge => simp only [hr] at e; cases e
    | misuse => simp only [hr] at e; cases e

/-- The run succeeds with this result.  If `N` is given, it loses no handle and there are never more than `N`. -/
structure Runs (N : Option Nat) (p : EProg α) (F : Forest) (a : α) (F' : Forest) : Prop where
  run : p.run F = .ok (a, F')
  fits : ∀ n, N = some n → p.peak F ≤ n ∧ p.lost F = 0

/-- There is room for so many more handles. -/
def Fits (N : Option Nat) (F : Forest) (k : Nat) : Prop := ∀ n, N = some n → F.env.held.length + k ≤ n

namespace Runs
variable {N : Option Nat} {F F' F'' : Forest} {a : α} {b : β}

theorem bind {p : EProg α} {f : α → EProg β} (h1 : Runs N p F a F') (h2 : Runs N (f a) F' b F'') :
    Runs N (p >>= f) F b F'' := by
  obtain ⟨e1, e2, e3⟩ := run_bind f p h1.run
  refine ⟨e1.trans h2.run, fun n hn => ?_⟩
  have := h1.fits n hn
  have := h2.fits n hn
  rw [e2, e3]
  omega

theorem pure (a : α) : Runs N (pure a) F a F := ⟨rfl, fun _ _ => ⟨Nat.zero_le _, rfl⟩⟩

theorem clone {h : Nat} {x : Nat × List Nat} (hx : F.env.get h = some x) (hN : Fits N F 1) :
    Runs N (clone h) F F.env.next (F.add x) := by
  refine ⟨by simp only [EProg.clone, EProg.run, Req.on, hx], fun n hn => ⟨?_, ?_⟩⟩
  · have := hN n hn
    simp only [EProg.clone, peak, Req.on, hx, Req.cost, Req.lost]; omega
  · simp only [EProg.clone, lost, Req.on, hx, Req.lost]

theorem drop {h : Nat} {x : Nat × List Nat} (hx : F.env.get h = some x) (hN : Fits N F 0) :
    Runs N (drop h) F () (F.dels [h]) := by
  refine ⟨by simp only [EProg.drop, EProg.run, Req.on, hx], fun n hn => ⟨?_, ?_⟩⟩
  · have := hN n hn
    simp only [EProg.drop, peak, Req.on, hx, Req.cost, Req.lost]; omega
  · simp only [EProg.drop, lost, Req.on, hx, Req.lost]

theorem detach {h : Nat} {x : Nat × List Nat} (hx : F.env.get h = some x) (hm : F.mutable x.1 = true) (hN : Fits N F 0) :
    Runs N (detach h) F () (F.cut x) := by
  refine ⟨by simp only [EProg.detach, EProg.run, Req.on, hx, hm, if_true], fun n hn => ⟨?_, ?_⟩⟩
  · have := hN n hn
    simp only [EProg.detach, peak, Req.on, hx, hm, if_true, Req.cost, Req.lost]; omega
  · simp only [EProg.detach, lost, Req.on, hx, hm, if_true, Req.lost]

theorem nav_some {f : Nav} {h : Nat} {x : Nat × List Nat} {P : List Nat} (hx : F.env.get h = some x)
    (hn : f.onNodes = true → F.isNode x = true) (ht : f.target (F.tree x.1) x.2 = some P) (hN : Fits N F 2) :
    Runs N (nav f h) F (some F.env.next) (F.add (x.1, P)) := by
  have hc : ¬ (f.onNodes = true ∧ F.isNode x = false) := fun ⟨h1, h2⟩ => by rw [hn h1] at h2; cases h2
  refine ⟨by simp only [EProg.nav, EProg.run, Req.on, hx, if_neg hc, ht, Option.map_some], fun n hn => ⟨?_, ?_⟩⟩
  · have := hN n hn
    simp only [EProg.nav, peak, Req.on, hx, if_neg hc, ht, Option.map_some, Req.cost, Req.lost]; omega
  · simp only [EProg.nav, lost, Req.on, hx, if_neg hc, ht, Option.map_some, Req.lost]

theorem nav_none {f : Nav} {h : Nat} {x : Nat × List Nat} (hx : F.env.get h = some x)
    (hn : f.onNodes = true → F.isNode x = true) (ht : f.target (F.tree x.1) x.2 = none) (hN : Fits N F 2) :
    Runs N (nav f h) F none F := by
  have hc : ¬ (f.onNodes = true ∧ F.isNode x = false) := fun ⟨h1, h2⟩ => by rw [hn h1] at h2; cases h2
  refine ⟨by simp only [EProg.nav, EProg.run, Req.on, hx, if_neg hc, ht, Option.map_none], fun n hn => ⟨?_, ?_⟩⟩
  · have := hN n hn
    simp only [EProg.nav, peak, Req.on, hx, if_neg hc, ht, Option.map_none, Req.cost, Req.lost]; omega
  · simp only [EProg.nav, lost, Req.on, hx, if_neg hc, ht, Option.map_none, Req.lost]

theorem see {h : Nat} {x : Nat × List Nat} {o : Sight} (hx : F.env.get h = some x) (ho : F.sight x = some o) :
    Runs N (see h) F o F := by
  refine ⟨by simp only [EProg.see, EProg.run, hx, ho], fun n hn => ⟨?_, ?_⟩⟩
  · simp only [EProg.see, peak, hx, ho]; omega
  · simp only [EProg.see, lost, hx, ho]

theorem eq {h h' : Nat} {x y : Nat × List Nat} {o : Bool} (hx : F.env.get h = some x) (hy : F.env.get h' = some y)
    (ho : F.eq x y = some o) : Runs N (eq h h') F o F := by
  refine ⟨by simp only [EProg.eq, EProg.run, hx, hy, ho], fun n hn => ⟨?_, ?_⟩⟩
  · simp only [EProg.eq, peak, hx, hy, ho]; omega
  · simp only [EProg.eq, lost, hx, hy, ho]

end Runs
end EProg

/-! ### Comparing an element with one above it -/

theorem Tree.size_at {t u : Tree} : ∀ {P : List Nat}, P ≠ [] → t.at? P = some u → sizeOf u < sizeOf t
  | [], h, _ => absurd rfl h
  | i :: P, _, h => by
    cases t with
    | token k x => simp [Tree.at?_cons, Tree.children] at h
    | node k cs =>
      rw [Tree.at?_cons] at h
      simp only [Tree.children] at h
      cases hc : cs[i]? with
      | none => rw [hc] at h; cases h
      | some c =>
        rw [hc, Option.bind_some] at h
        have h1 : sizeOf c < sizeOf cs := List.sizeOf_lt_of_mem (List.mem_of_getElem? hc)
        have h2 : sizeOf u ≤ sizeOf c := by
          by_cases hP : P = []
          · subst hP; simp at h; subst h; exact Nat.le_refl _
          · exact Nat.le_of_lt (size_at hP h)
        simp only [Tree.node.sizeOf_spec]
        omega

theorem Forest.eq_below {F : Forest} {r : Nat} {S R : List Nat} {t u : Tree} (h1 : F.sub (r, S) = some t)
    (h2 : F.sub (r, S ++ R) = some u) : F.eq (r, S ++ R) (r, S) = some (decide (S ++ R = S)) := by
  rw [Forest.eq]
  by_cases hR : R = []
  · subst hR; simp
  · have hne : S ++ R ≠ S := by simpa using hR
    rw [if_neg (by simpa using hR)]
    simp only [Forest.sight, h1, h2, Option.map_some]
    have : u ≠ t := by
      rintro rfl
      rw [Forest.sub] at h1 h2
      rw [Tree.at?_append, h1, Option.bind_some] at h2
      exact absurd (Tree.size_at hR h2) (Nat.lt_irrefl _)
    simp [this, hne]

/-! ### One call of `next` -/

theorem Forest.sight_of_sub {F : Forest} {x : Nat × List Nat} {t : Tree} (h : F.sub x = some t) :
    ∃ o, F.sight x = some o ∧ t = o.content := ⟨_, by rw [Forest.sight, h]; rfl, rfl⟩

theorem Tree.find_all_kids (T : Tree) (P : List Nat) (n : Nat) :
    ((T.kids P).drop n).find? (T.sat Tree.all) = ((T.kids P).drop n).head? := by
  have : ∀ Q ∈ (T.kids P).drop n, T.sat Tree.all Q = true := by
    intro Q hQ
    have hQ := List.mem_of_mem_drop hQ
    rw [kids] at hQ
    split at hQ
    next u hu =>
      simp only [List.mem_map, List.mem_range] at hQ
      obtain ⟨i, hi, rfl⟩ := hQ
      rw [sat, at?_snoc, hu, Option.bind_some, List.getElem?_eq_getElem hi]; rfl
    · cases hQ
  generalize (T.kids P).drop n = l at this
  cases l with
  | nil => rfl
  | cons a l => rw [List.find?_cons, this a List.mem_cons_self]; rfl

theorem target_first (nodes : Bool) (T : Tree) (P : List Nat) :
    (if nodes then Nav.firstChild else Nav.firstChildOrToken).target T P = (T.kids P).find? (T.sat (visited nodes)) := by
  cases nodes with
  | true => rfl
  | false =>
    have := T.find_all_kids P 0
    rw [List.drop_zero] at this
    exact this.symm

theorem target_next (nodes : Bool) (T : Tree) (P : List Nat) :
    (if nodes then Nav.nextSibling else Nav.nextSiblingOrToken).target T P = (T.later P).find? (T.sat (visited nodes)) := by
  cases nodes with
  | true => rfl
  | false =>
    show (T.later P).head? = (T.later P).find? (T.sat Tree.all)
    rw [Tree.later]
    split
    · rw [Tree.find_all_kids]
    · rfl

theorem onNodes_next (nodes : Bool) : (if nodes then Nav.nextSibling else Nav.nextSiblingOrToken).onNodes = false := by
  cases nodes <;> rfl

namespace EProg
variable {N : Option Nat} {F : Forest} {nodes : Bool} {start p r : Nat} {S : List Nat} {e : WalkEvent (List Nat)} {t u : Tree}

theorem Runs.walkSucc (hs : F.env.get start = some (r, S)) (hp : F.env.get p = some (r, e.elem)) (hS : S <+: e.elem)
    (hu : F.sub (r, S) = some u) (ht : F.sub (r, e.elem) = some t) (hN : Fits N F 2) :
    match evNext (visited nodes) (F.tree r) S e with
    | none => Runs N (walkSucc nodes start (e.map fun _ => p)) F none F
    | some e' => Runs N (walkSucc nodes start (e.map fun _ => p)) F (some (e'.map fun _ => F.env.next)) (F.add (r, e'.elem)) := by
  have hN1 : Fits N F 1 := fun n hn => by have := hN n hn; omega
  cases e with
  | enter P =>
    have hp : F.env.get p = some (r, P) := hp
    have ht : F.sub (r, P) = some t := ht
    obtain ⟨o, hsee, rfl⟩ := Forest.sight_of_sub ht
    have tf := target_first nodes (F.tree r) P
    simp only [WalkEvent.map_enter, EProg.walkSucc]
    rw [evNext]
    cases hc : o.content with
    | token k x =>
      have : (F.tree r).kids P = [] := by rw [Tree.kids_eq ht, hc]; rfl
      rw [this]
      simp only [List.find?_nil]
      refine .bind (.see hp hsee) ?_
      rw [hc]
      exact (.bind (.clone hp hN1) (.pure _))
    | node k cs =>
      have hnode : F.isNode (r, P) = true := by rw [Forest.isNode, ht, hc]; rfl
      cases hf : ((F.tree r).kids P).find? ((F.tree r).sat (visited nodes)) with
      | none =>
        rw [hf] at tf
        refine .bind (.see hp hsee) ?_
        rw [hc]
        exact (.bind (.nav_none hp (fun _ => hnode) tf hN) (.bind (.clone hp hN1) (.pure _)))
      | some Q =>
        rw [hf] at tf
        refine .bind (.see hp hsee) ?_
        rw [hc]
        exact (.bind (.nav_some hp (fun _ => hnode) tf hN) (.pure _))
  | leave P =>
    have hp : F.env.get p = some (r, P) := hp
    have ht : F.sub (r, P) = some t := ht
    obtain ⟨R, rfl⟩ : S <+: P := hS
    have heq := Forest.eq_below hu ht
    have tn := target_next nodes (F.tree r) (S ++ R)
    simp only [WalkEvent.map_leave, EProg.walkSucc]
    rw [evNext]
    by_cases hR : S ++ R = S
    · rw [decide_eq_true hR] at heq
      rw [if_pos hR]
      exact .bind (.eq hp hs heq) (.pure _)
    · rw [decide_eq_false hR] at heq
      rw [if_neg hR]
      have hon : (if nodes then Nav.nextSibling else Nav.nextSiblingOrToken).onNodes = true → F.isNode (r, S ++ R) = true := by
        rw [onNodes_next]; nofun
      have hpar : Nav.parent.onNodes = true → F.isNode (r, S ++ R) = true := nofun
      refine Option.casesOn (motive := fun o => ((F.tree r).later (S ++ R)).find? ((F.tree r).sat (visited nodes)) = o → _)
        (((F.tree r).later (S ++ R)).find? ((F.tree r).sat (visited nodes))) ?_ ?_ rfl
      · intro hf
        rw [hf] at tn ⊢
        by_cases h0 : S ++ R = []
        · simp only [if_pos h0]
          exact .bind (.eq hp hs heq) (.bind (.nav_none hp hon tn hN)
            (.bind (.nav_none hp hpar (by simp only [Nav.target, if_pos h0]) hN) (.pure _)))
        · simp only [if_neg h0]
          exact .bind (.eq hp hs heq) (.bind (.nav_none hp hon tn hN)
            (.bind (.nav_some hp hpar (by simp only [Nav.target, if_neg h0]; rfl) hN) (.pure _)))
      · intro Q hf
        rw [hf] at tn ⊢
        exact .bind (.eq hp hs heq) (.bind (.nav_some hp hon tn hN) (.pure _))

end EProg
end Rowan
