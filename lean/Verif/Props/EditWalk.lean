import Verif.EditWalkLoop
import Verif.Props.Forest
/-!
# C69: walks over trees that are edited on the way

`preorder()` and `preorder_with_tokens()` as parts of editing programs (`Verif/EditWalk.lean`).  Trees, positions and handles are
those of the forest for which the heap stands (`Tracks`, C61).
-/
namespace Rowan
open EProg
variable {s : HSt} {gs : List GElem} {lk : List Nat} {F : Forest} {w : Env Nat} {nodes : Bool} {r : Nat} {S : List Nat} {t u : Tree}

theorem Tracks.envLow (h : Tracks s gs lk F w) : F.env.Low := by
  obtain ⟨J, top, -, h2, -, h4, -⟩ := h.same
  intro x hx
  rw [h2] at hx
  simp only [Item.places, List.mem_map] at hx
  obtain ⟨j, hj, rfl⟩ := hx
  rw [h.next]
  exact h4 j hj

/-- From a run on the forest to a run on the heap. -/
theorem Tracks.runs {α : Type} {p : EProg α} {a : α} {F' : Forest} {n : Nat} (h : Tracks s gs lk F w)
    (hr : Runs (some n) p F a F') (hb : n + lk.length < Cur.rcMax) :
    ∃ w' s' lk', p.exec w s = .ok (.ok a w') s' ∧ Tracks s' gs lk' F' w' ∧ lk'.length ≤ lk.length := by
  obtain ⟨h1, h2⟩ := hr.fits n rfl
  obtain ⟨w', s', lk', h3, h4, h5⟩ := C61_no_abort p h (by omega) hr.run
  exact ⟨w', s', lk', h3, h4, by omega⟩

/-- From a run on the heap to a run on the forest. -/
theorem Tracks.ran {α : Type} {p : EProg α} {a : α} {w' : Env Nat} {s' : HSt} (h : Tracks s gs lk F w)
    (hu : p.run F ≠ .misuse) (hw : p.run F ≠ .wild) (e : p.exec w s = .ok (.ok a w') s') :
    ∃ F' lk', p.run F = .ok (a, F') ∧ Tracks s' gs lk' F' w' := by
  rcases C61_run p h hu hw with ⟨h1, -⟩ | h1
  · rw [e] at h1; cases h1
  · cases hr : p.run F with
    | misuse => exact absurd hr hu
    | wild => exact absurd hr hw
    | diverge => rw [hr] at h1; have h1 : _ = _ := h1; rw [e] at h1; cases h1
    | broken => rw [hr] at h1; obtain ⟨w1, s1, h1, -⟩ := h1; rw [e] at h1; cases h1
    | panic F' => rw [hr] at h1; obtain ⟨w1, s1, l1, h1, -⟩ := h1; rw [e] at h1; cases h1
    | ok x =>
      rw [hr] at h1; obtain ⟨w1, s1, l1, h1, h2, -⟩ := h1; rw [e] at h1; cases h1
      exact ⟨x.2, l1, rfl, h2⟩

/-! ### Single steps -/

/-- **C69, the start.**  `preorder()` on an element is about to enter it; what there was before is unchanged. -/
theorem C69_new (h : Tracks s gs lk F w) {n : Nat} (hn : F.env.get n = some (r, S))
    (hb : F.env.held.length + 2 + lk.length < Cur.rcMax) :
    ∃ it p F' w' s' lk', (walk n).exec w s = .ok (.ok it w') s' ∧ Tracks s' gs lk' F' w' ∧ lk'.length ≤ lk.length ∧
      it.skip = false ∧ it.next = some (.enter p) ∧ F'.env.get p = some (r, S) ∧ F'.env.get it.start = some (r, S) ∧
      F'.tree = F.tree ∧ F'.mutable = F.mutable ∧ ∀ m x, F.env.get m = some x → F'.env.get m = some x := by
  have hl := h.envLow
  obtain ⟨w', s', lk', h1, h2, h3⟩ := h.runs (Runs.walk (N := some (F.env.held.length + 2)) hn (fun n hn => by cases hn; exact Nat.le_refl _)) hb
  refine ⟨_, _, _, w', s', lk', h1, h2, h3, rfl, rfl, ?_, ?_, rfl, rfl, ?_⟩
  · exact Env.get_add_self (F.env.add (r, S)) _
  · show ((F.env.add (r, S)).add (r, S)).get F.env.next = _
    rw [Env.get_add _ _ (Nat.lt_succ_self _), Env.get_add_self]
  · intro m x hx
    show ((F.env.add (r, S)).add (r, S)).get m = _
    rw [Env.get_add _ _ (Nat.lt_succ_of_lt (hl.get hx)), Env.get_add _ _ (hl.get hx), hx]

/-- **C69, `next`.**  Whatever was edited since: if the pending event is in the walk of what the start node contains now, `next`
hands it out, and the event that follows it in this walk becomes pending.  Trees and handles are unchanged. -/
theorem C69_next (h : Tracks s gs lk F w) {it : Walk} {p : Nat} {e : WalkEvent (List Nat)} {l1 l2 : List (WalkEvent (List Nat))}
    (hk : it.skip = false) (hn : it.next = some (e.map fun _ => p)) (hs : F.env.get it.start = some (r, S))
    (hp : F.env.get p = some (r, e.elem)) (hu : F.sub (r, S) = some u)
    (hw : Tree.walk (visited nodes) noSkip u S = l1 ++ e :: l2) (hb : F.env.held.length + 2 + lk.length < Cur.rcMax) :
    ∃ it' F' w' s' lk', (walkNext nodes it).exec w s = .ok (.ok (it.next, it') w') s' ∧ Tracks s' gs lk' F' w' ∧
      lk'.length ≤ lk.length ∧ it'.start = it.start ∧ it'.skip = false ∧ F'.tree = F.tree ∧ F'.mutable = F.mutable ∧
      (∀ m x, F.env.get m = some x → F'.env.get m = some x) ∧
      match l2 with
      | [] => it'.next = none
      | e' :: _ => ∃ q, it'.next = some (e'.map fun _ => q) ∧ F'.env.get q = some (r, e'.elem) := by
  have hl := h.envLow
  obtain ⟨hS, t, ht⟩ := walk_pos u S hu e (by rw [hw]; simp)
  have hr := Runs.walkNext (nodes := nodes) (N := some (F.env.held.length + 2)) hk hn hs hp hS hu ht
    (fun n hn => by cases hn; exact Nat.le_refl _)
  rw [evNext_of_walk hu hw] at hr
  obtain ⟨w', s', lk', h1, h2, h3⟩ := h.runs hr hb
  refine ⟨_, _, w', s', lk', h1, h2, h3, rfl, rfl, (nextF_calm ..).1, (nextF_calm ..).2.1, fun m x hx => nextF_get hl hx _, ?_⟩
  cases l2 with
  | nil => rfl
  | cons e' l2 => exact ⟨F.env.next, rfl, Env.get_add_self _ _⟩

/-- **C69, the end.**  When no event is pending, `next` returns `None` and does nothing. -/
theorem C69_end (h : Tracks s gs lk F w) {it : Walk} (hk : it.skip = false) (hn : it.next = none) (hb : lk.length < Cur.rcMax) :
    ∃ w' s' lk', (walkNext nodes it).exec w s = .ok (.ok (none, it) w') s' ∧ Tracks s' gs lk' F w' ∧ lk'.length ≤ lk.length :=
  h.runs (Runs.walkNext_none (N := some 0) hk hn) (by omega)

/-- **C69, `skip_subtree`.**  After `skip_subtree()`, if a child `P ++ [i]` of an element `P` inside the walk is about to be
entered, `next` leaves `P` instead, and goes on with what follows. -/
theorem C69_skip (h : Tracks s gs lk F w) {it : Walk} {p i : Nat} {P : List Nat} {l1 l2 : List (WalkEvent (List Nat))}
    (hn : it.next = some (.enter p)) (hs : F.env.get it.start = some (r, S)) (hp : F.env.get p = some (r, P ++ [i]))
    (hu : F.sub (r, S) = some u) (hw : Tree.walk (visited nodes) noSkip u S = l1 ++ .leave P :: l2)
    (hb : F.env.held.length + 3 + lk.length < Cur.rcMax) :
    ∃ it' q F' w' s' lk', (walkNext nodes it.skipSubtree).exec w s = .ok (.ok (some (.leave q), it') w') s' ∧
      F'.env.get q = some (r, P) ∧ F'.env.get p = none ∧ Tracks s' gs lk' F' w' ∧
      lk'.length ≤ lk.length ∧ it'.start = it.start ∧ it'.skip = false ∧ F'.tree = F.tree ∧ F'.mutable = F.mutable ∧
      (∀ m x, m ≠ p → F.env.get m = some x → F'.env.get m = some x) ∧
      match l2 with
      | [] => it'.next = none
      | e' :: _ => ∃ q, it'.next = some (e'.map fun _ => q) ∧ F'.env.get q = some (r, e'.elem) := by
  have hl := h.envLow
  obtain ⟨hS, t, ht⟩ := walk_pos u S hu (.leave P) (by rw [hw]; simp)
  have hS : S <+: P := hS
  have ht : F.sub (r, P) = some t := ht
  have hpn := hl.get hp
  -- the start is not the element that is dropped
  have hps : it.start ≠ p := by
    intro e
    rw [e, hp] at hs
    have := hS.length_le
    have e2 := congrArg (fun x : Option (Nat × List Nat) => (x.map fun y => y.2.length)) hs
    simp at e2
    omega
  let G := (F.add (r, P)).dels [p]
  have hG : ∀ m x, m ≠ p → F.env.get m = some x → G.env.get m = some x := by
    intro m x hm hx
    show ((F.env.add (r, P)).dels [p]).get m = _
    rw [Env.get_dels, if_neg (by simpa using hm), Env.get_add _ _ (hl.get hx), hx]
  have hGq : G.env.get F.env.next = some (r, P) := by
    show ((F.env.add (r, P)).dels [p]).get F.env.next = _
    rw [Env.get_dels, if_neg (by simpa using Nat.ne_of_gt hpn), Env.get_add_self]
  have hGp : G.env.get p = none := by
    show ((F.env.add (r, P)).dels [p]).get p = _
    rw [Env.get_dels, if_pos (by simp)]
  have hGl : G.env.Low := (hl.add _).dels _
  have hlen : G.env.held.length ≤ F.env.held.length + 1 := by
    show ((F.env.add (r, P)).dels [p]).held.length ≤ _
    exact Nat.le_trans (List.length_filter_le ..) (Nat.le_refl _)
  have hr1 : Runs (some (F.env.held.length + 3)) (doSkip it.skipSubtree) F
      { it.skipSubtree with next := some (.leave F.env.next) } G := by
    simp only [doSkip, Walk.skipSubtree, hn]
    refine .bind (.nav_some hp nofun (P := P) ?_ fun n hn => ?_) (.bind (.drop (x := (r, P ++ [i])) ?_ fun n hn => ?_) (.pure _))
    · simp [Nav.target]
    · cases hn; omega
    · show (F.env.add (r, P)).get p = _
      rw [Env.get_add _ _ hpn, hp]
    · cases hn
      show (F.env.add (r, P)).held.length + 0 ≤ _
      simp only [Env.add, List.length_cons]; omega
  have hev := evNext_of_walk hu hw
  have hr2 := Runs.walkSucc (nodes := nodes) (N := some (F.env.held.length + 3)) (F := G) (e := .leave P) (p := F.env.next)
    (start := it.start) (r := r) (S := S) (hG _ _ hps hs) hGq hS hu ht (fun n hn => by cases hn; omega)
  have hr : Runs (some (F.env.held.length + 3)) (walkNext nodes it.skipSubtree) F
      (some (.leave F.env.next), it.after G l2.head?) (nextF G r l2.head?) := by
    simp only [walkNext, Walk.skipSubtree, if_true]
    refine .bind hr1 ?_
    simp only [walkMove]
    have hev' : evNext (visited nodes) (G.tree r) S (.leave P) = l2.head? := hev
    rw [hev'] at hr2
    cases hl2 : l2.head? with
    | none =>
      rw [hl2] at hr2
      exact .bind hr2 (.pure _)
    | some e' =>
      rw [hl2] at hr2
      exact .bind hr2 (.pure _)
  obtain ⟨w', s', lk', h1, h2, h3⟩ := h.runs hr (by omega)
  refine ⟨_, _, _, w', s', lk', h1, nextF_get hGl hGq _, ?_, h2, h3, rfl, rfl, (nextF_calm ..).1, (nextF_calm ..).2.1,
    fun m x hm hx => nextF_get hGl (hG m x hm hx) _, ?_⟩
  · cases l2.head? with
    | none => exact hGp
    | some e' =>
      refine (Env.get_add _ _ ?_).trans hGp
      show p < F.env.next + 1
      omega
  · cases l2 with
    | nil => rfl
    | cons e' l2 => exact ⟨G.env.next, rfl, Env.get_add_self _ _⟩

/-- **C69, `skip_subtree` can panic.**  After `skip_subtree()`, if the element that was about to be entered has no parent (it was
detached, or is the top of the tree where the walk began), `next` panics. -/
theorem C69_skip_panics (h : Tracks s gs lk F w) {it : Walk} {p : Nat} (hn : it.next = some (.enter p))
    (hp : F.env.get p = some (r, [])) (hb : F.env.held.length + 2 + lk.length < Cur.rcMax) :
    ∃ w' s' lk', (walkNext nodes it.skipSubtree).exec w s = .ok (.panic w') s' ∧ Tracks s' gs lk' F w' := by
  have e : (walkNext nodes it.skipSubtree).run F = .panic F := by
    simp only [walkNext, Walk.skipSubtree, if_true, doSkip, hn, bind_def, EProg.bind, nav, EProg.run, Req.on, hp, Nav.target]
    simp [Nav.onNodes]
  have hpk : (walkNext nodes it.skipSubtree).peak F ≤ F.env.held.length + 2 := by
    simp only [walkNext, Walk.skipSubtree, if_true, doSkip, hn, bind_def, EProg.bind, nav, EProg.peak, Req.on, hp, Nav.target]
    simp [Nav.onNodes, Req.cost, Req.lost]
  rcases C61_run _ h (by rw [e]; nofun) (by rw [e]; nofun) with ⟨-, h1⟩ | h1
  · omega
  · rw [e] at h1
    obtain ⟨w', s', lk', h1, h2, -⟩ := h1
    exact ⟨w', s', lk', h1, h2⟩

/-! ### Loops that do not disturb the walk -/

/-- **C69, immutable trees.**  A loop over the walk of an element of an immutable tree, whatever its body does (edit other trees,
drop handles, start other loops), sees exactly the whole depth-first walk, if it ends. -/
theorem C69_immutable (h : Tracks s gs lk F w) {n k : Nat} {body : WalkEvent Nat → Sight → EProg Unit}
    (hn : F.env.get n = some (r, S)) (hm : F.mutable r = false) (hu : F.sub (r, S) = some u)
    (hmis : (forWalk nodes body k n).run F ≠ .misuse) (hwild : (forWalk nodes body k n).run F ≠ .wild)
    {L : List (WalkEvent Sight)} {w' : Env Nat} {s' : HSt} (e : (forWalk nodes body k n).exec w s = .ok (.ok L w') s') :
    L.map (·.map some) = (Tree.walk (visited nodes) noSkip u S).map (·.map fun P => F.sight (r, P)) := by
  obtain ⟨F', lk', hr, -⟩ := h.ran hmis hwild e
  refine forWalk_calm (I := Forest.Keeps r (F.tree r) n S) (fun _ _ _ hG => hG.add _) (fun _ _ _ hG => hG.dels _) ?_ h.envLow
    ⟨(h.low hn).2, hm, rfl, (h.low hn).1, fun x hx => by rw [hn] at hx; cases hx; rfl⟩ hn hu hr
  intro ev o G G' hl hG hrun
  have hG' := hG.run _ (.inl ⟨_, hrun⟩)
  refine ⟨hG', hG'.tree.trans hG.tree.symm, hG'.mutb.trans hG.mutb.symm, fun q Q x hq hx => ?_⟩
  have k : G.Keeps r (G.tree r) q Q := ⟨hG.low, hG.mutb, rfl, hl.get hq, fun x hx => by rw [hq] at hx; cases hx; rfl⟩
  exact (k.run _ (.inl ⟨_, hrun⟩)).get x hx

/-- **C69, mutable trees.**  The same holds of a mutable tree, if the body only works on other trees.  `I` says what the body
relies on: it holds at the beginning, and handles of the loop that come and go do not matter. -/
theorem C69_undisturbed (h : Tracks s gs lk F w) {n k : Nat} {body : WalkEvent Nat → Sight → EProg Unit} {I : Forest → Prop}
    (hn : F.env.get n = some (r, S)) (hu : F.sub (r, S) = some u) (hI : I F)
    (hadd : ∀ G x, G.env.Low → I G → I (G.add x)) (hdel : ∀ G m, F.env.next ≤ m → I G → I (G.dels [m]))
    (hbody : ∀ ev o G G', G.env.Low → I G → (body ev o).run G = .ok ((), G') →
      I G' ∧ G'.tree r = G.tree r ∧ G'.mutable r = G.mutable r ∧
        ∀ m Q x, G.env.get m = some (r, Q) → G'.env.get m = some x → x = (r, Q))
    (hmis : (forWalk nodes body k n).run F ≠ .misuse) (hwild : (forWalk nodes body k n).run F ≠ .wild)
    {L : List (WalkEvent Sight)} {w' : Env Nat} {s' : HSt} (e : (forWalk nodes body k n).exec w s = .ok (.ok L w') s') :
    L.map (·.map some) = (Tree.walk (visited nodes) noSkip u S).map (·.map fun P => F.sight (r, P)) := by
  obtain ⟨F', lk', hr, -⟩ := h.ran hmis hwild e
  refine forWalk_calm hadd hdel ?_ h.envLow hI hn hu hr
  intro ev o G G' hl hG hrun
  obtain ⟨h1, h2, h3, h4⟩ := hbody ev o G G' hl hG hrun
  exact ⟨h1, h2, h3, h4⟩

/-! ### Loops that remove elements -/

/-- **C69, removing on the way up.**  `for ev in n.preorder_with_tokens() { if let Leave(x) = ev { if del(x) { x.detach() } } }`
in a mutable tree: the loop ends without a panic, enters everything in depth-first order as it was, leaves it without what was
removed below it, and in the end exactly what satisfies `del` is gone, from the bottom up (`Tree.prune`).  Other trees, the
handles outside, and the handles that are held are as before.  (The start itself must not satisfy `del` at the end, unless it is
the top of its tree, where `detach` does nothing.) -/
theorem C69_prune (h : Tracks s gs lk F w) {n k : Nat} {del : Tree → Bool} (hn : F.env.get n = some (r, S))
    (hm : F.mutable r = true) (ht : F.sub (r, S) = some t) (hS : S = [] ∨ del (t.prune (visited nodes) del) = false)
    (hk : (t.pruneSeen (visited nodes) del).length < k) (hb : F.env.held.length + 4 + lk.length < Cur.rcMax) :
    ∃ L F' w' s' lk', (forWalk nodes (pruneBody del) k n).exec w s = .ok (.ok L w') s' ∧ Tracks s' gs lk' F' w' ∧
      lk'.length ≤ lk.length ∧ L.map (·.map Sight.content) = t.pruneSeen (visited nodes) del ∧
      F'.tree r = (F.tree r).set S (t.prune (visited nodes) del) ∧
      F'.env.held.map Prod.fst = F.env.held.map Prod.fst ∧
      (∀ m, m < F.fresh → m ≠ r → F'.tree m = F.tree m) ∧ (∀ m, m < F.fresh → F'.mutable m = F.mutable m) ∧
      ∀ m x, F.env.get m = some x → ¬ (x.1 = r ∧ ∃ j R, x.2 = S ++ j :: R) → F'.env.get m = some x := by
  obtain ⟨L, F', h1, h2, h3, h4, h5, h6, h7⟩ := forWalk_prune (nodes := nodes) (del := del)
    (j := k - ((t.pruneSeen (visited nodes) del).length + 1)) h.envLow hn hm (h.low hn).2 ht hS
  rw [show (t.pruneSeen (visited nodes) del).length + 1 + (k - ((t.pruneSeen (visited nodes) del).length + 1)) = k by omega] at h1
  obtain ⟨w', s', lk', g1, g2, g3⟩ := h.runs h1 (by rw [← Env.length_held]; exact hb)
  exact ⟨L, F', w', s', lk', g1, g2, g3, h2, h3, h4, h5, h6, h7⟩

mutual
theorem Tree.prune_clean (nodes : Bool) (del : Tree → Bool) : ∀ (t : Tree) (P : List Nat) (e : WalkEvent (List Nat)),
    e ∈ Tree.walk (visited nodes) noSkip (t.prune (visited nodes) del) P →
    e.elem = P ∨ ∃ Q v, e.elem = P ++ Q ∧ (t.prune (visited nodes) del).at? Q = some v ∧ del v = false
  | .token k x, P, e, he => by
    rw [Tree.prune, Tree.walk] at he
    simp only [List.mem_cons, List.not_mem_nil, or_false] at he
    rcases he with rfl | rfl <;> exact .inl rfl
  | .node k cs, P, e, he => by
    rw [Tree.prune, Tree.walk] at he
    simp only [noSkip, Bool.false_eq_true, if_false, List.mem_cons, List.mem_append, List.not_mem_nil, or_false] at he
    rcases he with rfl | he | rfl
    · exact .inl rfl
    · obtain ⟨i, Q, c, v, h1, h2, h3, h4⟩ := Tree.prunes_clean nodes del cs P 0 e he
      refine .inr ⟨i :: Q, v, by simpa using h1, ?_, h4⟩
      rw [Tree.prune, Tree.at?_cons]
      simp only [Tree.children, h2, Option.bind_some]
      exact h3
    · exact .inl rfl
theorem Tree.prunes_clean (nodes : Bool) (del : Tree → Bool) : ∀ (cs : List Tree) (P : List Nat) (j : Nat) (e : WalkEvent (List Nat)),
    e ∈ Tree.walks (visited nodes) noSkip (Tree.prunes (visited nodes) del cs) P j →
    ∃ i Q c v, e.elem = P ++ (j + i) :: Q ∧ (Tree.prunes (visited nodes) del cs)[i]? = some c ∧ c.at? Q = some v ∧ del v = false
  | [], P, j, e, he => by rw [Tree.prunes, Tree.walks] at he; cases he
  | c :: cs, P, j, e, he => by
    have tail : ∀ d, e ∈ Tree.walks (visited nodes) noSkip (Tree.prunes (visited nodes) del cs) P (j + 1) →
        ∃ i Q c v, e.elem = P ++ (j + i) :: Q ∧ (d :: Tree.prunes (visited nodes) del cs)[i]? = some c ∧ c.at? Q = some v ∧
          del v = false := by
      intro d he
      obtain ⟨i, Q, c', v, h1, h2, h3, h4⟩ := Tree.prunes_clean nodes del cs P (j + 1) e he
      exact ⟨i + 1, Q, c', v, by rw [h1]; congr 2; omega, by simpa using h2, h3, h4⟩
    rw [Tree.prunes] at he ⊢
    split at he
    next hc =>
      split at he
      next hd =>
        rw [if_pos hc, if_pos hd]
        exact Tree.prunes_clean nodes del cs P j e he
      next hd =>
        rw [if_pos hc, if_neg hd]
        rw [Tree.walks] at he
        rcases List.mem_append.mp he with he | he
        · split at he
          · rcases Tree.prune_clean nodes del c (P ++ [j]) e he with h1 | ⟨Q, v, h1, h2, h3⟩
            · exact ⟨0, [], _, _, by simpa using h1, rfl, rfl, by simpa using hd⟩
            · exact ⟨0, Q, _, v, by simpa using h1, rfl, h2, h3⟩
          · cases he
        · exact tail _ he
    next hc =>
      rw [if_neg hc]
      rw [Tree.walks, if_neg hc] at he
      exact tail _ (by simpa using he)
end

/-- **C69, nothing is overlooked.**  After the loop of `C69_prune`, no element that a new walk would find below the start satisfies
`del`. -/
theorem C69_prune_clean (del : Tree → Bool) (t : Tree) (e : WalkEvent (List Nat))
    (he : e ∈ Tree.walk (visited nodes) noSkip (t.prune (visited nodes) del) []) (hne : e.elem ≠ []) :
    ∃ v, (t.prune (visited nodes) del).at? e.elem = some v ∧ del v = false := by
  rcases Tree.prune_clean nodes del t [] e he with h | ⟨Q, v, h1, h2, h3⟩
  · exact absurd h hne
  · exact ⟨v, by rw [h1]; exact h2, h3⟩

/-- **C69, removing all children.**  `while let Some(c) = n.first_child_or_token() { c.detach() }` in a mutable tree ends, and
leaves the node without children; other trees, the handles outside, and the handles that are held are as before. -/
theorem C69_clear (h : Tracks s gs lk F w) {n k : Nat} {kd : SyntaxKind} {cs : List Tree} (hn : F.env.get n = some (r, S))
    (hm : F.mutable r = true) (ht : F.sub (r, S) = some (.node kd cs)) (hk : cs.length < k)
    (hb : F.env.held.length + 2 + lk.length < Cur.rcMax) :
    ∃ F' w' s' lk', (clear k n).exec w s = .ok (.ok () w') s' ∧ Tracks s' gs lk' F' w' ∧ lk'.length ≤ lk.length ∧
      F'.tree r = (F.tree r).set S (.node kd []) ∧ F'.env.held.map Prod.fst = F.env.held.map Prod.fst ∧
      (∀ m, m < F.fresh → m ≠ r → F'.tree m = F.tree m) ∧ (∀ m, m < F.fresh → F'.mutable m = F.mutable m) ∧
      ∀ m x, F.env.get m = some x → ¬ (x.1 = r ∧ ∃ j R, x.2 = S ++ j :: R) → F'.env.get m = some x := by
  obtain ⟨F', h1, h3, h4, h5, h6, h7⟩ := clear_runs cs (j := k - (cs.length + 1)) h.envLow hn hm (h.low hn).2 ht
  rw [show cs.length + 1 + (k - (cs.length + 1)) = k by omega] at h1
  obtain ⟨w', s', lk', g1, g2, g3⟩ := h.runs h1 (by rw [← Env.length_held]; exact hb)
  exact ⟨F', w', s', lk', g1, g2, g3, h3, h4, h5, h6, h7⟩

/-! ### Concrete cases -/

/-- Two mutable trees (handles 0 and 1), an immutable one (handle 2), and the node `4` of the second tree (handle 3). -/
def demoWalkSetup : EProg Unit := do
  let _ ← Prog.ask (.plant true 1 [.token 2 ['a'], .node 3 [.token 2 ['b'], .node 3 [], .token 4 ['c']], .node 5 [.token 2 ['d']]])
  let b ← Prog.ask (.plant true 6 [.token 2 ['x'], .node 4 [.token 2 ['y']]])
  let _ ← Prog.ask (.plant false 1 [.node 3 [.token 2 ['b']], .token 4 ['c']])
  let _ ← Prog.ask (.nav .firstChild b)
  pure ()

def demoWalkForest : Forest :=
  match demoWalkSetup.run Forest.empty with
  | .ok (_, F) => F
  | _ => Forest.empty

theorem demoWalkForest_tracks : ∃ w s, Tracks s [] [] demoWalkForest w := by
  cases hr : demoWalkSetup.run Forest.empty with
  | ok o =>
    obtain ⟨a, F'⟩ := o
    obtain ⟨w', s', l, -, h, hl⟩ := C61_no_abort demoWalkSetup (C61_init 0 0) (by decide +kernel) hr
    have h0 : demoWalkSetup.lost Forest.empty = 0 := by decide +kernel
    have : l = [] := List.eq_nil_of_length_eq_zero (by simpa [h0] using hl)
    subst this
    have : demoWalkForest = F' := by rw [demoWalkForest, hr]
    rw [this]
    exact ⟨w', s', h⟩
  | _ =>
    have : (demoWalkSetup.run Forest.empty).result = some () := by decide +kernel
    rw [hr] at this; cases this

def demoWalkTree : Tree :=
  .node 1 [.token 2 ['a'], .node 3 [.token 2 ['b'], .node 3 [], .token 4 ['c']], .node 5 [.token 2 ['d']]]

theorem demoWalkForest_facts : demoWalkForest.env.get 0 = some (0, []) ∧ demoWalkForest.env.get 1 = some (1, []) ∧
    demoWalkForest.env.get 2 = some (2, []) ∧ demoWalkForest.env.get 3 = some (1, [1]) ∧
    demoWalkForest.mutable 0 = true ∧ demoWalkForest.mutable 1 = true ∧ demoWalkForest.mutable 2 = false ∧
    demoWalkForest.sub (0, []) = some demoWalkTree ∧ demoWalkForest.env.held.length = 4 ∧ demoWalkForest.env.next = 4 ∧
    demoWalkForest.sub (2, []) = some (.node 1 [.node 3 [.token 2 ['b']], .token 4 ['c']]) ∧
    demoWalkForest.sub (1, []) = some (.node 6 [.token 2 ['x'], .node 4 [.token 2 ['y']]]) := by decide +kernel

/-- What has no text goes. -/
def demoDel (t : Tree) : Bool := decide (t.text = [] ∨ t.kind = 2)

/-- All tokens of kind 2 go, and then the nodes in which nothing is left: of `a [b [] c] [d]` this leaves `[c]`. -/
theorem demoWalk_prune : demoWalkTree.prune (visited false) demoDel = .node 1 [.node 3 [.token 4 ['c']]] := by decide +kernel

/-- `C69_prune` applies to the whole first tree, and removes tokens and nodes. -/
example {s : HSt} {w : Env Nat} (h : Tracks s [] [] demoWalkForest w) := by
  obtain ⟨h0, -, -, -, hm, -, -, ht, hlen, -⟩ := demoWalkForest_facts
  exact C69_prune (nodes := false) (k := 50) (del := demoDel) h h0 hm ht (.inl rfl) (by decide +kernel) (by rw [hlen]; decide)

/-- The loop on the heap, run directly. -/
example : (match (demoWalkSetup >>= fun _ => forWalk false (pruneBody demoDel) 50 0 >>= fun _ => see 0).exec ⟨0, []⟩
      { HSt.empty 0 with slack := 0 } with
    | .ok (.ok o _) _ => decide (o.content = .node 1 [.node 3 [.token 4 ['c']]])
    | _ => false) = true := by decide +kernel

/-- `C69_clear` applies to a node inside. -/
example {s : HSt} {w : Env Nat} (h : Tracks s [] [] demoWalkForest w) := by
  obtain ⟨-, h1, -, -, -, hm, -, -, hlen, -, -, ht⟩ := demoWalkForest_facts
  exact C69_clear (k := 7) h h1 hm ht (by decide) (by rw [hlen]; decide)

/-- A body that edits the second tree: it detaches the node `4`. -/
def demoWalkBody (_ : WalkEvent Nat) (_ : Sight) : EProg Unit := detach 3

/-- `C69_immutable` applies to the third tree. -/
example {s : HSt} {w : Env Nat} (h : Tracks s [] [] demoWalkForest w) {L : List (WalkEvent Sight)} {w' : Env Nat} {s' : HSt}
    (e : (forWalk false demoWalkBody 50 2).exec w s = .ok (.ok L w') s') := by
  obtain ⟨-, -, h2, -, -, -, hm, -, -, -, ht, -⟩ := demoWalkForest_facts
  have hr : ((forWalk false demoWalkBody 50 2).run demoWalkForest).word = "ok" := by decide +kernel
  exact C69_immutable h h2 hm ht (fun hx => by rw [hx] at hr; simp [FOut.word] at hr)
    (fun hx => by rw [hx] at hr; simp [FOut.word] at hr) e

/-- `C69_undisturbed` applies to the first tree: handle 3 stays out of it. -/
example {s : HSt} {w : Env Nat} (h : Tracks s [] [] demoWalkForest w) {L : List (WalkEvent Sight)} {w' : Env Nat} {s' : HSt}
    (e : (forWalk false demoWalkBody 50 0).exec w s = .ok (.ok L w') s') := by
  obtain ⟨h0, -, -, h3, -, -, -, ht, -, hnext, -⟩ := demoWalkForest_facts
  have hr : ((forWalk false demoWalkBody 50 0).run demoWalkForest).word = "ok" := by decide +kernel
  refine C69_undisturbed h (I := fun G => 0 < G.fresh ∧ 3 < G.env.next ∧ ∃ n P, G.env.get 3 = some (n, P) ∧ n ≠ 0) h0 ht
    ⟨(h.low h0).2, by omega, 1, [1], h3, by decide⟩ ?_ ?_ ?_ (fun hx => by rw [hx] at hr; simp [FOut.word] at hr)
    (fun hx => by rw [hx] at hr; simp [FOut.word] at hr) e
  · rintro G x hl ⟨g1, g2, n, P, g3, g4⟩
    exact ⟨g1, Nat.lt_succ_of_lt g2, n, P, (Env.get_add _ _ g2).trans g3, g4⟩
  · rintro G m hm ⟨g1, g2, n, P, g3, g4⟩
    refine ⟨g1, g2, n, P, ?_, g4⟩
    show (G.env.dels [m]).get 3 = _
    rw [Env.get_dels, if_neg (by simp; omega), g3]
  · rintro ev o G G' hl ⟨g1, g2, n, P, g3, g4⟩ hrun
    simp only [demoWalkBody, detach, EProg.run, Req.on, g3] at hrun
    by_cases hmut : G.mutable n = true
    · simp only [hmut, if_true] at hrun
      cases hrun
      rw [Forest.cut]
      split
      · exact ⟨⟨g1, g2, n, P, g3, g4⟩, rfl, rfl, fun m Q x a b => by rw [a] at b; cases b; rfl⟩
      next i hi =>
        have hf : (0 : Nat) ≠ G.fresh := by omega
        have hget : ∀ m, (G.cutAt n P.dropLast i).env.get m = (G.env.get m).map fun x => cutLoc n G.fresh P.dropLast i x.1 x.2 :=
          fun m => Env.get_map ..
        refine ⟨⟨Nat.succ_pos _, g2, (cutLoc n G.fresh P.dropLast i n P).1, (cutLoc n G.fresh P.dropLast i n P).2,
          by rw [hget, g3]; rfl, ?_⟩, ?_, ?_, ?_⟩
        · rw [cutLoc, if_pos rfl]
          split <;> simp <;> omega
        · show (if (0 : Nat) = G.fresh then _ else if 0 = n then _ else G.tree 0) = _
          rw [if_neg hf, if_neg (by omega)]
        · show (if (0 : Nat) = G.fresh then _ else G.mutable 0) = _
          rw [if_neg hf]
        · intro m Q x a b
          rw [hget, a, Option.map_some, cutLoc, if_neg (by simpa using (Ne.symm g4))] at b
          cases b; rfl
    · simp only [hmut] at hrun
      cases hrun

/-- These loops succeed on the heap. -/
example : (match (demoWalkSetup >>= fun _ => forWalk false demoWalkBody 50 0 >>= fun a => forWalk true demoWalkBody 50 2 >>= fun b =>
      pure (a.length, b.length)).exec ⟨0, []⟩ { HSt.empty 0 with slack := 0 } with
    | .ok (.ok o _) _ => decide (o = (16, 4))
    | _ => false) = true := by decide +kernel

/-- A walk over the first tree, after three calls of `next`; then the token `a`, which was left, is detached (`back`), or the node
`3`, which is about to be entered. -/
def demoWalkMid (back : Bool) : EProg Walk := do
  demoWalkSetup
  let c ← Prog.ask (.nav .firstChild 0)
  let it ← walk 0
  let (_, it) ← walkNext false it
  let (ev, it) ← walkNext false it
  let (_, it) ← walkNext false it
  match ev with
  | some (.enter a) => detach (if back then a else c)
  | _ => .panic
  pure it

def demoMidForest (back : Bool) : Forest :=
  match (demoWalkMid back).run Forest.empty with
  | .ok (_, F) => F
  | _ => Forest.empty

def demoMidWalk : Walk := { start := 5, next := some (.enter 9) }

theorem demoMid_run (back : Bool) : ∃ F, (demoWalkMid back).run Forest.empty = .ok (demoMidWalk, F) := by
  have h : (match (demoWalkMid back).run Forest.empty with
    | .ok (it, _) => decide (it.start = 5 ∧ it.next = some (.enter 9) ∧ it.skip = false)
    | _ => false) = true := by revert back; decide +kernel
  cases hr : (demoWalkMid back).run Forest.empty with
  | ok o =>
    rw [hr] at h
    obtain ⟨⟨a, b, c⟩, F⟩ := o
    obtain ⟨rfl, rfl, rfl⟩ := of_decide_eq_true h
    exact ⟨F, rfl⟩
  | _ => rw [hr] at h; cases h

theorem demoMid_tracks (back : Bool) : ∃ w s, Tracks s [] [] (demoMidForest back) w := by
  obtain ⟨F', hr⟩ := demoMid_run back
  have hp : ∀ b, (demoWalkMid b).peak Forest.empty + 0 < Cur.rcMax := by decide +kernel
  have h0 : ∀ b, (demoWalkMid b).lost Forest.empty = 0 := by decide +kernel
  obtain ⟨w', s', l, -, h, hl⟩ := C61_no_abort _ (C61_init 0 0) (hp back) hr
  have : l = [] := List.eq_nil_of_length_eq_zero (by simpa [h0] using hl)
  subst this
  have : demoMidForest back = F' := by rw [demoMidForest, hr]
  rw [this]
  exact ⟨w', s', h⟩

theorem demoMid_facts : (demoMidForest true).env.get 5 = some (0, []) ∧ (demoMidForest true).env.get 9 = some (0, [] ++ [0]) ∧
    (demoMidForest true).sub (0, []) =
      some (.node 1 [.node 3 [.token 2 ['b'], .node 3 [], .token 4 ['c']], .node 5 [.token 2 ['d']]]) ∧
    (demoMidForest true).env.held.length = 10 ∧ (demoMidForest false).env.get 9 = some (3, []) ∧
    (demoMidForest false).env.held.length = 10 := by decide +kernel

/-- `C69_new` applies. -/
example {s : HSt} {w : Env Nat} (h : Tracks s [] [] demoWalkForest w) := by
  obtain ⟨-, -, -, h3, -, -, -, -, hlen, -⟩ := demoWalkForest_facts
  exact C69_new h h3 (by rw [hlen]; decide)

/-- `C69_next` applies after the edit: the node `3` is now the first child, and its first token is next. -/
example {s : HSt} {w : Env Nat} (h : Tracks s [] [] (demoMidForest true) w) := by
  obtain ⟨h1, h2, h3, hlen, -⟩ := demoMid_facts
  exact C69_next (nodes := false) (it := demoMidWalk) (e := .enter [0]) (l1 := [.enter []])
    (l2 := .enter [0, 0] :: .leave [0, 0] :: .enter [0, 1] :: .leave [0, 1] :: .enter [0, 2] :: .leave [0, 2] :: .leave [0] ::
      .enter [1] :: .enter [1, 0] :: .leave [1, 0] :: .leave [1] :: [.leave []])
    h rfl rfl h1 h2 h3 (by decide) (by rw [hlen]; decide)

/-- `C69_skip` applies: the root is left. -/
example {s : HSt} {w : Env Nat} (h : Tracks s [] [] (demoMidForest true) w) := by
  obtain ⟨h1, h2, h3, hlen, -⟩ := demoMid_facts
  exact C69_skip (nodes := false) (it := demoMidWalk) (P := []) (i := 0)
    (l1 := .enter [] :: .enter [0] :: .enter [0, 0] :: .leave [0, 0] :: .enter [0, 1] :: .leave [0, 1] :: .enter [0, 2] ::
      .leave [0, 2] :: .leave [0] :: .enter [1] :: .enter [1, 0] :: .leave [1, 0] :: [.leave [1]])
    (l2 := []) h rfl h1 h2 h3 (by decide) (by rw [hlen]; decide)

/-- `C69_skip_panics` applies when the node `3` was detached. -/
example {s : HSt} {w : Env Nat} (h : Tracks s [] [] (demoMidForest false) w) := by
  obtain ⟨-, -, -, -, h2, hlen⟩ := demoMid_facts
  exact C69_skip_panics (nodes := false) (it := demoMidWalk) h rfl h2 (by rw [hlen]; decide)

/-- `C69_end` applies to a walk that is over. -/
example {s : HSt} {w : Env Nat} (h : Tracks s [] [] demoWalkForest w) :=
  C69_end (nodes := true) (it := { start := 0, next := none }) h rfl rfl (by decide)

/-- `C69_prune_clean` speaks about the node `3` and the token `c` in what is left of the first tree. -/
example := C69_prune_clean (nodes := false) demoDel demoWalkTree (.leave [0, 0])
  (by rw [demoWalk_prune]; decide) (by decide)

/-! ### Removing on the way down -/

/-- **C69, removing on the way down loses elements.**  If the loop detaches an element when it *enters* it, the walk goes on
inside the element that was cut off, and ends with it: what follows in the tree is not visited.  Of the tree `a [b [] c] [d]` the
second child is removed, as asked for, and the third is never seen; with `Leave` instead of `Enter` it is. -/
theorem C69_enter_loses : ∃ (p : EProg Unit) (n : Nat) (F' : Forest), p.run Forest.empty = .ok ((), F') ∧
    F'.env.get n = some (0, []) ∧ F'.mutable 0 = true ∧ F'.tree 0 = demoWalkTree ∧
    ∃ (w w' : Env Nat) (s s' : HSt) (L : List (WalkEvent Sight)), Tracks s [] [] F' w ∧
      (forWalk false (enterBody fun t => t.kind == 3) 50 n).exec w s = .ok (.ok L w') s' ∧
      .enter [2] ∈ Tree.walk (visited false) noSkip demoWalkTree [] ∧
      (demoWalkTree.at? [2]).map Tree.kind = some 5 ∧ (∀ ev ∈ L, ev.elem.kind ≠ 5) ∧
      ∃ F2 lk', Tracks s' [] lk' F2 w' ∧ F2.env.get n = some (0, []) ∧ F2.tree 0 = demoWalkTree.removeAt [] 1 := by
  obtain ⟨w, s, h⟩ := demoWalkForest_tracks
  obtain ⟨h0, -, -, -, hm, -, -, ht, -⟩ := demoWalkForest_facts
  have hs : ∃ F', demoWalkSetup.run Forest.empty = .ok ((), F') := by
    have : (demoWalkSetup.run Forest.empty).word = "ok" := by decide +kernel
    cases hr : demoWalkSetup.run Forest.empty with
    | ok o => exact ⟨o.2, rfl⟩
    | _ => rw [hr] at this; simp [FOut.word] at this
  obtain ⟨F', hs⟩ := hs
  have hF : demoWalkForest = F' := by rw [demoWalkForest, hs]
  have hk : (match (forWalk false (enterBody fun t => t.kind == 3) 50 0).run demoWalkForest with
      | .ok (L, F2) => (L.all fun ev => decide (ev.elem.kind ≠ 5)) &&
          decide (F2.env.get 0 = some (0, []) ∧ F2.tree 0 = demoWalkTree.removeAt [] 1)
      | _ => false) = true := by decide +kernel
  cases hr : (forWalk false (enterBody fun t => t.kind == 3) 50 0).run demoWalkForest with
  | ok o =>
    obtain ⟨L, F2⟩ := o
    rw [hr] at hk
    obtain ⟨hk, hk2⟩ := Bool.and_eq_true_iff.mp hk
    obtain ⟨w', s', lk', h1, h2, -⟩ := C61_no_abort _ h (by decide +kernel) hr
    refine ⟨demoWalkSetup, 0, F', hs, hF ▸ h0, hF ▸ hm, ?_, w, w', s, s', L, hF ▸ h, h1, by decide, by decide, fun ev hev => ?_,
      F2, lk', h2, of_decide_eq_true hk2⟩
    · have : demoWalkForest.sub (0, []) = some demoWalkTree := ht
      rw [← hF]
      simpa [Forest.sub] using this
    · have := List.all_eq_true.mp hk ev hev
      simpa using this
  | _ => rw [hr] at hk; cases hk

end Rowan
