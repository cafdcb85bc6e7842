import Verif.DetachKids
import Verif.Props.EditWalk
/-!
# C70: the order in which elements are detached cannot be observed

A program collects handles on elements first and detaches all of them afterwards (`detachAll`, `Verif/DetachAll.lean`).  The
elements may be anywhere, one below the other, roots, the same element twice.  Trees, positions and handles are those of the
forest for which the heap stands (`Tracks`, C61); what is left of a tree is `Tree.without`, and where an element is then is
`Tree.shift` (`Verif/Spec/Detach.lean`).
-/
namespace Rowan
open EProg
variable {s : HSt} {gs : List GElem} {lk : List Nat} {F : Forest} {w : Env Nat} {hs hs' : List Nat}

/-- **C70.**  When the handles `hs` denote elements of mutable trees, detaching them succeeds, in whatever order; and for what is
left after one order and what is left after another one, the same forest stands: no program, observing the one and the other, can
see a difference (`C61_only_the_forest`). -/
theorem C70_order (h : Tracks s gs lk F w) (hp : hs.Perm hs')
    (hm : ∀ m ∈ hs, ∃ x, F.env.get m = some x ∧ F.mutable x.1 = true) (hb : F.env.held.length + lk.length < Cur.rcMax) :
    ∃ G w1 s1 l1 w2 s2 l2, (detachAll hs).exec w s = .ok (.ok () w1) s1 ∧ (detachAll hs').exec w s = .ok (.ok () w2) s2 ∧
      Tracks s1 gs l1 G w1 ∧ Tracks s2 gs l2 G w2 := by
  obtain ⟨w1, s1, l1, a1, a2, -⟩ := h.runs (Runs.detachAll h.sound hm) hb
  obtain ⟨w2, s2, l2, b1, b2, -⟩ := h.runs (Runs.detachAll (hs := hs') h.sound fun m h' => hm m (hp.mem_iff.mpr h')) hb
  exact ⟨_, w1, s1, l1, w2, s2, l2, a1, b1, a2, b2.like (Forest.cuts_perm hp.symm h.sound)⟩

/-- **C70, as observed by a program.**  A program that detaches the elements in one order and goes on with `p`, and one that
detaches them in another order and goes on with `p`, have the same outcome: the same value, or a panic both. -/
theorem C70_unobservable {α : Type} (p : EProg α) (h : Tracks s gs lk F w) (hp : hs.Perm hs')
    (hm : ∀ m ∈ hs, ∃ x, F.env.get m = some x ∧ F.mutable x.1 = true) (hb : F.env.held.length + lk.length < Cur.rcMax)
    (hu : (detachAll hs >>= fun _ => p).run F ≠ .misuse) (hw : (detachAll hs >>= fun _ => p).run F ≠ .wild) {o o' : EOut α}
    {s' t' : HSt} (e1 : (detachAll hs >>= fun _ => p).exec w s = .ok o s')
    (e2 : (detachAll hs' >>= fun _ => p).exec w s = .ok o' t') :
    match o, o' with
    | .ok a w', .ok b u' => a = b ∧ ∃ F' l l', Tracks s' gs l F' w' ∧ Tracks t' gs l' F' u'
    | .panic w', .panic u' => (detachAll hs >>= fun _ => p).run F = .broken ∨
        ∃ F' l l', Tracks s' gs l F' w' ∧ Tracks t' gs l' F' u'
    | _, _ => False := by
  have hr := Runs.detachAll h.sound hm
  obtain ⟨w1, s1, l1, a1, a2, -⟩ := h.runs hr hb
  obtain ⟨w2, s2, l2, b1, b2, -⟩ := h.runs (Runs.detachAll (hs := hs') h.sound fun m h' => hm m (hp.mem_iff.mpr h')) hb
  have b2 := b2.like (Forest.cuts_perm hp.symm h.sound)
  rw [exec_bind _ _ a1] at e1
  rw [exec_bind _ _ b1] at e2
  have hrun : (detachAll hs >>= fun _ => p).run F = p.run (F.cuts hs) := by
    exact (run_bind _ _ hr.run).1
  rw [hrun] at hu hw ⊢
  have := C61_only_the_forest p a2 b2 hu hw e1 e2
  cases o <;> cases o' <;> exact this

/-- **C70, immutable trees.**  When one of the elements is in an immutable tree, every order panics. -/
theorem C70_refused (h : Tracks s gs lk F w) (hh : ∀ m ∈ hs, (F.env.get m).isSome)
    (hm : ∃ m ∈ hs, ∃ x, F.env.get m = some x ∧ F.mutable x.1 = false) (hb : F.env.held.length + lk.length < Cur.rcMax) :
    ∃ F' w' s' lk', (detachAll hs).exec w s = .ok (.panic w') s' ∧ Tracks s' gs lk' F' w' := by
  obtain ⟨F', h1, h2⟩ := detachAll_refused h.sound hh fun hf => by
    obtain ⟨m, h1, x, h2, h3⟩ := hm
    obtain ⟨y, h4, h5⟩ := hf m h1
    rw [h2] at h4
    cases h4
    rw [h3] at h5; cases h5
  rcases C61_run (detachAll hs) h (by rw [h1]; nofun) (by rw [h1]; nofun) with ⟨-, h3⟩ | h3
  · omega
  · rw [h1] at h3
    obtain ⟨w', s', lk', h3, h4, -⟩ := h3
    exact ⟨F', w', s', lk', h3, h4⟩

/-- **C70, what is left.**  After all of `hs` have been detached, in whatever order: every element that a handle denotes, a
detached one or another one, has the content that it had, without those of the detached elements that were below it; a detached
element is the root of its tree; elements that were different are different; and an element that was below another one, at the
position `D`, with no detached element on the way, is below it still, each index less by the number of earlier siblings that
have gone. -/
theorem C70_result (h : Tracks s gs lk F w) (hm : ∀ m ∈ hs, ∃ x, F.env.get m = some x ∧ F.mutable x.1 = true)
    (hb : F.env.held.length + lk.length < Cur.rcMax) :
    ∃ G w1 s1 l1, (detachAll hs).exec w s = .ok (.ok () w1) s1 ∧ Tracks s1 gs l1 G w1 ∧
      (∀ m r P u, F.env.get m = some (r, P) → F.sub (r, P) = some u → ∃ z, G.env.get m = some z ∧
        G.sub z = some (u.without fun D => F.picked hs (r, P ++ D)) ∧ G.mutable z.1 = F.mutable r ∧ (m ∈ hs → z.2 = [])) ∧
      (∀ m m' r P D D', F.env.get m = some (r, P) → F.env.get m' = some (r, P ++ D) →
        Tree.shift (fun E => F.picked hs (r, P ++ E)) D = some D' →
        ∃ z, G.env.get m = some z ∧ G.env.get m' = some (z.1, z.2 ++ D')) ∧
      (∀ m m' x y, F.env.get m = some x → F.env.get m' = some y → G.env.get m = G.env.get m' → x = y) ∧
      G.env.held.map Prod.fst = F.env.held.map Prod.fst := by
  obtain ⟨w1, s1, l1, a1, a2, -⟩ := h.runs (Runs.detachAll h.sound hm) hb
  refine ⟨_, w1, s1, l1, a1, a2, ?_, ?_, ?_, Forest.ids_cuts F hs⟩
  · intro m r P u h1 h2
    obtain ⟨z, h3, h4, h5⟩ := Forest.cuts_sub (hs := hs) h.sound h1 h2
    obtain ⟨z', h6, h7⟩ := Forest.cuts_mutable (hs := hs) h.sound h1
    rw [h3] at h6
    cases h6
    exact ⟨z, h3, h4, h7, h5⟩
  · exact fun m m' r P D D' h1 h2 h3 => Forest.cuts_shift h.sound h1 h2 h3
  · exact fun m m' x y h1 h2 h3 => Forest.cuts_inj h.sound h1 h2 h3

/-- **C70, collecting children and detaching them.**  `q.children().filter(sel).collect()` (`nodes`), or the same with
`children_with_tokens()`, and then `detach()` on each, on a node of a mutable tree: this ends, and leaves the node with those of
its children that were not selected, in order.  Other trees, handles that are not below the node, and the handles that are held
are as before.  A handle in a child that stays is where it was in that child; a handle in a child that goes is where it was in that
child, which is a tree of its own, mutable, with the content it had. -/
theorem C70_children (nodes : Bool) (sel : Tree → Bool) (h : Tracks s gs lk F w) {q r k : Nat} {P : List Nat} {kd : SyntaxKind}
    {cs : List Tree} (hq : F.env.get q = some (r, P)) (hm : F.mutable r = true) (ht : F.sub (r, P) = some (.node kd cs))
    (hk : (cs.filter (visited nodes)).length ≤ k) (hb : F.env.held.length + cs.length + 4 + lk.length < Cur.rcMax) :
    ∃ F' w' s' lk', (detachKids nodes sel k q).exec w s = .ok (.ok () w') s' ∧ Tracks s' gs lk' F' w' ∧ lk'.length ≤ lk.length ∧
      F'.tree r = (F.tree r).set P (.node kd (cs.filter fun c => !(visited nodes c && sel c))) ∧
      F'.env.held.map Prod.fst = F.env.held.map Prod.fst ∧
      (∀ n, n < F.fresh → n ≠ r → F'.tree n = F.tree n) ∧ (∀ n, n < F.fresh → F'.mutable n = F.mutable n) ∧
      (∀ m x, F.env.get m = some x → ¬ (x.1 = r ∧ ∃ j R, x.2 = P ++ j :: R) → F'.env.get m = some x) ∧
      (∀ m i c R, F.env.get m = some (r, P ++ i :: R) → cs[i]? = some c → (visited nodes c && sel c) = false →
        F'.env.get m = some (r, P ++ ((cs.take i).countP fun c => !(visited nodes c && sel c)) :: R)) ∧
      (∀ m i c R, F.env.get m = some (r, P ++ i :: R) → cs[i]? = some c → (visited nodes c && sel c) = true →
        ∃ n, F'.env.get m = some (n, R) ∧ F'.tree n = c ∧ F'.mutable n = true) := by
  obtain ⟨F', h1, h2⟩ := detachKids_runs (nodes := nodes) (sel := sel) h.sound h.envLow hq hm ht hk
  obtain ⟨w', s', lk', g1, g2, g3⟩ := h.runs h1 (by rw [← Env.length_held]; exact hb)
  exact ⟨F', w', s', lk', g1, g2, g3, h2⟩

/-! ### Concrete cases -/

/-- A mutable tree (handle 0), its node `3` (handle 1), the token `b` in that (handle 2) and the last node (handle 3); an
immutable tree (handle 4). -/
def demoDetachSetup : EProg Unit := do
  let a ← Prog.ask (.plant true 1 [.token 2 ['a'], .node 3 [.token 2 ['b'], .token 4 ['c']], .node 5 [.token 2 ['d']]])
  let b ← Prog.ask (.nav .firstChild a)
  let _ ← Prog.ask (.nav .firstChildOrToken b)
  let _ ← Prog.ask (.nav .nextSibling b)
  let _ ← Prog.ask (.plant false 1 [.node 3 [.token 2 ['b']], .token 4 ['c']])
  pure ()

def demoDetachForest : Forest :=
  match demoDetachSetup.run Forest.empty with
  | .ok (_, F) => F
  | _ => Forest.empty

theorem demoDetachForest_tracks : ∃ w s, Tracks s [] [] demoDetachForest w := by
  cases hr : demoDetachSetup.run Forest.empty with
  | ok o =>
    obtain ⟨a, F'⟩ := o
    obtain ⟨w', s', l, -, h, hl⟩ := C61_no_abort demoDetachSetup (C61_init 0 0) (by decide +kernel) hr
    have h0 : demoDetachSetup.lost Forest.empty = 0 := by decide +kernel
    have : l = [] := List.eq_nil_of_length_eq_zero (by simpa [h0] using hl)
    subst this
    have : demoDetachForest = F' := by rw [demoDetachForest, hr]
    rw [this]
    exact ⟨w', s', h⟩
  | _ =>
    have : (demoDetachSetup.run Forest.empty).result = some () := by decide +kernel
    rw [hr] at this; cases this

theorem demoDetachForest_facts : demoDetachForest.env.get 0 = some (0, []) ∧ demoDetachForest.env.get 1 = some (0, [1]) ∧
    demoDetachForest.env.get 2 = some (0, [1, 0]) ∧ demoDetachForest.env.get 3 = some (0, [2]) ∧
    demoDetachForest.env.get 4 = some (1, []) ∧ demoDetachForest.mutable 0 = true ∧ demoDetachForest.mutable 1 = false ∧
    demoDetachForest.env.held.length = 5 := by decide +kernel

theorem demoDetach_free : ∀ m ∈ [1, 2, 1, 0], ∃ x, demoDetachForest.env.get m = some x ∧ demoDetachForest.mutable x.1 = true := by
  obtain ⟨h0, h1, h2, h3, -, hm, -⟩ := demoDetachForest_facts
  intro m hm'
  simp only [List.mem_cons, List.not_mem_nil, or_false] at hm'
  rcases hm' with rfl | rfl | rfl | rfl
  · exact ⟨_, h1, hm⟩
  · exact ⟨_, h2, hm⟩
  · exact ⟨_, h1, hm⟩
  · exact ⟨_, h0, hm⟩

/-- `C70_order` and `C70_result` apply to a node, a token in it, the node again, and the root. -/
example {s : HSt} {w : Env Nat} (h : Tracks s [] [] demoDetachForest w) :=
  C70_order (hs' := [2, 0, 1, 1]) h (by decide) demoDetach_free (by rw [demoDetachForest_facts.2.2.2.2.2.2.2]; decide)
example {s : HSt} {w : Env Nat} (h : Tracks s [] [] demoDetachForest w) :=
  C70_result h demoDetach_free (by rw [demoDetachForest_facts.2.2.2.2.2.2.2]; decide)

/-- `C70_unobservable` applies to a program that looks at what is left of the root. -/
example {s : HSt} {w : Env Nat} (h : Tracks s [] [] demoDetachForest w) {o o' : EOut Sight} {s' t' : HSt}
    (e1 : (detachAll [1, 2, 1, 0] >>= fun _ => see 0).exec w s = .ok o s')
    (e2 : (detachAll [2, 0, 1, 1] >>= fun _ => see 0).exec w s = .ok o' t') := by
  have hr : ((detachAll [1, 2, 1, 0] >>= fun _ => see 0).run demoDetachForest).word = "ok" := by decide +kernel
  exact C70_unobservable (hs' := [2, 0, 1, 1]) (see 0) h (by decide) demoDetach_free
    (by rw [demoDetachForest_facts.2.2.2.2.2.2.2]; decide) (fun hx => by rw [hx] at hr; simp [FOut.word] at hr)
    (fun hx => by rw [hx] at hr; simp [FOut.word] at hr) e1 e2

/-- `C70_refused` applies when the root of the immutable tree is among them. -/
example {s : HSt} {w : Env Nat} (h : Tracks s [] [] demoDetachForest w) :=
  C70_refused (hs := [2, 4, 1]) h (by decide +kernel) ⟨4, by decide, _, demoDetachForest_facts.2.2.2.2.1,
    demoDetachForest_facts.2.2.2.2.2.2.1⟩ (by rw [demoDetachForest_facts.2.2.2.2.2.2.2]; decide)

/-- What is left of the tree, of the node, and where the last node is. -/
example : (Tree.node 1 [.token 2 ['a'], .node 3 [.token 2 ['b'], .token 4 ['c']], .node 5 [.token 2 ['d']]]).without
      (fun D => demoDetachForest.picked [1, 2] (0, D)) = .node 1 [.token 2 ['a'], .node 5 [.token 2 ['d']]] ∧
    (Tree.node 3 [.token 2 ['b'], .token 4 ['c']]).without (fun D => demoDetachForest.picked [1, 2] (0, [1] ++ D)) =
      .node 3 [.token 4 ['c']] ∧
    Tree.shift (fun D => demoDetachForest.picked [1, 2] (0, D)) [2] = some [1] ∧
    Tree.shift (fun D => demoDetachForest.picked [1, 2] (0, D)) [1, 1] = none := by decide +kernel

/-- `C70_children` applies to the root: all tokens go, or all nodes but one. -/
example {s : HSt} {w : Env Nat} (h : Tracks s [] [] demoDetachForest w) := by
  obtain ⟨h0, -, -, -, -, hm, -, hlen⟩ := demoDetachForest_facts
  have ht : demoDetachForest.sub (0, []) = some (.node 1 [.token 2 ['a'], .node 3 [.token 2 ['b'], .token 4 ['c']],
    .node 5 [.token 2 ['d']]]) := by decide +kernel
  exact And.intro (C70_children (k := 3) false (fun t => !t.isNode) h h0 hm ht (by decide) (by rw [hlen]; decide))
    (C70_children (k := 2) true (fun t => decide (t.kind = 3)) h h0 hm ht (by decide) (by rw [hlen]; decide))

/-- The heap, run directly in two orders. -/
example : ([[1, 2], [2, 1]].all fun hs =>
    match (demoDetachSetup >>= fun _ => detachAll hs >>= fun _ => see 0).exec ⟨0, []⟩ { HSt.empty 0 with slack := 0 } with
    | .ok (.ok o _) _ => decide (o.content = .node 1 [.token 2 ['a'], .node 5 [.token 2 ['d']]])
    | _ => false) = true := by decide +kernel

/-- The loop over the collected children, run directly. -/
example : (match (demoDetachSetup >>= fun _ => detachKids true (fun t => decide (t.kind = 3)) 2 0 >>= fun _ => do
      let a ← see 0
      let b ← see 1
      let c ← see 3
      pure (a.content, b.content, c.index)).exec ⟨0, []⟩ { HSt.empty 0 with slack := 0 } with
    | .ok (.ok o _) _ => decide (o = (.node 1 [.token 2 ['a'], .node 5 [.token 2 ['d']]],
        .node 3 [.token 2 ['b'], .token 4 ['c']], some 1))
    | _ => false) = true := by decide +kernel

end Rowan
