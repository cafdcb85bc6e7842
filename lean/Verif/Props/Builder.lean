import Verif.BuilderLemmas
/-!
# C05 – C10: builder and node cache

All theorems are about whole-program runs (`Run`): any number of builders and caches, operations
interleaved arbitrarily, allocation addresses chosen arbitrarily among the free ones (reuse
allowed), an arbitrary hash function and an arbitrary conforming hash table (`HashEnv`).
-/
namespace Rowan

/-! ### Specification -/

/-- The same program with cache-free builders: only the addressed builder changes. -/
def specStep (cacheOf : Nat → Nat) (s : Nat → SpecBuilder) : WOp → (Nat → SpecBuilder) × SpecOut
  | .call b op _ => (fun i => if i = b then ((s b).step op).1 else s i, ((s b).step op).2)
  | .dropBuilder b => (fun i => if i = b then {} else s i, .unit)
  | .dropCache c => (fun i => if cacheOf i = c then {} else s i, .unit)
  | .other _ => (s, .unit)

def specRun (cacheOf : Nat → Nat) (s : Nat → SpecBuilder) :
    List WOp → (Nat → SpecBuilder) × List SpecOut
  | [] => (s, [])
  | op :: ops =>
    let r := specStep cacheOf s op
    let r' := specRun cacheOf r.1 ops
    (r'.1, r.2 :: r'.2)

theorem specRun_snoc (cacheOf : Nat → Nat) (s : Nat → SpecBuilder) (ops : List WOp) (op : WOp) :
    specRun cacheOf s (ops ++ [op]) =
      ((specStep cacheOf (specRun cacheOf s ops).1 op).1,
        (specRun cacheOf s ops).2 ++ [(specStep cacheOf (specRun cacheOf s ops).1 op).2]) := by
  induction ops generalizing s with
  | nil => simp [specRun]
  | cons o ops ih => simp [specRun, ih]

/-- A concrete environment, to show that runs exist: every hash collides (constant hash), the table
is a linear scan that grows at every insertion. -/
def listLookup (α : Type) : Lookup α where
  find _ p l := (l.find? (fun e => p e.2)).map (·.2)
  sound {h p l e} hf := by
    simp only [Option.map_eq_some_iff] at hf
    obtain ⟨x, hx, rfl⟩ := hf
    exact ⟨List.find?_some (p := fun e : Nat × α => p e.2) hx, x.1, List.mem_of_find?_eq_some hx⟩
  complete {h p l e} hf hm := by
    simp only [Option.map_eq_none_iff, List.find?_eq_none] at hf
    simpa using hf _ hm

def constEnv (h : Nat) : HashEnv where
  tokenHash _ _ := h
  nodeHash _ _ := h
  grow _ := true
  nodes := listLookup _
  tokens := listLookup _

/-! ### Theorems -/

/-- **C07** The cache is transparent: whatever the hash function, the table, the sharing of caches
and the addresses, every call of every builder returns what the cache-free builder returns (same
trees out of `finish`, panics at the same calls), and every builder's contents are the same. -/
theorem C07_transparent (env : HashEnv) (cacheOf : Nat → Nat) (l : List (WOp × BOut)) (w : World)
    (h : Run env cacheOf {} l w) :
    specRun cacheOf (fun _ => {}) (l.map (·.1)) =
      ((fun b => ⟨(w.builders b).parents, (w.builders b).children.map fun x => x.2.tree⟩),
        l.map fun x => x.2.spec) := by
  induction h with
  | nil => rfl
  | @snoc w' l op hr hl ih =>
    have hinv := hr.inv (worldInv_init env cacheOf)
    rw [List.map_append, List.map_cons, List.map_nil, specRun_snoc, ih]
    cases op with
    | call b op addr =>
      have hs := hinv.call_spec b op addr
      refine Prod.ext ?_ ?_
      · funext i
        simp only [specStep, World.step]
        by_cases hi : i = b
        · subst hi; simp only [if_true]; exact hs.abs.symm
        · simp only [if_neg hi]
      · simp only [specStep, World.step, List.map_append, List.map_cons, List.map_nil]
        rw [hs.out]; rfl
    | dropBuilder b =>
      refine Prod.ext ?_ ?_
      · funext i
        simp only [specStep, World.step]
        split <;> simp
      · simp [specStep, World.step, BOut.spec]
    | dropCache c =>
      refine Prod.ext ?_ ?_
      · funext i
        simp only [specStep, World.step]
        split <;> simp
      · simp [specStep, World.step, BOut.spec]
    | other held =>
      refine Prod.ext ?_ ?_
      · rfl
      · simp [specStep, World.step, BOut.spec]

/-- **C07**, the returned green nodes are complete: cached lengths are right and the display is the
text of the tree the cache-free builder returns. -/
theorem C07_results_wellformed (env : HashEnv) (cacheOf : Nat → Nat) (l : List (WOp × BOut))
    (w : World) (h : Run env cacheOf {} l w) (op : WOp) (n : GNode) (hm : (op, .root n) ∈ l) :
    n.display = n.tree.text ∧ n.textLen = blen n.tree.text :=
  ⟨n.display_eq, n.textLen_eq (h.root_wf (worldInv_init env cacheOf) hm)⟩

/-- **C07**, progress (so that the theorems above are not vacuous): from any reachable world any
list of calls on any builder can be carried out, with suitable addresses, by a legal run. -/
theorem C07_runs_exist (env : HashEnv) (cacheOf : Nat → Nat) (l : List (WOp × BOut)) (w : World)
    (h : Run env cacheOf {} l w) (b : Nat) (ops : List BOp) :
    ∃ l' w', Run env cacheOf w l' w' ∧ (callsOf b l').map (·.1) = ops ∧ Undisturbed cacheOf b l' :=
  Run.exists_calls (h.inv (worldInv_init env cacheOf))
    (h.bounded (worldInv_init env cacheOf) bounded_init) b ops

/-- **C05** Round trip: replaying the calls for a tree into an empty builder and calling `finish`
returns a green node that is that tree, no call panics — also when other builders on the same cache
are used in between, on any reachable cache contents. -/
theorem C05_round_trip (env : HashEnv) (cacheOf : Nat → Nat) (l₀ l : List (WOp × BOut))
    (w w' : World) (h₀ : Run env cacheOf {} l₀ w) (h : Run env cacheOf w l w') (b : Nat)
    (hfresh : w.builders b = {}) (hu : Undisturbed cacheOf b l) (k : SyntaxKind) (cs : List Tree)
    (hops : (callsOf b l).map (·.1) = (Tree.node k cs).events ++ [.finish]) :
    (∃ n, (callsOf b l).getLast? = some (.finish, .root n) ∧ n.tree = .node k cs) ∧
    ∀ x ∈ callsOf b l, ∀ p, x.2 ≠ .panic p := by
  have hp := h.project (h₀.inv (worldInv_init env cacheOf)) b hu
  rw [hops, SpecBuilder.run_append, SpecBuilder.run_events, SpecBuilder.run_singleton, hfresh] at hp
  simp only [Builder.abs, List.map_nil, List.nil_append, SpecBuilder.step, Prod.mk.injEq] at hp
  obtain ⟨-, hout⟩ := hp
  constructor
  · cases hl : (callsOf b l).getLast? with
    | none =>
      have : callsOf b l = [] := by simpa using hl
      rw [this] at hops; simp at hops
    | some x =>
      obtain ⟨op, o⟩ := x
      have h1 : ((callsOf b l).map (·.1)).getLast? = some op := by simp [hl]
      have h2 : ((callsOf b l).map (fun x => x.2.spec)).getLast? = some o.spec := by simp [hl]
      rw [hops] at h1
      rw [← hout] at h2
      simp at h1 h2
      subst h1
      cases o with
      | root n => exact ⟨n, rfl, by simpa [BOut.spec] using h2.symm⟩
      | unit => simp [BOut.spec] at h2
      | panic p => simp [BOut.spec] at h2
  · intro x hx p hp
    have : x.2.spec ∈ (callsOf b l).map (fun x => x.2.spec) := List.mem_map_of_mem hx
    rw [← hout] at this
    simp [hp, BOut.spec] at this

/-- Non-vacuity of C05: such runs exist for every tree. -/
theorem C05_runs_exist (env : HashEnv) (cacheOf : Nat → Nat) (t : Tree) :
    ∃ l w', Run env cacheOf {} l w' ∧ (callsOf 0 l).map (·.1) = t.events ++ [.finish] ∧
      Undisturbed cacheOf 0 l :=
  C07_runs_exist env cacheOf [] {} (.nil _) 0 _

/-- **C06** Wrapping at a checkpoint: take a checkpoint, build trees `ts`, call `start_node_at`,
build trees `us`, call `finish_node`.  Afterwards the builder holds exactly the elements it held at
the checkpoint followed by one node over `ts ++ us`; the open nodes are unchanged; no panic. -/
theorem C06_wrap (env : HashEnv) (cacheOf : Nat → Nat) (l₀ l : List (WOp × BOut))
    (w w' : World) (h₀ : Run env cacheOf {} l₀ w) (h : Run env cacheOf w l w') (b : Nat)
    (hu : Undisturbed cacheOf b l) (k : SyntaxKind) (ts us : List Tree)
    (hops : (callsOf b l).map (·.1) = Tree.eventss ts ++
      .startNodeAt (w.builders b).checkpoint k :: (Tree.eventss us ++ [.finishNode])) :
    (w'.builders b).children.map (fun x => x.2.tree) =
      (w.builders b).children.map (fun x => x.2.tree) ++ [.node k (ts ++ us)] ∧
    (w'.builders b).parents = (w.builders b).parents ∧
    ∀ x ∈ callsOf b l, ∀ p, x.2 ≠ .panic p := by
  have hinv := h₀.inv (worldInv_init env cacheOf)
  have hp := h.project hinv b hu
  have hcond : ∀ p ∈ (w.builders b).parents.head?, p.2 ≤ (w.builders b).children.length := by
    intro p hp
    exact (hinv.builder b).le p (List.mem_of_mem_head? hp)
  have hstep : ∀ s : SpecBuilder, s = (w.builders b).abs →
      s.run (Tree.eventss ts ++ .startNodeAt (w.builders b).checkpoint k ::
        (Tree.eventss us ++ [.finishNode])) =
      (⟨s.parents, s.trees ++ [.node k (ts ++ us)]⟩,
        (Tree.eventss ts).map (fun _ => .unit) ++ .unit ::
          ((Tree.eventss us).map (fun _ => .unit) ++ [.unit])) := by
    intro s hs
    have hlen : s.trees.length = (w.builders b).checkpoint := by
      simp [hs, Builder.abs, Builder.checkpoint]
    rw [← hlen, SpecBuilder.run_append, SpecBuilder.run_eventss]
    have hc : s.trees.length ≤ (s.trees ++ ts).length ∧
        ∀ p ∈ s.parents.head?, p.2 ≤ s.trees.length := by
      refine ⟨by simp, ?_⟩
      rw [hs]; simpa [Builder.abs] using hcond
    simp only [SpecBuilder.run, SpecBuilder.step, if_pos hc, SpecBuilder.run_append,
      SpecBuilder.run_eventss]
    simp
  rw [hops, hstep _ rfl] at hp
  simp only [Builder.abs, Prod.mk.injEq, SpecBuilder.mk.injEq] at hp
  obtain ⟨⟨h1, h2⟩, h3⟩ := hp
  refine ⟨h2.symm, h1.symm, ?_⟩
  intro x hx p hp
  have : x.2.spec ∈ (callsOf b l).map (fun x => x.2.spec) := List.mem_map_of_mem hx
  rw [← h3] at this
  simp [hp, BOut.spec] at this

/-- **C06** `start_node_at` panics exactly when the checkpoint lies beyond the current elements or
before the first element of the innermost open node; otherwise it only opens a node. -/
theorem C06_panics_exactly (env : HashEnv) (addr : Nat) (c : Cache) (b : Builder) (cp : Nat)
    (k : SyntaxKind) :
    ((∃ p, (b.step env addr c (.startNodeAt cp k)).2.2 = .panic p) ↔
      b.children.length < cp ∨ ∃ p ∈ b.parents.head?, cp < p.2) ∧
    ((b.step env addr c (.startNodeAt cp k)).2.2 = .unit →
      (b.step env addr c (.startNodeAt cp k)).2.1 = { b with parents := (k, cp) :: b.parents }) := by
  obtain ⟨parents, children⟩ := b
  by_cases hcp : cp ≤ children.length
  · cases parents with
    | nil => simp [Builder.step, hcp]
    | cons p ps =>
      obtain ⟨k', f⟩ := p
      by_cases hf : f ≤ cp
      · simp [Builder.step, hcp, hf]
      · simp [Builder.step, hcp, hf]; omega
  · simp [Builder.step, hcp]; omega

/-- The history used below: a token before the checkpoint, one after it, then the wrap. -/
example : (SpecBuilder.run {} ([.startNode 1, .token 2 ['a'], .token 3 ['b'], .startNodeAt 1 4,
    .token 5 ['c'], .finishNode, .finishNode, .finish] : List BOp)).2.getLast? =
    some (.root (.node 1 [.token 2 ['a'], .node 4 [.token 3 ['b'], .token 5 ['c']]])) := by decide

/-- A stale checkpoint: taken inside a node that has been finished since. -/
example : (SpecBuilder.run {} ([.startNode 1, .token 2 ['a'], .token 3 ['b'], .finishNode,
    .startNodeAt 2 4] : List BOp)).2.getLast? = some .panic := by decide

/-- **C08** Elements built through one cache (by any builders, at any two times, the cache not having
been dropped in between) that stand for the same tree are the same allocation, provided the cache
interns that tree: it is a token, or a node with at most three children none of which has the
reserved hash 0. -/
theorem C08_shared (env : HashEnv) (cacheOf : Nat → Nat) (l₀ l : List (WOp × BOut))
    (w w' : World) (h₀ : Run env cacheOf {} l₀ w) (h : Run env cacheOf w l w') (b b' : Nat)
    (hsame : cacheOf b = cacheOf b') (hkeep : ∀ x ∈ l, x.1 ≠ .dropCache (cacheOf b))
    (e e' : GElem) (he : e ∈ (w.builders b).children.map (·.2))
    (he' : e' ∈ (w'.builders b').children.map (·.2))
    (ht : e.tree = e'.tree) (hz : Interned env e.tree) :
    e = e' := by
  have hinv := h₀.inv (worldInv_init env cacheOf)
  have hinv' := h.inv hinv
  obtain ⟨⟨hh, x⟩, hx, rfl⟩ := List.mem_map.mp he
  obtain ⟨⟨hh', x'⟩, hx', rfl⟩ := List.mem_map.mp he'
  have h1 : InCache (w.caches (cacheOf b)) x :=
    (hinv.builder b).cached hx hz
  have h2 : InCache (w'.caches (cacheOf b')) x' :=
    (hinv'.builder b').cached hx' (ht ▸ hz)
  have h3 := h.cache_le hinv (cacheOf b) hkeep _ h1
  rw [hsame] at h3
  exact (hinv'.cache _).shared x x' h3 h2 ht

/-- **C08** for tokens: equal kind and text, same cache, then same allocation. -/
theorem C08_tokens (env : HashEnv) (cacheOf : Nat → Nat) (l₀ l : List (WOp × BOut))
    (w w' : World) (h₀ : Run env cacheOf {} l₀ w) (h : Run env cacheOf w l w') (b b' : Nat)
    (hsame : cacheOf b = cacheOf b') (hkeep : ∀ x ∈ l, x.1 ≠ .dropCache (cacheOf b))
    (t t' : GToken) (ht : .token t ∈ (w.builders b).children.map (·.2))
    (ht' : .token t' ∈ (w'.builders b').children.map (·.2))
    (hk : t.kind = t'.kind) (hx : t.text = t'.text) : t.addr = t'.addr := by
  have := C08_shared env cacheOf l₀ l w w' h₀ h b b' hsame hkeep (.token t) (.token t') ht ht'
    (by simp [GToken.tree, hk, hx]) (by simp [GToken.tree, Interned])
  simp only [NodeOrToken.token.injEq] at this
  rw [this]

/-- **C08**, which trees are interned: if no hash happens to be 0, all trees with at most three
children at every level. -/
theorem C08_small_trees (env : HashEnv) (htok : ∀ k s, env.tokenHash k s ≠ 0)
    (hnode : ∀ k hs, env.nodeHash k hs ≠ 0) (t : Tree)
    (hsmall : ∀ p s, t.at? p = some s → s.children.length ≤ 3) :
    Interned env t := by
  refine interned_of_hash ?_
  induction t using Tree.ind with
  | tok k s => simpa [hashT] using htok k s
  | nd k cs ih =>
    rw [hashT_node, if_neg, if_neg]
    · exact hnode _ _
    · simp only [List.any_eq_true, beq_iff_eq, not_exists, not_and]
      intro c hc
      refine ih c hc ?_
      intro p s hs
      obtain ⟨i, hi, hci⟩ := List.mem_iff_getElem.mp hc
      refine hsmall (i :: p) s ?_
      rw [Tree.at?_cons]
      simp [Tree.children, hi, hci, hs]
    · have := hsmall [] _ (Tree.at?_nil _)
      simpa [Tree.children] using this

/-- Non-vacuity of C08: with a constant non-zero hash (all entries collide) the hypotheses of
`C08_small_trees` hold. -/
example : (∀ k s, (constEnv 7).tokenHash k s ≠ 0) ∧ (∀ k hs, (constEnv 7).nodeHash k hs ≠ 0) ∧
    hashT (constEnv 7) (.node 1 [.token 2 ['a'], .node 3 []]) = 7 := by
  refine ⟨by simp [constEnv], by simp [constEnv], by decide⟩

/-- The model computes the sharing: building `[[a] [a]]` on one cache gives the same allocation for
both inner nodes; the third allocation address is never used for the second `a`. -/
example :
    let env := constEnv 7
    let run := fun (s : Cache × Builder) (x : BOp × Nat) =>
      let r := s.2.step env x.2 s.1 x.1
      (r.1, r.2.1)
    let s := ([(.startNode 1, 0), (.startNode 2, 1), (.token 3 ['a'], 2), (.finishNode, 3),
      (.startNode 2, 4), (.token 3 ['a'], 5), (.finishNode, 6)] : List (BOp × Nat)).foldl run ({}, {})
    s.2.children.map (fun x => x.2.addr) = [3, 3] := by decide

/-- **C09** A builder call panics only at the documented points; in particular the internal slicing
and draining never goes out of range.  Holds for every call in every run. -/
theorem C09_panics (env : HashEnv) (cacheOf : Nat → Nat) (l : List (WOp × BOut)) (w : World)
    (h : Run env cacheOf {} l w) (b : Nat) (op : BOp) (addr : Nat) (p : BPanic)
    (hp : (w.step env cacheOf (.call b op addr)).2 = .panic p) :
    (p = .noOpenNode ∧ op = .finishNode ∧ (w.builders b).parents = []) ∨
    (p = .checkpointBeyondEnd ∧ ∃ cp k, op = .startNodeAt cp k ∧ (w.builders b).children.length < cp) ∨
    (p = .checkpointBeforeParent ∧ ∃ cp k q, op = .startNodeAt cp k ∧
      (w.builders b).parents.head? = some q ∧ cp < q.2) ∨
    (p = .notOneElement ∧ op = .finish ∧ (w.builders b).children.length ≠ 1) ∨
    (p = .rootIsToken ∧ op = .finish ∧ ∃ x t, (w.builders b).children = [(x, .token t)]) := by
  have hinv := h.inv (worldInv_init env cacheOf)
  have hs := hinv.call_spec b op addr
  simp only [World.step] at hp
  have hno := hs.noSlice p hp
  generalize w.builders b = B at *
  obtain ⟨parents, children⟩ := B
  cases op with
  | token k s => simp [Builder.step] at hp
  | startNode k => simp [Builder.step] at hp
  | finishNode =>
    cases parents with
    | nil =>
      simp only [Builder.step, BOut.panic.injEq] at hp
      exact .inl ⟨hp.symm, rfl, rfl⟩
    | cons q ps =>
      simp only [Builder.step] at hp
      split at hp
      · simp only [BOut.panic.injEq] at hp; exact absurd hp.symm hno
      · simp at hp
  | startNodeAt cp k =>
    by_cases hcp : cp ≤ children.length
    · cases parents with
      | nil => simp [Builder.step, hcp] at hp
      | cons q ps =>
        obtain ⟨k', f⟩ := q
        by_cases hf : f ≤ cp
        · simp [Builder.step, hcp, hf] at hp
        · simp only [Builder.step, hcp, hf, if_true, if_false, BOut.panic.injEq] at hp
          exact .inr (.inr (.inl ⟨hp.symm, cp, k, (k', f), rfl, rfl, by simpa using hf⟩))
    · simp only [Builder.step, hcp, if_false, BOut.panic.injEq] at hp
      exact .inr (.inl ⟨hp.symm, cp, k, rfl, by simpa using hcp⟩)
  | finish =>
    match children with
    | [] =>
      simp [Builder.step] at hp
      exact .inr (.inr (.inr (.inl ⟨hp.symm, rfl, by simp⟩)))
    | [(x, .node n)] => simp [Builder.step] at hp
    | [(x, .token t)] =>
      simp [Builder.step] at hp
      exact .inr (.inr (.inr (.inr ⟨hp.symm, rfl, x, t, rfl⟩)))
    | x :: y :: l' =>
      simp [Builder.step] at hp
      exact .inr (.inr (.inr (.inl ⟨hp.symm, rfl, by simp⟩)))

/-- All five panics do occur. -/
example :
    (SpecBuilder.run {} [.finishNode]).2 = [.panic] ∧
    (SpecBuilder.run {} [.startNodeAt 1 0]).2 = [.panic] ∧
    (SpecBuilder.run {} [.token 0 [], .startNode 0, .startNodeAt 0 0]).2 = [.unit, .unit, .panic] ∧
    (SpecBuilder.run {} [.finish]).2 = [.panic] ∧
    (SpecBuilder.run {} [.token 0 [], .finish]).2 = [.unit, .panic] := by decide

/-- **C10** is false of the code: a run exists in which `finish` succeeds although a node opened by
`start_node` was never finished; the open node is silently dropped. -/
theorem C10_counterexample (env : HashEnv) (cacheOf : Nat → Nat) :
    ∃ l w n, Run env cacheOf {} l w ∧
      (callsOf 0 l).map (·.1) = [.startNode 1, .finishNode, .startNode 2, .finish] ∧
      (callsOf 0 l).getLast? = some (.finish, .root n) ∧ n.tree = .node 1 [] := by
  obtain ⟨l, w, h1, h2, h3⟩ := C07_runs_exist env cacheOf [] {} (.nil _) 0
    [.startNode 1, .finishNode, .startNode 2, .finish]
  have hp := h1.project (worldInv_init env cacheOf) 0 h3
  rw [h2] at hp
  cases hl : (callsOf 0 l).getLast? with
  | none =>
    have : callsOf 0 l = [] := by simpa using hl
    rw [this] at h2; simp at h2
  | some x =>
    obtain ⟨op, o⟩ := x
    have e1 : ((callsOf 0 l).map (·.1)).getLast? = some op := by simp [hl]
    have e2 : ((callsOf 0 l).map (fun x => x.2.spec)).getLast? = some o.spec := by simp [hl]
    rw [h2] at e1
    rw [Prod.ext_iff] at hp
    simp only at hp
    rw [← hp.2] at e2
    simp only [List.getLast?_cons_cons, List.getLast?_singleton, Option.some.injEq] at e1
    subst e1
    have e3 : some (SpecOut.root (.node 1 [])) = some o.spec := by rw [← e2]; decide
    simp only [Option.some.injEq] at e3
    cases o with
    | root n =>
      simp only [BOut.spec, SpecOut.root.injEq] at e3
      exact ⟨l, w, n, h1, h2, hl, e3.symm⟩
    | unit => simp [BOut.spec] at e3
    | panic p => simp [BOut.spec] at e3

/-- **C10** (partial): the exact condition under which `finish` succeeds.  Missing from the full
property: that no node is left open. -/
theorem C10_finish_exact_partial (env : HashEnv) (cacheOf : Nat → Nat) (w : World) (b addr : Nat)
    (n : GNode) :
    (w.step env cacheOf (.call b .finish addr)).2 = .root n ↔
      ∃ h, (w.builders b).children = [(h, .node n)] := by
  simp only [World.step]
  generalize w.builders b = B
  obtain ⟨parents, children⟩ := B
  match children with
  | [] => simp [Builder.step]
  | [(x, .node m)] => simp [Builder.step]
  | [(x, .token t)] => simp [Builder.step]
  | x :: y :: l' => simp [Builder.step]

end Rowan
