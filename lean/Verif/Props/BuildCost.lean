import Verif.BuildCostLemmas
import Verif.Props.Builder
/-!
# C77: the work of building trees
-/
namespace Rowan

/-! ### One call -/

/-- The functions with counters have the results of those without. -/
theorem C77_plain (env : HashEnv) (addr : Nat) (c : Cache) (b : Builder) (op : BOp) :
    (b.stepC env addr c op).1 = b.step env addr c op := Builder.stepC_fst env addr c b op

/-- **C77** A call hashes at most one element, if no table grows during it: hashes of children are not computed again. -/
theorem C77_once (env : HashEnv) (addr : Nat) (c : Cache) (b : Builder) (op : BOp)
    (ht : c.tokens.length < (b.step env addr c op).1.tokens.length → env.grow c.tokens.length = false)
    (hn : c.nodes.length < (b.step env addr c op).1.nodes.length → env.grow c.nodes.length = false) :
    (b.stepC env addr c op).2 ≤ 1 := by
  rw [← Builder.stepC_fst] at ht hn
  cases op with
  | token k s =>
    simp only [Builder.stepC, Cache.tokenC] at ht ⊢
    split
    · exact Nat.le_refl _
    · rename_i h
      simp only [h, tableInsertC_length] at ht
      have := ht (Nat.lt_succ_self _)
      simp [tableInsertC, this]
  | finishNode =>
    simp only [Builder.stepC] at hn ⊢
    generalize b.parents = ps at hn ⊢
    match ps with
    | [] => exact Nat.zero_le _
    | (k, f) :: ps =>
      simp only [Cache.nodeC] at hn ⊢
      split
      · exact Nat.zero_le _
      · rename_i h1
        rw [if_neg h1] at hn
        split
        · exact Nat.zero_le _
        · rename_i h2
          rw [if_neg h2] at hn
          split
          · exact Nat.le_refl _
          · rename_i h3
            rw [if_neg h3] at hn
            generalize env.nodes.find _ _ _ = x at hn ⊢
            cases x with
            | some n => exact Nat.le_refl _
            | none =>
              simp only [tableInsertC_length] at hn ⊢
              have := hn (Nat.lt_succ_self _)
              simp [tableInsertC, this]
  | _ => exact Nat.zero_le _

theorem refile_count (env : HashEnv) (l : List (Nat × GNode)) :
    (refile (GNode.rehashC env) l).2 = Tree.counts (l.map fun e => e.2.tree) := by
  induction l with
  | nil => rfl
  | cons e l ih => simp only [refile, GNode.rehashC_snd, ih, List.map_cons, Tree.counts]

/-- **C77** When the table of nodes grows, every element of every tree in it is hashed again. -/
theorem C77_growth (env : HashEnv) (addr : Nat) (c : Cache) (b : Builder) (op : BOp)
    (hn : c.nodes.length < (b.step env addr c op).1.nodes.length) (hg : env.grow c.nodes.length = true) :
    (b.stepC env addr c op).2 = 1 + Tree.counts (c.nodes.map fun e => e.2.tree) := by
  rw [← Builder.stepC_fst] at hn
  cases op with
  | token k s =>
    simp only [Builder.stepC, Cache.tokenC] at hn
    generalize env.tokens.find _ _ _ = x at hn
    cases x <;> exact absurd hn (Nat.lt_irrefl _)
  | finishNode =>
    simp only [Builder.stepC] at hn ⊢
    generalize b.parents = ps at hn ⊢
    match ps with
    | [] => exact absurd hn (Nat.lt_irrefl _)
    | (k, f) :: ps =>
      simp only [Cache.nodeC] at hn ⊢
      split
      · rename_i h1
        rw [if_pos h1] at hn; exact absurd hn (Nat.lt_irrefl _)
      · rename_i h1
        rw [if_neg h1] at hn
        split
        · rename_i h2
          rw [if_pos h2] at hn; exact absurd hn (Nat.lt_irrefl _)
        · rename_i h2
          rw [if_neg h2] at hn
          split
          · rename_i h3
            rw [if_pos h3] at hn; exact absurd hn (Nat.lt_irrefl _)
          · rename_i h3
            rw [if_neg h3] at hn
            generalize env.nodes.find _ _ _ = x at hn ⊢
            cases x with
            | some n => exact absurd hn (Nat.lt_irrefl _)
            | none =>
              simp only [tableInsertC, if_pos hg]
              rw [refile_count]
  | startNode k => exact absurd hn (Nat.lt_irrefl _)
  | startNodeAt cp k =>
    have : ((b.stepC env addr c (.startNodeAt cp k)).1).1 = c := by
      simp only [Builder.stepC, Builder.step]
      repeat' split
      all_goals rfl
    rw [this] at hn; exact absurd hn (Nat.lt_irrefl _)
  | finish =>
    have : ((b.stepC env addr c .finish).1).1 = c := by
      simp only [Builder.stepC, Builder.step]
      repeat' split
      all_goals rfl
    rw [this] at hn; exact absurd hn (Nat.lt_irrefl _)

/-! ### All calls -/

/-- **C77** If the tables double and no tree in the cache ever has more than `m` elements, the calls that use a cache hash on
average at most `2 * m + 1` elements each, whoever makes them. -/
theorem C77_linear {env : HashEnv} (hg : Doubling env.grow) {cacheOf : Nat → Nat} {w : World} {l : List (WOp × BOut)}
    (h : Run env cacheOf {} l w) (c m : Nat) (hm1 : 1 ≤ m)
    (hm : ∀ l₁ w₁, l₁ <+: l → Run env cacheOf {} l₁ w₁ → ∀ h n, (h, n) ∈ (w₁.caches c).nodes → n.tree.count ≤ m) :
    ({} : World).hashTotal env cacheOf c (l.map (·.1)) ≤ callsOn cacheOf c (l.map (·.1)) * (2 * m + 1) := by
  have h1 := h.total_le hg c m hm1 hm
  have h2 := hg (w.caches c).tokens.length
  have h3 := Nat.mul_le_mul_left m (hg (w.caches c).nodes.length)
  omega

theorem callsOn_mono (cacheOf : Nat → Nat) (c : Nat) {l₁ l : List (WOp × BOut)} (h : l₁ <+: l) :
    callsOn cacheOf c (l₁.map (·.1)) ≤ callsOn cacheOf c (l.map (·.1)) := by
  obtain ⟨t, rfl⟩ := h
  rw [List.map_append, callsOn_append]
  omega

/-- **C77** If the tables double, `n` calls that use a cache hash at most `n * (2 * n + 1)` elements. -/
theorem C77_quadratic {env : HashEnv} (hg : Doubling env.grow) {cacheOf : Nat → Nat} {w : World} {l : List (WOp × BOut)}
    (h : Run env cacheOf {} l w) (c : Nat) :
    ({} : World).hashTotal env cacheOf c (l.map (·.1)) ≤
      callsOn cacheOf c (l.map (·.1)) * (2 * callsOn cacheOf c (l.map (·.1)) + 1) := by
  by_cases h0 : 1 ≤ callsOn cacheOf c (l.map (·.1))
  · exact C77_linear hg h c _ h0 fun l₁ w₁ hp hr h' n hn =>
      Nat.le_trans ((hr.counts_le c).2 h' n hn) (callsOn_mono cacheOf c hp)
  · have := C77_linear hg h c 1 (Nat.le_refl _) fun l₁ w₁ hp hr h' n hn => by
      have h1 := (hr.counts_le c).2 h' n hn
      have h2 := callsOn_mono cacheOf c hp
      omega
    have e : callsOn cacheOf c (l.map (·.1)) = 0 := by omega
    rw [e] at this ⊢
    simpa using this

/-- **C77** hashbrown's tables double. -/
theorem C77_hashbrown : Doubling stdGrow := stdGrow_doubling

/-! ### The worst case -/

theorem Run.snoc_inv {env : HashEnv} {cacheOf : Nat → Nat} {w w' : World} {l : List (WOp × BOut)} {x : WOp × BOut}
    (h : Run env cacheOf w (l ++ [x]) w') :
    ∃ w₁, Run env cacheOf w l w₁ ∧ x.1.Legal w₁ ∧ w' = (w₁.step env cacheOf x.1).1 ∧ x.2 = (w₁.step env cacheOf x.1).2 := by
  generalize hl : l ++ [x] = l' at h
  cases h with
  | nil => simp at hl
  | @snoc w₁ l₁ op hr hop =>
    obtain ⟨e1, e2⟩ := List.append_inj' hl rfl
    simp only [List.cons.injEq, and_true] at e2
    subst e1 e2
    exact ⟨w₁, hr, hop, rfl, rfl⟩

/-- The last of some calls. -/
theorem Run.call_inv {env : HashEnv} {cacheOf : Nat → Nat} {w w' : World} {l : List (WOp × BOut)} {b : Nat} {ops : List BOp} {op : BOp}
    (h : Run env cacheOf w l w') (hj : JustCalls b (ops ++ [op]) l) :
    ∃ l₁ w₁ addr o, Run env cacheOf w l₁ w₁ ∧ JustCalls b ops l₁ ∧ l = l₁ ++ [(.call b op addr, o)] ∧
      (WOp.call b op addr).Legal w₁ ∧ w' = (w₁.step env cacheOf (.call b op addr)).1 := by
  rw [JustCalls, List.map_append] at hj
  obtain ⟨l₁, l₂, rfl, h1, h2⟩ := List.map_eq_append_iff.mp hj
  rw [List.map_cons, List.map_nil, List.map_eq_singleton_iff] at h2
  obtain ⟨⟨x, o⟩, rfl, h3⟩ := h2
  obtain ⟨w₁, h4, h5, h6, -⟩ := h.snoc_inv
  cases x with
  | call b' op' addr =>
    simp only [WOp.callee, Option.some.injEq, Prod.mk.injEq] at h3
    obtain ⟨rfl, rfl⟩ := h3
    exact ⟨l₁, w₁, addr, o, h4, h1, rfl, h5, h6⟩
  | _ => simp [WOp.callee] at h3

theorem JustCalls.nil {b : Nat} {l : List (WOp × BOut)} (h : JustCalls b [] l) : l = [] := by
  simpa [JustCalls] using h

section chain
variable {env : HashEnv} {cacheOf : Nat → Nat} {b : Nat} {k kt : SyntaxKind} {s : List Char}

theorem wrapped_events (n : Nat) : (wrapped k kt s n).events =
    List.replicate n (.startNode k) ++ [.token kt s] ++ List.replicate n .finishNode := by
  induction n with
  | zero => simp [wrapped, Tree.events]
  | succ n ih =>
    simp only [wrapped, Tree.events, Tree.eventss, ih, List.append_nil, List.replicate_succ' (n := n) (a := BOp.finishNode)]
    simp [List.replicate_succ]

theorem wrapped_count (n : Nat) : (wrapped k kt s n).count = n + 1 := by
  induction n with
  | zero => rfl
  | succ n ih => simp only [wrapped, Tree.count, Tree.counts, ih]; omega

/-- The trees with one to `n` nodes. -/
def wraps (k kt : SyntaxKind) (s : List Char) : Nat → List Tree
  | 0 => []
  | n + 1 => wrapped k kt s (n + 1) :: wraps k kt s n

theorem wraps_counts (n : Nat) : 2 * Tree.counts (wraps k kt s n) = n * (n + 3) := by
  induction n with
  | zero => rfl
  | succ n ih =>
    simp only [wraps, Tree.counts, wrapped_count, Nat.mul_add, ih]
    simp only [Nat.add_mul, Nat.mul_add]
    omega

theorem wraps_lt {n : Nat} : ∀ t ∈ wraps k kt s n, t.count ≤ n + 1 := by
  induction n with
  | zero => intro t h; cases h
  | succ n ih =>
    intro t h
    rcases List.mem_cons.mp h with rfl | h
    · rw [wrapped_count]; exact Nat.le_refl _
    · exact Nat.le_succ_of_le (ih t h)

theorem wrapped_hash (ht : ∀ k s, env.tokenHash k s ≠ 0) (hn : ∀ k hs, env.nodeHash k hs ≠ 0) (n : Nat) :
    hashT env (wrapped k kt s n) ≠ 0 := by
  induction n with
  | zero => simpa [wrapped, hashT] using ht kt s
  | succ n ih =>
    rw [wrapped, hashT_node]
    simpa [ih] using hn _ _

theorem chain_open : ∀ (j : Nat) {l : List (WOp × BOut)} {w : World}, Run env cacheOf {} l w →
    JustCalls b (List.replicate j (.startNode k)) l →
    w.builders b = ⟨List.replicate j (k, 0), []⟩ ∧ w.caches (cacheOf b) = {}
  | 0, l, w, h, hj => by
    have e := JustCalls.nil hj
    subst e
    have := h.after_eq
    simp only [List.map_nil, World.after] at this
    subst this
    exact ⟨rfl, rfl⟩
  | j + 1, l, w, h, hj => by
    rw [List.replicate_succ'] at hj
    obtain ⟨l₁, w₁, addr, o, h1, h2, rfl, -, rfl⟩ := h.call_inv hj
    obtain ⟨e1, e2⟩ := chain_open j h1 h2
    simp only [World.step, Builder.step, if_true, e1, e2]
    exact ⟨by simp [List.replicate_succ], trivial⟩

/-- What `Cache.node` looks for. -/
def isNode (k : SyntaxKind) (cs : List (Nat × GElem)) (n : GNode) : Bool :=
  n.kind == k && (n.children.length == cs.length && n.children.map GElem.addr == cs.map (fun x => x.2.addr))

theorem node_found {c : Cache} {addr hh : Nat} {e : GElem} (h0 : hh ≠ 0) {m : GNode}
    (hf : env.nodes.find (env.nodeHash k [hh]) (isNode k [(hh, e)]) c.nodes = some m) :
    (c.node env addr k [(hh, e)]).2.2 = m := by
  have hf' : env.nodes.find (env.nodeHash k [hh]) (fun n => n.kind == k && (n.children.length == 1 &&
    n.children.map GElem.addr == [e.addr])) c.nodes = some m := hf
  simp [Cache.node, h0, hf']

theorem nodeC_new {c : Cache} {addr hh : Nat} {e : GElem} (h0 : hh ≠ 0)
    (hf : env.nodes.find (env.nodeHash k [hh]) (isNode k [(hh, e)]) c.nodes = none) :
    (c.nodeC env addr k [(hh, e)]).1.1.nodes =
      (tableInsertC env.grow (GNode.rehashC env) (env.nodeHash k [hh]) (GNode.new addr k [e]) c.nodes).1 ∧
    (c.nodeC env addr k [(hh, e)]).2 =
      1 + (tableInsertC env.grow (GNode.rehashC env) (env.nodeHash k [hh]) (GNode.new addr k [e]) c.nodes).2 := by
  have hf' : env.nodes.find (env.nodeHash k [hh]) (fun n => n.kind == k && (n.children.length == 1 &&
    n.children.map GElem.addr == [e.addr])) c.nodes = none := hf
  simp [Cache.nodeC, h0, hf']

theorem stepC_finish {c : Cache} {addr : Nat} {x : Builder} {ps : List (SyntaxKind × Nat)} (hp : x.parents = (k, 0) :: ps) :
    (x.stepC env addr c .finishNode).2 = (c.nodeC env addr k x.children).2 ∧
    (x.step env addr c .finishNode).1 = (c.nodeC env addr k x.children).1.1 ∧
    (x.step env addr c .finishNode).2.1.children =
      [((c.node env addr k x.children).2.1, .node (c.node env addr k x.children).2.2)] := by
  rw [Cache.nodeC_fst]
  simp [Builder.stepC, Builder.step, hp]

theorem chain_up (ht : ∀ k s, env.tokenHash k s ≠ 0) (hn : ∀ k hs, env.nodeHash k hs ≠ 0) {n : Nat} :
    ∀ (i : Nat) {l : List (WOp × BOut)} {w : World}, i ≤ n → Run env cacheOf {} l w →
    JustCalls b (List.replicate n (.startNode k) ++ [.token kt s] ++ List.replicate i .finishNode) l →
    (w.builders b).parents = List.replicate (n - i) (k, 0) ∧
    (w.builders b).children.map (fun x => x.2.tree) = [wrapped k kt s i] ∧
    (w.caches (cacheOf b)).nodes.map (fun e => e.2.tree) = wraps k kt s i ∧
    i + 1 ≤ ({} : World).hashTotal env cacheOf (cacheOf b) (l.map (·.1)) ∧
    ∀ g, g < i → env.grow g = true → g * (g + 3) ≤ 2 * ({} : World).hashTotal env cacheOf (cacheOf b) (l.map (·.1))
  | 0, l, w, hi, h, hj => by
    rw [List.replicate_zero, List.append_nil] at hj
    obtain ⟨l₁, w₁, addr, o, h1, h2, rfl, -, rfl⟩ := h.call_inv hj
    obtain ⟨e1, e2⟩ := chain_open n h1 h2
    have hs := (h1.inv (worldInv_init env cacheOf)).call_spec b (.token kt s) addr
    have hfind : env.tokens.find (env.tokenHash kt s) (fun t => t.kind == kt && t.text == s) [] = none := by
      cases hf : env.tokens.find (env.tokenHash kt s) (fun t => t.kind == kt && t.text == s) [] with
      | none => rfl
      | some t => obtain ⟨-, h', hm⟩ := env.tokens.sound hf; cases hm
    have habs := hs.abs
    rw [e1, e2] at habs
    simp only [Builder.abs, SpecBuilder.step, SpecBuilder.mk.injEq, List.map_nil, List.nil_append] at habs
    refine ⟨?_, ?_, ?_, ?_, fun g hg => absurd hg (Nat.not_lt_zero _)⟩
    · simp only [World.step, if_true, e1, e2]; exact habs.1
    · simp only [World.step, if_true, e1, e2]; exact habs.2
    · simp only [World.step, if_true, e1, e2, Builder.step, Cache.token, hfind]; rfl
    · rw [h1.total_snoc]
      simp only [World.hashes, if_true, e1, e2, Builder.stepC, Cache.tokenC, hfind]
      omega
  | i + 1, l, w, hi, h, hj => by
    rw [List.replicate_succ', ← List.append_assoc] at hj
    obtain ⟨l₁, w₁, addr, o, h1, h2, rfl, -, rfl⟩ := h.call_inv hj
    obtain ⟨e1, e2, e3, e4, e5⟩ := chain_up ht hn i (by omega) h1 h2
    have hinv := h1.inv (worldInv_init env cacheOf)
    have hs := hinv.call_spec b .finishNode addr
    obtain ⟨⟨hh, e⟩, hch, he⟩ := List.map_eq_singleton_iff.mp e2
    have hh0 : hh ≠ 0 := by
      rw [(hinv.builder b).hash (h := hh) (e := e) (by rw [hch]; simp), show e.tree = _ from he]
      exact wrapped_hash ht hn i
    have e1' : (w₁.builders b).parents = (k, 0) :: List.replicate (n - (i + 1)) (k, 0) := by
      rw [e1, show n - i = n - (i + 1) + 1 from by omega, List.replicate_succ]
    have habs := hs.abs
    rw [show (w₁.builders b).abs = ⟨(k, 0) :: List.replicate (n - (i + 1)) (k, 0), [wrapped k kt s i]⟩ from by
      rw [Builder.abs, e1', e2]] at habs
    simp only [SpecBuilder.step, Builder.abs, List.take_zero, List.drop_zero, List.nil_append, SpecBuilder.mk.injEq] at habs
    -- the node is not in the table
    obtain ⟨f1, f2, f3⟩ := stepC_finish (env := env) (c := w₁.caches (cacheOf b)) (addr := addr) e1'
    rw [hch] at f1 f2 f3
    have hfind : env.nodes.find (env.nodeHash k [hh]) (isNode k [(hh, e)]) (w₁.caches (cacheOf b)).nodes = none := by
      cases hf : env.nodes.find (env.nodeHash k [hh]) (isNode k [(hh, e)]) (w₁.caches (cacheOf b)).nodes with
      | none => rfl
      | some m =>
        exfalso
        obtain ⟨-, h', hm⟩ := env.nodes.sound hf
        have h3 : m.tree = wrapped k kt s (i + 1) := by
          have := habs.2
          rw [f3, node_found hh0 hf] at this
          simpa [wrapped] using this
        have h4 : m.tree ∈ (w₁.caches (cacheOf b)).nodes.map (fun e => e.2.tree) := List.mem_map.mpr ⟨_, hm, rfl⟩
        rw [e3] at h4
        have := wraps_lt _ h4
        rw [h3, wrapped_count] at this
        omega
    obtain ⟨g1, g2⟩ := nodeC_new (addr := addr) hh0 hfind
    have hlen : (w₁.caches (cacheOf b)).nodes.length = i := by
      have : ∀ i, (wraps k kt s i).length = i := fun i => by induction i <;> simp [wraps, *]
      rw [← this i, ← e3, List.length_map]
    have hcost : w₁.hashes env cacheOf (cacheOf b) (.call b .finishNode addr) =
        1 + (tableInsertC env.grow (GNode.rehashC env) (env.nodeHash k [hh]) (GNode.new addr k [e])
          (w₁.caches (cacheOf b)).nodes).2 := by
      simp only [World.hashes, if_true, f1, g2]
    refine ⟨?_, ?_, ?_, ?_, ?_⟩
    · simp only [World.step, if_true]; exact habs.1
    · simp only [World.step, if_true]; exact habs.2
    · simp only [World.step, if_true, f2, g1]
      have hv := congrArg (List.map GNode.tree) (tableInsertC_values env.grow (GNode.rehashC env) (env.nodeHash k [hh])
        (GNode.new addr k [e]) (w₁.caches (cacheOf b)).nodes)
      rw [List.map_map, List.map_cons, List.map_map] at hv
      refine Eq.trans hv ?_
      rw [wraps, ← e3, GNode.tree_eq]
      simp [wrapped, GNode.children_new, GNode.kind_new, show e.tree = _ from he, Function.comp_def]
    · rw [h1.total_snoc, hcost]; omega
    · intro g hg hgr
      rw [h1.total_snoc, hcost]
      by_cases hgi : g = i
      · subst hgi
        rw [tableInsertC, if_pos (by rw [hlen]; exact hgr)]
        have := wraps_counts (k := k) (kt := kt) (s := s) g
        simp only [refile_count, e3]
        omega
      · have := e5 g (by omega) hgr
        omega

/-- **C77** The bound is attained: building a token inside `n` nodes takes in the order of `n * n` hashes. -/
theorem C77_chain (ht : ∀ k s, env.tokenHash k s ≠ 0) (hn : ∀ k hs, env.nodeHash k hs ≠ 0) (hg : env.grow = stdGrow)
    (n : Nat) {l : List (WOp × BOut)} {w : World} (h : Run env cacheOf {} l w) (hj : JustCalls b (wrapped k kt s n).events l) :
    n * n ≤ 8 * ({} : World).hashTotal env cacheOf (cacheOf b) (l.map (·.1)) := by
  rw [wrapped_events] at hj
  obtain ⟨-, -, -, h1, h2⟩ := chain_up ht hn n (Nat.le_refl _) h hj
  by_cases h7 : n ≤ 7
  · have : n * n ≤ n * 7 := Nat.mul_le_mul_left _ h7
    omega
  · obtain ⟨i, h3, h4⟩ := std_between (by omega : 7 < n)
    have h5 := h2 _ h3 (by rw [hg]; exact (stdGrow_iff _).mpr (.inr (.inr ⟨i, rfl⟩)))
    rw [Nat.pow_succ, ← Nat.mul_assoc] at h4
    generalize 7 * 2 ^ i = g at *
    have h6 : n * n ≤ (2 * g) * (2 * g) := Nat.mul_le_mul (by omega) (by omega)
    have h8 : (2 * g) * (2 * g) = 4 * (g * g) := by rw [Nat.mul_mul_mul_comm]
    have h9 : g * (g + 3) = g * g + g * 3 := Nat.mul_add ..
    omega

end chain

/-- Runs of any calls of a builder exist. -/
theorem JustCalls.exists {env : HashEnv} {cacheOf : Nat → Nat} {w : World}
    (hw : WorldInv env cacheOf w) (hb : w.Bounded) (b : Nat) (ops : List BOp) :
    ∃ l w', Run env cacheOf w l w' ∧ JustCalls b ops l := by
  induction ops generalizing w with
  | nil => exact ⟨[], w, .nil w, rfl⟩
  | cons op ops ih =>
    obtain ⟨N, hN⟩ := hb
    have hl : (WOp.call b op N).Legal w := fun x hx => Nat.ne_of_lt (hN x hx)
    obtain ⟨l, w', h1, h2⟩ := ih (hw.step _ hl) (World.Bounded.step hw ⟨N, hN⟩ (.call b op N))
    refine ⟨[(.call b op N, (w.step env cacheOf (.call b op N)).2)] ++ l, w', ?_, ?_⟩
    · exact Run.append (Run.snoc (l := []) (.call b op N) (.nil w) hl) h1
    · simp only [JustCalls, List.map_append, List.map_cons] at h2 ⊢
      rw [h2]; rfl

/-- **C77** There are runs as in `C77_chain`. -/
theorem C77_chain_exists (env : HashEnv) (cacheOf : Nat → Nat) (b : Nat) (k kt : SyntaxKind) (s : List Char) (n : Nat) :
    ∃ l w, Run env cacheOf {} l w ∧ JustCalls b (wrapped k kt s n).events l :=
  JustCalls.exists (worldInv_init env cacheOf) bounded_init b _

/-- **C77** So no constant bounds the elements hashed per call. -/
theorem C77_not_linear {env : HashEnv} (ht : ∀ k s, env.tokenHash k s ≠ 0) (hn : ∀ k hs, env.nodeHash k hs ≠ 0)
    (hg : env.grow = stdGrow) (cacheOf : Nat → Nat) (c : Nat) : ¬ ∃ m, ∀ l w, Run env cacheOf {} l w →
      ({} : World).hashTotal env cacheOf (cacheOf c) (l.map (·.1)) ≤ m * l.length := by
  rintro ⟨m, hm⟩
  obtain ⟨l, w, h, hj⟩ := C77_chain_exists env cacheOf c 0 1 [] (24 * m + 1)
  have h1 := C77_chain ht hn hg _ h hj
  have h2 := hm l w h
  have h3 : l.length = 2 * (24 * m + 1) + 1 := by
    have := congrArg List.length hj
    rw [List.length_map, List.length_map, wrapped_events] at this
    rw [this]; simp; omega
  rw [h3] at h2
  have h4 : m * (2 * (24 * m + 1) + 1) ≤ m * (3 * (24 * m + 1)) := Nat.mul_le_mul_left _ (by omega)
  have h5 : m * (3 * (24 * m + 1)) = 3 * (m * (24 * m + 1)) := Nat.mul_left_comm ..
  have h6 : (24 * m + 1) * (24 * m + 1) = 24 * (m * (24 * m + 1)) + (24 * m + 1) := by
    rw [Nat.add_mul, Nat.one_mul, Nat.mul_assoc]
  omega

/-! ### Examples -/

/-- A table that grows as those of hashbrown, with a hash that is never 0. -/
def stdEnv : HashEnv := { constEnv 5 with grow := stdGrow }

example : Doubling stdEnv.grow := stdGrow_doubling

/-- A token inside 20 nodes: the bound of `C77_chain` holds of a run that exists. -/
example : ∃ l w, Run stdEnv id {} l w ∧ JustCalls 3 (wrapped 1 2 ['x'] 20).events l ∧
    400 ≤ 8 * ({} : World).hashTotal stdEnv id 3 (l.map (·.1)) := by
  obtain ⟨l, w, h1, h2⟩ := C77_chain_exists stdEnv id 3 1 2 ['x'] 20
  exact ⟨l, w, h1, h2, C77_chain (cacheOf := id) (fun _ _ => Nat.succ_ne_zero 4) (fun _ _ => Nat.succ_ne_zero 4) rfl 20 h1 h2⟩

/-- The same token ten times in a node of ten children: twelve calls, ten hashes (the node itself has too many children). -/
example : ({} : World).hashTotal stdEnv id 3
    (.call 3 (.startNode 1) 0 :: (List.range 10).map (fun i => .call 3 (.token 2 ['x']) i) ++ [.call 3 .finishNode 20]) = 10 := by
  decide +kernel

/-- Four nodes around a token: five hashes for the calls, and nine for the elements of the three nodes moved when the table
grows for the fourth. -/
example : ({} : World).hashTotal stdEnv id 3
    ((wrapped 1 2 ['x'] 4).events.mapIdx fun i op => .call 3 op i) = 14 := by decide +kernel

end Rowan
