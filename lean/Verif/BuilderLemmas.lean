import Verif.Spec.Builder
/-!
# Invariants of builder and node cache (helper lemmas for C05 – C10)

Unless their comments cite lines of `/repo`, the definitions in this file are vocabulary of the proofs and model no code.
-/
namespace Rowan

/-! ### Sub-elements -/

theorem GElem.self_mem_subs (e : GElem) : e ∈ e.subs := by
  cases e with
  | node n => cases n; simp [GElem.subs, GNode.subs]
  | token t => simp [GElem.subs]

theorem GChild.subs_asRef (c : GChild) : c.subs = c.asRef.subs := by
  cases c <;> simp [GChild.subs, GElem.subs]

theorem GChild.mem_subss {x : GElem} {cs : List GChild} :
    x ∈ GChild.subss cs ↔ ∃ c ∈ cs, x ∈ c.subs := by
  induction cs with
  | nil => simp [GChild.subss]
  | cons c cs ih => simp [GChild.subss, ih]

theorem GNode.mem_subs {x : GElem} {n : GNode} :
    x ∈ n.subs ↔ x = .node n ∨ ∃ e ∈ n.children, x ∈ e.subs := by
  cases n with
  | mk a k l cs =>
    simp only [GNode.subs, List.mem_cons, GChild.mem_subss, GNode.children_mk, List.mem_map]
    constructor
    · rintro (h | ⟨c, hc, hx⟩)
      · exact .inl h
      · exact .inr ⟨_, ⟨c, hc, rfl⟩, by rwa [← GChild.subs_asRef]⟩
    · rintro (h | ⟨_, ⟨c, hc, rfl⟩, hx⟩)
      · exact .inl h
      · exact .inr ⟨c, hc, by rwa [GChild.subs_asRef]⟩

theorem GNode.children_mem_subs {n : GNode} {e : GElem} (h : e ∈ n.children) :
    e ∈ GElem.subs (.node n) :=
  GNode.mem_subs.mpr (.inr ⟨e, h, e.self_mem_subs⟩)

theorem World.Root.live {w : World} {e : GElem} (h : w.Root e) : w.Live e := ⟨e, h, e.self_mem_subs⟩

theorem World.Root.live_child {w : World} {n : GNode} {e : GElem} (h : w.Root (.node n))
    (he : e ∈ n.children) : w.Live e := ⟨_, h, GNode.children_mem_subs he⟩

/-! ### Specification hash of a tree: 0 where the cache does not intern -/

mutual
def hashT (env : HashEnv) : Tree → Nat
  | .token k s => env.tokenHash k s
  | .node k cs =>
    let hs := hashTs env cs
    if hs.length > 3 then 0 else if hs.any (· == 0) then 0 else env.nodeHash k hs
def hashTs (env : HashEnv) : List Tree → List Nat
  | [] => []
  | t :: ts => hashT env t :: hashTs env ts
end

theorem hashTs_eq (env : HashEnv) (ts : List Tree) : hashTs env ts = ts.map (hashT env) := by
  induction ts with
  | nil => simp [hashTs]
  | cons t ts ih => simp [hashTs, ih]

theorem hashT_node (env : HashEnv) (k cs) :
    hashT env (.node k cs) = if cs.length > 3 then 0 else
      if cs.any (fun t => hashT env t == 0) then 0 else env.nodeHash k (cs.map (hashT env)) := by
  simp [hashT, hashTs_eq, List.any_map, Function.comp_def]

/-- The trees a cache interns: every token; every node with at most three children none of which
has the reserved hash 0. -/
def Interned (env : HashEnv) : Tree → Prop
  | .token _ _ => True
  | .node _ cs => cs.length ≤ 3 ∧ ∀ c ∈ cs, hashT env c ≠ 0

theorem interned_of_hash {env : HashEnv} {t : Tree} (h : hashT env t ≠ 0) : Interned env t := by
  cases t with
  | token k s => trivial
  | node k cs =>
    rw [hashT_node] at h
    split at h
    · simp at h
    · split at h
      · simp at h
      · rename_i h1 h2
        refine ⟨by omega, fun c hc h0 => h2 (List.any_eq_true.mpr ⟨c, hc, by simpa using h0⟩)⟩

/-! ### Invariants -/

def InCache (c : Cache) : GElem → Prop
  | .node n => ∃ h, (h, n) ∈ c.nodes
  | .token t => ∃ h, (h, t) ∈ c.tokens

structure CacheInv (env : HashEnv) (c : Cache) : Prop where
  tokHash : ∀ {h t}, (h, t) ∈ c.tokens → h = env.tokenHash t.kind t.text
  tokUniq : ∀ {h t h' t'}, (h, t) ∈ c.tokens → (h', t') ∈ c.tokens → t.kind = t'.kind →
    t.text = t'.text → t = t'
  nodeWF : ∀ {h n}, (h, n) ∈ c.nodes → n.WF
  nodeHash : ∀ {h n}, (h, n) ∈ c.nodes →
    h = env.nodeHash n.kind (n.children.map fun e => hashT env e.tree)
  nodeSmall : ∀ {h n}, (h, n) ∈ c.nodes → n.children.length ≤ 3
  nodeKids : ∀ {h n e}, (h, n) ∈ c.nodes → e ∈ n.children → hashT env e.tree ≠ 0 ∧ InCache c e
  nodeUniq : ∀ {h n h' n'}, (h, n) ∈ c.nodes → (h', n') ∈ c.nodes → n.kind = n'.kind →
    n.children.map GElem.addr = n'.children.map GElem.addr → n = n'

structure BuilderInv (env : HashEnv) (c : Cache) (b : Builder) : Prop where
  le : ∀ p ∈ b.parents, p.2 ≤ b.children.length
  sorted : b.parents.Pairwise (fun p q => q.2 ≤ p.2)
  wf : ∀ {h e}, (h, e) ∈ b.children → e.WF
  hash : ∀ {h e}, (h, e) ∈ b.children → h = hashT env e.tree
  cached : ∀ {h e}, (h, e) ∈ b.children → Interned env e.tree → InCache c e

structure WorldInv (env : HashEnv) (cacheOf : Nat → Nat) (w : World) : Prop where
  coherent : w.Coherent
  cache : ∀ c, CacheInv env (w.caches c)
  builder : ∀ b, BuilderInv env (w.caches (cacheOf b)) (w.builders b)
  heldWF : ∀ e ∈ w.held, e.WF

/-- Cache growth: entries are never lost. -/
def Cache.Le (c c' : Cache) : Prop := (∀ e, InCache c e → InCache c' e)

theorem tableInsert_eq {α : Type} {grow : Nat → Bool} {hasher : α → Nat} {h : Nat} {x : α}
    {l : List (Nat × α)} (hl : ∀ e ∈ l, e.1 = hasher e.2) :
    tableInsert grow hasher h x l = (h, x) :: l := by
  unfold tableInsert
  congr 1
  split
  · conv => rhs; rw [← List.map_id l]
    apply List.map_congr_left
    intro e he
    rw [← hl e he]; rfl
  · rfl

theorem GChild.rehashes_eq (env : HashEnv) (cs : List GChild) :
    GChild.rehashes env cs = cs.map (GChild.rehash env) := by
  induction cs with
  | nil => simp [GChild.rehashes]
  | cons c cs ih => simp [GChild.rehashes, ih]

/-- The hash of interned elements recomputed from scratch (when the table grows) is the hash under
which the element was filed. -/
theorem CacheInv.rehash {env : HashEnv} {c : Cache} (hc : CacheInv env c) :
    ∀ n : GNode, (∃ h, (h, n) ∈ c.nodes) →
      n.rehash env = env.nodeHash n.kind (n.children.map fun e => hashT env e.tree) := by
  intro n
  induction n using GNode.ind with
  | h n ih =>
    rintro ⟨h, hn⟩
    cases n with
    | mk a k l cs =>
      simp only [GNode.rehash, GNode.kind_mk, GNode.children_mk, List.map_map]
      congr 1
      rw [GChild.rehashes_eq]
      apply List.map_congr_left
      intro ch hch
      have hk := hc.nodeKids hn (e := ch.asRef) (by simp only [GNode.children_mk]; exact List.mem_map_of_mem hch)
      cases ch with
      | token r t => simp [GChild.rehash, GToken.tree, hashT]
      | node r m =>
        simp only [GChild.asRef_node, GElem.tree_node] at hk
        obtain ⟨hk1, h', hm⟩ := hk
        have e1 := ih r m hch ⟨h', hm⟩
        have e2 := hc.nodeSmall hm
        simp only [GChild.rehash, e1, Function.comp, GChild.asRef_node, GElem.tree_node]
        rw [GNode.tree_eq m, hashT_node, if_neg (by simpa using e2), if_neg, List.map_map]
        · rfl
        · simp only [List.any_map, List.any_eq_true, Function.comp, not_exists, not_and]
          intro e he
          simpa using (hc.nodeKids hm he).1

theorem CacheInv.nodes_rehash {env : HashEnv} {c : Cache} (hc : CacheInv env c) :
    ∀ e ∈ c.nodes, e.1 = e.2.rehash env := by
  rintro ⟨h, n⟩ hn
  rw [hc.rehash n ⟨h, hn⟩]
  exact hc.nodeHash hn

/-! ### One cache call -/

theorem Cache.token_spec {env : HashEnv} {c : Cache} (hc : CacheInv env c) (addr k s) :
    ∃ t, (c.token env addr k s).2 = (env.tokenHash k s, t) ∧ t.kind = k ∧ t.text = s ∧
      CacheInv env (c.token env addr k s).1 ∧
      InCache (c.token env addr k s).1 (.token t) ∧
      c.Le (c.token env addr k s).1 ∧
      (c.token env addr k s).1.nodes = c.nodes ∧
      (∀ h' t', (h', t') ∈ (c.token env addr k s).1.tokens → (h', t') ∈ c.tokens ∨ (t'.addr = addr ∧ t' = t)) ∧
      (InCache c (.token t) ∨ t.addr = addr) := by
  cases hf : env.tokens.find (env.tokenHash k s) (fun t => t.kind == k && t.text == s) c.tokens with
  | some t =>
    obtain ⟨h1, h', h2⟩ := env.tokens.sound hf
    simp only [Bool.and_eq_true, beq_iff_eq] at h1
    have : c.token env addr k s = (c, (env.tokenHash k s, t)) := by simp [Cache.token, hf]
    rw [this]
    exact ⟨t, rfl, h1.1, h1.2, hc, ⟨h', h2⟩, fun _ h => h, rfl, fun _ _ h => .inl h, .inl ⟨h', h2⟩⟩
  | none =>
    have heq : c.token env addr k s = ({ c with tokens := (env.tokenHash k s, GToken.new addr k s) :: c.tokens },
        (env.tokenHash k s, GToken.new addr k s)) := by
      simp only [Cache.token, hf]
      rw [tableInsert_eq]
      rintro ⟨h, t⟩ ht
      exact hc.tokHash ht
    rw [heq]
    have hle : c.Le { c with tokens := (env.tokenHash k s, GToken.new addr k s) :: c.tokens } := by
      intro e he
      cases e with
      | node n => exact he
      | token t => obtain ⟨h, hh⟩ := he; exact ⟨h, List.mem_cons_of_mem _ hh⟩
    have hnew : ∀ h t, (h, t) ∈ c.tokens → ¬ (t.kind = k ∧ t.text = s) := by
      rintro h t ht ⟨rfl, rfl⟩
      have e := hc.tokHash ht
      rw [e] at ht
      simpa using env.tokens.complete hf ht
    refine ⟨GToken.new addr k s, rfl, rfl, rfl, ?_, ⟨_, List.mem_cons_self ..⟩, hle, rfl, ?_, .inr rfl⟩
    · constructor
      · intro h t ht
        simp only [List.mem_cons, Prod.mk.injEq] at ht
        rcases ht with ⟨rfl, rfl⟩ | ht
        · rfl
        · exact hc.tokHash ht
      · intro h t h' t' ht ht' e1 e2
        simp only [List.mem_cons, Prod.mk.injEq] at ht ht'
        rcases ht with ⟨rfl, rfl⟩ | ht <;> rcases ht' with ⟨rfl, rfl⟩ | ht'
        · rfl
        · exact absurd ⟨e1.symm, e2.symm⟩ (hnew _ _ ht')
        · exact absurd ⟨e1, e2⟩ (hnew _ _ ht)
        · exact hc.tokUniq ht ht' e1 e2
      · exact hc.nodeWF
      · exact hc.nodeHash
      · exact hc.nodeSmall
      · intro h n e hn he
        have := hc.nodeKids hn he
        exact ⟨this.1, hle _ this.2⟩
      · exact hc.nodeUniq
    · intro h' t' ht
      simp only [List.mem_cons, Prod.mk.injEq] at ht
      rcases ht with ⟨rfl, rfl⟩ | ht
      · exact .inr ⟨rfl, rfl⟩
      · exact .inl ht

theorem list_eq_of_addr {l l' : List GElem} (h : ∀ x ∈ l, ∀ y ∈ l', x.addr = y.addr → x = y)
    (ha : l.map GElem.addr = l'.map GElem.addr) : l = l' := by
  induction l generalizing l' with
  | nil => cases l' <;> simp_all
  | cons x l ih =>
    cases l' with
    | nil => simp at ha
    | cons y l' =>
      simp only [List.map_cons, List.cons.injEq] at ha
      rw [h x (by simp) y (by simp) ha.1, ih (fun x hx y hy => h x (by simp [hx]) y (by simp [hy])) ha.2]

theorem Cache.node_spec {env : HashEnv} {c : Cache} (hc : CacheInv env c) (addr k)
    (cs : List (Nat × GElem)) (hwf : ∀ x ∈ cs, x.2.WF) (hh : ∀ x ∈ cs, x.1 = hashT env x.2.tree)
    (hcached : ∀ x ∈ cs, x.1 ≠ 0 → InCache c x.2)
    (hcoh : ∀ h n e, (h, n) ∈ c.nodes → e ∈ n.children → ∀ x ∈ cs, e.addr = x.2.addr → e = x.2) :
    ∃ n, (c.node env addr k cs).2 = (hashT env n.tree, n) ∧ n.kind = k ∧
      n.children = cs.map (·.2) ∧ n.WF ∧
      CacheInv env (c.node env addr k cs).1 ∧
      (Interned env n.tree → InCache (c.node env addr k cs).1 (.node n)) ∧
      c.Le (c.node env addr k cs).1 ∧
      (c.node env addr k cs).1.tokens = c.tokens ∧
      (∀ h' n', (h', n') ∈ (c.node env addr k cs).1.nodes → (h', n') ∈ c.nodes ∨ (n'.addr = addr ∧ n' = n)) ∧
      (InCache c (.node n) ∨ n.addr = addr) := by
  have hbuildWF : (GNode.new addr k (cs.map (·.2))).WF := by
    apply GNode.wf_new
    intro e he
    obtain ⟨x, hx, rfl⟩ := List.mem_map.mp he
    exact hwf x hx
  have hhash : ∀ n : GNode, n.kind = k → n.children = cs.map (·.2) →
      hashT env n.tree = if cs.length > 3 then 0 else
        if cs.any (fun x => x.1 == 0) then 0 else env.nodeHash k (cs.map (·.1)) := by
    intro n h1 h2
    rw [GNode.tree_eq, hashT_node, h1, h2]
    have e1 : cs.map (·.1) = cs.map (fun x => hashT env x.2.tree) := List.map_congr_left hh
    have e2 : cs.any (fun x => x.1 == 0) = cs.any (fun x => hashT env x.2.tree == 0) := by
      rw [show (fun x : Nat × GElem => x.1 == 0) = (fun v => v == 0) ∘ (·.1) from rfl,
        ← List.any_map, e1, List.any_map]; rfl
    rw [e1, e2, List.any_map, List.any_map, List.length_map, List.length_map, List.map_map,
      List.map_map]
    rfl
  by_cases h3 : cs.length > 3
  · have heq : c.node env addr k cs = (c, (0, GNode.new addr k (cs.map (·.2)))) := by
      simp [Cache.node, h3]
    rw [heq]
    have h0 : hashT env (GNode.new addr k (cs.map (·.2))).tree = 0 := by
      rw [hhash _ rfl (by simp), if_pos h3]
    refine ⟨GNode.new addr k (cs.map (·.2)), by rw [h0], rfl, by simp, hbuildWF, hc, ?_, fun _ h => h,
      rfl, fun _ _ h => .inl h, .inr rfl⟩
    intro h
    rw [GNode.tree_new] at h
    have := h.1
    simp at this
    omega
  by_cases hz : cs.any (fun x => x.1 == 0) = true
  · have heq : c.node env addr k cs = (c, (0, GNode.new addr k (cs.map (·.2)))) := by
      simp only [Cache.node, h3, if_false, hz, if_true]
    rw [heq]
    have h0 : hashT env (GNode.new addr k (cs.map (·.2))).tree = 0 := by
      rw [hhash _ rfl (by simp), if_neg h3, if_pos hz]
    refine ⟨GNode.new addr k (cs.map (·.2)), by rw [h0], rfl, by simp, hbuildWF, hc, ?_, fun _ h => h,
      rfl, fun _ _ h => .inl h, .inr rfl⟩
    intro h
    rw [GNode.tree_new] at h
    obtain ⟨x, hx, hx0⟩ := List.any_eq_true.mp hz
    refine absurd ?_ (h.2 x.2.tree ?_)
    · rw [← hh x hx]; simpa using hx0
    · exact List.mem_map_of_mem (List.mem_map_of_mem hx)
  have hnz : ∀ x ∈ cs, x.1 ≠ 0 := by
    intro x hx h0
    exact hz (List.any_eq_true.mpr ⟨x, hx, by simpa using h0⟩)
  cases hf : env.nodes.find (env.nodeHash k (cs.map (·.1)))
      (fun n => n.kind == k && (n.children.length == cs.length &&
        n.children.map GElem.addr == cs.map (fun x => x.2.addr))) c.nodes with
  | some n =>
    obtain ⟨h1, h', h2⟩ := env.nodes.sound hf
    simp only [Bool.and_eq_true, beq_iff_eq] at h1
    obtain ⟨hk, -, ha⟩ := h1
    have hch : n.children = cs.map (·.2) := by
      apply list_eq_of_addr
      · intro x hx y hy hxy
        obtain ⟨z, hz, rfl⟩ := List.mem_map.mp hy
        exact hcoh h' n x h2 hx z hz hxy
      · rw [ha, List.map_map]; rfl
    have heq : c.node env addr k cs = (c, (env.nodeHash k (cs.map (·.1)), n)) := by
      simp only [Cache.node, h3, if_false, hz, hf]; simp
    rw [heq]
    have h0 := hhash n hk hch
    rw [if_neg h3, if_neg hz] at h0
    exact ⟨n, by rw [h0], hk, hch, hc.nodeWF h2, hc, fun _ => ⟨h', h2⟩, fun _ h => h, rfl,
      fun _ _ h => .inl h, .inl ⟨h', h2⟩⟩
  | none =>
    have heq : c.node env addr k cs = ({ c with nodes := (env.nodeHash k (cs.map (·.1)), GNode.new addr k (cs.map (·.2))) :: c.nodes },
        (env.nodeHash k (cs.map (·.1)), GNode.new addr k (cs.map (·.2)))) := by
      simp only [Cache.node, h3, if_false, hz, hf]
      rw [tableInsert_eq hc.nodes_rehash]; simp
    rw [heq]
    have h0 := hhash (GNode.new addr k (cs.map (·.2))) rfl (by simp)
    rw [if_neg h3, if_neg hz] at h0
    have hle : c.Le { c with nodes := (env.nodeHash k (cs.map (·.1)), GNode.new addr k (cs.map (·.2))) :: c.nodes } := by
      intro e he
      cases e with
      | node n => obtain ⟨h, hh⟩ := he; exact ⟨h, List.mem_cons_of_mem _ hh⟩
      | token t => exact he
    have hnew : ∀ h n, (h, n) ∈ c.nodes → n.kind = k →
        n.children.map GElem.addr = cs.map (fun x => x.2.addr) → False := by
      intro h n hn hk ha
      have hch : n.children = cs.map (·.2) := by
        apply list_eq_of_addr
        · intro x hx y hy hxy
          obtain ⟨z, hz, rfl⟩ := List.mem_map.mp hy
          exact hcoh h n x hn hx z hz hxy
        · rw [ha, List.map_map]; rfl
      have e := hc.nodeHash hn
      rw [hk, hch, List.map_map] at e
      have e1 : cs.map (·.1) = cs.map ((fun e => hashT env e.tree) ∘ (·.2)) := List.map_congr_left hh
      rw [← e1] at e
      rw [e] at hn
      have := env.nodes.complete hf hn
      simp only [Bool.and_eq_false_iff, beq_eq_false_iff_ne] at this
      rcases this with h | h | h
      · exact h hk
      · apply h; rw [hch]; simp
      · exact h ha
    refine ⟨GNode.new addr k (cs.map (·.2)), by rw [h0], rfl, by simp, hbuildWF, ?_,
      fun _ => ⟨_, List.mem_cons_self ..⟩, hle, rfl, ?_, .inr rfl⟩
    · constructor
      · exact hc.tokHash
      · exact hc.tokUniq
      · intro h n hn
        simp only [List.mem_cons, Prod.mk.injEq] at hn
        rcases hn with ⟨rfl, rfl⟩ | hn
        · exact hbuildWF
        · exact hc.nodeWF hn
      · intro h n hn
        simp only [List.mem_cons, Prod.mk.injEq] at hn
        rcases hn with ⟨rfl, rfl⟩ | hn
        · simp only [GNode.kind_new, GNode.children_new, List.map_map]
          congr 1
          exact List.map_congr_left hh
        · exact hc.nodeHash hn
      · intro h n hn
        simp only [List.mem_cons, Prod.mk.injEq] at hn
        rcases hn with ⟨rfl, rfl⟩ | hn
        · simp; omega
        · exact hc.nodeSmall hn
      · intro h n e hn he
        simp only [List.mem_cons, Prod.mk.injEq] at hn
        rcases hn with ⟨rfl, rfl⟩ | hn
        · rw [GNode.children_new] at he
          obtain ⟨x, hx, rfl⟩ := List.mem_map.mp he
          exact ⟨by rw [← hh x hx]; exact hnz x hx, hle _ (hcached x hx (hnz x hx))⟩
        · have := hc.nodeKids hn he
          exact ⟨this.1, hle _ this.2⟩
      · intro h n h' n' hn hn' hk ha
        simp only [List.mem_cons, Prod.mk.injEq] at hn hn'
        rcases hn with ⟨rfl, rfl⟩ | hn <;> rcases hn' with ⟨rfl, rfl⟩ | hn'
        · rfl
        · refine (hnew _ _ hn' hk.symm ?_).elim
          rw [← ha, GNode.children_new, List.map_map]; rfl
        · refine (hnew _ _ hn hk ?_).elim
          rw [ha, GNode.children_new, List.map_map]; rfl
        · exact hc.nodeUniq hn hn' hk ha
    · intro h' n' hn
      simp only [List.mem_cons, Prod.mk.injEq] at hn
      rcases hn with ⟨rfl, rfl⟩ | hn
      · exact .inr ⟨rfl, rfl⟩
      · exact .inl hn

end Rowan

namespace Rowan

/-- What the builder looks like to someone who ignores hashes and addresses. -/
def Builder.abs (b : Builder) : SpecBuilder := ⟨b.parents, b.children.map fun x => x.2.tree⟩

/-- The object a step may have allocated: at the given address, over elements the builder held. -/
def NewOver (addr : Nat) (b : Builder) : GElem → Prop
  | .token t => t.addr = addr
  | .node n => n.addr = addr ∧ ∀ e ∈ n.children, ∃ h, (h, e) ∈ b.children

structure StepSpec (env : HashEnv) (addr : Nat) (c : Cache) (b : Builder) (op : BOp)
    (r : Cache × Builder × BOut) : Prop where
  cache : CacheInv env r.1
  le : c.Le r.1
  builder : BuilderInv env r.1 r.2.1
  abs : r.2.1.abs = (b.abs.step op).1
  out : r.2.2.spec = (b.abs.step op).2
  noSlice : ∀ p, r.2.2 = .panic p → p ≠ .sliceOutOfRange
  root : ∀ n, r.2.2 = .root n → ∃ h, (h, NodeOrToken.node n) ∈ b.children
  new : ∃ new, NewOver addr b new ∧
    (∀ h n, (h, n) ∈ r.1.nodes → (h, n) ∈ c.nodes ∨ new = .node n) ∧
    (∀ h t, (h, t) ∈ r.1.tokens → (h, t) ∈ c.tokens ∨ new = .token t) ∧
    (∀ h e, (h, e) ∈ r.2.1.children → (h, e) ∈ b.children ∨ InCache c e ∨ new = e)

theorem newOver_dummy (addr : Nat) (b : Builder) : NewOver addr b (.token ⟨addr, 0, []⟩) := rfl

theorem StepSpec.trivial {env : HashEnv} {addr : Nat} {c : Cache} {b : Builder} {op : BOp}
    {b' : Builder} {o : BOut} (hc : CacheInv env c)
    (hb : BuilderInv env c b') (habs : b'.abs = (b.abs.step op).1) (hout : o.spec = (b.abs.step op).2)
    (hno : ∀ p, o = .panic p → p ≠ .sliceOutOfRange)
    (hroot : ∀ n, o = .root n → ∃ h, (h, NodeOrToken.node n) ∈ b.children)
    (hch : ∀ x ∈ b'.children, x ∈ b.children) :
    StepSpec env addr c b op (c, b', o) :=
  { cache := hc, le := fun _ h => h, builder := hb, abs := habs, out := hout, noSlice := hno
    root := hroot
    new := ⟨_, newOver_dummy addr b, fun _ _ h => .inl h, fun _ _ h => .inl h,
      fun h e he => .inl (hch (h, e) he)⟩ }

theorem builderInv_empty (env : HashEnv) (c : Cache) : BuilderInv env c {} := by
  constructor <;> simp

theorem Builder.step_spec {env : HashEnv} (addr : Nat) {c : Cache} {b : Builder} (op : BOp)
    (hc : CacheInv env c) (hb : BuilderInv env c b)
    (hcoh : ∀ h n e, (h, n) ∈ c.nodes → e ∈ n.children → ∀ x ∈ b.children, e.addr = x.2.addr → e = x.2) :
    StepSpec env addr c b op (b.step env addr c op) := by
  cases op with
  | token k s =>
    obtain ⟨t, ht, hk, hs, hc', hin, hle, hnodes, htoks, hnew⟩ := Cache.token_spec (env := env) hc addr k s
    have heq : b.step env addr c (.token k s) = ((c.token env addr k s).1,
        { b with children := b.children ++ [(env.tokenHash k s, .token t)] }, .unit) := by
      simp [Builder.step, ht]
    rw [heq]
    have htree : GElem.tree (.token t) = .token k s := by simp [GToken.tree, hk, hs]
    constructor
    · exact hc'
    · exact hle
    · constructor
      · intro p hp; have := hb.le p hp; simp; omega
      · exact hb.sorted
      · intro h e he
        simp only [List.mem_append, List.mem_singleton, Prod.mk.injEq] at he
        rcases he with he | ⟨rfl, rfl⟩
        · exact hb.wf he
        · exact True.intro
      · intro h e he
        simp only [List.mem_append, List.mem_singleton, Prod.mk.injEq] at he
        rcases he with he | ⟨rfl, rfl⟩
        · exact hb.hash he
        · rw [htree]; simp [hashT]
      · intro h e he h0
        simp only [List.mem_append, List.mem_singleton, Prod.mk.injEq] at he
        rcases he with he | ⟨rfl, rfl⟩
        · exact hle _ (hb.cached he h0)
        · exact hin
    · simp [Builder.abs, SpecBuilder.step, GToken.tree, hk, hs]
    · rfl
    · simp
    · simp
    · by_cases ha : t.addr = addr
      · refine ⟨.token t, ha, ?_, ?_, ?_⟩
        · intro h n hn; rw [hnodes] at hn; exact .inl hn
        · intro h t' ht'
          rcases htoks h t' ht' with h1 | ⟨_, rfl⟩
          · exact .inl h1
          · exact .inr rfl
        · intro h e he
          simp only [List.mem_append, List.mem_singleton, Prod.mk.injEq] at he
          rcases he with he | ⟨rfl, rfl⟩
          · exact .inl he
          · exact .inr (.inr rfl)
      · refine ⟨_, newOver_dummy addr b, ?_, ?_, ?_⟩
        · intro h n hn; rw [hnodes] at hn; exact .inl hn
        · intro h t' ht'
          rcases htoks h t' ht' with h1 | ⟨h2, rfl⟩
          · exact .inl h1
          · exact absurd h2 ha
        · intro h e he
          simp only [List.mem_append, List.mem_singleton, Prod.mk.injEq] at he
          rcases he with he | ⟨rfl, rfl⟩
          · exact .inl he
          · exact .inr (.inl (hnew.resolve_right ha))
  | startNode k =>
    refine StepSpec.trivial hc ?_ ?_ rfl (by simp) (by simp) (by simp)
    · constructor
      · simpa using hb.le
      · simp only [List.pairwise_cons]; exact ⟨fun p hp => hb.le p hp, hb.sorted⟩
      · exact hb.wf
      · exact hb.hash
      · exact hb.cached
    · simp [Builder.abs, SpecBuilder.step]
  | finishNode =>
    obtain ⟨parents, children⟩ := b
    cases parents with
    | nil =>
      exact StepSpec.trivial hc hb (by simp [Builder.abs, SpecBuilder.step])
        (by simp [Builder.abs, SpecBuilder.step, BOut.spec]) (by simp) (by simp) (by simp)
    | cons p ps =>
      obtain ⟨k, f⟩ := p
      have hf : f ≤ children.length := hb.le (k, f) (by simp)
      obtain ⟨n, hn, hk, hch, hwf, hc', hin, hle, htoks, hnodes, hnew⟩ :=
        Cache.node_spec (env := env) hc addr k (children.drop f)
          (fun x hx => hb.wf (h := x.1) (List.mem_of_mem_drop hx))
          (fun x hx => hb.hash (h := x.1) (List.mem_of_mem_drop hx))
          (fun x hx h0 => hb.cached (h := x.1) (List.mem_of_mem_drop hx)
            (interned_of_hash (by rw [← hb.hash (h := x.1) (List.mem_of_mem_drop hx)]; exact h0)))
          (fun h n e hn he x hx => hcoh h n e hn he x (List.mem_of_mem_drop hx))
      have heq : Builder.step env addr c ⟨(k, f) :: ps, children⟩ .finishNode =
          ((c.node env addr k (children.drop f)).1,
            ⟨ps, children.take f ++ [(hashT env n.tree, .node n)]⟩, .unit) := by
        simp only [Builder.step]
        rw [if_neg (by omega), show (Cache.node env c addr k (children.drop f)).2.1 = hashT env n.tree
          from congrArg (·.1) hn, show (Cache.node env c addr k (children.drop f)).2.2 = n
          from congrArg (·.2) hn]
      rw [heq]
      have hkids : ∀ e ∈ n.children, ∃ h, (h, e) ∈ children := by
        intro e he
        rw [hch] at he
        obtain ⟨x, hx, rfl⟩ := List.mem_map.mp he
        exact ⟨x.1, List.mem_of_mem_drop hx⟩
      have hsort := hb.sorted
      simp only [List.pairwise_cons] at hsort
      constructor
      · exact hc'
      · exact hle
      · constructor
        · intro q hq
          have := hsort.1 q hq
          simp only [List.length_append, List.length_take, List.length_singleton]
          omega
        · exact hsort.2
        · intro h e he
          simp only [List.mem_append, List.mem_singleton, Prod.mk.injEq] at he
          rcases he with he | ⟨rfl, rfl⟩
          · exact hb.wf (List.mem_of_mem_take he)
          · exact hwf
        · intro h e he
          simp only [List.mem_append, List.mem_singleton, Prod.mk.injEq] at he
          rcases he with he | ⟨rfl, rfl⟩
          · exact hb.hash (List.mem_of_mem_take he)
          · rfl
        · intro h e he h0
          simp only [List.mem_append, List.mem_singleton, Prod.mk.injEq] at he
          rcases he with he | ⟨rfl, rfl⟩
          · exact hle _ (hb.cached (List.mem_of_mem_take he) h0)
          · exact hin h0
      · simp only [Builder.abs, SpecBuilder.step, List.map_append, List.map_take,
          List.map_cons, List.map_nil, SpecBuilder.mk.injEq, true_and, GElem.tree_node]
        rw [GNode.tree_eq, hk, hch, List.map_map]
        congr 3
        rw [List.map_drop]; rfl
      · rfl
      · simp
      · simp
      · by_cases ha : n.addr = addr
        · refine ⟨.node n, ⟨ha, hkids⟩, ?_, ?_, ?_⟩
          · intro h n' hn'
            rcases hnodes h n' hn' with h1 | ⟨_, rfl⟩
            · exact .inl h1
            · exact .inr rfl
          · intro h t ht; rw [htoks] at ht; exact .inl ht
          · intro h e he
            simp only [List.mem_append, List.mem_singleton, Prod.mk.injEq] at he
            rcases he with he | ⟨rfl, rfl⟩
            · exact .inl (List.mem_of_mem_take he)
            · exact .inr (.inr rfl)
        · refine ⟨_, newOver_dummy addr _, ?_, ?_, ?_⟩
          · intro h n' hn'
            rcases hnodes h n' hn' with h1 | ⟨h2, rfl⟩
            · exact .inl h1
            · exact absurd h2 ha
          · intro h t ht; rw [htoks] at ht; exact .inl ht
          · intro h e he
            simp only [List.mem_append, List.mem_singleton, Prod.mk.injEq] at he
            rcases he with he | ⟨rfl, rfl⟩
            · exact .inl (List.mem_of_mem_take he)
            · exact .inr (.inl (hnew.resolve_right ha))
  | startNodeAt cp k =>
    obtain ⟨parents, children⟩ := b
    by_cases hcp : cp ≤ children.length
    · cases parents with
      | nil =>
        have heq : Builder.step env addr c ⟨[], children⟩ (.startNodeAt cp k) =
            (c, ⟨[(k, cp)], children⟩, .unit) := by simp [Builder.step, hcp]
        rw [heq]
        refine StepSpec.trivial hc ?_ ?_ ?_ (by simp) (by simp) (by simp)
        · constructor
          · simpa using hcp
          · simp
          · exact hb.wf
          · exact hb.hash
          · exact hb.cached
        · simp [Builder.abs, SpecBuilder.step, hcp]
        · simp [Builder.abs, SpecBuilder.step, hcp, BOut.spec]
      | cons p ps =>
        obtain ⟨k', f⟩ := p
        by_cases hf : f ≤ cp
        · have heq : Builder.step env addr c ⟨(k', f) :: ps, children⟩ (.startNodeAt cp k) =
              (c, ⟨(k, cp) :: (k', f) :: ps, children⟩, .unit) := by simp [Builder.step, hcp, hf]
          rw [heq]
          refine StepSpec.trivial hc ?_ ?_ ?_ (by simp) (by simp) (by simp)
          · constructor
            · intro q hq
              simp only [List.mem_cons] at hq
              rcases hq with rfl | hq
              · exact hcp
              · exact hb.le q (by simpa using hq)
            · have := hb.sorted
              refine List.pairwise_cons.mpr ⟨?_, this⟩
              simp only [List.pairwise_cons] at this
              intro q hq
              simp only [List.mem_cons] at hq
              rcases hq with rfl | hq
              · exact hf
              · have := this.1 q hq; simp at this ⊢; omega
            · exact hb.wf
            · exact hb.hash
            · exact hb.cached
          · simp [Builder.abs, SpecBuilder.step, hcp, hf]
          · simp [Builder.abs, SpecBuilder.step, hcp, hf, BOut.spec]
        · have heq : Builder.step env addr c ⟨(k', f) :: ps, children⟩ (.startNodeAt cp k) =
              (c, ⟨(k', f) :: ps, children⟩, .panic .checkpointBeforeParent) := by
            simp [Builder.step, hcp, hf]
          rw [heq]
          refine StepSpec.trivial hc hb ?_ ?_ (by simp) (by simp) (by simp)
          · simp [Builder.abs, SpecBuilder.step, hf]
          · simp [Builder.abs, SpecBuilder.step, hf, BOut.spec]
    · have heq : Builder.step env addr c ⟨parents, children⟩ (.startNodeAt cp k) =
          (c, ⟨parents, children⟩, .panic .checkpointBeyondEnd) := by simp [Builder.step, hcp]
      rw [heq]
      refine StepSpec.trivial hc hb ?_ ?_ (by simp) (by simp) (by simp)
      · simp [Builder.abs, SpecBuilder.step, hcp]
      · simp [Builder.abs, SpecBuilder.step, hcp, BOut.spec]
  | finish =>
    obtain ⟨parents, children⟩ := b
    match children, hb with
    | [], hb =>
      exact StepSpec.trivial hc (builderInv_empty _ _) rfl rfl (by simp) (by simp) (by simp)
    | [(h, .node n)], hb =>
      have : GElem.tree (.node n) = .node n.kind (n.children.map GElem.tree) := n.tree_eq
      refine StepSpec.trivial hc (builderInv_empty _ _) ?_ ?_ (by simp) ?_ (by simp)
      · simp only [Builder.abs, SpecBuilder.step, List.map_cons, List.map_nil, this]
      · simp only [Builder.abs, SpecBuilder.step, List.map_cons, List.map_nil, this]
        simp [BOut.spec, GNode.tree_eq n]
      · intro n' hn'; simp at hn'; subst hn'; exact ⟨h, by simp⟩
    | [(h, .token t)], hb =>
      exact StepSpec.trivial hc (builderInv_empty _ _) rfl rfl (by simp) (by simp) (by simp)
    | x :: y :: l, hb =>
      have heq : Builder.step env addr c ⟨parents, x :: y :: l⟩ .finish =
        (c, {}, .panic .notOneElement) := by simp [Builder.step]
      rw [heq]
      refine StepSpec.trivial hc (builderInv_empty _ _) ?_ ?_ (by simp) (by simp) (by simp)
      · simp [Builder.abs, SpecBuilder.step]
      · simp [Builder.abs, SpecBuilder.step, BOut.spec]

/-! ### The whole world -/

theorem worldInv_init (env : HashEnv) (cacheOf : Nat → Nat) : WorldInv env cacheOf {} := by
  constructor
  · rintro x y ⟨r, hr, _⟩
    cases hr <;> simp_all
  · intro c; constructor <;> simp
  · intro b; exact builderInv_empty _ _
  · simp

theorem World.Live.of_root_child {w : World} {r : GElem} (h : w.Live r) {x : GElem} (hx : x ∈ r.subs) :
    w.Live x := by
  obtain ⟨r', hr', hx'⟩ := h
  refine ⟨r', hr', ?_⟩
  suffices H : ∀ (n : GNode) (r : GElem), r ∈ n.subs → ∀ x ∈ r.subs, x ∈ n.subs by
    cases r' with
    | node n => exact H n r hx' x hx
    | token t =>
      simp only [GElem.subs, List.mem_singleton] at hx' ⊢
      subst hx'
      simpa [GElem.subs] using hx
  intro n
  induction n using GNode.ind with
  | h n ih =>
    intro r hr x hx
    rcases GNode.mem_subs.mp hr with rfl | ⟨e, he, hr'⟩
    · exact hx
    · refine GNode.mem_subs.mpr (.inr ⟨e, he, ?_⟩)
      obtain ⟨c, hc, rfl⟩ := List.mem_map.mp he
      cases c with
      | node rr m => exact ih rr m hc r hr' x hx
      | token rr t =>
        simp only [GChild.asRef_token, GElem.subs, List.mem_singleton] at hr' ⊢
        subst hr'
        simpa [GElem.subs] using hx

theorem InCache.root {w : World} {c : Nat} {e : GElem} (h : InCache (w.caches c) e) : w.Root e := by
  cases e with
  | node n => obtain ⟨h, hh⟩ := h; exact .cacheNode c h n hh
  | token t => obtain ⟨h, hh⟩ := h; exact .cacheToken c h t hh

theorem WorldInv.cacheCoh {env : HashEnv} {cacheOf : Nat → Nat} {w : World}
    (hw : WorldInv env cacheOf w) (b : Nat) :
    ∀ h n e, (h, n) ∈ (w.caches (cacheOf b)).nodes → e ∈ n.children →
      ∀ x ∈ (w.builders b).children, e.addr = x.2.addr → e = x.2 := by
  intro h n e hn he x hx ha
  exact hw.coherent e x.2 ((World.Root.cacheNode _ h n hn).live_child he)
    (World.Root.builder b x.1 x.2 hx).live ha

theorem WorldInv.call_spec {env : HashEnv} {cacheOf : Nat → Nat} {w : World}
    (hw : WorldInv env cacheOf w) (b : Nat) (op : BOp) (addr : Nat) :
    StepSpec env addr (w.caches (cacheOf b)) (w.builders b) op
      ((w.builders b).step env addr (w.caches (cacheOf b)) op) :=
  Builder.step_spec addr op (hw.cache _) (hw.builder b) (hw.cacheCoh b)

theorem BuilderInv.mono {env : HashEnv} {c c' : Cache} {b : Builder} (h : BuilderInv env c b)
    (hle : c.Le c') : BuilderInv env c' b :=
  ⟨h.le, h.sorted, h.wf, h.hash, fun he h0 => hle _ (h.cached he h0)⟩

theorem World.Coherent.mono {w w' : World} (h : w.Coherent) (hl : ∀ x, w'.Root x → w.Live x) :
    w'.Coherent := by
  rintro x y ⟨r, hr, hx⟩ ⟨r', hr', hy⟩ ha
  exact h x y ((hl r hr).of_root_child hx) ((hl r' hr').of_root_child hy) ha

theorem WorldInv.step {env : HashEnv} {cacheOf : Nat → Nat} {w : World}
    (hw : WorldInv env cacheOf w) (op : WOp) (hl : op.Legal w) :
    WorldInv env cacheOf (w.step env cacheOf op).1 := by
  cases op with
  | call b op addr =>
    have hs := hw.call_spec b op addr
    simp only [WOp.Legal] at hl
    obtain ⟨new, hnew, hn, ht, hch⟩ := hs.new
    simp only [World.step]
    generalize hr : (w.builders b).step env addr (w.caches (cacheOf b)) op = r at *
    obtain ⟨c', b', o⟩ := r
    dsimp only at *
    -- roots of the new world
    have hroots : ∀ (w' : World), w'.caches = (fun i => if i = cacheOf b then c' else w.caches i) →
        w'.builders = (fun i => if i = b then b' else w.builders i) →
        (∀ e ∈ w'.held, w.Live e) → ∀ r, w'.Root r → w.Live r ∨ r = new := by
      intro w' h1 h2 h3 r hr
      cases hr with
      | cacheNode c h n hm =>
        rw [h1] at hm; dsimp only at hm
        split at hm
        · rcases hn h n hm with h4 | h4
          · exact .inl (World.Root.cacheNode _ h n h4).live
          · exact .inr h4.symm
        · exact .inl (World.Root.cacheNode _ h n hm).live
      | cacheToken c h t hm =>
        rw [h1] at hm; dsimp only at hm
        split at hm
        · rcases ht h t hm with h4 | h4
          · exact .inl (World.Root.cacheToken _ h t h4).live
          · exact .inr h4.symm
        · exact .inl (World.Root.cacheToken _ h t hm).live
      | builder i h e hm =>
        rw [h2] at hm; dsimp only at hm
        split at hm
        · rcases hch h _ hm with h4 | h4 | h4
          · exact .inl (World.Root.builder b h _ h4).live
          · exact .inl h4.root.live
          · exact .inr h4.symm
        · exact .inl (World.Root.builder i h _ hm).live
      | held e hm => exact .inl (h3 _ hm)
    have hlive : ∀ (w' : World), (∀ r, w'.Root r → w.Live r ∨ r = new) →
        ∀ x, w'.Live x → w.Live x ∨ x = new := by
      rintro w' h x ⟨r, hr, hx⟩
      rcases h r hr with h1 | rfl
      · exact .inl (h1.of_root_child hx)
      · cases r with
        | token t => simp only [GElem.subs, List.mem_singleton] at hx; exact .inr hx
        | node n =>
          rcases GNode.mem_subs.mp hx with h2 | ⟨e, he, hx⟩
          · exact .inr h2
          · obtain ⟨h', hh⟩ := hnew.2 e he
            exact .inl ((World.Root.builder b h' e hh).live.of_root_child hx)
    have hnewaddr : new.addr = addr := by
      cases new with
      | token t => exact hnew
      | node n => exact hnew.1
    have hcoh : ∀ w' : World, (∀ r, w'.Root r → w.Live r ∨ r = new) → w'.Coherent := by
      intro w' h x y hx hy ha
      rcases hlive w' h x hx with h1 | rfl <;> rcases hlive w' h y hy with h2 | rfl
      · exact hw.coherent x y h1 h2 ha
      · exact absurd (ha.trans hnewaddr) (hl x h1)
      · exact absurd (ha.symm.trans hnewaddr) (hl y h2)
      · rfl
    have hheldLive : ∀ e ∈ w.held, w.Live e := fun e he => (World.Root.held e he).live
    constructor
    · apply hcoh
      apply hroots _ rfl rfl
      dsimp only
      split
      · rename_i n
        intro e he
        simp only [List.mem_cons] at he
        rcases he with rfl | he
        · obtain ⟨h, hh⟩ := hs.root n rfl
          exact (World.Root.builder b h _ hh).live
        · exact hheldLive e he
      · exact hheldLive
    · intro c
      dsimp only
      split
      · exact hs.cache
      · exact hw.cache c
    · intro i
      dsimp only
      by_cases hi : i = b
      · subst hi; simpa using hs.builder
      · rw [if_neg hi]
        split
        · rename_i h; exact (h ▸ hw.builder i).mono hs.le
        · exact hw.builder i
    · dsimp only
      split
      · rename_i n
        intro e he
        simp only [List.mem_cons] at he
        rcases he with rfl | he
        · obtain ⟨h, hh⟩ := hs.root n rfl
          exact (hw.builder b).wf hh
        · exact hw.heldWF e he
      · exact hw.heldWF
  | dropBuilder b =>
    refine ⟨hw.coherent.mono ?_, hw.cache, ?_, hw.heldWF⟩
    · intro x hx
      cases hx with
      | cacheNode c h n hm => exact (World.Root.cacheNode (w := w) c h n hm).live
      | cacheToken c h t hm => exact (World.Root.cacheToken (w := w) c h t hm).live
      | builder i h e hm =>
        simp only [World.step] at hm
        split at hm
        · simp at hm
        · exact (World.Root.builder i h _ hm).live
      | held e hm => exact (World.Root.held (w := w) _ hm).live
    · intro i
      simp only [World.step]
      split
      · exact builderInv_empty _ _
      · exact hw.builder i
  | dropCache c =>
    refine ⟨hw.coherent.mono ?_, ?_, ?_, hw.heldWF⟩
    · intro x hx
      cases hx with
      | cacheNode i h n hm =>
        simp only [World.step] at hm
        split at hm
        · simp at hm
        · exact (World.Root.cacheNode i h n hm).live
      | cacheToken i h t hm =>
        simp only [World.step] at hm
        split at hm
        · simp at hm
        · exact (World.Root.cacheToken i h t hm).live
      | builder i h e hm =>
        simp only [World.step] at hm
        split at hm
        · simp at hm
        · exact (World.Root.builder i h _ hm).live
      | held e hm => exact (World.Root.held (w := w) _ hm).live
    · intro i
      simp only [World.step]
      split
      · constructor <;> simp
      · exact hw.cache i
    · intro i
      simp only [World.step]
      split
      · exact builderInv_empty _ _
      · exact hw.builder i
  | other held => exact ⟨hl.1, hw.cache, hw.builder, hl.2⟩

theorem Run.inv {env : HashEnv} {cacheOf : Nat → Nat} {w w' : World} {l : List (WOp × BOut)}
    (h : Run env cacheOf w l w') (hw : WorldInv env cacheOf w) : WorldInv env cacheOf w' := by
  induction h with
  | nil => exact hw
  | snoc op _ hl ih => exact ih.step op hl

theorem World.step_cache_le {env : HashEnv} {cacheOf : Nat → Nat} {w : World}
    (hw : WorldInv env cacheOf w) (op : WOp) (c : Nat) (hop : op ≠ .dropCache c) :
    (w.caches c).Le ((w.step env cacheOf op).1.caches c) := by
  cases op with
  | call b op addr =>
    simp only [World.step]
    split
    · rename_i h; subst h; exact (hw.call_spec b op addr).le
    · exact fun _ h => h
  | dropBuilder b => exact fun _ h => h
  | dropCache i =>
    simp only [World.step]
    rw [if_neg (fun h => hop (by rw [h]))]
    exact fun _ h => h
  | other held => exact fun _ h => h

theorem Run.cache_le {env : HashEnv} {cacheOf : Nat → Nat} {w w' : World} {l : List (WOp × BOut)}
    (h : Run env cacheOf w l w') (hw : WorldInv env cacheOf w) (c : Nat)
    (hc : ∀ x ∈ l, x.1 ≠ .dropCache c) : (w.caches c).Le (w'.caches c) := by
  induction h with
  | nil => exact fun _ h => h
  | @snoc w' l op hr hl ih =>
    have h1 := ih (fun x hx => hc x (List.mem_append_left _ hx))
    have h2 := World.step_cache_le (hr.inv hw) op c (hc (op, _) (List.mem_append_right _ (List.mem_singleton.mpr rfl)))
    exact fun e he => h2 e (h1 e he)

/-- Interned elements with the same tree are the same allocation. -/
theorem CacheInv.shared {env : HashEnv} {c : Cache} (hc : CacheInv env c) :
    ∀ (e e' : GElem), InCache c e → InCache c e' → e.tree = e'.tree → e = e' := by
  suffices H : ∀ (n : GNode), InCache c (.node n) → ∀ n', InCache c (.node n') → n.tree = n'.tree → n = n' by
    intro e e' h h' ht
    cases e with
    | node n =>
      cases e' with
      | node n' => rw [H n h n' h' ht]
      | token t' => simp [GNode.tree_eq, GToken.tree] at ht
    | token t =>
      cases e' with
      | node n' => simp [GNode.tree_eq, GToken.tree] at ht
      | token t' =>
        obtain ⟨_, h⟩ := h
        obtain ⟨_, h'⟩ := h'
        simp only [GElem.tree_token, GToken.tree, Tree.token.injEq] at ht
        rw [hc.tokUniq h h' ht.1 ht.2]
  intro n
  induction n using GNode.ind with
  | h n ih =>
    rintro ⟨h, hn⟩ n' ⟨h', hn'⟩ ht
    rw [GNode.tree_eq, GNode.tree_eq, Tree.node.injEq] at ht
    refine hc.nodeUniq hn hn' ht.1 ?_
    have key : ∀ (l l' : List GElem), (∀ e ∈ l, e ∈ n.children) → (∀ e ∈ l', e ∈ n'.children) →
        l.map GElem.tree = l'.map GElem.tree → l = l' := by
      intro l
      induction l with
      | nil => intro l' _ _ h; cases l' <;> simp_all
      | cons x l ihl =>
        intro l' h1 h2 h3
        cases l' with
        | nil => simp at h3
        | cons y l' =>
          simp only [List.map_cons, List.cons.injEq] at h3
          have hx := (hc.nodeKids hn (h1 x (by simp))).2
          have hy := (hc.nodeKids hn' (h2 y (by simp))).2
          have : x = y := by
            have hxm := h1 x (by simp)
            obtain ⟨ch, hch, rfl⟩ := List.mem_map.mp hxm
            cases ch with
            | node r m =>
              cases y with
              | node m' => rw [GChild.asRef_node, ih r m hch hx m' hy h3.1]
              | token t' => simp [GNode.tree_eq, GToken.tree] at h3
            | token r t =>
              cases y with
              | node m' => simp [GNode.tree_eq, GToken.tree] at h3
              | token t' =>
                obtain ⟨_, hx⟩ := hx
                obtain ⟨_, hy⟩ := hy
                have h4 := h3.1
                simp only [GChild.asRef_token, GElem.tree_token, GToken.tree, Tree.token.injEq] at h4
                rw [GChild.asRef_token, hc.tokUniq hx hy h4.1 h4.2]
          rw [this, ihl l' (fun e he => h1 e (by simp [he])) (fun e he => h2 e (by simp [he])) h3.2]
    rw [key n.children n'.children (fun _ h => h) (fun _ h => h) ht.2]

end Rowan

/-! ### Projection to one builder -/
namespace Rowan

/-- The calls made on builder `b`, with their outcomes. -/
def callsOf (b : Nat) (l : List (WOp × BOut)) : List (BOp × BOut) :=
  l.filterMap fun x => match x.1 with
    | .call b' op _ => if b' = b then some (op, x.2) else none
    | _ => none

/-- Builder `b` is neither dropped nor recreated during `l`. -/
def Undisturbed (cacheOf : Nat → Nat) (b : Nat) (l : List (WOp × BOut)) : Prop :=
  ∀ x ∈ l, x.1 ≠ .dropBuilder b ∧ x.1 ≠ .dropCache (cacheOf b)

theorem SpecBuilder.run_append (s : SpecBuilder) (a b : List BOp) :
    s.run (a ++ b) = ((((s.run a).1).run b).1, (s.run a).2 ++ (((s.run a).1).run b).2) := by
  induction a generalizing s with
  | nil => simp [SpecBuilder.run]
  | cons op a ih => simp [SpecBuilder.run, ih]

theorem SpecBuilder.run_singleton (s : SpecBuilder) (op : BOp) :
    s.run [op] = ((s.step op).1, [(s.step op).2]) := by simp [SpecBuilder.run]

theorem Run.project {env : HashEnv} {cacheOf : Nat → Nat} {w w' : World} {l : List (WOp × BOut)}
    (h : Run env cacheOf w l w') (hw : WorldInv env cacheOf w) (b : Nat)
    (hu : Undisturbed cacheOf b l) :
    (w.builders b).abs.run ((callsOf b l).map (·.1)) =
      ((w'.builders b).abs, (callsOf b l).map (fun x => x.2.spec)) := by
  induction h with
  | nil => simp [callsOf, SpecBuilder.run]
  | @snoc w' l op hr hl ih =>
    have ih := ih (fun x hx => hu x (List.mem_append_left _ hx))
    have hop := hu (op, _) (List.mem_append_right _ (List.mem_singleton.mpr rfl))
    have hinv := hr.inv hw
    cases op with
    | call b' op addr =>
      have hs := hinv.call_spec b' op addr
      by_cases hb : b' = b
      · subst hb
        have hc : callsOf b' (l ++ [(.call b' op addr, (w'.step env cacheOf (.call b' op addr)).2)]) =
            callsOf b' l ++ [(op, (w'.step env cacheOf (.call b' op addr)).2)] := by
          simp [callsOf]
        rw [hc, List.map_append, List.map_append, SpecBuilder.run_append, ih]
        simp only [List.map_cons, List.map_nil, SpecBuilder.run_singleton, World.step, if_true]
        rw [hs.abs, hs.out]
      · have hc : callsOf b (l ++ [(.call b' op addr, (w'.step env cacheOf (.call b' op addr)).2)]) =
            callsOf b l := by
          simp [callsOf, hb]
        rw [hc, ih]
        simp only [World.step]
        rw [if_neg (fun h => hb h.symm)]
    | dropBuilder b' =>
      have hb : b ≠ b' := fun h => hop.1 (by rw [h])
      have hc : ∀ o, callsOf b (l ++ [(.dropBuilder b', o)]) = callsOf b l := by simp [callsOf]
      rw [hc, ih]
      simp only [World.step]
      rw [if_neg hb]
    | dropCache c =>
      have hb : cacheOf b ≠ c := fun h => hop.2 (by rw [h])
      have hc : ∀ o, callsOf b (l ++ [(.dropCache c, o)]) = callsOf b l := by simp [callsOf]
      rw [hc, ih]
      simp only [World.step]
      rw [if_neg hb]
    | other held =>
      have hc : ∀ o, callsOf b (l ++ [(.other held, o)]) = callsOf b l := by simp [callsOf]
      rw [hc, ih]
      simp only [World.step]

/-! ### Legal addresses always exist -/

def World.Bounded (w : World) : Prop := ∃ N, ∀ x, w.Live x → x.addr < N

theorem bounded_list (l : List GElem) : ∃ N, ∀ x ∈ l, x.addr < N := by
  induction l with
  | nil => exact ⟨0, by simp⟩
  | cons x l ih =>
    obtain ⟨N, h⟩ := ih
    refine ⟨max N (x.addr + 1), ?_⟩
    intro y hy
    simp only [List.mem_cons] at hy
    rcases hy with rfl | hy
    · omega
    · have := h y hy; omega

theorem World.Bounded.of_roots {w w' : World} (h : w.Bounded) (l : List GElem)
    (hr : ∀ r, w'.Root r → w.Live r ∨ r ∈ l) : w'.Bounded := by
  obtain ⟨N, hN⟩ := h
  obtain ⟨M, hM⟩ := bounded_list (l.flatMap GElem.subs)
  refine ⟨max N M, ?_⟩
  rintro x ⟨r, hr', hx⟩
  rcases hr r hr' with h | h
  · have := hN x (h.of_root_child hx); omega
  · have := hM x (List.mem_flatMap.mpr ⟨r, h, hx⟩); omega

theorem World.Bounded.step {env : HashEnv} {cacheOf : Nat → Nat} {w : World}
    (hw : WorldInv env cacheOf w) (hb : w.Bounded) (op : WOp) :
    (w.step env cacheOf op).1.Bounded := by
  cases op with
  | call b op addr =>
    have hs := hw.call_spec b op addr
    obtain ⟨new, hnew, hn, ht, hch⟩ := hs.new
    refine hb.of_roots [new] ?_
    intro r hr
    simp only [List.mem_singleton]
    simp only [World.step] at hr
    generalize hrr : (w.builders b).step env addr (w.caches (cacheOf b)) op = rr at *
    obtain ⟨c', b', o⟩ := rr
    dsimp only at *
    cases hr with
    | cacheNode c h n hm =>
      dsimp only at hm
      split at hm
      · rcases hn h n hm with h4 | h4
        · exact .inl (World.Root.cacheNode _ h n h4).live
        · exact .inr h4.symm
      · exact .inl (World.Root.cacheNode _ h n hm).live
    | cacheToken c h t hm =>
      dsimp only at hm
      split at hm
      · rcases ht h t hm with h4 | h4
        · exact .inl (World.Root.cacheToken _ h t h4).live
        · exact .inr h4.symm
      · exact .inl (World.Root.cacheToken _ h t hm).live
    | builder i h e hm =>
      dsimp only at hm
      split at hm
      · rcases hch h _ hm with h4 | h4 | h4
        · exact .inl (World.Root.builder b h _ h4).live
        · exact .inl h4.root.live
        · exact .inr h4.symm
      · exact .inl (World.Root.builder i h _ hm).live
    | held e hm =>
      dsimp only at hm
      split at hm
      · rename_i n
        simp only [List.mem_cons] at hm
        rcases hm with rfl | hm
        · obtain ⟨h, hh⟩ := hs.root n rfl
          exact .inl (World.Root.builder b h _ hh).live
        · exact .inl (World.Root.held _ hm).live
      · exact .inl (World.Root.held _ hm).live
  | dropBuilder b =>
    refine hb.of_roots [] ?_
    intro x hx
    left
    cases hx with
    | cacheNode c h n hm => exact (World.Root.cacheNode (w := w) c h n hm).live
    | cacheToken c h t hm => exact (World.Root.cacheToken (w := w) c h t hm).live
    | builder i h e hm =>
      simp only [World.step] at hm
      split at hm
      · simp at hm
      · exact (World.Root.builder i h _ hm).live
    | held e hm => exact (World.Root.held (w := w) _ hm).live
  | dropCache c =>
    refine hb.of_roots [] ?_
    intro x hx
    left
    cases hx with
    | cacheNode i h n hm =>
      simp only [World.step] at hm
      split at hm
      · simp at hm
      · exact (World.Root.cacheNode i h n hm).live
    | cacheToken i h t hm =>
      simp only [World.step] at hm
      split at hm
      · simp at hm
      · exact (World.Root.cacheToken i h t hm).live
    | builder i h e hm =>
      simp only [World.step] at hm
      split at hm
      · simp at hm
      · exact (World.Root.builder i h _ hm).live
    | held e hm => exact (World.Root.held (w := w) _ hm).live
  | other held =>
    refine hb.of_roots held ?_
    intro x hx
    cases hx with
    | cacheNode c h n hm => exact .inl (World.Root.cacheNode (w := w) c h n hm).live
    | cacheToken c h t hm => exact .inl (World.Root.cacheToken (w := w) c h t hm).live
    | builder i h e hm => exact .inl (World.Root.builder (w := w) i h _ hm).live
    | held e hm => exact .inr hm

theorem Run.bounded {env : HashEnv} {cacheOf : Nat → Nat} {w w' : World} {l : List (WOp × BOut)}
    (h : Run env cacheOf w l w') (hw : WorldInv env cacheOf w) (hb : w.Bounded) : w'.Bounded := by
  induction h with
  | nil => exact hb
  | snoc op hr _ ih => exact World.Bounded.step (hr.inv hw) ih op

theorem bounded_init : ({} : World).Bounded := by
  refine ⟨0, ?_⟩
  rintro x ⟨r, hr, _⟩
  cases hr <;> simp_all

theorem Run.append {env : HashEnv} {cacheOf : Nat → Nat} {w w' w'' : World} {l l' : List (WOp × BOut)}
    (h : Run env cacheOf w l w') (h' : Run env cacheOf w' l' w'') :
    Run env cacheOf w (l ++ l') w'' := by
  induction h' with
  | nil => simpa using h
  | snoc op _ hl ih => rw [← List.append_assoc]; exact .snoc op ih hl

/-- Any list of calls on a builder can be executed from any reachable world. -/
theorem Run.exists_calls {env : HashEnv} {cacheOf : Nat → Nat} {w : World}
    (hw : WorldInv env cacheOf w) (hb : w.Bounded) (b : Nat) (ops : List BOp) :
    ∃ l w', Run env cacheOf w l w' ∧ (callsOf b l).map (·.1) = ops ∧ Undisturbed cacheOf b l := by
  induction ops generalizing w with
  | nil => exact ⟨[], w, .nil w, rfl, by simp [Undisturbed]⟩
  | cons op ops ih =>
    obtain ⟨N, hN⟩ := hb
    have hl : (WOp.call b op N).Legal w := fun x hx => Nat.ne_of_lt (hN x hx)
    obtain ⟨l, w', h1, h2, h3⟩ := ih (hw.step _ hl) (World.Bounded.step hw ⟨N, hN⟩ (.call b op N))
    refine ⟨[(.call b op N, (w.step env cacheOf (.call b op N)).2)] ++ l, w', ?_, ?_, ?_⟩
    · exact Run.append (Run.snoc (l := []) (.call b op N) (.nil w) hl) h1
    · simp only [callsOf, List.filterMap_append, List.map_append] at h2 ⊢
      rw [h2]; simp
    · intro x hx
      simp only [List.mem_append, List.mem_singleton] at hx
      rcases hx with rfl | hx
      · simp
      · exact h3 x hx

/-! ### The specification builder on the events of trees -/

mutual
theorem SpecBuilder.run_events : ∀ (t : Tree) (s : SpecBuilder),
    s.run t.events = ({ s with trees := s.trees ++ [t] }, t.events.map fun _ => .unit)
  | .token k x, s => by simp [Tree.events, SpecBuilder.run, SpecBuilder.step]
  | .node k cs, s => by
    have h := SpecBuilder.run_eventss cs { s with parents := (k, s.trees.length) :: s.parents }
    simp only [Tree.events, SpecBuilder.run, SpecBuilder.step, SpecBuilder.run_append, h]
    simp
theorem SpecBuilder.run_eventss : ∀ (ts : List Tree) (s : SpecBuilder),
    s.run (Tree.eventss ts) = ({ s with trees := s.trees ++ ts }, (Tree.eventss ts).map fun _ => .unit)
  | [], s => by simp [Tree.eventss, SpecBuilder.run]
  | t :: ts, s => by
    have h1 := SpecBuilder.run_events t s
    have h2 := SpecBuilder.run_eventss ts { s with trees := s.trees ++ [t] }
    simp only [Tree.eventss, SpecBuilder.run_append, h1, h2]
    simp
end

theorem Run.root_wf {env : HashEnv} {cacheOf : Nat → Nat} {w w' : World} {l : List (WOp × BOut)}
    (h : Run env cacheOf w l w') (hw : WorldInv env cacheOf w) {op : WOp} {n : GNode}
    (hm : (op, BOut.root n) ∈ l) : n.WF := by
  induction h with
  | nil => simp at hm
  | @snoc w' l op' hr hl ih =>
    simp only [List.mem_append, List.mem_singleton, Prod.mk.injEq] at hm
    rcases hm with hm | ⟨rfl, hm⟩
    · exact ih hm
    · have hinv := hr.inv hw
      cases op with
      | call b op addr =>
        have hs := hinv.call_spec b op addr
        simp only [World.step] at hm
        obtain ⟨h, hh⟩ := hs.root n hm.symm
        exact (hinv.builder b).wf hh
      | _ => simp [World.step] at hm

end Rowan
