import Verif.BuildCost
import Verif.Spec.BuildCost
import Verif.BuilderLemmas
/-!
# Lemmas about the number of hashes computed while trees are built
-/
namespace Rowan

theorem Tree.counts_append (ts us : List Tree) : Tree.counts (ts ++ us) = Tree.counts ts + Tree.counts us := by
  induction ts with
  | nil => simp [Tree.counts]
  | cons t ts ih => simp only [List.cons_append, Tree.counts, ih]; omega

theorem Tree.count_pos (t : Tree) : 0 < t.count := by
  cases t <;> simp only [Tree.count] <;> omega

theorem Tree.count_le_counts {t : Tree} {ts : List Tree} (h : t ∈ ts) : t.count ≤ Tree.counts ts := by
  induction ts with
  | nil => cases h
  | cons u ts ih =>
    simp only [Tree.counts]
    rcases List.mem_cons.mp h with rfl | h
    · omega
    · have := ih h; omega

/-! ### The counters do not change the results -/

mutual
theorem GNode.rehashC_fst (env : HashEnv) : ∀ n : GNode, (n.rehashC env).1 = n.rehash env
  | .mk _ k _ cs => by simp only [GNode.rehashC, GNode.rehash, GChild.rehashesC_fst env cs]
theorem GChild.rehashC_fst (env : HashEnv) : ∀ c : GChild, (c.rehashC env).1 = c.rehash env
  | .node _ n => by simp only [GChild.rehashC, GChild.rehash, GNode.rehashC_fst env n]
  | .token _ t => by simp only [GChild.rehashC, GChild.rehash]
theorem GChild.rehashesC_fst (env : HashEnv) : ∀ cs : List GChild, (GChild.rehashesC env cs).1 = GChild.rehashes env cs
  | [] => rfl
  | c :: cs => by simp only [GChild.rehashesC, GChild.rehashes, GChild.rehashC_fst env c, GChild.rehashesC_fst env cs]
end

mutual
theorem GNode.rehashC_snd (env : HashEnv) : ∀ n : GNode, (n.rehashC env).2 = n.tree.count
  | .mk _ k _ cs => by simp only [GNode.rehashC, GNode.tree, Tree.count, GChild.rehashesC_snd env cs]
theorem GChild.rehashC_snd (env : HashEnv) : ∀ c : GChild, (c.rehashC env).2 = c.tree.count
  | .node _ n => by simp only [GChild.rehashC, GChild.tree, GNode.rehashC_snd env n]
  | .token _ t => by simp only [GChild.rehashC, GChild.tree, GToken.tree, Tree.count]
theorem GChild.rehashesC_snd (env : HashEnv) : ∀ cs : List GChild, (GChild.rehashesC env cs).2 = Tree.counts (GChild.trees cs)
  | [] => rfl
  | c :: cs => by simp only [GChild.rehashesC, GChild.trees, Tree.counts, GChild.rehashC_snd env c, GChild.rehashesC_snd env cs]
end

theorem refile_fst {α : Type} (hasher : α → Nat × Nat) (l : List (Nat × α)) :
    (refile hasher l).1 = l.map (fun e => ((hasher e.2).1, e.2)) := by
  induction l with
  | nil => rfl
  | cons e l ih => simp only [refile, List.map_cons, ih]

theorem refile_le {α : Type} {hasher : α → Nat × Nat} {m : Nat} : ∀ {l : List (Nat × α)}, (∀ e ∈ l, (hasher e.2).2 ≤ m) →
    (refile hasher l).2 ≤ m * l.length
  | [], _ => by simp [refile]
  | e :: l, h => by
    have h1 := h e (List.mem_cons_self ..)
    have h2 := refile_le (l := l) fun e he => h e (List.mem_cons_of_mem _ he)
    simp only [refile, List.length_cons, Nat.mul_add, Nat.mul_one]
    omega

theorem tableInsertC_fst {α : Type} (grow : Nat → Bool) (hasher : α → Nat × Nat) (h : Nat) (x : α) (l : List (Nat × α)) :
    (tableInsertC grow hasher h x l).1 = tableInsert grow (fun a => (hasher a).1) h x l := by
  unfold tableInsertC tableInsert
  split <;> simp [refile_fst]

theorem tableInsertC_length {α : Type} (grow : Nat → Bool) (hasher : α → Nat × Nat) (h : Nat) (x : α) (l : List (Nat × α)) :
    (tableInsertC grow hasher h x l).1.length = l.length + 1 := by
  rw [tableInsertC_fst]; unfold tableInsert; split <;> simp

theorem tableInsertC_values {α : Type} (grow : Nat → Bool) (hasher : α → Nat × Nat) (h : Nat) (x : α) (l : List (Nat × α)) :
    (tableInsertC grow hasher h x l).1.map (·.2) = x :: l.map (·.2) := by
  rw [tableInsertC_fst]; unfold tableInsert; split <;> simp

theorem tableInsertC_le {α : Type} {grow : Nat → Bool} {hasher : α → Nat × Nat} {m : Nat} {h : Nat} {x : α} {l : List (Nat × α)}
    (hm : ∀ e ∈ l, (hasher e.2).2 ≤ m) :
    (tableInsertC grow hasher h x l).2 + m * moved grow l.length ≤ m * moved grow (l.length + 1) := by
  simp only [tableInsertC, moved]
  split
  · have := refile_le hm
    simp only [Nat.mul_add]
    omega
  · simp

theorem Cache.tokenC_fst (env : HashEnv) (c : Cache) (addr : Nat) (k : SyntaxKind) (s : List Char) :
    (c.tokenC env addr k s).1 = c.token env addr k s := by
  unfold Cache.tokenC Cache.token
  simp only
  generalize env.tokens.find _ _ _ = x
  cases x with
  | some t => rfl
  | none => simp only [tableInsertC_fst]

theorem Cache.nodeC_fst (env : HashEnv) (c : Cache) (addr : Nat) (k : SyntaxKind) (cs : List (Nat × GElem)) :
    (c.nodeC env addr k cs).1 = c.node env addr k cs := by
  unfold Cache.nodeC Cache.node
  simp only
  split
  · rfl
  · split
    · rfl
    · generalize env.nodes.find _ _ _ = x
      cases x with
      | some n => rfl
      | none =>
        have : (fun a => (GNode.rehashC env a).1) = GNode.rehash env := funext fun n => n.rehashC_fst env
        simp only [tableInsertC_fst, this]

theorem Builder.stepC_fst (env : HashEnv) (addr : Nat) (c : Cache) (b : Builder) (op : BOp) :
    (b.stepC env addr c op).1 = b.step env addr c op := by
  cases op with
  | token k s => simp only [Builder.stepC, Builder.step, Cache.tokenC_fst]
  | finishNode =>
    simp only [Builder.stepC, Builder.step]
    generalize b.parents = ps
    match ps with
    | [] => rfl
    | (k, f) :: ps =>
      simp only
      split
      · rfl
      · simp only [Cache.nodeC_fst]
  | _ => rfl

/-! ### One call -/

/-- What a call costs, in terms of the entries moved (`moved`), if no cached tree has more than `m` elements. -/
structure CostSpec (env : HashEnv) (m : Nat) (c c' : Cache) (cost : Nat) : Prop where
  cost : cost + moved env.grow c.tokens.length + m * moved env.grow c.nodes.length ≤
    1 + moved env.grow c'.tokens.length + m * moved env.grow c'.nodes.length
  tokens : c.tokens.length ≤ c'.tokens.length
  nodes : c.nodes.length ≤ c'.nodes.length
  both : c'.tokens.length + c'.nodes.length ≤ c.tokens.length + c.nodes.length + 1

theorem CostSpec.none {env : HashEnv} {m : Nat} {c : Cache} {n : Nat} (h : n ≤ 1) : CostSpec env m c c n :=
  ⟨by omega, Nat.le_refl _, Nat.le_refl _, by omega⟩

theorem Builder.stepC_cost {env : HashEnv} {m : Nat} {c : Cache} (hm : ∀ h n, (h, n) ∈ c.nodes → n.tree.count ≤ m)
    (addr : Nat) (b : Builder) (op : BOp) :
    CostSpec env m c (b.step env addr c op).1 (b.stepC env addr c op).2 := by
  rw [← Builder.stepC_fst]
  cases op with
  | token k s =>
    simp only [Builder.stepC, Cache.tokenC]
    split
    · exact .none (Nat.le_refl _)
    · have h := tableInsertC_le (grow := env.grow) (hasher := fun t : GToken => (env.tokenHash t.kind t.text, 1)) (m := 1)
        (h := env.tokenHash k s) (x := GToken.new addr k s) (l := c.tokens) (fun _ _ => Nat.le_refl _)
      have e := tableInsertC_length env.grow (fun t : GToken => (env.tokenHash t.kind t.text, 1)) (env.tokenHash k s)
        (GToken.new addr k s) c.tokens
      simp only [Nat.one_mul] at h
      constructor <;> simp only [e] <;> omega
  | finishNode =>
    simp only [Builder.stepC]
    split
    · exact .none (Nat.zero_le _)
    · split
      · exact .none (Nat.zero_le _)
      · simp only [Cache.nodeC]
        split
        · exact .none (Nat.zero_le _)
        · split
          · exact .none (Nat.le_refl _)
          · split
            · exact .none (Nat.le_refl _)
            · rename_i k f ps _ _ _ _ _ _
              have h := tableInsertC_le (grow := env.grow) (hasher := GNode.rehashC env) (m := m)
                (h := env.nodeHash k ((b.children.drop f).map (·.1)))
                (x := GNode.new addr k ((b.children.drop f).map (·.2))) (l := c.nodes)
                (fun e he => by rw [GNode.rehashC_snd]; exact hm e.1 e.2 he)
              have e := tableInsertC_length env.grow (GNode.rehashC env) (env.nodeHash k ((b.children.drop f).map (·.1)))
                (GNode.new addr k ((b.children.drop f).map (·.2))) c.nodes
              constructor <;> simp only [e] <;> omega
  | startNode k => exact .none (Nat.zero_le _)
  | startNodeAt cp k =>
    have : ((b.stepC env addr c (.startNodeAt cp k)).1).1 = c := by
      simp only [Builder.stepC, Builder.step]
      repeat' split
      all_goals rfl
    rw [this]; exact .none (Nat.zero_le _)
  | finish =>
    have : ((b.stepC env addr c .finish).1).1 = c := by
      simp only [Builder.stepC, Builder.step]
      repeat' split
      all_goals rfl
    rw [this]; exact .none (Nat.zero_le _)

/-- The entries that a call adds. -/
theorem Builder.step_entries {env : HashEnv} {m : Nat} {c : Cache} (hm : ∀ h n, (h, n) ∈ c.nodes → n.tree.count ≤ m)
    {addr : Nat} {b : Builder} (hb : Tree.counts (b.children.map fun x => x.2.tree) ≤ m) (op : BOp) :
    ∀ h n, (h, n) ∈ (b.step env addr c op).1.nodes → n.tree.count ≤ m + 1 := by
  have hm' : ∀ h n, (h, n) ∈ c.nodes → n.tree.count ≤ m + 1 := fun h n hn => Nat.le_succ_of_le (hm h n hn)
  cases op with
  | token k s =>
    simp only [Builder.step, Cache.token]
    split <;> exact hm'
  | finishNode =>
    simp only [Builder.step]
    split
    · exact hm'
    · split
      · exact hm'
      · simp only [Cache.node]
        split
        · exact hm'
        · split
          · exact hm'
          · split
            · exact hm'
            · rename_i k f ps _ _ _ _ _ _
              intro h n hn
              have hv : n ∈ (tableInsert env.grow (GNode.rehash env) (env.nodeHash k ((b.children.drop f).map (·.1)))
                (GNode.new addr k ((b.children.drop f).map (·.2))) c.nodes).map (·.2) := List.mem_map.mpr ⟨_, hn, rfl⟩
              have : (fun a => (GNode.rehashC env a).1) = GNode.rehash env := funext fun n => n.rehashC_fst env
              rw [← this, ← tableInsertC_fst, tableInsertC_values] at hv
              rcases List.mem_cons.mp hv with rfl | hv
              · rw [GNode.tree_eq, Tree.count, GNode.children_new]
                have e : b.children.map (fun x => x.2.tree) = (b.children.take f).map (fun x => x.2.tree) ++
                    ((b.children.drop f).map (·.2)).map GElem.tree := by
                  rw [List.map_map]
                  conv => lhs; rw [← List.take_append_drop f b.children, List.map_append]
                  rfl
                rw [e, Tree.counts_append] at hb
                omega
              · obtain ⟨e, he, rfl⟩ := List.mem_map.mp hv
                exact hm' e.1 e.2 he
  | startNode k => exact hm'
  | startNodeAt cp k =>
    simp only [Builder.step]
    repeat' split
    all_goals exact hm'
  | finish =>
    simp only [Builder.step]
    repeat' split
    all_goals exact hm'

theorem SpecBuilder.step_counts (b : SpecBuilder) (op : BOp) : Tree.counts (b.step op).1.trees ≤ Tree.counts b.trees + 1 := by
  cases op with
  | token k s => simp [SpecBuilder.step, Tree.counts_append, Tree.counts, Tree.count]
  | startNode k => simp [SpecBuilder.step]
  | finishNode =>
    simp only [SpecBuilder.step]
    split
    · simp
    · rename_i k f ps _
      simp only [Tree.counts_append, Tree.counts, Tree.count]
      have := Tree.counts_append (b.trees.take f) (b.trees.drop f)
      rw [List.take_append_drop] at this
      omega
  | startNodeAt cp k => simp only [SpecBuilder.step]; split <;> simp
  | finish => simp only [SpecBuilder.step]; split <;> simp [Tree.counts]

/-! ### Runs -/

/-- The state after some steps. -/
def World.after (env : HashEnv) (cacheOf : Nat → Nat) : World → List WOp → World
  | w, [] => w
  | w, op :: ops => World.after env cacheOf (w.step env cacheOf op).1 ops

theorem World.after_append (env : HashEnv) (cacheOf : Nat → Nat) : ∀ (a b : List WOp) (w : World),
    w.after env cacheOf (a ++ b) = (w.after env cacheOf a).after env cacheOf b
  | [], _, _ => rfl
  | _ :: a, b, _ => World.after_append env cacheOf a b _

theorem Run.after_eq {env : HashEnv} {cacheOf : Nat → Nat} {w w' : World} {l : List (WOp × BOut)} (h : Run env cacheOf w l w') :
    w.after env cacheOf (l.map (·.1)) = w' := by
  induction h with
  | nil => rfl
  | snoc op _ _ ih => rw [List.map_append, World.after_append, ih]; rfl

theorem World.hashTotal_append (env : HashEnv) (cacheOf : Nat → Nat) (c : Nat) : ∀ (a b : List WOp) (w : World),
    w.hashTotal env cacheOf c (a ++ b) =
      w.hashTotal env cacheOf c a + (w.after env cacheOf a).hashTotal env cacheOf c b
  | [], _, _ => by simp [World.hashTotal, World.after]
  | _ :: a, b, _ => by
    simp only [List.cons_append, World.hashTotal, World.after, World.hashTotal_append env cacheOf c a b, Nat.add_assoc]

theorem callsOn_append (cacheOf : Nat → Nat) (c : Nat) (a b : List WOp) :
    callsOn cacheOf c (a ++ b) = callsOn cacheOf c a + callsOn cacheOf c b := by
  induction a with
  | nil => simp [callsOn]
  | cons op a ih => cases op <;> simp only [List.cons_append, callsOn, ih] <;> omega

theorem Run.total_snoc {env : HashEnv} {cacheOf : Nat → Nat} {w w' : World} {l : List (WOp × BOut)} (h : Run env cacheOf w l w')
    (c : Nat) (op : WOp) (o : BOut) :
    w.hashTotal env cacheOf c ((l ++ [(op, o)]).map (·.1)) =
      w.hashTotal env cacheOf c (l.map (·.1)) + w'.hashes env cacheOf c op := by
  rw [List.map_append, World.hashTotal_append, h.after_eq]
  simp [World.hashTotal]

/-- Sizes of the trees in a cache and in its builders. -/
theorem Run.counts_le {env : HashEnv} {cacheOf : Nat → Nat} {w : World} {l : List (WOp × BOut)} (h : Run env cacheOf {} l w)
    (c : Nat) :
    (∀ b, cacheOf b = c → Tree.counts ((w.builders b).children.map fun x => x.2.tree) ≤ callsOn cacheOf c (l.map (·.1))) ∧
    ∀ h n, (h, n) ∈ (w.caches c).nodes → n.tree.count ≤ callsOn cacheOf c (l.map (·.1)) := by
  generalize hw0 : ({} : World) = w0 at h
  induction h with
  | nil => subst hw0; exact ⟨fun b _ => by simp [Tree.counts], fun h n hn => by simp at hn⟩
  | @snoc w' l op hr hl ih =>
    obtain ⟨ih1, ih2⟩ := ih
    subst hw0
    have hinv := hr.inv (worldInv_init env cacheOf)
    rw [List.map_append, callsOn_append]
    cases op with
    | call b op addr =>
      have hs := hinv.call_spec b op addr
      simp only [List.map_cons, List.map_nil, callsOn, World.step]
      constructor
      · intro i hi
        by_cases hib : i = b
        · subst hib
          simp only [if_true, hi]
          have e : Tree.counts (((w'.builders i).step env addr (w'.caches (cacheOf i)) op).2.1.children.map fun x => x.2.tree) =
            Tree.counts (((w'.builders i).abs.step op).1.trees) := by rw [← hs.abs]; rfl
          have := SpecBuilder.step_counts (w'.builders i).abs op
          have h1 := ih1 i hi
          rw [hi] at e
          rw [e]
          simp only [Builder.abs] at this ⊢
          omega
        · rw [if_neg hib]; have := ih1 i hi; omega
      · intro h n hn
        by_cases hc : c = cacheOf b
        · subst hc
          simp only [if_true] at hn ⊢
          have := Builder.step_entries ih2 (ih1 b rfl) op h n hn
          omega
        · rw [if_neg hc] at hn
          have := ih2 h n hn; omega
    | dropBuilder b =>
      simp only [List.map_cons, List.map_nil, callsOn, World.step, Nat.add_zero]
      refine ⟨fun i hi => ?_, ih2⟩
      by_cases hib : i = b
      · rw [if_pos hib]; simp [Tree.counts]
      · rw [if_neg hib]; exact ih1 i hi
    | dropCache c' =>
      simp only [List.map_cons, List.map_nil, callsOn, World.step, Nat.add_zero]
      refine ⟨fun i hi => ?_, fun h n hn => ?_⟩
      · by_cases hic : cacheOf i = c'
        · rw [if_pos hic]; simp [Tree.counts]
        · rw [if_neg hic]; exact ih1 i hi
      · by_cases hcc : c = c'
        · rw [if_pos hcc] at hn; simp at hn
        · rw [if_neg hcc] at hn; exact ih2 h n hn
    | other held => simp only [List.map_cons, List.map_nil, callsOn, World.step, Nat.add_zero]; exact ⟨ih1, ih2⟩

/-- The whole work, in terms of the entries moved. -/
theorem Run.total_le {env : HashEnv} (hg : Doubling env.grow) {cacheOf : Nat → Nat} {w : World} {l : List (WOp × BOut)}
    (h : Run env cacheOf {} l w) (c m : Nat) (hm1 : 1 ≤ m)
    (hm : ∀ l₁ w₁, l₁ <+: l → Run env cacheOf {} l₁ w₁ → ∀ h n, (h, n) ∈ (w₁.caches c).nodes → n.tree.count ≤ m) :
    ({} : World).hashTotal env cacheOf c (l.map (·.1)) + 2 * (w.caches c).tokens.length + m * (2 * (w.caches c).nodes.length) ≤
      callsOn cacheOf c (l.map (·.1)) * (2 * m + 1) + moved env.grow (w.caches c).tokens.length +
        m * moved env.grow (w.caches c).nodes.length := by
  generalize hw0 : ({} : World) = w0 at h hm ⊢
  induction h with
  | nil => subst hw0; simp [World.hashTotal, callsOn, moved]
  | @snoc w' l op hr hl ih =>
    have ih := ih (fun l₁ w₁ h1 h2 => hm l₁ w₁ (h1.trans (List.prefix_append _ _)) h2)
    subst hw0
    have hent := hm l w' (List.prefix_append _ _) hr
    rw [hr.total_snoc, List.map_append, callsOn_append]
    cases op with
    | call b op addr =>
      simp only [List.map_cons, List.map_nil, callsOn, World.step, World.hashes]
      by_cases hc : cacheOf b = c
      · subst hc
        simp only [if_true]
        have hs := Builder.stepC_cost (env := env) hent addr (w'.builders b) op
        obtain ⟨h1, h2, h3, h4⟩ := hs
        generalize ((w'.builders b).step env addr (w'.caches (cacheOf b)) op).1 = c' at *
        generalize ((w'.builders b).stepC env addr (w'.caches (cacheOf b)) op).2 = cost at *
        generalize w'.caches (cacheOf b) = c0 at *
        generalize moved env.grow c'.tokens.length = a1 at *
        generalize moved env.grow c'.nodes.length = a2 at *
        generalize moved env.grow c0.tokens.length = a3 at *
        generalize moved env.grow c0.nodes.length = a4 at *
        generalize callsOn cacheOf (cacheOf b) (l.map (·.1)) = N at *
        obtain ⟨dt, hdt⟩ := Nat.le.dest h2
        obtain ⟨dn, hdn⟩ := Nat.le.dest h3
        have hd : dt + dn ≤ 1 := by omega
        rw [← hdt, ← hdn]
        have e1 : (N + (1 + 0)) * (2 * m + 1) = N * (2 * m + 1) + (2 * m + 1) := by rw [Nat.add_zero, Nat.add_mul, Nat.one_mul]
        have e2 : m * (2 * (c0.nodes.length + dn)) = m * (2 * c0.nodes.length) + 2 * (m * dn) := by
          rw [Nat.mul_add 2, Nat.mul_add]; congr 1; rw [Nat.mul_left_comm]
        rw [e1, e2]
        have e3 : 2 * dt + 2 * (m * dn) ≤ 2 * m := by
          match dn, hd with
          | 0, _ => rw [Nat.mul_zero]; omega
          | 1, _ => rw [Nat.mul_one]; omega
        omega
      · simp only [if_neg hc, if_neg (fun h : c = cacheOf b => hc h.symm), Nat.add_zero]
        exact ih
    | dropBuilder b => simp only [List.map_cons, List.map_nil, callsOn, World.step, World.hashes, Nat.add_zero]; exact ih
    | dropCache c' =>
      simp only [List.map_cons, List.map_nil, callsOn, World.step, World.hashes, Nat.add_zero]
      by_cases hcc : c = c'
      · simp only [if_pos hcc, List.length_nil, moved, Nat.mul_zero, Nat.add_zero]
        have h1 := hg (w'.caches c).tokens.length
        have h2 := Nat.mul_le_mul_left m (hg (w'.caches c).nodes.length)
        omega
      · simp only [if_neg hcc]; exact ih
    | other held => simp only [List.map_cons, List.map_nil, callsOn, World.step, World.hashes, Nat.add_zero]; exact ih

/-! ### When hashbrown's tables grow -/

theorem stdGrow_iff (n : Nat) : stdGrow n = true ↔ n = 0 ∨ n = 3 ∨ ∃ i, n = 7 * 2 ^ i := by
  simp only [stdGrow, Bool.or_eq_true, beq_iff_eq, List.any_eq_true, List.mem_range, or_assoc]
  refine or_congr_right (or_congr_right ⟨fun ⟨i, _, h⟩ => ⟨i, h⟩, fun ⟨i, h⟩ => ⟨i, ?_, h⟩⟩)
  have := Nat.lt_two_pow_self (n := i)
  omega

theorem moved_flat {grow : Nat → Bool} {a : Nat} : ∀ {d : Nat}, (∀ j, j < d → grow (a + j) = false) → moved grow (a + d) = moved grow a
  | 0, _ => rfl
  | d + 1, h => by
    rw [← Nat.add_assoc, moved, moved_flat (d := d) (fun j hj => h j (by omega)), h d (by omega)]
    simp

theorem stdGrow_between {i j : Nat} (h : j + 1 < 7 * 2 ^ i) : stdGrow (7 * 2 ^ i + 1 + j) = false := by
  rw [← Bool.not_eq_true, stdGrow_iff]
  have hp := Nat.two_pow_pos i
  rintro (h' | h' | ⟨k, h'⟩)
  · omega
  · omega
  · have h1 : 2 ^ i < 2 ^ k := by omega
    have h2 : 2 ^ k < 2 ^ (i + 1) := by rw [Nat.pow_succ]; omega
    have h3 := (Nat.pow_lt_pow_iff_right (by decide : 1 < 2)).mp h1
    have h4 := (Nat.pow_lt_pow_iff_right (by decide : 1 < 2)).mp h2
    omega

theorem moved_std (i : Nat) : moved stdGrow (7 * 2 ^ i) + 4 = 7 * 2 ^ i := by
  induction i with
  | zero => decide
  | succ i ih =>
    have hp := Nat.two_pow_pos i
    have e : 7 * 2 ^ (i + 1) = 7 * 2 ^ i + 1 + (7 * 2 ^ i - 1) := by rw [Nat.pow_succ]; omega
    rw [e, moved_flat (fun j hj => stdGrow_between (by omega)), moved,
      if_pos ((stdGrow_iff _).mpr (.inr (.inr ⟨i, rfl⟩)))]
    omega

/-- Every size above 7 is between two sizes at which a table grows. -/
theorem std_between : ∀ {n : Nat}, 7 < n → ∃ i, 7 * 2 ^ i < n ∧ n ≤ 7 * 2 ^ (i + 1) := by
  intro n
  induction n with
  | zero => omega
  | succ n ih =>
    intro h
    by_cases h7 : n = 7
    · subst h7; exact ⟨0, by decide, by decide⟩
    · obtain ⟨i, h1, h2⟩ := ih (by omega)
      by_cases hn : n + 1 ≤ 7 * 2 ^ (i + 1)
      · exact ⟨i, by omega, hn⟩
      · exact ⟨i + 1, by omega, by rw [Nat.pow_succ]; have := Nat.two_pow_pos (i + 1); omega⟩

theorem stdGrow_doubling : Doubling stdGrow := by
  intro n
  by_cases h : n ≤ 7
  · have : ∀ n, n ≤ 7 → moved stdGrow n ≤ 2 * n := by decide
    exact this n h
  · obtain ⟨i, h1, h2⟩ := std_between (by omega : 7 < n)
    have hp := Nat.two_pow_pos i
    have hm := moved_std i
    have e : n = 7 * 2 ^ i + 1 + (n - (7 * 2 ^ i + 1)) := by omega
    rw [Nat.pow_succ] at h2
    rw [e, moved_flat (fun j hj => stdGrow_between (by omega)), moved,
      if_pos ((stdGrow_iff _).mpr (.inr (.inr ⟨i, rfl⟩)))]
    omega

end Rowan
