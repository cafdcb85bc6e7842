import Verif.NestDeep
/-!
# C75: dropping a green tree needs stack in proportion to its depth
-/
namespace Rowan
namespace GMem
variable {s s' s1 s2 : GMem}

/-- **C75.**  The destructors that a thread is in belong to elements each of which is a child of the next one. -/
theorem C75_path (h : s.Reach) (t i : Nat) {a b : Nat} (ha : (s.nest t)[i]? = some a) (hb : (s.nest t)[i + 1]? = some b) :
    s.Kid b a := by
  have hl := h.nested.linked t
  revert hl ha hb
  generalize s.nest t = l
  induction l generalizing i with
  | nil => intro ha; simp at ha
  | cons c l ih =>
    intro ha hb hl
    cases i with
    | zero =>
      cases l with
      | nil => simp at hb
      | cons d l =>
        simp only [List.getElem?_cons_zero, List.getElem?_cons_succ, Option.some.injEq] at ha hb
        subst ha; subst hb
        exact hl.1
    | succ i =>
      rw [List.getElem?_cons_succ] at ha hb
      exact ih i ha hb hl.tail

/-- **C75, the bound**: there are never more of them than the tree of the outermost one is deep. -/
theorem C75_bound (h : s.Reach) {t o d : Nat} (ho : (s.nest t).getLast? = some o) {T : Tree} (hT : s.Shows o T) (hd : T.Deep d) :
    (s.nest t).length ≤ d + 1 := by
  have hl := h.nested.linked t
  cases hn : s.nest t with
  | nil => simp
  | cons a l =>
    rw [hn] at hl ho
    obtain ⟨p, p1, p2⟩ := hl.path ho
    obtain ⟨T', t1, -⟩ := (C51_at p hT).1 a p1
    have := hd p T' t1
    simp only [List.length_cons]; omega

/-- **C75 for a drop**: from the moment a thread drops a reference to a tree until it comes out of the destructors, whatever the
other threads do, it is never in more of them than the tree is deep. -/
theorem C75_drop (h : s.Reach) {t r d : Nat} {x : GRef} {T : Tree} (hx : s.ref? r = some x) (hT : s.Shows x.obj T) (hd : T.Deep d)
    (hs : s.step (.drop t r) = some s1) (hin : s1.idle t = false) (hw : Within t s1 s2) : (s2.nest t).length ≤ d + 1 := by
  have h1 : s1.Reach := h.step _ hs
  have ho : (s1.nest t).getLast? = some x.obj := by
    simp only [GMem.step] at hs
    split at hs
    · cases hs
    simp only [Option.bind_eq_bind, Option.bind_eq_some_iff] at hs
    obtain ⟨_, hg, ⟨y, l⟩, h2, hs⟩ := hs
    have hi : s.idle t = true := by
      cases h : s.idle t <;> simp [h, guard, failure] at hg ⊢
    have hxy : y = x := by
      have : ∀ {l l' : List GRef} {y : GRef}, popRef t r l = some (y, l') → l.find? (fun x => x.id = r) = some y := by
        intro l
        induction l with
        | nil => intro l' y h; simp [popRef] at h
        | cons z l ih =>
          intro l' y h
          simp only [popRef] at h
          by_cases hz : z.id = r
          · rw [if_pos hz] at h
            split at h
            · cases h; rw [List.find?_cons_of_pos (by simpa using hz)]
            · cases h
          · rw [if_neg hz] at h
            simp only [Option.bind_eq_bind, Option.bind_eq_some_iff] at h
            obtain ⟨⟨y', l1⟩, h3, h4⟩ := h
            cases h4
            rw [List.find?_cons_of_neg (by simpa using hz)]
            exact ih h3
      have e := this h2
      rw [GMem.ref?] at hx
      rw [hx] at e
      cases e; rfl
    cases hs
    have hn := idle_nest.mp hi
    rw [nest] at hn
    rcases dropRef_stack { s with refs := l } t y.obj with e | ⟨z, -, -, e⟩
    · have : (({ s with refs := l } : GMem).dropRef t y.obj).nest t = [] := by rw [nest, e]; exact hn
      rw [idle_nest.mpr this] at hin; cases hin
    · rw [nest_cons_self e rfl, hn, hxy]; rfl
  exact C75_bound (hw.reach h1) (hw.outer ho) (C51_immutable (hw.steps) (C51_immutable (.step _ (.refl _) hs) hT)) hd

/-- **C75, attained**: if nothing else refers to the elements along a path of the tree, from the top on, a drop of the reference
to the tree gets the thread into that many destructors, one inside the other. -/
theorem C75_attained (h : s.Reach) (hd : s.dead = false) {t r : Nat} {x : GRef} {l : List GRef} (hi : s.idle t = true)
    (hx : popRef t r s.refs = some (x, l)) {p : List Nat} (hp : s.Sole x.obj p) :
    ∃ s1 n s2, s.step (.drop t r) = some s1 ∧ Unwind t n s1 s2 ∧ (s2.nest t).length = p.length + 1 := by
  obtain ⟨y, y1, y2⟩ := hp.head
  have hs : s.step (.drop t r) = some (({ s with refs := l } : GMem).dropRef t x.obj) := by
    simp [GMem.step, hd, hi, hx, guard]
  have e := dropRef_only (s := { s with refs := l }) (t := t) y1 y2
  have hn := idle_nest.mp hi
  rw [nest, List.map_eq_nil_iff] at hn
  have hf : (({ s with refs := l } : GMem).dropRef t x.obj).frames t = [⟨t, x.obj, y.kids⟩] := by
    rw [frames, e, List.filter_cons_of_pos (by simp)]
    exact congrArg _ hn
  have hfn : ∀ s : GMem, (s.nest t).length = (s.frames t).length := fun s => by rw [nest, frames, List.length_map]
  cases p with
  | nil => exact ⟨_, 0, _, hs, .refl _, by rw [hfn, hf]; rfl⟩
  | cons i p =>
    obtain ⟨z, c, z1, z2, z3, z4⟩ := hp
    rw [y1] at z1; cases z1
    have hlt := h.inv.below _ y y1 c (List.mem_of_getElem? z3)
    have hobjs : ∀ j, j ≠ x.obj → (({ s with refs := l } : GMem).dropRef t x.obj).objs[j]? = s.objs[j]? := by
      intro j hj
      simp only [dropRef]
      split
      · rfl
      · split <;> simp [setCount, GMem.hit, Ne.symm hj]
    have hd1 : (({ s with refs := l } : GMem).dropRef t x.obj).dead = false := by
      simp only [dropRef]
      split
      · exact hd
      · split <;> exact hd
    obtain ⟨n, s2, k1, k2⟩ := descend p (h.step _ hs) hd1 hf z3 (z4.under h.inv hobjs hlt)
    exact ⟨_, n, s2, hs, k1, by rw [hfn, k2]; simp; omega⟩

/-- One reference to `n` nodes, one inside the other, around a token. -/
theorem chain (n : Nat) : ∃ s : GMem, s.Reach ∧ s.dead = false ∧ s.stack = [] ∧ s.refs = [⟨n, n, [0]⟩] ∧ s.nextRef = n + 1 ∧
    s.objs.length = n + 1 ∧ s.Sole n (List.replicate n 0) := by
  induction n with
  | zero =>
    exact ⟨{ objs := [⟨1, ⟨5⟩, some ['a'], [], false⟩], refs := [⟨0, 0, [0]⟩], nextRef := 1 },
      .run (ops := [.newToken 0 ⟨5⟩ ['a']]) .init (by decide +kernel), rfl, rfl, rfl, rfl, rfl, _, rfl, rfl⟩
  | succ n ih =>
    obtain ⟨s, h1, h2, h3, h4, h5, h6, h7⟩ := ih
    have hal : s.alive n = true := by
      obtain ⟨x, x1, x2⟩ := h7.head
      obtain ⟨y, y1, -, -, y4⟩ := h1.inv.owned (o := n) (by rw [← h1.inv.count n x x1]; omega)
      exact y4
    have hhit : s.hit [n] = s := h1.inv.hit (by simpa using hal)
    have hs : s.step (.newNode 0 ⟨9⟩ [n]) = some (({ s with refs := [] } : GMem).alloc 0 ⟨9⟩ none [n]) := by
      simp [GMem.step, h2, idle, h3, popRefs, popRef, h4, guard, hhit]
    refine ⟨_, h1.step _ hs, h2, h3, by simp [alloc, h5, h6], by simp [alloc, h5], by simp [alloc, h6], ?_⟩
    have hb : ∀ j, j ≠ n + 1 → (({ s with refs := [] } : GMem).alloc 0 ⟨9⟩ none [n]).objs[j]? = s.objs[j]? := by
      intro j hj
      simp only [alloc]
      by_cases hlt : j < n + 1
      · rw [List.getElem?_append_left (by omega)]
      · rw [List.getElem?_eq_none (by simp; omega), List.getElem?_eq_none (by omega)]
    exact ⟨⟨1, ⟨9⟩, none, [n], false⟩, n, by simp [alloc, ← h6], rfl, rfl, h7.under h1.inv hb (by omega)⟩

/-- **C75, no stack is enough**: for every number there is a run in which a thread is in more nested destructors than that. -/
theorem C75_unbounded (n : Nat) : ∃ s : GMem, s.Reach ∧ (s.nest 0).length = n + 1 := by
  obtain ⟨s, h1, h2, h3, h4, -, -, h7⟩ := chain n
  obtain ⟨s1, m, s2, k1, k2, k3⟩ := C75_attained h1 h2 (t := 0) (r := n) (x := ⟨n, n, [0]⟩) (l := []) (by simp [idle, h3])
    (by simp [h4, popRef]) h7
  exact ⟨s2, (k2.facts (h1.step _ k1)).1, by rw [k3, List.length_replicate]⟩

/-! ### Examples -/

/-- A node holds a token and a node with a token, all of them unshared; and a thread that is about to free the inner token. -/
def nestOps : List GOp :=
  [.newToken 0 ⟨5⟩ ['a'], .newToken 0 ⟨5⟩ ['b'], .newNode 0 ⟨8⟩ [1], .newNode 0 ⟨9⟩ [0, 2]]
def nestStart : GMem :=
  { objs := [⟨1, ⟨5⟩, some ['a'], [], false⟩, ⟨1, ⟨5⟩, some ['b'], [], false⟩, ⟨1, ⟨8⟩, none, [1], false⟩,
      ⟨1, ⟨9⟩, none, [0, 2], false⟩]
    refs := [⟨3, 3, [0]⟩], nextRef := 4 }
def nestDeep : GMem :=
  { objs := [⟨0, ⟨5⟩, some ['a'], [], true⟩, ⟨0, ⟨5⟩, some ['b'], [], false⟩, ⟨0, ⟨8⟩, none, [1], false⟩,
      ⟨0, ⟨9⟩, none, [0, 2], false⟩]
    refs := [], nextRef := 4, stack := [⟨0, 1, []⟩, ⟨0, 2, []⟩, ⟨0, 3, []⟩] }
theorem nestStart_reach : nestStart.Reach := .run (ops := nestOps) .init (by decide +kernel)
theorem nestDeep_reach : nestDeep.Reach :=
  .run (ops := [.drop 0 3, .glue 0, .glue 0, .glue 0, .glue 0]) nestStart_reach (by decide +kernel)

def nestTree : Tree := .node ⟨9⟩ [.token ⟨5⟩ ['a'], .node ⟨8⟩ [.token ⟨5⟩ ['b']]]
theorem nestTree_deep : nestTree.Deep 2 := by
  intro p s h
  match p with
  | [] => decide
  | [_] => simp
  | [_, _] => simp
  | 0 :: a :: p => exact absurd h (by simp [nestTree, Tree.at?_cons, Tree.children])
  | 1 :: 0 :: a :: p => exact absurd h (by simp [nestTree, Tree.at?_cons, Tree.children])
  | 1 :: (b + 1) :: a :: p => exact absurd h (by simp [nestTree, Tree.at?_cons, Tree.children])
  | (b + 2) :: a :: p => exact absurd h (by simp [nestTree, Tree.at?_cons, Tree.children])
theorem nestStart_shows : nestStart.Shows 3 nestTree :=
  .node (x := ⟨1, ⟨9⟩, none, [0, 2], false⟩) rfl rfl
    (.cons (.token (x := ⟨1, ⟨5⟩, some ['a'], [], false⟩) rfl rfl rfl)
      (.cons (.node (x := ⟨1, ⟨8⟩, none, [1], false⟩) rfl rfl
        (.cons (.token (x := ⟨1, ⟨5⟩, some ['b'], [], false⟩) rfl rfl rfl) .nil)) .nil))

-- C75_path: the token is in the inner node, that one in the outer node
example : nestDeep.nest 0 = [1, 2, 3] := by decide +kernel
example : nestDeep.Kid 2 1 ∧ nestDeep.Kid 3 2 :=
  ⟨C75_path nestDeep_reach 0 0 (by decide +kernel) (by decide +kernel), C75_path nestDeep_reach 0 1 (by decide +kernel) (by decide +kernel)⟩

-- C75_bound, C75_drop: three destructors for a tree of depth 2
theorem nest_steps : nestStart.Steps nestDeep :=
  .step (s' := ((run [.drop 0 3, .glue 0, .glue 0, .glue 0] nestStart).getD {})) (.glue 0)
    (.step (s' := ((run [.drop 0 3, .glue 0, .glue 0] nestStart).getD {})) (.glue 0)
      (.step (s' := ((run [.drop 0 3, .glue 0] nestStart).getD {})) (.glue 0)
        (.step (s' := ((run [.drop 0 3] nestStart).getD {})) (.glue 0)
          (.step (.drop 0 3) (.refl _) (by decide +kernel)) (by decide +kernel)) (by decide +kernel)) (by decide +kernel)) (by decide +kernel)
example : (nestDeep.nest 0).length ≤ 2 + 1 :=
  C75_bound nestDeep_reach (o := 3) (by decide +kernel) (C51_immutable nest_steps nestStart_shows) nestTree_deep
example : (nestDeep.nest 0).length ≤ 2 + 1 :=
  C75_drop nestStart_reach (r := 3) (t := 0) (s1 := (run [.drop 0 3] nestStart).getD {}) (x := ⟨3, 3, [0]⟩) (by decide +kernel)
    nestStart_shows nestTree_deep (by decide +kernel) (by decide +kernel)
    (.step (s' := ((run [.drop 0 3, .glue 0, .glue 0, .glue 0] nestStart).getD {})) (.glue 0)
      (.step (s' := ((run [.drop 0 3, .glue 0, .glue 0] nestStart).getD {})) (.glue 0)
        (.step (s' := ((run [.drop 0 3, .glue 0] nestStart).getD {})) (.glue 0)
          (.step (.glue 0) (.refl _) (by decide +kernel) (by decide +kernel)) (by decide +kernel) (by decide +kernel))
        (by decide +kernel) (by decide +kernel)) (by decide +kernel) (by decide +kernel))

-- C75_attained: the path to the inner token
example : ∃ s1 n s2, nestStart.step (.drop 0 3) = some s1 ∧ Unwind 0 n s1 s2 ∧ (s2.nest 0).length = 3 :=
  C75_attained nestStart_reach rfl (x := ⟨3, 3, [0]⟩) (l := []) (by decide +kernel) (by decide +kernel) (p := [1, 0])
    ⟨⟨1, ⟨9⟩, none, [0, 2], false⟩, 2, rfl, rfl, rfl, ⟨1, ⟨8⟩, none, [1], false⟩, 1, rfl, rfl, rfl,
      ⟨1, ⟨5⟩, some ['b'], [], false⟩, rfl, rfl⟩

end GMem
end Rowan
