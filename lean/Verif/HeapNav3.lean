import Verif.HeapNav2
/-!
# Navigation on the cursor heap: the navigation functions
-/
namespace Rowan
set_option linter.unusedSectionVars false
variable [Greens]

theorem NavStep.trans {s s1 s2 : HSt} {hc1 hc2 : Nat → Nat} (h : NavStep s s1 hc1)
    (h' : NavStep s1 s2 hc2) : NavStep s s2 hc2 :=
  ⟨h'.ok, h.grows.trans h'.grows, h'.owned.trans h.owned, h'.gtop.trans h.gtop⟩

theorem NavStep.setRc {s : HSt} {hc : Nat → Nat} {p v : Nat} (h : HOk (s.setRc p v) hc) :
    NavStep s (s.setRc p v) hc :=
  ⟨h, ⟨fun _ hx => ⟨hx, rfl, rfl, rfl, rfl, rfl⟩, Nat.le_refl _⟩, rfl, rfl⟩

theorem NavStep.refl {s : HSt} {hc : Nat → Nat} (h : HOk s hc) : NavStep s s hc :=
  ⟨h, Grows.refl s, rfl, rfl⟩

theorem find?_congr' {α : Type} {l : List α} {f g : α → Bool} (h : ∀ x ∈ l, f x = g x) :
    l.find? f = l.find? g := by
  induction l with
  | nil => rfl
  | cons a l ih =>
    simp only [List.find?_cons]
    rw [h a (by simp), ih fun x hx => h x (by simp [hx])]

theorem mem_zipIdx_getElem? {α : Type} {l : List α} {x : α × Nat} (h : x ∈ l.zipIdx) :
    l[x.2]? = some x.1 := by
  obtain ⟨a, i⟩ := x
  have := List.mem_zipIdx_iff_getElem?.mp h
  exact this

namespace Cur
variable {s : HSt} {hc : Nat → Nat} {kids : Nat → List Nat}

theorem parentNode_none {p : Nat} (hl : s.live p = true) (hp : s.parent p = none) :
    parentNode p s = .ok none s := by
  simp only [parentNode]
  rw [H.bind_ok (H.rd_ok hl), hp]; rfl

theorem parentNode_ok {p q : Nat} (h : HInv s hc kids none []) (hl : s.live p = true)
    (hp : s.parent p = some q) :
    parentNode p s = .abort ∨ (parentNode p s = .ok (some q) (s.setRc q (s.rc q + 1)) ∧
      HInv (s.setRc q (s.rc q + 1)) (inc hc q) kids none []) := by
  obtain ⟨hlq, _⟩ := h.parentOk p q hl hp
  obtain ⟨n, hn⟩ := h.parNode p q hl hp
  simp only [parentNode]
  rw [H.bind_ok (H.rd_ok hl), hp]
  simp only []
  rw [H.bind_ok (H.rd_ok hlq), H.bind_ok (H.dbg_ok (by rw [hn]; rfl))]
  rcases incRc_ok h hlq with e | ⟨e1, e2⟩
  · left; simp [H.bind_def, e]
  · right; rw [H.bind_ok e1]; exact ⟨rfl, e2⟩

theorem newChild_loc {q i r : Nat} {P : List Nat} {n : GNode} {c : GChild}
    (h : HInv s (inc hc q) kids none []) (hq : s.Loc q r P)
    (hg : s.green q = .node n) (hi : n.slice[i]? = some c) :
    H.wp (do let off ← offset q
             let x ← newChild c.asRef q i (off + c.relOffset)
             pure (some x)) s
      (fun o s' => ∃ x, o = some x ∧ NavStep s s' (inc hc x) ∧ s'.Loc x r (P ++ [i]) ∧
        s'.green x = c.asRef ∧ s'.parent x = some q ∧ s'.mutable x = s.mutable q ∧
        (s.mutable q = false → x = s.top)) (fun _ _ => False) := by
  refine H.wp_step (offset_ok h hq) ?_
  refine H.wp_seq (newChild_ok h hg hi ?_) ?_
  · intro hm; rw [h.offset_imm hq hm]
  · rintro x s' ⟨h1, h2, h3, h4, h5, h6, h7⟩
    refine H.wp_pure ⟨x, rfl, h1, ?_, h5, h3, h6, h7⟩
    obtain ⟨l, hch⟩ := h.chain q hq.live
    have := HSt.Loc.child h2 h3 (h1.grows.loc hq hch)
    rwa [h4] at this

/-- `viaParent` on a sibling that exists. -/
theorem viaParent_ok {p q r : Nat} {P : List Nat} {n : GNode} {o : Option (GChild × Nat)}
    (h : HInv s hc kids none []) (hl : s.live p = true) (hp : s.parent p = some q)
    (hq : s.Loc q r P) (hg : s.green q = .node n) (ho : ∀ x, o = some x → x ∈ n.slice.zipIdx) :
    H.wp (viaParent p o) s
      (fun o' s' => NavStep s s' (incO hc o') ∧ s'.LocO o' r (o.map fun x => P ++ [x.2]))
      (fun _ _ => False) := by
  cases o with
  | none => exact H.wp_pure ⟨NavStep.refl ⟨kids, h⟩, trivial⟩
  | some x =>
    obtain ⟨c, i⟩ := x
    have hi := mem_zipIdx_getElem? (ho _ rfl)
    simp only [viaParent]
    rcases parentNode_ok h hl hp with e | ⟨e1, e2⟩
    · simp [H.wp, H.bind_def, e]
    · refine H.wp_step e1 ?_
      have hq' : (s.setRc q (s.rc q + 1)).Loc q r P := by
        obtain ⟨l, hch⟩ := h.chain q hq.live
        exact hq.congr hch fun x hx => ⟨hch.live_of_mem hx, rfl, rfl⟩
      refine H.wp_mono (newChild_loc e2 hq' hg hi) ?_ (fun _ _ h => h)
      rintro o' s' ⟨x, rfl, h1, h2, _⟩
      exact ⟨(NavStep.setRc ⟨kids, e2⟩).trans h1, h2⟩

theorem viaSelf_ok {p r : Nat} {P : List Nat} {n : GNode} {o : Option (GChild × Nat)}
    (h : HInv s hc kids none []) (hq : s.Loc p r P) (hg : s.green p = .node n)
    (ho : ∀ x, o = some x → x ∈ n.slice.zipIdx) :
    H.wp (viaSelf p o) s
      (fun o' s' => NavStep s s' (incO hc o') ∧ s'.LocO o' r (o.map fun x => P ++ [x.2]))
      (fun _ _ => False) := by
  cases o with
  | none => exact H.wp_pure ⟨NavStep.refl ⟨kids, h⟩, trivial⟩
  | some x =>
    obtain ⟨c, i⟩ := x
    have hi := mem_zipIdx_getElem? (ho _ rfl)
    simp only [viaSelf]
    rcases incRc_ok h hq.live with e | ⟨e1, e2⟩
    · simp [H.wp, H.bind_def, e]
    · refine H.wp_step e1 ?_
      have hq' : (s.setRc p (s.rc p + 1)).Loc p r P := by
        obtain ⟨l, hch⟩ := h.chain p hq.live
        exact hq.congr hch fun x hx => ⟨hch.live_of_mem hx, rfl, rfl⟩
      refine H.wp_mono (newChild_loc e2 hq' hg hi) ?_ (fun _ _ h => h)
      rintro o' s' ⟨x, rfl, h1, h2, _⟩
      exact ⟨(NavStep.setRc ⟨kids, e2⟩).trans h1, h2⟩

/-- What a sibling function needs to know about a handle. -/
theorem siblings {p r : Nat} {path : List Nat} (h : HInv s hc kids none []) (hl : s.Loc p r path) :
    (s.parent p = none ∧ path = [] ∧ greenSiblings p s = .ok [] s) ∨
    (∃ q P n, s.parent p = some q ∧ path = P ++ [s.index p] ∧ s.Loc q r P ∧ s.green q = .node n ∧
      greenSiblings p s = .ok n.slice s ∧ s.index p < n.slice.length) := by
  cases hl with
  | root hl hp =>
    left
    refine ⟨hp, rfl, ?_⟩
    simp only [greenSiblings]; rw [H.bind_ok (H.rd_ok hl), hp]; rfl
  | @child _ q _ P hl hp hq =>
    right
    obtain ⟨n, c, h1, h2, h3, h4⟩ := h.greenOk p q hl hp (by simp)
    refine ⟨q, P, n, hp, rfl, hq, h1, ?_, ?_⟩
    · simp only [greenSiblings]
      rw [H.bind_ok (H.rd_ok hl), hp]
      simp only []
      rw [H.bind_ok (H.rd_ok hq.live), h1]
      simp only []
      have := HInv.derefG_ok (h.alive hq.live)
      rw [h1] at this
      rw [H.bind_ok this]; rfl
    · exact (List.getElem?_eq_some_iff.mp h2).1

theorem sib_wp {p r : Nat} {path : List Nat} (h : HInv s hc kids none []) (hl : s.Loc p r path)
    {f : List GChild → Nat → Option (GChild × Nat)} (hf : ∀ i, f [] i = none)
    (hmem : ∀ (L : List GChild) (i : Nat) x, f L i = some x → x ∈ L.zipIdx)
    {spec : Option (List Nat)}
    (hroot : path = [] → spec = none)
    (hspec : ∀ P n q, path = P ++ [s.index p] → s.Loc q r P → s.green q = .node n →
      s.index p < n.slice.length → (f n.slice (s.index p)).map (fun x => P ++ [x.2]) = spec) :
    H.wp (do let sib ← greenSiblings p
             let i ← index p
             viaParent p (f sib i)) s
      (fun o s' => NavStep s s' (incO hc o) ∧ s'.LocO o r spec) (fun _ _ => False) := by
  rcases siblings h hl with ⟨hp, rfl, e⟩ | ⟨q, P, n, hp, rfl, hq, hg, e, hlt⟩
  · refine H.wp_step e (H.wp_step (H.rd_ok hl.live) ?_)
    rw [hf, hroot rfl]
    exact H.wp_pure ⟨NavStep.refl ⟨kids, h⟩, trivial⟩
  · refine H.wp_step e (H.wp_step (H.rd_ok hl.live) ?_)
    rw [← hspec P n q rfl hq hg hlt]
    exact viaParent_ok h hl.live hp hq hg (hmem _ _)

theorem child_wp {p r : Nat} {path : List Nat} (h : HInv s hc kids none []) (hl : s.Loc p r path)
    {n : GNode} (hg : s.green p = .node n)
    {f : List GChild → Option (GChild × Nat)}
    (hmem : ∀ (L : List GChild) x, f L = some x → x ∈ L.zipIdx) {spec : Option (List Nat)}
    (hspec : (f n.slice).map (fun x => path ++ [x.2]) = spec) :
    H.wp (do let g ← greenRef p
             viaSelf p (f g.slice)) s
      (fun o s' => NavStep s s' (incO hc o) ∧ s'.LocO o r spec) (fun _ _ => False) := by
  refine H.wp_step (greenRef_ok h hl.live hg) ?_
  rw [← hspec]
  exact viaSelf_ok h hl hg (hmem _)

/-! ### Positions of children -/

theorem kids_map (h : HInv s hc kids none []) {q r : Nat} {P : List Nat} {n : GNode}
    (hq : s.Loc q r P) (hg : s.green q = .node n) :
    n.slice.zipIdx.map (fun x => P ++ [x.2]) = (s.tree r).kids P := by
  rw [Tree.kids_eq (h.tree_at hq)]
  have h1 : (s.tree q).children.length = n.slice.length := by
    rw [HSt.tree, hg]; simp [GNode.children_length]
  rw [h1]
  apply List.ext_getElem?
  intro i
  simp only [List.getElem?_map, List.getElem?_zipIdx, Nat.zero_add]
  by_cases hi : i < n.slice.length <;> simp [hi]

theorem sat_child (h : HInv s hc kids none []) {q r : Nat} {P : List Nat} {n : GNode}
    (hq : s.Loc q r P) (hg : s.green q = .node n) (F : Tree → Bool) {x : GChild × Nat}
    (hx : x ∈ n.slice.zipIdx) : (s.tree r).sat F (P ++ [x.2]) = F x.1.asRef.tree := by
  have hi := mem_zipIdx_getElem? hx
  have h1 : (s.tree r).at? (P ++ [x.2]) = some x.1.asRef.tree := by
    rw [Tree.at?_snoc, h.tree_at hq]
    simp [HSt.tree, hg, GNode.slice_getElem?, hi]
  simp only [Tree.sat, h1]

/-- Searching among some children, as positions. -/
theorem find_pos (h : HInv s hc kids none []) {q r : Nat} {P : List Nat} {n : GNode}
    (hq : s.Loc q r P) (hg : s.green q = .node n) {L : List (GChild × Nat)}
    (hL : ∀ x ∈ L, x ∈ n.slice.zipIdx) {f : GChild × Nat → Bool} {F : Tree → Bool}
    (hf : ∀ x, f x = F x.1.asRef.tree) :
    (L.find? f).map (fun x => P ++ [x.2]) =
      (L.map fun x => P ++ [x.2]).find? ((s.tree r).sat F) := by
  rw [List.find?_map]
  congr 1
  apply find?_congr'
  intro x hx
  simp only [Function.comp_apply]
  rw [hf, sat_child h hq hg F (hL x hx)]

theorem isNode_tree (x : GChild × Nat) : isNode x = x.1.asRef.tree.isNode := by
  obtain ⟨c, i⟩ := x
  cases c with
  | node r n => simp [isNode, NodeOrToken.asNode]
  | token r t => simp [isNode, NodeOrToken.asNode, GToken.tree, Tree.isNode]

theorem kindOk_tree (m : SyntaxKind → Bool) (x : GChild × Nat) :
    kindOk m x = Tree.ofKind m x.1.asRef.tree := by
  obtain ⟨c, i⟩ := x
  cases c with
  | node r n => simp [kindOk, Tree.ofKind]
  | token r t => simp [kindOk, Tree.ofKind, GToken.tree, Tree.kind]

theorem nodeKind_tree (m : SyntaxKind → Bool) (x : GChild × Nat) :
    (kindOk m x && isNode x) = Tree.nodeOf m x.1.asRef.tree := by
  rw [kindOk_tree, isNode_tree, Bool.and_comm]; rfl

/-! ### The navigation functions -/

section
variable {p r : Nat} {path : List Nat} (h : HInv s hc kids none []) (hl : s.Loc p r path)
include h hl

theorem nextSibling_wp : H.wp (nextSibling p) s
    (fun o s' => NavStep s s' (incO hc o) ∧
      s'.LocO o r (((s.tree r).later path).find? ((s.tree r).sat Tree.isNode)))
    (fun _ _ => False) := by
  refine sib_wp h hl (f := fun sib i => (sib.zipIdx.drop (i + 1)).find? isNode) (by simp)
    (fun L i x hx => List.mem_of_mem_drop (List.mem_of_find?_eq_some hx)) (by rintro rfl; rfl) ?_
  rintro P n q rfl hq hg hlt
  rw [find_pos h hq hg (fun x hx => List.mem_of_mem_drop hx) isNode_tree, List.map_drop,
    kids_map h hq hg, Tree.later_snoc]

theorem nextSiblingByKind_wp (m : SyntaxKind → Bool) : H.wp (nextSiblingByKind m p) s
    (fun o s' => NavStep s s' (incO hc o) ∧
      s'.LocO o r (((s.tree r).later path).find? ((s.tree r).sat (Tree.nodeOf m))))
    (fun _ _ => False) := by
  refine sib_wp h hl (f := fun sib i => (sib.zipIdx.drop (i + 1)).find? fun x => kindOk m x && isNode x)
    (by simp) (fun L i x hx => List.mem_of_mem_drop (List.mem_of_find?_eq_some hx))
    (by rintro rfl; rfl) ?_
  rintro P n q rfl hq hg hlt
  rw [find_pos h hq hg (fun x hx => List.mem_of_mem_drop hx) (nodeKind_tree m), List.map_drop,
    kids_map h hq hg, Tree.later_snoc]

theorem nextSiblingOrToken_wp : H.wp (nextSiblingOrToken p) s
    (fun o s' => NavStep s s' (incO hc o) ∧ s'.LocO o r ((s.tree r).later path).head?)
    (fun _ _ => False) := by
  refine sib_wp h hl (f := fun sib i => sib.zipIdx[i + 1]?) (by simp)
    (fun L i x hx => List.mem_of_getElem? hx) (by rintro rfl; rfl) ?_
  rintro P n q rfl hq hg hlt
  rw [Tree.later_snoc, ← kids_map h hq hg, ← List.map_drop, List.head?_map, List.head?_drop]

theorem nextSiblingOrTokenByKind_wp (m : SyntaxKind → Bool) : H.wp (nextSiblingOrTokenByKind m p) s
    (fun o s' => NavStep s s' (incO hc o) ∧
      s'.LocO o r (((s.tree r).later path).find? ((s.tree r).sat (Tree.ofKind m))))
    (fun _ _ => False) := by
  refine sib_wp h hl (f := fun sib i => (sib.zipIdx.drop (i + 1)).find? (kindOk m)) (by simp)
    (fun L i x hx => List.mem_of_mem_drop (List.mem_of_find?_eq_some hx)) (by rintro rfl; rfl) ?_
  rintro P n q rfl hq hg hlt
  rw [find_pos h hq hg (fun x hx => List.mem_of_mem_drop hx) (kindOk_tree m), List.map_drop,
    kids_map h hq hg, Tree.later_snoc]

theorem prevSibling_wp : H.wp (prevSibling p) s
    (fun o s' => NavStep s s' (incO hc o) ∧
      s'.LocO o r (((s.tree r).earlier path).find? ((s.tree r).sat Tree.isNode)))
    (fun _ _ => False) := by
  simp only [prevSibling]
  have key := sib_wp h hl (f := fun sib i => if sib.length < i then none else
    (sib.zipIdx.reverse.drop (sib.length - i)).find? isNode)
    (spec := ((s.tree r).earlier path).find? ((s.tree r).sat Tree.isNode))
    (by intro i; by_cases e : 0 < i <;> simp [e]) ?_ (by rintro rfl; rfl) ?_
  · refine cast ?_ key
    congr 1
    funext s0
    simp only [H.bind_def]
    cases greenSiblings p s0 with
    | ok sib s1 =>
      simp only []
      cases index p s1 with
      | ok i s2 =>
        simp only []
        by_cases e : sib.length < i
        · simp [e, viaParent]
        · simp [e]
      | _ => rfl
    | _ => rfl
  · intro L i x hx
    by_cases e : L.length < i
    · simp [e] at hx
    · rw [if_neg e] at hx
      have := List.mem_of_mem_drop (List.mem_of_find?_eq_some hx)
      simpa using this
  · rintro P n q rfl hq hg hlt
    rw [if_neg (by omega)]
    rw [find_pos h hq hg (fun x hx => by simpa using List.mem_of_mem_drop hx) isNode_tree,
      List.map_drop, List.map_reverse, kids_map h hq hg, Tree.earlier_snoc]
    have hlen : ((s.tree r).kids P).length = n.slice.length := by
      rw [← kids_map h hq hg]; simp
    rw [← hlen, List.drop_reverse]
    congr 2
    rw [hlen]
    congr 1; omega

theorem prevSiblingOrToken_wp : H.wp (prevSiblingOrToken p) s
    (fun o s' => NavStep s s' (incO hc o) ∧ s'.LocO o r ((s.tree r).earlier path).head?)
    (fun _ _ => False) := by
  simp only [prevSiblingOrToken]
  have key := sib_wp h hl (f := fun sib i => if i = 0 then none else sib.zipIdx[i - 1]?)
    (spec := ((s.tree r).earlier path).head?)
    (by intro i; by_cases e : i = 0 <;> simp [e]) ?_ (by rintro rfl; rfl) ?_
  · refine cast ?_ key
    congr 1
    funext s0
    simp only [H.bind_def]
    cases greenSiblings p s0 with
    | ok sib s1 =>
      simp only []
      cases index p s1 with
      | ok i s2 =>
        simp only []
        by_cases e : i = 0
        · simp [e, viaParent]
        · simp [e]
      | _ => rfl
    | _ => rfl
  · intro L i x hx
    by_cases e : i = 0
    · simp [e] at hx
    · rw [if_neg e] at hx; exact List.mem_of_getElem? hx
  · rintro P n q rfl hq hg hlt
    rw [Tree.earlier_snoc, ← kids_map h hq hg, ← List.map_take, ← List.map_reverse, List.head?_map]
    congr 1
    rw [List.head?_reverse]
    by_cases e : s.index p = 0
    · simp [e]
    · rw [if_neg e, List.getLast?_eq_getElem?]
      simp only [List.length_take, List.length_zipIdx]
      rw [Nat.min_eq_left (by omega), List.getElem?_take_of_lt (by omega)]

variable {n : GNode} (hg : s.green p = .node n)
include hg

theorem firstChild_wp : H.wp (firstChild p) s
    (fun o s' => NavStep s s' (incO hc o) ∧
      s'.LocO o r (((s.tree r).kids path).find? ((s.tree r).sat Tree.isNode)))
    (fun _ _ => False) := by
  refine child_wp h hl hg (f := fun L => L.zipIdx.find? isNode)
    (fun L x hx => List.mem_of_find?_eq_some hx) ?_
  rw [find_pos h hl hg (fun x hx => hx) isNode_tree, kids_map h hl hg]

theorem firstChildByKind_wp (m : SyntaxKind → Bool) : H.wp (firstChildByKind m p) s
    (fun o s' => NavStep s s' (incO hc o) ∧
      s'.LocO o r (((s.tree r).kids path).find? ((s.tree r).sat (Tree.nodeOf m))))
    (fun _ _ => False) := by
  refine child_wp h hl hg (f := fun L => L.zipIdx.find? fun x => kindOk m x && isNode x)
    (fun L x hx => List.mem_of_find?_eq_some hx) ?_
  rw [find_pos h hl hg (fun x hx => hx) (nodeKind_tree m), kids_map h hl hg]

theorem lastChild_wp : H.wp (lastChild p) s
    (fun o s' => NavStep s s' (incO hc o) ∧
      s'.LocO o r (((s.tree r).kids path).reverse.find? ((s.tree r).sat Tree.isNode)))
    (fun _ _ => False) := by
  refine child_wp h hl hg (f := fun L => L.zipIdx.reverse.find? isNode)
    (fun L x hx => by simpa using List.mem_of_find?_eq_some hx) ?_
  rw [find_pos h hl hg (fun x hx => by simpa using hx) isNode_tree, List.map_reverse,
    kids_map h hl hg]

theorem firstChildOrToken_wp : H.wp (firstChildOrToken p) s
    (fun o s' => NavStep s s' (incO hc o) ∧ s'.LocO o r ((s.tree r).kids path).head?)
    (fun _ _ => False) := by
  refine child_wp h hl hg (f := fun L => L.zipIdx.head?)
    (fun L x hx => List.mem_of_head? hx) ?_
  rw [← kids_map h hl hg, List.head?_map]

theorem firstChildOrTokenByKind_wp (m : SyntaxKind → Bool) : H.wp (firstChildOrTokenByKind m p) s
    (fun o s' => NavStep s s' (incO hc o) ∧
      s'.LocO o r (((s.tree r).kids path).find? ((s.tree r).sat (Tree.ofKind m))))
    (fun _ _ => False) := by
  refine child_wp h hl hg (f := fun L => L.zipIdx.find? (kindOk m))
    (fun L x hx => List.mem_of_find?_eq_some hx) ?_
  rw [find_pos h hl hg (fun x hx => hx) (kindOk_tree m), kids_map h hl hg]

theorem lastChildOrToken_wp : H.wp (lastChildOrToken p) s
    (fun o s' => NavStep s s' (incO hc o) ∧ s'.LocO o r ((s.tree r).kids path).getLast?)
    (fun _ _ => False) := by
  refine child_wp h hl hg (f := fun L => L.zipIdx.getLast?)
    (fun L x hx => List.mem_of_getLast? hx) ?_
  rw [← kids_map h hl hg, List.getLast?_map]

theorem childAt_wp (i : Nat) : H.wp (childAt i p) s
    (fun o s' => NavStep s s' (incO hc o) ∧ s'.LocO o r ((s.tree r).kids path)[i]?)
    (fun _ _ => False) := by
  refine child_wp h hl hg (f := fun L => L.zipIdx[i]?)
    (fun L x hx => List.mem_of_getElem? hx) ?_
  rw [← kids_map h hl hg, List.getElem?_map]

end

end Cur
end Rowan
