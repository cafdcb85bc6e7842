import Verif.Spec.Serde
import Verif.Props.Position
/-!
# C45, C46: TokenAtOffset and serialization
-/
namespace Rowan

/-! ## C45 -/

/-- **C45.**  Iterating yields the tokens left to right, then `None` forever; at every point the size
hint is exact; `left_biased`/`right_biased` are the first/last token; `map` acts on each token. -/
theorem C45_token_at_offset {α β : Type} (t : TokenAtOffset α) (f : α → β) :
    (∀ k, (t.after k).next.1 = t.toList[k]?) ∧
    (∀ k, (t.after k).sizeHint = (t.toList.length - k, some (t.toList.length - k))) ∧
    t.leftBiased = t.toList.head? ∧ t.rightBiased = t.toList.getLast? ∧
    (t.map f).toList = t.toList.map f := by
  have key : ∀ k, (t.after k).toList = t.toList.drop k := by
    intro k
    induction k with
    | zero => rfl
    | succ k ih =>
      have hd : t.toList.drop (k + 1) = (t.toList.drop k).drop 1 := by rw [List.drop_drop]
      rw [TokenAtOffset.after, hd, ← ih]
      cases t.after k <;> rfl
  have hn : ∀ t : TokenAtOffset α, t.next.1 = t.toList.head? := by intro t; cases t <;> rfl
  have hs : ∀ t : TokenAtOffset α, t.sizeHint = (t.toList.length, some t.toList.length) := by
    intro t; cases t <;> rfl
  refine ⟨?_, ?_, ?_, ?_, ?_⟩
  · intro k; rw [hn, key, List.head?_drop]
  · intro k; rw [hs, key, List.length_drop]
  all_goals cases t <;> rfl

example : (TokenAtOffset.between 1 2).rightBiased = some 2 := rfl
example := C45_token_at_offset (TokenAtOffset.between 1 2) (· + 1)

/-! ## C46 -/

theorem Res.mapList_ok {α β : Type} {f : α → Res β} {g : α → β} :
    ∀ {l : List α}, (∀ a ∈ l, f a = .ok (g a)) → Res.mapList f l = .ok (l.map g)
  | [], _ => rfl
  | a :: l, h => by
    rw [Res.mapList, h a (by simp), Res.ok_bind,
      Res.mapList_ok fun b hb => h b (List.mem_cons_of_mem _ hb)]
    rfl

theorem Tree.sers_eq (dk : SyntaxKind → List Char) (cs : List Tree) (o : Nat) :
    Tree.sers dk cs o = (List.range cs.length).map fun i =>
      match cs[i]? with
      | some c => c.ser dk (o + blen (Tree.texts (cs.take i)))
      | none => .seq [] := by
  induction cs generalizing o with
  | nil => simp [Tree.sers]
  | cons c cs ih =>
    rw [Tree.sers, ih, List.length_cons, List.range_succ_eq_map, List.map_cons, List.map_map]
    congr 1
    apply List.map_congr_left
    intro i hi
    simp only [Function.comp, Nat.succ_eq_add_one, List.getElem?_cons_succ, List.take_succ_cons,
      Tree.texts_cons, blen_append, Tree.len, Nat.add_assoc]

/-- **C46.**  Serializing any element yields exactly the nested maps of the tree: kind, byte range and
text of every token, kind, byte range and children, in order, of every node. -/
theorem C46_serialize (dk : SyntaxKind → List Char) {r : Root} {e : SElem} (h : Reach r e) :
    ∃ s, r.tree.at? e.path = some s ∧
      e.serialize dk = .ok (s.ser dk (blen (r.tree.before e.path))) := by
  have key : ∀ (k : Nat) (e : SElem), Reach r e → e.green.subs.length ≤ k →
      serElem dk k e = .ok (e.green.tree.ser dk (blen (r.tree.before e.path))) := by
    intro k
    induction k with
    | zero =>
      intro e _ hk
      have := List.length_pos_of_mem e.green.self_mem_subs
      omega
    | succ k ih =>
      intro e he hk
      obtain ⟨s, hs, h1, h2, h3, -⟩ := C11_ranges he
      have hat := (C11_contents he).1
      rw [hs] at hat
      simp only [Option.some.injEq] at hat
      subst hat
      have hstop : e.textRange.stop = e.textRange.start + e.textRange.len := by
        have := e.textRange.le; simp only [TextRange.len]; omega
      cases e with
      | token t =>
        have e1 : t.textRange.start = blen (r.tree.before t.path) := h2
        have e2 : t.textRange.stop = t.textRange.start + t.textRange.len := hstop
        have e3 : t.textRange.len = blen t.text := h3
        rw [serElem, e2, e3, e1]
        rfl
      | node n =>
        have e1 : n.textRange.start = blen (r.tree.before n.path) := h2
        have e2 : n.textRange.stop = n.textRange.start + n.textRange.len := hstop
        have e3 : n.textRange.len = blen n.green.tree.text := h3
        rw [serElem, SNode.childrenWithTokens_eq, e2, e3, e1]
        have hkids : ∀ c ∈ n.kids, serElem dk k c =
            .ok (c.green.tree.ser dk (blen (r.tree.before c.path))) := by
          intro c hc
          have hlt := SNode.subs_kid_lt hc
          have : (SElem.green (.node n)).subs.length = (GNode.subs n.green).length := rfl
          exact ih c (reach_iff.mpr (he.kids.2 c hc)) (by omega)
        rw [Res.mapList_ok hkids]
        rw [SElem.path_node] at hs
        obtain ⟨k1, k2⟩ := he.kids
        have hn : (SElem.green (.node n)).tree = .node n.kind (n.green.tree.children) := by
          have := he.valid.1
          cases hg : n.green.tree with
          | token a b =>
            have : n.green.tree.isNode = true := by simp
            rw [hg] at this; simp [Tree.isNode] at this
          | node a b =>
            have h1' : n.kind = n.green.tree.kind := h1
            rw [h1', hg]; exact hg
        have hc : n.green.tree.children.length = n.kids.length := by
          have := congrArg List.length k1
          rw [Tree.kids_eq hs] at this
          simpa using this.symm
        have hseq : n.kids.map (fun c => c.green.tree.ser dk (blen (r.tree.before c.path))) =
            Tree.sers dk n.green.tree.children (blen (r.tree.before n.path)) := by
          rw [Tree.sers_eq, hc]
          apply List.ext_getElem (by simp)
          intro i hi hi'
          simp only [List.length_map] at hi
          have hcat : n.kids[i].path = n.path ++ [i] := by
            have := congrArg (fun l => l[i]?) k1
            simp only [Tree.kids_eq hs, List.getElem?_map, List.getElem?_eq_getElem hi] at this
            have hlt : i < (SElem.green (.node n)).tree.children.length := by
              have : n.green.tree.children.length = (SElem.green (.node n)).tree.children.length := rfl
              omega
            rw [List.getElem?_range hlt] at this
            simpa using this
          have hat' := (C11_contents (reach_iff.mpr (k2 n.kids[i] (List.getElem_mem _)))).1
          rw [hcat, Tree.at?_kid hs] at hat'
          have hat2 : n.green.tree.children[i]? = some n.kids[i].green.tree := hat'
          simp only [List.getElem_map, List.getElem_range, hat2]
          rw [hcat, Tree.before_snoc hs, blen_append]
          rfl
        rw [hn, Tree.ser]
        have e4 : blen (Tree.texts n.green.tree.children) = blen n.green.tree.text := by
          rw [← Tree.text_eq_children _ (by simp)]
        rw [e4, SElem.path_node, ← hseq]
        rfl
  refine ⟨_, (C11_contents h).1, key _ e h (Nat.le_refl _)⟩

mutual
theorem ser_inj {dk : SyntaxKind → List Char} (hdk : ∀ a b, dk a = dk b → a = b) :
    ∀ (a b : Tree) (o : Nat), a.ser dk o = b.ser dk o → a = b
  | .token k s, .token k' s', o => by
    simp only [Tree.ser, SerVal.map.injEq, List.cons.injEq, Prod.mk.injEq, SerVal.str.injEq, true_and,
      and_true]
    rintro ⟨h1, -, h2⟩
    rw [hdk _ _ h1, h2]
  | .node k cs, .node k' cs', o => by
    simp only [Tree.ser, SerVal.map.injEq, List.cons.injEq, Prod.mk.injEq, SerVal.str.injEq, true_and,
      and_true, SerVal.seq.injEq]
    rintro ⟨h1, -, h2⟩
    rw [hdk _ _ h1, sers_inj hdk cs cs' o h2]
  | .token _ _, .node _ _, o => by simp [Tree.ser]
  | .node _ _, .token _ _, o => by simp [Tree.ser]
theorem sers_inj {dk : SyntaxKind → List Char} (hdk : ∀ a b, dk a = dk b → a = b) :
    ∀ (a b : List Tree) (o : Nat), Tree.sers dk a o = Tree.sers dk b o → a = b
  | [], [], _ => by simp
  | c :: cs, c' :: cs', o => by
    simp only [Tree.sers, List.cons.injEq]
    rintro ⟨h1, h2⟩
    have := ser_inj hdk c c' o h1
    subst this
    exact ⟨rfl, sers_inj hdk cs cs' _ h2⟩
  | [], _ :: _, _ => by simp [Tree.sers]
  | _ :: _, [], _ => by simp [Tree.sers]
end

/-- **C46, nothing is lost**: if different kinds print differently, two roots (of any trees) with the
same serialized form are equal as trees, hence have the same text. -/
theorem C46_faithful {dk : SyntaxKind → List Char} (hdk : ∀ a b, dk a = dk b → a = b)
    {r r' : Root} {e e' : SElem} (h : Reach r e) (h' : Reach r' e') (hp : e.path = [])
    (hp' : e'.path = []) (heq : e.serialize dk = e'.serialize dk) :
    r.tree = r'.tree ∧ r.tree.text = r'.tree.text := by
  obtain ⟨s, h1, h2⟩ := C46_serialize dk h
  obtain ⟨s', h1', h2'⟩ := C46_serialize dk h'
  rw [h2, h2', hp, hp'] at heq
  rw [hp, Tree.at?_nil, Option.some.injEq] at h1
  rw [hp', Tree.at?_nil, Option.some.injEq] at h1'
  subst h1 h1'
  simp only [Tree.before, Res.ok.injEq] at heq
  have := ser_inj hdk _ _ _ heq
  exact ⟨this, by rw [this]⟩

example := C46_serialize (fun k => (Nat.repr k.toNat).toList) synTop_reach
example : (SElem.serialize (fun k => List.replicate k.toNat 'K') (.token (.child synInnerH 2 2 ⟨2, 2, "é".toList⟩))) =
    .ok (.map [("kind", .str "KK".toList), ("text_range", .range 2 4), ("text", .str "é".toList)]) := rfl
example := C46_faithful (dk := fun k => List.replicate k.toNat 'K')
  (fun a b h => by exact UInt16.toNat_inj.mp (by simpa using congrArg List.length h)) synTop_reach synMut_reach rfl rfl

end Rowan
