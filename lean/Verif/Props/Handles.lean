import Verif.HeapHistory
import Verif.HeapDemo
import Verif.Props.Detach
/-!
# C36, C37: what handles denote through histories of edits

A `View` is the outside view of the handles: which position of which tree each of them denotes, and what the
trees contain.  `Conf.Run P x C C'` says that a program gets from state `C` to state `C'` while it keeps the
handle `x` and makes only calls with property `P`.
-/
namespace Rowan
open Cur (plus)

theorem View.insertAll_mutable {q : Nat} {w : View} : ∀ (ps : List Nat) (i : Nat) (v : View),
    v.insertAll q i ps = .done w → ∀ p ∈ ps, v.mutable p = true
  | [], _, _, _ => by simp
  | p :: ps, i, v, h => by
    rw [insertAll] at h
    split at h
    · cases h
    next hm =>
    split at h
    · split at h <;> cases h
    split at h
    · have ih := insertAll_mutable ps (i + 1) _ h
      intro x hx
      rcases List.mem_cons.mp hx with rfl | hx
      · simpa using hm
      · have := ih x hx
        simp only [View.join] at this
        rwa [show (v.cut p).mutable = v.mutable by rw [View.cut]; split <;> rfl] at this
    · cases h

theorem View.splice_mutable {e q a b : Nat} {ps : List Nat} {v w : View} (h : v.splice e q a b ps = .done w) :
    v.mutable q = true ∧ ∀ p ∈ ps, v.mutable p = true := by
  rw [splice] at h
  split at h
  · cases h
  next hm =>
  refine ⟨by simpa using hm, fun p hp => ?_⟩
  have := insertAll_mutable ps a _ h p hp
  rwa [show (v.deleted e q a b).mutable = v.mutable by rw [View.deleted]; split <;> rfl] at this

section
variable {s s' : HSt} {gs : List GElem} {hs lk rest new : List Nat} {C C' : Conf} {x : Nat}

theorem HReach.reads {r : Nat} {P : List Nat} (h : HReach s gs hs lk) (hl : s.Loc x r P) :
    Cur.kind x s = .ok (s.tree x).kind s ∧
    Cur.textRange x s = .ok (TextRange.at_ (blen ((s.tree r).before P)) (blen (s.tree x).text)) s ∧
    Cur.index x s = .ok (s.index x) s := by
  letI : Greens := ⟨gs⟩
  obtain ⟨kids, hi⟩ := h.ok'
  exact ⟨Cur.kind_ok hi hl.live, Cur.textRange_ok hi hl, Cur.index_ok hl.live⟩

theorem HReach.loc (h : HReach s gs hs lk) (hx : x ∈ hs) : ∃ r P, s.Loc x r P := by
  letI : Greens := ⟨gs⟩
  obtain ⟨kids, hi⟩ := h.ok'
  obtain ⟨l, hch⟩ := hi.chain x (hi.hlive x (cnt_pos.mpr (List.mem_append_left _ hx)))
  exact hch.loc

/-! ## C36 -/

/-- C36: in every reachable state each handle denotes a position of a tree with a content. -/
theorem C36_view (h : HReach s gs hs lk) : ∃ v, s.Views (cnt (hs ++ lk)) v := by
  letI : Greens := ⟨gs⟩
  obtain ⟨kids, hi⟩ := h.ok'
  exact HSt.Views.exists_view hi

/-- C36, the handles as seen by `kind()`, `text_range()`, `parent()` and `index()`: they agree with the position
and the content of the trees.  (`index()` of the top element of a tree says nothing, see below.) -/
theorem C36_reads {v : View} (h : HReach s gs hs lk) (hv : s.Views (cnt (hs ++ lk)) v) (hx : x ∈ hs) :
    ∃ t, (v.tree (v.pos x).1).at? (v.pos x).2 = some t ∧
      Cur.kind x s = .ok t.kind s ∧
      Cur.textRange x s =
        .ok (TextRange.at_ (blen ((v.tree (v.pos x).1).before (v.pos x).2)) (blen t.text)) s ∧
      (∀ P i, (v.pos x).2 = P ++ [i] → Cur.index x s = .ok i s) ∧
      (s.parent x = none ↔ v.pos x = (x, [])) := by
  letI : Greens := ⟨gs⟩
  obtain ⟨kids, hi⟩ := h.ok'
  have hp : 0 < cnt (hs ++ lk) x := cnt_pos.mpr (List.mem_append_left _ hx)
  obtain ⟨h1, h2, _⟩ := hv x hp
  refine ⟨s.tree x, hv.sub_eq hi hp, Cur.kind_ok hi h1.live, ?_, fun P i e => ?_, fun e => ?_, fun e => ?_⟩
  · rw [← h2]; exact Cur.textRange_ok hi h1
  · rw [Cur.index_ok h1.live]
    rw [e] at h1
    generalize hR : P ++ [i] = R at h1
    generalize (v.pos x).1 = r at h1
    cases h1 with
    | root => simp at hR
    | child => rw [(List.append_inj' hR rfl).2 |> List.singleton_inj.mp]
  · exact hv.pos_eq hp (.root h1.live e)
  · rw [e] at h1; exact h1.nil_root.2

/-- C36, one call: how a call that returns changes what the handles denote is what `Call.Shows` says.  In
particular `detach` cuts the element out of its tree, every other element moving to its new position
(`View.cut`), and calls that are not edits change nothing. -/
theorem C36_step {c : Call} {v : View} (h : HReach s gs hs lk) (hr : c.Ready s gs hs rest)
    (hv : s.Views (cnt (hs ++ lk)) v) (e : c.exec s = .ok new s') :
    ∃ v', s'.Views (cnt (new ++ rest ++ (c.lost s ++ lk))) v' ∧ c.Shows v (rest ++ lk) new v' := by
  letI : Greens := ⟨gs⟩
  obtain ⟨v', h1, h2, _⟩ := Call.shows h.ok' hr hv e
  exact ⟨v', h1, h2⟩

/-- C36, histories: whatever is done, a handle that is kept denotes an element of the same kind. -/
theorem C36_kind (h : C.Reach) (hx : x ∈ C.hs) (r : C.Run (fun _ _ => True) x C') :
    x ∈ C'.hs ∧ (C'.s.tree x).kind = (C.s.tree x).kind ∧ (C'.s.tree x).isNode = (C.s.tree x).isNode := by
  have := (r.kept h hx).same x (by simp [cnt])
  exact ⟨r.held hx, this.2, this.1⟩

/-- C36, histories: an element that is not on the edited spine (`Call.Alters`) keeps its content. -/
theorem C36_content (h : C.Reach) (hx : x ∈ C.hs) (r : C.Run (fun s c => ¬ c.Alters s x) x C') :
    C'.s.tree x = C.s.tree x := by
  induction r with
  | refl => rfl
  | step r st hl ih =>
    rw [← ih]
    exact (st.kept (r.reach h) (r.held hx) fun c rest e => (hl c rest e).1).2 fun c rest e => (hl c rest e).2

/-! ## C37 -/

/-- C37: a handle into a mutable tree stays one, and a handle into an immutable tree stays one. -/
theorem C37_mutability (h : C.Reach) (hx : x ∈ C.hs) (r : C.Run (fun _ _ => True) x C') :
    C'.s.mutable x = C.s.mutable x := (r.kept h hx).mutable x (by simp [cnt])

/-- C37: nothing that a program does changes an immutable tree or what a handle into it denotes. -/
theorem C37_immutable {r : Nat} {P : List Nat} (h : C.Reach) (hx : x ∈ C.hs) (hm : C.s.mutable x = false)
    (hl : C.s.Loc x r P) (run : C.Run (fun _ _ => True) x C') :
    C'.s.Loc x r P ∧ C'.s.tree r = C.s.tree r ∧ C'.s.tree x = C.s.tree x ∧ C'.s.index x = C.s.index x := by
  letI : Greens := ⟨C.gs⟩
  obtain ⟨kids, hi⟩ := HReach.ok' h
  obtain ⟨l, hch⟩ := hi.chain x hl.live
  have hk := (run.kept h hx).imm x l (cnt_pos.mpr (by simp)) hm hch
  refine ⟨hl.congr hch fun y hy => ⟨(hk y hy).1, (hk y hy).2.parent, (hk y hy).2.index⟩, ?_, ?_, ?_⟩
  · rw [HSt.tree, (hk r (hl.chain_mem hch)).2.green]; rfl
  · rw [HSt.tree, (hk x hch.self_mem).2.green]; rfl
  · exact (hk x hch.self_mem).2.index

/-- C37: the same in terms of the functions that read a handle. -/
theorem C37_immutable_reads (h : C.Reach) (hx : x ∈ C.hs) (hm : C.s.mutable x = false)
    (run : C.Run (fun _ _ => True) x C') :
    (∃ k, Cur.kind x C.s = .ok k C.s ∧ Cur.kind x C'.s = .ok k C'.s) ∧
    (∃ k, Cur.textRange x C.s = .ok k C.s ∧ Cur.textRange x C'.s = .ok k C'.s) ∧
    (∃ k, Cur.index x C.s = .ok k C.s ∧ Cur.index x C'.s = .ok k C'.s) := by
  obtain ⟨r, P, hl⟩ := HReach.loc h hx
  obtain ⟨h1, h2, h3, h4⟩ := C37_immutable h hx hm hl run
  obtain ⟨k1, k2, k3⟩ := HReach.reads h hl
  obtain ⟨g1, g2, g3⟩ := HReach.reads (run.reach h) h1
  rw [h3] at g1 g2
  rw [h2] at g2
  rw [h4] at g3
  exact ⟨⟨_, k1, g1⟩, ⟨_, k2, g2⟩, ⟨_, k3, g3⟩⟩

/-- C37: the elements of a tree are all mutable or all immutable. -/
theorem C37_same_tree {y r : Nat} {P Q : List Nat} (h : HReach s gs hs lk) (hx : s.Loc x r P) (hy : s.Loc y r Q) :
    s.mutable x = s.mutable y := by
  letI : Greens := ⟨gs⟩
  obtain ⟨kids, hi⟩ := h.ok'
  rw [← hi.mutable_root hx, hi.mutable_root hy]

/-- C37: green nodes are not changed: what a program has obtained from a tree at any time is equal to everything
with the same address that it has obtained at any other time or that it can obtain from a handle now. -/
theorem C37_green (h : HReach s gs hs lk) {e y : GElem} (he : e ∈ gs)
    (hy : y ∈ gs ∨ ∃ x ∈ hs, y ∈ (s.green x).subs) (ha : e.addr = y.addr) : e = y := by
  letI : Greens := ⟨gs⟩
  obtain ⟨kids, hi⟩ := h.ok'
  refine hi.uni.coh e y (.inr ⟨e, he, GElem.self_mem_subs e⟩) ?_ ha
  rcases hy with hy | ⟨x, hx, hy⟩
  · exact .inr ⟨y, hy, GElem.self_mem_subs y⟩
  · exact .inl (HInv.alive_subs (hi.alive (hi.hlive x (cnt_pos.mpr (List.mem_append_left _ hx)))) hy)

/-- C37: the children of an immutable node cannot be spliced. -/
theorem C37_splice_immutable {q a b : Nat} {ins : List Nat} (h : HReach s gs hs lk)
    (hh : hs.Perm (ins ++ rest)) (hq : q ∈ rest) (hn : (s.tree q).isNode = true) (hm : s.mutable q = false)
    (room : s.Room (3 * ((s.tree q).children.length + 1) + 1 + ins.length)) :
    ∃ s', Cur.splice q a b ins s = .panic .assert s' ∧ HReach s' gs rest lk := by
  letI : Greens := ⟨gs⟩
  obtain ⟨kids, hi⟩ := h.ok'
  obtain ⟨v, hv⟩ := HSt.Views.exists_view hi
  have hr : (Call.splice q a b ins).Ready s gs hs rest :=
    ⟨hh, by simpa [Call.uses] using hq, by simpa [Call.nodes] using hn, by simp⟩
  obtain ⟨e, hA, _⟩ := Call.splice_agrees ⟨kids, hi⟩ hr hv
  have hvm : v.mutable q = false := by
    rw [← (hv q (cnt_pos.mpr (List.mem_append_left _ (hr.mem_rest hq)))).2.2]; exact hm
  rw [View.splice, if_pos hvm] at hA
  rcases hA with hA | ⟨s', e1, _⟩
  · refine absurd (?_ : (Call.splice q a b ins).exec s = .abort) (Call.no_abort (by exact room))
    simp only [Call.exec, H.bind_def, hA]
  · exact ⟨s', e1, .caught (.splice q a b ins) h hr (by simp only [Call.exec, H.bind_def, e1])⟩

/-- C37: an element of an immutable tree cannot be moved into a mutable tree, nor the other way round: such a
call does not return normally. -/
theorem C37_not_mixed {q a b : Nat} {ins : List Nat} (h : HReach s gs hs lk)
    (hh : hs.Perm (ins ++ rest)) (hq : q ∈ rest) (hn : (s.tree q).isNode = true)
    (hm : ∃ p ∈ ins, s.mutable p = false ∨ s.mutable p ≠ s.mutable q) (s' : HSt) :
    Cur.splice q a b ins s ≠ .ok () s' := by
  letI : Greens := ⟨gs⟩
  obtain ⟨kids, hi⟩ := h.ok'
  obtain ⟨v, hv⟩ := HSt.Views.exists_view hi
  have hr : (Call.splice q a b ins).Ready s gs hs rest :=
    ⟨hh, by simpa [Call.uses] using hq, by simpa [Call.nodes] using hn, by simp⟩
  have hpos : ∀ x ∈ hs, 0 < cnt (hs ++ lk) x := fun x hx => cnt_pos.mpr (List.mem_append_left _ hx)
  obtain ⟨e, hA, _⟩ := Call.splice_agrees ⟨kids, hi⟩ hr hv
  intro e0
  rw [e0] at hA
  rcases hA with hA | hA
  · cases hA
  · split at hA
    · next w hd =>
      obtain ⟨h1, h2⟩ := View.splice_mutable hd
      obtain ⟨p, hp, hm⟩ := hm
      rw [(hv p (hpos p (hr.mem_takes hp))).2.2, (hv q (hpos q (hr.mem_rest hq))).2.2, h1, h2 p hp] at hm
      simp at hm
    · obtain ⟨_, a, _⟩ := hA; cases a
    · obtain ⟨_, _, a, _⟩ := hA; cases a
    · cases hA
    · obtain ⟨_, _, a, _⟩ := hA; cases a

/-- C37: `clone_for_update` of a mutable node panics and changes nothing. -/
theorem C37_clone_for_update (h : HReach s gs hs lk) (hx : x ∈ hs) (hm : s.mutable x = true) :
    Cur.cloneForUpdate x s = .panic .assert s := by
  letI : Greens := ⟨gs⟩
  obtain ⟨kids, hi⟩ := h.ok'
  exact Cur.cloneForUpdate_panic (hi.hlive x (cnt_pos.mpr (List.mem_append_left _ hx))) hm

end

/-! ## Concrete cases -/

theorem demo_loc3 : demo.s.Loc 3 0 ([] ++ [2]) := .child' (q := 0) (by decide +kernel) (by decide +kernel) (by decide +kernel) demo_loc0
theorem demo_loc5 : demo.s.Loc 5 5 [] := .root (by decide +kernel) (by decide +kernel)

/-- The token `b` of `demo` is detached. -/
theorem demo_detach {P : HSt → Call → Prop} (x : Nat) (hx : x ∈ demo.hs) (hP : P demo.s (.detach 2)) :
    ∃ C, demo.Run P x C ∧ C.s.Loc 2 2 [] := by
  obtain ⟨s', h1, _, h3, _⟩ := C33_detach demo_reach (p := 2) (by decide +kernel) (by decide +kernel) demo_loc2
  refine ⟨⟨s', demo.gs, [] ++ demo.hs, [] ++ demo.lk⟩, .step .refl (.ok demo (.detach 2) (rest := demo.hs) ?_ ?_) ?_, h3⟩
  · exact ⟨.refl _, by decide +kernel, by simp [Call.nodes], by simp⟩
  · simp only [Call.exec, H.bind_def, h1]; rfl
  · rintro c rest ⟨⟩; exact ⟨hx, hP⟩

/-- `C36_content` and `C36_kind` apply to the inner node. -/
example : ∃ C, demo.Run (fun s c => ¬ c.Alters s 3) 3 C ∧ C.s.tree 3 = .node 10 [.token 2 ['c', 'c']] := by
  letI : Greens := ⟨[]⟩
  obtain ⟨C, h, _⟩ := demo_detach (P := fun s c => ¬ c.Alters s 3) 3 (by decide +kernel) (by
    rintro ⟨⟨r, P, Q, l1, l2⟩, _⟩
    have h1 := (l1.unique demo_loc3).2
    have h2 := (l2.unique demo_loc2).2
    rw [h1] at h2; simp at h2)
  exact ⟨C, h, (C36_content demo_reach (by decide +kernel) h).trans (by decide +kernel)⟩
example : ∃ C, demo.Run (fun _ _ => True) 0 C ∧ (C.s.tree 0).kind = 20 := by
  obtain ⟨C, h, _⟩ := demo_detach (P := fun _ _ => True) 0 (by decide +kernel) trivial
  exact ⟨C, h, (C36_kind demo_reach (by decide +kernel) h).2.1.trans (by decide +kernel)⟩
/-- `C36_step` applies to that call too. -/
example : ∃ v new s' rest, demo.s.Views (cnt (demo.hs ++ demo.lk)) v ∧
    (Call.detach 2).Ready demo.s demo.gs demo.hs rest ∧ (Call.detach 2).exec demo.s = .ok new s' ∧
    ∃ v', s'.Views (cnt (new ++ rest ++ ((Call.detach 2).lost demo.s ++ demo.lk))) v' ∧ v' = v.cut 2 := by
  obtain ⟨v, hv⟩ := C36_view demo_reach
  obtain ⟨s', h1, _⟩ := C33_detach demo_reach (p := 2) (by decide +kernel) (by decide +kernel) demo_loc2
  have hr : (Call.detach 2).Ready demo.s demo.gs demo.hs demo.hs :=
    ⟨.refl _, by decide +kernel, by simp [Call.nodes], by simp⟩
  have e : (Call.detach 2).exec demo.s = .ok [] s' := by simp only [Call.exec, H.bind_def, h1]; rfl
  obtain ⟨v', h2, h3⟩ := C36_step demo_reach hr hv e
  exact ⟨v, [], s', demo.hs, hv, hr, e, v', h2, h3.2⟩
example := fun v hv => C36_reads (x := 3) (v := v) demo_reach hv (by decide +kernel)
/-- The inner node was child 2 and is child 1 afterwards; its range has moved. -/
example : ((do Cur.detach 2; Cur.index 3) demo.s).val? = some 1 := by decide +kernel
example : ((do Cur.detach 2; Cur.textRange 3) demo.s).val? = some ⟨1, 3, by decide⟩ := by decide +kernel
/-- The detached element is a top element but `index()` still returns its old place. -/
example : ((do Cur.detach 2; Cur.index 2) demo.s).val? = some 1 := by decide +kernel

/-- `C37_immutable` applies to the immutable tree made of the same green node. -/
example : ∃ C, demo.Run (fun _ _ => True) 5 C ∧ C.s.Loc 5 5 [] ∧ C.s.tree 5 = demoTree ∧ C.s.mutable 5 = false := by
  obtain ⟨C, h, _⟩ := demo_detach (P := fun _ _ => True) 5 (by decide +kernel) trivial
  obtain ⟨h1, h2, _⟩ := C37_immutable demo_reach (by decide +kernel) (by decide +kernel) demo_loc5 h
  exact ⟨C, h, h1, h2.trans (by decide +kernel),
    (C37_mutability demo_reach (by decide +kernel) h).trans (by decide +kernel)⟩
example : ∃ C, demo.Run (fun _ _ => True) 5 C ∧ ∃ k, Cur.textRange 5 C.s = .ok k C.s := by
  obtain ⟨C, h, _⟩ := demo_detach (P := fun _ _ => True) 5 (by decide +kernel) trivial
  obtain ⟨_, ⟨k, _, h2⟩, _⟩ := C37_immutable_reads demo_reach (by decide +kernel) (by decide +kernel) h
  exact ⟨C, h, k, h2⟩
example := C37_same_tree demo_reach demo_loc2 demo_loc3
/-- `C37_green`: the green node that both trees of `demo` were made from is held by the program and by the
immutable tree. -/
example : ∃ e ∈ demo.gs, e.addr = (demo.s.green 5).addr := by decide +kernel
example := fun e he => C37_green (e := e) (y := demo.s.green 5) demo_reach he
  (.inr ⟨5, by decide +kernel, GElem.self_mem_subs _⟩)
example := C37_splice_immutable (q := 5) (a := 0) (b := 1) (ins := [2]) (rest := [5, 4, 3, 1, 0]) demo_reach
  (by decide +kernel) (by decide +kernel) (by decide +kernel) (by decide +kernel) (demo_room.mono (by decide +kernel))
example := C37_not_mixed (q := 0) (a := 0) (b := 1) (ins := [2, 5]) (rest := [4, 3, 1, 0]) demo_reach
  (by decide +kernel) (by decide +kernel) (by decide +kernel) ⟨5, by simp, .inl (by decide +kernel)⟩
example := C37_clone_for_update (x := 0) demo_reach (by decide +kernel) (by decide +kernel)

end Rowan
