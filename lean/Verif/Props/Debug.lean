import Verif.Spec.Debug
import Verif.PositionLemmas
import Verif.Props.Walk
/-!
# C25, C48: formatting
-/
namespace Rowan

/-! ### The whole walk -/

theorem GChild.subss_length (cs : List GChild) :
    (GChild.subss cs).length = (cs.map fun c => c.asRef.subs.length).sum := by
  induction cs with
  | nil => rfl
  | cons c cs ih =>
    have : c.subs.length = c.asRef.subs.length := by cases c <;> rfl
    rw [GChild.subss, List.length_append, ih, this, List.map_cons, List.sum_cons]

theorem evs_length (skip : List Nat → Bool) : ∀ (k : Nat) (e : SElem), sizeOf e.green = k →
    (evs (fun _ => true) skip e).length ≤ 2 * e.green.subs.length := by
  intro k
  induction k using Nat.strongRecOn with
  | _ k ih =>
    intro e hk
    rw [evs_eq]
    cases e with
    | token t =>
      simp [SElem.kidsSel, GElem.subs]
    | node n =>
      have hfil : SElem.kidsSel (fun _ => true) (.node n) = n.kids := by
        simp [SElem.kidsSel]
      have hs : (GNode.subs n.green).length =
          1 + (n.kids.map fun x => x.green.subs.length).sum := by
        have h1 : n.kids.map (fun x => x.green.subs.length)
            = n.green.slice.map fun c => c.asRef.subs.length := by
          have := congrArg (List.map fun g => (GElem.subs g).length) (SNode.kids_green n)
          simpa [GNode.children, Function.comp_def] using this
        rw [h1]
        cases hg : n.green with
        | mk a kd l cs =>
          simp only [GNode.subs, List.length_cons, GChild.subss_length, GNode.slice]
          exact Nat.add_comm _ _
      have hle : ∀ L : List SElem, (∀ x ∈ L, x ∈ n.kids) →
          (L.flatMap (evs (fun _ => true) skip)).length
            ≤ 2 * (L.map fun x => x.green.subs.length).sum := by
        intro L hL
        induction L with
        | nil => simp
        | cons x L ihL =>
          have h1 := ih (sizeOf x.green) (by
            rw [← hk]
            apply SElem.kidsSel_lt (sel := fun _ => true)
            rw [hfil]; exact hL x (by simp)) x rfl
          have h2 := ihL (fun y hy => hL y (by simp [hy]))
          simp only [List.flatMap_cons, List.length_append, List.map_cons, List.sum_cons]
          omega
      have := hle n.kids (fun _ h => h)
      have hg : (SElem.green (.node n)).subs.length = (GNode.subs n.green).length := rfl
      rw [hfil, hg, hs]
      split <;> simp only [List.length_cons, List.length_append, List.length_nil] <;> omega

theorem PreorderT.collect_drop {L : List (WalkEvent SElem)} {start : SElem}
    (hL : ∀ k : Nat, (L[k]?).bind (PreorderT.succ start) = L[k + 1]?) :
    ∀ (m j : Nat) (it : PreorderT), it.start = start → it.skip = false → it.next = L[j]? →
      j ≤ L.length → L.length < j + m → PreorderT.collect m it = .ok (L.drop j) := by
  intro m
  induction m with
  | zero =>
    intro j it _ _ hn hj hm
    omega
  | succ m ih =>
    intro j it h1 h2 h3 hle hm
    rw [PreorderT.collect, PreorderT.step, h2]
    cases hj : L[j]? with
    | none =>
      rw [hj] at h3
      simp [h3]
      simpa using hj
    | some ev =>
      rw [hj] at h3
      have hn := hL j
      rw [hj] at hn
      simp only [Bool.false_eq_true, if_false, Res.ok_bind, h3]
      have := ih (j + 1) { start := it.start, next := (some ev).bind (succ it.start) } h1 rfl
        (by rw [h1]; exact hn) (List.getElem?_eq_some_iff.mp hj).1 (by omega)
      rw [this]
      simp [drop_cons_of_getElem? hj]

/-- The events seen by a `for` loop over `preorder_with_tokens()`. -/
theorem SNode.walkEvents_eq {r : Root} (hcoh : r.green.Coherent) {n : SNode}
    (h : Reach r (.node n)) : n.walkEvents = .ok (evs (fun _ => true) noSkip (.node n)) := by
  obtain ⟨hv, hr⟩ := h.valid
  have hrun := walk_run hcoh (fun _ => true) noSkip (.node n) hv hr
  have hg : ∀ ev, gnext (fun _ => true) noSkip (.node n) ev = PreorderT.succ (.node n) ev := by
    intro ev
    rw [PreorderT.succ_eq]
    cases ev <;> simp [gnext, noSkip]
  rw [SNode.walkEvents]
  have := PreorderT.collect_drop (L := evs (fun _ => true) noSkip (.node n)) (start := .node n)
    (fun k => by
      rw [← hrun k, ← hrun (k + 1), successors]
      congr 1; funext ev; rw [hg])
    (2 * (GNode.subs n.green).length + 1) 0 (PreorderT.new n) rfl rfl
    (by rw [← hrun 0]; rfl) (Nat.zero_le _)
    (by
      have := evs_length noSkip _ (.node n) rfl
      have hg : (SElem.green (.node n)).subs.length = (GNode.subs n.green).length := rfl
      omega)
  simpa using this

/-! ### C48: `Display` -/

/-- The text an event contributes. -/
def eventText : WalkEvent SElem → List Char
  | .enter (.token t) => t.display
  | _ => []

theorem evs_text (k : Nat) : ∀ (e : SElem), sizeOf e.green = k →
    (evs (fun _ => true) noSkip e).flatMap eventText = e.green.tree.text := by
  induction k using Nat.strongRecOn with
  | _ k ih =>
    intro e hk
    rw [evs_eq]
    cases e with
    | token t =>
      simp [SElem.kidsSel, noSkip, eventText, SToken.display, SToken.text, GToken.tree]
    | node n =>
      have hfil : SElem.kidsSel (fun _ => true) (.node n) = n.kids := by
        simp [SElem.kidsSel]
      have hkids : ∀ L : List SElem, (∀ x ∈ L, x ∈ n.kids) →
          (L.flatMap (evs (fun _ => true) noSkip)).flatMap eventText
            = Tree.texts (L.map fun x => x.green.tree) := by
        intro L hL
        induction L with
        | nil => simp
        | cons x L ihL =>
          have h1 := ih (sizeOf x.green) (by
            rw [← hk]
            apply SElem.kidsSel_lt (sel := fun _ => true)
            rw [hfil]; exact hL x (by simp)) x rfl
          simp [List.flatMap_append, h1, ihL (fun y hy => hL y (by simp [hy]))]
      have htrees : (n.kids.map fun k => k.green.tree) = n.green.children.map GElem.tree := by
        rw [← SNode.kids_green, List.map_map]; rfl
      have := hkids n.kids (fun _ h => h)
      rw [htrees] at this
      simp only [noSkip, Bool.false_eq_true, if_false, hfil, List.flatMap_cons,
        List.flatMap_append, List.flatMap_nil, eventText, List.nil_append, List.append_nil]
      rw [this]
      simp only [SElem.green_node, GElem.tree_node, GNode.tree_eq, Tree.text_node]

/-- **C48.** `to_string()` of a node or token is its text, and never panics. -/
theorem C48_display {r : Root} (hcoh : r.green.Coherent) :
    (∀ n, Reach r (.node n) → ∃ s, r.tree.at? n.path = some s ∧ n.display = .ok s.text) ∧
    (∀ t, Reach r (.token t) → ∃ k, r.tree.at? t.path = some (.token k t.display)) := by
  constructor
  · intro n h
    obtain ⟨hv, hr⟩ := h.valid
    refine ⟨n.green.tree, by rw [← hr]; exact SNode.Valid.at_path hv, ?_⟩
    rw [SNode.display, SNode.walkEvents_eq hcoh h, Res.ok_bind]
    exact congrArg Res.ok (evs_text _ (.node n) rfl)
  · intro t h
    obtain ⟨hv, hr⟩ := h.valid
    exact ⟨t.kind, by rw [← hr]; exact SElem.Valid.at_path hv⟩

example : synTop.display = .ok (synTop.green.tree.text) := by decide

/-! ### C25: `Debug` -/

theorem atLeast_spec : ∀ (x : List Char) (n : Nat), n ≤ blen x →
    (∃ y, x = atLeast n x ++ y) ∧ n ≤ blen (atLeast n x) ∧ blen (atLeast n x) ≤ n + 3 ∧
    ∀ p q, x = p ++ q → n ≤ blen p → blen (atLeast n x) ≤ blen p
  | x, 0, _ => by simp [atLeast]
  | [], n + 1, h => by simp at h
  | c :: cs, n + 1, h => by
    have h4 := Char.utf8Size_le_four c
    have h1 := Char.utf8Size_pos c
    simp at h
    obtain ⟨⟨y, hy⟩, a, b, m⟩ := atLeast_spec cs (n + 1 - c.utf8Size) (by omega)
    refine ⟨⟨y, by rw [atLeast, List.cons_append, ← hy]⟩, by simp [atLeast]; omega, ?_, ?_⟩
    · simp only [atLeast, blen_cons]
      by_cases hc : n + 1 ≤ c.utf8Size
      · have : n + 1 - c.utf8Size = 0 := by omega
        rw [this]; cases cs <;> simp [atLeast] <;> omega
      · omega
    · intro p q hp hn
      cases p with
      | nil => simp at hn
      | cons d p =>
        simp at hp hn ⊢
        obtain ⟨rfl, hp⟩ := hp
        have := m p q hp (by omega)
        simp [atLeast]; omega

theorem boundary_iff {x : List Char} {i : Nat} :
    isCharBoundary x i = true ↔ ∃ p q, x = p ++ q ∧ blen p = i := by
  rw [isCharBoundary]
  cases h : bsplit x i with
  | none =>
    simp
    intro p q hx hi
    rw [bsplit_eq_some.mpr ⟨hx, hi⟩] at h; cases h
  | some pq =>
    obtain ⟨p, q⟩ := pq
    simp
    exact ⟨p, ⟨q, (bsplit_eq_some.mp h).1⟩, (bsplit_eq_some.mp h).2⟩

theorem boundary_search {x : List Char} (h : 25 ≤ blen x) :
    [21, 22, 23, 24].find? (fun idx => isCharBoundary x idx) = some (blen (atLeast 21 x)) := by
  obtain ⟨⟨y, hy⟩, a, b, m⟩ := atLeast_spec x 21 (by omega)
  have hB : isCharBoundary x (blen (atLeast 21 x)) = true := boundary_iff.mpr ⟨_, y, hy, rfl⟩
  have hN : ∀ i, 21 ≤ i → i < blen (atLeast 21 x) → isCharBoundary x i = false := by
    intro i h1 h2
    cases hc : isCharBoundary x i with
    | false => rfl
    | true =>
      obtain ⟨p, q, hx, hp⟩ := boundary_iff.mp hc
      have := m p q hx (by omega); omega
  generalize blen (atLeast 21 x) = B at *
  have : B = 21 ∨ B = 22 ∨ B = 23 ∨ B = 24 := by omega
  rcases this with rfl | rfl | rfl | rfl
  · simp [hB]
  · simp [hB, hN 21]
  · simp [hB, hN 21, hN 22]
  · simp [hB, hN 21, hN 22, hN 23]

theorem SElem.debug_eq (env : DebugEnv) {e : SElem} (hv : e.Valid) :
    e.debug env = .ok (Tree.line env e.rootOf.tree e.path) := by
  rw [Tree.line, hv.at_path]
  have ho := hv.offset_eq
  have hl := GElem.textLen_eq e.green hv.green_wf
  cases e with
  | node n =>
    simp only [SElem.debug, SNode.debug, SNode.textRange]
    simp only [SElem.offset_node, SElem.rootOf_node, SElem.path_node, SElem.green_node,
      GElem.textLen_node, GElem.tree_node] at ho hl ⊢
    rw [ho, hl, SNode.kind, ← GElem.kind_node, ← GElem.tree_kind, GElem.tree_node, GNode.tree_eq]
    simp [Tree.len]
  | token t =>
    have hd : SElem.debug env (.token t) =
        if blen t.green.text < 25 then
          .ok (env.kind t.green.kind ++ '@' :: env.range (TextRange.at_ t.offset t.green.textLen)
            ++ ' ' :: env.str t.green.text)
        else match [21, 22, 23, 24].find? fun idx => isCharBoundary t.green.text idx with
          | some idx => do
            let text ← Res.ofOption (bslice t.green.text 0 idx)
            .ok (env.kind t.green.kind ++ '@' :: env.range
              (TextRange.at_ t.offset t.green.textLen) ++ ' ' :: env.str (text ++ " ...".toList))
          | none => .panic := rfl
    rw [hd]
    simp only [SElem.offset_token, SElem.rootOf_token, SElem.path_token, SElem.green_token,
      GElem.textLen_token, GElem.tree_token] at ho hl ⊢
    rw [ho, hl]
    simp only [GToken.tree, Tree.kind, shownText, Tree.text_token, Tree.len]
    by_cases hb : blen t.green.text < 25
    · simp [hb]
    · rw [if_neg hb, if_neg hb, boundary_search (by omega)]
      obtain ⟨⟨y, hy⟩, -⟩ := atLeast_spec t.green.text 21 (by omega)
      have : bslice t.green.text 0 (blen (atLeast 21 t.green.text))
          = some (atLeast 21 t.green.text) :=
        bslice_eq_some.mpr ⟨[], y, by simpa using hy, rfl, by simp⟩
      simp [this]

/-- The dump's contribution of one event. -/
def eventLine (env : DebugEnv) (r : Root) (base : Nat) : WalkEvent SElem → List Char
  | .enter e => indent (e.path.length - base) ++ Tree.line env r.tree e.path ++ ['\n']
  | .leave _ => []

theorem dumpLoop_evs (env : DebugEnv) (r : Root) (base : Nat) (k : Nat) : ∀ (e : SElem),
    sizeOf e.green = k → e.Valid → e.rootOf = r → ∀ (lvl : Nat), e.path.length = base + lvl →
    ∀ rest out, dumpLoop env (evs (fun _ => true) noSkip e ++ rest) lvl out
      = dumpLoop env rest lvl
          (out ++ (evs (fun _ => true) noSkip e).flatMap (eventLine env r base)) := by
  induction k using Nat.strongRecOn with
  | _ k ih =>
    intro e hk hv hr lvl hlvl rest out
    have hkids : ∀ L : List SElem, (∀ x ∈ L, x ∈ e.kidsSel fun _ => true) → ∀ rest out,
        dumpLoop env (L.flatMap (evs (fun _ => true) noSkip) ++ rest) ((lvl + 1 : Nat) : Int) out
          = dumpLoop env rest ((lvl + 1 : Nat) : Int) (out ++
            (L.flatMap (evs (fun _ => true) noSkip)).flatMap (eventLine env r base)) := by
      intro L hL
      induction L with
      | nil => simp
      | cons x L ihL =>
        intro rest out
        have hx := hL x (by simp)
        have hsz := SElem.kidsSel_lt hx
        obtain ⟨xv, xr, xp⟩ : x.Valid ∧ x.rootOf = r ∧ x.path.length = base + (lvl + 1) := by
          cases e with
          | token t => simp [SElem.kidsSel] at hx
          | node n =>
            simp only [SElem.kidsSel, List.mem_filter] at hx
            obtain ⟨h1, h2, h3⟩ := SNode.kids_valid hv hx.1
            refine ⟨h1, h2.trans hr, ?_⟩
            rw [(SElem.Valid.of_parent h1 h3).2.2.1]
            simp only [SElem.path_node] at hlvl
            simp; omega
        rw [List.flatMap_cons, List.append_assoc,
          ih (sizeOf x.green) (by omega) x rfl xv xr (lvl + 1) xp,
          ihL (fun y hy => hL y (by simp [hy])), List.flatMap_append, List.append_assoc]
    rw [evs_eq]
    simp only [noSkip, Bool.false_eq_true, if_false, List.cons_append, List.append_assoc,
      List.nil_append, List.flatMap_cons, List.flatMap_append, List.flatMap_nil, List.append_nil]
    rw [dumpLoop, SElem.debug_eq env hv, Res.ok_bind, hr]
    rw [show ((lvl : Int) + 1) = ((lvl + 1 : Nat) : Int) from by simp, hkids _ (fun _ h => h),
      dumpLoop]
    rw [show (((lvl + 1 : Nat) : Int) - 1) = (lvl : Int) from by omega]
    simp [eventLine, indent, hlvl, List.append_assoc]

theorem evs_entered {g : SElem → List Char} {f : List Nat → List Char}
    (L : List (WalkEvent SElem)) (h : ∀ e, g e = f e.path) :
    L.flatMap (fun | .enter e => g e | .leave _ => [])
      = ((L.map (·.map SElem.path)).filterMap WalkEvent.entered).flatMap f := by
  induction L with
  | nil => rfl
  | cons x L ih =>
    rw [List.flatMap_cons, ih]
    cases x with
    | enter e => simp [WalkEvent.map, WalkEvent.entered, h]
    | leave e => simp [WalkEvent.map, WalkEvent.entered, List.filterMap_cons]

/-- **C25.** `{:#?}` of a node never fails (in particular not the final level check), and prints one
line per element below it, in depth-first order, indented by depth. -/
theorem C25_dump {r : Root} (hcoh : r.green.Coherent) (env : DebugEnv) {n : SNode}
    (h : Reach r (.node n)) {s : Tree} (hs : r.tree.at? n.path = some s) :
    n.debugAlternate env = .ok ((Tree.descend Tree.all s n.path).flatMap fun q =>
      indent (q.length - n.path.length) ++ Tree.line env r.tree q ++ ['\n']) := by
  obtain ⟨hv, hr⟩ := h.valid
  rw [SNode.debugAlternate, SNode.walkEvents_eq hcoh h, Res.ok_bind]
  have := dumpLoop_evs env r n.path.length _ (.node n) rfl hv hr 0 rfl [] []
  simp only [List.append_nil, List.nil_append] at this
  rw [show (0 : Int) = ((0 : Nat) : Int) from rfl, this, dumpLoop]
  simp only [Int.natCast_zero, if_true]
  congr 1
  have hst : GElem.tree (SElem.green (.node n)) = s := by
    have := SElem.Valid.at_path hv
    rw [hr, SElem.path_node, hs] at this
    exact (Option.some.inj this).symm
  have hsp := evs_spec (fun _ => true) Tree.all noSkip (fun _ => rfl) (.node n)
  rw [hst] at hsp
  rw [← walk_entered, ← SElem.path_node, ← hsp]
  rw [← evs_entered (g := fun e => indent (e.path.length - (SElem.path (.node n)).length)
      ++ Tree.line env r.tree e.path ++ ['\n']) _ (fun _ => rfl)]
  rfl

/-- **C25.** `{:?}` of a token never fails, whatever its text; it shows the whole text if that is
shorter than 25 bytes, and otherwise its shortest prefix of at least 21 bytes (which has at most 24)
followed by dots. -/
theorem C25_token {r : Root} (env : DebugEnv) {t : SToken} (h : Reach r (.token t)) :
    t.debug env = .ok (Tree.line env r.tree t.path) ∧
    (blen t.text < 25 → shownText t.text = t.text) ∧
    (25 ≤ blen t.text → ∃ p q, t.text = p ++ q ∧ shownText t.text = p ++ " ...".toList ∧
      21 ≤ blen p ∧ blen p ≤ 24) := by
  obtain ⟨hv, hr⟩ := h.valid
  refine ⟨by rw [← hr]; exact SElem.debug_eq env hv, fun h => by simp [shownText, h], fun h => ?_⟩
  obtain ⟨⟨y, hy⟩, a, b, -⟩ := atLeast_spec t.text 21 (by omega)
  exact ⟨atLeast 21 t.text, y, hy, by rw [shownText, if_neg (by omega)], a, b⟩

/-- **C25.** `{:?}` of a node shows its kind and range. -/
theorem C25_node {r : Root} (env : DebugEnv) {n : SNode} (h : Reach r (.node n)) :
    n.debug env = Tree.line env r.tree n.path := by
  obtain ⟨hv, hr⟩ := h.valid
  rw [← hr]; exact Res.ok.inj (SElem.debug_eq env hv)

/-! ### Concrete cases -/

/-- A formatter for the examples. -/
def plainEnv : DebugEnv := ⟨fun k => (toString k).toList,
  fun r => (toString r.start ++ ".." ++ toString r.stop).toList, fun s => '"' :: s ++ ['"']⟩

example := C25_dump synGreen_coherent plainEnv synTop_reach rfl
example : shownText "aaaaaaaaaaaaaaaaaaaaééé".toList = "aaaaaaaaaaaaaaaaaaaaé ...".toList := by decide
example : (SToken.debug plainEnv (.root false 0 (GToken.new 3 7 "aaaaaaaaaaaaaaaaaaaaééé".toList)))
    = .ok (Tree.line plainEnv (.token 7 "aaaaaaaaaaaaaaaaaaaaééé".toList) []) :=
  (C25_token (r := ⟨false, 0, .token _⟩) plainEnv (Reach.top trivial)).1

end Rowan
