import Verif.Spec.Fmt
import Verif.Props.Debug
import Verif.Props.Serde
import Verif.Props.SyntaxText
/-!
# C67, C68: sinks that can fail, formatting options
-/
namespace Rowan

/-! ### Feeding -/

section
variable {ev ε σ α : Type} (k : Sink ev ε σ)

theorem Sink.feed_append (L L' : List ev) (s : σ) :
    k.feed (L ++ L') s = match k.feed L s with
      | (.ok (), s) => k.feed L' s
      | (.error e, s) => (.error e, s) := by
  induction L generalizing s with
  | nil => rfl
  | cons x L ih =>
    rw [List.cons_append, Sink.feed, Sink.feed]
    cases k.put s x with
    | mk a s' =>
      cases a with
      | ok u => exact ih s'
      | error e => rfl

/-- The code gives the sink these, in order, up to the first that is refused. -/
def Feeds (m : Put ε σ Unit) (L : List ev) : Prop := ∀ s, m s = .ok (k.feed L s)

variable {k}

theorem Feeds.pure : Feeds k (Pure.pure ()) ([] : List ev) := fun _ => rfl

theorem Feeds.put (x : ev) : Feeds k (Put.put k x) [x] := by
  intro s
  rw [Put.put, Sink.feed]
  cases k.put s x with
  | mk a s' => cases a <;> rfl

theorem Feeds.bind {m : Put ε σ Unit} {f : Unit → Put ε σ Unit} {L L' : List ev} (h : Feeds k m L) (h' : Feeds k (f ()) L') :
    Feeds k (m >>= f) (L ++ L') := by
  intro s
  show (m s >>= fun x => _) = _
  rw [h s, Sink.feed_append, Res.ok_bind]
  cases k.feed L s with
  | mk a s' => cases a with
    | ok u => exact h' s'
    | error e => rfl

theorem Feeds.puts : ∀ L : List ev, Feeds k (Put.puts k L) L
  | [] => Feeds.pure
  | x :: L => (Feeds.put x).bind (Feeds.puts L)

theorem Feeds.lift {x : Res α} {a : α} {f : α → Put ε σ Unit} {L : List ev} (hx : x = .ok a) (h : Feeds k (f a) L) :
    Feeds k (Put.lift x >>= f) L := by
  intro s
  subst hx
  exact h s

theorem Feeds.each {f : α → Put ε σ Unit} {g : α → List ev} : ∀ {as : List α}, (∀ a ∈ as, Feeds k (f a) (g a)) →
    Feeds k (Put.each f as) (as.flatMap g)
  | [], _ => Feeds.pure
  | a :: as, h => (h a (by simp)).bind (Feeds.each fun b hb => h b (by simp [hb]))

end

/-- **C67**, what it means to stop at the first refusal: the sink took everything, or there is a first element
that it refused, with that error; it was given nothing after that. -/
theorem C67_feed {ev ε σ : Type} (k : Sink ev ε σ) (L : List ev) (s : σ) :
    ((k.feed L s).1 = .ok () ∧ ∀ L1 x L2, L = L1 ++ x :: L2 → (k.put (k.feed L1 s).2 x).1 = .ok ()) ∨
    (∃ L1 x L2 e, L = L1 ++ x :: L2 ∧ (k.feed L1 s).1 = .ok () ∧ (k.put (k.feed L1 s).2 x).1 = .error e ∧
      k.feed L s = (.error e, (k.put (k.feed L1 s).2 x).2)) := by
  induction L generalizing s with
  | nil => exact .inl ⟨rfl, fun L1 x L2 h => by simp at h⟩
  | cons a L ih =>
    cases hp : k.put s a with
    | mk r s' =>
      cases r with
      | error e => exact .inr ⟨[], a, L, e, rfl, rfl, by rw [Sink.feed, hp], by rw [Sink.feed, Sink.feed, hp]⟩
      | ok u =>
        have hf : ∀ M, k.feed (a :: M) s = k.feed M s' := fun M => by rw [Sink.feed, hp]
        rcases ih s' with ⟨h1, h2⟩ | ⟨L1, x, L2, e, h0, h1, h2, h3⟩
        · refine .inl ⟨by rw [hf]; exact h1, fun L1 x L2 h => ?_⟩
          cases L1 with
          | nil => cases h; rw [Sink.feed, hp]
          | cons b L1 => cases h; rw [hf]; exact h2 L1 x L2 rfl
        · exact .inr ⟨a :: L1, x, L2, e, by rw [h0]; rfl, by rw [hf]; exact h1, by rw [hf]; exact h2, by rw [hf, hf]; exact h3⟩

/-- **C67**, for a writer that keeps what it accepts: it has a prefix of the text, and all of it if there is no error. -/
theorem C67_prefix {m : ∀ σ, Writer σ → Put Unit σ Unit} {out : List Char} (h : Writes m out) {σ : Type} (k : Writer σ)
    (got : σ → List Char) (hok : ∀ s x s', k.put s x = (.ok (), s') → got s' = got s ++ x)
    (herr : ∀ s x s', k.put s x = (.error (), s') → ∃ y, y <+: x ∧ got s' = got s ++ y) (s : σ) :
    ∃ a s' y, m σ k s = .ok (a, s') ∧ got s' = got s ++ y ∧ y <+: out ∧ (a = .ok () → y = out) := by
  obtain ⟨ps, rfl, h⟩ := h
  rw [h]
  clear h
  induction ps generalizing s with
  | nil => exact ⟨.ok (), s, [], rfl, by simp, by simp, by simp⟩
  | cons x ps ih =>
    rw [Sink.feed]
    cases hp : k.put s x with
    | mk r s' =>
      cases r with
      | ok u =>
        obtain ⟨a, s2, y, h0, h1, h2, h3⟩ := ih s'
        refine ⟨a, s2, x ++ y, h0, ?_, ?_, ?_⟩
        · rw [h1, hok _ _ _ hp, List.append_assoc]
        · rw [List.flatten_cons]; exact (List.prefix_append_right_inj x).mpr h2
        · intro ha; rw [h3 ha, List.flatten_cons]
      | error e =>
        obtain ⟨y, hy, hg⟩ := herr _ _ _ hp
        refine ⟨_, _, y, rfl, hg, hy.trans ?_, fun h => nomatch h⟩
        rw [List.flatten_cons]; exact List.prefix_append _ _

/-! ### Padding -/

/-- The pieces in which `pad` writes. -/
def FmtSpec.pieces (spec : FmtSpec) (x : List Char) : List (List Char) :=
  match spec.width with
  | none => [spec.cut x]
  | some w =>
    if (spec.cut x).length < w then
      let padding := w - (spec.cut x).length
      List.replicate (spec.before padding) [spec.fill] ++
        ([spec.cut x] ++ List.replicate (padding - spec.before padding) [spec.fill])
    else [spec.cut x]

theorem FmtSpec.pad_feeds {σ : Type} (k : Writer σ) (spec : FmtSpec) (x : List Char) : Feeds k (spec.pad k x) (spec.pieces x) := by
  rw [pad, pieces]
  cases spec.width with
  | none => exact Feeds.put _
  | some w =>
    dsimp only
    split
    · exact Feeds.bind (Feeds.puts _) (Feeds.bind (Feeds.put _) (Feeds.puts _))
    · exact Feeds.put _

theorem flatten_replicate_singleton (n : Nat) (c : Char) : (List.replicate n [c]).flatten = List.replicate n c := by
  induction n with
  | zero => rfl
  | succ n ih => rw [List.replicate_succ, List.flatten_cons, ih]; rfl

theorem FmtSpec.pieces_flatten (spec : FmtSpec) (x : List Char) : (spec.pieces x).flatten = spec.padded x := by
  have h : spec.padded x = List.replicate (spec.before (spec.width.getD 0 - (spec.cut x).length)) spec.fill ++ spec.cut x ++
      List.replicate (spec.width.getD 0 - (spec.cut x).length - spec.before (spec.width.getD 0 - (spec.cut x).length)) spec.fill := by
    obtain ⟨fill, align, width, precision⟩ := spec
    rcases align with _ | _ | _ | _ <;> rfl
  have hz : spec.before 0 = 0 := by
    obtain ⟨fill, align, width, precision⟩ := spec
    rcases align with _ | _ | _ | _ <;> rfl
  rw [h, pieces]
  cases spec.width with
  | none => simp [hz]
  | some w =>
    dsimp only [Option.getD_some]
    split
    · simp only [List.flatten_append, flatten_replicate_singleton, List.flatten_cons, List.flatten_nil, List.append_nil,
        List.append_assoc]
    · have : w - (spec.cut x).length = 0 := by omega
      simp [this, hz]

/-! ### `Display` -/

/-- The tokens of a list of events. -/
def eventToken : WalkEvent SElem → List (List Char)
  | .enter (.token t) => [t.text]
  | _ => []

theorem displayLoopK_feeds {σ : Type} (k : Writer σ) (spec : FmtSpec) : ∀ (fuel : Nat) (it : PreorderT) (L : List (WalkEvent SElem)),
    PreorderT.collect fuel it = .ok L → Feeds k (displayLoopK k spec fuel it) ((L.flatMap eventToken).flatMap spec.pieces)
  | 0, _, _, h => nomatch h
  | fuel + 1, it, L, h => by
    rw [PreorderT.collect] at h
    rw [displayLoopK]
    cases hs : it.step with
    | ok x =>
      rw [hs, Res.ok_bind] at h
      refine Feeds.lift rfl ?_
      obtain ⟨o, it'⟩ := x
      cases o with
      | none => cases h; exact Feeds.pure
      | some ev =>
        dsimp only at h
        cases hc : PreorderT.collect fuel it' with
        | ok L' =>
          rw [hc] at h
          cases h
          have ih := displayLoopK_feeds k spec fuel it' L' hc
          rw [List.flatMap_cons, List.flatMap_append]
          match ev with
          | .enter (.token t) =>
            rw [eventToken, List.flatMap_cons, List.flatMap_nil, List.append_nil]
            exact Feeds.bind (spec.pad_feeds k t.text) ih
          | .enter (.node n) => exact ih
          | .leave e => exact ih
        | _ => rw [hc] at h; cases h
    | _ => rw [hs] at h; cases h

theorem evs_tokens (k : Nat) : ∀ (e : SElem), sizeOf e.green = k →
    (evs (fun _ => true) noSkip e).flatMap eventToken = e.green.tree.tokenTexts := by
  induction k using Nat.strongRecOn with
  | _ k ih =>
    intro e hk
    rw [evs_eq]
    cases e with
    | token t =>
      simp [SElem.kidsSel, noSkip, eventToken, SToken.text, GToken.tree, Tree.tokenTexts]
    | node n =>
      have hfil : SElem.kidsSel (fun _ => true) (.node n) = n.kids := by
        simp [SElem.kidsSel]
      have hkids : ∀ L : List SElem, (∀ x ∈ L, x ∈ n.kids) →
          (L.flatMap (evs (fun _ => true) noSkip)).flatMap eventToken
            = Tree.tokenTextss (L.map fun x => x.green.tree) := by
        intro L hL
        induction L with
        | nil => simp [Tree.tokenTextss]
        | cons x L ihL =>
          have h1 := ih (sizeOf x.green) (by
            rw [← hk]
            apply SElem.kidsSel_lt (sel := fun _ => true)
            rw [hfil]; exact hL x (by simp)) x rfl
          simp [List.flatMap_append, h1, ihL (fun y hy => hL y (by simp [hy])), Tree.tokenTextss]
      have htrees : (n.kids.map fun k => k.green.tree) = n.green.children.map GElem.tree := by
        rw [← SNode.kids_green, List.map_map]; rfl
      have := hkids n.kids (fun _ h => h)
      rw [htrees] at this
      simp only [noSkip, Bool.false_eq_true, if_false, hfil, List.flatMap_cons,
        List.flatMap_append, List.flatMap_nil, eventToken, List.nil_append, List.append_nil]
      rw [this]
      simp only [SElem.green_node, GElem.tree_node, GNode.tree_eq, Tree.tokenTexts]

theorem flatten_pieces (spec : FmtSpec) (L : List (List Char)) : (L.flatMap spec.pieces).flatten = L.flatMap spec.padded := by
  induction L with
  | nil => rfl
  | cons x L ih => rw [List.flatMap_cons, List.flatten_append, ih, spec.pieces_flatten, List.flatMap_cons]

/-- **C67, C68.**  `Display` of a token. -/
theorem C67_token {r : Root} {t : SToken} (h : Reach r (.token t)) (spec : FmtSpec) :
    ∃ kd x, r.tree.at? t.path = some (.token kd x) ∧ Writes (fun _ k => t.fmt k spec) (spec.padded x) := by
  obtain ⟨hv, hr⟩ := h.valid
  exact ⟨t.kind, t.text, by rw [← hr]; exact SElem.Valid.at_path hv, spec.pieces t.text, spec.pieces_flatten _,
    fun σ k s => spec.pad_feeds k t.text s⟩

/-- **C67, C68.**  `Display` of a node: every token with the options applied to it. -/
theorem C67_node {r : Root} (hcoh : r.green.Coherent) {n : SNode} (h : Reach r (.node n)) (spec : FmtSpec) :
    ∃ s, r.tree.at? n.path = some s ∧ Writes (fun _ k => n.fmt k spec) (s.tokenTexts.flatMap spec.padded) := by
  obtain ⟨hv, hr⟩ := h.valid
  refine ⟨n.green.tree, by rw [← hr]; exact SNode.Valid.at_path hv, n.green.tree.tokenTexts.flatMap spec.pieces,
    flatten_pieces _ _, fun σ k s => ?_⟩
  have := displayLoopK_feeds k spec _ _ _ (SNode.walkEvents_eq hcoh h)
  rw [evs_tokens _ _ rfl] at this
  exact this s

/-! ### Green nodes -/

theorem pieces_default (x : List Char) : FmtSpec.pieces {} x = [x] := rfl

mutual
theorem GNode.fmt_feeds {σ : Type} (k : Writer σ) (spec : FmtSpec) : ∀ g : GNode, Feeds k (g.fmt k spec) g.tree.tokenTexts
  | .mk a kd l cs => by
    rw [GNode.fmt, GNode.tree, Tree.tokenTexts]
    exact GChild.fmts_feeds k cs
theorem GChild.fmt_feeds {σ : Type} (k : Writer σ) (spec : FmtSpec) : ∀ c : GChild, Feeds k (c.fmt k spec) c.tree.tokenTexts
  | .node o g => by rw [GChild.fmt, GChild.tree]; exact GNode.fmt_feeds k spec g
  | .token o t => by
    rw [GChild.fmt, GChild.tree, GToken.tree, Tree.tokenTexts]
    exact FmtSpec.pad_feeds k {} t.text
theorem GChild.fmts_feeds {σ : Type} (k : Writer σ) : ∀ cs : List GChild, Feeds k (GChild.fmts k cs) (Tree.tokenTextss (GChild.trees cs))
  | [] => by rw [GChild.fmts, GChild.trees, Tree.tokenTextss]; exact Feeds.pure
  | c :: cs => by
    rw [GChild.fmts, GChild.trees, Tree.tokenTextss]
    exact (GChild.fmt_feeds k {} c).bind (GChild.fmts_feeds k cs)
end

mutual
theorem Tree.tokenTexts_flatten : ∀ t : Tree, t.tokenTexts.flatten = t.text
  | .token k x => by rw [Tree.tokenTexts, Tree.text_token]; simp
  | .node k cs => by rw [Tree.tokenTexts, Tree.text_node]; exact Tree.tokenTextss_flatten cs
theorem Tree.tokenTextss_flatten : ∀ cs : List Tree, (Tree.tokenTextss cs).flatten = Tree.texts cs
  | [] => by rw [Tree.tokenTextss]; simp
  | c :: cs => by rw [Tree.tokenTextss, List.flatten_append, Tree.tokenTexts_flatten c, Tree.tokenTextss_flatten cs]; simp
end

/-- **C67, C68.**  `Display` of green nodes and tokens: the text, whatever the options. -/
theorem C67_green (g : GElem) (spec : FmtSpec) :
    Writes (fun _ k => match g with | .node n => n.fmt k spec | .token t => t.fmt k spec) g.tree.text := by
  refine ⟨g.tree.tokenTexts, g.tree.tokenTexts_flatten, fun σ k s => ?_⟩
  cases g with
  | node n => exact GNode.fmt_feeds k spec n s
  | token t =>
    rw [GElem.tree_token, GToken.tree, Tree.tokenTexts]
    exact FmtSpec.pad_feeds k {} t.text s

/-! ### `SyntaxText` -/

theorem tryFold_feeds {σ : Type} (k : Writer σ) (spec : FmtSpec) : ∀ (cs : List (List Char)) (s : σ),
    tryFold (spec.padChunk k) s cs = .ok (match k.feed (cs.flatMap spec.pieces) s with
      | (.ok (), s) => .ok s
      | (.error e, s) => .error (e, s))
  | [], s => rfl
  | c :: cs, s => by
    rw [tryFold, FmtSpec.padChunk, spec.pad_feeds k c s, List.flatMap_cons, Sink.feed_append]
    cases k.feed (spec.pieces c) s with
    | mk a s' => cases a with
      | ok u => exact tryFold_feeds k spec cs s'
      | error e => rfl

/-- **C67, C68.**  `Display` of a text: every piece of a token with the options applied to it.  The pieces make up the text. -/
theorem C67_text {r : Root} (hcoh : r.green.Coherent) {t : SyntaxText} (h : t.Of r) {x : List Char} (hx : t.str r = some x) :
    ∃ chunks : List (List Char), chunks.flatten = x ∧ ∀ spec : FmtSpec, Writes (fun _ k => t.fmt k spec) (chunks.flatMap spec.padded) := by
  obtain ⟨cs, h1, h2, -⟩ := C26_chunks hcoh h hx
  refine ⟨cs, h1, fun spec => ⟨cs.flatMap spec.pieces, flatten_pieces _ _, fun σ k s => ?_⟩⟩
  simp only [SyntaxText.fmt, SyntaxText.tryForEachChunk]
  rw [h2, tryFold_feeds]
  cases k.feed (cs.flatMap spec.pieces) s with
  | mk a s' => cases a <;> rfl

/-- **C67.**  `Debug` of a text. -/
theorem C67_text_debug {r : Root} (hcoh : r.green.Coherent) (env : FmtEnv) {t : SyntaxText} (h : t.Of r) {x : List Char}
    (hx : t.str r = some x) : Writes (fun _ k => t.fmtDebug k env) (env.debug.str x) := by
  refine ⟨env.str x, rfl, fun σ k s => ?_⟩
  have := C26_to_string hcoh h
  rw [hx] at this
  exact Feeds.lift (f := fun x => Put.puts k (env.str x)) this (Feeds.puts _) s

/-! ### `Debug` -/

/-- The pieces of a head. -/
def headPieces (env : FmtEnv) (kd : SyntaxKind) (R : TextRange) : List (List Char) := env.kind kd ++ ([['@']] ++ env.range R)

theorem head_feeds {σ : Type} (k : Writer σ) (env : FmtEnv) (kd : SyntaxKind) (R : TextRange) :
    Feeds k (fmtHead k env kd R) (headPieces env kd R) :=
  Feeds.bind (Feeds.puts _) (Feeds.bind (Feeds.put _) (Feeds.puts _))

theorem head_flatten (env : FmtEnv) (kd : SyntaxKind) (R : TextRange) :
    (headPieces env kd R).flatten = env.debug.kind kd ++ '@' :: env.debug.range R := by
  simp [headPieces, FmtEnv.debug]

/-- The pieces of the `Debug` of an element. -/
def SElem.debugPieces (env : FmtEnv) : SElem → List (List Char)
  | .node n => headPieces env n.kind n.textRange
  | .token t => headPieces env t.kind t.textRange ++ ([[' ']] ++ env.str (shownText t.text))

theorem SToken.fmtDebug_feeds {σ : Type} (k : Writer σ) (env : FmtEnv) (t : SToken) :
    Feeds k (t.fmtDebug k env) (SElem.debugPieces env (.token t)) := by
  rw [SToken.fmtDebug, SElem.debugPieces]
  refine Feeds.bind (head_feeds _ _ _ _) ?_
  by_cases hb : blen t.text < 25
  · rw [if_pos hb, shownText, if_pos hb]
    exact Feeds.bind (Feeds.put _) (Feeds.puts _)
  · rw [if_neg hb, shownText, if_neg hb, boundary_search (by omega)]
    obtain ⟨⟨y, hy⟩, -⟩ := atLeast_spec t.text 21 (by omega)
    have : bslice t.text 0 (blen (atLeast 21 t.text)) = some (atLeast 21 t.text) :=
      bslice_eq_some.mpr ⟨[], y, by simpa using hy, rfl, by simp⟩
    refine Feeds.lift (a := atLeast 21 t.text) (by rw [this]; rfl) ?_
    exact Feeds.bind (Feeds.put _) (Feeds.puts _)

theorem SElem.fmtLine_feeds {σ : Type} (k : Writer σ) (env : FmtEnv) (e : SElem) :
    Feeds k (e.fmtLine k env) (e.debugPieces env ++ [['\n']]) := by
  cases e with
  | node n => exact Feeds.bind (head_feeds _ _ _ _) (Feeds.put _)
  | token t => exact Feeds.bind (SToken.fmtDebug_feeds _ _ _) (Feeds.put _)

theorem SElem.debugPieces_flatten (env : FmtEnv) {e : SElem} (hv : e.Valid) :
    (e.debugPieces env).flatten = Tree.line env.debug e.rootOf.tree e.path := by
  have h := SElem.debug_eq env.debug hv
  cases e with
  | node n =>
    rw [SElem.debugPieces, head_flatten]
    exact Res.ok.inj h
  | token t =>
    have h2 : SElem.debug env.debug (.token t) =
        .ok (env.debug.kind t.kind ++ '@' :: env.debug.range t.textRange ++ ' ' :: env.debug.str (shownText t.text)) := by
      show SToken.debug env.debug t = _
      rw [SToken.debug]
      by_cases hb : blen t.text < 25
      · rw [if_pos hb, shownText, if_pos hb]
      · rw [if_neg hb, shownText, if_neg hb, boundary_search (by omega)]
        obtain ⟨⟨y, hy⟩, -⟩ := atLeast_spec t.text 21 (by omega)
        have : bslice t.text 0 (blen (atLeast 21 t.text)) = some (atLeast 21 t.text) :=
          bslice_eq_some.mpr ⟨[], y, by simpa using hy, rfl, by simp⟩
        dsimp only
        rw [this]; rfl
    rw [h2] at h
    rw [SElem.debugPieces, List.flatten_append, head_flatten, ← Res.ok.inj h]
    simp [FmtEnv.debug]

/-- **C67.**  `{:?}` of an element. -/
theorem C67_debug {r : Root} (env : FmtEnv) :
    (∀ n, Reach r (.node n) → Writes (fun _ k => n.fmtDebug k env) (Tree.line env.debug r.tree n.path)) ∧
    (∀ t, Reach r (.token t) → Writes (fun _ k => t.fmtDebug k env) (Tree.line env.debug r.tree t.path)) := by
  constructor
  · intro n h
    obtain ⟨hv, hr⟩ := h.valid
    refine ⟨SElem.debugPieces env (.node n), ?_, fun σ k s => head_feeds k env _ _ s⟩
    rw [← hr]; exact SElem.debugPieces_flatten env hv
  · intro t h
    obtain ⟨hv, hr⟩ := h.valid
    refine ⟨SElem.debugPieces env (.token t), ?_, fun σ k s => SToken.fmtDebug_feeds k env t s⟩
    rw [← hr]; exact SElem.debugPieces_flatten env hv

/-- The pieces of the dump. -/
def dumpPieces (env : FmtEnv) : List (WalkEvent SElem) → Int → List (List Char)
  | [], _ => []
  | .enter e :: evs, level => List.replicate level.toNat [' ', ' '] ++ ((e.debugPieces env ++ [['\n']]) ++ dumpPieces env evs (level + 1))
  | .leave _ :: evs, level => dumpPieces env evs (level - 1)

theorem dumpLoopK_feeds {σ : Type} (k : Writer σ) (env : FmtEnv) : ∀ (fuel : Nat) (it : PreorderT) (L : List (WalkEvent SElem))
    (level : Int) (out x : List Char), PreorderT.collect fuel it = .ok L → (∀ e ∈ L.filterMap WalkEvent.entered, e.Valid) →
    dumpLoop env.debug L level out = .ok x →
    Feeds k (dumpLoopK k env fuel it level) (dumpPieces env L level) ∧ x = out ++ (dumpPieces env L level).flatten
  | 0, _, _, _, _, _, h, _, _ => nomatch h
  | fuel + 1, it, L, level, out, x, h, hv, hx => by
    rw [PreorderT.collect] at h
    rw [dumpLoopK]
    cases hs : it.step with
    | ok y =>
      rw [hs, Res.ok_bind] at h
      obtain ⟨o, it'⟩ := y
      cases o with
      | none =>
        cases h
        rw [dumpLoop] at hx
        split at hx
        next hl =>
          cases hx
          refine ⟨Feeds.lift rfl ?_, by simp [dumpPieces]⟩
          dsimp only
          rw [if_pos hl]
          exact Feeds.pure
        · cases hx
      | some ev =>
        dsimp only at h
        cases hc : PreorderT.collect fuel it' with
        | ok L' =>
          rw [hc] at h
          cases h
          match ev with
          | .enter e =>
            have he : e.Valid := hv e (by simp [WalkEvent.entered])
            rw [dumpLoop, SElem.debug_eq _ he, Res.ok_bind, ← SElem.debugPieces_flatten env he] at hx
            obtain ⟨ih1, ih2⟩ := dumpLoopK_feeds k env fuel it' L' _ _ _ hc
              (fun e he => hv e (by simp only [List.filterMap_cons, WalkEvent.entered]; exact List.mem_cons_of_mem _ he)) hx
            refine ⟨Feeds.lift rfl (Feeds.bind (Feeds.puts _) (Feeds.bind (SElem.fmtLine_feeds _ _ _) ih1)), ?_⟩
            rw [ih2, dumpPieces]
            simp
          | .leave e =>
            rw [dumpLoop] at hx
            obtain ⟨ih1, ih2⟩ := dumpLoopK_feeds k env fuel it' L' _ _ _ hc
              (fun e he => hv e (by simpa only [List.filterMap_cons, WalkEvent.entered] using he)) hx
            exact ⟨Feeds.lift rfl ih1, ih2⟩
        | _ => rw [hc] at h; cases h
    | _ => rw [hs] at h; cases h

/-- **C67.**  `{:#?}` of a node. -/
theorem C67_dump {r : Root} (hcoh : r.green.Coherent) (env : FmtEnv) {n : SNode} (h : Reach r (.node n)) {s : Tree}
    (hs : r.tree.at? n.path = some s) :
    Writes (fun _ k => n.fmtAlternate k env) ((Tree.descend Tree.all s n.path).flatMap fun q =>
      indent (q.length - n.path.length) ++ Tree.line env.debug r.tree q ++ ['\n']) := by
  have hd := C25_dump hcoh env.debug h hs
  rw [SNode.debugAlternate, SNode.walkEvents_eq hcoh h, Res.ok_bind] at hd
  have hv : ∀ e ∈ (evs (fun _ => true) noSkip (.node n)).filterMap WalkEvent.entered, e.Valid := by
    intro e he
    obtain ⟨x, hx, hxe⟩ := List.mem_filterMap.mp he
    have := evs_reach hcoh h hx
    cases x with
    | enter a => cases hxe; exact this.valid.1
    | leave a => cases hxe
  have key := fun (σ : Type) (k : Writer σ) => dumpLoopK_feeds k env _ _ _ 0 [] _ (SNode.walkEvents_eq hcoh h) hv hd
  refine ⟨dumpPieces env (evs (fun _ => true) noSkip (.node n)) 0, ?_, fun σ k s => (key σ k).1 s⟩
  have := (key Unit ⟨fun _ _ => (.ok (), ())⟩).2
  rw [List.nil_append] at this
  exact this.symm

/-! ### Serialization -/

theorem itemCalls_eq (vs : List SerVal) : SerVal.itemCalls vs = vs.flatMap SerVal.calls := by
  induction vs with
  | nil => rw [SerVal.itemCalls]; rfl
  | cons v vs ih => rw [SerVal.itemCalls, ih]; rfl

theorem mapList_feeds {ε σ : Type} {k : Serializer ε σ} {f : SElem → Put ε σ Unit} {g : SElem → Res SerVal}
    (h : ∀ e v, g e = .ok v → Feeds k (f e) v.calls) : ∀ (es : List SElem) (vs : List SerVal), Res.mapList g es = .ok vs →
      Feeds k (Put.each f es) (vs.flatMap SerVal.calls)
  | [], vs, hv => by cases hv; exact Feeds.pure
  | e :: es, vs, hv => by
    rw [Res.mapList] at hv
    cases he : g e with
    | ok v =>
      rw [he, Res.ok_bind] at hv
      cases hes : Res.mapList g es with
      | ok vs' =>
        rw [hes] at hv
        cases hv
        exact Feeds.bind (h e v he) (mapList_feeds h es vs' hes)
      | _ => rw [hes] at hv; cases hv
    | _ => rw [he] at hv; cases hv

theorem serElemK_feeds {ε σ : Type} (k : Serializer ε σ) (dk : SyntaxKind → List Char) : ∀ (fuel : Nat) (e : SElem) (v : SerVal),
    serElem dk fuel e = .ok v → Feeds k (serElemK k dk fuel e) v.calls
  | 0, _, _, h => nomatch h
  | _ + 1, .token t, v, h => by
    rw [serElem] at h
    cases h
    simp only [SerVal.calls, SerVal.entryCalls, List.cons_append, List.nil_append]
    exact Feeds.bind (Feeds.put _) (Feeds.bind (Feeds.put _) (Feeds.bind (Feeds.put _) (Feeds.bind (Feeds.put _)
      (Feeds.bind (Feeds.put _) (Feeds.bind (Feeds.put _) (Feeds.bind (Feeds.put _) (Feeds.put _)))))))
  | fuel + 1, .node n, v, h => by
    rw [serElem] at h
    cases hc : Res.mapList (serElem dk fuel) n.childrenWithTokens with
    | ok vs =>
      rw [hc, Res.ok_bind] at h
      cases h
      simp only [SerVal.calls, SerVal.entryCalls, itemCalls_eq, List.cons_append, List.nil_append, List.append_nil, List.append_assoc]
      exact Feeds.bind (Feeds.put _) (Feeds.bind (Feeds.put _) (Feeds.bind (Feeds.put _) (Feeds.bind (Feeds.put _)
        (Feeds.bind (Feeds.put _) (Feeds.bind (Feeds.put _) (Feeds.bind (Feeds.put _)
          (Feeds.bind (mapList_feeds (fun e v => serElemK_feeds k dk fuel e v) _ _ hc) (Feeds.bind (Feeds.put _) (Feeds.put _)))))))))
    | _ => rw [hc] at h; cases h

/-- **C67.**  A serializer gets the calls that describe the tree, up to the first one that fails; its error is returned. -/
theorem C67_serialize (dk : SyntaxKind → List Char) {r : Root} {e : SElem} (h : Reach r e) :
    ∃ s, r.tree.at? e.path = some s ∧ ∀ (ε σ : Type) (k : Serializer ε σ) (st : σ),
      e.serializeTo k dk st = .ok (k.feed (s.ser dk (blen (r.tree.before e.path))).calls st) := by
  obtain ⟨s, hs, hv⟩ := C46_serialize dk h
  exact ⟨s, hs, fun ε σ k st => serElemK_feeds k dk _ _ _ hv st⟩

/-! ## C68 -/

/-- What `format!` with these options returns. -/
def formatted (m : ∀ σ, Writer σ → Put Unit σ Unit) : Res (List Char) :=
  match m (List Char) ⟨fun s x => (.ok (), s ++ x)⟩ [] with
  | .ok (.ok (), out) => .ok out
  | .ok (.error _, _) => .panic
  | .panic => .panic
  | .ub => .ub
  | .diverge => .diverge

theorem Writes.formatted {m : ∀ σ, Writer σ → Put Unit σ Unit} {out : List Char} (h : Writes m out) : formatted m = .ok out := by
  obtain ⟨a, s', y, h1, h2, h3, h4⟩ := C67_prefix h ⟨fun s x => (.ok (), s ++ x)⟩ id (fun s x s' h => by cases h; rfl)
    (fun s x s' h => by cases h) []
  obtain ⟨ps, hp, hf⟩ := h
  have ha : a = .ok () := by
    rw [hf] at h1
    have hg : ∀ (L : List (List Char)) (s : List Char),
        (Sink.feed (⟨fun s x => (.ok (), s ++ x)⟩ : Writer (List Char)) L s).1 = .ok () := by
      intro L
      induction L with
      | nil => intro s; rfl
      | cons x L ih => intro s; exact ih _
    have := hg ps []
    rw [Res.ok.inj h1] at this
    exact this
  subst ha
  rw [Rowan.formatted, h1]
  have : s' = y := by simpa using h2
  rw [this, h4 rfl]

/-- **C68.**  Formatting a token with options is formatting its text with them. -/
theorem C68_token {r : Root} {t : SToken} (h : Reach r (.token t)) (spec : FmtSpec) :
    ∃ kd x, r.tree.at? t.path = some (.token kd x) ∧ formatted (fun _ k => t.fmt k spec) = .ok (spec.padded x) := by
  obtain ⟨kd, x, h1, h2⟩ := C67_token h spec
  exact ⟨kd, x, h1, h2.formatted⟩

theorem FmtSpec.padded_plain (spec : FmtSpec) (hw : spec.width = none) (hp : spec.precision = none) (x : List Char) :
    spec.padded x = x := by
  obtain ⟨fill, align, width, precision⟩ := spec
  cases hw; cases hp
  rcases align with _ | _ | _ | _ <;> simp [FmtSpec.padded]

theorem flatMap_padded_plain {spec : FmtSpec} (hw : spec.width = none) (hp : spec.precision = none) (L : List (List Char)) :
    L.flatMap spec.padded = L.flatten := by
  induction L with
  | nil => rfl
  | cons x L ih => rw [List.flatMap_cons, ih, spec.padded_plain hw hp, List.flatten_cons]

/-- **C68** for nodes: true for nodes with one token, and without width and precision.  In general the options apply to every
token by itself. -/
theorem C68_node_partial {r : Root} (hcoh : r.green.Coherent) {n : SNode} (h : Reach r (.node n)) (spec : FmtSpec) :
    ∃ s, r.tree.at? n.path = some s ∧ formatted (fun _ k => n.fmt k spec) = .ok (s.tokenTexts.flatMap spec.padded) ∧
      (s.tokenTexts.length = 1 ∨ (spec.width = none ∧ spec.precision = none) →
        formatted (fun _ k => n.fmt k spec) = .ok (spec.padded s.text)) := by
  obtain ⟨s, h1, h2⟩ := C67_node hcoh h spec
  refine ⟨s, h1, h2.formatted, fun hc => ?_⟩
  rw [h2.formatted, ← s.tokenTexts_flatten]
  congr 1
  rcases hc with hc | ⟨hw, hp⟩
  · obtain ⟨x, hx⟩ := List.length_eq_one_iff.mp hc
    rw [hx]; simp
  · rw [spec.padded_plain hw hp, flatMap_padded_plain hw hp]

/-- **C68** for texts: true without width and precision. -/
theorem C68_text_partial {r : Root} (hcoh : r.green.Coherent) {t : SyntaxText} (h : t.Of r) {x : List Char} (hx : t.str r = some x)
    {spec : FmtSpec} (hw : spec.width = none) (hp : spec.precision = none) :
    formatted (fun _ k => t.fmt k spec) = .ok (spec.padded x) := by
  obtain ⟨cs, h1, h2⟩ := C67_text hcoh h hx
  rw [(h2 spec).formatted, flatMap_padded_plain hw hp, spec.padded_plain hw hp, h1]

/-- **C68** is false: `{:8}` of the node with text `aaébc` puts eight columns for each of the four tokens. -/
theorem C68_node_fails : ∃ (r : Root) (n : SNode) (spec : FmtSpec) (s : Tree), Reach r (.node n) ∧ r.tree.at? n.path = some s ∧
    spec.align = none ∧ spec.precision = none ∧ s.text = ['a', 'a', 'é', 'b', 'c'] ∧
    spec.padded s.text = "aaébc   ".toList ∧
    formatted (fun _ k => n.fmt k spec) = .ok "a       a       é       bc      ".toList := by
  refine ⟨synRoot, synTop, { width := some 8 }, synRoot.tree, synTop_reach, rfl, rfl, rfl, ?_, ?_, ?_⟩ <;> decide +kernel

/-- **C68** is false of texts as well: `{:.1}` of the text `aaébc` shows the first character of every token. -/
theorem C68_text_fails : ∃ (r : Root) (n : SNode) (spec : FmtSpec) (s : Tree), Reach r (.node n) ∧ r.tree.at? n.path = some s ∧
    spec.width = none ∧ spec.padded s.text = ['a'] ∧
    formatted (fun _ k => (SyntaxText.new n).fmt k spec) = .ok ['a', 'a', 'é', 'b'] := by
  refine ⟨synRoot, synTop, { precision := some 1 }, synRoot.tree, synTop_reach, rfl, rfl, ?_, ?_⟩ <;> decide +kernel

/-- **C68** is false of green nodes and tokens: they ignore the options. -/
theorem C68_green_fails : ∃ (g : GToken) (spec : FmtSpec), spec.padded g.text = "a  ".toList ∧
    formatted (fun _ k => g.fmt k spec) = .ok ['a'] :=
  ⟨GToken.new 0 2 ['a'], { width := some 3 }, by decide +kernel, by decide +kernel⟩

/-! ### The hypotheses are met -/

deriving instance DecidableEq for Except

/-- A writer with room for `n` characters, which takes what fits. -/
def buffer (n : Nat) : Writer (List Char) :=
  ⟨fun s x => if (s ++ x).length ≤ n then (.ok (), s ++ x) else (.error (), (s ++ x).take n)⟩

/-- The pieces used in the examples. -/
def plainFmt : FmtEnv := ⟨fun x => [plainEnv.kind x], fun x => [plainEnv.range x], fun x => x.map fun c => [c]⟩

example := C67_node synGreen_coherent synTop_reach { width := some 3, align := some .right }
example (x : List Char) (hx : synText.str synRoot = some x) := C68_text_partial (spec := { fill := 'x' }) synGreen_coherent synText_of hx rfl rfl
example := C67_dump synGreen_coherent plainFmt synTop_reach rfl
example := C67_serialize (fun _ => ['k']) synTop_reach
example : synTop.fmt (buffer 3) {} [] = .ok (.error (), ['a', 'a', 'é']) := by decide +kernel
example : synTop.fmt (buffer 5) {} [] = .ok (.ok (), ['a', 'a', 'é', 'b', 'c']) := by decide +kernel
example : synTop.fmtAlternate (buffer 12) plainFmt [] = .ok (.error (), ['1', '@', '0', '.', '.', '6', '\n', ' ', ' ', '2', '@', '0']) := by
  decide +kernel
example : SElem.serializeTo (ε := Nat) ⟨fun s _ => if s = 5 then (.error 7, s) else (.ok (), s + 1)⟩ (fun _ => []) (.node synTop) 0
    = .ok (.error 7, 5) := by decide +kernel

end Rowan
