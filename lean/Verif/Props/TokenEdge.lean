import Verif.Props.TokenOrder
/-!
# C20: exactly when `first_token` and `last_token` are right

Positions are compared with the lexicographic order of lists of numbers, which is document order.
-/
namespace Rowan

theorem Tree.tokenPaths_token : ∀ (s : Tree) (p x : List Nat), x ∈ s.tokenPaths p →
    ∃ y k t, x = p ++ y ∧ s.at? y = some (.token k t) := by
  intro s
  induction s using Tree.ind with
  | tok k t =>
    intro p x h
    simp only [Tree.tokenPaths, List.mem_singleton] at h
    exact ⟨[], k, t, by simpa using h, rfl⟩
  | nd k cs ih =>
    have main : ∀ (p x : List Nat) (us : List Tree) (i : Nat), (∀ c ∈ us, c ∈ cs) → x ∈ Tree.tokenPathss us p i →
        ∃ (j : Nat) (y : List Nat) (k : SyntaxKind) (t : List Char), x = p ++ (i + j) :: y ∧
          us[j]?.bind (·.at? y) = some (.token k t) := by
      intro p x us
      induction us with
      | nil => intro i _ h; simp [Tree.tokenPathss] at h
      | cons u us ihu =>
        intro i hm h
        rw [Tree.tokenPathss, List.mem_append] at h
        rcases h with h | h
        · obtain ⟨y, k, t, rfl, h2⟩ := ih u (hm u (List.mem_cons_self ..)) _ _ h
          exact ⟨0, y, k, t, by simp, by simpa using h2⟩
        · obtain ⟨j, y, k, t, rfl, h2⟩ := ihu (i + 1) (fun c hc => hm c (List.mem_cons_of_mem _ hc)) h
          exact ⟨j + 1, y, k, t, by rw [show i + 1 + j = i + (j + 1) from by omega], by simpa using h2⟩
    intro p x h
    rw [Tree.tokenPaths] at h
    obtain ⟨j, y, k, t, rfl, h2⟩ := main p x cs 0 (fun _ h => h) h
    exact ⟨j :: y, k, t, by simp, by rw [Tree.at?_cons]; exact h2⟩

theorem lt_append_left (p : List Nat) {a b : List Nat} : p ++ a < p ++ b ↔ a < b := by
  induction p with
  | nil => rfl
  | cons i p ih =>
    rw [List.cons_append, List.cons_append, List.cons_lt_cons_iff]
    simp [ih]

theorem lt_irrefl_list (a : List Nat) : ¬ a < a := by
  induction a with
  | nil => simp
  | cons i a ih => rw [List.cons_lt_cons_iff]; simp [ih]

theorem lt_asymm_list : ∀ {a b : List Nat}, a < b → ¬ b < a
  | [], b, h => by simp
  | i :: a, [], h => by simp at h
  | i :: a, j :: b, h => by
    rw [List.cons_lt_cons_iff] at h ⊢
    rintro (h' | ⟨h1, h2⟩)
    · rcases h with h | ⟨rfl, h⟩ <;> omega
    · rcases h with h | ⟨-, h⟩
      · omega
      · exact lt_asymm_list h h2

/-- The end of the way down along first children: every other position is above it or after it. -/
theorem Tree.leftmost_end : ∀ (s : Tree) (p : List Nat), ∃ v e, s.at? v = some e ∧ e.children = [] ∧
    s.leftmost p = (if e.isNode then none else some (p ++ v)) ∧
    ∀ w, (s.at? w).isSome → w = v ∨ (∃ i u, v = w ++ i :: u) ∨ v < w := by
  intro s
  induction s using Tree.ind with
  | tok k t =>
    intro p
    refine ⟨[], _, rfl, rfl, by simp [Tree.leftmost, Tree.isNode], fun w hw => .inl ?_⟩
    cases w with
    | nil => rfl
    | cons i w => simp [Tree.at?_cons, Tree.children] at hw
  | nd k cs ih =>
    intro p
    cases cs with
    | nil =>
      refine ⟨[], _, rfl, rfl, by simp [Tree.leftmost, Tree.leftmosts, Tree.isNode], fun w hw => .inl ?_⟩
      cases w with
      | nil => rfl
      | cons i w => simp [Tree.at?_cons, Tree.children] at hw
    | cons c cs =>
      obtain ⟨v, e, h1, h2, h3, h4⟩ := ih c (List.mem_cons_self ..) (p ++ [0])
      refine ⟨0 :: v, e, by simpa [Tree.at?_cons, Tree.children] using h1, h2, ?_, fun w hw => ?_⟩
      · rw [Tree.leftmost, Tree.leftmosts, h3]
        simp
      · match w with
        | [] => exact .inr (.inl ⟨0, v, rfl⟩)
        | 0 :: w =>
          rcases h4 w (by simpa [Tree.at?_cons, Tree.children] using hw) with rfl | ⟨i, u, rfl⟩ | h
          · exact .inl rfl
          · exact .inr (.inl ⟨i, u, rfl⟩)
          · exact .inr (.inr (by rw [List.cons_lt_cons_iff]; exact .inr ⟨rfl, h⟩))
        | (i + 1) :: w => exact .inr (.inr (by rw [List.cons_lt_cons_iff]; exact .inl (by omega)))

/-- The end of the way down along last children is the last position. -/
theorem Tree.rightmost_end : ∀ (s : Tree) (p : List Nat), ∃ v e, s.at? v = some e ∧ e.children = [] ∧
    s.rightmost p = (if e.isNode then none else some (p ++ v)) ∧ ∀ w, (s.at? w).isSome → w = v ∨ w < v := by
  intro s
  induction s using Tree.ind with
  | tok k t =>
    intro p
    refine ⟨[], _, rfl, rfl, by simp [Tree.rightmost, Tree.isNode], fun w hw => .inl ?_⟩
    cases w with
    | nil => rfl
    | cons i w => simp [Tree.at?_cons, Tree.children] at hw
  | nd k cs ih =>
    intro p
    rcases List.eq_nil_or_concat cs with rfl | ⟨ds, d, rfl⟩
    · refine ⟨[], _, rfl, rfl, by simp [Tree.rightmost, Tree.rightmosts, Tree.isNode], fun w hw => .inl ?_⟩
      cases w with
      | nil => rfl
      | cons i w => simp [Tree.at?_cons, Tree.children] at hw
    · simp only [List.concat_eq_append] at ih ⊢
      obtain ⟨v, e, h1, h2, h3, h4⟩ := ih d (by simp) (p ++ [ds.length])
      refine ⟨ds.length :: v, e, by simpa [Tree.at?_cons, Tree.children] using h1, h2, ?_, fun w hw => ?_⟩
      · rw [Tree.rightmost, Tree.rightmosts_snoc, Nat.zero_add, h3]
        simp
      · cases w with
        | nil => exact .inr (by simp)
        | cons i w =>
          rw [Tree.at?_cons, show (Tree.node k (ds ++ [d])).children = ds ++ [d] from rfl] at hw
          by_cases hi : i < ds.length
          · exact .inr (by rw [List.cons_lt_cons_iff]; exact .inl hi)
          · by_cases he : i = ds.length
            · subst he
              rcases h4 w (by simpa using hw) with rfl | h
              · exact .inl rfl
              · exact .inr (by rw [List.cons_lt_cons_iff]; exact .inr ⟨rfl, h⟩)
            · rw [List.getElem?_eq_none (by simp; omega)] at hw
              simp at hw

theorem Tree.at?_below {s e : Tree} {w u : List Nat} {i : Nat} (h : s.at? w = some e) (he : e.children = []) :
    s.at? (w ++ i :: u) = none := by
  rw [Tree.at?_append, h, Option.bind_some, Tree.at?_cons, he]
  rfl

/-- **C20** fails exactly in these cases: the element contains a token, and a childless node before the first token (after
the last one). -/
theorem C20_right_iff_partial {r : Root} {e : SElem} (h : Reach r e) {s : Tree} (hs : r.tree.at? e.path = some s) :
    ((∃ o, e.firstToken = .ok o ∧ PointsTo r (o.map .token) (s.tokenPaths e.path).head?) ↔
      ∀ x q k, (s.tokenPaths e.path).head? = some x → e.path <+: q → r.tree.at? q = some (.node k []) → x < q) ∧
    ((∃ o, e.lastToken = .ok o ∧ PointsTo r (o.map .token) (s.tokenPaths e.path).getLast?) ↔
      ∀ x q k, (s.tokenPaths e.path).getLast? = some x → e.path <+: q → r.tree.at? q = some (.node k []) → q < x) := by
  obtain ⟨⟨o, o1, o2⟩, ⟨o', o1', o2'⟩⟩ := C20_exact_partial h hs
  have at_q : ∀ w, r.tree.at? (e.path ++ w) = s.at? w := fun w => by rw [Tree.at?_append, hs, Option.bind_some]
  constructor
  · obtain ⟨v, z, h1, h2, h3, h4⟩ := s.leftmost_end e.path
    constructor
    · rintro ⟨o₁, e1, e2⟩ x q k hx ⟨w, rfl⟩ hq
      rw [o1] at e1; cases e1
      rw [at_q] at hq
      have hl : s.leftmost e.path = some x := by rw [← o2.1, e2.1, hx]
      rw [hl] at h3
      split at h3
      · cases h3
      · next hz =>
        cases h3
        rw [lt_append_left]
        rcases h4 w (by rw [hq]; rfl) with rfl | ⟨i, u, rfl⟩ | h
        · rw [h1] at hq; cases hq; exact absurd rfl hz
        · rw [Tree.at?_below hq rfl] at h1; cases h1
        · exact h
    · intro hall
      refine ⟨o, o1, ?_⟩
      cases hx : (s.tokenPaths e.path).head? with
      | none =>
        cases hl : s.leftmost e.path with
        | none => rwa [hl] at o2
        | some q => rw [Tree.leftmost_sound _ _ _ hl] at hx; cases hx
      | some x =>
        cases hl : s.leftmost e.path with
        | some q =>
          rw [Tree.leftmost_sound _ _ _ hl] at hx
          rwa [hl, hx] at o2
        | none =>
          rw [hl] at h3
          split at h3
          · next hz =>
            exfalso
            cases z with
            | token => cases hz
            | node k ts =>
              have h2 : ts = [] := h2
              subst h2
              have hlt := hall x (e.path ++ v) k hx ⟨v, rfl⟩ (by rw [at_q, h1])
              obtain ⟨y, k', t, rfl, hy⟩ := Tree.tokenPaths_token _ _ _ (List.mem_of_head? hx)
              rw [lt_append_left] at hlt
              rcases h4 y (by rw [hy]; rfl) with rfl | ⟨i, u, rfl⟩ | h
              · exact lt_irrefl_list _ hlt
              · rw [Tree.at?_below hy rfl] at h1; cases h1
              · exact lt_asymm_list h hlt
          · cases h3
  · obtain ⟨v, z, h1, h2, h3, h4⟩ := s.rightmost_end e.path
    constructor
    · rintro ⟨o₁, e1, e2⟩ x q k hx ⟨w, rfl⟩ hq
      rw [o1'] at e1; cases e1
      rw [at_q] at hq
      have hl : s.rightmost e.path = some x := by rw [← o2'.1, e2.1, hx]
      rw [hl] at h3
      split at h3
      · cases h3
      · next hz =>
        cases h3
        rw [lt_append_left]
        rcases h4 w (by rw [hq]; rfl) with rfl | h
        · rw [h1] at hq; cases hq; exact absurd rfl hz
        · exact h
    · intro hall
      refine ⟨o', o1', ?_⟩
      cases hx : (s.tokenPaths e.path).getLast? with
      | none =>
        cases hl : s.rightmost e.path with
        | none => rwa [hl] at o2'
        | some q => rw [Tree.rightmost_sound _ _ _ hl] at hx; cases hx
      | some x =>
        cases hl : s.rightmost e.path with
        | some q =>
          rw [Tree.rightmost_sound _ _ _ hl] at hx
          rwa [hl, hx] at o2'
        | none =>
          rw [hl] at h3
          split at h3
          · next hz =>
            exfalso
            cases z with
            | token => cases hz
            | node k ts =>
              have h2 : ts = [] := h2
              subst h2
              have hlt := hall x (e.path ++ v) k hx ⟨v, rfl⟩ (by rw [at_q, h1])
              obtain ⟨y, k', t, rfl, hy⟩ := Tree.tokenPaths_token _ _ _ (List.mem_of_getLast? hx)
              rw [lt_append_left] at hlt
              rcases h4 y (by rw [hy]; rfl) with rfl | h
              · exact lt_irrefl_list _ hlt
              · exact lt_asymm_list h hlt
          · cases h3

/-- A tree with a childless node, at `[1, 0]`, after its first token: `first_token` of the whole tree is right although the
condition of `C20_first_last_partial` fails; for the node at `[1]` it is wrong. -/
example : (∃ o, SElem.firstToken (.node synTop) = .ok o ∧ PointsTo synRoot (o.map .token) (some [0])) ∧
    ¬ ∃ o, SElem.firstToken (.node synInnerH) = .ok o ∧ PointsTo synRoot (o.map .token) (some [1, 1]) := by
  constructor
  · refine (C20_right_iff_partial synTop_reach (s := synRoot.tree) rfl).1.mpr fun x q k hx _ hq => ?_
    obtain rfl : [0] = x := Option.some.inj ((by decide +kernel : (synRoot.tree.tokenPaths []).head? = some [0]).symm.trans hx)
    have h0 : synRoot.tree.at? [0] = some (.token 2 ['a']) := by decide +kernel
    match q with
    | [] =>
      have := congrArg (fun o => (o.map fun t => t.children.length)) hq
      exact absurd (show (synRoot.tree.at? []).map (fun t => t.children.length) = some 0 from this) (by decide +kernel)
    | [0] => rw [h0] at hq; cases hq
    | 0 :: i :: q => rw [show 0 :: i :: q = [0] ++ i :: q from rfl, Tree.at?_below h0 rfl] at hq; cases hq
    | (i + 1) :: q => rw [List.cons_lt_cons_iff]; exact .inl (by omega)
  · intro h
    have := (C20_right_iff_partial synInner_reach (s := (synRoot.tree.at? [1]).get (by decide +kernel)) (by decide +kernel)).1.mp h
      [1, 1] [1, 0] 4 (by decide +kernel) ⟨[0], rfl⟩ (by decide +kernel)
    exact absurd this (by decide)

end Rowan
