import Verif.EditLawsMore
/-!
# Programs on forests that a program cannot tell apart

The definitions in this file are vocabulary of the proofs and model no code.
-/
namespace Rowan

/-! ### Where navigation leads -/

namespace Tree

theorem kids_valid {t : Tree} {P Q : List Nat} (h : Q ∈ t.kids P) : (t.at? Q).isSome := by
  rw [kids] at h
  split at h
  · next u hu =>
    obtain ⟨i, hi, rfl⟩ := List.mem_map.mp h
    rw [at?_append, hu, Option.bind_some, at?_cons, List.getElem?_eq_getElem (List.mem_range.mp hi)]
    rfl
  · cases h

theorem later_valid {t : Tree} {P Q : List Nat} (h : Q ∈ t.later P) : (t.at? Q).isSome := by
  rw [later] at h
  split at h
  · exact kids_valid (List.mem_of_mem_drop h)
  · cases h

theorem earlier_valid {t : Tree} {P Q : List Nat} (h : Q ∈ t.earlier P) : (t.at? Q).isSome := by
  rw [earlier] at h
  split at h
  · exact kids_valid (List.mem_of_mem_take (List.mem_reverse.mp h))
  · cases h

end Tree

theorem Nav.target_valid {t : Tree} {P Q : List Nat} (hP : (t.at? P).isSome) (f : Nav) (h : f.target t P = some Q) :
    (t.at? Q).isSome := by
  cases f <;> simp only [Nav.target] at h
  case parent =>
    split at h
    · cases h
    · next hne =>
      cases h
      obtain ⟨u, hu⟩ := Option.isSome_iff_exists.mp hP
      rw [← List.dropLast_concat_getLast hne, Tree.at?_append] at hu
      cases hd : t.at? P.dropLast with
      | none => rw [hd] at hu; cases hu
      | some v => rfl
  all_goals first
    | exact Tree.later_valid (List.mem_of_find?_eq_some h)
    | exact Tree.earlier_valid (List.mem_of_find?_eq_some h)
    | exact Tree.kids_valid (List.mem_of_find?_eq_some h)
    | exact Tree.kids_valid (List.mem_reverse.mp (List.mem_of_find?_eq_some h))
    | exact Tree.later_valid (List.mem_of_mem_head? h)
    | exact Tree.earlier_valid (List.mem_of_mem_head? h)
    | exact Tree.kids_valid (List.mem_of_mem_head? h)
    | exact Tree.kids_valid (List.mem_of_getLast? h)
    | exact Tree.kids_valid (List.mem_of_getElem? h)

namespace Forest
variable {F G K : Forest} {σ τ : Nat → Nat}

/-! ### The same step in both forests -/

theorem TwinBy.add (h : TwinBy σ F G) {x : Nat × List Nat} (ht : G.tree (σ x.1) = F.tree x.1)
    (hm : G.mutable (σ x.1) = F.mutable x.1) (hl : σ x.1 < G.fresh) (hi : ∀ e ∈ F.env.held, σ e.2.1 = σ x.1 → e.2.1 = x.1) :
    TwinBy σ (F.add x) (G.add (σ x.1, x.2)) := by
  have mem : ∀ e ∈ (F.add x).env.held, e ∈ F.env.held ∨ e.2 = x := by
    intro e he
    simp only [Forest.add, Env.add, List.mem_cons] at he
    rcases he with rfl | he
    · exact .inr rfl
    · exact .inl he
  refine ⟨?_, h.leaked, ?_, ?_, ?_, ?_⟩
  · simp [Forest.add, h.env, Env.add, Env.map]
  · intro e he e' he' hs
    rcases mem e he with he | rfl <;> rcases mem e' he' with he' | h'
    · exact h.inj e he e' he' hs
    · rw [h'] at hs ⊢; exact hi e he hs
    · exact (hi e' he' hs.symm).symm
    · rw [h']
  · intro e he
    rcases mem e he with he | rfl
    · exact h.tree e he
    · exact ht
  · intro e he
    rcases mem e he with he | rfl
    · exact h.mutable e he
    · exact hm
  · intro e he
    rcases mem e he with he | rfl
    · exact h.low e he
    · exact hl

/-- The number of a new tree. -/
def sendNew (σ : Nat → Nat) (n n' : Nat) (m : Nat) : Nat := if m = n then n' else σ m

theorem TwinBy.plant (h : TwinBy σ F G) (hF : F.Sound) (m : Bool) (t : Tree) (P : List Nat) :
    TwinBy (sendNew σ F.fresh G.fresh) ((F.plant m t).add (F.fresh, P)) ((G.plant m t).add (G.fresh, P)) := by
  have old : ∀ e ∈ F.env.held, sendNew σ F.fresh G.fresh e.2.1 = σ e.2.1 := fun e he => by
    rw [sendNew, if_neg (Nat.ne_of_lt (hF e he).1)]
  have new : sendNew σ F.fresh G.fresh F.fresh = G.fresh := by simp [sendNew]
  have base : TwinBy (sendNew σ F.fresh G.fresh) (F.plant m t) (G.plant m t) := by
    refine ⟨?_, h.leaked, ?_, ?_, ?_, ?_⟩
    · simp only [Forest.plant, h.env]
      apply Env.map_congr
      intro e he
      rw [old e he]
    · intro e he e' he' hs
      rw [old e he, old e' he'] at hs
      exact h.inj e he e' he' hs
    · intro e he
      rw [old e he]
      simp only [Forest.plant, if_neg (Nat.ne_of_lt (h.low e he)), if_neg (Nat.ne_of_lt (hF e he).1)]
      exact h.tree e he
    · intro e he
      rw [old e he]
      simp only [Forest.plant, if_neg (Nat.ne_of_lt (h.low e he)), if_neg (Nat.ne_of_lt (hF e he).1)]
      exact h.mutable e he
    · intro e he
      rw [old e he]
      exact Nat.lt_succ_of_lt (h.low e he)
  have := base.add (x := (F.fresh, P)) (by simp [new, Forest.plant]) (by simp [new, Forest.plant])
    (by simp [new, Forest.plant]) (by
      intro e he hs
      rw [old e he, new] at hs
      exact absurd hs (Nat.ne_of_lt (h.low e he)))
  rwa [new] at this

theorem TwinBy.cutAt (h : TwinBy σ F G) (hF : F.Sound) {e0 : Nat × Nat × List Nat} (h0 : e0 ∈ F.env.held) {P : List Nat} {i : Nat}
    (hs : (F.sub (e0.2.1, P ++ [i])).isSome) :
    TwinBy (sendNew σ F.fresh G.fresh) (F.cutAt e0.2.1 P i) (G.cutAt (σ e0.2.1) P i) := by
  have old : ∀ e ∈ F.env.held, sendNew σ F.fresh G.fresh e.2.1 = σ e.2.1 := fun e he => by
    rw [sendNew, if_neg (Nat.ne_of_lt (hF e he).1)]
  have new : sendNew σ F.fresh G.fresh F.fresh = G.fresh := by simp [sendNew]
  have from_ : ∀ e ∈ (F.cutAt e0.2.1 P i).env.held, e.2.1 = F.fresh ∨ ∃ e' ∈ F.env.held, e.2.1 = e'.2.1 := by
    intro e he
    obtain ⟨e', he', rfl⟩ := List.mem_map.mp he
    simp only [cutLoc]
    split
    · split
      · exact .inr ⟨_, h0, rfl⟩
      · exact .inl rfl
    · exact .inr ⟨_, he', rfl⟩
  obtain ⟨u, hu⟩ := Option.isSome_iff_exists.mp hs
  rw [sub] at hu
  simp only at hu
  have hl0 := h.low _ h0
  have hf0 := (hF _ h0).1
  refine ⟨?_, h.leaked, ?_, ?_, ?_, ?_⟩
  · simp only [Forest.cutAt, h.env, Env.map_map]
    apply Env.map_congr
    intro e he
    have e1 : σ e.2.1 = σ e0.2.1 ↔ e.2.1 = e0.2.1 := ⟨h.inj _ he _ h0, fun e => by rw [e]⟩
    simp only [cutLoc, Function.comp, e1]
    split
    · split
      · rw [old _ h0]
      · rw [new]
    · rw [old e he]
  · intro e he e' he' hs
    rcases from_ e he with h1 | ⟨f, hf, h1⟩ <;> rcases from_ e' he' with h2 | ⟨f', hf', h2⟩ <;> rw [h1, h2] at hs ⊢
    · rw [new, old _ hf'] at hs
      exact absurd hs.symm (Nat.ne_of_lt (h.low _ hf'))
    · rw [new, old _ hf] at hs
      exact absurd hs (Nat.ne_of_lt (h.low _ hf))
    · rw [old _ hf, old _ hf'] at hs
      exact h.inj _ hf _ hf' hs
  · intro e he
    rcases from_ e he with h1 | ⟨f, hf, h1⟩ <;> rw [h1]
    · rw [new]
      simp only [Forest.cutAt, if_true]
      rw [h.tree _ h0, hu]; rfl
    · rw [old _ hf]
      have e1 : σ f.2.1 = σ e0.2.1 ↔ f.2.1 = e0.2.1 := ⟨h.inj _ hf _ h0, fun e => by rw [e]⟩
      simp only [Forest.cutAt, if_neg (Nat.ne_of_lt (h.low _ hf)), if_neg (Nat.ne_of_lt (hF _ hf).1), e1]
      split
      · rw [h.tree _ h0]
      · exact h.tree _ hf
  · intro e he
    rcases from_ e he with h1 | ⟨f, hf, h1⟩ <;> rw [h1]
    · rw [new]
      simp only [Forest.cutAt, if_true]
      exact h.mutable _ h0
    · rw [old _ hf]
      simp only [Forest.cutAt, if_neg (Nat.ne_of_lt (h.low _ hf)), if_neg (Nat.ne_of_lt (hF _ hf).1)]
      exact h.mutable _ hf
  · intro e he
    rcases from_ e he with h1 | ⟨f, hf, h1⟩ <;> rw [h1]
    · rw [new]; exact Nat.lt_succ_self _
    · rw [old _ hf]; exact Nat.lt_succ_of_lt (h.low _ hf)

theorem TwinBy.cut (h : TwinBy σ F G) (hF : F.Sound) {m : Nat} {x : Nat × List Nat} (hx : F.env.get m = some x) :
    ∃ σ', TwinBy σ' (F.cut x) (G.cut (σ x.1, x.2)) := by
  obtain ⟨r, X⟩ := x
  rcases List.eq_nil_or_concat X with rfl | ⟨Q, i, rfl⟩
  · exact ⟨σ, h⟩
  · rw [List.concat_eq_append] at hx ⊢
    rw [cut_snoc, cut_snoc]
    exact ⟨_, h.cutAt hF (Env.get_mem hx) (hF.get hx).2⟩

theorem TwinBy.sub (h : TwinBy σ F G) {e : Nat × Nat × List Nat} (he : e ∈ F.env.held) (P : List Nat) :
    G.sub (σ e.2.1, P) = F.sub (e.2.1, P) := by
  rw [Forest.sub, Forest.sub, h.tree e he]

theorem TwinBy.width (h : TwinBy σ F G) {m : Nat} {x : Nat × List Nat} (hx : F.env.get m = some x) :
    G.width (σ x.1, x.2) = F.width x := by
  rw [Forest.width, Forest.width, h.sub (Env.get_mem hx)]

theorem TwinBy.isNode (h : TwinBy σ F G) {m : Nat} {x : Nat × List Nat} (hx : F.env.get m = some x) :
    G.isNode (σ x.1, x.2) = F.isNode x := by
  rw [Forest.isNode, Forest.isNode, h.sub (Env.get_mem hx)]

theorem TwinBy.deserted (h : TwinBy σ F G) {m : Nat} {x : Nat × List Nat} (hx : F.env.get m = some x) (gone : List Nat) :
    G.deserted (σ x.1) gone = F.deserted x.1 gone := by
  rw [Forest.deserted, Forest.deserted, h.leaked, h.env]
  congr 1
  simp only [Env.map, List.all_map]
  rw [Bool.eq_iff_iff, List.all_eq_true, List.all_eq_true]
  refine ⟨fun g e he => ?_, fun g e he => ?_⟩
  all_goals
    have e1 : σ e.2.1 = σ x.1 ↔ e.2.1 = x.1 := ⟨h.inj _ he _ (Env.get_mem hx), fun e => by rw [e]⟩
    have := g e he
    simpa [e1] using this

theorem TwinBy.gets (h : TwinBy σ F G) (ms : List Nat) : (G.env.gets ms).isSome = (F.env.gets ms).isSome := by
  rw [Bool.eq_iff_iff, Env.gets_isSome, Env.gets_isSome]
  simp [h.get]

theorem Sound.grow (hF : F.Sound) {x : Nat × List Nat} (hl : x.1 < F.fresh) (hs : (F.sub x).isSome) : (F.add x).Sound := by
  intro e he
  simp only [Forest.add, Env.add, List.mem_cons] at he
  rcases he with rfl | he
  · exact ⟨hl, hs⟩
  · exact hF e he

/-- Twins, the first of which is sound. -/
structure Pair (F G : Forest) : Prop where
  twin : F.Twin G
  sound : F.Sound

theorem Pair.dels (h : Pair F G) (hs : List Nat) : Pair (F.dels hs) (G.dels hs) := by
  obtain ⟨⟨σ, h1⟩, h2⟩ := h
  exact ⟨⟨σ, h1.dels hs⟩, h2.dels hs⟩

end Forest

/-- The two runs end alike. -/
def FOut.Alike {β γ : Type} (R : β → γ → Prop) : FOut β → FOut γ → Prop
  | .ok a, .ok b => R a b
  | .panic F, .panic G => F.Pair G
  | .broken, .broken => True
  | .wild, .wild => True
  | .diverge, .diverge => True
  | .misuse, .misuse => True
  | _, _ => False

namespace Forest
variable {F G K : Forest} {σ τ : Nat → Nat}

theorem insertAll_pair {q : Nat} {gone : List Nat} : ∀ (ps : List Nat) {i : Nat} {F G : Forest} {z : Nat × List Nat}, Pair F G →
    F.env.get q = some z → F.isNode z = true → (F.insertAll q gone i ps).Alike Pair (G.insertAll q gone i ps)
  | [], i, F, G, z, h, _, _ => by rw [insertAll, insertAll]; exact h
  | p :: ps, i, F, G, z, h, hq, hn => by
    obtain ⟨⟨σ, h1⟩, hF⟩ := h
    rw [insertAll, insertAll, h1.get]
    cases hx : F.env.get p with
    | none => trivial
    | some x =>
      simp only [Option.map_some]
      rw [h1.mutable _ (Env.get_mem hx)]
      by_cases hm : F.mutable x.1 = false
      · rw [if_pos hm, if_pos hm]; exact ⟨⟨σ, h1⟩, hF⟩
      · rw [if_neg hm, if_neg hm]
        obtain ⟨τ, h2⟩ := h1.cut hF hx
        obtain ⟨z', hz', hn', -⟩ := get_cut_node hF hx hq hn
        have hF' := hF.cut (hF.get hx).1 (hF.get hx).2
        rw [h2.get, h2.get, hz']
        cases hy : (F.cut x).env.get p with
        | none => trivial
        | some y =>
          simp only [Option.map_some]
          have e1 : τ z'.1 = τ y.1 ↔ z'.1 = y.1 := ⟨h2.inj _ (Env.get_mem hz') _ (Env.get_mem hy), fun e => by rw [e]⟩
          simp only [e1, h2.width hz', h2.deserted hy]
          by_cases hzy : z'.1 = y.1
          · rw [if_pos hzy, if_pos hzy]
            split <;> trivial
          · rw [if_neg hzy, if_neg hzy]
            by_cases hi : i ≤ (F.cut x).width z'
            · rw [if_pos hi, if_pos hi]
              obtain ⟨k, cs, hs⟩ := isNode_sub hn'
              refine insertAll_pair ps ⟨⟨τ, h2.join (p := p) (Y := y.2) hz' hy⟩, ?_⟩ (join_get hz' hzy) (isNode_of_sub (join_sub _ hs))
              exact hF'.join (hF'.get hz').1 hs (by rwa [width_of_sub hs] at hi) hzy
            · rw [if_neg hi, if_neg hi]
              split
              · exact ⟨⟨τ, h2⟩, hF'⟩
              · trivial

theorem splice_pair (h : Pair F G) (q a b : Nat) (ins : List Nat) : (F.splice q a b ins).Alike Pair (G.splice q a b ins) := by
  obtain ⟨⟨σ, h1⟩, hF⟩ := h
  rw [splice, splice, h1.get]
  cases hq : F.env.get q with
  | none => trivial
  | some z =>
    simp only [Option.map_some]
    rw [h1.isNode hq, h1.gets, h1.mutable _ (Env.get_mem hq), h1.width hq]
    by_cases hc : F.isNode z = true ∧ (F.env.gets ins).isSome ∧ ins.Nodup ∧ q ∉ ins
    · rw [if_pos hc, if_pos hc]
      by_cases hm : F.mutable z.1 = false
      · rw [if_pos hm, if_pos hm]
        exact Pair.dels ⟨⟨σ, h1⟩, hF⟩ ins
      · rw [if_neg hm, if_neg hm]
        have hstart : ∃ F0 G0, F0 = (if a < b ∧ a < F.width z then F.cutAt z.1 z.2 a else F) ∧
            G0 = (if a < b ∧ a < F.width z then G.cutAt (σ z.1) z.2 a else G) ∧ Pair F0 G0 ∧ F0.env.get q = some z ∧
            F0.isNode z = true := by
          refine ⟨_, _, rfl, rfl, ?_⟩
          by_cases hab : a < b ∧ a < F.width z
          · rw [if_pos hab, if_pos hab]
            have hv := width_sub hab.2
            have hzl := (hF.get hq).1
            refine ⟨⟨⟨_, h1.cutAt hF (Env.get_mem hq) hv⟩, ?_⟩, ?_, ?_⟩
            · rw [← cut_snoc]
              exact hF.cut hzl hv
            · simp [Forest.cutAt, Env.get_map, hq, cutLoc]
            · obtain ⟨k, cs, hs⟩ := isNode_sub hc.1
              refine isNode_of_sub (k := k) (cs := cs.eraseIdx a) ?_
              simp only [sub, Forest.cutAt, Nat.ne_of_lt hzl, if_false, if_true]
              have := Tree.at?_editKids_above (F.tree z.1) z.2 [] (fun cs => cs.eraseIdx a)
              rw [List.append_nil] at this
              rw [Tree.removeAt, this]
              rw [sub] at hs
              rw [hs]; simp
          · rw [if_neg hab, if_neg hab]
            exact ⟨⟨⟨σ, h1⟩, hF⟩, hq, hc.1⟩
        obtain ⟨F0, G0, e1, e2, h0, hq0, hn0⟩ := hstart
        rw [← e1, ← e2]
        have := insertAll_pair (gone := ins) ins (i := a) h0 hq0 hn0
        cases h3 : F0.insertAll q ins a ins <;> cases h4 : G0.insertAll q ins a ins <;> rw [h3, h4] at this <;>
          first | exact this.elim | trivial | exact this.dels ins
    · rw [if_neg hc, if_neg hc]; trivial

theorem TwinBy.leak (h : TwinBy σ F G) (b : Bool) : TwinBy σ (F.leak b) (G.leak b) :=
  ⟨h.env, by simp [Forest.leak, h.leaked], h.inj, h.tree, h.mutable, h.low⟩

/-- A step that returns the handle for a place, or none. -/
def PairStep : Option (Nat × List Nat) × Forest → Option (Nat × List Nat) × Forest → Prop
  | (none, F), (none, G) => Pair F G
  | (some x, F), (some y, G) => Pair (F.add x) (G.add y)
  | _, _ => False

/-- One step. -/
theorem on_pair (h : Pair F G) (r : Req) : (r.on F).Alike PairStep (r.on G) := by
  have hp := h
  obtain ⟨⟨σ, h1⟩, hF⟩ := h
  have found : ∀ {m : Nat} {x : Nat × List Nat} {P : List Nat} {F' G' : Forest}, F.env.get m = some x → TwinBy σ F' G' → F'.Sound →
      F'.tree = F.tree → G'.tree = G.tree → F'.mutable = F.mutable → G'.mutable = G.mutable → F'.fresh = F.fresh → G'.fresh = G.fresh →
      (∀ e ∈ F'.env.held, e ∈ F.env.held) → (F.sub (x.1, P)).isSome → Pair (F'.add (x.1, P)) (G'.add (σ x.1, P)) := by
    intro m x P F' G' hx ht hs t1 t2 m1 m2 f1 f2 he hv
    have mx := Env.get_mem hx
    refine ⟨⟨σ, ht.add (x := (x.1, P)) ?_ ?_ ?_ ?_⟩, hs.grow ?_ ?_⟩
    · rw [t1, t2]; exact h1.tree _ mx
    · rw [m1, m2]; exact h1.mutable _ mx
    · rw [f2]; exact h1.low _ mx
    · exact fun e h' => h1.inj e (he e h') _ mx
    · rw [f1]; exact (hF.get hx).1
    · rw [sub, t1]; exact hv
  have nav : ∀ {m : Nat} {x : Nat × List Nat} (f : Nav) {F' G' : Forest}, F.env.get m = some x → TwinBy σ F' G' → F'.Sound →
      F'.tree = F.tree → G'.tree = G.tree → F'.mutable = F.mutable → G'.mutable = G.mutable → F'.fresh = F.fresh → G'.fresh = G.fresh →
      (∀ e ∈ F'.env.held, e ∈ F.env.held) →
      PairStep ((f.target (F.tree x.1) x.2).map fun P => (x.1, P), F') ((f.target (F.tree x.1) x.2).map fun P => (σ x.1, P), G') := by
    intro m x f F' G' hx ht hs t1 t2 m1 m2 f1 f2 he
    cases hf : f.target (F.tree x.1) x.2 with
    | none => exact ⟨⟨σ, ht⟩, hs⟩
    | some P => exact found hx ht hs t1 t2 m1 m2 f1 f2 he (Nav.target_valid (hF.get hx).2 f hf)
  have cutS : ∀ {m : Nat} {x : Nat × List Nat}, F.env.get m = some x → Pair (F.cut x) (G.cut (σ x.1, x.2)) := by
    intro m x hx
    exact ⟨h1.cut hF hx, hF.cut (hF.get hx).1 (hF.get hx).2⟩
  have plantS : ∀ (m : Bool) (t : Tree) (P : List Nat), (t.at? P).isSome →
      Pair ((F.plant m t).add (F.fresh, P)) ((G.plant m t).add (G.fresh, P)) := by
    intro m t P hv
    refine ⟨⟨_, h1.plant hF m t P⟩, Sound.grow ?_ (Nat.lt_succ_self _) ?_⟩
    · intro e he
      have := hF e he
      refine ⟨Nat.lt_succ_of_lt this.1, ?_⟩
      simp only [sub, Forest.plant, if_neg (Nat.ne_of_lt this.1)]
      exact this.2
    · simpa [sub, Forest.plant] using hv
  cases r with
  | plant m k ts => exact plantS m _ [] rfl
  | clone m =>
    simp only [Req.on, h1.get]
    cases hx : F.env.get m with
    | none => trivial
    | some x => exact found hx h1 hF rfl rfl rfl rfl rfl rfl (fun _ h => h) (hF.get hx).2
  | drop m =>
    simp only [Req.on, h1.get]
    cases hx : F.env.get m with
    | none => trivial
    | some x => exact hp.dels [m]
  | forget m =>
    simp only [Req.on, h1.get]
    cases hx : F.env.get m with
    | none => trivial
    | some x => exact ⟨⟨σ, (h1.dels [m]).leak true⟩, hF.dels [m]⟩
  | nav f m =>
    simp only [Req.on, h1.get]
    cases hx : F.env.get m with
    | none => trivial
    | some x =>
      simp only [Option.map_some]
      rw [h1.isNode hx, h1.tree _ (Env.get_mem hx)]
      by_cases hc : f.onNodes = true ∧ F.isNode x = false
      · rw [if_pos hc, if_pos hc]; trivial
      · rw [if_neg hc, if_neg hc]
        exact nav f hx h1 hF rfl rfl rfl rfl rfl rfl fun _ h => h
  | toNext b m =>
    simp only [Req.on, h1.get]
    cases hx : F.env.get m with
    | none => trivial
    | some x =>
      simp only [Option.map_some]
      rw [h1.tree _ (Env.get_mem hx)]
      exact nav _ hx ((h1.dels [m]).leak _) (hF.dels [m]) rfl rfl rfl rfl rfl rfl fun _ h => Env.mem_dels h
  | cloneSubtree m =>
    simp only [Req.on, h1.get]
    cases hx : F.env.get m with
    | none => trivial
    | some x =>
      simp only [Option.map_some]
      rw [h1.sub (Env.get_mem hx)]
      cases hs : F.sub x with
      | none => trivial
      | some t =>
        cases t with
        | token k s => trivial
        | node k ts => exact plantS false _ [] rfl
  | cloneForUpdate m =>
    simp only [Req.on, h1.get]
    cases hx : F.env.get m with
    | none => trivial
    | some x =>
      simp only [Option.map_some]
      rw [h1.isNode hx, h1.mutable _ (Env.get_mem hx), h1.tree _ (Env.get_mem hx)]
      by_cases hc : F.isNode x = false
      · rw [if_pos hc, if_pos hc]; trivial
      · rw [if_neg hc, if_neg hc]
        by_cases hm : F.mutable x.1 = true
        · rw [if_pos hm, if_pos hm]; exact hp
        · rw [if_neg hm, if_neg hm]
          exact plantS true _ x.2 (hF.get hx).2
  | detach m =>
    simp only [Req.on, h1.get]
    cases hx : F.env.get m with
    | none => trivial
    | some x =>
      simp only [Option.map_some]
      rw [h1.mutable _ (Env.get_mem hx)]
      by_cases hm : F.mutable x.1 = true
      · rw [if_pos hm, if_pos hm]; exact cutS hx
      · rw [if_neg hm, if_neg hm]; exact hp
  | splice q a b ins =>
    simp only [Req.on]
    have := splice_pair hp q a b ins
    cases h3 : F.splice q a b ins <;> cases h4 : G.splice q a b ins <;> rw [h3, h4] at this <;>
      first | exact this.elim | exact this
  | attach q i p =>
    simp only [Req.on]
    have := splice_pair hp q i i [p]
    cases h3 : F.splice q i i [p] <;> cases h4 : G.splice q i i [p] <;> rw [h3, h4] at this <;>
      first | exact this.elim | exact this

theorem TwinBy.sight (h : TwinBy σ F G) {m : Nat} {x : Nat × List Nat} (hx : F.env.get m = some x) :
    G.sight (σ x.1, x.2) = F.sight x := by
  rw [Forest.sight, Forest.sight, h.sub (Env.get_mem hx), h.tree _ (Env.get_mem hx), h.mutable _ (Env.get_mem hx)]

theorem TwinBy.eq (h : TwinBy σ F G) {m m' : Nat} {x y : Nat × List Nat} (hx : F.env.get m = some x) (hy : F.env.get m' = some y) :
    G.eq (σ x.1, x.2) (σ y.1, y.2) = F.eq x y := by
  rw [Forest.eq, Forest.eq, h.sight hx, h.sight hy]
  have e : ((σ x.1, x.2) : Nat × List Nat) = (σ y.1, y.2) ↔ x = y := by
    constructor
    · intro e
      exact Prod.ext (h.inj _ (Env.get_mem hx) _ (Env.get_mem hy) (Prod.mk.inj e).1) (Prod.mk.inj e).2
    · rintro rfl; rfl
  by_cases hxy : x = y
  · rw [if_pos hxy, if_pos (e.mpr hxy)]
  · rw [if_neg hxy, if_neg fun h => hxy (e.mp h)]

end Forest

namespace EProg
open Forest

/-- A program. -/
theorem run_pair {α : Type} : ∀ (p : EProg α) {F G : Forest}, Pair F G →
    (p.run F).Alike (fun a b => a.1 = b.1 ∧ Pair a.2 b.2) (p.run G)
  | ret a, F, G, h => ⟨rfl, h⟩
  | panic, F, G, h => h
  | diverge, F, G, h => trivial
  | req r k, F, G, h => by
    have hs := on_pair h r
    have hn : G.env.next = F.env.next := by
      obtain ⟨σ, h1⟩ := h.twin
      rw [h1.env]; rfl
    simp only [run]
    rw [hn]
    cases h1 : r.on F with
    | ok o1 =>
      cases h2 : r.on G with
      | ok o2 =>
        rw [h1, h2] at hs
        obtain ⟨x, F'⟩ := o1
        obtain ⟨y, G'⟩ := o2
        cases x <;> cases y
        · exact run_pair (k (.done none)) hs
        · exact hs.elim
        · exact hs.elim
        · exact run_pair (k (.done (some F.env.next))) hs
      | _ => rw [h1, h2] at hs; exact hs.elim
    | panic o1 =>
      cases h2 : r.on G with
      | panic o2 =>
        rw [h1, h2] at hs
        exact run_pair (k .panicked) hs
      | _ => rw [h1, h2] at hs; exact hs.elim
    | broken =>
      cases h2 : r.on G with
      | broken => simp only; split <;> trivial
      | _ => rw [h1, h2] at hs; exact hs.elim
    | wild => cases h2 : r.on G <;> rw [h1, h2] at hs <;> first | trivial | exact hs.elim
    | diverge => cases h2 : r.on G <;> rw [h1, h2] at hs <;> first | trivial | exact hs.elim
    | misuse => cases h2 : r.on G <;> rw [h1, h2] at hs <;> first | trivial | exact hs.elim
  | look m k, F, G, h => by
    obtain ⟨σ, h1⟩ := h.twin
    simp only [run]
    rw [h1.get]
    cases hx : F.env.get m with
    | none => trivial
    | some x =>
      simp only [Option.map_some]
      rw [h1.sight hx]
      cases F.sight x with
      | none => trivial
      | some o => exact run_pair (k o) h
  | same m m' k, F, G, h => by
    obtain ⟨σ, h1⟩ := h.twin
    simp only [run]
    rw [h1.get, h1.get]
    cases hx : F.env.get m with
    | none => trivial
    | some x =>
      cases hy : F.env.get m' with
      | none => trivial
      | some y =>
        simp only [Option.map_some]
        rw [h1.eq hx hy]
        cases F.eq x y with
        | none => trivial
        | some o => exact run_pair (k o) h
end EProg

end Rowan
