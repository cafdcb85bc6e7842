import Verif.DetachContent
import Verif.EditWalkLoop
/-!
# Collecting the children of a node, and detaching them

The definitions in this file are vocabulary of the proofs and model no code.
-/
namespace Rowan

theorem filter_drop_cons {α : Type} (p : α → Bool) : ∀ {l : List α} {d : Nat} {x : α} {L : List α},
    (l.drop d).filter p = x :: L → ∃ i, l[i]? = some x ∧ p x = true ∧ (l.drop (i + 1)).filter p = L
  | [], d, x, L, h => by simp at h
  | a :: l, 0, x, L, h => by
    rw [List.drop_zero, List.filter_cons] at h
    split at h
    · next ha => cases h; exact ⟨0, rfl, ha, by simp⟩
    · obtain ⟨i, h1, h2, h3⟩ := filter_drop_cons p (l := l) (d := 0) (by simpa using h)
      exact ⟨i + 1, by simpa using h1, h2, by simpa using h3⟩
  | a :: l, d + 1, x, L, h => by
    obtain ⟨i, h1, h2, h3⟩ := filter_drop_cons p (l := l) (d := d) (by simpa using h)
    exact ⟨i + 1, by simpa using h1, h2, by simpa using h3⟩

namespace Tree

theorem withouts_filter {p : Tree → Bool} : ∀ {cs : List Tree} {k : Nat} {g : List Nat → Bool},
    (∀ j c, cs[j]? = some c → g [k + j] = p c ∧ ∀ D, D ≠ [] → g ((k + j) :: D) = false) →
    withouts g k cs = cs.filter (fun c => !p c)
  | [], _, _, _ => by simp [withouts]
  | c :: cs, k, g, h => by
    have h0 := h 0 c rfl
    rw [Nat.add_zero] at h0
    rw [withouts, h0.1, without_none c (g := fun D => g (k :: D)) h0.2, withouts_filter (p := p) (cs := cs) (k := k + 1) (g := g)]
    · cases hp : p c <;> simp [hp]
    · intro j d hd
      have := h (j + 1) d hd
      rwa [show k + (j + 1) = k + 1 + j by omega] at this

/-- The elements at the positions `g` are the children of the node at `P` that `p` selects. -/
def KidsAt (cs : List Tree) (P : List Nat) (p : Tree → Bool) (g : List Nat → Bool) : Prop :=
  ∀ D, g D = true ↔ ∃ i c, cs[i]? = some c ∧ p c = true ∧ D = P ++ [i]

theorem KidsAt.cons {cs : List Tree} {a : Nat} {P : List Nat} {p : Tree → Bool} {g : List Nat → Bool} (h : KidsAt cs (a :: P) p g) :
    KidsAt cs P p (fun D => g (a :: D)) ∧ (∀ i, g [i] = false) ∧ ∀ i D, i ≠ a → g (i :: D) = false := by
  refine ⟨fun D => ?_, fun i => ?_, fun i D hi => ?_⟩
  · rw [h]; simp
  · rw [← Bool.not_eq_true, h]
    rintro ⟨j, c, -, -, e⟩
    have := congrArg List.length e
    simp at this
  · rw [← Bool.not_eq_true, h]
    rintro ⟨j, c, -, -, e⟩
    simp at e
    exact hi e.1

theorem without_kids {k : SyntaxKind} {cs : List Tree} {p : Tree → Bool} : ∀ {P : List Nat} {T : Tree} {g : List Nat → Bool},
    T.at? P = some (.node k cs) → KidsAt cs P p g → T.without g = T.set P (.node k (cs.filter fun c => !p c))
  | [], T, g, hT, hg => by
    simp at hT
    subst hT
    rw [without, set]
    congr 1
    refine withouts_filter fun j c hc => ⟨?_, fun D hD => ?_⟩
    · rw [Bool.eq_iff_iff, hg]
      simp only [List.nil_append, Nat.zero_add]
      constructor
      · rintro ⟨i, d, hd, hp, e⟩
        cases e
        rw [hc] at hd
        cases hd
        exact hp
      · intro hp
        exact ⟨j, c, hc, hp, rfl⟩
    · rw [← Bool.not_eq_true, hg]
      rintro ⟨i, d, -, -, e⟩
      simp at e
      exact hD e.2
  | a :: P, T, g, hT, hg => by
    obtain ⟨h1, h2, h3⟩ := hg.cons
    cases T with
    | token k x => simp [at?_cons, children] at hT
    | node k' ks =>
      rw [at?_cons] at hT
      simp only [children] at hT
      rw [without, set]
      congr 1
      have : ∀ l : List Tree, withouts (fun _ => false) 0 l = l := fun l => withouts_none l 0 fun _ _ => rfl
      rw [← this (ks.modify a _)]
      refine withouts_pointwise (by simp) fun j c c' hc hc' => ⟨?_, fun _ => ?_⟩
      · rw [Nat.zero_add, h2]
      · rw [Nat.zero_add]
        rw [List.getElem?_modify, hc] at hc'
        rw [without_none c' fun _ _ => rfl]
        by_cases hj : a = j
        · subst hj
          simp at hc'
          subst hc'
          rw [hc, Option.bind_some] at hT
          exact without_kids hT h1
        · simp [hj] at hc'
          subst hc'
          exact without_none _ fun D _ => h3 j D (Ne.symm hj)

/-- Positions that are not below stay. -/
theorem shift_off {cs : List Tree} {p : Tree → Bool} : ∀ {P X : List Nat} {g : List Nat → Bool}, KidsAt cs P p g →
    (¬ ∃ j R, X = P ++ j :: R) → shift g X = some X
  | _, [], _, _, _ => by simp [shift]
  | [], j :: R, _, _, hn => absurd ⟨j, R, rfl⟩ hn
  | a :: P, i :: X, g, hg, hn => by
    obtain ⟨h1, h2, h3⟩ := hg.cons
    rw [shift, h2]
    simp only [h2, Bool.not_false, List.countP_true, List.length_range]
    by_cases hi : i = a
    · subst hi
      rw [shift_off (g := fun E => g (i :: E)) h1 fun ⟨j, R, e⟩ => hn ⟨j, R, by rw [e]; rfl⟩]
      rfl
    · rw [shift_none (g := fun E => g (i :: E)) fun E _ => h3 i E hi]
      rfl

theorem countP_range_take (p : Tree → Bool) : ∀ {cs : List Tree} {i : Nat} {f : Nat → Bool}, i ≤ cs.length →
    (∀ j c, cs[j]? = some c → f j = p c) → (List.range i).countP f = (cs.take i).countP p
  | _, 0, _, _, _ => by simp
  | [], i + 1, _, h, _ => by simp at h
  | c :: cs, i + 1, f, hi, hf => by
    rw [List.range_succ_eq_map, List.countP_cons, List.take_succ_cons, List.countP_cons, List.countP_map,
      countP_range_take p (cs := cs) (f := f ∘ Nat.succ) (by simpa using hi) fun j c hc => hf (j + 1) c hc, hf 0 c rfl]

/-- Children that stay, and what is below them. -/
theorem shift_kid {cs : List Tree} {p : Tree → Bool} {i : Nat} {c : Tree} (hc : cs[i]? = some c) (hp : p c = false) (R : List Nat) :
    ∀ {P : List Nat} {g : List Nat → Bool}, KidsAt cs P p g →
      shift g (P ++ i :: R) = some (P ++ ((cs.take i).countP fun c => !p c) :: R)
  | [], g, hg => by
    have hk : ∀ j c, cs[j]? = some c → g [j] = p c := by
      intro j c hc
      rw [Bool.eq_iff_iff, hg]
      constructor
      · rintro ⟨i, d, hd, hp, e⟩
        cases e
        rw [hc] at hd
        cases hd
        exact hp
      · intro hp
        exact ⟨j, c, hc, hp, rfl⟩
    have hlt : i < cs.length := by
      refine Nat.lt_of_not_le fun hle => ?_
      rw [List.getElem?_eq_none hle] at hc
      cases hc
    rw [List.nil_append, shift, hk i c hc, hp, shift_none (g := fun E => g (i :: E)) fun E hE => by
      rw [← Bool.not_eq_true, hg]
      rintro ⟨i, d, -, -, e⟩
      simp at e
      exact hE e.2]
    rw [countP_range_take (fun c => !p c) (cs := cs) (Nat.le_of_lt hlt) fun j c hc => by rw [hk j c hc]]
    rfl
  | a :: P, g, hg => by
    obtain ⟨h1, h2, h3⟩ := hg.cons
    rw [List.cons_append, shift, h2]
    simp only [h2, Bool.not_false, List.countP_true, List.length_range]
    rw [shift_kid hc hp R (g := fun E => g (a :: E)) h1]
    rfl
end Tree

namespace Forest
variable {F : Forest}

theorem cuts_old (hF : F.Sound) {hs : List Nat} {r : Nat} (hr : r < F.fresh) :
    (F.cuts hs).tree r = (F.tree r).without (fun D => F.picked hs (r, D)) ∧ (F.cuts hs).mutable r = F.mutable r ∧
    ∀ m D D', F.env.get m = some (r, D) → Tree.shift (fun E => F.picked hs (r, E)) D = some D' →
      (F.cuts hs).env.get m = some (r, D') := by
  induction hs generalizing F with
  | nil =>
    refine ⟨by rw [cuts, Tree.without_none _ fun _ _ => by simp [picked]], rfl, fun m D D' hm hd => ?_⟩
    rw [Tree.shift_none fun E _ => by simp [picked]] at hd
    cases hd
    exact hm
  | cons h hs ih =>
    rw [cuts]
    cases hx : F.env.get h with
    | none =>
      obtain ⟨h1, h2, h3⟩ := ih hF hr
      have hpk : ∀ D, F.picked (h :: hs) (r, D) = F.picked hs (r, D) := fun D => by rw [picked_cons, hx]; rfl
      simp only [hpk]
      exact ⟨h1, h2, h3⟩
    | some x =>
      obtain ⟨a, X⟩ := x
      simp only
      rcases List.eq_nil_or_concat X with rfl | ⟨Q, i, rfl⟩
      · obtain ⟨h1, h2, h3⟩ := ih hF hr
        have hpk : ∀ D, D ≠ [] → F.picked (h :: hs) (r, D) = F.picked hs (r, D) := fun D hD => by
          rw [picked_cons, hx]
          have h2 : (some (a, ([] : List Nat)) == some (r, D)) = false := by
            rw [beq_eq_false_iff_ne]
            intro e
            exact hD (congrArg Prod.snd (Option.some.inj e)).symm
          rw [h2, Bool.false_or]
        refine ⟨h1.trans (Tree.without_congr _ fun D hD => (hpk D hD).symm), h2, fun m D D' hm hd => h3 m D D' hm ?_⟩
        rw [← hd]
        exact Tree.shift_congr fun D hD => (hpk D hD).symm
      · rw [List.concat_eq_append] at hx ⊢
        rw [cut_snoc]
        have ha : a < F.fresh := (hF.get hx).1
        have hS : (F.cutAt a Q i).Sound := by
          have := hF.cut (hF.get hx).1 (hF.get hx).2
          rwa [cut_snoc] at this
        have h0 : cutLoc a F.fresh Q i r [] = (r, []) := by
          rw [cutLoc, Tree.afterCut_nil]; split <;> simp [*]
        obtain ⟨h1, h2, h3⟩ := ih hS (Nat.lt_succ_of_lt hr : r < (F.cutAt a Q i).fresh)
        refine ⟨?_, ?_, fun m D D' hm hd => ?_⟩
        · obtain ⟨u', e1, e2⟩ := cutAt_sub_without (hs := hs) hF hx (P := []) (u := F.tree r) hr (by simp [sub])
          rw [h0] at e1 e2
          simp only [sub, Tree.at?_nil, Option.some.injEq] at e1
          subst e1
          rw [h1]
          simpa using e2
        · rw [h2]
          show (if r = F.fresh then _ else F.mutable r) = _
          rw [if_neg (Nat.ne_of_lt hr)]
        · obtain ⟨D2, e1, e2⟩ := cutAt_shift (hs := hs) hF hx (P := []) (D := D) (D' := D') hr (by simpa using hd)
          rw [h0] at e1 e2
          simp only [List.nil_append] at e1 e2
          refine h3 m D2 D' ?_ e2
          simp [cutAt, Env.get_map, hm, e1]
end Forest

theorem Forest.Sound.add {F : Forest} (h : F.Sound) {x : Nat × List Nat} (h1 : x.1 < F.fresh) (h2 : (F.sub x).isSome) :
    (F.add x).Sound := by
  intro e he
  rcases List.mem_cons.mp (he : e ∈ (F.env.next, x) :: F.env.held) with rfl | he
  · exact ⟨h1, h2⟩
  · exact h e he

theorem Forest.Sound.dels {F : Forest} (h : F.Sound) (hs : List Nat) : (F.dels hs).Sound :=
  fun e he => h e (List.mem_filter.mp he).1

theorem Forest.leak_false (F : Forest) : F.leak false = F := by simp [Forest.leak]

namespace EProg
open Forest
variable {N : Option Nat} {F : Forest} {nodes : Bool} {r : Nat}

theorem Runs.toNext {h : Nat} {X : List Nat} (hx : F.env.get h = some (r, X)) (hX : X ≠ []) (hN : Fits N F 2) :
    match ((F.tree r).later X).find? ((F.tree r).sat (visited nodes)) with
    | some P => Runs N (EProg.toNext nodes h) F (some F.env.next) ((F.dels [h]).add (r, P))
    | none => Runs N (EProg.toNext nodes h) F none (F.dels [h]) := by
  have hl : (F.dels [h]).leak X.isEmpty = F.dels [h] := by
    cases X with
    | nil => exact absurd rfl hX
    | cons a X => exact leak_false _
  have hlost : (Req.toNext nodes h).lost F = 0 := by
    cases X with
    | nil => exact absurd rfl hX
    | cons a X => simp only [Req.lost, hx]
  rw [← target_next]
  split
  next P hP =>
    have hon : (Req.toNext nodes h).on F = .ok (some (r, P), F.dels [h]) := by
      simp only [Req.on, hx, hP, Option.map_some, hl]
    refine ⟨by simp only [EProg.toNext, EProg.run, hon], fun n hn => ⟨?_, ?_⟩⟩
    · have := hN n hn
      simp only [EProg.toNext, peak, hon, hlost, Req.cost]; omega
    · simp only [EProg.toNext, lost, hon, hlost]
  next hP =>
    have hon : (Req.toNext nodes h).on F = .ok (none, F.dels [h]) := by
      simp only [Req.on, hx, hP, Option.map_none, hl]
    refine ⟨by simp only [EProg.toNext, EProg.run, hon], fun n hn => ⟨?_, ?_⟩⟩
    · have := hN n hn
      simp only [EProg.toNext, peak, hon, hlost, Req.cost]; omega
    · simp only [EProg.toNext, lost, hon, hlost]

/-- The handle, if any, on the first of the places. -/
def AtHead (F : Forest) (r : Nat) : List (List Nat) → Option Nat → Prop
  | [], n => n = none
  | X :: _, n => ∃ m, n = some m ∧ F.env.get m = some (r, X)

theorem toNext_step {P X : List Nat} {i m N : Nat} {L : List (List Nat)} {F : Forest} (hF : F.Sound) (hl : F.env.Low)
    (hm : F.env.get m = some (r, X)) (hX : X = P ++ [i])
    (e3 : (((F.tree r).kids P).drop (i + 1)).filter ((F.tree r).sat (visited nodes)) = L) (hN : F.env.ids.length + 2 ≤ N) :
    ∃ n G, Runs (some N) (EProg.toNext nodes m) F n G ∧ G.Sound ∧ G.env.Low ∧ G.tree = F.tree ∧ G.mutable = F.mutable ∧ G.fresh = F.fresh ∧
      G.leaked = F.leaked ∧ AtHead G r L n ∧ (∀ h, h < F.env.next → some h ≠ n) ∧ F.env.next ≤ G.env.next ∧
      G.env.ids.filter (fun x => decide (some x ≠ n)) = F.env.ids.filter (fun x => decide (x ≠ m)) ∧
      (∀ h x, h ≠ m → F.env.get h = some x → G.env.get h = some x) ∧ G.env.ids.length ≤ F.env.ids.length ∧
      (L = [] → G.env.ids.length < F.env.ids.length) := by
  have hXne : X ≠ [] := by rw [hX]; simp
  have hlater : ((F.tree r).later X).find? ((F.tree r).sat (visited nodes)) = L.head? := by
    rw [Tree.later, hX]
    simp only [List.getLast?_append, List.getLast?_singleton, Option.some_or, List.dropLast_concat]
    rw [← e3, List.head?_filter]
  have hlow := Env.low_iff.mp hl
  have step := Runs.toNext (nodes := nodes) (N := some N) hm hXne (Fits.of_ids hN)
  rw [hlater] at step
  have hids : (F.dels [m]).env.ids = F.env.ids.filter (fun x => decide (x ≠ m)) := by
    show (F.env.dels [m]).ids = _
    rw [Env.ids_dels]
    apply List.filter_congr
    intro x _
    simp
  have hlt : (F.dels [m]).env.ids.length < F.env.ids.length := by
    rw [hids]
    exact List.length_filter_lt_length_iff_exists.mpr ⟨m, Env.mem_ids hm, by simp⟩
  have hget : ∀ h x, h ≠ m → F.env.get h = some x → (F.dels [m]).env.get h = some x := by
    intro h x hh hx
    show (F.env.dels [m]).get h = _
    rw [Env.get_dels, if_neg (by simpa using hh), hx]
  cases L with
  | nil =>
    refine ⟨none, F.dels [m], step, hF.dels _, hl.dels _, rfl, rfl, rfl, rfl, rfl, nofun, Nat.le_refl _, ?_, hget, Nat.le_of_lt hlt,
      fun _ => hlt⟩
    rw [List.filter_eq_self.mpr (by simp), hids]
  | cons Y L =>
    refine ⟨some F.env.next, (F.dels [m]).add (r, Y), step, (hF.dels _).add (hF.get hm).1 ?_, (hl.dels _).add _, rfl, rfl, rfl, rfl,
      ⟨_, rfl, Env.get_add_self (F.dels [m]).env _⟩, ?_, Nat.le_succ _, ?_, ?_, hlt, nofun⟩
    · have hY : Y ∈ (((F.tree r).kids P).drop (i + 1)).filter ((F.tree r).sat (visited nodes)) := by rw [e3]; simp
      have hY := (List.mem_filter.mp hY).2
      rw [Tree.sat] at hY
      split at hY
      next u hu =>
        show ((F.tree r).at? Y).isSome
        rw [hu]; rfl
      · cases hY
    · intro h hh e; cases e; omega
    · show (F.env.next :: (F.dels [m]).env.ids).filter _ = _
      rw [List.filter_cons_of_neg (by simp), hids]
      apply List.filter_eq_self.mpr
      intro x hx
      have := hlow x (List.mem_filter.mp hx).1
      refine decide_eq_true fun e => ?_
      cases e; omega
    · intro h x hh hx
      show ((F.dels [m]).env.add (r, Y)).get h = _
      rw [Env.get_add (F.dels [m]).env _ (hl.get hx)]
      exact hget h x hh hx

theorem kid_of {T : Tree} {P X : List Nat} {i : Nat} {p : Tree → Bool} (e1 : (T.kids P)[i]? = some X) (e2 : T.sat p X = true) :
    X = P ++ [i] ∧ ∃ t, T.at? X = some t := by
  refine ⟨?_, ?_⟩
  · rw [Tree.kids] at e1
    split at e1
    next s hs =>
      rw [List.getElem?_map] at e1
      cases hi : (List.range s.children.length)[i]? with
      | none => rw [hi] at e1; cases e1
      | some j =>
        rw [hi] at e1
        have hlt : i < s.children.length := by
          refine Nat.lt_of_not_le fun hle => ?_
          rw [List.getElem?_eq_none (by simpa using hle)] at hi
          cases hi
        rw [List.getElem?_range hlt] at hi
        cases hi
        exact (Option.some.inj e1).symm
    · cases e1
  · rw [Tree.sat] at e2
    split at e2
    next t ht => exact ⟨t, ht⟩
    · cases e2

theorem collect_runs {sel : Tree → Bool} {P : List Nat} : ∀ (L : List (List Nat)) {F : Forest} {n : Option Nat} {d k N : Nat},
    F.Sound → F.env.Low → (((F.tree r).kids P).drop d).filter ((F.tree r).sat (visited nodes)) = L → AtHead F r L n → L.length ≤ k →
    F.env.ids.length + L.length + 2 ≤ N →
    ∃ l F', Runs (some N) (collect nodes sel k n) F l F' ∧ F'.Sound ∧ F'.env.Low ∧ F'.tree = F.tree ∧ F'.mutable = F.mutable ∧
      F'.fresh = F.fresh ∧ F'.leaked = F.leaked ∧ F'.env.ids = l.reverse ++ F.env.ids.filter (fun x => decide (some x ≠ n)) ∧
      F.env.next ≤ F'.env.next ∧ (∀ m x, some m ≠ n → F.env.get m = some x → F'.env.get m = some x) ∧
      l.map F'.env.get = (L.filter ((F.tree r).sat sel)).map (fun X => some (r, X)) ∧
      (∀ m ∈ l, F.env.next ≤ m) ∧ l.Nodup
  | [], F, n, d, k, N, hF, hl, hL, hn, hk, hN => by
    cases (hn : n = none)
    refine ⟨[], F, ?_, hF, hl, rfl, rfl, rfl, rfl, ?_, Nat.le_refl _, fun _ _ _ h => h, by simp, nofun, .nil⟩
    · cases k <;> exact .pure _
    · rw [List.filter_eq_self.mpr (by simp)]; rfl
  | X :: L, F, n, d, 0, N, hF, hl, hL, hn, hk, hN => by simp at hk
  | X :: L, F, n, d, k + 1, N, hF, hl, hL, hn, hk, hN => by
    obtain ⟨m, rfl, hm⟩ := hn
    obtain ⟨i, e1, e2, e3⟩ := filter_drop_cons _ hL
    obtain ⟨hX, t, ht⟩ := kid_of e1 e2
    have hmn := hl.get hm
    have hm1 : (F.add (r, X)).env.get m = some (r, X) := by
      show (F.env.add (r, X)).get m = _
      rw [Env.get_add _ _ hmn, hm]
    have hc1 : (F.add (r, X)).env.get F.env.next = some (r, X) := Env.get_add_self _ _
    obtain ⟨o, ho, hoc⟩ := Forest.sight_of_sub (F := F.add (r, X)) (x := (r, X)) (t := t) ht
    have hids1 : (F.add (r, X)).env.ids.length = F.env.ids.length + 1 := rfl
    have hids0 : (F.add (r, X)).env.ids = F.env.next :: F.env.ids := rfl
    have hN' : F.env.ids.length + (L.length + 1) + 2 ≤ N := by simpa using hN
    have hk' : L.length ≤ k := by simpa using hk
    have hlow := Env.low_iff.mp hl
    have hsat : (F.tree r).sat sel X = sel t := by rw [Tree.sat, ht]
    have step1 : Runs (some N) (EProg.clone m) F F.env.next (F.add (r, X)) := .clone hm (Fits.of_ids (by omega))
    have step2 : Runs (some N) (EProg.see F.env.next) (F.add (r, X)) o (F.add (r, X)) := .see hc1 ho
    have hfil : ∀ h : Nat, decide (some h ≠ some m) = decide (h ≠ m) := fun h => by simp
    have hF1 : (F.add (r, X)).Sound := hF.add (hF.get hm).1 (hF.get hm).2
    rw [collect]
    by_cases hsel : sel t = true
    · obtain ⟨n, G, f1, f0, f2, f3, f4, f5, f6, f7, f8, f9, f10, f11, f12, f13⟩ := toNext_step (nodes := nodes) (N := N)
        (F := F.add (r, X)) hF1 (hl.add _) hm1 hX e3 (by omega)
      have f9' : F.env.next + 1 ≤ G.env.next := f9
      have f8' : ∀ h, h ≤ F.env.next → some h ≠ n := fun h hh => f8 h (Nat.lt_succ_of_le hh)
      obtain ⟨l, F', g1, g0, g2, g3, g4, g5, g6, g7, g8, g9, g10, g11, g12⟩ := collect_runs (sel := sel) (P := P) L (F := G)
        (n := n) (d := i + 1) (k := k) (N := N) f0 f2 (by rw [f3]; exact e3) f7 hk' (by omega)
      refine ⟨F.env.next :: l, F', ?_, g0, g2, g3.trans f3, g4.trans f4, g5.trans f5, g6.trans f6, ?_, by omega, ?_, ?_, ?_,
        List.nodup_cons.mpr ⟨fun hx => by have := g11 _ hx; omega, g12⟩⟩
      · refine .bind step1 (.bind step2 ?_)
        rw [← hoc, hsel]
        exact .bind f1 (.bind g1 (.pure _))
      · rw [g7, f10, hids0, List.filter_cons_of_pos (by simpa using (show F.env.next ≠ m by omega)), List.reverse_cons,
          List.append_assoc]
        simp only [hfil]
        rfl
      · intro h x hh hx
        have hlt := hl.get hx
        refine g9 h x (f8' h (Nat.le_of_lt hlt)) (f11 h x (fun e => hh (by rw [e])) ?_)
        show (F.env.add (r, X)).get h = _
        rw [Env.get_add _ _ hlt, hx]
      · rw [List.filter_cons_of_pos (by rw [hsat]; exact hsel), List.map_cons, List.map_cons, g10, f3,
          g9 F.env.next _ (f8' _ (Nat.le_refl _)) (f11 _ _ (by omega) hc1)]
        rfl
      · intro x hx
        rcases List.mem_cons.mp hx with rfl | hx
        · exact Nat.le_refl _
        · have := g11 x hx; omega
    · have hm2 : ((F.add (r, X)).dels [F.env.next]).env.get m = some (r, X) := by
        show ((F.add (r, X)).env.dels [F.env.next]).get m = _
        rw [Env.get_dels, if_neg (by simpa using (show m ≠ F.env.next by omega)), hm1]
      have hids2 : ((F.add (r, X)).dels [F.env.next]).env.ids = F.env.ids := by
        show ((F.add (r, X)).env.dels [F.env.next]).ids = _
        rw [Env.ids_dels, hids0, List.filter_cons_of_neg (by simp)]
        apply List.filter_eq_self.mpr
        intro x hx
        have := hlow x hx
        simpa using (show x ≠ F.env.next by omega)
      have step3 : Runs (some N) (EProg.drop F.env.next) (F.add (r, X)) () ((F.add (r, X)).dels [F.env.next]) :=
        .drop hc1 (Fits.of_ids (by omega))
      obtain ⟨n, G, f1, f0, f2, f3, f4, f5, f6, f7, f8, f9, f10, f11, f12, f13⟩ := toNext_step (nodes := nodes) (N := N)
        (F := (F.add (r, X)).dels [F.env.next]) (hF1.dels _) ((hl.add _).dels _) hm2 hX e3 (by rw [hids2]; omega)
      have f9' : F.env.next + 1 ≤ G.env.next := f9
      have f8' : ∀ h, h ≤ F.env.next → some h ≠ n := fun h hh => f8 h (Nat.lt_succ_of_le hh)
      rw [hids2] at f10 f12
      obtain ⟨l, F', g1, g0, g2, g3, g4, g5, g6, g7, g8, g9, g10, g11, g12⟩ := collect_runs (sel := sel) (P := P) L (F := G)
        (n := n) (d := i + 1) (k := k) (N := N) f0 f2 (by rw [f3]; exact e3) f7 hk' (by omega)
      refine ⟨l, F', ?_, g0, g2, g3.trans f3, g4.trans f4, g5.trans f5, g6.trans f6, ?_, by omega, ?_, ?_, ?_, g12⟩
      · refine .bind step1 (.bind step2 ?_)
        rw [← hoc, if_neg hsel]
        exact .bind step3 (.bind f1 g1)
      · rw [g7, f10]
        simp only [hfil]
      · intro h x hh hx
        have hlt := hl.get hx
        refine g9 h x (f8' h (Nat.le_of_lt hlt)) (f11 h x (fun e => hh (by rw [e])) ?_)
        show ((F.add (r, X)).env.dels [F.env.next]).get h = _
        rw [Env.get_dels, if_neg (by simpa using (show h ≠ F.env.next by omega))]
        show (F.env.add (r, X)).get h = _
        rw [Env.get_add _ _ hlt, hx]
      · rw [List.filter_cons_of_neg (by rw [hsat]; exact hsel), g10, f3]
        rfl
      · intro x hx
        have := g11 x hx; omega

theorem Runs.mono {α : Type} {p : EProg α} {a : α} {F F' : Forest} {n n' : Nat} (h : Runs (some n) p F a F') (hn : n ≤ n') :
    Runs (some n') p F a F' := ⟨h.run, fun m hm => by cases hm; have := h.fits n rfl; exact ⟨by omega, this.2⟩⟩

theorem Runs.dropAll : ∀ {l : List Nat} {F : Forest} {N : Nat}, l.Nodup → (∀ m ∈ l, m ∈ F.env.ids) → F.env.ids.length ≤ N →
    ∃ F', Runs (some N) (EProg.dropAll l) F () F' ∧ F'.tree = F.tree ∧ F'.mutable = F.mutable ∧ F'.fresh = F.fresh ∧
      F'.env.ids = F.env.ids.filter (fun x => !l.contains x) ∧ ∀ m, m ∉ l → F'.env.get m = F.env.get m
  | [], F, N, _, _, _ => ⟨F, .pure _, rfl, rfl, rfl, (List.filter_eq_self.mpr (by simp)).symm, fun _ _ => rfl⟩
  | h :: l, F, N, hd, hm, hN => by
    obtain ⟨hd1, hd2⟩ := List.nodup_cons.mp hd
    obtain ⟨x, hx⟩ := Env.get_of_ids (hm h (by simp))
    have hids : (F.dels [h]).env.ids = F.env.ids.filter (![h].contains ·) := Env.ids_dels _ _
    obtain ⟨F', g1, g2, g3, g4, g5, g6⟩ := Runs.dropAll (l := l) (F := F.dels [h]) (N := N) hd2
      (fun m h' => by
        rw [hids]
        exact List.mem_filter.mpr ⟨hm m (by simp [h']), by simpa using fun e : m = h => hd1 (e ▸ h')⟩)
      (by rw [hids]; exact Nat.le_trans (List.length_filter_le _ _) hN)
    refine ⟨F', .bind (.drop hx (Fits.of_ids (by omega))) g1, g2, g3, g4, ?_, fun m h' => ?_⟩
    · rw [g5, hids, List.filter_filter]
      apply List.filter_congr
      intro x _
      simp only [List.contains_cons, List.contains_nil, Bool.or_false, Bool.not_or]
      rw [Bool.and_comm]
    · rw [g6 m fun e => h' (by simp [e])]
      show (F.env.dels [h]).get m = _
      rw [Env.get_dels, if_neg (by simpa using fun e : m = h => h' (by simp [e]))]

theorem picked_map {F : Forest} {r : Nat} {l : List Nat} {L : List (List Nat)}
    (h : l.map F.env.get = L.map (fun X => some (r, X))) (n : Nat) (D : List Nat) :
    F.picked l (n, D) = true ↔ n = r ∧ D ∈ L := by
  have : F.picked l (n, D) = (l.map F.env.get).any (· == some (n, D)) := by
    rw [List.any_map]; rfl
  rw [this, h, List.any_map, List.any_eq_true]
  constructor
  · rintro ⟨X, hX, e⟩
    have e := eq_of_beq e
    cases e
    exact ⟨rfl, hX⟩
  · rintro ⟨rfl, hD⟩
    exact ⟨D, hD, beq_self_eq_true _⟩

theorem mem_kids {T : Tree} {P D : List Nat} {kd : SyntaxKind} {cs : List Tree} {v p : Tree → Bool}
    (ht : T.at? P = some (.node kd cs)) :
    D ∈ ((T.kids P).filter (T.sat v)).filter (T.sat p) ↔ ∃ i c, cs[i]? = some c ∧ (v c && p c) = true ∧ D = P ++ [i] := by
  have hat : ∀ i, T.at? (P ++ [i]) = cs[i]? := fun i => by rw [Tree.at?_snoc, ht]; rfl
  rw [Tree.kids_eq ht]
  simp only [List.mem_filter, List.mem_map, List.mem_range, Tree.children]
  constructor
  · rintro ⟨⟨⟨i, hi, rfl⟩, h1⟩, h2⟩
    rw [Tree.sat, hat, List.getElem?_eq_getElem hi] at h1 h2
    exact ⟨i, cs[i], List.getElem?_eq_getElem hi, by simp [h1, h2], rfl⟩
  · rintro ⟨i, c, hc, hp, rfl⟩
    rw [Bool.and_eq_true] at hp
    refine ⟨⟨⟨i, ?_, rfl⟩, ?_⟩, ?_⟩
    · refine Nat.lt_of_not_le fun hle => ?_
      rw [List.getElem?_eq_none hle] at hc
      cases hc
    · rw [Tree.sat, hat, hc]; exact hp.1
    · rw [Tree.sat, hat, hc]; exact hp.2

theorem length_kids {T : Tree} {P : List Nat} {kd : SyntaxKind} {cs : List Tree} {v : Tree → Bool}
    (ht : T.at? P = some (.node kd cs)) : ((T.kids P).filter (T.sat v)).length = (cs.filter v).length := by
  have hat : ∀ i, T.at? (P ++ [i]) = cs[i]? := fun i => by rw [Tree.at?_snoc, ht]; rfl
  rw [Tree.kids_eq ht, ← List.countP_eq_length_filter, ← List.countP_eq_length_filter, List.countP_map, Tree.children,
    Tree.countP_range_take v (cs := cs) (Nat.le_refl _), List.take_length]
  intro j c hc
  rw [Function.comp, Tree.sat, hat, hc]

theorem detachKids_runs {sel : Tree → Bool} {P : List Nat} {kd : SyntaxKind} {cs : List Tree} {F : Forest} {q k : Nat}
    (hF : F.Sound) (hl : F.env.Low) (hq : F.env.get q = some (r, P)) (hm : F.mutable r = true)
    (ht : F.sub (r, P) = some (.node kd cs)) (hk : (cs.filter (visited nodes)).length ≤ k) :
    ∃ F', Runs (some (F.env.ids.length + cs.length + 4)) (detachKids nodes sel k q) F () F' ∧
      F'.tree r = (F.tree r).set P (.node kd (cs.filter fun c => !(visited nodes c && sel c))) ∧ F'.env.ids = F.env.ids ∧
      (∀ n, n < F.fresh → n ≠ r → F'.tree n = F.tree n) ∧ (∀ n, n < F.fresh → F'.mutable n = F.mutable n) ∧
      (∀ m x, F.env.get m = some x → ¬ (x.1 = r ∧ ∃ j R, x.2 = P ++ j :: R) → F'.env.get m = some x) ∧
      (∀ m i c R, F.env.get m = some (r, P ++ i :: R) → cs[i]? = some c → (visited nodes c && sel c) = false →
        F'.env.get m = some (r, P ++ ((cs.take i).countP fun c => !(visited nodes c && sel c)) :: R)) ∧
      (∀ m i c R, F.env.get m = some (r, P ++ i :: R) → cs[i]? = some c → (visited nodes c && sel c) = true →
        ∃ n, F'.env.get m = some (n, R) ∧ F'.tree n = c ∧ F'.mutable n = true) := by
  have ht' : (F.tree r).at? P = some (.node kd cs) := ht
  have hlow := Env.low_iff.mp hl
  have hr : r < F.fresh := (hF.get hq).1
  have hF1 : (F.add (r, P)).Sound := hF.add hr (hF.get hq).2
  have hp1 : (F.add (r, P)).env.get F.env.next = some (r, P) := Env.get_add_self _ _
  have hnode : (F.add (r, P)).isNode (r, P) = true := by
    show (match F.sub (r, P) with | some t => t.isNode | none => false) = true
    rw [ht]; rfl
  have hlen1 : (F.add (r, P)).env.ids.length = F.env.ids.length + 1 := rfl
  have hLlen : (((F.tree r).kids P).filter ((F.tree r).sat (visited nodes))).length = (cs.filter (visited nodes)).length :=
    length_kids ht'
  have hLcs : (cs.filter (visited nodes)).length ≤ cs.length := List.length_filter_le _ _
  -- the first child
  obtain ⟨n, F2, f1, f2, f3, f4, f5, f6, f7, f8, f9, f11, f10⟩ : ∃ n F2, Runs (some (F.env.ids.length + cs.length + 4))
      (EProg.nav (if nodes then .firstChild else .firstChildOrToken) F.env.next) (F.add (r, P)) n F2 ∧ F2.Sound ∧ F2.env.Low ∧
      F2.tree = F.tree ∧ F2.mutable = F.mutable ∧ F2.fresh = F.fresh ∧ F.env.next < F2.env.next ∧
      F2.env.ids.filter (fun x => decide (some x ≠ n)) = F.env.next :: F.env.ids ∧ F2.env.ids.length ≤ F.env.ids.length + 2 ∧
      AtHead F2 r (((F.tree r).kids P).filter ((F.tree r).sat (visited nodes))) n ∧
      ∀ m x, (F.add (r, P)).env.get m = some x → some m ≠ n ∧ F2.env.get m = some x := by
    have htar := target_first nodes (F.tree r) P
    rw [← List.head?_filter] at htar
    cases hL : ((F.tree r).kids P).filter ((F.tree r).sat (visited nodes)) with
    | nil =>
      rw [hL] at htar
      refine ⟨none, _, .nav_none hp1 (fun _ => hnode) htar (Fits.of_ids (by omega)), hF1, hl.add _, rfl, rfl, rfl,
        Nat.lt_succ_self _, ?_, by omega, rfl, fun m x hx => ⟨nofun, hx⟩⟩
      exact List.filter_eq_self.mpr (by simp)
    | cons Y L =>
      rw [hL] at htar
      have hY : ((F.tree r).at? Y).isSome := by
        have hY : Y ∈ ((F.tree r).kids P).filter ((F.tree r).sat (visited nodes)) := by rw [hL]; simp
        have hY := (List.mem_filter.mp hY).2
        rw [Tree.sat] at hY
        split at hY
        next u hu => rw [hu]; rfl
        · cases hY
      refine ⟨some (F.env.next + 1), (F.add (r, P)).add (r, Y), .nav_some hp1 (fun _ => hnode) htar (Fits.of_ids (by omega)),
        hF1.add hr hY, (hl.add _).add _, rfl, rfl, rfl, Nat.lt_succ_of_lt (Nat.lt_succ_self _), ?_, Nat.le_refl _,
        ⟨_, rfl, Env.get_add_self (F.add (r, P)).env _⟩, fun m x hx => ?_⟩
      · show ((F.env.next + 1) :: F.env.next :: F.env.ids).filter _ = _
        rw [List.filter_cons_of_neg (by simp)]
        apply List.filter_eq_self.mpr
        intro x hx
        refine decide_eq_true fun e => ?_
        cases e
        rcases List.mem_cons.mp hx with e | hx
        · omega
        · have := hlow _ hx; omega
      · have := (hl.add (r, P)).get hx
        refine ⟨fun e => ?_, ?_⟩
        · cases e
          exact absurd this (Nat.lt_irrefl _)
        · show ((F.add (r, P)).env.add (r, Y)).get m = _
          rw [Env.get_add (F.add (r, P)).env _ this, hx]
  -- the others
  obtain ⟨l, F3, g1, g0, g2, g3, g4, g5, g6, g7, g8, g9, g10, g11, g12⟩ := collect_runs (nodes := nodes) (sel := sel) (P := P)
    (((F.tree r).kids P).filter ((F.tree r).sat (visited nodes))) (F := F2) (n := n) (d := 0) (k := k)
    (N := F.env.ids.length + cs.length + 4) f2 f3 (by rw [f4, List.drop_zero]) f11 (by omega) (by omega)
  rw [f8] at g7
  rw [f4] at g10 g3
  have hnotl : ∀ m, m ≤ F.env.next → m ∉ l := fun m hm' hx => by have := g11 m hx; omega
  have hp3 : F3.env.get F.env.next = some (r, P) := by
    obtain ⟨a, b⟩ := f10 _ _ hp1
    exact g9 _ _ a b
  have hlen3 : F3.env.ids.length ≤ F.env.ids.length + cs.length + 1 := by
    have h1 := congrArg List.length g10
    rw [List.length_map, List.length_map] at h1
    have h2 := List.length_filter_le ((F.tree r).sat sel) (((F.tree r).kids P).filter ((F.tree r).sat (visited nodes)))
    rw [g7, List.length_append, List.length_reverse, List.length_cons]
    omega
  have hids4 : (F3.dels [F.env.next]).env.ids = l.reverse ++ F.env.ids := by
    show (F3.env.dels [F.env.next]).ids = _
    rw [Env.ids_dels, g7, List.filter_append, List.filter_cons_of_neg (by simp)]
    congr 1
    · apply List.filter_eq_self.mpr
      intro x hx
      simpa using fun e : x = F.env.next => hnotl x (Nat.le_of_eq e) (List.mem_reverse.mp hx)
    · apply List.filter_eq_self.mpr
      intro x hx
      have := hlow x hx
      simpa using (show x ≠ F.env.next by omega)
  have hS4 : (F3.dels [F.env.next]).Sound := g0.dels _
  have hget4 : ∀ m x, F.env.get m = some x → (F3.dels [F.env.next]).env.get m = some x := by
    intro m x hx
    have hlt := hl.get hx
    obtain ⟨a, b⟩ := f10 m x (by
      show (F.env.add (r, P)).get m = _
      rw [Env.get_add _ _ hlt, hx])
    show (F3.env.dels [F.env.next]).get m = _
    rw [Env.get_dels, if_neg (by simpa using (show m ≠ F.env.next by omega))]
    exact g9 _ _ a b
  have hlget : l.map (F3.dels [F.env.next]).env.get = (((((F.tree r).kids P).filter ((F.tree r).sat (visited nodes)))).filter
      ((F.tree r).sat sel)).map (fun X => some (r, X)) := by
    rw [← g10]
    apply List.map_congr_left
    intro x hx
    show (F3.env.dels [F.env.next]).get x = _
    rw [Env.get_dels, if_neg (by simpa using fun e : x = F.env.next => hnotl x (Nat.le_of_eq e) hx)]
  have hpk := picked_map hlget
  have hK : Tree.KidsAt cs P (fun c => visited nodes c && sel c) (fun D => (F3.dels [F.env.next]).picked l (r, D)) := by
    intro D
    rw [hpk, mem_kids ht']
    simp
  have hnpk : ∀ n D, n ≠ r → (F3.dels [F.env.next]).picked l (n, D) = false := by
    intro n D hn
    rw [← Bool.not_eq_true, hpk]
    exact fun e => hn e.1
  have hfree : (F3.dels [F.env.next]).Free l := by
    intro m hm'
    have : (F3.dels [F.env.next]).env.get m ∈ l.map (F3.dels [F.env.next]).env.get := List.mem_map_of_mem hm'
    rw [hlget] at this
    obtain ⟨X, -, e⟩ := List.mem_map.mp this
    refine ⟨(r, X), e.symm, ?_⟩
    show F3.mutable r = true
    rw [g4, f5]; exact hm
  have hlenheld : (F3.dels [F.env.next]).env.held.length ≤ F.env.ids.length + cs.length + 4 := by
    rw [Env.length_held]
    have : (F3.dels [F.env.next]).env.ids.length ≤ F3.env.ids.length := by
      show (F3.env.dels [F.env.next]).ids.length ≤ _
      rw [Env.ids_dels]
      exact List.length_filter_le _ _
    omega
  have hids5 : ((F3.dels [F.env.next]).cuts l).env.ids = l.reverse ++ F.env.ids := by
    rw [← hids4]
    exact Forest.ids_cuts _ _
  obtain ⟨F', d1, d2, d3, d4, d5, d6⟩ := Runs.dropAll (l := l) (F := (F3.dels [F.env.next]).cuts l)
    (N := F.env.ids.length + cs.length + 4) g12 (fun m hm' => by rw [hids5]; simp [hm']) (by
      have := congrArg List.length (Forest.ids_cuts (F3.dels [F.env.next]) l)
      rw [List.length_map, List.length_map] at this
      rw [← Env.length_held]; omega)
  have hfr : (F3.dels [F.env.next]).fresh = F.fresh := g5.trans f6
  have htr : (F3.dels [F.env.next]).tree = F.tree := g3
  have hold : ∀ n, n < F.fresh → _ := fun n hn => Forest.cuts_old (hs := l) hS4 (r := n) (by rw [hfr]; exact hn)
  refine ⟨F', ?_, ?_, ?_, ?_, ?_, ?_, ?_, ?_⟩
  · refine .bind (.bind (.clone hq (Fits.of_ids (by omega))) (.bind f1 (.bind g1 (.bind (.drop hp3 (Fits.of_ids (by omega)))
      (.pure l))))) (.bind ((Runs.detachAll hS4 hfree).mono hlenheld) d1)
  · rw [d2, (hold r hr).1, htr]
    exact Tree.without_kids ht' hK
  · rw [d5, hids5, List.filter_append]
    have h1 : l.reverse.filter (fun x => !l.contains x) = [] := by
      rw [List.filter_eq_nil_iff]
      intro x hx
      simpa using hx
    have h2 : F.env.ids.filter (fun x => !l.contains x) = F.env.ids := by
      rw [List.filter_eq_self]
      intro x hx
      simpa using hnotl x (Nat.le_of_lt (hlow x hx))
    rw [h1, h2]; rfl
  · intro n hn hne
    rw [d2, (hold n hn).1, htr]
    exact Tree.without_none _ fun D _ => hnpk n D hne
  · intro n hn
    rw [d3, (hold n hn).2.1]
    show F3.mutable n = _
    rw [g4, f5]
  · rintro m ⟨a, X⟩ hx hn
    rw [d6 m (hnotl m (Nat.le_of_lt (hl.get hx)))]
    refine (hold a (hF.get hx).1).2.2 m X X (hget4 m _ hx) ?_
    by_cases ha : a = r
    · subst ha
      exact Tree.shift_off hK fun he => hn ⟨rfl, he⟩
    · exact Tree.shift_none fun D _ => hnpk a D ha
  · intro m i c R hx hc hp
    rw [d6 m (hnotl m (Nat.le_of_lt (hl.get hx)))]
    exact (hold r hr).2.2 m _ _ (hget4 m _ hx) (Tree.shift_kid hc hp R hK)
  · intro m i c R hx hc hp
    have hmem := (mem_kids (D := P ++ [i]) ht').mpr ⟨i, c, hc, hp, rfl⟩
    have : some (r, P ++ [i]) ∈ l.map (F3.dels [F.env.next]).env.get := by
      rw [hlget]; exact List.mem_map_of_mem (f := fun X => some (r, X)) hmem
    obtain ⟨g, hg, hg'⟩ := List.mem_map.mp this
    have hnone : ∀ E, E ≠ [] → (F3.dels [F.env.next]).picked l (r, P ++ [i] ++ E) = false := by
      intro E hE
      rw [← Bool.not_eq_true]
      intro hh
      obtain ⟨i', c', -, -, e⟩ := (hK _).mp hh
      have := congrArg List.length e
      simp only [List.length_append, List.length_singleton] at this
      exact hE (List.eq_nil_of_length_eq_zero (by omega))
    have hsub : (F3.dels [F.env.next]).sub (r, P ++ [i]) = some c := by
      show (F3.tree r).at? (P ++ [i]) = _
      rw [g3, Tree.at?_snoc, ht', Option.bind_some]
      exact hc
    obtain ⟨z, h1, h2, h3⟩ := Forest.cuts_sub (hs := l) hS4 hg' hsub
    obtain ⟨z', h4, h5⟩ := Forest.cuts_shift (hs := l) (D := R) (D' := R) hS4 hg'
      (by rw [hget4 m _ hx]; simp) (Tree.shift_none hnone)
    obtain ⟨z'', h6, h7⟩ := Forest.cuts_mutable (hs := l) hS4 hg'
    rw [h1] at h4 h6
    cases h4; cases h6
    have hz := h3 hg
    obtain ⟨a, Z⟩ := z
    simp only at hz
    subst hz
    refine ⟨a, ?_, ?_, ?_⟩
    · rw [d6 m (hnotl m (Nat.le_of_lt (hl.get hx))), h5]; rfl
    · rw [Tree.without_none _ hnone] at h2
      simp only [Forest.sub, Tree.at?_nil, Option.some.injEq] at h2
      rw [d2]; exact h2
    · rw [d3, h7]
      show F3.mutable r = true
      rw [g4, f5]; exact hm

end EProg
end Rowan
