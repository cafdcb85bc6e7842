import Verif.Spec.Frame
import Verif.EditLawsRun
/-!
# Steps of a program leave the other trees alone

The definitions in this file are vocabulary of the proofs and model no code.
-/
namespace Rowan
namespace Forest
variable {F G K : Forest} {bs : List Nat}

/-- The handles `bs` are in trees of their own, and new numbers are new. -/
structure Aside (bs : List Nat) (F : Forest) : Prop where
  apart : F.Apart bs
  low : ∀ e ∈ F.env.held, e.2.1 < F.fresh
  ids : ∀ b ∈ bs, b < F.env.next

/-- After some steps. -/
structure Kept (bs : List Nat) (F F' : Forest) : Prop where
  keeps : Spares bs F F'
  aside : Aside bs F'

/-- Nobody has one of the handles `bs` in tree `n`. -/
def Without (bs : List Nat) (F : Forest) (n : Nat) : Prop := ∀ e ∈ F.env.held, e.1 ∈ bs → e.2.1 ≠ n

theorem Spares.mem (h : Spares bs F G) {e : Nat × Nat × List Nat} (he : e.1 ∈ bs) : e ∈ G.env.held ↔ e ∈ F.env.held := by
  have := congrArg (e ∈ ·) h.held
  simpa [he] using this

theorem Spares.refl (bs : List Nat) (F : Forest) : Spares bs F F := ⟨rfl, fun _ _ _ => rfl, fun _ _ _ => rfl⟩

theorem Spares.trans (h : Spares bs F G) (h' : Spares bs G K) : Spares bs F K :=
  ⟨h'.held.trans h.held, fun e he hb => (h'.tree e ((h.mem hb).mpr he) hb).trans (h.tree e he hb),
    fun e he hb => (h'.mutable e ((h.mem hb).mpr he) hb).trans (h.mutable e he hb)⟩

theorem Kept.trans (h : Kept bs F G) (h' : Kept bs G K) : Kept bs F K := ⟨h.keeps.trans h'.keeps, h'.aside⟩

theorem Aside.refl (h : Aside bs F) : Kept bs F F := ⟨Spares.refl bs F, h⟩

theorem Aside.free (h : Aside bs F) {m : Nat} {x : Nat × List Nat} (hm : m ∉ bs) (hx : F.env.get m = some x) : F.Without bs x.1 :=
  fun e he hb => h.apart e he _ (Env.get_mem hx) hb hm

theorem Aside.free_fresh (h : Aside bs F) : F.Without bs F.fresh := fun e he _ => Nat.ne_of_lt (h.low e he)

theorem Kept.free (h : Kept bs F G) {n : Nat} (hn : F.Without bs n) : G.Without bs n :=
  fun e he hb => hn e ((h.keeps.mem hb).mp he) hb

theorem deserted_aside {n : Nat} (hn : F.Without bs n) (gone : List Nat) : F.deserted n (bs ++ gone) = F.deserted n gone := by
  simp only [deserted]
  congr 1
  rw [Bool.eq_iff_iff, List.all_eq_true, List.all_eq_true]
  refine forall_congr' fun e => forall_congr' fun he => ?_
  simp only [List.contains_eq_mem, List.mem_append, Bool.or_eq_true, decide_eq_true_eq, bne_iff_ne]
  by_cases hb : e.1 ∈ bs
  · simp [hb, hn e he hb]
  · simp [hb]

/-! ### Steps -/

/-- A change of places that leaves the handles `bs` where they are. -/
theorem Aside.moved (h : Aside bs F) {f : Nat × List Nat → Nat × List Nat} (hG : G.env = F.env.map f)
    (hf : ∀ e ∈ F.env.held, e.1 ∈ bs → f e.2 = e.2) (hg : ∀ e ∈ F.env.held, e.1 ∉ bs → F.Without bs (f e.2).1 ∧ (f e.2).1 < G.fresh)
    (ht : ∀ e ∈ F.env.held, e.1 ∈ bs → G.tree e.2.1 = F.tree e.2.1 ∧ G.mutable e.2.1 = F.mutable e.2.1)
    (hl : F.fresh ≤ G.fresh) : Kept bs F G := by
  have key : Spares bs F G := by
    refine ⟨?_, fun e he hb => (ht e he hb).1, fun e he hb => (ht e he hb).2⟩
    rw [hG]
    simp only [Env.map, List.filter_map]
    have : (F.env.held.filter ((fun e => bs.contains e.1) ∘ fun p : Nat × Nat × List Nat => (p.1, f p.2))) =
        F.env.held.filter (fun e => bs.contains e.1) := List.filter_congr fun e _ => rfl
    rw [this]
    refine (List.map_congr_left ?_).trans (List.map_id _)
    rintro ⟨m, x⟩ he
    rw [List.mem_filter] at he
    simp only [List.contains_eq_mem, decide_eq_true_eq] at he
    rw [hf _ he.1 he.2]; rfl
  refine ⟨key, ?_, ?_, by rw [hG]; exact h.ids⟩
  · intro e he e' he' hb hb'
    have he := (key.mem hb).mp he
    rw [hG] at he'
    obtain ⟨p, hp, rfl⟩ := List.mem_map.mp he'
    exact (hg p hp hb').1 e he hb
  · intro e he
    rw [hG] at he
    obtain ⟨p, hp, rfl⟩ := List.mem_map.mp he
    by_cases hb : p.1 ∈ bs
    · simp only
      rw [hf p hp hb]
      exact Nat.lt_of_lt_of_le (h.low p hp) hl
    · exact (hg p hp hb).2

theorem Aside.cutAt (h : Aside bs F) {r : Nat} (hr : F.Without bs r) (hl : r < F.fresh) (P : List Nat) (i : Nat) : Kept bs F (F.cutAt r P i) := by
  refine h.moved (f := fun x => cutLoc r F.fresh P i x.1 x.2) rfl ?_ ?_ ?_ (Nat.le_succ _)
  · intro e he hb
    simp only [cutLoc, if_neg (hr e he hb)]
  · intro e he hb
    have hlow := h.low e he
    have hfe : F.Without bs e.2.1 := fun e' he' hb' => h.apart e' he' e he hb' hb
    simp only [cutLoc]
    split
    · split
      · exact ⟨hr, Nat.lt_succ_of_lt hl⟩
      · exact ⟨h.free_fresh, Nat.lt_succ_self _⟩
    · exact ⟨hfe, Nat.lt_succ_of_lt hlow⟩
  · intro e he hb
    have h1 : e.2.1 ≠ F.fresh := Nat.ne_of_lt (h.low e he)
    simp [Forest.cutAt, h1, hr e he hb]

theorem Aside.cut (h : Aside bs F) {x : Nat × List Nat} (hr : F.Without bs x.1) (hl : x.1 < F.fresh) : Kept bs F (F.cut x) := by
  obtain ⟨r, X⟩ := x
  rcases List.eq_nil_or_concat X with rfl | ⟨Q, i, rfl⟩
  · rw [cut_nil]; exact h.refl
  · rw [List.concat_eq_append, cut_snoc]; exact h.cutAt hr hl Q i

theorem Aside.join (h : Aside bs F) {z : Nat × List Nat} {y : Nat} (hz : F.Without bs z.1) (hl : z.1 < F.fresh) (hy : F.Without bs y) (i : Nat) :
    Kept bs F (F.join z i y) := by
  refine h.moved (f := fun x => joinLoc z.1 y z.2 i x.1 x.2) rfl ?_ ?_ ?_ (Nat.le_refl _)
  · intro e he hb
    simp only [joinLoc, if_neg (hz e he hb), if_neg (hy e he hb)]
  · intro e he hb
    have hlow := h.low e he
    have hfe : F.Without bs e.2.1 := fun e' he' hb' => h.apart e' he' e he hb' hb
    simp only [joinLoc]
    split
    · exact ⟨hz, hl⟩
    · split
      · exact ⟨hz, hl⟩
      · exact ⟨hfe, hlow⟩
  · intro e he hb
    simp [Forest.join, hz e he hb]

theorem Aside.plant (h : Aside bs F) (m : Bool) (t : Tree) : Kept bs F (F.plant m t) := by
  refine ⟨⟨rfl, ?_, ?_⟩, h.apart, fun e he => Nat.lt_succ_of_lt (h.low e he), h.ids⟩ <;>
  · intro e he hb
    have h1 : e.2.1 ≠ F.fresh := Nat.ne_of_lt (h.low e he)
    simp [Forest.plant, h1]

theorem Aside.leak (h : Aside bs F) (b : Bool) : Kept bs F (F.leak b) :=
  ⟨⟨rfl, fun _ _ _ => rfl, fun _ _ _ => rfl⟩, h.apart, h.low, h.ids⟩

theorem Aside.dels (h : Aside bs F) {hs : List Nat} (hh : ∀ m ∈ hs, m ∉ bs) : Kept bs F (F.dels hs) := by
  refine ⟨⟨?_, fun _ _ _ => rfl, fun _ _ _ => rfl⟩, ?_, fun e he => h.low e (Env.mem_dels he), h.ids⟩
  · simp only [Forest.dels, Env.dels, List.filter_filter]
    apply List.filter_congr
    intro e _
    by_cases hb : e.1 ∈ bs
    · have : e.1 ∉ hs := fun h => hh _ h hb
      simp [hb, this]
    · simp [hb]
  · exact fun e he e' he' => h.apart e (Env.mem_dels he) e' (Env.mem_dels he')

theorem Aside.add (h : Aside bs F) {x : Nat × List Nat} (hx : F.Without bs x.1) (hl : x.1 < F.fresh) : Kept bs F (F.add x) := by
  have hn : F.env.next ∉ bs := fun hb => Nat.lt_irrefl _ (h.ids _ hb)
  refine ⟨⟨?_, fun _ _ _ => rfl, fun _ _ _ => rfl⟩, ?_, ?_, ?_⟩
  · simp [Forest.add, Env.add, hn]
  · intro e he e' he' hb hb'
    simp only [Forest.add, Env.add, List.mem_cons] at he he'
    rcases he with rfl | he
    · exact absurd hb hn
    · rcases he' with rfl | he'
      · exact hx e he hb
      · exact h.apart e he e' he' hb hb'
  · intro e he
    simp only [Forest.add, Env.add, List.mem_cons] at he
    rcases he with rfl | he
    · exact hl
    · exact h.low e he
  · intro b hb
    have := h.ids b hb
    simp only [Forest.add, Env.add]; omega

/-! ### `splice_children` -/

theorem insertAll_aside {q : Nat} (hq : q ∉ bs) (gone : List Nat) : ∀ (ps : List Nat) (i : Nat) (F : Forest), Aside bs F →
    (∀ p ∈ ps, p ∉ bs) → F.insertAll q (bs ++ gone) i ps = F.insertAll q gone i ps ∧
      (∀ F', F.insertAll q gone i ps = .ok F' ∨ F.insertAll q gone i ps = .panic F' → Kept bs F F')
  | [], i, F, h, _ => by
    rw [insertAll, insertAll]
    refine ⟨rfl, ?_⟩
    rintro F' (e | e) <;> cases e
    exact h.refl
  | p :: ps, i, F, h, hp => by
    rw [insertAll, insertAll]
    have hpb : p ∉ bs := hp p (by simp)
    cases hx : F.env.get p with
    | none => exact ⟨rfl, by rintro F' (e | e) <;> cases e⟩
    | some x =>
      have hfx := h.free hpb hx
      have hlx := h.low _ (Env.get_mem hx)
      simp only
      by_cases hm : F.mutable x.1 = false
      · simp only [if_pos hm]
        refine ⟨trivial, ?_⟩
        rintro F' (e | e) <;> cases e
        exact h.refl
      · simp only [if_neg hm]
        have hc := h.cut hfx hlx
        cases hy : (F.cut x).env.get p with
        | none => exact ⟨rfl, by rintro F' (e | e) <;> cases e⟩
        | some y =>
          cases hz : (F.cut x).env.get q with
          | none => exact ⟨rfl, by rintro F' (e | e) <;> cases e⟩
          | some z =>
            have fy := hc.aside.free hpb hy
            have fz := hc.aside.free hq hz
            have lz := hc.aside.low _ (Env.get_mem hz)
            simp only
            rw [deserted_aside fy gone]
            by_cases h1 : z.1 = y.1
            · simp only [if_pos h1]
              refine ⟨trivial, ?_⟩
              intro F'
              split <;> rintro (e | e) <;> cases e
            · simp only [if_neg h1]
              by_cases h2 : i ≤ (F.cut x).width z
              · simp only [if_pos h2]
                have hj := hc.aside.join fz lz fy i
                obtain ⟨r1, r2⟩ := insertAll_aside hq gone ps (i + 1) _ hj.aside fun p' hp' => hp p' (by simp [hp'])
                exact ⟨r1, fun F' e => (hc.trans hj).trans (r2 F' e)⟩
              · simp only [if_neg h2]
                refine ⟨trivial, ?_⟩
                intro F'
                split <;> rintro (e | e) <;> cases e
                exact hc

/-- The same step with the handles `bs`. -/
def FramedStep {β : Type} (bs : List Nat) (F : Forest) (up : β → Forest → Prop) : FOut (β × Forest) → FOut (β × Forest) → Prop
  | .ok (a, G), .ok (b, G') => a = b ∧ G = G'.dels bs ∧ Kept bs F G' ∧ up a G'
  | .panic G, .panic G' => G = G'.dels bs ∧ Kept bs F G'
  | .broken, .broken => True
  | .wild, .wild => True
  | .diverge, .diverge => True
  | .misuse, _ => True
  | _, _ => False

theorem gets_aside : ∀ {ins : List Nat}, ((F.dels bs).env.gets ins).isSome → (∀ m ∈ ins, m ∉ bs) ∧ (F.env.gets ins).isSome
  | [], _ => ⟨by simp, rfl⟩
  | m :: ms, h => by
    simp only [Env.gets] at h ⊢
    cases hm : (F.dels bs).env.get m with
    | none => rw [hm] at h; simp at h
    | some x =>
      have hmb : m ∉ bs := by
        intro hb
        rw [Forest.dels, Env.get_dels, if_pos hb] at hm; cases hm
      rw [get_dels_of hmb] at hm
      cases hms : (F.dels bs).env.gets ms with
      | none => rw [hms] at h; simp at h
      | some xs =>
        obtain ⟨h1, h2⟩ := gets_aside (ins := ms) (by rw [hms]; rfl)
        obtain ⟨ys, hys⟩ := Option.isSome_iff_exists.mp h2
        refine ⟨?_, by rw [hm, hys]; rfl⟩
        intro k hk
        rcases List.mem_cons.mp hk with rfl | hk
        · exact hmb
        · exact h1 k hk

theorem dels_comm (F : Forest) (as bs : List Nat) : (F.dels as).dels bs = (F.dels bs).dels as := by
  rw [dels_dels, dels_dels]
  simp only [Forest.dels, Env.dels]
  congr 2
  apply List.filter_congr
  intro x _
  simp only [List.contains_eq_mem, List.mem_append, Or.comm]

theorem splice_aside (h : Aside bs F) (q a b : Nat) (ins : List Nat) :
    match (F.dels bs).splice q a b ins, F.splice q a b ins with
    | .ok G, .ok G' => G = G'.dels bs ∧ Kept bs F G'
    | .panic G, .panic G' => G = G'.dels bs ∧ Kept bs F G'
    | .broken, .broken => True
    | .wild, .wild => True
    | .diverge, .diverge => True
    | .misuse, _ => True
    | _, _ => False := by
  cases hq : (F.dels bs).env.get q with
  | none => rw [splice, hq]; trivial
  | some z =>
    have hqb : q ∉ bs := by
      intro hb
      rw [Forest.dels, Env.get_dels, if_pos hb] at hq; cases hq
    rw [splice, hq]
    rw [get_dels_of hqb] at hq
    rw [splice, hq]
    simp only
    by_cases hc : (F.dels bs).isNode z = true ∧ ((F.dels bs).env.gets ins).isSome ∧ ins.Nodup ∧ q ∉ ins
    · obtain ⟨h1, h2, h3, h4⟩ := hc
      obtain ⟨g1, g2⟩ := gets_aside h2
      have hc' : F.isNode z = true ∧ (F.env.gets ins).isSome ∧ ins.Nodup ∧ q ∉ ins := ⟨h1, g2, h3, h4⟩
      rw [if_pos ⟨h1, h2, h3, h4⟩, if_pos hc']
      by_cases hm : F.mutable z.1 = false
      · rw [if_pos hm]
        rw [if_pos (show (F.dels bs).mutable z.1 = false from hm)]
        exact ⟨dels_comm F bs ins, h.dels g1⟩
      · rw [if_neg hm]
        rw [if_neg (show ¬ (F.dels bs).mutable z.1 = false from hm)]
        have hstart : ∃ F0, F0 = (if a < b ∧ a < F.width z then F.cutAt z.1 z.2 a else F) ∧ Kept bs F F0 ∧
            F0.dels bs = (if a < b ∧ a < (F.dels bs).width z then (F.dels bs).cutAt z.1 z.2 a else F.dels bs) := by
          refine ⟨_, rfl, ?_⟩
          by_cases hab : a < b ∧ a < F.width z
          · rw [if_pos hab, if_pos (by rw [width_dels]; exact hab), EProg.cutAt_dels]
            exact ⟨h.cutAt (h.free hqb hq) (h.low _ (Env.get_mem hq)) _ _, rfl⟩
          · rw [if_neg hab, if_neg (by rw [width_dels]; exact hab)]
            exact ⟨h.refl, rfl⟩
        obtain ⟨F0, e0, k0, e1⟩ := hstart
        rw [← e0, ← e1, insertAll_dels hqb g1]
        obtain ⟨r1, r2⟩ := insertAll_aside hqb ins ins a F0 k0.aside g1
        rw [r1]
        cases hr : F0.insertAll q ins a ins with
        | ok G =>
          have := k0.trans (r2 G (.inl hr))
          exact ⟨dels_comm G bs ins, this.trans (this.aside.dels g1)⟩
        | panic G =>
          have := k0.trans (r2 G (.inr hr))
          exact ⟨dels_comm G bs ins, this.trans (this.aside.dels g1)⟩
        | broken => trivial
        | wild => trivial
        | diverge => trivial
        | misuse => trivial
    · rw [if_neg hc]; trivial

theorem aside_get {m : Nat} {x : Nat × List Nat} (h : (F.dels bs).env.get m = some x) : m ∉ bs ∧ F.env.get m = some x := by
  have hb : m ∉ bs := by
    intro hb
    rw [Forest.dels, Env.get_dels, if_pos hb] at h; cases h
  exact ⟨hb, by rwa [get_dels_of hb] at h⟩

/-- One step. -/
theorem on_aside (h : Aside bs F) (r : Req) :
    FramedStep bs F (fun o G => ∀ x, o = some x → G.Without bs x.1 ∧ x.1 < G.fresh) (r.on (F.dels bs)) (r.on F) := by
  have one : ∀ {m : Nat}, m ∉ bs → Kept bs F (F.dels [m]) := fun hm => h.dels (by simpa using hm)
  cases r with
  | plant m k ts =>
    simp only [Req.on]
    refine ⟨rfl, rfl, h.plant _ _, ?_⟩
    rintro x ⟨⟩
    exact ⟨(h.plant _ _).free h.free_fresh, Nat.lt_succ_self _⟩
  | clone m =>
    simp only [Req.on]
    cases hm : (F.dels bs).env.get m with
    | none => trivial
    | some x =>
      obtain ⟨hb, hx⟩ := aside_get hm
      rw [hx]
      refine ⟨rfl, rfl, h.refl, ?_⟩
      rintro y ⟨⟩
      exact ⟨h.free hb hx, h.low _ (Env.get_mem hx)⟩
  | drop m =>
    simp only [Req.on]
    cases hm : (F.dels bs).env.get m with
    | none => trivial
    | some x =>
      obtain ⟨hb, hx⟩ := aside_get hm
      rw [hx]
      exact ⟨rfl, dels_comm F bs [m], one hb, nofun⟩
  | forget m =>
    simp only [Req.on]
    cases hm : (F.dels bs).env.get m with
    | none => trivial
    | some x =>
      obtain ⟨hb, hx⟩ := aside_get hm
      rw [hx]
      exact ⟨rfl, congrArg (·.leak true) (dels_comm F bs [m]), (one hb).trans ((one hb).aside.leak true), nofun⟩
  | nav f m =>
    simp only [Req.on]
    cases hm : (F.dels bs).env.get m with
    | none => trivial
    | some x =>
      obtain ⟨hb, hx⟩ := aside_get hm
      rw [hx]
      simp only
      rw [isNode_dels]
      by_cases hc : f.onNodes = true ∧ F.isNode x = false
      · rw [if_pos hc]; trivial
      · rw [if_neg hc]
        rw [if_neg hc]
        refine ⟨rfl, rfl, h.refl, ?_⟩
        intro y hy
        obtain ⟨P, -, rfl⟩ := Option.map_eq_some_iff.mp hy
        have := h.free hb hx
        exact ⟨this, h.low _ (Env.get_mem hx)⟩
  | toNext nodes m =>
    simp only [Req.on]
    cases hm : (F.dels bs).env.get m with
    | none => trivial
    | some x =>
      obtain ⟨hb, hx⟩ := aside_get hm
      rw [hx]
      have hk := (one hb).trans ((one hb).aside.leak x.2.isEmpty)
      refine ⟨rfl, congrArg (·.leak x.2.isEmpty) (dels_comm F bs [m]), hk, ?_⟩
      intro y hy
      obtain ⟨P, -, rfl⟩ := Option.map_eq_some_iff.mp hy
      have := h.free hb hx
      exact ⟨hk.free this, h.low _ (Env.get_mem hx)⟩
  | cloneSubtree m =>
    simp only [Req.on]
    cases hm : (F.dels bs).env.get m with
    | none => trivial
    | some x =>
      obtain ⟨hb, hx⟩ := aside_get hm
      rw [hx]
      simp only
      rw [sub_dels]
      cases hs : F.sub x with
      | none => trivial
      | some t =>
        cases t with
        | token => trivial
        | node k ts =>
          refine ⟨rfl, rfl, h.plant _ _, ?_⟩
          rintro x ⟨⟩
          exact ⟨(h.plant _ _).free h.free_fresh, Nat.lt_succ_self _⟩
  | cloneForUpdate m =>
    simp only [Req.on]
    cases hm : (F.dels bs).env.get m with
    | none => trivial
    | some x =>
      obtain ⟨hb, hx⟩ := aside_get hm
      rw [hx]
      simp only
      rw [isNode_dels]
      by_cases hc : F.isNode x = false
      · rw [if_pos hc]; trivial
      · rw [if_neg hc, if_neg hc]
        by_cases hm : F.mutable x.1 = true
        · rw [if_pos (show (F.dels bs).mutable x.1 = true from hm), if_pos hm]
          exact ⟨rfl, h.refl⟩
        · rw [if_neg (show ¬ (F.dels bs).mutable x.1 = true from hm), if_neg hm]
          refine ⟨rfl, rfl, h.plant _ _, ?_⟩
          rintro x ⟨⟩
          exact ⟨(h.plant _ _).free h.free_fresh, Nat.lt_succ_self _⟩
  | detach m =>
    simp only [Req.on]
    cases hm : (F.dels bs).env.get m with
    | none => trivial
    | some x =>
      obtain ⟨hb, hx⟩ := aside_get hm
      rw [hx]
      simp only
      by_cases hm : F.mutable x.1 = true
      · rw [if_pos (show (F.dels bs).mutable x.1 = true from hm), if_pos hm]
        exact ⟨rfl, cut_dels F x bs, h.cut (h.free hb hx) (h.low _ (Env.get_mem hx)), nofun⟩
      · rw [if_neg (show ¬ (F.dels bs).mutable x.1 = true from hm), if_neg hm]
        exact ⟨rfl, h.refl⟩
  | splice q a b ins =>
    have := splice_aside h q a b ins
    simp only [Req.on]
    revert this
    cases (F.dels bs).splice q a b ins <;> cases F.splice q a b ins <;> intro this <;>
      first | exact this | exact ⟨rfl, this.1, this.2, nofun⟩
  | attach q i p =>
    have := splice_aside h q i i [p]
    simp only [Req.on]
    revert this
    cases (F.dels bs).splice q i i [p] <;> cases F.splice q i i [p] <;> intro this <;>
      first | exact this | exact ⟨rfl, this.1, this.2, nofun⟩

end Forest

namespace EProg
open Forest
variable {bs : List Nat}

/-- A program. -/
theorem run_aside {α : Type} : ∀ (p : EProg α) {F : Forest}, Aside bs F →
    FramedStep bs F (fun _ _ => True) (p.run (F.dels bs)) (p.run F)
  | ret a, F, h => ⟨rfl, rfl, h.refl, trivial⟩
  | panic, F, h => ⟨rfl, h.refl⟩
  | diverge, F, h => trivial
  | req r k, F, h => by
    have hs := on_aside h r
    simp only [run]
    have up : ∀ {G : Forest} {o o' : FOut (α × Forest)}, Forest.Kept bs F G → FramedStep bs G (fun _ _ => True) o o' →
        FramedStep bs F (fun _ _ => True) o o' := by
      intro G o o' hk ho
      cases o with
      | ok x =>
        cases o' with
        | ok y => exact ⟨ho.1, ho.2.1, hk.trans ho.2.2.1, trivial⟩
        | _ => exact ho
      | panic x =>
        cases o' with
        | panic y => exact ⟨ho.1, hk.trans ho.2⟩
        | _ => exact ho
      | _ => cases o' <;> exact ho
    cases h1 : r.on (F.dels bs) with
    | ok o1 =>
      cases h2 : r.on F with
      | ok o2 =>
        obtain ⟨x, G⟩ := o1
        obtain ⟨y, G'⟩ := o2
        rw [h1, h2] at hs
        obtain ⟨rfl, rfl, hk, hx⟩ := hs
        cases x with
        | none => exact up hk (run_aside (k (.done none)) hk.aside)
        | some x =>
          have ha := hk.aside.add (hx x rfl).1 (hx x rfl).2
          have e : (G'.dels bs).add x = (G'.add x).dels bs := by
            have hn : G'.env.next ∉ bs := fun hb => Nat.lt_irrefl _ (hk.aside.ids _ hb)
            simp [Forest.add, Forest.dels, Env.add, Env.dels, hn]
          simp only
          rw [e]
          exact up (hk.trans ha) (run_aside (k (.done (some F.env.next))) ha.aside)
      | _ => rw [h1, h2] at hs; exact hs.elim
    | panic o1 =>
      cases h2 : r.on F with
      | panic o2 =>
        rw [h1, h2] at hs
        obtain ⟨rfl, hk⟩ := hs
        exact up hk (run_aside (k .panicked) hk.aside)
      | _ => rw [h1, h2] at hs; exact hs.elim
    | broken =>
      cases h2 : r.on F with
      | broken => simp only; split <;> trivial
      | _ => rw [h1, h2] at hs; exact hs.elim
    | wild =>
      cases h2 : r.on F with
      | wild => trivial
      | _ => rw [h1, h2] at hs; exact hs.elim
    | diverge =>
      cases h2 : r.on F with
      | diverge => trivial
      | _ => rw [h1, h2] at hs; exact hs.elim
    | misuse => trivial
  | look m k, F, h => by
    simp only [run]
    cases hm : (F.dels bs).env.get m with
    | none => trivial
    | some x =>
      obtain ⟨hb, hx⟩ := aside_get hm
      rw [hx]
      simp only
      have e : (F.dels bs).sight x = F.sight x := rfl
      rw [e]
      cases F.sight x with
      | none => trivial
      | some o => exact run_aside (k o) h
  | same m m' k, F, h => by
    simp only [run]
    cases hm : (F.dels bs).env.get m with
    | none => trivial
    | some x =>
      cases hm' : (F.dels bs).env.get m' with
      | none => trivial
      | some x' =>
        rw [(aside_get hm).2, (aside_get hm').2]
        simp only
        have e : (F.dels bs).eq x x' = F.eq x x' := rfl
        rw [e]
        cases F.eq x x' with
        | none => trivial
        | some o => exact run_aside (k o) h
end EProg
end Rowan
