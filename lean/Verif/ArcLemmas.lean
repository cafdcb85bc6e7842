import Verif.Arc
/-!
# The invariant of the reference counting protocol

Unless their comments cite lines of `/repo`, the definitions in this file are vocabulary of the proofs and model no code.
-/
namespace Rowan
namespace ArcSt

/-- How many threads are on their way to `abort()`. -/
def aborting (T : Nat) (s : ArcSt) : Nat :=
  ((List.range T).filter fun t => s.phase t = .aborting).length

theorem aborting_le (T : Nat) (s : ArcSt) : s.aborting T ≤ T := by
  have := List.length_filter_le (fun t => decide (s.phase t = .aborting)) (List.range T)
  simpa [aborting] using this

theorem aborting_congr {T : Nat} {s s' : ArcSt}
    (h : ∀ t, s'.phase t = .aborting ↔ s.phase t = .aborting) : s'.aborting T = s.aborting T := by
  simp only [aborting]
  congr 1
  apply List.filter_congr
  intro t _
  rw [Bool.eq_iff_iff]
  simp [h t]

theorem count_set {T t : Nat} {p q : Nat → Bool} (ht : t < T) (hp : p t = false) (hq : q t = true)
    (h : ∀ u, u ≠ t → q u = p u) :
    ((List.range T).filter q).length = ((List.range T).filter p).length + 1 := by
  induction T with
  | zero => omega
  | succ T ih =>
    rw [List.range_succ, List.filter_append, List.filter_append, List.length_append,
      List.length_append]
    by_cases he : t = T
    · subst he
      have : (List.range t).filter q = (List.range t).filter p := by
        apply List.filter_congr
        intro u hu
        exact h u (by simp at hu; omega)
      rw [this]
      simp [hp, hq]
    · rw [ih (by omega)]
      have hT : q T = p T := h T (by omega)
      simp only [List.filter_cons, hT, List.filter_nil]
      omega

theorem aborting_set {T t : Nat} {s : ArcSt} (ht : t < T) (hp : s.phase t = .running) :
    (s.setPhase t .aborting).aborting T = s.aborting T + 1 := by
  apply count_set ht (by simp [hp]) (by simp [setPhase])
  intro u hu
  simp [setPhase, hu]

theorem ref?_some {s : ArcSt} {r : Nat} {x : ARef} (h : s.ref? r = some x) : x ∈ s.refs ∧ x.id = r := by
  refine ⟨List.mem_of_find?_eq_some h, ?_⟩
  have := List.find?_some h
  simpa using this

end ArcSt

open ArcSt in
/-- The invariant; `own r` is the index of the last message produced through reference `r` (or that
created it). -/
structure ArcInv (T : Nat) (s : ArcSt) (own : Nat → Nat) : Prop where
  ne : s.msgs ≠ []
  val : s.last.val = s.refs.length + s.aborting T
  few : s.refs.length ≤ 2 ^ 63
  ids : (s.refs.map ARef.id).Nodup
  fresh : ∀ x ∈ s.refs, x.id < s.nextRef
  idx : ∀ t, (s.views t).idx < s.msgs.length
  midx : ∀ m ∈ s.msgs, m.view.idx < s.msgs.length
  held : ∀ x ∈ s.refs, ∃ h ∈ x.holders, own x.id ≤ (s.views h).idx
  notOne : ∀ x ∈ s.refs, ∀ (i : Nat) m, own x.id ≤ i → i + 1 < s.msgs.length →
    s.msgs[i]? = some m → m.val ≠ 1
  covered : ∀ e, e < s.events.length → s.freed = 0 →
    s.last.view.acc e = true ∨ ∃ x ∈ s.refs, ∃ h ∈ x.holders, (s.views h).acc e = true
  writes : ∀ (e : Nat), s.events[e]? = some true → ∀ x ∈ s.refs, ∀ h ∈ x.holders,
    (s.views h).acc e = true
  abortLt : ∀ t, s.phase t = .aborting → t < T
  alive : s.refs ≠ [] ∨ 0 < s.aborting T →
    s.freed = 0 ∧ ∀ t, s.phase t ≠ .deleting ∧ s.phase t ≠ .loaded
  gone : s.refs = [] → s.aborting T = 0 →
    (s.freed = 1 ∧ ∀ t, s.phase t ≠ .deleting ∧ s.phase t ≠ .loaded) ∨
    (s.freed = 0 ∧ ∃ t, (∀ u, u ≠ t → s.phase u ≠ .deleting ∧ s.phase u ≠ .loaded) ∧
      ((s.phase t = .deleting ∧ (s.views t).idx + 1 = s.msgs.length) ∨
        (s.phase t = .loaded ∧ ∀ e, e < s.events.length → (s.views t).acc e = true)))
  ub : s.ub = false

namespace ArcInv
open ArcSt

theorem lastIdx {s : ArcSt} {i : Nat} {m : AMsg}
    (hm : s.msgs[i]? = some m) (hi : i + 1 = s.msgs.length) : m = s.last := by
  rw [ArcSt.last, List.getLastD_eq_getLast?, List.getLast?_eq_getElem?, ← hi]
  simp [hm]

/-- Views may grow (any synchronisation), and nothing else changes. -/
theorem mono {T : Nat} {s : ArcSt} {own : Nat → Nat} (h : ArcInv T s own) {t : Nat} {v : AView}
    (h1 : (s.views t).idx ≤ v.idx) (h2 : v.idx < s.msgs.length)
    (h3 : ∀ e, (s.views t).acc e = true → v.acc e = true) : ArcInv T (s.setView t v) own := by
  have g1 : ∀ u, (s.views u).idx ≤ ((s.setView t v).views u).idx := by
    intro u; simp only [setView]; split
    · next he => rw [he]; exact h1
    · exact Nat.le_refl _
  have g2 : ∀ u e, (s.views u).acc e = true → ((s.setView t v).views u).acc e = true := by
    intro u e he; simp only [setView]; split
    · next hu => rw [hu] at he; exact h3 e he
    · exact he
  have g3 : ∀ u, ((s.setView t v).views u).idx < s.msgs.length := by
    intro u; simp only [setView]; split
    · exact h2
    · exact h.idx u
  refine ⟨h.ne, h.val, h.few, h.ids, h.fresh, g3, h.midx, ?_, h.notOne, ?_, ?_, h.abortLt, h.alive,
    ?_, h.ub⟩
  · intro x hx
    obtain ⟨u, hu, hl⟩ := h.held x hx
    exact ⟨u, hu, Nat.le_trans hl (g1 u)⟩
  · intro e he hf
    rcases h.covered e he hf with hc | ⟨x, hx, u, hu, hc⟩
    · exact .inl hc
    · exact .inr ⟨x, hx, u, hu, g2 u e hc⟩
  · intro e he x hx u hu; exact g2 u e (h.writes e he x hx u hu)
  · intro hr ha
    rcases h.gone hr ha with hg | ⟨f0, u, hu, hcase⟩
    · exact .inl hg
    · refine .inr ⟨f0, u, hu, ?_⟩
      rcases hcase with ⟨p1, p2⟩ | ⟨p1, p2⟩
      · refine .inl ⟨p1, ?_⟩
        have a1 := g1 u
        have a2 := g3 u
        show ((s.setView t v).views u).idx + 1 = s.msgs.length
        omega
      · exact .inr ⟨p1, fun e he => g2 u e (p2 e he)⟩

theorem join {T : Nat} {s : ArcSt} {own : Nat → Nat} (h : ArcInv T s own) (t a : Nat) :
    ArcInv T (s.setView t ((s.views t).join (s.views a))) own := by
  apply h.mono
  · exact Nat.le_max_left _ _
  · have := h.idx t; have := h.idx a; simp only [AView.join]; omega
  · intro e he; simp [AView.join, he]

theorem acquire {T : Nat} {s : ArcSt} {own : Nat → Nat} (h : ArcInv T s own) {t i : Nat} {m : AMsg}
    (hm : s.msgs[i]? = some m) : ArcInv T (s.acquire t i m) own := by
  have hi := (List.getElem?_eq_some_iff.mp hm).1
  apply h.mono
  · simp only [AView.join]; omega
  · have := h.idx t; have := h.midx m (List.mem_of_getElem? hm)
    simp only [AView.join]; omega
  · intro e he; simp [AView.join, he]

/-- Holders may be added to or taken from a reference under conditions. -/
theorem holders {T : Nat} {s : ArcSt} {own : Nat → Nat} (h : ArcInv T s own) {r : Nat} {x : ARef}
    (hx : x ∈ s.refs) (hr : x.id = r) (f : List Nat → List Nat)
    (h1 : ∃ u ∈ f x.holders, own r ≤ (s.views u).idx)
    (h2 : ∀ e, (∃ u ∈ x.holders, (s.views u).acc e = true) → ∃ u ∈ f x.holders, (s.views u).acc e = true)
    (h3 : ∀ e, (∀ u ∈ x.holders, (s.views u).acc e = true) → ∀ u ∈ f x.holders, (s.views u).acc e = true) :
    ArcInv T (s.setHolders r f) own := by
  have huniq : ∀ y ∈ s.refs, y.id = r → y = x := by
    intro y hy hyr
    have := h.ids
    rw [List.nodup_iff_pairwise_ne, List.pairwise_map] at this
    by_cases he : y = x
    · exact he
    · exfalso
      obtain ⟨i, hi, rfl⟩ := List.getElem_of_mem hy
      obtain ⟨j, hj, rfl⟩ := List.getElem_of_mem hx
      rw [List.pairwise_iff_getElem] at this
      rcases Nat.lt_trichotomy i j with hlt | heq | hgt
      · exact this i j hi hj hlt (by rw [hyr, hr])
      · subst heq; exact he rfl
      · exact this j i hj hi hgt (by rw [hyr, hr])
  have hmem : ∀ y, y ∈ (s.setHolders r f).refs ↔
      (y ∈ s.refs ∧ y.id ≠ r) ∨ y = { x with holders := f x.holders } := by
    intro y
    simp only [setHolders, List.mem_map]
    constructor
    · rintro ⟨z, hz, rfl⟩
      by_cases hzr : z.id = r
      · rw [if_pos hzr, huniq z hz hzr]; exact .inr rfl
      · rw [if_neg hzr]; exact .inl ⟨hz, hzr⟩
    · rintro (⟨hy, hyr⟩ | rfl)
      · exact ⟨y, hy, by rw [if_neg hyr]⟩
      · exact ⟨x, hx, by rw [if_pos hr]⟩
  have hids : (s.setHolders r f).refs.map ARef.id = s.refs.map ARef.id := by
    simp only [setHolders, List.map_map]
    apply List.map_congr_left
    intro y _
    simp only [Function.comp]
    split <;> rfl
  have hlen : (s.setHolders r f).refs.length = s.refs.length := by simp [setHolders]
  have hnil : (s.setHolders r f).refs ≠ [] := by
    intro hn
    have := List.length_pos_of_mem hx
    rw [← hlen, hn] at this; simp at this
  refine ⟨h.ne, ?_, ?_, ?_, ?_, h.idx, h.midx, ?_, ?_, ?_, ?_, h.abortLt, ?_, ?_, h.ub⟩
  · rw [hlen]; exact h.val
  · rw [hlen]; exact h.few
  · rw [hids]; exact h.ids
  · intro y hy
    rcases (hmem y).mp hy with ⟨hy, -⟩ | rfl
    · exact h.fresh y hy
    · exact h.fresh x hx
  · intro y hy
    rcases (hmem y).mp hy with ⟨hy, -⟩ | rfl
    · exact h.held y hy
    · obtain ⟨u, hu, hl⟩ := h1
      exact ⟨u, hu, by rw [← hr] at hl; exact hl⟩
  · intro y hy
    rcases (hmem y).mp hy with ⟨hy, -⟩ | rfl
    · exact h.notOne y hy
    · exact h.notOne x hx
  · intro e he hf
    rcases h.covered e he hf with hc | ⟨y, hy, u, hu, hc⟩
    · exact .inl hc
    · right
      by_cases hyr : y.id = r
      · obtain rfl := huniq y hy hyr
        obtain ⟨u', hu', hc'⟩ := h2 e ⟨u, hu, hc⟩
        exact ⟨_, (hmem _).mpr (.inr rfl), u', hu', hc'⟩
      · exact ⟨y, (hmem _).mpr (.inl ⟨hy, hyr⟩), u, hu, hc⟩
  · intro e he y hy
    rcases (hmem y).mp hy with ⟨hy, -⟩ | rfl
    · exact h.writes e he y hy
    · exact h3 e (h.writes e he x hx)
  · intro _
    exact h.alive (.inl (List.ne_nil_of_mem hx))
  · intro hn; exact absurd hn hnil

theorem sole_of_one {T : Nat} {s : ArcSt} {own : Nat → Nat} (h : ArcInv T s own) {x : ARef}
    (hx : x ∈ s.refs) (hv : s.last.val = 1) : s.refs = [x] ∧ s.aborting T = 0 := by
  have := h.val
  have hp := List.length_pos_of_mem hx
  have hl : s.refs.length = 1 := by omega
  refine ⟨?_, by omega⟩
  match hr : s.refs with
  | [y] => rw [hr] at hx; simp at hx; rw [hx]
  | [] => rw [hr] at hl; simp at hl
  | _ :: _ :: _ => rw [hr] at hl; simp at hl

/-- An access by a holder that knows what it must know. -/
theorem access {T : Nat} {s : ArcSt} {own : Nat → Nat} (h : ArcInv T s own) {t : Nat} {x : ARef}
    (hx : x ∈ s.refs) (ht : t ∈ x.holders) {ex : Bool}
    (hk : s.knows t ex = true)
    (hex : ex = true → s.refs = [x] ∧ x.holders = [t]) : ArcInv T (s.access t ex) own := by
  obtain ⟨f0, hph⟩ := h.alive (.inl (List.ne_nil_of_mem hx))
  have g1 : ∀ u, ((s.access t ex).views u).idx = (s.views u).idx := by
    intro u; simp only [ArcSt.access]; split
    · next he => rw [he]
    · rfl
  have g2 : ∀ u e, (s.views u).acc e = true → ((s.access t ex).views u).acc e = true := by
    intro u e he; simp only [ArcSt.access]; split
    · next hu => rw [hu] at he; simp [he]
    · exact he
  have g3 : ((s.access t ex).views t).acc s.events.length = true := by simp [ArcSt.access]
  have hlen : (s.access t ex).events.length = s.events.length + 1 := by simp [ArcSt.access]
  refine ⟨h.ne, h.val, h.few, h.ids, h.fresh, ?_, h.midx, ?_, h.notOne, ?_, ?_, h.abortLt, h.alive,
    ?_, ?_⟩
  · intro u; rw [g1]; exact h.idx u
  · intro y hy
    obtain ⟨u, hu, hl⟩ := h.held y hy
    exact ⟨u, hu, by rw [g1]; exact hl⟩
  · intro e he hf
    by_cases hlt : e < s.events.length
    · rcases h.covered e hlt hf with hc | ⟨y, hy, u, hu, hc⟩
      · exact .inl hc
      · exact .inr ⟨y, hy, u, hu, g2 u e hc⟩
    · have : e = s.events.length := by omega
      subst this
      exact .inr ⟨x, hx, t, ht, g3⟩
  · intro e he y hy u hu
    by_cases hlt : e < s.events.length
    · have : s.events[e]? = some true := by
        have : (s.access t ex).events = s.events ++ [ex] := rfl
        rw [this, List.getElem?_append_left hlt] at he; exact he
      exact g2 u e (h.writes e this y hy u hu)
    · have hev : (s.access t ex).events = s.events ++ [ex] := rfl
      have hlt' := (List.getElem?_eq_some_iff.mp he).1
      have : e = s.events.length := by omega
      subst this
      rw [hev, List.getElem?_append_right (Nat.le_refl _)] at he
      simp at he
      obtain ⟨hs1, hs2⟩ := hex he
      have hy' : y ∈ s.refs := hy
      rw [hs1] at hy'; simp at hy'; subst hy'
      rw [hs2] at hu; simp at hu; subst hu
      exact g3
  · intro hr; exact absurd hr (List.ne_nil_of_mem hx)
  · show (s.ub || !(s.freed == 0) || !s.knows t ex) = false
    rw [h.ub, f0, hk]; rfl

theorem knows_iff {s : ArcSt} {t : Nat} {ex : Bool} :
    s.knows t ex = true ↔ ∀ (e : Nat) w, s.events[e]? = some w → ex = true ∨ w = true →
      (s.views t).acc e = true := by
  simp only [knows, List.all_eq_true]
  constructor
  · intro h e w he hw
    have := h (w, e) (by rw [List.mem_iff_getElem?]; exact ⟨e, by simp [he]⟩)
    rcases hw with rfl | rfl <;> simpa using this
  · rintro h ⟨w, e⟩ hm
    rw [List.mem_zipIdx_iff_getElem?] at hm
    have := h e w hm
    cases ex <;> cases w <;> simp_all

theorem two {s : ArcSt} {x y : ARef} (hx : x ∈ s.refs) (hy : y ∈ s.refs) (h : x.id ≠ y.id) :
    2 ≤ s.refs.length := by
  obtain ⟨i, hi, rfl⟩ := List.getElem_of_mem hx
  obtain ⟨j, hj, rfl⟩ := List.getElem_of_mem hy
  have : i ≠ j := by rintro rfl; exact h rfl
  omega

theorem last_append (s : ArcSt) (m : AMsg) (s' : ArcSt) (h : s'.msgs = s.msgs ++ [m]) :
    s'.last = m := by
  simp [ArcSt.last, h]

theorem notOne_push {T : Nat} {s s' : ArcSt} {own : Nat → Nat} (h : ArcInv T s own) {m : AMsg}
    (hm : s'.msgs = s.msgs ++ [m]) {x : ARef} (hx : x ∈ s.refs) (hv : s.last.val ≠ 1) {i : Nat}
    {m' : AMsg} (ho : own x.id ≤ i) (hi : i + 1 < s'.msgs.length) (hg : s'.msgs[i]? = some m') :
    m'.val ≠ 1 := by
  rw [hm] at hi hg
  simp only [List.length_append, List.length_singleton] at hi
  rw [List.getElem?_append_left (by omega)] at hg
  by_cases hl : i + 1 < s.msgs.length
  · exact h.notOne x hx i m' ho hl hg
  · rw [lastIdx hg (by omega)]; exact hv

theorem clone {T : Nat} {s : ArcSt} {own : Nat → Nat} (h : ArcInv T s own) (hT : T < 2 ^ 63)
    {t r : Nat} {x : ARef}
    (hx : x ∈ s.refs) (hr : x.id = r) (ht : t ∈ x.holders) (htT : t < T)
    (hp : s.phase t = .running) {s' : ArcSt}
    (hs : (if s.last.val > maxRefcount
      then some ((s.rmw t ((s.last.val + 1) % word) false).setPhase t .aborting)
      else some { s.rmw t ((s.last.val + 1) % word) false with
        refs := ⟨s.nextRef, [t]⟩ :: s.refs, nextRef := s.nextRef + 1 }) = some s') :
    ∃ own', ArcInv T s' own' := by
  have hmax : maxRefcount = 2 ^ 63 - 1 := rfl
  have hword : word = 2 ^ 64 := rfl
  obtain ⟨f0, hph⟩ := h.alive (.inl (List.ne_nil_of_mem hx))
  have hA := aborting_le T (s.setPhase t .aborting)
  rw [aborting_set htT hp] at hA
  have hval := h.val
  have hfew := h.few
  have hmod : (s.last.val + 1) % word = s.last.val + 1 := Nat.mod_eq_of_lt (by omega)
  rw [hmod] at hs
  let R := s.rmw t (s.last.val + 1) false
  have hmsgs : R.msgs = s.msgs ++ [⟨s.last.val + 1, { s.last.view with idx := s.msgs.length }⟩] := by
    simp [R, rmw, setView]
  have hvidx : ∀ u, (R.views u).idx = if u = t then s.msgs.length else (s.views u).idx := by
    intro u; simp only [R, rmw, setView]; split <;> rfl
  have hvacc : ∀ u, (R.views u).acc = (s.views u).acc := by
    intro u; simp only [R, rmw, setView]; split
    · next hu => rw [hu]
    · rfl
  have hmono : ∀ u, (s.views u).idx ≤ (R.views u).idx := by
    intro u; rw [hvidx]; split
    · next hu => rw [hu]; exact Nat.le_of_lt (h.idx t)
    · exact Nat.le_refl _
  have hidx : ∀ u, (R.views u).idx < R.msgs.length := by
    intro u; rw [hvidx, hmsgs]; have := h.idx u
    simp only [List.length_append, List.length_singleton]; split <;> omega
  have hmidx : ∀ m ∈ R.msgs, m.view.idx < R.msgs.length := by
    intro m hm; rw [hmsgs] at hm ⊢
    simp only [List.length_append, List.length_singleton]
    rcases List.mem_append.mp hm with hm | hm
    · have := h.midx m hm; omega
    · simp at hm; subst hm; exact Nat.lt_succ_self _
  have hne : R.msgs ≠ [] := by rw [hmsgs]; simp
  by_cases hbig : s.last.val > maxRefcount
  · rw [if_pos hbig] at hs
    obtain rfl := Option.some.inj hs
    have hlast := last_append s _ (R.setPhase t .aborting) hmsgs
    have hab : (R.setPhase t .aborting).aborting T = s.aborting T + 1 :=
      aborting_set (s := s) htT hp
    refine ⟨own, hne, ?_, h.few, h.ids, h.fresh, hidx, hmidx, ?_, ?_, ?_, ?_, ?_, ?_, ?_, h.ub⟩
    · show (R.setPhase t .aborting).last.val = s.refs.length + _
      rw [hlast, hab]
      show s.last.val + 1 = _
      omega
    · intro y hy
      obtain ⟨u, hu, hl⟩ := h.held y hy
      exact ⟨u, hu, Nat.le_trans hl (hmono u)⟩
    · intro y hy i m' ho hi hg
      exact h.notOne_push (s' := R) hmsgs hy (by omega) ho hi hg
    · intro e he _
      rcases h.covered e he f0 with hc | ⟨y, hy, u, hu, hc⟩
      · left; show (R.setPhase t .aborting).last.view.acc e = true
        rw [hlast]; exact hc
      · right; refine ⟨y, hy, u, hu, ?_⟩
        show (R.views u).acc e = true
        rw [hvacc]; exact hc
    · intro e he y hy u hu
      show (R.views u).acc e = true
      rw [hvacc]; exact h.writes e he y hy u hu
    · intro u hu
      simp only [setPhase] at hu
      by_cases hut : u = t
      · rw [hut]; exact htT
      · rw [if_neg hut] at hu; exact h.abortLt u hu
    · intro _
      refine ⟨f0, fun u => ?_⟩
      simp only [setPhase]
      split
      · simp
      · exact hph u
    · intro hn; exact absurd hn (List.ne_nil_of_mem hx)
  · rw [if_neg hbig] at hs
    obtain rfl := Option.some.inj hs
    let R' : ArcSt := { R with refs := ⟨s.nextRef, [t]⟩ :: s.refs, nextRef := s.nextRef + 1 }
    have hlast := last_append s _ R' hmsgs
    have hab : R'.aborting T = s.aborting T := rfl
    have hown : ∀ y ∈ s.refs, y.id ≠ s.nextRef := fun y hy => Nat.ne_of_lt (h.fresh y hy)
    refine ⟨fun k => if k = r ∨ k = s.nextRef then s.msgs.length else own k, hne, ?_, ?_, ?_, ?_,
      hidx, hmidx, ?_, ?_, ?_, ?_, h.abortLt, ?_, ?_, h.ub⟩
    · show R'.last.val = (⟨s.nextRef, [t]⟩ :: s.refs : List ARef).length + R'.aborting T
      rw [hlast, hab]
      show s.last.val + 1 = _
      simp only [List.length_cons]
      omega
    · show (⟨s.nextRef, [t]⟩ :: s.refs : List ARef).length ≤ _
      simp only [List.length_cons]
      omega
    · show ((⟨s.nextRef, [t]⟩ :: s.refs : List ARef).map ARef.id).Nodup
      rw [List.map_cons, List.nodup_cons]
      refine ⟨?_, h.ids⟩
      intro hm
      obtain ⟨y, hy, hye⟩ := List.mem_map.mp hm
      exact hown y hy hye
    · intro y hy
      show y.id < s.nextRef + 1
      rcases List.mem_cons.mp hy with rfl | hy
      · exact Nat.lt_succ_self _
      · have := h.fresh y hy; omega
    · intro y hy
      rcases List.mem_cons.mp hy with rfl | hy
      · refine ⟨t, by simp, ?_⟩
        show (if _ then _ else _) ≤ (R.views t).idx
        rw [if_pos (.inr rfl), hvidx, if_pos rfl]; exact Nat.le_refl _
      · by_cases hyr : y.id = r
        · have hyx : y = x := by
            by_cases he : y = x
            · exact he
            · exfalso
              have hn := h.ids
              rw [List.nodup_iff_pairwise_ne, List.pairwise_map] at hn
              obtain ⟨i, hi, rfl⟩ := List.getElem_of_mem hy
              obtain ⟨j, hj, rfl⟩ := List.getElem_of_mem hx
              rw [List.pairwise_iff_getElem] at hn
              rcases Nat.lt_trichotomy i j with hlt | heq | hgt
              · exact hn i j hi hj hlt (by rw [hyr, hr])
              · subst heq; exact he rfl
              · exact hn j i hj hi hgt (by rw [hyr, hr])
          refine ⟨t, by rw [hyx]; exact ht, ?_⟩
          show (if _ then _ else _) ≤ (R.views t).idx
          rw [if_pos (.inl hyr), hvidx, if_pos rfl]; exact Nat.le_refl _
        · obtain ⟨u, hu, hl⟩ := h.held y hy
          refine ⟨u, hu, ?_⟩
          show (if _ then _ else _) ≤ (R.views u).idx
          rw [if_neg (by rintro (h1 | h1); exact hyr h1; exact hown y hy h1)]
          exact Nat.le_trans hl (hmono u)
    · intro y hy i m' ho hi hg
      have hi' : i < s.msgs.length := by
        have hi2 : i + 1 < R.msgs.length := hi
        rw [hmsgs] at hi2
        simp only [List.length_append, List.length_singleton] at hi2
        omega
      split at ho
      · omega
      · next hne' =>
        rcases List.mem_cons.mp hy with rfl | hy
        · exact absurd (.inr rfl) hne'
        · have := two hx hy (by rw [hr]; intro he; exact hne' (.inl he.symm))
          exact h.notOne_push (s' := R) hmsgs hy (by omega) ho hi hg
    · intro e he _
      rcases h.covered e he f0 with hc | ⟨y, hy, u, hu, hc⟩
      · left; show R'.last.view.acc e = true
        rw [hlast]; exact hc
      · right; refine ⟨y, List.mem_cons_of_mem _ hy, u, hu, ?_⟩
        show (R.views u).acc e = true
        rw [hvacc]; exact hc
    · intro e he y hy u hu
      show (R.views u).acc e = true
      rw [hvacc]
      rcases List.mem_cons.mp hy with rfl | hy
      · simp at hu; rw [hu]; exact h.writes e he x hx t ht
      · exact h.writes e he y hy u hu
    · intro _
      exact ⟨f0, hph⟩
    · intro hn; exact absurd hn (by simp)

theorem drop {T : Nat} {s : ArcSt} {own : Nat → Nat} (h : ArcInv T s own) (hT : T < 2 ^ 63)
    {t r : Nat} {x : ARef}
    (hx : x ∈ s.refs) (hr : x.id = r) (ht : x.holders = [t])
    (hp : s.phase t = .running) {s' : ArcSt}
    (hs : (if s.last.val ≠ 1
      then some { s.rmw t ((s.last.val + word - 1) % word) true with
        refs := s.refs.filter fun x => x.id ≠ r }
      else some (ArcSt.setPhase { s.rmw t ((s.last.val + word - 1) % word) true with
        refs := s.refs.filter fun x => x.id ≠ r } t .deleting)) = some s') :
    ∃ own', ArcInv T s' own' := by
  have hword : word = 2 ^ 64 := rfl
  obtain ⟨f0, hph⟩ := h.alive (.inl (List.ne_nil_of_mem hx))
  have hA := aborting_le T s
  have hval := h.val
  have hfew := h.few
  have hpos := List.length_pos_of_mem hx
  have hmod : (s.last.val + word - 1) % word = s.last.val - 1 := by
    rw [show s.last.val + word - 1 = (s.last.val - 1) + word by omega, Nat.add_mod_right]
    exact Nat.mod_eq_of_lt (by omega)
  rw [hmod] at hs
  let tv : AView := { s.views t with idx := s.msgs.length }
  let R : ArcSt := { s.rmw t (s.last.val - 1) true with refs := s.refs.filter fun x => x.id ≠ r }
  have hmsgs : R.msgs = s.msgs ++ [⟨s.last.val - 1, s.last.view.join tv⟩] := by
    simp [R, rmw, setView, tv]
  have hvidx : ∀ u, (R.views u).idx = if u = t then s.msgs.length else (s.views u).idx := by
    intro u; simp only [R, rmw, setView]; split <;> rfl
  have hvacc : ∀ u, (R.views u).acc = (s.views u).acc := by
    intro u; simp only [R, rmw, setView]; split
    · next hu => rw [hu]
    · rfl
  have hmono : ∀ u, (s.views u).idx ≤ (R.views u).idx := by
    intro u; rw [hvidx]; split
    · next hu => rw [hu]; exact Nat.le_of_lt (h.idx t)
    · exact Nat.le_refl _
  have hidx : ∀ u, (R.views u).idx < R.msgs.length := by
    intro u; rw [hvidx, hmsgs]; have := h.idx u
    simp only [List.length_append, List.length_singleton]; split <;> omega
  have hlastidx : s.last.view.idx < s.msgs.length := by
    apply h.midx
    rw [ArcSt.last, List.getLastD_eq_getLast?, List.getLast?_eq_some_getLast h.ne]
    exact List.getLast_mem h.ne
  have hmidx : ∀ m ∈ R.msgs, m.view.idx < R.msgs.length := by
    intro m hm; rw [hmsgs] at hm ⊢
    simp only [List.length_append, List.length_singleton]
    rcases List.mem_append.mp hm with hm | hm
    · have := h.midx m hm; omega
    · simp at hm; subst hm
      show max s.last.view.idx s.msgs.length < _
      omega
  have hne : R.msgs ≠ [] := by rw [hmsgs]; simp
  have hlast : R.last = _ := last_append s _ R hmsgs
  have huniq : ∀ y ∈ s.refs, y.id = r → y = x := by
    intro y hy hyr
    by_cases he : y = x
    · exact he
    · exfalso
      have hn := h.ids
      rw [List.nodup_iff_pairwise_ne, List.pairwise_map] at hn
      obtain ⟨i, hi, rfl⟩ := List.getElem_of_mem hy
      obtain ⟨j, hj, rfl⟩ := List.getElem_of_mem hx
      rw [List.pairwise_iff_getElem] at hn
      rcases Nat.lt_trichotomy i j with hlt | heq | hgt
      · exact hn i j hi hj hlt (by rw [hyr, hr])
      · subst heq; exact he rfl
      · exact hn j i hj hi hgt (by rw [hyr, hr])
  have hmem : ∀ y, y ∈ R.refs ↔ y ∈ s.refs ∧ y.id ≠ r := by
    intro y
    show y ∈ s.refs.filter _ ↔ _
    simp [List.mem_filter]
  have hlen : R.refs.length + 1 = s.refs.length := by
    obtain ⟨l₁, l₂, hl⟩ := List.append_of_mem hx
    have hn := h.ids
    rw [hl, List.map_append, List.map_cons] at hn
    have h1 : ∀ y ∈ l₁ ++ l₂, y.id ≠ r := by
      intro y hy he
      rw [← hr] at he
      rw [List.nodup_append] at hn
      rcases List.mem_append.mp hy with hy | hy
      · exact hn.2.2 y.id (List.mem_map_of_mem hy) x.id (by simp) he
      · have := (List.nodup_cons.mp hn.2.1).1
        exact this (by rw [← he]; exact List.mem_map_of_mem hy)
    have h2 : R.refs = l₁ ++ l₂ := by
      show s.refs.filter _ = _
      rw [hl, List.filter_append, List.filter_cons]
      rw [if_neg (by simp [hr])]
      rw [← List.filter_append, List.filter_eq_self]
      intro y hy; simpa using h1 y hy
    rw [h2, hl]; simp; omega
  have hcov : ∀ e, e < s.events.length → s.freed = 0 → R.last.view.acc e = true ∨
      ∃ y ∈ R.refs, ∃ u ∈ y.holders, (R.views u).acc e = true := by
    intro e he _
    rcases h.covered e he f0 with hc | ⟨y, hy, u, hu, hc⟩
    · left; rw [hlast]; simp [AView.join, hc]
    · by_cases hyr : y.id = r
      · obtain rfl := huniq y hy hyr
        rw [ht] at hu; simp at hu; subst hu
        left; rw [hlast]
        show (s.last.view.acc e || (s.views u).acc e) = true
        rw [hc]; simp
      · right; exact ⟨y, (hmem y).mpr ⟨hy, hyr⟩, u, hu, by rw [hvacc]; exact hc⟩
  by_cases hone : s.last.val ≠ 1
  · rw [if_pos hone] at hs
    obtain rfl := Option.some.inj hs
    refine ⟨own, hne, ?_, ?_, ?_, ?_, hidx, hmidx, ?_, ?_, hcov, ?_, h.abortLt, ?_, ?_, h.ub⟩
    · show R.last.val = R.refs.length + s.aborting T
      rw [hlast]
      show s.last.val - 1 = _
      omega
    · show R.refs.length ≤ _
      omega
    · exact h.ids.sublist (List.Sublist.map _ List.filter_sublist)
    · intro y hy; exact h.fresh y ((hmem y).mp hy).1
    · intro y hy
      obtain ⟨u, hu, hl⟩ := h.held y ((hmem y).mp hy).1
      exact ⟨u, hu, Nat.le_trans hl (hmono u)⟩
    · intro y hy i m' ho hi hg
      exact h.notOne_push (s' := R) hmsgs ((hmem y).mp hy).1 hone ho hi hg
    · intro e he y hy u hu
      show (R.views u).acc e = true
      rw [hvacc]; exact h.writes e he y ((hmem y).mp hy).1 u hu
    · intro _; exact ⟨f0, hph⟩
    · intro hn ha
      exfalso
      have hn' : R.refs = [] := hn
      have ha' : s.aborting T = 0 := ha
      rw [hn'] at hlen
      simp at hlen
      omega
  · rw [if_neg hone] at hs
    obtain rfl := Option.some.inj hs
    have hA0 : s.aborting T = 0 := by omega
    have hr0 : R.refs = [] := List.eq_nil_of_length_eq_zero (by omega)
    have hab : (R.setPhase t .deleting).aborting T = s.aborting T := by
      apply aborting_congr
      intro u
      simp only [setPhase]
      by_cases hu : u = t
      · rw [if_pos hu, hu, hp]; simp
      · rw [if_neg hu]; exact Iff.rfl
    refine ⟨own, hne, ?_, ?_, ?_, ?_, hidx, hmidx, ?_, ?_, hcov, ?_, ?_, ?_, ?_, h.ub⟩
    · show R.last.val = R.refs.length + _
      rw [hlast, hab]
      show s.last.val - 1 = _
      omega
    · show R.refs.length ≤ _
      omega
    · show (R.refs.map ARef.id).Nodup
      rw [hr0]; exact List.nodup_nil
    · intro y hy; exact h.fresh y ((hmem y).mp hy).1
    · intro y (hy : y ∈ R.refs); rw [hr0] at hy; simp at hy
    · intro y (hy : y ∈ R.refs); rw [hr0] at hy; simp at hy
    · intro e he y (hy : y ∈ R.refs); rw [hr0] at hy; simp at hy
    · intro u hu
      simp only [setPhase] at hu
      by_cases hut : u = t
      · rw [if_pos hut] at hu; simp at hu
      · rw [if_neg hut] at hu; exact h.abortLt u hu
    · intro hcase
      exfalso
      rcases hcase with hc | hc
      · exact hc hr0
      · rw [show ArcSt.aborting T _ = s.aborting T from hab] at hc; omega
    · intro _ _
      refine .inr ⟨f0, t, ?_, .inl ⟨?_, ?_⟩⟩
      · intro u hu
        simp only [setPhase]
        rw [if_neg hu]; exact hph u
      · simp [setPhase]
      · show (R.views t).idx + 1 = R.msgs.length
        rw [hvidx, if_pos rfl, hmsgs]; simp

theorem step {T : Nat} {s s' : ArcSt} {own : Nat → Nat} (h : ArcInv T s own) (hT : T < 2 ^ 63)
    {op : AOp} (hs : s.step T op = some s') : ∃ own', ArcInv T s' own' := by
  unfold ArcSt.step at hs
  split at hs
  · simp at hs
  · split at hs <;> try simp only [Option.bind_eq_bind, Option.bind_eq_some_iff, guard,
      Option.pure_def] at hs
    · -- use
      obtain ⟨x, hx, _, hg, hs⟩ := hs
      split at hg <;> simp at hg
      next hc =>
      obtain ⟨hxm, hxr⟩ := ref?_some hx
      obtain rfl := Option.some.inj hs
      refine ⟨own, h.access hxm hc.1 ?_ (by simp)⟩
      rw [knows_iff]
      intro e w he hw
      simp at hw; subst hw
      exact h.writes e he x hxm _ hc.1
    · -- getMut
      next t r i =>
      obtain ⟨x, hx, _, hg, m, hm, hs⟩ := hs
      split at hg <;> simp at hg
      next hc =>
      obtain ⟨hxm, hxr⟩ := ref?_some hx
      obtain ⟨hh, htT, hp, hi⟩ := hc
      have hacq := h.acquire (t := t) hm
      split at hs
      · next hv =>
        obtain rfl := Option.some.inj hs
        obtain ⟨u, hu, hl⟩ := h.held x hxm
        rw [hh] at hu; simp at hu; subst hu
        have hlt := (List.getElem?_eq_some_iff.mp hm).1
        have hlast : i + 1 = s.msgs.length := by
          by_cases hl2 : i + 1 < s.msgs.length
          · exact absurd hv (h.notOne x hxm i m (by omega) hl2 hm)
          · omega
        have hml := lastIdx hm hlast
        obtain ⟨hr1, hA0⟩ := h.sole_of_one hxm (by rw [← hml]; exact hv)
        refine ⟨own, hacq.access hxm (by rw [hh]; simp) ?_ (fun _ => ⟨hr1, hh⟩)⟩
        rw [knows_iff]
        intro e w he _
        have he' := (List.getElem?_eq_some_iff.mp he).1
        have hv' : ((s.acquire u i m).views u).acc e = ((s.views u).acc e || m.view.acc e) := by
          simp [ArcSt.acquire, setView, AView.join]
        rw [hv']
        rcases h.covered e he' (h.alive (.inl (List.ne_nil_of_mem hxm))).1 with hc | ⟨y, hy, w, hw, hc⟩
        · rw [hml, hc]; simp
        · rw [hr1] at hy; simp at hy; subst hy
          rw [hh] at hw; simp at hw; subst hw
          rw [hc]; simp
      · obtain rfl := Option.some.inj hs
        exact ⟨own, hacq⟩
    · -- lend
      next a t r =>
      obtain ⟨x, hx, _, hg, hs⟩ := hs
      split at hg <;> simp at hg
      next hc =>
      obtain ⟨hxm, hxr⟩ := ref?_some hx
      obtain rfl := Option.some.inj hs
      have hj := h.join t a
      refine ⟨own, hj.holders hxm hxr _ ?_ ?_ ?_⟩
      · obtain ⟨u, hu, hl⟩ := hj.held x hxm
        rw [hxr] at hl
        exact ⟨u, List.mem_cons_of_mem _ hu, hl⟩
      · rintro e ⟨u, hu, he⟩; exact ⟨u, List.mem_cons_of_mem _ hu, he⟩
      · intro e hall u hu
        rcases List.mem_cons.mp hu with rfl | hu
        · have := hall a hc.1
          simp only [setView] at this ⊢
          rw [if_pos trivial]
          split at this
          · exact this
          · simp [AView.join, this]
        · exact hall u hu
    · -- giveBack
      next t a r =>
      obtain ⟨x, hx, _, hg, hs⟩ := hs
      split at hg <;> simp at hg
      next hc =>
      obtain ⟨hxm, hxr⟩ := ref?_some hx
      obtain rfl := Option.some.inj hs
      obtain ⟨ht, ha, hta, -⟩ := hc
      have hj := h.join a t
      have hmem : ∀ u, u ∈ x.holders.filter (fun z => decide (z ≠ t)) ↔ u ∈ x.holders ∧ u ≠ t := by
        intro u; simp [List.mem_filter]
      refine ⟨own, hj.holders hxm hxr _ ?_ ?_ ?_⟩
      · obtain ⟨u, hu, hl⟩ := h.held x hxm
        rw [hxr] at hl
        by_cases hut : u = t
        · refine ⟨a, (hmem a).mpr ⟨ha, Ne.symm hta⟩, ?_⟩
          simp only [setView, if_pos, AView.join]
          rw [hut] at hl; omega
        · refine ⟨u, (hmem u).mpr ⟨hu, hut⟩, ?_⟩
          simp only [setView]; split
          · next hua => rw [hua] at hl; simp only [AView.join]; omega
          · exact hl
      · rintro e ⟨u, hu, he⟩
        by_cases hut : u = t
        · refine ⟨a, (hmem a).mpr ⟨ha, Ne.symm hta⟩, ?_⟩
          simp only [setView] at he ⊢
          rw [if_pos trivial]
          rw [hut, if_neg hta] at he
          simp [AView.join, he]
        · exact ⟨u, (hmem u).mpr ⟨hu, hut⟩, he⟩
      · intro e hall u hu
        exact hall u ((hmem u).mp hu).1
    · -- sync
      obtain rfl := Option.some.inj hs
      exact ⟨own, h.join _ _⟩
    · -- clone
      obtain ⟨x, hx, _, hg, hs⟩ := hs
      split at hg <;> simp at hg
      next hc =>
      obtain ⟨hxm, hxr⟩ := ref?_some hx
      exact h.clone hT hxm hxr hc.1 hc.2.1 hc.2.2 hs
    · -- drop
      obtain ⟨x, hx, _, hg, hs⟩ := hs
      split at hg <;> simp at hg
      next hc =>
      obtain ⟨hxm, hxr⟩ := ref?_some hx
      exact h.drop hT hxm hxr hc.1 hc.2.2 hs
    · -- load
      next t i =>
      obtain ⟨_, hg, m, hm, hs⟩ := hs
      split at hg <;> simp at hg
      next hc =>
      obtain rfl := Option.some.inj hs
      obtain ⟨hp, hi⟩ := hc
      have hacq := h.acquire (t := t) hm
      have hlt := (List.getElem?_eq_some_iff.mp hm).1
      have hnr : s.refs = [] ∧ s.aborting T = 0 := by
        by_cases hr : s.refs ≠ [] ∨ 0 < s.aborting T
        · exact absurd hp ((h.alive hr).2 t).1
        · simp only [not_or] at hr
          exact ⟨Classical.not_not.mp hr.1, by omega⟩
      have hab : ((s.acquire t i m).setPhase t .loaded).aborting T = s.aborting T := by
        apply aborting_congr
        intro u
        simp only [setPhase]
        by_cases hu : u = t
        · rw [if_pos hu, hu, hp]; simp
        · rw [if_neg hu]; exact Iff.rfl
      refine ⟨own, hacq.ne, ?_, hacq.few, hacq.ids, hacq.fresh, hacq.idx, hacq.midx, hacq.held,
        hacq.notOne, hacq.covered, hacq.writes, ?_, ?_, ?_, hacq.ub⟩
      · rw [hab]; exact h.val
      · intro u hu
        simp only [setPhase] at hu
        by_cases hut : u = t
        · rw [if_pos hut] at hu; simp at hu
        · rw [if_neg hut] at hu; exact h.abortLt u hu
      · intro hcase
        exfalso
        rcases hcase with hc | hc
        · exact hc hnr.1
        · rw [hab] at hc; omega
      · intro _ _
        rcases h.gone hnr.1 hnr.2 with ⟨-, hg⟩ | ⟨f0, u, hu, hcase⟩
        · exact absurd hp (hg t).1
        · have hut : t = u := by
            by_cases he : t = u
            · exact he
            · exact absurd hp (hu t he).1
          subst hut
          refine .inr ⟨f0, t, ?_, .inr ⟨by simp [setPhase], ?_⟩⟩
          · intro w hw
            simp only [setPhase]
            rw [if_neg hw]; exact hu w hw
          · intro e he
            rcases hcase with ⟨-, hidx⟩ | ⟨hl, -⟩
            · have hml := lastIdx hm (by omega)
              have hv' : ((s.acquire t i m).views t).acc e = ((s.views t).acc e || m.view.acc e) := by
                simp [ArcSt.acquire, setView, AView.join]
              show ((s.acquire t i m).views t).acc e = true
              rw [hv']
              rcases h.covered e he f0 with hc | ⟨y, hy, _⟩
              · rw [hml, hc]; simp
              · rw [hnr.1] at hy; simp at hy
            · rw [hp] at hl; simp at hl
    · -- free
      next t =>
      obtain ⟨_, hg, hs⟩ := hs
      split at hg <;> simp at hg
      next hp =>
      obtain rfl := Option.some.inj hs
      have hnr : s.refs = [] ∧ s.aborting T = 0 := by
        by_cases hr : s.refs ≠ [] ∨ 0 < s.aborting T
        · exact absurd hp ((h.alive hr).2 t).2
        · simp only [not_or] at hr
          exact ⟨Classical.not_not.mp hr.1, by omega⟩
      let S : ArcSt := { (s.access t true).setPhase t .running with freed := s.freed + 1 }
      have hab : S.aborting T = s.aborting T := by
        apply aborting_congr
        intro u
        simp only [S, setPhase]
        by_cases hu : u = t
        · rw [if_pos hu, hu, hp]; simp
        · rw [if_neg hu]; exact Iff.rfl
      have hno : ∀ y, y ∉ S.refs := by
        intro y hy
        have : y ∈ s.refs := hy
        rw [hnr.1] at this; simp at this
      rcases h.gone hnr.1 hnr.2 with ⟨-, hg⟩ | ⟨f0, u, hu, hcase⟩
      · exact absurd hp (hg t).2
      · have hut : t = u := by
          by_cases he : t = u
          · exact he
          · exact absurd hp (hu t he).2
        subst hut
        have hk : ∀ e, e < s.events.length → (s.views t).acc e = true := by
          rcases hcase with ⟨hd, -⟩ | ⟨-, hk⟩
          · rw [hp] at hd; simp at hd
          · exact hk
        have hidx : ∀ w, (S.views w).idx = (s.views w).idx := by
          intro w; simp only [S, setPhase, ArcSt.access]; split
          · next he => rw [he]
          · rfl
        have hfr : S.freed = 1 := by show s.freed + 1 = 1; omega
        refine ⟨own, h.ne, ?_, h.few, h.ids, h.fresh, ?_, h.midx, fun y hy => absurd hy (hno y),
          fun y hy => absurd hy (hno y), ?_, fun _ _ y hy => absurd hy (hno y), ?_, ?_, ?_, ?_⟩
        · show s.last.val = s.refs.length + S.aborting T
          rw [hab]; exact h.val
        · intro w
          show (S.views w).idx < _
          rw [hidx]; exact h.idx w
        · intro e _ hf
          exact absurd (show S.freed = 0 from hf) (by omega)
        · intro w hw
          by_cases hwt : w = t
          · simp [setPhase, hwt] at hw
          · simp only [setPhase, if_neg hwt] at hw; exact h.abortLt w hw
        · intro hc
          exfalso
          rcases hc with hc | hc
          · exact hc hnr.1
          · have : 0 < S.aborting T := hc
            omega
        · intro _ _
          refine .inl ⟨hfr, fun w => ?_⟩
          by_cases hwt : w = t
          · simp [setPhase, hwt]
          · simp only [setPhase, if_neg hwt]; exact hu w hwt
        · show (s.ub || !(s.freed == 0) || !s.knows t true) = false
          rw [h.ub, f0, knows_iff.mpr]
          · rfl
          · intro e w he _
            exact hk e (List.getElem?_eq_some_iff.mp he).1
    · -- abort
      obtain ⟨_, hg, hs⟩ := hs
      obtain rfl := Option.some.inj hs
      exact ⟨own, h.ne, h.val, h.few, h.ids, h.fresh, h.idx, h.midx, h.held, h.notOne, h.covered,
        h.writes, h.abortLt, h.alive, h.gone, h.ub⟩

end ArcInv
end Rowan
