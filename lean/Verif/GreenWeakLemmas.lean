import Verif.Spec.GreenWeak
import Verif.Props.GreenMem
/-!
# Invariants of green memory under the C11 memory model

Unless their comments cite lines of `/repo`, the definitions in this file are vocabulary of the proofs and model no code.
-/
namespace Rowan
namespace GWeak
open GMem (Below Inv)

/-- Whoever brings the counter of `o` to 0 will know of event `e`: it is in the latest message of the counter, or known to
somebody who has yet to drop a reference to `o`, directly or with something above `o`. -/
inductive Carried (w : GWeak) (e : Nat) : Nat → Prop
  | msg {o} : (w.last o).acc e = true → Carried w e o
  | ref {x u} : x ∈ w.mem.refs → u ∈ x.holders → (w.views u).acc e = true → Carried w e x.obj
  | rest {f k} : f ∈ w.mem.stack → k ∈ f.rest → (w.views f.thread).acc e = true → Carried w e k
  | late {f k} : f ∈ w.mem.stack → k ∈ f.rest → w.unloaded f.obj = true → (w.last f.obj).acc e = true → Carried w e k
  | kid {o x k} : w.mem.objs[o]? = some x → 0 < x.count → k ∈ x.kids → Carried w e o → Carried w e k

/-- Where the events are, and whether they are exclusive. -/
def evs (w : GWeak) : List (Nat × Bool) := w.events.map fun a => (a.obj, a.exclusive)

/-- The invariant. -/
structure WInv (w : GWeak) : Prop where
  mem : Inv w.mem []
  race : ¬ w.Race
  carried : ∀ {e o : Nat} {ex : Bool} {x : GObj}, w.evs[e]? = some (o, ex) → w.mem.objs[o]? = some x → 0 < x.count → w.Carried e o
  frame : ∀ {f : GFrame} {e : Nat} {ex : Bool}, f ∈ w.mem.stack → w.evs[e]? = some (f.obj, ex) →
    if w.unloaded f.obj then (w.last f.obj).acc e = true else (w.views f.thread).acc e = true
  held : ∀ {x : GRef} {u e o : Nat}, x ∈ w.mem.refs → u ∈ x.holders → w.mem.Below x.obj o → w.evs[e]? = some (o, true) →
    (w.views u).acc e = true
  rest : ∀ {f : GFrame} {k e o : Nat}, f ∈ w.mem.stack → k ∈ f.rest → w.mem.Below k o → w.evs[e]? = some (o, true) →
    (w.views f.thread).acc e = true
  newest : ∀ {f : GFrame}, f ∈ w.mem.stack → w.unloaded f.obj = true →
    (w.views f.thread).idx f.obj + 1 = (w.msgs f.obj).length
  idx : ∀ t o, (w.views t).idx o ≤ (w.msgs o).length - 1
  midx : ∀ o m p, m ∈ w.msgs o → m.idx p ≤ (w.msgs p).length - 1
  blank : ∀ o, w.mem.objs.length ≤ o → w.msgs o = []
  dom : ∀ {e o : Nat} {ex : Bool}, w.evs[e]? = some (o, ex) → o < w.mem.objs.length

variable {w : GWeak} {t o : Nat}

theorem WInv.init : WInv {} := by
  constructor <;> first | exact Inv.init | simp [evs, Race]

/-! ### Views grow -/

theorem Carried.mono {w' : GWeak} (hm : w'.mem = w.mem) (hu : w'.unloaded = w.unloaded)
    (hv : ∀ u e, (w.views u).acc e = true → (w'.views u).acc e = true)
    (hl : ∀ o e, (w.last o).acc e = true → (w'.last o).acc e = true) {e p : Nat} (h : w.Carried e p) : w'.Carried e p := by
  induction h with
  | msg h => exact .msg (hl _ _ h)
  | ref h1 h2 h3 => exact .ref (hm ▸ h1) h2 (hv _ _ h3)
  | rest h1 h2 h3 => exact .rest (hm ▸ h1) h2 (hv _ _ h3)
  | late h1 h2 h3 h4 => exact .late (hm ▸ h1) h2 (hu ▸ h3) (hl _ _ h4)
  | kid h1 h2 h3 _ ih => exact .kid (hm ▸ h1) h2 h3 ih

/-- Only views and messages change. -/
theorem WInv.grow {w' : GWeak} (h : WInv w) (hm : w'.mem = w.mem) (hu : w'.unloaded = w.unloaded) (he : w'.events = w.events)
    (hv : ∀ u e, (w.views u).acc e = true → (w'.views u).acc e = true)
    (hl : ∀ o e, (w.last o).acc e = true → (w'.last o).acc e = true)
    (hn : ∀ {f : GFrame}, f ∈ w.mem.stack → w.unloaded f.obj = true → (w'.views f.thread).idx f.obj + 1 = (w'.msgs f.obj).length)
    (hi : ∀ t o, (w'.views t).idx o ≤ (w'.msgs o).length - 1)
    (hmi : ∀ o m p, m ∈ w'.msgs o → m.idx p ≤ (w'.msgs p).length - 1)
    (hb : ∀ o, w.mem.objs.length ≤ o → w'.msgs o = []) : WInv w' := by
  have he' : w'.evs = w.evs := by rw [evs, evs, he]
  refine ⟨hm ▸ h.mem, by rw [Race]; simp only [Before, he]; exact h.race, ?_, ?_, ?_, ?_, ?_, hi, hmi, hm ▸ hb, ?_⟩
  · rw [he', hm]; intro e o ex x h1 h2 h3; exact (h.carried h1 h2 h3).mono hm hu hv hl
  · rw [he', hm, hu]; intro f e ex h1 h2
    have := h.frame h1 h2
    split
    · rename_i hu; rw [if_pos hu] at this; exact hl _ _ this
    · rename_i hu; rw [if_neg hu] at this; exact hv _ _ this
  · rw [he', hm]; intro x u e o h1 h2 h3 h4; exact hv _ _ (h.held h1 h2 h3 h4)
  · rw [he', hm]; intro f k e o h1 h2 h3 h4; exact hv _ _ (h.rest h1 h2 h3 h4)
  · rw [hm, hu]; exact hn
  · rw [he', hm]; exact h.dom

/-- Synchronisation. -/
theorem WInv.join (h : WInv w) (t : Nat) {v : GView} (hv : ∀ o, v.idx o ≤ (w.msgs o).length - 1) :
    WInv (w.setView t ((w.views t).join v)) := by
  refine h.grow rfl rfl rfl ?_ (fun _ _ h => h) ?_ ?_ h.midx h.blank
  · intro u e hu
    simp only [setView]
    split
    · rename_i e'; subst e'; simp [GView.join, hu]
    · exact hu
  · intro f hf hu
    have h1 := h.newest hf hu
    simp only [setView]
    split
    · rename_i e'; rw [e'] at h1
      have := hv f.obj
      simp only [GView.join]; omega
    · exact h1
  · intro u o
    have h1 := h.idx u o
    have := hv o
    have := h.idx t o
    simp only [setView]
    split
    · simp only [GView.join]; omega
    · exact h1

/-! ### Accesses -/

theorem getElem?_snoc {α : Type} {l : List α} {a b : α} {i : Nat} (h : (l ++ [a])[i]? = some b) :
    l[i]? = some b ∨ (i = l.length ∧ b = a) := by
  rcases Nat.lt_or_ge i l.length with hi | hi
  · rw [List.getElem?_append_left hi] at h; exact .inl h
  · rw [List.getElem?_append_right hi] at h
    obtain ⟨h1, h2⟩ := List.getElem?_eq_some_iff.mp h
    simp only [List.length_singleton] at h1
    have : i = l.length := by omega
    subst this
    simp at h2
    exact .inr ⟨rfl, h2.symm⟩

/-- All that conflicts with an access of `t` to `o` happens before it. -/
def Ordered (w : GWeak) (t o : Nat) (ex : Bool) : Prop :=
  ∀ (e : Nat) (b : Bool), w.evs[e]? = some (o, b) → (ex = true ∨ b = true) → (w.views t).acc e = true

theorem access_evs {ex : Bool} : (w.access t o ex).evs = w.evs ++ [(o, ex)] := by simp [evs, GWeak.access]

theorem evs_length : w.evs.length = w.events.length := by simp [evs]

theorem snoc_access {ex b : Bool} {e p : Nat} (h : (w.access t o ex).evs[e]? = some (p, b)) :
    w.evs[e]? = some (p, b) ∨ (e = w.events.length ∧ (p, b) = (o, ex)) := by
  rw [access_evs] at h
  rw [← evs_length]
  exact getElem?_snoc h

theorem race_access {ex : Bool} (h : ¬ w.Race) (ho : w.Ordered t o ex) : ¬ (w.access t o ex).Race := by
  rintro ⟨e, e', a, b, h1, h2, h3, h4, h5, h6⟩
  simp only [GWeak.access] at h2 h3
  rcases getElem?_snoc h3 with h3' | ⟨rfl, rfl⟩
  · have := (List.getElem?_eq_some_iff.mp h3').1
    rw [List.getElem?_append_left (by omega)] at h2
    refine h ⟨e, e', a, b, h1, h2, h3', h4, h5, ?_⟩
    rintro ⟨b', hb, hbb⟩
    rw [h3'] at hb; cases hb
    exact h6 ⟨b, h3, hbb⟩
  · rw [List.getElem?_append_left h1] at h2
    refine h6 ⟨_, h3, ho e a.exclusive ?_ h5.symm⟩
    rw [evs, List.getElem?_map, h2]
    simp only at h4
    rw [← h4]; rfl

theorem access_acc {u e : Nat} {ex : Bool} (h : (w.views u).acc e = true) : ((w.access t o ex).views u).acc e = true := by
  simp only [access]
  split
  · rename_i e'; subst e'; simp [h]
  · exact h

theorem access_new {ex : Bool} : ((w.access t o ex).views t).acc w.events.length = true := by simp [access]

theorem access_idx {u p : Nat} {ex : Bool} : ((w.access t o ex).views u).idx p = (w.views u).idx p := by
  simp only [access]
  split
  · rename_i e'; subst e'; rfl
  · rfl

theorem WInv.access (h : WInv w) {ex : Bool} (ho : w.Ordered t o ex) (hd : o < w.mem.objs.length)
    (hc : ∀ x, w.mem.objs[o]? = some x → 0 < x.count → (w.access t o ex).Carried w.events.length o)
    (hf : ∀ f ∈ w.mem.stack, f.obj = o → f.thread = t ∧ w.unloaded o = false)
    (hh : ex = true → ∀ x ∈ w.mem.refs, ¬ w.mem.Below x.obj o)
    (hr : ex = true → ∀ f ∈ w.mem.stack, ∀ k ∈ f.rest, ¬ w.mem.Below k o) : WInv (w.access t o ex) := by
  refine ⟨h.mem, ?_, ?_, ?_, ?_, ?_, ?_, ?_, h.midx, h.blank, ?_⟩
  · exact race_access h.race ho
  · intro e p b x he hx h0
    rcases snoc_access he with he | ⟨rfl, e'⟩
    · exact Carried.mono (w := w) (w' := w.access t o ex) rfl rfl (fun _ _ => access_acc) (fun _ _ h => h) (h.carried he hx h0)
    · cases e'; exact hc x hx h0
  · intro f e b h1 he
    rcases snoc_access he with he | ⟨rfl, e'⟩
    · have := h.frame h1 he
      split at this
      · rename_i hu; rw [if_pos (show (w.access t o ex).unloaded f.obj = true from hu)]; exact this
      · rename_i hu; rw [if_neg (show ¬ (w.access t o ex).unloaded f.obj = true from hu)]; exact access_acc this
    · cases e'
      obtain ⟨rfl, hu⟩ := hf f h1 rfl
      rw [if_neg (show ¬ (w.access f.thread f.obj ex).unloaded f.obj = true by simp [GWeak.access, hu])]
      exact access_new
  · intro x u e p h1 h2 h3 he
    rcases snoc_access he with he | ⟨rfl, e'⟩
    · exact access_acc (h.held h1 h2 h3 he)
    · cases e'; exact absurd h3 (hh rfl x h1)
  · intro f k e p h1 h2 h3 he
    rcases snoc_access he with he | ⟨rfl, e'⟩
    · exact access_acc (h.rest h1 h2 h3 he)
    · cases e'; exact absurd h3 (hr rfl f h1 k h2)
  · intro f h1 h2
    rw [access_idx]; exact h.newest h1 h2
  · intro u p
    rw [access_idx]; exact h.idx u p
  · intro e p b he
    rcases snoc_access he with he | ⟨rfl, e'⟩
    · exact h.dom he
    · cases e'; exact hd

/-- The thread has a reference from which it can get at `o`. -/
def Reaches (w : GWeak) (t o : Nat) : Prop := ∃ x ∈ w.mem.refs, t ∈ x.holders ∧ w.mem.Below x.obj o

theorem Carried.down (h : WInv w) {w' : GWeak} (hm : w'.mem = w.mem) {e p q : Nat} (h0 : 0 < w.mem.owns p)
    (hb : w.mem.Below p q) (hc : w'.Carried e p) : w'.Carried e q := by
  induction hb with
  | refl => exact hc
  | @step c d x hb hx hd ih =>
    obtain ⟨y, y1, y2, -⟩ := h.mem.owned (o := c) (Nat.lt_of_lt_of_le (h.mem.below_owned h0 hb) (Nat.le_add_right ..))
    rw [hx] at y1; cases y1
    exact .kid (hm ▸ hx) y2 hd ih

/-- A thread accesses what it can get at through its references. -/
theorem WInv.shared (h : WInv w) (hr : w.Reaches t o) : WInv (w.access t o false) := by
  obtain ⟨x, hx, ht, hb⟩ := hr
  have hpos := h.mem.below_owned (GMem.owns_ref hx) hb
  obtain ⟨y, y1, y2, -⟩ := h.mem.owned (o := o) (Nat.lt_of_lt_of_le hpos (Nat.le_add_right ..))
  refine h.access ?_ (List.getElem?_eq_some_iff.mp y1).1 ?_ ?_ (by simp) (by simp)
  · rintro e b he (hf | rfl)
    · cases hf
    · exact h.held hx ht hb he
  · intro _ _ _
    exact Carried.down (w' := w.access t o false) h rfl (GMem.owns_ref hx) hb (.ref (w := w.access t o false) hx ht access_new)
  · rintro f hf rfl
    obtain ⟨z, z1, z2, -⟩ := h.mem.frames f hf
    rw [y1] at z1; cases z1; omega

theorem frame_unique (h : Inv w.mem []) {f g : GFrame} (hf : f ∈ w.mem.stack) (hg : g ∈ w.mem.stack) (e : f.obj = g.obj) :
    f = g := by
  have := h.nodup
  generalize w.mem.stack = l at hf hg this
  induction l with
  | nil => cases hf
  | cons a l ih =>
    simp only [List.map_cons, List.nodup_cons] at this
    obtain ⟨h1, h2⟩ := this
    rcases List.mem_cons.mp hf with e1 | hf' <;> rcases List.mem_cons.mp hg with e2 | hg'
    · rw [e1, e2]
    · exact absurd (List.mem_map.mpr ⟨g, hg', by rw [← e, e1]⟩) h1
    · exact absurd (List.mem_map.mpr ⟨f, hf', by rw [e, e2]⟩) h1
    · exact ih hf' hg' h2

/-- A destructor, after the load. -/
theorem WInv.excl (h : WInv w) {f : GFrame} (hf : f ∈ w.mem.stack) (hu : w.unloaded f.obj = false) :
    WInv (w.access f.thread f.obj true) := by
  obtain ⟨y, y1, y2, -⟩ := h.mem.frames f hf
  have hno : ¬ 0 < w.mem.owns f.obj := by
    have := h.mem.count f.obj y y1
    simp only [List.count_nil] at this; omega
  refine h.access ?_ (List.getElem?_eq_some_iff.mp y1).1 ?_ ?_ ?_ ?_
  · intro e b he _
    have := h.frame hf he
    rwa [if_neg (by simp [hu])] at this
  · intro x hx h0
    rw [y1] at hx; cases hx; omega
  · intro g hg e
    rw [frame_unique h.mem hg hf e]; exact ⟨rfl, hu⟩
  · exact fun _ x hx hb => hno (h.mem.below_owned (GMem.owns_ref hx) hb)
  · exact fun _ g hg k hk hb => hno (h.mem.below_owned (GMem.owns_rest hg hk) hb)

theorem WInv.shareds {os : List Nat} : ∀ {w : GWeak}, WInv w → (∀ o ∈ os, w.Reaches t o) →
    WInv (w.accesses t os) ∧ (w.accesses t os).mem = w.mem := by
  induction os with
  | nil => exact fun h _ => ⟨h, rfl⟩
  | cons o os ih =>
    intro w h hr
    exact ih (h.shared (hr o (List.mem_cons_self ..))) fun p hp => hr p (List.mem_cons_of_mem _ hp)

/-! ### Counters -/

theorem rmw_acc {r : Bool} {u : Nat} : ((w.rmw t o r).views u).acc = (w.views u).acc := by
  simp only [rmw, setView]
  split
  · rename_i e; subst e; rfl
  · rfl

theorem rmw_idx {r : Bool} {u p : Nat} : ((w.rmw t o r).views u).idx p =
    if u = t ∧ p = o then (w.msgs o).length else (w.views u).idx p := by
  simp only [rmw, setView]
  by_cases hu : u = t
  · subst hu
    by_cases hp : p = o <;> simp [hp]
  · simp [hu]

theorem rmw_len {r : Bool} {p : Nat} : ((w.rmw t o r).msgs p).length = (w.msgs p).length + if p = o then 1 else 0 := by
  simp only [rmw]
  split
  · rename_i e; subst e; simp
  · rfl

theorem rmw_last {r : Bool} {p e : Nat} : ((w.rmw t o r).last p).acc e =
    ((w.last p).acc e || (p == o && r && (w.views t).acc e)) := by
  simp only [last, rmw]
  by_cases hp : p = o
  · subst hp
    cases r <;> simp [GView.join]
  · simp [hp]

/-- A read-modify-write of the counter of something that has no running destructor. -/
theorem WInv.rmw (h : WInv w) (hd : o < w.mem.objs.length) (hf : ∀ f ∈ w.mem.stack, f.obj ≠ o) (t : Nat) (r : Bool) :
    WInv (w.rmw t o r) := by
  refine h.grow rfl rfl rfl ?_ ?_ ?_ ?_ ?_ ?_
  · intro u e hu; rw [rmw_acc]; exact hu
  · intro p e hp; rw [rmw_last, hp]; rfl
  · intro f h1 h2
    rw [rmw_idx, rmw_len, if_neg fun e => hf f h1 e.2, if_neg (hf f h1)]
    exact h.newest h1 h2
  · intro u p
    rw [rmw_idx, rmw_len]
    have := h.idx u p
    split
    · rename_i e; rw [if_pos e.2, e.2]; omega
    · omega
  · intro p m q hm
    rw [rmw_len]
    have hq := h.idx t q
    have hlast : (w.last o).idx q ≤ (w.msgs q).length - 1 := by
      simp only [last]
      cases hl : (w.msgs o).getLast? with
      | none => rw [List.getLast?_eq_none_iff.mp hl]; simp
      | some m =>
        rw [List.getLastD_eq_getLast?, hl]
        exact h.midx o m q (List.mem_of_getLast? hl)
    simp only [GWeak.rmw] at hm
    split at hm
    · rcases List.mem_append.mp hm with hm | hm
      · have := h.midx o m q hm; omega
      · rw [List.mem_singleton.mp hm]
        cases r
        · by_cases e : q = o
          · subst e; simp
          · simp [e]; exact hlast
        · by_cases e : q = o
          · subst e; simp [GView.join]; omega
          · simp [e, GView.join]; omega
    · have := h.midx p m q hm; omega
  · intro p hp
    simp only [GWeak.rmw]
    rw [if_neg (by omega)]
    exact h.blank p hp

/-- The load after the counter has been brought to 0. -/
theorem WInv.loaded (h : WInv w) {f : GFrame} (hf : f ∈ w.mem.stack)
    (hk : ∀ e, (w.last f.obj).acc e = true → (w.views f.thread).acc e = true) :
    WInv { w with unloaded := fun p => if p = f.obj then false else w.unloaded p } := by
  refine ⟨h.mem, h.race, ?_, ?_, h.held, h.rest, ?_, h.idx, h.midx, h.blank, h.dom⟩
  · intro e p b x he hx h0
    have := h.carried he hx h0
    clear he hx h0
    induction this with
    | msg h => exact .msg h
    | ref h1 h2 h3 => exact .ref (w := { w with unloaded := _ }) h1 h2 h3
    | rest h1 h2 h3 => exact .rest (w := { w with unloaded := _ }) h1 h2 h3
    | @late g k h1 h2 h3 h4 =>
      by_cases e' : g.obj = f.obj
      · have := frame_unique h.mem h1 hf e'
        subst this
        exact .rest (w := { w with unloaded := _ }) h1 h2 (hk _ h4)
      · exact .late (w := { w with unloaded := _ }) h1 h2 (by simp only [if_neg e']; exact h3) h4
    | kid h1 h2 h3 _ ih => exact .kid (w := { w with unloaded := _ }) h1 h2 h3 ih
  · intro g e b h1 he
    have := h.frame h1 he
    by_cases e' : g.obj = f.obj
    · have h2 := frame_unique h.mem h1 hf e'
      subst h2
      simp only [if_true, Bool.false_eq_true, if_false]
      split at this
      · exact hk _ this
      · exact this
    · simp only [if_neg e']; exact this
  · intro g h1 h2
    by_cases e' : g.obj = f.obj
    · simp [e'] at h2
    · simp only [if_neg e'] at h2; exact h.newest h1 h2

theorem WInv.load (h : WInv w) {f : GFrame} {i : Nat} {m : GView} (hf : f ∈ w.mem.stack) (hu : w.unloaded f.obj = true)
    (hi : (w.views f.thread).idx f.obj ≤ i) (hm : (w.msgs f.obj)[i]? = some m) :
    WInv { w.load true f.thread f.obj i m with unloaded := fun p => if p = f.obj then false else w.unloaded p } := by
  have h1 := h.newest hf hu
  have h2 := (List.getElem?_eq_some_iff.mp hm).1
  have hi' : i = (w.views f.thread).idx f.obj := by omega
  have e : w.load true f.thread f.obj i m = w.setView f.thread ((w.views f.thread).join m) := by
    simp only [GWeak.load, if_true]
    congr 1
    simp only [GView.join]
    congr 1
    funext p
    split
    · rename_i e; rw [e, ← hi']
    · rfl
  have hlast : w.last f.obj = m := by
    rw [last, List.getLastD_eq_getLast?, List.getLast?_eq_getElem?, ← h1, Nat.add_sub_cancel, ← hi', hm]; rfl
  rw [e]
  refine (h.join f.thread fun p => h.midx f.obj m p (List.mem_of_getElem? hm)).loaded hf ?_
  intro e he
  have : m.acc e = true := hlast ▸ he
  simp [setView, GView.join, this]

/-! ### Memory -/

theorem below_congr {s s' : GMem} (h : ∀ (c : Nat) (x' : GObj), s'.objs[c]? = some x' → ∃ x, s.objs[c]? = some x ∧ x.kids = x'.kids)
    {a b : Nat} (hb : s'.Below a b) : s.Below a b := by
  induction hb with
  | refl => exact .refl _
  | step _ hx hd ih =>
    obtain ⟨y, y1, y2⟩ := h _ _ hx
    exact .step ih y1 (y2 ▸ hd)

theorem below_le {s : GMem} (h : Inv s []) {a b : Nat} (hb : s.Below a b) : b ≤ a := by
  induction hb with
  | refl => exact Nat.le_refl _
  | step _ hx hd ih => have := h.below _ _ hx _ hd; omega

/-- Borrows change. -/
theorem WInv.holders (h : WInv w) {refs : List GRef} (hr : refs.map GRef.obj = w.mem.refs.map GRef.obj)
    (h1 : ∀ x' ∈ refs, ∀ u ∈ x'.holders, ∃ x ∈ w.mem.refs, x.obj = x'.obj ∧ ∃ v ∈ x.holders,
      ∀ e, (w.views v).acc e = true → (w.views u).acc e = true)
    (h2 : ∀ x ∈ w.mem.refs, ∀ u ∈ x.holders, ∃ x' ∈ refs, x'.obj = x.obj ∧ ∃ v ∈ x'.holders,
      ∀ e, (w.views u).acc e = true → (w.views v).acc e = true) : WInv { w with mem := { w.mem with refs := refs } } := by
  have hb : ∀ {a b : Nat}, ({ w.mem with refs := refs } : GMem).Below a b → w.mem.Below a b := fun hb =>
    below_congr (s := w.mem) (s' := { w.mem with refs := refs }) (fun c x hx => ⟨x, hx, rfl⟩) hb
  refine ⟨h.mem.congr hr _ _, h.race, ?_, h.frame, ?_, ?_, h.newest, h.idx, h.midx, h.blank, h.dom⟩
  · intro e p b x he hx h0
    have := h.carried he hx h0
    clear he hx h0
    induction this with
    | msg h => exact .msg h
    | @ref x u h3 h4 h5 =>
      obtain ⟨x', h6, h7, v, h8, h9⟩ := h2 x h3 u h4
      exact h7 ▸ .ref (w := { w with mem := _ }) h6 h8 (h9 _ h5)
    | rest h1 h2 h3 => exact .rest (w := { w with mem := { w.mem with refs := refs } }) h1 h2 h3
    | late h1 h2 h3 h4 => exact .late (w := { w with mem := { w.mem with refs := refs } }) h1 h2 h3 h4
    | kid h1 h2 h3 _ ih => exact .kid (w := { w with mem := { w.mem with refs := refs } }) h1 h2 h3 ih
  · intro x' u e p h3 h4 h5 he
    obtain ⟨x, h6, h7, v, h8, h9⟩ := h1 x' h3 u h4
    exact h9 _ (h.held h6 h8 (h7 ▸ hb h5) he)
  · intro f k e p h3 h4 h5 he
    exact h.rest h3 h4 (hb h5) he

/-- A new reference to what a thread can get at. -/
theorem WInv.clone (h : WInv w) (hr : w.Reaches t o) {y : GObj} (hy : w.mem.objs[o]? = some y)
    (hm : ¬ y.count > maxRefcount) :
    WInv { w with mem := { w.mem.setCount o ((y.count + 1) % word) with
      refs := ⟨w.mem.nextRef, o, [t]⟩ :: w.mem.refs, nextRef := w.mem.nextRef + 1 } } := by
  obtain ⟨x, hx, ht, hb⟩ := hr
  have hpos := h.mem.below_owned (GMem.owns_ref hx) hb
  obtain ⟨y', y1, y2, -⟩ := h.mem.owned (o := o) (Nat.lt_of_lt_of_le hpos (Nat.le_add_right ..))
  rw [hy] at y1; cases y1
  have hw : (y.count + 1) % word = y.count + 1 := by
    have hmax : maxRefcount = 2 ^ 63 - 1 := rfl
    have hword : word = 2 ^ 64 := rfl
    exact Nat.mod_eq_of_lt (by omega)
  have hobj : ∀ j, (w.mem.objs.modify o fun x => { x with count := (y.count + 1) % word })[j]? =
      if o = j then some { y with count := y.count + 1 } else w.mem.objs[j]? := by
    intro j
    rw [GMem.getElem?_modify', hw]
    split
    · rename_i e; subst e; rw [hy]; rfl
    · rfl
  have hk : ∀ (c : Nat) (x' : GObj), (w.mem.objs.modify o fun x => { x with count := (y.count + 1) % word })[c]? = some x' →
      ∃ x, w.mem.objs[c]? = some x ∧ x.kids = x'.kids ∧ (0 < x'.count → 0 < x.count) := by
    intro c x' hx'
    rw [hobj] at hx'
    split at hx'
    · rename_i e; cases hx'; exact ⟨y, e ▸ hy, rfl, fun _ => y2⟩
    · exact ⟨x', hx', rfl, id⟩
  have hb' : ∀ {a b : Nat}, ({ w.mem.setCount o ((y.count + 1) % word) with
      refs := ⟨w.mem.nextRef, o, [t]⟩ :: w.mem.refs, nextRef := w.mem.nextRef + 1 } : GMem).Below a b → w.mem.Below a b :=
    fun hb => below_congr (fun c x' hx' => by obtain ⟨x, h1, h2, -⟩ := hk c x' hx'; exact ⟨x, h1, h2⟩) hb
  refine ⟨h.mem.clone hy y2 hm t, h.race, ?_, h.frame, ?_, ?_, h.newest, h.idx, h.midx, ?_, ?_⟩
  · intro e p b x he hx h0
    obtain ⟨x0, h1, -, h3⟩ := hk p x hx
    have := h.carried he h1 (h3 h0)
    clear he hx h0 h1 h3
    induction this with
    | msg h => exact .msg h
    | ref h1 h2 h3 => exact .ref (w := { w with mem := _ }) (List.mem_cons_of_mem _ h1) h2 h3
    | rest h1 h2 h3 => exact .rest (w := { w with mem := { w.mem.setCount _ _ with refs := _, nextRef := _ } }) h1 h2 h3
    | late h1 h2 h3 h4 => exact .late (w := { w with mem := { w.mem.setCount _ _ with refs := _, nextRef := _ } }) h1 h2 h3 h4
    | @kid q z k h1 h2 h3 _ ih =>
      by_cases e' : o = q
      · subst e'
        rw [hy] at h1; cases h1
        exact .kid (x := { y with count := y.count + 1 }) (by simp only [GMem.setCount, hobj, if_true]) (Nat.succ_pos _) h3 ih
      · exact .kid (x := z) (by simp only [GMem.setCount, hobj, if_neg e']; exact h1) h2 h3 ih
  · intro z u e p h1 h2 h3 he
    rcases List.mem_cons.mp h1 with rfl | h1
    · rw [List.mem_singleton.mp h2]
      exact h.held hx ht (hb.trans (hb' h3)) he
    · exact h.held h1 h2 (hb' h3) he
  · intro f k e p h3 h4 h5 he
    exact h.rest h3 h4 (hb' h5) he
  · intro p hp
    exact h.blank p (by simpa [GMem.setCount] using hp)
  · intro e p b he
    simpa [GMem.setCount] using h.dom he

/-- The last reference: nothing else refers to the allocation. -/
theorem only (h : Inv w.mem []) {x : GRef} {l : List GRef} (hp : w.mem.refs.Perm (x :: l)) {y : GObj}
    (hy : w.mem.objs[x.obj]? = some y) (hc : y.count = 1) :
    (∀ z ∈ l, z.obj ≠ x.obj) ∧ (∀ (j : Nat) (z : GObj), w.mem.objs[j]? = some z → 0 < z.count → x.obj ∉ z.kids) ∧
    (∀ f ∈ w.mem.stack, x.obj ∉ f.rest) := by
  have h1 := h.count _ y hy
  simp only [GMem.owns, sumBy_perm hp, sumBy, if_true, List.count_nil] at h1
  refine ⟨?_, ?_, ?_⟩
  · intro z hz e
    have := le_sumBy (f := fun z : GRef => if z.obj = x.obj then 1 else 0) hz
    simp only [e, if_true] at this; omega
  · intro j z hz h0 hk
    have := le_sumBy (f := GMem.GObj.refsTo x.obj) (List.mem_of_getElem? hz)
    have h2 := List.count_pos_iff.mpr hk
    simp only [GMem.GObj.refsTo] at this h1
    rw [if_neg (by omega)] at this
    omega
  · intro f hf hk
    have := le_sumBy (f := fun f : GFrame => f.rest.count x.obj) hf
    have h2 := List.count_pos_iff.mpr hk
    omega

theorem dropRef_eq {s : GMem} {E : List Nat} (h : Inv s (o :: E)) (t : Nat) : ∃ y, s.objs[o]? = some y ∧ 0 < y.count ∧
    s.dropRef t o = if y.count ≠ 1 then s.setCount o (y.count - 1)
      else { s.setCount o (y.count - 1) with stack := ⟨t, o, y.kids⟩ :: s.stack } := by
  obtain ⟨y, h1, h2, h3, h4⟩ := h.owned (o := o) (by rw [List.count_cons_self]; omega)
  have hhit : s.hit [o] = s := h.hit (by simpa using h4)
  have hw : (y.count + word - 1) % word = y.count - 1 := by
    have := h.few o y h1
    have hword : word = 2 ^ 64 := rfl
    rw [show y.count + word - 1 = (y.count - 1) + word by omega, Nat.add_mod_right]
    exact Nat.mod_eq_of_lt (by omega)
  refine ⟨y, h1, h2, ?_⟩
  simp only [GMem.dropRef, h1, hhit, hw]
  split <;> rfl

/-- A reference is gone; what its owner knew is in the counter. -/
theorem WInv.released (h : WInv w) {x : GRef} {l : List GRef} (hp : w.mem.refs.Perm (x :: l)) (hx : x.holders = [t])
    (hk : ∀ e, (w.views t).acc e = true → (w.last x.obj).acc e = true)
    (hn : (w.views t).idx x.obj + 1 = (w.msgs x.obj).length) :
    WInv { w with
      mem := ({ w.mem with refs := l } : GMem).dropRef t x.obj
      unloaded := if w.isLast x.obj then fun p => if p = x.obj then true else w.unloaded p else w.unloaded } := by
  have hinv := (h.mem.take hp).drop t
  obtain ⟨y, y1, y2, y3⟩ := dropRef_eq (h.mem.take hp) t
  have y1 : w.mem.objs[x.obj]? = some y := y1
  have hobj : ∀ j, (w.mem.objs.modify x.obj fun z => { z with count := y.count - 1 })[j]? =
      if x.obj = j then some { y with count := y.count - 1 } else w.mem.objs[j]? := by
    intro j
    rw [GMem.getElem?_modify']
    split
    · rename_i e; subst e; rw [y1]; rfl
    · rfl
  have hl : ∀ z, z ∈ w.mem.refs ↔ z = x ∨ z ∈ l := fun z => by rw [hp.mem_iff, List.mem_cons]
  have hxr : x ∈ w.mem.refs := (hl x).mpr (.inl rfl)
  have hfo : ∀ f ∈ w.mem.stack, f.obj ≠ x.obj := by
    intro f hf e
    obtain ⟨z, z1, z2, -⟩ := h.mem.frames f hf
    rw [e, y1] at z1; cases z1; omega
  have hkid : ∀ (c : Nat) (x' : GObj), (w.mem.objs.modify x.obj fun z => { z with count := y.count - 1 })[c]? = some x' →
      ∃ z, w.mem.objs[c]? = some z ∧ z.kids = x'.kids ∧ (0 < x'.count → 0 < z.count) := by
    intro c x' hx'
    rw [hobj] at hx'
    split at hx'
    · rename_i e; cases hx'; exact ⟨y, e ▸ y1, rfl, fun _ => y2⟩
    · exact ⟨x', hx', rfl, id⟩
  have hbel : ∀ {s' : GMem}, s'.objs = (w.mem.objs.modify x.obj fun z => { z with count := y.count - 1 }) →
      ∀ {a b : Nat}, s'.Below a b → w.mem.Below a b := fun he _ _ hb =>
    below_congr (fun c x' hx' => by obtain ⟨z, h1, h2, -⟩ := hkid c x' (he ▸ hx'); exact ⟨z, h1, h2⟩) hb
  rw [y3] at hinv ⊢
  by_cases hc : y.count = 1
  · -- the destructor begins
    have hil : w.isLast x.obj = true := by simp [isLast, y1, hc]
    rw [if_neg (by simp [hc])] at hinv ⊢
    rw [hil, if_pos rfl]
    obtain ⟨o1, o2, o3⟩ := only h.mem hp y1 hc
    generalize hs' : ({ ({ w.mem with refs := l } : GMem).setCount x.obj (y.count - 1) with
      stack := ⟨t, x.obj, y.kids⟩ :: ({ w.mem with refs := l } : GMem).stack } : GMem) = s' at *
    have so : s'.objs = (w.mem.objs.modify x.obj fun z => { z with count := y.count - 1 }) := by rw [← hs']; rfl
    have sr : s'.refs = l := by rw [← hs']; rfl
    have ss : s'.stack = ⟨t, x.obj, y.kids⟩ :: w.mem.stack := by rw [← hs']
    have key : ∀ {e p : Nat}, w.Carried e p →
        Carried { w with mem := s', unloaded := fun p => if p = x.obj then true else w.unloaded p } e p ∧
        (p = x.obj → (w.last x.obj).acc e = true) := by
      intro e p hcar
      induction hcar with
      | msg h => exact ⟨.msg h, fun e' => e' ▸ h⟩
      | @ref z u h1 h2 h3 =>
        rcases (hl z).mp h1 with rfl | h1
        · rw [hx, List.mem_singleton] at h2
          subst h2
          exact ⟨.msg (hk _ h3), fun _ => hk _ h3⟩
        · refine ⟨.ref (w := { w with mem := s', unloaded := _ }) (sr ▸ h1) h2 h3, fun e' => absurd e' (o1 z h1)⟩
      | @rest f k h1 h2 h3 =>
        exact ⟨.rest (w := { w with mem := s', unloaded := _ }) (by rw [ss]; exact List.mem_cons_of_mem _ h1) h2 h3,
          fun e' => absurd (e' ▸ h2) (o3 f h1)⟩
      | @late f k h1 h2 h3 h4 =>
        exact ⟨.late (w := { w with mem := s', unloaded := _ }) (by rw [ss]; exact List.mem_cons_of_mem _ h1) h2
          (by simp only [h3]; split <;> rfl) h4, fun e' => absurd (e' ▸ h2) (o3 f h1)⟩
      | @kid q z k h1 h2 h3 _ ih =>
        refine ⟨?_, fun e' => absurd (e' ▸ h3) (o2 q z h1 h2)⟩
        by_cases e' : x.obj = q
        · subst e'
          rw [y1] at h1; cases h1
          exact .late (w := { w with mem := s', unloaded := _ }) (f := ⟨t, x.obj, y.kids⟩) (by rw [ss]; exact List.mem_cons_self ..) h3
            (by simp) (ih.2 rfl)
        · exact .kid (x := z) (by simp only [so, hobj, if_neg e']; exact h1) h2 h3 ih.1
    refine ⟨hinv, h.race, ?_, ?_, ?_, ?_, ?_, h.idx, h.midx, ?_, ?_⟩
    · intro e p b z he hz h0
      obtain ⟨z0, h1, -, h3⟩ := hkid p z (so ▸ hz)
      exact (key (h.carried he h1 (h3 h0))).1
    · intro f e b hf he
      simp only [ss] at hf
      rcases List.mem_cons.mp hf with rfl | hf
      · simp only [if_true]
        exact (key (h.carried he y1 y2)).2 rfl
      · have := h.frame hf he
        simp only [if_neg (hfo f hf)]
        exact this
    · intro z u e p h1 h2 h3 he
      simp only [sr] at h1
      exact h.held ((hl z).mpr (.inr h1)) h2 (hbel so h3) he
    · intro f k e p hf h2 h3 he
      simp only [ss] at hf
      rcases List.mem_cons.mp hf with rfl | hf
      · exact h.held hxr (by rw [hx]; exact List.mem_singleton.mpr rfl)
          ((Below.step (.refl _) y1 h2).trans (hbel so h3)) he
      · exact h.rest hf h2 (hbel so h3) he
    · intro f hf hu
      simp only [ss] at hf
      rcases List.mem_cons.mp hf with rfl | hf
      · exact hn
      · simp only [if_neg (hfo f hf)] at hu
        exact h.newest hf hu
    · intro p hp'
      simp only [so, List.length_modify] at hp'
      exact h.blank p hp'
    · intro e p b he
      simp only [so, List.length_modify]
      exact h.dom he
  · -- there are other references
    have hil : w.isLast x.obj = false := by simp [isLast, y1, hc]
    rw [if_pos hc] at hinv ⊢
    rw [hil, if_neg (by simp)]
    generalize hs' : ({ w.mem with refs := l } : GMem).setCount x.obj (y.count - 1) = s' at *
    have so : s'.objs = (w.mem.objs.modify x.obj fun z => { z with count := y.count - 1 }) := by rw [← hs']; rfl
    have sr : s'.refs = l := by rw [← hs']; rfl
    have ss : s'.stack = w.mem.stack := by rw [← hs']; rfl
    have key : ∀ {e p : Nat}, w.Carried e p → Carried { w with mem := s' } e p := by
      intro e p hcar
      induction hcar with
      | msg h => exact .msg h
      | @ref z u h1 h2 h3 =>
        rcases (hl z).mp h1 with rfl | h1
        · rw [hx, List.mem_singleton] at h2
          subst h2
          exact .msg (hk _ h3)
        · exact .ref (w := { w with mem := s' }) (sr ▸ h1) h2 h3
      | rest h1 h2 h3 => exact .rest (w := { w with mem := s' }) (by rw [ss]; exact h1) h2 h3
      | late h1 h2 h3 h4 => exact .late (w := { w with mem := s' }) (by rw [ss]; exact h1) h2 h3 h4
      | @kid q z k h1 h2 h3 _ ih =>
        by_cases e' : x.obj = q
        · subst e'
          rw [y1] at h1; cases h1
          exact .kid (x := { y with count := y.count - 1 }) (by simp only [so, hobj, if_true]) (by simp only; omega) h3 ih
        · exact .kid (x := z) (by simp only [so, hobj, if_neg e']; exact h1) h2 h3 ih
    refine ⟨hinv, h.race, ?_, ?_, ?_, ?_, ?_, h.idx, h.midx, ?_, ?_⟩
    · intro e p b z he hz h0
      obtain ⟨z0, h1, -, h3⟩ := hkid p z (so ▸ hz)
      exact key (h.carried he h1 (h3 h0))
    · intro f e b hf he
      exact h.frame (ss ▸ hf) he
    · intro z u e p h1 h2 h3 he
      simp only [sr] at h1
      exact h.held ((hl z).mpr (.inr h1)) h2 (hbel so h3) he
    · intro f k e p hf h2 h3 he
      exact h.rest (ss ▸ hf) h2 (hbel so h3) he
    · intro f hf hu
      exact h.newest (ss ▸ hf) hu
    · intro p hp'
      simp only [so, List.length_modify] at hp'
      exact h.blank p hp'
    · intro e p b he
      simp only [so, List.length_modify]
      exact h.dom he

/-- `Arc::drop` of a reference of the program. -/
theorem WInv.dropRef (h : WInv w) {x : GRef} {l : List GRef} (hp : w.mem.refs.Perm (x :: l)) (hx : x.holders = [t]) :
    WInv { w.dropRef arcOrders t x.obj with mem := ({ w.mem with refs := l } : GMem).dropRef t x.obj } := by
  have hxr : x ∈ w.mem.refs := hp.mem_iff.mpr (List.mem_cons_self ..)
  obtain ⟨y, y1, y2, -⟩ := h.mem.owned (o := x.obj) (Nat.lt_of_lt_of_le (GMem.owns_ref hxr) (Nat.le_add_right ..))
  have h1 := h.shared (t := t) (o := x.obj) ⟨x, hxr, by rw [hx]; exact List.mem_singleton.mpr rfl, .refl _⟩
  have h2 := h1.rmw (List.getElem?_eq_some_iff.mp y1).1 (fun f hf e => by
    obtain ⟨z, z1, z2, -⟩ := h.mem.frames f hf
    rw [e, y1] at z1; cases z1; omega) t true
  refine h2.released (x := x) (l := l) (t := t) hp hx ?_ ?_
  · intro e he
    rw [rmw_acc] at he
    rw [rmw_last, he]; simp
  · rw [rmw_idx, rmw_len]; simp

/-- A new allocation. -/
theorem WInv.alloc (h : WInv w) {rs os : List Nat} {l : List GRef} (hp : GMem.popRefs t rs w.mem.refs = some (os, l))
    (k : SyntaxKind) (text : Option (List Char)) :
    WInv { w.fresh t w.mem.objs.length with mem := ({ w.mem with refs := l } : GMem).alloc t k text os } := by
  have h2 := h.mem.takes hp
  rw [List.append_nil] at h2
  have hinv := h2.alloc t k text
  obtain ⟨p1, p2⟩ := GMem.popRefs_perm hp
  have hlt : ∀ c ∈ os, c < w.mem.objs.length := fun c hc =>
    h2.dom c (Nat.lt_of_lt_of_le (List.count_pos_iff.mpr hc) (Nat.le_add_left ..))
  have hold : ∀ z ∈ w.mem.refs, z ∈ l ∨ z.obj ∈ os ∧ z.holders = [t] := by
    intro z hz
    rcases List.mem_append.mp (p1.mem_iff.mp hz) with hz | hz
    · right
      obtain ⟨i, hi, e⟩ := List.mem_iff_getElem.mp hz
      rw [List.getElem_zipWith] at e
      rw [← e]
      exact ⟨List.getElem_mem _, rfl⟩
    · exact .inl hz
  have hnew : ∀ z ∈ l, z ∈ w.mem.refs := fun z hz => p1.mem_iff.mpr (List.mem_append_right _ hz)
  have hos : ∀ c ∈ os, ∃ z ∈ w.mem.refs, z.obj = c ∧ t ∈ z.holders := by
    intro c hc
    obtain ⟨i, hi, e⟩ := List.mem_iff_getElem.mp hc
    refine ⟨⟨rs[i]'(p2 ▸ hi), c, [t]⟩, p1.mem_iff.mpr (List.mem_append_left _ ?_), rfl, List.mem_singleton.mpr rfl⟩
    refine List.mem_iff_getElem.mpr ⟨i, by simp only [List.length_zipWith]; omega, ?_⟩
    rw [List.getElem_zipWith, e]
  generalize hn : w.mem.objs.length = n at *
  generalize hs' : ({ w.mem with refs := l } : GMem).alloc t k text os = s' at *
  have so : s'.objs = w.mem.objs ++ [⟨1, k, text, os, false⟩] := by rw [← hs']; rfl
  have sr : s'.refs = ⟨w.mem.nextRef, n, [t]⟩ :: l := by rw [← hs', ← hn]; rfl
  have ss : s'.stack = w.mem.stack := by rw [← hs']; rfl
  have hget : ∀ {j : Nat} {x : GObj}, w.mem.objs[j]? = some x → s'.objs[j]? = some x := by
    intro j x hx
    rw [so, List.getElem?_append_left (List.getElem?_eq_some_iff.mp hx).1]; exact hx
  have hgetn : s'.objs[n]? = some ⟨1, k, text, os, false⟩ := by rw [so, ← hn]; simp
  have hcase : ∀ {j : Nat} {x : GObj}, s'.objs[j]? = some x →
      w.mem.objs[j]? = some x ∨ (j = n ∧ x = ⟨1, k, text, os, false⟩) := by
    intro j x hx
    rw [so] at hx
    rcases getElem?_snoc hx with hx | ⟨e1, e2⟩
    · exact .inl hx
    · exact .inr ⟨e1.trans hn, e2⟩
  have hbel : ∀ {a b : Nat}, a < n → s'.Below a b → w.mem.Below a b := by
    intro a b ha hb
    induction hb with
    | refl => exact .refl _
    | step _ hx hd ih =>
      rcases hcase hx with hx | ⟨rfl, -⟩
      · exact .step ih hx hd
      · have := below_le h.mem ih; omega
  have hbeln : ∀ {b : Nat}, s'.Below n b → b = n ∨ ∃ c ∈ os, w.mem.Below c b := by
    intro b hb
    induction hb with
    | refl => exact .inl rfl
    | step hb hx hd ih =>
      rcases ih with rfl | ⟨c, hc, hcb⟩
      · rw [hgetn] at hx; cases hx
        exact .inr ⟨_, hd, .refl _⟩
      · have := below_le h.mem hcb
        have := hlt c hc
        rcases hcase hx with hx | ⟨e1, -⟩
        · exact .inr ⟨c, hc, .step hcb hx hd⟩
        · omega
  have hev : ∀ {e : Nat} {b : Bool}, w.evs[e]? ≠ some (n, b) := by
    intro e b he
    have := h.dom he; omega
  have hmn : w.msgs n = [] := h.blank n (by omega)
  have hlast : ∀ p, p ≠ n → (w.fresh t n).last p = w.last p := by
    intro p hp
    simp [last, fresh, GWeak.access, hp]
  have hfl : ∀ f ∈ w.mem.stack, f.obj < n := by
    intro f hf
    obtain ⟨z, z1, -⟩ := h.mem.frames f hf
    have := (List.getElem?_eq_some_iff.mp z1).1; omega
  have hacc : ∀ {u e : Nat}, (w.views u).acc e = true → ((w.fresh t n).views u).acc e = true := fun h => access_acc (o := n) (ex := true) h
  have hnewacc : ((w.fresh t n).views t).acc w.events.length = true := access_new (o := n) (ex := true)
  have hsnoc : ∀ {e p : Nat} {b : Bool}, (w.fresh t n).evs[e]? = some (p, b) →
      w.evs[e]? = some (p, b) ∨ (e = w.events.length ∧ (p, b) = (n, true)) := fun he =>
    snoc_access (t := t) he
  have key : ∀ {e p : Nat}, w.Carried e p → Carried { w.fresh t n with mem := s' } e p := by
    intro e p hcar
    induction hcar with
    | @msg o h1 =>
      by_cases e' : o = n
      · subst e'; simp [last, hmn] at h1
      · exact .msg (by rw [← hlast o e'] at h1; exact h1)
    | @ref z u h1 h2 h3 =>
      rcases hold z h1 with h4 | ⟨h4, h5⟩
      · exact .ref (w := { w.fresh t n with mem := s' }) (by rw [sr]; exact List.mem_cons_of_mem _ h4) h2 (hacc h3)
      · rw [h5, List.mem_singleton] at h2
        subst h2
        exact .kid hgetn (Nat.succ_pos 0) h4 (.ref (w := { w.fresh u n with mem := s' }) (x := ⟨w.mem.nextRef, n, [u]⟩)
          (by rw [sr]; exact List.mem_cons_self ..) (List.mem_singleton.mpr rfl) (hacc h3))
    | rest h1 h2 h3 => exact .rest (w := { w.fresh t n with mem := s' }) (by rw [ss]; exact h1) h2 (hacc h3)
    | @late f c h1 h2 h3 h4 =>
      refine .late (w := { w.fresh t n with mem := s' }) (by rw [ss]; exact h1) h2 h3 ?_
      rw [← hlast f.obj (by have := hfl f h1; omega)] at h4
      exact h4
    | kid h1 h2 h3 _ ih => exact .kid (hget h1) h2 h3 ih
  refine ⟨hinv, ?_, ?_, ?_, ?_, ?_, ?_, ?_, ?_, ?_, ?_⟩
  · exact race_access h.race (t := t) (o := n) (ex := true) fun e b he _ => absurd he hev
  · intro e p b x he hx h0
    rcases hsnoc he with he' | ⟨rfl, e'⟩
    · rcases hcase hx with hx | ⟨rfl, -⟩
      · exact key (h.carried he' hx h0)
      · exact absurd he' hev
    · cases e'
      exact .ref (w := { w.fresh t n with mem := s' }) (x := ⟨w.mem.nextRef, n, [t]⟩)
          (by rw [sr]; exact List.mem_cons_self ..) (List.mem_singleton.mpr rfl) hnewacc
  · intro f e b hf he
    simp only [ss] at hf
    have hlt' := hfl f hf
    rcases hsnoc he with he | ⟨rfl, e'⟩
    · have := h.frame hf he
      split
      · rename_i hu
        rw [if_pos (show w.unloaded f.obj = true from hu), ← hlast f.obj (by omega)] at this
        exact this
      · rename_i hu
        rw [if_neg (show ¬ w.unloaded f.obj = true from hu)] at this
        exact hacc this
    · cases e'; omega
  · intro z u e p hz hu hb he
    simp only [sr] at hz
    rcases List.mem_cons.mp hz with rfl | hz
    · rw [List.mem_singleton.mp hu]
      rcases hbeln hb with rfl | ⟨c, hc, hcb⟩
      · rcases hsnoc he with he | ⟨rfl, -⟩
        · exact absurd he hev
        · exact hnewacc
      · have := below_le h.mem hcb
        have := hlt c hc
        rcases hsnoc he with he | ⟨rfl, e'⟩
        · obtain ⟨z, z1, rfl, z3⟩ := hos c hc
          exact hacc (h.held z1 z3 hcb he)
        · cases e'; omega
    · have hz' := hnew z hz
      have hzn : z.obj < n := by
        have := h.mem.dom z.obj (Nat.lt_of_lt_of_le (GMem.owns_ref hz') (Nat.le_add_right ..)); omega
      have hb' := hbel hzn hb
      have := below_le h.mem hb'
      rcases hsnoc he with he | ⟨rfl, e'⟩
      · exact hacc (h.held hz' hu hb' he)
      · cases e'; omega
  · intro f c e p hf hc hb he
    simp only [ss] at hf
    have hcn : c < n := by
      have := h.mem.dom c (Nat.lt_of_lt_of_le (GMem.owns_rest hf hc) (Nat.le_add_right ..)); omega
    have hb' := hbel hcn hb
    have := below_le h.mem hb'
    rcases hsnoc he with he | ⟨rfl, e'⟩
    · exact hacc (h.rest hf hc hb' he)
    · cases e'; omega
  · intro f hf hu
    simp only [ss] at hf
    have hlt' := hfl f hf
    have := h.newest hf hu
    simp only [fresh, if_neg (Nat.ne_of_lt hlt')]
    rw [access_idx]
    exact this
  · intro u p
    have := h.idx u p
    simp only [fresh]
    rw [access_idx]
    split
    · rename_i e; subst e; rw [hmn] at this; simpa using this
    · exact this
  · intro p m q hm
    simp only [fresh] at hm ⊢
    split at hm
    · rw [List.mem_singleton.mp hm]; exact Nat.zero_le _
    · have := h.midx p m q hm
      split
      · rename_i e; subst e; rw [hmn] at this; simpa using this
      · exact this
  · intro p hp'
    simp only [so, List.length_append, List.length_singleton] at hp'
    simp only [fresh]
    rw [if_neg (by omega)]
    exact h.blank p (by omega)
  · intro e p b he
    simp only [so, List.length_append, List.length_singleton]
    rcases hsnoc he with he | ⟨rfl, e'⟩
    · have := h.dom he; omega
    · cases e'; omega

/-- A reference in the hands of a function is given to the program. -/
theorem give {s : GMem} {E : List Nat} {x : GRef} (h : Inv s (x.obj :: E)) : Inv { s with refs := x :: s.refs } E := by
  have e : ∀ o, ({ s with refs := x :: s.refs } : GMem).owns o + E.count o = s.owns o + (x.obj :: E).count o := by
    intro o
    simp only [GMem.owns, sumBy, List.count_cons, beq_iff_eq]
    omega
  exact ⟨fun o y hy => (e o).symm ▸ h.count o y hy, fun o ho => h.dom o ((e o) ▸ ho), h.below, h.few, h.frames, h.nodup,
    h.zero, h.freed, h.ub⟩

/-- The destructor takes the next child. -/
theorem WInv.next (h : WInv w) {f : GFrame} {fs : List GFrame} {k : Nat} {ks : List Nat} (hp : w.mem.stack.Perm (f :: fs))
    (hr : f.rest = k :: ks) (hu : w.unloaded f.obj = false) (i : Nat) :
    WInv { w with mem := { w.mem with stack := ⟨f.thread, f.obj, ks⟩ :: fs, refs := ⟨i, k, [f.thread]⟩ :: w.mem.refs } } := by
  have hff : f ∈ w.mem.stack := hp.mem_iff.mpr (List.mem_cons_self ..)
  have hold : ∀ g, g ∈ w.mem.stack ↔ g = f ∨ g ∈ fs := fun g => by rw [hp.mem_iff, List.mem_cons]
  generalize hs' : ({ w.mem with stack := ⟨f.thread, f.obj, ks⟩ :: fs, refs := ⟨i, k, [f.thread]⟩ :: w.mem.refs } : GMem) = s'
  have so : s'.objs = w.mem.objs := by rw [← hs']
  have sr : s'.refs = ⟨i, k, [f.thread]⟩ :: w.mem.refs := by rw [← hs']
  have ss : s'.stack = ⟨f.thread, f.obj, ks⟩ :: fs := by rw [← hs']
  have hbel : ∀ {a b : Nat}, s'.Below a b → w.mem.Below a b := fun hb =>
    below_congr (fun c x hx => ⟨x, by rw [← so]; exact hx, rfl⟩) hb
  have hinv : Inv s' [] := by rw [← hs']; exact give (x := ⟨i, k, [f.thread]⟩) (h.mem.frame hp hr f.thread)
  refine ⟨hinv, h.race, ?_, ?_, ?_, ?_, ?_, h.idx, h.midx, ?_, ?_⟩
  · intro e p b x he hx h0
    have := h.carried he (so ▸ hx) h0
    clear he hx h0
    induction this with
    | msg h => exact .msg h
    | ref h1 h2 h3 => exact .ref (w := { w with mem := s' }) (by rw [sr]; exact List.mem_cons_of_mem _ h1) h2 h3
    | @rest g c h1 h2 h3 =>
      rcases (hold g).mp h1 with rfl | h1
      · rw [hr] at h2
        rcases List.mem_cons.mp h2 with rfl | h2
        · exact .ref (w := { w with mem := s' }) (x := ⟨i, c, [g.thread]⟩) (by rw [sr]; exact List.mem_cons_self ..)
            (List.mem_singleton.mpr rfl) h3
        · exact .rest (w := { w with mem := s' }) (f := ⟨g.thread, g.obj, ks⟩) (by rw [ss]; exact List.mem_cons_self ..) h2 h3
      · exact .rest (w := { w with mem := s' }) (by rw [ss]; exact List.mem_cons_of_mem _ h1) h2 h3
    | @late g c h1 h2 h3 h4 =>
      rcases (hold g).mp h1 with rfl | h1
      · rw [hu] at h3; cases h3
      · exact .late (w := { w with mem := s' }) (by rw [ss]; exact List.mem_cons_of_mem _ h1) h2 h3 h4
    | kid h1 h2 h3 _ ih => exact .kid (w := { w with mem := s' }) (so ▸ h1) h2 h3 ih
  · intro g e b hg he
    simp only [ss] at hg
    rcases List.mem_cons.mp hg with rfl | hg
    · exact h.frame (f := f) hff he
    · exact h.frame ((hold g).mpr (.inr hg)) he
  · intro x u e p hx hu' hb he
    simp only [sr] at hx
    rcases List.mem_cons.mp hx with rfl | hx
    · rw [List.mem_singleton.mp hu']
      exact h.rest hff (by rw [hr]; exact List.mem_cons_self ..) (hbel hb) he
    · exact h.held hx hu' (hbel hb) he
  · intro g c e p hg hc hb he
    simp only [ss] at hg
    rcases List.mem_cons.mp hg with rfl | hg
    · exact h.rest (f := f) hff (by rw [hr]; exact List.mem_cons_of_mem _ hc) (hbel hb) he
    · exact h.rest ((hold g).mpr (.inr hg)) hc (hbel hb) he
  · intro g hg hu'
    simp only [ss] at hg
    rcases List.mem_cons.mp hg with rfl | hg
    · exact h.newest (f := f) hff hu'
    · exact h.newest ((hold g).mpr (.inr hg)) hu'
  · intro p hp'
    simp only [so] at hp'
    exact h.blank p hp'
  · intro e p b he
    simp only [so]
    exact h.dom he

/-- The destructor frees the memory. -/
theorem WInv.free (h : WInv w) {f : GFrame} {fs : List GFrame} (hp : w.mem.stack.Perm (f :: fs)) (hr : f.rest = []) :
    WInv { w with mem := { w.mem with
      objs := w.mem.objs.modify f.obj fun x => { x with freed := true }, stack := fs } } := by
  have hinv := h.mem.free hp hr
  have hold : ∀ g, g ∈ w.mem.stack ↔ g = f ∨ g ∈ fs := fun g => by rw [hp.mem_iff, List.mem_cons]
  generalize hs' : ({ w.mem with objs := w.mem.objs.modify f.obj fun x => { x with freed := true }, stack := fs } : GMem) = s' at *
  have so : s'.objs = w.mem.objs.modify f.obj fun x => { x with freed := true } := by rw [← hs']
  have sr : s'.refs = w.mem.refs := by rw [← hs']
  have ss : s'.stack = fs := by rw [← hs']
  have hk : ∀ (c : Nat) (x' : GObj), s'.objs[c]? = some x' → ∃ x, w.mem.objs[c]? = some x ∧ x.kids = x'.kids ∧ x.count = x'.count := by
    intro c x' hx'
    rw [so, GMem.getElem?_modify'] at hx'
    split at hx'
    · obtain ⟨y, y1, rfl⟩ := Option.map_eq_some_iff.mp hx'
      exact ⟨y, y1, rfl, rfl⟩
    · exact ⟨x', hx', rfl, rfl⟩
  have hk' : ∀ (c : Nat) (x : GObj), w.mem.objs[c]? = some x → ∃ x', s'.objs[c]? = some x' ∧ x'.kids = x.kids ∧ x'.count = x.count := by
    intro c x hx
    rw [so, GMem.getElem?_modify', hx]
    split
    · exact ⟨_, rfl, rfl, rfl⟩
    · exact ⟨x, rfl, rfl, rfl⟩
  have hbel : ∀ {a b : Nat}, s'.Below a b → w.mem.Below a b := fun hb =>
    below_congr (fun c x hx => by obtain ⟨y, y1, y2, -⟩ := hk c x hx; exact ⟨y, y1, y2⟩) hb
  refine ⟨hinv, h.race, ?_, ?_, ?_, ?_, ?_, h.idx, h.midx, ?_, ?_⟩
  · intro e p b x he hx h0
    obtain ⟨y, y1, -, y3⟩ := hk p x hx
    have := h.carried he y1 (y3 ▸ h0)
    clear he hx h0 y1 y3
    induction this with
    | msg h => exact .msg h
    | ref h1 h2 h3 => exact .ref (w := { w with mem := s' }) (by rw [sr]; exact h1) h2 h3
    | @rest g c h1 h2 h3 =>
      rcases (hold g).mp h1 with rfl | h1
      · rw [hr] at h2; cases h2
      · exact .rest (w := { w with mem := s' }) (by rw [ss]; exact h1) h2 h3
    | @late g c h1 h2 h3 h4 =>
      rcases (hold g).mp h1 with rfl | h1
      · rw [hr] at h2; cases h2
      · exact .late (w := { w with mem := s' }) (by rw [ss]; exact h1) h2 h3 h4
    | kid h1 h2 h3 _ ih =>
      obtain ⟨z, z1, z2, z3⟩ := hk' _ _ h1
      exact .kid (w := { w with mem := s' }) z1 (z3 ▸ h2) (z2 ▸ h3) ih
  · intro g e b hg he
    exact h.frame ((hold g).mpr (.inr (ss ▸ hg))) he
  · intro x u e p hx hu' hb he
    exact h.held (sr ▸ hx) hu' (hbel hb) he
  · intro g c e p hg hc hb he
    exact h.rest ((hold g).mpr (.inr (ss ▸ hg))) hc (hbel hb) he
  · intro g hg hu'
    exact h.newest ((hold g).mpr (.inr (ss ▸ hg))) hu'
  · intro p hp'
    simp only [so, List.length_modify] at hp'
    exact h.blank p hp'
  · intro e p b he
    simp only [so, List.length_modify]
    exact h.dom he

/-! ### References have different names -/

/-- The names of references are different, and older than the next. -/
def Ids (s : GMem) : Prop := (s.refs.map GRef.id).Nodup ∧ ∀ x ∈ s.refs, x.id < s.nextRef

theorem Ids.sub {s s' : GMem} (h : Ids s) {m : List GRef} (hp : s.refs.Perm (m ++ s'.refs)) (hn : s'.nextRef = s.nextRef) :
    Ids s' := by
  refine ⟨?_, fun x hx => hn ▸ h.2 x (hp.mem_iff.mpr (List.mem_append_right _ hx))⟩
  have := (hp.map GRef.id).nodup_iff.mp h.1
  rw [List.map_append] at this
  exact (List.nodup_append.mp this).2.1

theorem Ids.cons {s s' : GMem} (h : Ids s) {o : Nat} {us : List Nat} (hr : s'.refs = ⟨s.nextRef, o, us⟩ :: s.refs)
    (hn : s'.nextRef = s.nextRef + 1) : Ids s' := by
  constructor
  · rw [hr, List.map_cons, List.nodup_cons]
    refine ⟨fun hm => ?_, h.1⟩
    obtain ⟨x, hx, e⟩ := List.mem_map.mp hm
    have := h.2 x hx
    simp only at e; omega
  · intro x hx
    rw [hr] at hx
    rw [hn]
    rcases List.mem_cons.mp hx with rfl | hx
    · exact Nat.lt_succ_self _
    · have := h.2 x hx; omega

theorem Ids.holders {s : GMem} (h : Ids s) (r : Nat) (g : List Nat → List Nat) : Ids (s.setHolders r g) := by
  constructor
  · have : (s.setHolders r g).refs.map GRef.id = s.refs.map GRef.id := by
      simp only [GMem.setHolders, List.map_map]
      apply List.map_congr_left
      intro x _
      simp only [Function.comp]
      split <;> rfl
    rw [this]; exact h.1
  · intro x hx
    obtain ⟨y, hy, e⟩ := List.mem_map.mp hx
    have := h.2 y hy
    rw [← e]
    simp only [GMem.setHolders]
    split <;> exact this

theorem dropRef_refs {s : GMem} {t o : Nat} : (s.dropRef t o).refs = s.refs ∧ (s.dropRef t o).nextRef = s.nextRef := by
  simp only [GMem.dropRef]
  split
  · exact ⟨rfl, rfl⟩
  · split <;> exact ⟨rfl, rfl⟩

theorem Ids.step {s s' : GMem} (h : Ids s) {op : GOp} (hs : s.step op = some s') : Ids s' := by
  simp only [GMem.step] at hs
  split at hs
  · cases hs
  cases op with
  | newToken t k text =>
    simp only [Option.bind_eq_bind, Option.bind_eq_some_iff] at hs
    obtain ⟨_, -, hs⟩ := hs
    cases hs
    exact h.cons rfl rfl
  | newNode t k rs =>
    simp only [Option.bind_eq_bind, Option.bind_eq_some_iff] at hs
    obtain ⟨_, -, ⟨os, l⟩, h1, hs⟩ := hs
    cases hs
    exact Ids.cons (s := { s.hit os with refs := l }) (h.sub (GMem.popRefs_perm h1).1 rfl) rfl rfl
  | read t r path =>
    simp only [Option.bind_eq_bind, Option.bind_eq_some_iff] at hs
    obtain ⟨x, hx, _, -, o, ho, hs⟩ := hs
    cases hs
    exact h
  | clone t r path =>
    simp only [Option.bind_eq_bind, Option.bind_eq_some_iff] at hs
    obtain ⟨x, hx, _, -, o, ho, y, hy, hs⟩ := hs
    split at hs <;> cases hs
    · exact h
    · exact h.cons rfl rfl
  | drop t r =>
    simp only [Option.bind_eq_bind, Option.bind_eq_some_iff] at hs
    obtain ⟨_, -, ⟨x, l⟩, h1, hs⟩ := hs
    cases hs
    refine h.sub (m := [x]) ?_ dropRef_refs.2
    rw [dropRef_refs.1]
    exact (GMem.popRef_perm h1).1
  | glue t =>
    simp only [Option.bind_eq_bind, Option.bind_eq_some_iff] at hs
    obtain ⟨⟨f, fs⟩, h1, hs⟩ := hs
    split at hs <;> cases hs
    · refine h.sub (m := []) ?_ dropRef_refs.2
      rw [dropRef_refs.1]
      exact .refl _
    · exact h
  | lend a t r =>
    simp only [Option.bind_eq_bind, Option.bind_eq_some_iff] at hs
    obtain ⟨x, hx, _, -, hs⟩ := hs
    cases hs
    exact h.holders ..
  | giveBack t a r =>
    simp only [Option.bind_eq_bind, Option.bind_eq_some_iff] at hs
    obtain ⟨x, hx, _, -, hs⟩ := hs
    cases hs
    exact h.holders ..

theorem Ids.unique {s : GMem} (h : Ids s) {x y : GRef} (hx : x ∈ s.refs) (hy : y ∈ s.refs) (e : x.id = y.id) : x = y := by
  have := h.1
  generalize s.refs = l at hx hy this
  induction l with
  | nil => cases hx
  | cons a l ih =>
    simp only [List.map_cons, List.nodup_cons] at this
    obtain ⟨h1, h2⟩ := this
    rcases List.mem_cons.mp hx with e1 | hx' <;> rcases List.mem_cons.mp hy with e2 | hy'
    · rw [e1, e2]
    · exact absurd (List.mem_map.mpr ⟨y, hy', by rw [← e, e1]⟩) h1
    · exact absurd (List.mem_map.mpr ⟨x, hx', by rw [e, e2]⟩) h1
    · exact ih hx' hy' h2

/-! ### Steps -/

theorem trail_below {s : GMem} : ∀ (p : List Nat) {a b : Nat}, b ∈ s.trail a p → s.Below a b
  | [], a, b, h => by simp only [GMem.trail, List.mem_singleton] at h; rw [h]; exact .refl _
  | i :: p, a, b, h => by
    simp only [GMem.trail] at h
    split at h
    · rw [List.mem_singleton.mp h]; exact .refl _
    · rename_i x hx
      split at h
      · rw [List.mem_singleton.mp h]; exact .refl _
      · rename_i c hc
        rcases List.mem_cons.mp h with rfl | h
        · exact .refl _
        · exact (Below.step (.refl _) hx (List.mem_of_getElem? hc)).trans (trail_below p h)

theorem at_below {s : GMem} : ∀ (p : List Nat) {a b : Nat}, s.at? a p = some b → s.Below a b
  | [], a, b, h => by simp only [GMem.at?, Option.some.injEq] at h; rw [h]; exact .refl _
  | i :: p, a, b, h => by
    simp only [GMem.at?, Option.bind_eq_bind, Option.bind_eq_some_iff] at h
    obtain ⟨x, hx, c, hc, h⟩ := h
    exact (Below.step (.refl _) hx (List.mem_of_getElem? hc)).trans (at_below p h)

theorem guard_some {p : Prop} [Decidable p] {u : Unit} (h : (guard p : Option Unit) = some u) : p := by
  by_cases hp : p
  · exact hp
  · simp [guard, hp] at h

theorem WInv.step {w w' : GWeak} (h : WInv w) (hid : Ids w.mem) {op : GWOp} (hs : w.step arcOrders op = some w') :
    WInv w' := by
  cases op with
  | sync a t =>
    simp only [GWeak.step, Option.some.injEq] at hs
    subst hs
    exact h.join t (h.idx a)
  | load t i =>
    simp only [GWeak.step, Option.bind_eq_bind, Option.bind_eq_some_iff] at hs
    obtain ⟨⟨f, fs⟩, h1, _, h2, m, hm, hs⟩ := hs
    obtain ⟨h3, h4, -⟩ := guard_some h2
    obtain ⟨hp, rfl⟩ := GMem.popFrame_perm h1
    cases hs
    exact h.load (hp.mem_iff.mpr (List.mem_cons_self ..)) h3 h4 hm
  | mem op =>
    simp only [GWeak.step, Option.bind_eq_bind, Option.bind_eq_some_iff] at hs
    obtain ⟨m, hm, w1, h1, hs⟩ := hs
    cases hs
    simp only [GMem.step] at hm
    split at hm
    · cases hm
    cases op with
    | newToken t k text =>
      simp only [Option.bind_eq_bind, Option.bind_eq_some_iff] at hm
      obtain ⟨_, -, hm⟩ := hm
      cases hm
      simp only [track, Option.some.injEq] at h1
      subst h1
      exact h.alloc (rs := []) rfl k (some text)
    | newNode t k rs =>
      simp only [Option.bind_eq_bind, Option.bind_eq_some_iff] at hm
      obtain ⟨_, -, ⟨os, l⟩, h2, hm⟩ := hm
      cases hm
      simp only [track, h2, Option.bind_eq_bind, Option.bind_some, Option.some.injEq] at h1
      subst h1
      have h3 := h.mem.takes h2
      rw [List.append_nil] at h3
      have : w.mem.hit os = w.mem := h.mem.hit fun o ho => (h3.owned (o := o)
        (Nat.lt_of_lt_of_le (List.count_pos_iff.mpr ho) (Nat.le_add_left ..))).choose_spec.2.2.2
      rw [this]
      obtain ⟨p1, p2⟩ := GMem.popRefs_perm h2
      obtain ⟨h4, h5⟩ := h.shareds (t := t) (os := os) fun c hc => by
        obtain ⟨i, hi, e⟩ := List.mem_iff_getElem.mp hc
        refine ⟨⟨rs[i]'(p2 ▸ hi), c, [t]⟩, p1.mem_iff.mpr (List.mem_append_left _ ?_), List.mem_singleton.mpr rfl, .refl _⟩
        refine List.mem_iff_getElem.mpr ⟨i, by simp only [List.length_zipWith]; omega, ?_⟩
        rw [List.getElem_zipWith, e]
      have h6 := h4.alloc (rs := rs) (by rw [h5]; exact h2) k none
      rw [h5] at h6
      exact h6
    | read t r path =>
      simp only [Option.bind_eq_bind, Option.bind_eq_some_iff] at hm
      obtain ⟨x, hx, _, hg, o, ho, hm⟩ := hm
      cases hm
      simp only [track, hx, Option.bind_eq_bind, Option.bind_some, Option.some.injEq] at h1
      subst h1
      rw [h.mem.hit (h.mem.trail path (Nat.lt_of_lt_of_le (GMem.owns_ref (GMem.ref?_mem hx).1) (Nat.le_add_right ..)))]
      obtain ⟨h4, h5⟩ := h.shareds (t := t) (os := w.mem.trail x.obj path) fun c hc =>
        ⟨x, (GMem.ref?_mem hx).1, (guard_some hg).1, trail_below path hc⟩
      generalize w.accesses t (w.mem.trail x.obj path) = v at h4 h5 ⊢
      rw [← h5]
      exact h4
    | clone t r path =>
      simp only [Option.bind_eq_bind, Option.bind_eq_some_iff] at hm
      obtain ⟨x, hx, _, hg, o, ho, y, hy, hm⟩ := hm
      have hxm := (GMem.ref?_mem hx).1
      have ht := (guard_some hg).1
      have hpos := Nat.lt_of_lt_of_le (GMem.owns_ref hxm) (Nat.le_add_right _ ([].count x.obj))
      rw [h.mem.hit (h.mem.trail path hpos)] at hm
      obtain ⟨y', y1, y2, -⟩ := h.mem.owned (h.mem.at path hpos ho)
      rw [hy] at y1; cases y1
      simp only [track, hx, ho, Option.bind_eq_bind, Option.bind_some, Option.some.injEq] at h1
      subst h1
      obtain ⟨h4, h5⟩ := h.shareds (t := t) (os := w.mem.trail x.obj path) fun c hc =>
        ⟨x, hxm, ht, trail_below path hc⟩
      generalize w.accesses t (w.mem.trail x.obj path) = v at h4 h5 ⊢
      have h6 := h4.rmw (o := o) (by rw [h5]; exact (List.getElem?_eq_some_iff.mp hy).1) (fun f hf e => by
        rw [h5] at hf
        obtain ⟨z, z1, z2, -⟩ := h.mem.frames f hf
        rw [e, hy] at z1; cases z1; omega) t false
      have h7 : (v.rmw t o false).mem = w.mem := h5
      generalize v.rmw t o false = u at h6 h7 ⊢
      split at hm <;> cases hm
      · -- the process is aborted
        rw [← h7]
        have hb : ∀ {a b : Nat}, ({ u.mem with dead := true } : GMem).Below a b → u.mem.Below a b := fun hb =>
          below_congr (s := u.mem) (s' := { u.mem with dead := true }) (fun c x hx => ⟨x, hx, rfl⟩) hb
        refine ⟨h6.mem.congr (refs := u.mem.refs) rfl u.mem.nextRef true, h6.race, ?_, h6.frame,
          fun h1 h2 h3 h4 => h6.held h1 h2 (hb h3) h4, fun h1 h2 h3 h4 => h6.rest h1 h2 (hb h3) h4,
          h6.newest, h6.idx, h6.midx, h6.blank, h6.dom⟩
        intro e p b z he hz h0
        have := h6.carried he hz h0
        clear he hz h0
        induction this with
        | msg h => exact .msg h
        | ref h1 h2 h3 => exact .ref (w := { u with mem := { u.mem with dead := true } }) h1 h2 h3
        | rest h1 h2 h3 => exact .rest (w := { u with mem := { u.mem with dead := true } }) h1 h2 h3
        | late h1 h2 h3 h4 => exact .late (w := { u with mem := { u.mem with dead := true } }) h1 h2 h3 h4
        | kid h1 h2 h3 _ ih => exact .kid (w := { u with mem := { u.mem with dead := true } }) h1 h2 h3 ih
      · rw [← h7] at hxm hy ⊢
        exact h6.clone ⟨x, hxm, ht, h7 ▸ at_below path ho⟩ hy (by assumption)
    | drop t r =>
      simp only [Option.bind_eq_bind, Option.bind_eq_some_iff] at hm
      obtain ⟨_, -, ⟨x, l⟩, h2, hm⟩ := hm
      cases hm
      simp only [track, h2, Option.bind_eq_bind, Option.bind_some, Option.some.injEq] at h1
      subst h1
      obtain ⟨p1, -, p3⟩ := GMem.popRef_perm h2
      exact h.dropRef p1 p3
    | glue t =>
      simp only [Option.bind_eq_bind, Option.bind_eq_some_iff] at hm
      obtain ⟨⟨f, fs⟩, h2, hm⟩ := hm
      simp only [track, h2, Option.bind_eq_bind, Option.bind_some, Option.bind_eq_some_iff] at h1
      obtain ⟨_, hu, h1⟩ := h1
      have hu := guard_some hu
      obtain ⟨hp, rfl⟩ := GMem.popFrame_perm h2
      have hff : f ∈ w.mem.stack := hp.mem_iff.mpr (List.mem_cons_self ..)
      have h3 := h.excl hff hu
      split at hm <;> cases hm
      · rename_i k ks hr
        rw [hr] at h1
        cases h1
        have h4 := h3.next (f := f) hp hr hu 0
        exact h4.dropRef (x := ⟨0, k, [f.thread]⟩) (l := w.mem.refs) (.refl _) rfl
      · rename_i hr
        rw [hr] at h1
        cases h1
        obtain ⟨y, y1, -, y3⟩ := h.mem.frames f hff
        rw [h.mem.hit (by simp [GMem.alive, y1, y3])]
        exact h3.free (f := f) hp hr
    | lend a t r =>
      simp only [Option.bind_eq_bind, Option.bind_eq_some_iff] at hm
      obtain ⟨x, hx, _, hg, hm⟩ := hm
      cases hm
      simp only [track, Option.some.injEq] at h1
      subst h1
      obtain ⟨hxm, hxr⟩ := GMem.ref?_mem hx
      have ha := (guard_some hg).1
      have h2 := h.join t (h.idx a)
      refine h2.holders (GMem.setHolders_obj ..) ?_ ?_
      · intro x' hx' u hu
        obtain ⟨z, hz, e⟩ := List.mem_map.mp hx'
        refine ⟨z, hz, by rw [← e]; split <;> rfl, ?_⟩
        split at e
        · rename_i hzr
          have := hid.unique hz hxm (hzr.trans hxr.symm)
          subst this e
          rcases List.mem_cons.mp hu with rfl | hu
          · refine ⟨a, ha, fun e he => ?_⟩
            simp only [setView] at he ⊢
            split at he
            · simpa using he
            · simp [GView.join, he]
          · exact ⟨u, hu, fun _ h => h⟩
        · subst e; exact ⟨u, hu, fun _ h => h⟩
      · intro z hz u hu
        refine ⟨_, List.mem_map_of_mem hz, by split <;> rfl, u, ?_, fun _ h => h⟩
        split
        · exact List.mem_cons_of_mem _ hu
        · exact hu
    | giveBack t a r =>
      simp only [Option.bind_eq_bind, Option.bind_eq_some_iff] at hm
      obtain ⟨x, hx, _, hg, hm⟩ := hm
      cases hm
      simp only [track, Option.some.injEq] at h1
      subst h1
      obtain ⟨hxm, hxr⟩ := GMem.ref?_mem hx
      obtain ⟨ht, ha, hne, -⟩ := guard_some hg
      have h2 := h.join a (h.idx t)
      refine h2.holders (GMem.setHolders_obj ..) ?_ ?_
      · intro x' hx' u hu
        obtain ⟨z, hz, e⟩ := List.mem_map.mp hx'
        refine ⟨z, hz, by rw [← e]; split <;> rfl, u, ?_, fun _ h => h⟩
        split at e
        · subst e; exact (List.mem_filter.mp hu).1
        · subst e; exact hu
      · intro z hz u hu
        refine ⟨_, List.mem_map_of_mem hz, by split <;> rfl, ?_⟩
        split
        · rename_i hzr
          have := hid.unique hz hxm (hzr.trans hxr.symm)
          subst this
          by_cases e : u = t
          · subst e
            refine ⟨a, List.mem_filter.mpr ⟨ha, by simpa using Ne.symm hne⟩, fun e he => ?_⟩
            simp only [setView] at he ⊢
            rw [if_neg hne] at he
            simp [GView.join, he]
          · exact ⟨u, List.mem_filter.mpr ⟨hu, by simpa using e⟩, fun _ h => h⟩
        · exact ⟨u, hu, fun _ h => h⟩

/-! ### Happens-before -/

/-- A set of past events that contains whatever happened before one of them. -/
def Good (l : List GEvent) (v : Nat → Bool) : Prop :=
  (∀ e, v e = true → e < l.length) ∧
    ∀ (e d : Nat) (b : GEvent), v e = true → l[e]? = some b → b.before d = true → v d = true

/-- The views are good, and so is what the events record. -/
structure VInv (w : GWeak) : Prop where
  views : ∀ t, Good w.events (w.views t).acc
  msgs : ∀ o, ∀ m ∈ w.msgs o, Good w.events m.acc
  events : ∀ (e : Nat) (b : GEvent), w.events[e]? = some b → Good w.events b.before ∧ ∀ d, b.before d = true → d < e
  own : ∀ (e : Nat) (a : GEvent), w.events[e]? = some a → (w.views a.thread).acc e = true
  order : ∀ (e e' : Nat) (a b : GEvent), e < e' → w.events[e]? = some a → w.events[e']? = some b → a.thread = b.thread →
    b.before e = true

theorem Good.empty {l : List GEvent} : Good l fun _ => false := by simp [Good]

theorem Good.join {l : List GEvent} {a b : GView} (ha : Good l a.acc) (hb : Good l b.acc) : Good l (a.join b).acc := by
  simp only [Good, GView.join, Bool.or_eq_true]
  refine ⟨fun e he => he.elim (ha.1 e) (hb.1 e), fun e d x he hx hd => ?_⟩
  exact he.imp (fun h => ha.2 e d x h hx hd) (fun h => hb.2 e d x h hx hd)

theorem Good.snoc {l : List GEvent} {v : Nat → Bool} (h : Good l v) (x : GEvent) : Good (l ++ [x]) v := by
  refine ⟨fun e he => by have := h.1 e he; simp only [List.length_append, List.length_singleton]; omega, fun e d b he hb hd => ?_⟩
  rw [List.getElem?_append_left (h.1 e he)] at hb
  exact h.2 e d b he hb hd

theorem VInv.access (h : VInv w) (t o : Nat) (ex : Bool) : VInv (w.access t o ex) := by
  refine ⟨?_, fun o' m hm => (h.msgs o' m hm).snoc _, ?_, ?_, ?_⟩
  · intro u
    simp only [GWeak.access]
    split
    · refine ⟨fun e he => ?_, fun e d b he hb hd => ?_⟩
      · simp only [Bool.or_eq_true, beq_iff_eq] at he
        simp only [List.length_append, List.length_singleton]
        rcases he with rfl | he
        · omega
        · have := (h.views t).1 e he; omega
      · simp only [Bool.or_eq_true, beq_iff_eq] at he ⊢
        rcases getElem?_snoc hb with hb | ⟨rfl, rfl⟩
        · rcases he with rfl | he
          · exact absurd (List.getElem?_eq_some_iff.mp hb).1 (Nat.lt_irrefl _)
          · exact .inr ((h.views t).2 e d b he hb hd)
        · exact .inr hd
    · exact (h.views u).snoc _
  · intro e b hb
    rcases getElem?_snoc hb with hb | ⟨rfl, rfl⟩
    · exact ⟨(h.events e b hb).1.snoc _, (h.events e b hb).2⟩
    · exact ⟨(h.views t).snoc _, (h.views t).1⟩
  · intro e a ha
    rcases getElem?_snoc ha with ha | ⟨rfl, rfl⟩
    · exact access_acc (h.own e a ha)
    · exact access_new
  · intro e e' a b hlt ha hb hab
    rcases getElem?_snoc hb with hb | ⟨rfl, rfl⟩
    · have := (List.getElem?_eq_some_iff.mp hb).1
      simp only [GWeak.access] at ha
      rw [List.getElem?_append_left (by omega)] at ha
      exact h.order e e' a b hlt ha hb hab
    · simp only [GWeak.access] at ha
      rw [List.getElem?_append_left hlt] at ha
      simp only at hab
      rw [← hab]
      exact h.own e a ha

theorem VInv.accesses {os : List Nat} : ∀ {w : GWeak}, VInv w → VInv (w.accesses t os) := by
  induction os with
  | nil => exact fun h => h
  | cons o os ih => exact fun h => ih (h.access t o false)

theorem VInv.setView (h : VInv w) {v : GView} (hv : Good w.events v.acc)
    (hm : ∀ e, (w.views t).acc e = true → v.acc e = true) : VInv (w.setView t v) := by
  refine ⟨?_, h.msgs, h.events, ?_, h.order⟩
  · intro u
    simp only [GWeak.setView]
    split
    · exact hv
    · exact h.views u
  · intro e a ha
    have := h.own e a ha
    simp only [GWeak.setView]
    split
    · rename_i e'; rw [e'] at this; exact hm e this
    · exact this

theorem VInv.last (h : VInv w) (o : Nat) : Good w.events (w.last o).acc := by
  simp only [GWeak.last]
  cases hl : (w.msgs o).getLast? with
  | none => rw [List.getLast?_eq_none_iff.mp hl]; exact .empty
  | some m =>
    rw [List.getLastD_eq_getLast?, hl]
    exact h.msgs o m (List.mem_of_getLast? hl)

theorem VInv.rmw (h : VInv w) (t o : Nat) (r : Bool) : VInv (w.rmw t o r) := by
  have h1 : VInv (w.setView t { w.views t with idx := fun p => if p = o then (w.msgs o).length else (w.views t).idx p }) :=
    h.setView (h.views t) fun _ h => h
  refine ⟨h1.views, ?_, h1.events, h1.own, h1.order⟩
  intro p m hm
  simp only [GWeak.rmw] at hm
  split at hm
  · rcases List.mem_append.mp hm with hm | hm
    · exact h.msgs o m hm
    · rw [List.mem_singleton.mp hm]
      cases r
      · exact h.last o
      · exact Good.join (h.last o) (h.views t)
  · exact h.msgs p m hm

theorem VInv.fresh (h : VInv w) (t o : Nat) : VInv (w.fresh t o) := by
  have h1 := h.access t o true
  refine ⟨h1.views, ?_, h1.events, h1.own, h1.order⟩
  intro p m hm
  simp only [GWeak.fresh] at hm
  split at hm
  · rw [List.mem_singleton.mp hm]; exact .empty
  · exact h1.msgs p m hm

theorem VInv.congr {w' : GWeak} (h : VInv w) (hv : w'.views = w.views) (hm : w'.msgs = w.msgs) (he : w'.events = w.events) :
    VInv w' :=
  ⟨he ▸ hv ▸ h.views, he ▸ hm ▸ h.msgs, he ▸ h.events, he ▸ hv ▸ h.own, he ▸ h.order⟩

theorem VInv.dropRef (h : VInv w) (ord : ArcOrders) (t o : Nat) : VInv (w.dropRef ord t o) :=
  ((h.access t o false).rmw t o ord.release).congr rfl rfl rfl

theorem VInv.join (h : VInv w) (a t : Nat) : VInv (w.setView t ((w.views t).join (w.views a))) :=
  h.setView ((h.views t).join (h.views a)) fun e he => by simp [GView.join, he]

theorem VInv.step {w w' : GWeak} (h : VInv w) {ord : ArcOrders} {op : GWOp} (hs : w.step ord op = some w') : VInv w' := by
  cases op with
  | sync a t => cases hs; exact h.join a t
  | load t i =>
    simp only [GWeak.step, Option.bind_eq_bind, Option.bind_eq_some_iff] at hs
    obtain ⟨⟨f, fs⟩, -, _, -, m, hm, hs⟩ := hs
    cases hs
    refine VInv.congr (w := w.load ord.acquire t f.obj i m) ?_ rfl rfl rfl
    refine h.setView ?_ ?_
    · split
      · exact Good.join (h.views t) (h.msgs f.obj m (List.mem_of_getElem? hm))
      · exact h.views t
    · intro e he
      split
      · simp [GView.join, he]
      · exact he
  | mem op =>
    simp only [GWeak.step, Option.bind_eq_bind, Option.bind_eq_some_iff] at hs
    obtain ⟨m, -, w1, h1, hs⟩ := hs
    cases hs
    refine VInv.congr (w := w1) ?_ rfl rfl rfl
    cases op with
    | newToken t k text => cases h1; exact h.fresh ..
    | newNode t k rs =>
      simp only [track, Option.bind_eq_bind, Option.bind_eq_some_iff] at h1
      obtain ⟨_, -, h1⟩ := h1
      cases h1
      exact h.accesses.fresh ..
    | read t r path =>
      simp only [track, Option.bind_eq_bind, Option.bind_eq_some_iff] at h1
      obtain ⟨_, -, h1⟩ := h1
      cases h1
      exact h.accesses
    | clone t r path =>
      simp only [track, Option.bind_eq_bind, Option.bind_eq_some_iff] at h1
      obtain ⟨_, -, _, -, h1⟩ := h1
      cases h1
      exact h.accesses.rmw ..
    | drop t r =>
      simp only [track, Option.bind_eq_bind, Option.bind_eq_some_iff] at h1
      obtain ⟨_, -, h1⟩ := h1
      cases h1
      exact h.dropRef ..
    | glue t =>
      simp only [track, Option.bind_eq_bind, Option.bind_eq_some_iff] at h1
      obtain ⟨⟨f, fs⟩, -, _, -, h1⟩ := h1
      split at h1 <;> cases h1
      · exact (h.access ..).dropRef ..
      · exact h.access ..
    | lend a t r => cases h1; exact h.join a t
    | giveBack t a r => cases h1; exact h.join t a

end GWeak
end Rowan
