import Verif.Spec.Lazy
import Verif.Props.Handles
import Verif.Props.Splice
/-!
# C55: `splice_children` with an iterator that runs code of its own
-/
namespace Rowan
open Cur (plus)

section
variable {C C' : Conf} {q a b : Nat} {ts : List Tree} {P : HSt → Call → Prop}

theorem Call.attach_new {s s' : HSt} {q i p : Nat} {new : List Nat} (e : Call.exec (.attach q i p) s = .ok new s') :
    new = [] ∧ Cur.spliceInsert q i [p] s = .ok () s' := by
  simp only [Call.exec, H.bind_def] at e
  split at e <;> cases e
  exact ⟨rfl, by assumption⟩

theorem Call.splice_new {s s' : HSt} {q a b : Nat} {ins new : List Nat}
    (e : Call.exec (.splice q a b ins) s = .ok new s') : new = [] ∧ Cur.splice q a b ins s = .ok () s' := by
  simp only [Call.exec, H.bind_def] at e
  split at e <;> cases e
  exact ⟨rfl, by assumption⟩

/-- C55: whatever the iterator does in between, the program is always in a reachable state, so that the theorems about
reachable states hold (C36-C39, C42, C49, C50, C54); and `q` is still a handle of a node. -/
theorem C55_reach (h : C.Reach) (run : C.Lazy P q a b C' ts) :
    C'.Reach ∧ q ∈ C'.hs ∧ (C'.s.tree q).isNode = true := by
  induction run with
  | @start rest new s' hr e =>
    letI : Greens := ⟨C.gs⟩
    have hq := hr.held q (by simp [Call.uses])
    have hn := hr.typed q (by simp [Call.nodes])
    obtain ⟨rfl, _⟩ := Call.splice_new e
    have st := Conf.Step.ok C _ hr e
    refine ⟨st.reach h, hq, ?_⟩
    exact ((st.kept h (hr.mem_rest hq) fun c rest' e => by cases e; exact hq).1.same q (by simp [cnt])).1.trans hn
  | code _ r ih => exact ⟨r.reach ih.1, r.held ih.2.1, ((r.kept ih.1 ih.2.1).same q (by simp [cnt])).1.trans ih.2.2⟩
  | @insert C1 ts p rest new s' _ hr _ e ih =>
    letI : Greens := ⟨C1.gs⟩
    have hq := hr.held q (by simp [Call.uses])
    have hn := hr.typed q (by simp [Call.nodes])
    obtain ⟨rfl, _⟩ := Call.attach_new e
    have st := Conf.Step.ok C1 _ hr e
    refine ⟨st.reach ih.1, hq, ?_⟩
    exact ((st.kept ih.1 (hr.mem_rest hq) fun c rest' e => by cases e; exact hq).1.same q (by simp [cnt])).1.trans hn

/-- C55: if the code of the iterator does not change the content of `q`, the children of `q` are the old ones without
child `a` (if `a < b`, see C34), with the elements put in front of what is then child `a`, each with the content that it had
when the iterator returned it. -/
theorem C55_content {k : SyntaxKind} {cs : List Tree} (h : C.Reach) (ht : C.s.tree q = .node k cs)
    (run : C.Lazy (fun s c => ¬ c.Alters s q) q a b C' ts) :
    C'.s.tree q = .node k (cs.take a ++ ts ++ cs.drop (if a < b then a + 1 else a)) ∧
    (ts ≠ [] → a ≤ cs.length) := by
  induction run with
  | @start rest new s' hr e =>
    refine ⟨?_, by simp⟩
    letI : Greens := ⟨C.gs⟩
    obtain ⟨kids, hi⟩ := HReach.ok' h
    obtain ⟨v, hv⟩ := HSt.Views.exists_view hi
    have hq := hr.held q (by simp [Call.uses])
    obtain ⟨rfl, _⟩ := Call.splice_new e
    obtain ⟨kids', hi'⟩ := HReach.ok' ((Conf.Step.ok C _ hr e).reach h)
    obtain ⟨v', hv', ⟨_, x, hV, hd⟩, _⟩ := Call.shows ⟨kids, hi⟩ hr hv e
    have hp : 0 < cnt (C.hs ++ C.lk) q := cnt_pos.mpr (List.mem_append_left _ (hr.mem_rest hq))
    have hsub := (hv.sub_eq hi hp).trans (congrArg some ht)
    have hw : v.width q = cs.length := by rw [View.width, hsub]; rfl
    refine hv'.tree_eq hi' (cnt_pos.mpr (List.mem_append_left _ hq)) ?_
    by_cases ha : a ≤ cs.length
    · have hm := (View.splice_mutable hd).1
      rw [List.nil_append, ← show cnt (C.hs ++ C.lk) = cnt (rest ++ C.lk) from cnt_perm (hr.split.append_right C.lk)] at hV
      obtain ⟨w, h1, h2⟩ := View.splice_apart (ps := []) (ts := []) (hv.named hi) hp hV hm hsub ha (by simp) .nil rfl
      rw [hd] at h1; cases h1
      exact h2
    · rw [View.splice] at hd
      split at hd
      · cases hd
      · rw [View.deleted, if_neg (by omega)] at hd
        cases hd
        rw [hsub, List.append_nil, List.take_of_length_le (by omega), List.drop_eq_nil_of_le (by split <;> omega), List.append_nil]
  | code l r ih =>
    have := C55_reach h l
    exact ⟨(C36_content this.1 this.2.1 r).trans ih.1, ih.2⟩
  | @insert C1 ts p rest new s' l hr hap e ih =>
    obtain ⟨hC1, hq1, _⟩ := C55_reach h l
    obtain ⟨ih1, ih2⟩ := ih
    letI : Greens := ⟨C1.gs⟩
    obtain ⟨kids, hi⟩ := HReach.ok' hC1
    obtain ⟨v, hv⟩ := HSt.Views.exists_view hi
    have hq := hr.held q (by simp [Call.uses])
    have hps : p ∈ C1.hs := hr.mem_takes (by simp [Call.takes])
    obtain ⟨rfl, _⟩ := Call.attach_new e
    obtain ⟨kids', hi'⟩ := HReach.ok' ((Conf.Step.ok C1 _ hr e).reach hC1)
    obtain ⟨v', hv', ⟨_, hm, hd⟩, _⟩ := Call.shows ⟨kids, hi⟩ hr hv e
    have hpos : ∀ x ∈ C1.hs, 0 < cnt (C1.hs ++ C1.lk) x := fun x hx => cnt_pos.mpr (List.mem_append_left _ hx)
    have hsub := (hv.sub_eq hi (hpos q hq1)).trans (congrArg some ih1)
    have hvap : v.Apart p q := ⟨fun e => hap.1 ((Call.above_iff hv (hpos p hps) (hpos q hq1)).mpr e),
      fun e => hap.2 ((Call.above_iff hv (hpos q hq1) (hpos p hps)).mpr e)⟩
    -- the index is in range, or the call would have panicked
    have hw : a + ts.length ≤ (cs.take a ++ ts ++ cs.drop (if a < b then a + 1 else a)).length := by
      rw [View.insertAll] at hd
      split at hd
      · cases hd
      · split at hd
        · split at hd <;> cases hd
        · split at hd
          next hle =>
            have hwid : (v.cut p).width q = v.width q := by
              rw [View.width, View.cut_sub_off (hv.named hi) (hpos p hps) (hpos q hq1) (hv.full hi p (hpos p hps))
                (fun hx => absurd hx hvap.2)]; rfl
            rw [hwid, View.width, hsub] at hle
            exact hle
          · cases hd
    have hmp := View.insertAll_mutable _ _ _ hd p (by simp)
    obtain ⟨w, h1, h2⟩ := View.insertAll_apart (A := fun x => 0 < cnt (C1.hs ++ C1.lk) x) (hpos q hq1) [p] (a + ts.length) v k _ [C1.s.tree p]
      (hv.named hi) hsub hw (fun x hx => by rw [List.mem_singleton.mp hx]; exact ⟨hpos p hps, hmp, hvap⟩) (by simp)
      (by simp [hv.sub_eq hi (hpos p hps)])
    rw [hd] at h1; cases h1
    have ha : a ≤ cs.length := by
      by_cases hts : ts = []
      · subst hts
        simp only [List.append_nil, List.length_append, List.length_take, List.length_drop, List.length_nil] at hw
        split at hw <;> omega
      · exact ih2 hts
    refine ⟨(hv'.tree_eq hi' (cnt_pos.mpr (List.mem_append_left _ hq)) h2).trans ?_, fun _ => ha⟩
    have hl : (cs.take a ++ ts).length = a + ts.length := by simp; omega
    rw [← hl, List.take_left', List.drop_left']
    · simp
    · rfl
    · rfl

/-- C55: the elements that an iterator returns are accepted: `attach` returns for every mutable element that is apart
from `q`. -/
theorem C55_progress {p : Nat} {rest : List Nat} {k : SyntaxKind} {cs : List Tree} (h : C.Reach) (ht : C.s.tree q = .node k cs)
    (ha : a ≤ cs.length) (run : C.Lazy (fun s c => ¬ c.Alters s q) q a b C' ts)
    (hh : C'.hs.Perm (p :: rest)) (hq : q ∈ rest) (hm : C'.s.mutable q = true) (hp : C'.s.mutable p = true) (hap : C'.s.Apart p q)
    (room : C'.s.Room 1) :
    ∃ s', Call.exec (.attach q (a + ts.length) p) C'.s = .ok [] s' ∧
      C.Lazy (fun s c => ¬ c.Alters s q) q a b ⟨s', C'.gs, rest, C'.lk⟩ (ts ++ [C'.s.tree p]) := by
  obtain ⟨hC, hq1, hn⟩ := C55_reach h run
  obtain ⟨hct, _⟩ := C55_content h ht run
  letI : Greens := ⟨C'.gs⟩
  obtain ⟨kids, hi⟩ := HReach.ok' hC
  obtain ⟨v, hv⟩ := HSt.Views.exists_view hi
  have hr : (Call.attach q (a + ts.length) p).Ready C'.s C'.gs C'.hs rest :=
    ⟨hh, by simpa [Call.uses] using hq, by simpa [Call.nodes] using hn, by simp⟩
  have hps : p ∈ C'.hs := hr.mem_takes (by simp [Call.takes])
  have hpos : ∀ x ∈ C'.hs, 0 < cnt (C'.hs ++ C'.lk) x := fun x hx => cnt_pos.mpr (List.mem_append_left _ hx)
  have hsub := (hv.sub_eq hi (hpos q hq1)).trans (congrArg some hct)
  have hvap : v.Apart p q := ⟨fun e => hap.1 ((Call.above_iff hv (hpos p hps) (hpos q hq1)).mpr e),
    fun e => hap.2 ((Call.above_iff hv (hpos q hq1) (hpos p hps)).mpr e)⟩
  obtain ⟨w, h1, h2⟩ := View.insertAll_apart (A := fun x => 0 < cnt (C'.hs ++ C'.lk) x) (hpos q hq1) [p] (a + ts.length) v k _ [C'.s.tree p]
    (hv.named hi) hsub (by simp; split <;> omega)
    (fun x hx => by rw [List.mem_singleton.mp hx]; exact ⟨hpos p hps, (hv p (hpos p hps)).2.2 ▸ hp, hvap⟩) (by simp)
    (by simp [hv.sub_eq hi (hpos p hps)])
  obtain ⟨hA, _⟩ := Call.attach_agrees ⟨kids, hi⟩ hr hv
  rw [View.splice, if_neg (by rw [← (hv q (hpos q hq1)).2.2, hm]; simp), View.deleted, if_neg (by omega), h1] at hA
  rcases hA with hA | ⟨s', e1, _⟩
  · refine absurd (?_ : (Call.attach q (a + ts.length) p).exec C'.s = .abort) (Call.no_abort room)
    simp only [Call.exec, H.bind_def, hA]
  · have e : Call.exec (.attach q (a + ts.length) p) C'.s = .ok [] s' := by simp only [Call.exec, H.bind_def, e1]; rfl
    exact ⟨s', e, .insert run hr hap e⟩

theorem H.onPanic_ok {α : Type} {m : H α} {c : H Unit} {s s' : HSt} {x : α} :
    H.onPanic m c s = .ok x s' ↔ m s = .ok x s' := by
  simp only [H.onPanic]
  cases m s with
  | panic w s1 => refine ⟨fun h => ?_, fun h => by cases h⟩; revert h; dsimp only; cases c s1 <;> exact fun h => by cases h
  | ok | abort | ub | diverge => rfl

theorem H.bind_ok_iff {α β : Type} {m : H α} {f : α → H β} {s s' : HSt} {y : β} :
    (m >>= f) s = .ok y s' ↔ ∃ x s1, m s = .ok x s1 ∧ f x s1 = .ok y s' := by
  rw [H.bind_def]
  cases m s with
  | ok a s1 => exact ⟨fun h => ⟨a, s1, rfl, h⟩, fun ⟨x, s2, h1, h2⟩ => by cases h1; exact h2⟩
  | panic | abort | ub | diverge => simp

theorem Cur.spliceInsert_cons {q i x : Nat} {ins : List Nat} {s s' : HSt} :
    Cur.spliceInsert q i (x :: ins) s = .ok () s' ↔ ∃ s1 s2, Cur.attach q i x s = .ok () s1 ∧
      Cur.drop x s1 = .ok () s2 ∧ Cur.spliceInsert q (i + 1) ins s2 = .ok () s' := by
  simp only [Cur.spliceInsert, H.bind_ok_iff, H.onPanic_ok]
  exact ⟨fun ⟨_, s1, h1, _, s2, h2, h3⟩ => ⟨s1, s2, h1, h2, h3⟩, fun ⟨s1, s2, h1, h2, h3⟩ => ⟨_, s1, h1, _, s2, h2, h3⟩⟩

theorem Cur.splice_iff {q a b : Nat} {ins : List Nat} {s s' : HSt} :
    Cur.splice q a b ins s = .ok () s' ↔ ∃ s1, Cur.splice q a b [] s = .ok () s1 ∧ Cur.spliceInsert q a ins s1 = .ok () s' := by
  simp only [Cur.splice, H.bind_ok_iff, H.onPanic_ok]
  constructor
  · rintro ⟨x, s1, h1, y, s2, h2, z, s3, h3, h4⟩
    exact ⟨s3, ⟨x, s1, h1, y, s2, h2, z, s3, h3, rfl⟩, h4⟩
  · rintro ⟨s4, ⟨x, s1, h1, y, s2, h2, z, s3, h3, h5⟩, h4⟩
    cases h5
    exact ⟨x, s1, h1, y, s2, h2, z, _, h3, h4⟩

/-- Inserting one more element. -/
theorem Cur.spliceInsert_snoc {q p : Nat} : ∀ (ins : List Nat) (i : Nat) (s s' : HSt),
    Cur.spliceInsert q i (ins ++ [p]) s = .ok () s' ↔ ∃ s1, Cur.spliceInsert q i ins s = .ok () s1 ∧
      Cur.spliceInsert q (i + ins.length) [p] s1 = .ok () s'
  | [], i, s, s' => ⟨fun h => ⟨s, rfl, h⟩, fun ⟨s1, h1, h2⟩ => by cases h1; exact h2⟩
  | x :: ins, i, s, s' => by
    rw [List.cons_append, spliceInsert_cons]
    simp only [spliceInsert_snoc (p := p) ins (i + 1)]
    rw [show i + 1 + ins.length = i + (x :: ins).length by simp; omega]
    constructor
    · rintro ⟨s1, s2, h1, h2, s3, h3, h4⟩
      exact ⟨s3, spliceInsert_cons.mpr ⟨s1, s2, h1, h2, h3⟩, h4⟩
    · rintro ⟨s3, h3, h4⟩
      obtain ⟨s1, s2, h1, h2, h3⟩ := spliceInsert_cons.mp h3
      exact ⟨s1, s2, h1, h2, s3, h3, h4⟩

/-- C55: a list of elements is the same as an iterator that runs no code: inserting `ins ++ [p]` returns with a heap if and
only if inserting `ins` and then attaching `p` at the next index does. -/
theorem C55_list {ins : List Nat} {p : Nat} {s s' : HSt} :
    Call.exec (.splice q a b (ins ++ [p])) s = .ok [] s' ↔
    ∃ s1, Call.exec (.splice q a b ins) s = .ok [] s1 ∧ Call.exec (.attach q (a + ins.length) p) s1 = .ok [] s' := by
  have h1 : ∀ {ins s s'}, Call.exec (.splice q a b ins) s = .ok [] s' ↔ Cur.splice q a b ins s = .ok () s' := by
    intro ins s s'
    exact ⟨fun h => (Call.splice_new h).2, fun h => by simp only [Call.exec, H.bind_def, h]; rfl⟩
  have h2 : ∀ {i s s'}, Call.exec (.attach q i p) s = .ok [] s' ↔ Cur.spliceInsert q i [p] s = .ok () s' := by
    intro ins s s'
    exact ⟨fun h => (Call.attach_new h).2, fun h => by simp only [Call.exec, H.bind_def, h]; rfl⟩
  simp only [h1, h2]
  rw [Cur.splice_iff]
  simp only [Cur.spliceInsert_snoc]
  constructor
  · rintro ⟨s1, h3, s2, h4, h5⟩
    exact ⟨s2, Cur.splice_iff.mpr ⟨s1, h3, h4⟩, h5⟩
  · rintro ⟨s2, h3, h5⟩
    obtain ⟨s1, h3, h4⟩ := Cur.splice_iff.mp h3
    exact ⟨s1, h3, s2, h4, h5⟩

end

/-! ## Concrete cases -/

/-- What a call that returns does. -/
theorem Act.call_run {f : Call} {C : Conf} (h : ((Act.call f).run C).isSome = true) :
    ∃ rest new s', f.Ready C.s C.gs C.hs rest ∧ f.exec C.s = .ok new s' ∧
      ((Act.call f).run C).getD C = ⟨s', C.gs, new ++ rest, f.lost C.s ++ C.lk⟩ := by
  have hx : ∀ o : Option Conf, o = (Act.call f).run C → o.isSome = true → ∃ rest new s',
      f.Ready C.s C.gs C.hs rest ∧ f.exec C.s = .ok new s' ∧
      o.getD C = ⟨s', C.gs, new ++ rest, f.lost C.s ++ C.lk⟩ := by
    intro o ho hs
    rw [Act.run] at ho
    split at ho
    · rename_i rest hr
      split at ho <;> subst ho
      · exact ⟨rest, _, _, Call.ready_of hr, ‹_›, rfl⟩
      · cases hs
    · subst ho; cases hs
  exact hx _ rfl h

/-- The trees `[a b [cc]]` (handle 0) and `[d]` (handle 5), with a handle 6 of the token `d`. -/
def lazy0 : Conf := after [
  .token 1 ['a'], .token 1 ['b'], .token 2 ['c', 'c'], .node 10 [0], .node 20 [3, 2, 0],
  .root true 0,
  .call (.nav .firstChildOrToken 0), .call (.nav .nextSiblingOrToken 1), .call (.nav .lastChildOrToken 0),
  .call (.nav .firstChildOrToken 3), .token 7 ['d'], .node 30 [0], .root true 0,
  .call (.nav .firstChildOrToken 5)]
/-- After the deletion loop of `splice_children(1..2, ..)` at handle 0. -/
def lazy1 : Conf := ((Act.call (.splice 0 1 2 [])).run lazy0).getD lazy0
/-- After the iterator has detached `d`. -/
def lazy2 : Conf := ((Act.call (.detach 6)).run lazy1).getD lazy1
theorem lazy0_reach : lazy0.Reach := after_reach _
attribute [irreducible] lazy0 lazy1 lazy2
theorem lazy0_tree : lazy0.s.tree 0 = demoTree := by decide +kernel
theorem lazy1_loc0 : lazy1.s.Loc 0 0 [] := .root (by decide +kernel) (by decide +kernel)
theorem lazy1_loc5 : lazy1.s.Loc 5 5 [] := .root (by decide +kernel) (by decide +kernel)
theorem lazy1_loc6 : lazy1.s.Loc 6 5 ([] ++ [0]) :=
  .child' (q := 5) (by decide +kernel) (by decide +kernel) (by decide +kernel) lazy1_loc5
theorem lazy2_loc0 : lazy2.s.Loc 0 0 [] := .root (by decide +kernel) (by decide +kernel)
theorem lazy2_loc6 : lazy2.s.Loc 6 6 [] := .root (by decide +kernel) (by decide +kernel)

theorem lazy2_apart : lazy2.s.Apart 6 0 := by
  letI : Greens := ⟨[]⟩
  constructor <;>
  · rintro ⟨r, P, Q, l1, l2⟩
    first
    | have := (l1.unique lazy2_loc6).1.symm.trans (l2.unique lazy2_loc0).1
      cases this
    | have := (l1.unique lazy2_loc0).1.symm.trans (l2.unique lazy2_loc6).1
      cases this

/-- The iterator detaches `d` from its tree while `splice_children` runs. -/
theorem lazy_run : lazy0.Lazy (fun s c => ¬ c.Alters s 0) 0 1 2 lazy2 [] := by
  letI : Greens := ⟨[]⟩
  have h1 : lazy0.Lazy (fun s c => ¬ c.Alters s 0) 0 1 2 lazy1 [] := by
    obtain ⟨rest, new, s', hr, he, e⟩ := Act.call_run (f := .splice 0 1 2 []) (C := lazy0) (by decide +kernel)
    rw [lazy1, e, (Call.splice_new he).1]
    exact .start hr he
  obtain ⟨rest, new, s', hr, he, e⟩ := Act.call_run (f := .detach 6) (C := lazy1) (by decide +kernel)
  have h0 : 0 ∈ rest := by
    have h0 : (0 : Nat) ∈ lazy1.hs := by decide +kernel
    simpa [Call.takes] using hr.split.subset h0
  rw [lazy2, e]
  refine .code h1 (.step (l := some (.detach 6, rest)) .refl (.ok _ _ hr he) ?_)
  · rintro c rest ⟨⟩
    refine ⟨h0, ?_⟩
    rintro ⟨⟨r, P, Q, l1, l2⟩, _⟩
    have := (l1.unique lazy1_loc0).1.symm.trans (l2.unique lazy1_loc6).1
    cases this

/-- `d` replaces `b`. -/
example : ∃ C', lazy0.Lazy (fun s c => ¬ c.Alters s 0) 0 1 2 C' [.token 7 ['d']] ∧ C'.s.tree 0 =
    .node 20 [.token 1 ['a'], .token 7 ['d'], .node 10 [.token 2 ['c', 'c']]] := by
  obtain ⟨s', _, h2⟩ := C55_progress (p := 6) (rest := [5, 4, 3, 2, 1, 0]) lazy0_reach lazy0_tree (by decide) lazy_run
    (by decide +kernel) (by decide) (by decide +kernel) (by decide +kernel) lazy2_apart
    ((C55_reach lazy0_reach lazy_run).1.room (by decide +kernel) (by decide +kernel))
  rw [List.nil_append, show lazy2.s.tree 6 = .token 7 ['d'] by decide +kernel] at h2
  exact ⟨_, h2, (C55_content lazy0_reach lazy0_tree h2).1.trans (by decide +kernel)⟩

/-- `C55_list` applies. -/
example : ∃ s1 s', Call.exec (.splice 0 1 2 ([] ++ [6])) demo2.s = .ok [] s' ∧
    Call.exec (.splice 0 1 2 []) demo2.s = .ok [] s1 ∧ Call.exec (.attach 0 1 6) s1 = .ok [] s' := by
  obtain ⟨s', h, _⟩ := C34_partial (a := 1) (b := 2) demo2_reach demo2_hs (q := 0) (by decide +kernel)
    (by decide +kernel) demo2_tree (by decide) (by decide) (by decide)
    (by simp only [List.mem_singleton]; rintro p rfl; exact ⟨by decide +kernel, demo2_apart⟩) (by simp)
    (demo2_room.mono (by decide))
  have h' : Call.exec (.splice 0 1 2 ([] ++ [6])) demo2.s = .ok [] s' := by
    simp only [Call.exec, H.bind_def, List.nil_append, h]; rfl
  obtain ⟨s1, h1, h2⟩ := C55_list.mp h'
  exact ⟨s1, s', h', h1, h2⟩

end Rowan
