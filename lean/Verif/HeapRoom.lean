import Verif.HeapApi
import Verif.HLemmas
/-!
# When a call can abort

A call aborts only if a reference count overflows.  The number of times a call increments reference counts
is bounded, so a call made while all counts are that far from the limit does not abort.

Unless their comments cite lines of `/repo`, the definitions in this file are vocabulary of the proofs and model no code.
-/
namespace Rowan

/-- All reference counts are at least `n` below the limit. -/
def HSt.Room (s : HSt) (n : Nat) : Prop := n < Cur.rcMax ∧ ∀ p, s.live p = true → s.rc p + n ≤ Cur.rcMax

/-- A bound on the increments of any one reference count in a call. -/
def Call.cost (s : HSt) : Call → Nat
  | clone _ => 1
  | nav .. | toNext .. => 2
  | cloneForUpdate _ => 2 * (s.top + s.slack + 2)
  | splice q _ _ ins => 3 * ((s.tree q).children.length + 1) + 1 + ins.length
  | attach .. => 1
  | _ => 0

/-- All reference counts are at most `B`. -/
def HSt.Low (s : HSt) (B : Nat) : Prop := ∀ p, s.live p = true → s.rc p ≤ B

/-- From `s`, `m` increments each count at most `k` times, so it does not abort if there is room; if `pan` is
false it does not panic either. -/
structure Bump {α : Type} (pan : Bool) (m : H α) (s : HSt) (k : Nat) : Prop where
  run : ∀ B, 1 ≤ B → s.Low B → B + k ≤ Cur.rcMax →
    match m s with
    | .ok _ s' => s'.Low (B + k)
    | .panic _ s' => pan = true ∧ s'.Low (B + k)
    | .abort => False
    | _ => True

namespace Bump
variable {α β : Type} {pan : Bool} {m : H α} {f : α → H β} {s : HSt} {k k1 k2 : Nat}

theorem low_mono {B C : Nat} (h : s.Low B) (hb : B ≤ C) : s.Low C := fun p hp => Nat.le_trans (h p hp) hb

theorem mono (h : Bump pan m s k1) (hk : k1 ≤ k) : Bump pan m s k := by
  refine ⟨fun B h1 h2 h3 => ?_⟩
  have := h.run B h1 h2 (by omega)
  split at this
  · exact low_mono this (by omega)
  · exact ⟨this.1, low_mono this.2 (by omega)⟩
  · exact this
  · trivial

theorem weaken (h : Bump false m s k) : Bump pan m s k := by
  refine ⟨fun B h1 h2 h3 => ?_⟩
  have := h.run B h1 h2 h3
  split at this
  · exact this
  · cases this.1
  · exact this
  · trivial

theorem bindE (h : Bump pan m s k1) (hf : ∀ a s', m s = .ok a s' → Bump pan (f a) s' k2) :
    Bump pan (m >>= f) s (k1 + k2) := by
  refine ⟨fun B h1 h2 h3 => ?_⟩
  have := h.run B h1 h2 (by omega)
  rw [H.bind_def]
  cases e : m s with
  | ok a s' =>
    rw [e] at this
    have h := (hf a s' e).run (B + k1) (by omega) this (by omega)
    simpa [Nat.add_assoc] using h
  | panic w s' => rw [e] at this; exact ⟨this.1, low_mono this.2 (by omega)⟩
  | abort => rw [e] at this; exact this
  | ub => trivial
  | diverge => trivial

theorem bind (h : Bump pan m s k1) (hf : ∀ a s', Bump pan (f a) s' k2) : Bump pan (m >>= f) s (k1 + k2) :=
  h.bindE fun a s' _ => hf a s'

/-- A part without increments, followed by anything. -/
theorem bind0 (h : Bump pan m s 0) (hf : ∀ a s', Bump pan (f a) s' k) : Bump pan (m >>= f) s k := by
  simpa using h.bind hf

theorem pure (a : α) : Bump pan (Pure.pure a : H α) s k := ⟨fun _ _ h2 _ => low_mono h2 (by omega)⟩
theorem ub : Bump pan (H.ub : H α) s k := ⟨fun _ _ _ _ => trivial⟩
theorem diverge : Bump pan (H.diverge : H α) s k := ⟨fun _ _ _ _ => trivial⟩
theorem panic {w : Why} : Bump true (H.panic w : H α) s k := ⟨fun _ _ h2 _ => ⟨rfl, low_mono h2 (by omega)⟩⟩

theorem assert (b : Bool) : Bump true (H.assert b) s k := by
  cases b
  · exact panic
  · exact pure ()
theorem dbg (b : Bool) : Bump pan (H.dbg b) s k := by
  cases b
  · exact ub
  · exact pure ()
theorem rd {p : Nat} {f : HSt → Nat → α} : Bump pan (H.rd p f) s k := by
  refine ⟨fun B _ h2 _ => ?_⟩
  by_cases hl : s.live p = true
  · simp only [H.rd, if_pos hl]; exact low_mono h2 (by omega)
  · simp only [H.rd, if_neg hl]
/-- A write to another field than `rc`. -/
theorem wr {p : Nat} {f : HSt → HSt} (hf : ∀ s, (f s).rc = s.rc) (hl : ∀ s x, (f s).live x = true → s.live x = true) :
    Bump pan (H.wr p f) s k := by
  refine ⟨fun B _ h2 _ => ?_⟩
  by_cases hp : s.live p = true
  · simp only [H.wr, if_pos hp]
    intro x hx
    have := h2 x (hl s x hx)
    rw [hf]; omega
  · simp only [H.wr, if_neg hp]
theorem nonNull (o : Option Nat) : Bump pan (H.nonNull o) s k := by
  cases o
  · exact ub
  · exact pure _
theorem unwrap (o : Option α) : Bump true (H.unwrap o) s k := by
  cases o
  · exact panic
  · exact pure _
theorem derefG (g : GElem) : Bump pan (H.derefG g) s k := by
  refine ⟨fun B _ h2 _ => ?_⟩
  by_cases hp : s.holds g.addr = true
  · simp only [H.derefG, if_pos hp]; exact low_mono h2 (by omega)
  · simp only [H.derefG, if_neg hp]
theorem own (g : GElem) : Bump pan (H.own g) s k := ⟨fun _ _ h2 _ => low_mono h2 (by omega)⟩
theorem release (g : GElem) : Bump pan (H.release g) s k := by
  refine ⟨fun B _ h2 _ => ?_⟩
  by_cases hp : (s.owned.any (·.addr == g.addr)) = true
  · simp only [H.release, if_pos hp]; exact low_mono (s := s) h2 (by omega)
  · simp only [H.release, if_neg hp]
theorem freshG : Bump pan H.freshG s k := ⟨fun _ _ h2 _ => low_mono h2 (by omega)⟩
theorem loop {f : Nat → H α} (h : ∀ n, Bump pan (f n) s k) : Bump pan (H.loop f) s k := ⟨(h _).run⟩
theorem ite {c : Prop} [Decidable c] {m1 m2 : H α} (h1 : Bump pan m1 s k) (h2 : Bump pan m2 s k) :
    Bump pan (if c then m1 else m2) s k := by
  split <;> assumption

theorem onPanic {cl : H Unit} (h : Bump true m s k1) (hc : ∀ s', Bump false cl s' k2) :
    Bump true (H.onPanic m cl) s (k1 + k2) := by
  refine ⟨fun B h1 h2 h3 => ?_⟩
  have := h.run B h1 h2 (by omega)
  simp only [H.onPanic]
  cases e : m s with
  | ok a s' => rw [e] at this; exact low_mono this (by omega)
  | panic w s' =>
    rw [e] at this
    have h := (hc s').run (B + k1) (by omega) this.2 (by omega)
    simp only
    cases e' : cl s' with
    | ok a s'' => rw [e'] at h; exact ⟨trivial, by simpa [Nat.add_assoc] using h⟩
    | panic w s'' => rw [e'] at h; cases h.1
    | abort => rw [e'] at h; exact h
    | ub => trivial
    | diverge => trivial
  | abort => rw [e] at this; exact this
  | ub => trivial
  | diverge => trivial

theorem setRc_le {p v B : Nat} (h : s.Low B) (hv : v ≤ B) : (s.setRc p v).Low B := by
  intro x hx
  simp only [HSt.setRc, upd]
  split
  · exact hv
  · exact h x hx

theorem incRc (p : Nat) : Bump pan (Cur.incRc p) s 1 := by
  refine ⟨fun B _ h2 h3 => ?_⟩
  by_cases hl : s.live p = true
  · have := h2 p hl
    simp only [Cur.incRc, H.bind_def, H.rd, if_pos hl]
    rw [if_neg (by omega)]
    simp only [H.wr, if_pos hl]
    exact setRc_le (low_mono h2 (by omega)) (by omega)
  · simp only [Cur.incRc, H.bind_def, H.rd, if_neg hl]

theorem decRc (p : Nat) : Bump pan (Cur.decRc p) s 0 := by
  refine (rd (k := 0)).bindE (k2 := 0) fun rc s1 e => ?_
  have hrc : rc = s1.rc p ∧ s1.live p = true := by
    simp only [H.rd] at e
    split at e <;> cases e
    exact ⟨rfl, ‹_›⟩
  refine (dbg (0 < rc) (k := 0)).bindE (k2 := 0) fun _ s2 e => ?_
  have hs : s2 = s1 := by
    simp only [H.dbg] at e
    split at e <;> cases e
    rfl
  subst hs
  refine bind0 (m := H.wr p _) ?_ fun _ _ => pure _
  refine ⟨fun B _ h2 _ => ?_⟩
  simp only [H.wr, hrc.2, if_true]
  exact setRc_le (low_mono h2 (by omega)) (by have := h2 p hrc.2; omega)

end Bump

/-- Prove `Bump` for straight-line code without increments. -/
macro "quiet" : tactic => `(tactic| repeat' first
  | exact Bump.pure _
  | exact Bump.ub
  | exact Bump.diverge
  | exact Bump.dbg _
  | exact Bump.rd
  | exact Bump.nonNull _
  | exact Bump.derefG _
  | exact Bump.own _
  | exact Bump.release _
  | exact Bump.freshG
  | exact Bump.assert _
  | exact Bump.unwrap _
  | exact Bump.decRc _
  | exact Bump.wr (fun _ => rfl) (fun _ _ h => h)
  | apply_assumption
  | refine Bump.bind0 ?_ fun _ _ => ?_
  | refine Bump.ite ?_ ?_
  | split)

namespace Bump
variable {pan : Bool} {s : HSt} {k : Nat}

theorem addToSll (r : Sll.AddRes) (p : Nat) : Bump pan (r.addToSll p) s k := by
  refine mono (k1 := 0) ?_ (Nat.zero_le _)
  unfold Sll.AddRes.addToSll; quiet

theorem linkLoop : ∀ (n curr key : Nat) (s : HSt), Bump pan (Sll.linkLoop n curr key) s 0
  | 0, _, _, _ => diverge
  | n + 1, curr, key, s => by
    have ih := linkLoop n
    unfold Sll.linkLoop; quiet

theorem link (h key : Nat) (s : HSt) : Bump pan (Sll.link h key) s 0 := by
  have := @linkLoop pan
  unfold Sll.link
  refine bind0 rd fun o s1 => ?_
  cases o with
  | none => exact pure _
  | some h0 =>
    refine bind0 rd fun _ _ => ite (pure _) (bind0 rd fun _ _ => bind0 (nonNull _) fun _ _ => ?_)
    exact loop fun _ => linkLoop ..

theorem init (o : Option Nat) (key : Nat) (s : HSt) : Bump pan (Sll.init o key) s 0 := by
  cases o with
  | none => exact pure _
  | some q => exact link ..

theorem unlink (h p : Nat) (s : HSt) : Bump pan (Sll.unlink h p) s 0 := by
  unfold Sll.unlink; quiet

theorem adjustLoop (d : Sll.Delta) : ∀ (n e c a : Nat) (s : HSt), Bump pan (Sll.adjustLoop n e c a d) s 0
  | 0, _, _, _, _ => diverge
  | n + 1, e, c, a, s => by
    have ih := adjustLoop d n
    unfold Sll.adjustLoop Sll.adjustKey; quiet

theorem adjust (e a : Nat) (d : Sll.Delta) (s : HSt) : Bump pan (Sll.adjust e a d) s 0 := loop fun _ => adjustLoop ..

theorem dealloc (p : Nat) (s : HSt) : Bump pan (Cur.dealloc p) s 0 :=
  wr (fun _ => rfl) fun s x h => by
    simp only [upd] at h
    split at h
    · cases h
    · exact h

theorem freeLoop : ∀ (n p : Nat) (s : HSt), Bump pan (Cur.freeLoop n p) s 0
  | 0, _, _ => diverge
  | n + 1, p, s => by
    have ih := freeLoop n
    have h1 := @unlink pan
    have h2 := @dealloc pan
    unfold Cur.freeLoop Cur.unlinkIf; quiet

theorem free (p : Nat) (s : HSt) : Bump pan (Cur.free p) s 0 := loop fun _ => freeLoop ..

theorem drop (p : Nat) (s : HSt) : Bump pan (Cur.drop p) s 0 := by
  have := @free pan
  unfold Cur.drop; quiet

theorem dropAll : ∀ (l : List Nat) (s : HSt), Bump pan (Cur.dropAll l) s 0
  | [], _ => pure _
  | p :: l, s => bind0 (drop p s) fun _ s => dropAll l s

theorem dropOpt (o : Option Nat) (s : HSt) : Bump pan (Cur.dropOpt o) s 0 := by
  cases o with
  | none => exact pure _
  | some p => exact drop ..

theorem alloc {o : Option Nat} {i off : Nat} {g : GElem} {m : Bool} : Bump pan (Cur.alloc o i off g m) s k := by
  refine ⟨fun B h1 h2 _ x hx => ?_⟩
  simp only [upd] at hx ⊢
  split
  · omega
  · rename_i hne
    rw [if_neg hne] at hx
    have := h2 x hx; omega

theorem newData (o : Option Nat) (i off : Nat) (g : GElem) (m : Bool) (s : HSt) :
    Bump pan (Cur.newData o i off g m) s 1 := by
  unfold Cur.newData
  refine ite ?_ alloc
  refine bind0 (init ..) fun it s => ?_
  split
  · refine bind0 rd fun _ _ => bind0 (dbg _) fun _ _ => bind0 rd fun _ _ => bind0 (derefG _) fun _ _ =>
      bind0 (derefG _) fun _ _ => bind0 (dbg _) fun _ _ => bind0 (dropOpt ..) fun _ _ => ?_
    exact bind (k2 := 0) (incRc _) fun _ _ => pure _
  · exact bind0 alloc fun _ _ => bind0 (addToSll ..) fun _ _ => pure _

theorem parentNode (p : Nat) (s : HSt) : Bump pan (Cur.parentNode p) s 1 := by
  refine bind0 rd fun o s => ?_
  cases o with
  | none => exact pure _
  | some q => exact bind0 rd fun _ _ => bind0 (dbg _) fun _ _ => bind (k2 := 0) (incRc _) fun _ _ => pure _

theorem green (p : Nat) (s : HSt) : Bump pan (Cur.green p) s 0 := by
  unfold Cur.green; quiet

theorem greenRef (p : Nat) (s : HSt) : Bump true (Cur.greenRef p) s k :=
  mono (bind0 (green ..) fun _ _ => unwrap _ (k := 0)) (Nat.zero_le _)

theorem greenSiblings (p : Nat) (s : HSt) : Bump pan (Cur.greenSiblings p) s 0 := by
  unfold Cur.greenSiblings; quiet

theorem offsetMut : ∀ (n p r : Nat) (s : HSt), Bump true (Cur.offsetMut n p r) s 0
  | 0, _, _, _ => diverge
  | n + 1, p, r, s => by
    refine bind0 rd fun o s => ?_
    cases o with
    | none => exact pure _
    | some q =>
      exact bind0 (greenRef ..) fun _ _ => bind0 rd fun _ _ => bind0 (unwrap _) fun _ _ => offsetMut ..

theorem offset (p : Nat) (s : HSt) : Bump true (Cur.offset p) s 0 :=
  bind0 rd fun _ _ => ite (loop fun _ => offsetMut ..) rd

theorem newChild (g : GElem) (q i off : Nat) (s : HSt) : Bump pan (Cur.newChild g q i off) s 1 :=
  bind0 rd fun _ _ => newData ..

theorem viaParent (p : Nat) (o : Option (GChild × Nat)) (s : HSt) : Bump true (Cur.viaParent p o) s 2 := by
  cases o with
  | none => exact pure _
  | some x =>
    refine bind (k1 := 1) (k2 := 1) (parentNode ..) fun o s => ?_
    cases o with
    | none => exact pure _
    | some q => exact bind0 (offset ..) fun _ _ => bind (k2 := 0) (newChild ..) fun _ _ => pure _

theorem viaSelf (p : Nat) (o : Option (GChild × Nat)) (s : HSt) : Bump true (Cur.viaSelf p o) s 2 := by
  cases o with
  | none => exact pure _
  | some x =>
    exact bind (k1 := 1) (k2 := 1) (incRc ..) fun o s =>
      bind0 (offset ..) fun _ _ => bind (k2 := 0) (newChild ..) fun _ _ => pure _

theorem siblings {f : List GChild → Nat → H (Option Nat)} (p : Nat) (s : HSt) (h : ∀ a b s, Bump true (f a b) s k) :
    Bump true (do
      let sib ← Cur.greenSiblings p
      let i ← Cur.index p
      f sib i) s k :=
  bind0 (greenSiblings ..) fun _ _ => bind0 rd fun _ _ => h ..

theorem nav (f : Nav) (p : Nat) (s : HSt) : Bump true (f.run p) s 2 := by
  cases f
  case parent => exact mono (parentNode ..) (by omega)
  case prevSibling => exact siblings p s fun _ _ _ => ite (pure _) (viaParent ..)
  case prevSiblingOrToken => exact siblings p s fun _ _ _ => ite (pure _) (viaParent ..)
  all_goals first
    | exact siblings p s fun _ _ _ => viaParent ..
    | exact bind0 (greenRef ..) fun _ _ => viaSelf ..

theorem advance (p q off : Nat) (o : Option (GChild × Nat)) (s : HSt) : Bump true (Cur.advance p q off o) s 0 := by
  have h1 := @drop true
  have h2 := @free true
  cases o <;> simp only [Cur.advance] <;> quiet

theorem takeNext (sel : List (GChild × Nat) → Option (GChild × Nat)) (p : Nat) (s : HSt) :
    Bump true (Cur.takeNext sel p) s 1 := by
  refine bind (k2 := 0) (parentNode ..) fun o s => ?_
  cases o with
  | none => exact pure _
  | some q =>
    exact bind0 (offset ..) fun _ _ => bind0 (greenRef ..) fun _ _ => bind0 rd fun _ _ => advance ..

theorem canTakePtr (p : Nat) (s : HSt) : Bump pan (Cur.canTakePtr p) s 0 := by
  unfold Cur.canTakePtr; quiet

theorem toNextOf (nodes : Bool) (p : Nat) (s : HSt) : Bump true (Cur.toNextOf nodes p) s 2 := by
  have h1 := nav .nextSibling p
  have h2 := nav .nextSiblingOrToken p
  cases nodes <;>
  · refine bind0 (canTakePtr ..) fun _ s => ite (mono (takeNext ..) (by omega)) ?_
    refine bind (k1 := 2) (k2 := 0) (by first | exact h1 s | exact h2 s) fun _ _ => ?_
    exact bind0 (drop ..) fun _ _ => pure _

theorem newRoot (g : GNode) (s : HSt) : Bump pan (Cur.newRoot g) s k :=
  bind0 (own _) fun _ _ => alloc

theorem newRootMut (g : GNode) (s : HSt) : Bump pan (Cur.newRootMut g) s k :=
  bind0 (own _) fun _ _ => mono (bindE (k1 := 0) (k2 := 0) (init ..) fun it s' e => by
    cases e
    exact bind0 alloc fun _ _ => bind0 (addToSll ..) fun _ _ => pure _) (Nat.zero_le _)

theorem cloneForUpdateLoop : ∀ (n p : Nat) (s : HSt), Bump true (Cur.cloneForUpdateLoop n p) s (2 * n)
  | 0, _, _ => diverge
  | n + 1, p, s => by
    refine mono (k1 := 1 + (2 * n + 1)) ?_ (by omega)
    refine bind0 rd fun _ _ => bind0 (assert _) fun _ _ => bind (parentNode ..) fun o s => ?_
    cases o with
    | none => exact bind0 (greenRef ..) fun _ _ => newRootMut ..
    | some q =>
      refine bind (cloneForUpdateLoop ..) fun _ _ => bind0 (greenRef ..) fun _ _ => bind0 rd fun _ _ =>
        bind0 (offset ..) fun _ _ => bind (k2 := 0) (newChild ..) fun _ _ => bind0 (drop ..) fun _ _ => pure _

theorem respine : ∀ (n p : Nat) (g : GNode) (s : HSt), Bump true (Cur.respine n p g) s 0
  | 0, _, _, _ => diverge
  | n + 1, p, g, s => by
    have ih := respine n
    have h := @greenRef 0
    unfold Cur.respine Cur.index; quiet

theorem detachData (p : Nat) (s : HSt) : Bump true (Cur.detachData p) s 0 := by
  have h1 := @adjust true
  have h2 := @unlink true
  have h3 := @greenRef 0
  have h4 := @green true
  have h5 := @free true
  have h6 := respine
  unfold Cur.detachData Cur.index
  refine bind0 rd fun _ _ => bind0 (assert _) fun _ _ => bind0 rd fun _ _ => bind0 (assert _) fun _ _ =>
    bind0 rd fun o s => ?_
  cases o with
  | none => exact pure _
  | some q =>
    refine bind0 (wr (fun _ => rfl) fun _ _ h => h) fun _ _ => bind0 rd fun _ _ => bind0 (h1 ..) fun _ _ =>
      bind0 (h2 ..) fun _ _ => bind0 (h4 ..) fun _ _ => bind0 (own _) fun _ _ => bind0 (h3 ..) fun _ _ =>
      bind0 rd fun _ _ => bind0 freshG fun _ _ => bind0 (unwrap _) fun _ _ => bind0 (own _) fun _ _ =>
      bind0 ?_ fun _ _ => bind0 (decRc _) fun _ _ => ite (h5 ..) (pure _)
    exact loop fun _ => respine ..

theorem detach (p : Nat) (s : HSt) : Bump true (Cur.detach p) s 0 :=
  bind0 rd fun _ _ => bind0 (assert _) fun _ _ => detachData ..

theorem insertGreen (g : GNode) (a i : Nat) (e : GElem) (s : HSt) : Bump true (Cur.insertGreen g a i e) s 0 := by
  unfold Cur.insertGreen
  split
  · quiet
  · exact bind0 (release _) fun _ _ => panic

theorem attach (q i p : Nat) (s : HSt) : Bump true (Cur.attach q i p) s 1 := by
  refine bind0 rd fun _ _ => bind0 (assert _) fun _ _ => bind0 (detach ..) fun _ _ => ?_
  refine bind0 rd fun _ _ => bind0 rd fun _ _ => bind0 rd fun _ _ => bind0 (assert _) fun _ _ =>
    bind0 rd fun _ _ => bind0 rd fun _ _ => bind0 (assert _) fun _ _ => ?_
  refine bind0 rd fun _ _ => bind0 (wr (fun _ => rfl) fun _ _ h => h) fun _ _ => bind0 (wr (fun _ => rfl) fun _ _ h => h) fun _ _ => ?_
  refine bind (k2 := 0) (incRc _) fun _ _ => bind0 ?_ fun _ _ => bind0 ?_ fun _ _ => bind0 (greenRef ..) fun _ _ =>
    bind0 rd fun _ _ => bind0 freshG fun _ _ => bind0 (insertGreen ..) fun _ _ => ?_
  · refine bind0 rd fun o _ => ?_
    cases o with
    | none => exact pure _
    | some f => exact adjust ..
  · refine bind0 rd fun _ _ => bind0 (link ..) fun it _ => ?_
    cases it with
    | alreadyInSll => exact panic
    | _ => exact addToSll ..
  · exact loop fun _ => respine ..

theorem step (it : Cur.Children) (s : HSt) : Bump true it.step s 3 := by
  refine bind (k1 := 2) (k2 := 1) ?_ fun o s => bind (k1 := 1) (k2 := 0) ?_ fun _ _ => pure _
  · unfold Cur.Children.advance
    refine ite ?_ ?_
    · exact ite (nav .firstChild ..) (nav .firstChildOrToken ..)
    · split
      · exact pure _
      · exact toNextOf ..
  · cases o with
    | none => exact pure _
    | some e => exact bind (k2 := 0) (incRc _) fun _ _ => pure _

theorem spliceDelete (a b : Nat) : ∀ (n i : Nat) (it : Cur.Children) (s : HSt),
    Bump true (Cur.spliceDelete a b n i it) s (3 * n)
  | 0, _, _, _ => diverge
  | n + 1, i, it, s => by
    refine mono (k1 := 3 + 3 * n) ?_ (by omega)
    refine bind (step ..) fun x s => ?_
    obtain ⟨r, it⟩ := x
    cases r with
    | none => exact mono (bind0 (drop ..) fun _ _ => dropOpt ..) (Nat.zero_le _)
    | some e =>
      refine bind0 ?_ fun _ _ => bind0 (drop ..) fun _ _ => spliceDelete ..
      exact ite (detach ..) (pure _)

theorem spliceInsert (q : Nat) : ∀ (i : Nat) (l : List Nat) (s : HSt), Bump true (Cur.spliceInsert q i l) s l.length
  | _, [], _ => pure _
  | i, e :: es, s => by
    refine mono (k1 := 1 + es.length) ?_ (by simp; omega)
    refine bind (k1 := 1) (onPanic (k2 := 0) (attach ..) fun _ => dropAll ..) fun _ _ => ?_
    exact bind0 (drop ..) fun _ _ => spliceInsert ..

/-- The number of children of the node read. -/
theorem greenRef_len {p : Nat} {g : GNode} {s s' : HSt} (h : Cur.greenRef p s = .ok g s') :
    s' = s ∧ g.slice.length = (s.tree p).children.length := by
  by_cases hl : s.live p = true
  · by_cases hg : s.holds (s.green p).addr = true
    · simp only [Cur.greenRef, Cur.green, H.bind_def, H.rd, H.derefG, if_pos hl, if_pos hg, H.pure_apply] at h
      simp only [HSt.tree]
      cases hn : s.green p with
      | token t => rw [hn] at h; cases h
      | node n =>
        rw [hn] at h
        cases h
        rw [GElem.tree_node, GNode.tree_children]
        simp [GNode.children]
    · simp only [Cur.greenRef, Cur.green, H.bind_def, H.rd, H.derefG, if_pos hl, if_neg hg] at h
      cases h
  · simp only [Cur.greenRef, Cur.green, H.bind_def, H.rd, if_neg hl] at h
    cases h

theorem deletion {f : GNode → H Unit} (q : Nat) (s : HSt)
    (hf : ∀ g s, Bump true (f g) s (3 * (g.slice.length + 1) + 1)) :
    Bump true (Cur.greenRef q >>= f) s (3 * ((s.tree q).children.length + 1) + 1) := by
  refine mono (bindE (k1 := 0) (greenRef ..) fun g s' e => ?_) (Nat.le_of_eq (Nat.zero_add _))
  obtain ⟨_, h⟩ := greenRef_len e
  rw [← h]
  exact hf g s'

theorem exec (c : Call) (s : HSt) : Bump true c.exec s (c.cost s) := by
  cases c with
  | newRoot m g =>
    cases m
    · exact bind0 (newRoot ..) fun _ _ => pure _
    · exact bind0 (newRootMut ..) fun _ _ => pure _
  | clone p => exact bind (k2 := 0) (bind (k2 := 0) (incRc _) fun _ _ => pure _) fun _ _ => pure _
  | drop p => exact bind0 (drop ..) fun _ _ => pure _
  | forget p => exact pure _
  | read p =>
    refine bind0 (bind0 (green ..) fun _ _ => pure _) fun _ _ => bind0 ?_ fun _ _ => bind0 rd fun _ _ => pure _
    exact bind0 (offset ..) fun _ _ => bind0 (green ..) fun _ _ => pure _
  | nav f p => exact bind (k2 := 0) (nav ..) fun _ _ => pure _
  | toNext nodes p => exact bind (k2 := 0) (toNextOf ..) fun _ _ => pure _
  | cloneSubtree p =>
    exact bind0 (bind0 (greenRef ..) fun _ _ => newRoot ..) fun _ _ => pure _
  | cloneForUpdate p =>
    refine bind (k2 := 0) ?_ fun _ _ => pure _
    exact ⟨(mono (cloneForUpdateLoop (s.top + s.slack + 1) p s) (by show 2 * (s.top + s.slack + 1) ≤ 2 * (s.top + s.slack + 2); omega)).run⟩
  | detach p => exact bind0 (detach ..) fun _ _ => pure _
  | splice q a b ins =>
    refine bind (k1 := 3 * ((s.tree q).children.length + 1) + 1 + ins.length) (k2 := 0) ?_ fun _ _ => pure _
    refine mono (bindE (k1 := 0) (k2 := 3 * ((s.tree q).children.length + 1) + 1 + ins.length) rd fun m s1 e1 => ?_)
      (by omega)
    refine mono (bindE (k1 := 0) (k2 := 3 * ((s.tree q).children.length + 1) + 1 + ins.length)
      (onPanic (k1 := 0) (assert _) fun _ => dropAll ..) fun _ s2 e2 => ?_) (by omega)
    have h1 : s1 = s := by
      simp only [H.rd] at e1
      split at e1 <;> cases e1
      rfl
    have h2 : s2 = s1 := by
      cases m with
      | true => cases e2; rfl
      | false =>
        simp only [H.onPanic, H.assert, Bool.false_eq_true, if_false, H.panic] at e2
        split at e2 <;> cases e2
    rw [h2, h1]
    refine bind (deletion q s fun g s => ?_) fun _ _ => spliceInsert ..
    exact mono (bind (k1 := 1) (incRc _) fun _ _ => spliceDelete ..) (by omega)
  | attach q i p => exact bind (k1 := 1) (k2 := 0) (spliceInsert ..) fun _ _ => pure _

end Bump

/-- A call made while no reference count is near the limit does not abort. -/
theorem Call.no_abort {c : Call} {s : HSt} (h : s.Room (c.cost s)) : c.exec s ≠ .abort := by
  intro e
  have h1 := h.1
  have := (Bump.exec c s).run (Cur.rcMax - c.cost s) (by omega) (fun p hp => by have := h.2 p hp; omega) (by omega)
  rw [e] at this
  exact this

/-- The loops of C35. -/
theorem Cur.detachEach_no_abort {nodes : Bool} {q : Nat} {s : HSt}
    (h : s.Room (3 * ((s.tree q).children.length + 1) + 1)) : Cur.detachEach nodes q s ≠ .abort := by
  intro e
  have h1 := h.1
  have hb : Bump true (Cur.detachEach nodes q) s (3 * ((s.tree q).children.length + 1) + 1) :=
    Bump.deletion q s fun g s => (Bump.bind (k1 := 1) (Bump.incRc _) fun _ _ => Bump.spliceDelete ..).mono (by omega)
  have := hb.run (Cur.rcMax - (3 * ((s.tree q).children.length + 1) + 1)) (by omega)
    (fun p hp => by have := h.2 p hp; omega) (by omega)
  rw [e] at this
  exact this

theorem Bump.byKindLoop {m : SyntaxKind → Bool} : ∀ (n : Nat) (it : Cur.ByKind) (s : HSt),
    Bump true (Cur.detachByKindLoop m n it) s (2 * n)
  | 0, _, _ => diverge
  | n + 1, it, s => by
    refine mono (k1 := 2 + 2 * n) ?_ (by omega)
    refine bind (k1 := 2) (bind (k2 := 0) ?_ fun _ _ => pure _) fun x s => ?_
    · unfold Cur.ByKind.advance
      split
      · exact pure _
      · exact ite (nav (.nextSiblingByKind m) ..) (nav (.nextSiblingOrTokenByKind m) ..)
    · obtain ⟨r, it⟩ := x
      cases r with
      | none => exact pure _
      | some e => exact bind0 (detach ..) fun _ _ => bind0 (drop ..) fun _ _ => byKindLoop ..

theorem Cur.detachByKind_no_abort {nodes : Bool} {m : SyntaxKind → Bool} {q : Nat} {s : HSt}
    (h : s.Room (3 * ((s.tree q).children.length + 1) + 1)) : Cur.detachByKind nodes m q s ≠ .abort := by
  intro e
  have h1 := h.1
  have hb : Bump true (Cur.detachByKind nodes m q) s (3 * ((s.tree q).children.length + 1) + 1) := by
    refine Bump.deletion q s fun g s => ?_
    refine (Bump.bind (k1 := 2) (k2 := 2 * (g.slice.length + 1)) ?_ fun _ _ => Bump.byKindLoop ..).mono (by omega)
    exact Bump.ite (Bump.nav (.firstChildByKind m) ..) (Bump.nav (.firstChildOrTokenByKind m) ..)
  have := hb.run (Cur.rcMax - (3 * ((s.tree q).children.length + 1) + 1)) (by omega)
    (fun p hp => by have := h.2 p hp; omega) (by omega)
  rw [e] at this
  exact this

end Rowan
