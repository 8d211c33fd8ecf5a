import Verif.Ref
import Mathlib.Data.Multiset.DershowitzManna
/-!
# Cascades of posted events

`Descends`: events posted while an event is handled rank lower than this event. Under this condition the reference machine drains its queue.
-/

namespace SC
open Spec
variable {W α β : Type}

/-- The events posted by `cmds` while event `e` is handled rank lower than `e`; none is posted while an exception event is handled. -/
def Below [LT α] (P : Prog W) (rank : Event → α) (e : Event) (cmds : List Cmd) : Prop :=
  ∀ p, Cmd.post p ∈ cmds → rank p < rank e ∧ ∀ x, P.translate x ≠ some e

/-- Whatever user code posts while an event is handled ranks lower than this event. -/
structure Descends [LT α] (P : Prog W) (rank : Event → α) : Prop where
  ctor : ∀ s v w e, v.trig = some e → Below P rank e (P.ctor s v w).cmds
  exit : ∀ s v w e, v.trig = some e → Below P rank e (P.exit s v w).cmds
  dtor : ∀ s v w e, v.trig = some e → Below P rank e (P.dtor s v w).2
  action : ∀ a v w e, v.trig = some e → Below P rank e (P.action a v w).cmds
  react : ∀ s id e v w, Below P rank e (P.react s id e v w).1.cmds
  unconsumed : ∀ e v w, Below P rank e (P.unconsumed e v w).cmds

/-- Some state may defer event `e`. -/
def MayDefer (P : Prog W) (e : Event) : Prop := ∃ s r, r ∈ P.reactions s ∧ (r.ev = none ∨ r.ev = some e.ty) ∧
  (r.kind = .deferral ∨ ∃ id v w, r.kind = .custom id ∧ (P.react s id e v w).2 = .defer)

/-- Reactions that defer an event, or forward one that may be deferred, post nothing. -/
def Reticent (P : Prog W) : Prop := ∀ s id e v w p, MayDefer P e → (P.react s id e v w).2 = .forward ∨ (P.react s id e v w).2 = .defer →
  Cmd.post p ∉ (P.react s id e v w).1.cmds

namespace Cascade
variable [Preorder α] (P : Prog W) (rank : Event → α)

/-- The events in the machine. -/
def tot (st : Ref.St W) : Multiset α := ((st.evq ++ st.dq).map rank : List α)

/-- Event `e`, or an exception event, is handled. -/
def Handles (e : Event) (st : Ref.St W) : Prop := st.trig = some e ∨ ∃ x ev, P.translate x = some ev ∧ st.trig = some ev

/-- Only events that rank lower than `e` have been added. -/
structure Grows (e : Event) (st st' : Ref.St W) : Prop where
  trig : st'.trig = st.trig
  grows : ∃ ps : Multiset α, (∀ p ∈ ps, p < rank e) ∧ tot rank st' ≤ tot rank st + ps

variable {P rank} {e : Event}

theorem Grows.refl (st : Ref.St W) : Grows rank e st st := ⟨rfl, 0, fun p hp => absurd hp (Multiset.notMem_zero p), by simp⟩

theorem Grows.trans {a b c : Ref.St W} (h1 : Grows rank e a b) (h2 : Grows rank e b c) : Grows rank e a c := by
  obtain ⟨t1, p1, k1, l1⟩ := h1
  obtain ⟨t2, p2, k2, l2⟩ := h2
  refine ⟨t2.trans t1, p1 + p2, ?_, ?_⟩
  · intro p hp
    rcases Multiset.mem_add.1 hp with h | h
    · exact k1 p h
    · exact k2 p h
  · exact l2.trans (by rw [← add_assoc]; exact add_le_add_left l1 p2)

theorem Grows.same {st st' : Ref.St W} (h1 : st'.trig = st.trig) (h2 : st'.evq = st.evq) (h3 : st'.dq = st.dq) : Grows rank e st st' :=
  ⟨h1, 0, fun p hp => absurd hp (Multiset.notMem_zero p), by unfold tot; rw [h2, h3]; simp⟩

theorem Grows.less {st st' : Ref.St W} (h1 : st'.trig = st.trig) (h2 : tot rank st' ≤ tot rank st) : Grows rank e st st' :=
  ⟨h1, 0, fun p hp => absurd hp (Multiset.notMem_zero p), by simpa using h2⟩

variable (P rank e) in
/-- `x` adds only events that rank lower than `e`. -/
def Adds (x : Ref.R W β) : Prop := ∀ st, Handles P e st → match x st with
  | .ok _ st' => Grows rank e st st'
  | .thrown _ st' => Grows rank e st st'

variable (P rank e) in
def Does (f : Ref.St W → Ref.St W) : Prop := ∀ st, Handles P e st → Grows rank e st (f st)

theorem Handles.of {st st' : Ref.St W} (h : Handles P e st) (hg : st'.trig = st.trig) : Handles P e st' := by
  unfold Handles at *
  rw [hg]; exact h

theorem adds_pure (b : β) : Adds P rank e (pure b : Ref.R W β) := fun st _ => Grows.refl st

theorem adds_throw (x : Exc) : Adds P rank e (Ref.R.throw x : Ref.R W β) := fun st _ => Grows.refl st

theorem adds_bind {γ : Type} {x : Ref.R W γ} {f : γ → Ref.R W β} (hx : Adds P rank e x) (hf : ∀ a, Adds P rank e (f a)) : Adds P rank e (x >>= f) := by
  intro st h
  have h1 := hx st h
  show match Ref.R.bnd x f st with | .ok _ st' => Grows rank e st st' | .thrown _ st' => Grows rank e st st'
  unfold Ref.R.bnd
  cases hr : x st with
  | ok a st1 =>
    rw [hr] at h1
    have h2 := hf a st1 (h.of h1.trig)
    cases hr2 : f a st1 with
    | ok b st2 => rw [hr2] at h2; simp only [hr2]; exact h1.trans h2
    | thrown y st2 => rw [hr2] at h2; simp only [hr2]; exact h1.trans h2
  | thrown y st1 => rw [hr] at h1; exact h1

theorem adds_get {F : Ref.St W → Ref.R W β} (h : ∀ st, Adds P rank e (F st)) : Adds P rank e (Ref.R.get >>= F) := fun st hs => h st st hs

theorem adds_modify {f : Ref.St W → Ref.St W} (h : Does P rank e f) : Adds P rank e (Ref.R.modify f) := h

theorem does_same {f : Ref.St W → Ref.St W} (h1 : ∀ st, (f st).trig = st.trig) (h2 : ∀ st, (f st).evq = st.evq) (h3 : ∀ st, (f st).dq = st.dq) :
    Does P rank e f := fun st _ => .same (h1 st) (h2 st) (h3 st)

theorem adds_onThrow {x : Ref.R W β} {f : Ref.St W → Ref.St W} (hx : Adds P rank e x) (hf : Does P rank e f) : Adds P rank e (Ref.R.onThrow x f) := by
  intro st h
  have h1 := hx st h
  unfold Ref.R.onThrow
  cases hr : x st with
  | ok a st1 => rw [hr] at h1; exact h1
  | thrown y st1 => rw [hr] at h1; exact h1.trans (hf st1 (h.of h1.trig))

theorem adds_ite {c : Prop} [Decidable c] {x y : Ref.R W β} (hx : Adds P rank e x) (hy : Adds P rank e y) : Adds P rank e (if c then x else y) := by
  split
  · exact hx
  · exact hy

theorem Handles.below {st : Ref.St W} {v : View} {cmds : List Cmd} (h : Handles P e st) (hv : v.trig = st.trig)
    (hl : ∀ e, v.trig = some e → Below P rank e cmds) : ∀ p, Cmd.post p ∈ cmds → rank p < rank e := by
  intro p hp
  rcases h with h | ⟨x, ev, h1, h2⟩
  · exact (hl e (hv.trans h) p hp).1
  · exact absurd h1 ((hl ev (hv.trans h2) p hp).2 x)

variable (P) in
/-- The event offered to the states: `e` or an exception event. -/
def Offered (e ev : Event) : Prop := ev = e ∨ ∃ x, P.translate x = some ev

theorem Offered.below {ev : Event} {cmds : List Cmd} (h : Offered P e ev) (hl : Below P rank ev cmds) : ∀ p, Cmd.post p ∈ cmds → rank p < rank e := by
  intro p hp
  rcases h with rfl | ⟨x, h⟩
  · exact (hl p hp).1
  · exact absurd h ((hl p hp).2 x)

theorem grows_cmds (cs : List Cmd) : ∀ st : Ref.St W, (∀ p, Cmd.post p ∈ cs → rank p < rank e) → Grows rank e st (cs.foldl Ref.St.cmd st) := by
  induction cs with
  | nil => intro st _; exact .refl st
  | cons c cs ih =>
    intro st h
    refine Grows.trans ?_ (ih (st.cmd c) fun p hp => h p (List.mem_cons_of_mem _ hp))
    cases c with
    | post p =>
      refine ⟨rfl, {rank p}, ?_, ?_⟩
      · intro q hq
        rw [Multiset.mem_singleton.1 hq]
        exact h p List.mem_cons_self
      · refine le_of_eq ?_
        unfold tot
        show (((st.evq ++ [p] ++ st.dq).map rank : List α) : Multiset α) = _
        rw [← Multiset.coe_singleton, Multiset.coe_add, Multiset.coe_eq_coe]
        simp only [List.map_append, List.append_assoc, List.map_cons, List.map_nil]
        exact List.Perm.append_left _ List.perm_append_comm
    | clearShallow k => exact .same rfl rfl rfl
    | clearDeep k => exact .same rfl rfl rfl

theorem grows_logs (l : List Obs) : ∀ st : Ref.St W, Grows rank e st (l.foldl Ref.St.log st) := by
  induction l with
  | nil => intro st; exact .refl st
  | cons o l ih => intro st; exact Grows.trans (b := st.log o) (.same rfl rfl rfl) (ih (st.log o))

theorem adds_user {f : View → W → UOut W} {a b : List Obs}
    (hf : ∀ st : Ref.St W, Handles P e st → ∀ w p, Cmd.post p ∈ (f st.view w).cmds → rank p < rank e) : Adds P rank e (Ref.user f a b) := by
  intro st h
  have h1 : Grows rank e st ((f st.view st.world).cmds.foldl Ref.St.cmd { st with world := (f st.view st.world).world }) :=
    Grows.trans (b := { st with world := (f st.view st.world).world }) (.same rfl rfl rfl) (grows_cmds _ _ (hf st h st.world))
  unfold Ref.user
  cases ht : (f st.view st.world).throws with
  | none => simp only [ht]; exact h1.trans (grows_logs _ _)
  | some x => simp only [ht]; exact h1.trans (grows_logs _ _)

theorem adds_alloc (s : Site) : Adds P rank e (Ref.alloc P s) := by
  intro st _
  unfold Ref.alloc
  cases P.alloc s st.world with
  | mk w x =>
    cases x with
    | none => exact .same rfl rfl rfl
    | some x => exact .same rfl rfl rfl

theorem adds_entry (has : Ref.St W → Bool) (s : Site) : Adds P rank e (Ref.entry P has s) := by
  intro st h
  unfold Ref.entry
  cases has st with
  | true => exact Grows.refl st
  | false => exact adds_alloc s st h

variable (hd : Descends P rank)
include hd

theorem does_destroy (s : Sid) : Does P rank e (Ref.destroy P s) := by
  intro st h
  have h1 : Grows rank e st (((P.dtor s st.view st.world).2.foldl Ref.St.cmd { st with world := (P.dtor s st.view st.world).1 }).log (.destroy s)) :=
    Grows.trans (b := { st with world := (P.dtor s st.view st.world).1 }) (.same rfl rfl rfl)
      ((grows_cmds _ _ (h.below rfl (hd.dtor s st.view st.world))).trans (.same rfl rfl rfl))
  refine h1.trans ?_
  unfold Ref.destroy
  simp only []
  generalize ((P.dtor s st.view st.world).2.foldl Ref.St.cmd { st with world := (P.dtor s st.view st.world).1 }).log (.destroy s) = x
  cases x.defers s with
  | false => exact .same rfl rfl rfl
  | true =>
    refine .less rfl (le_of_eq ?_)
    show ((((x.dq ++ x.evq) ++ []).map rank : List α) : Multiset α) = (((x.evq ++ x.dq).map rank : List α) : Multiset α)
    rw [Multiset.coe_eq_coe, List.append_nil]
    exact List.Perm.map rank List.perm_append_comm

theorem does_drop (keep : Sid → Bool) (f : Nat) : ∀ s, Does P rank e (Ref.drop P keep f s) := by
  induction f with
  | zero => intro s st _; cases s <;> exact .refl st
  | succ f ih =>
    intro s st h
    cases s with
    | none => exact .refl st
    | some s =>
      unfold Ref.drop
      by_cases hn : Ref.needed P keep st s
      · rw [if_pos hn]; exact .refl st
      · rw [if_neg hn]
        have h1 := does_destroy hd s st h
        exact h1.trans (ih _ _ (h.of h1.trig))

omit hd in
theorem adds_shallow (s : Sid) : Adds P rank e (Ref.rememberShallow P s) := by
  unfold Ref.rememberShallow
  cases P.parent s with
  | none => exact adds_pure ()
  | some p => exact adds_ite (adds_bind (adds_entry _ _) fun _ => adds_modify (does_same (fun _ => rfl) (fun _ => rfl) fun _ => rfl)) (adds_pure ())

omit hd in
theorem adds_deep (leaf : Sid) (f : Nat) : ∀ cur, Adds P rank e (Ref.rememberDeep P leaf f cur) := by
  induction f with
  | zero => intro cur; exact adds_pure ()
  | succ f ih =>
    intro cur
    unfold Ref.rememberDeep
    cases P.parent cur with
    | none => exact adds_pure ()
    | some p =>
      exact adds_bind (adds_ite (adds_bind (adds_entry _ _) fun _ => adds_modify (does_same (fun _ => rfl) (fun _ => rfl) fun _ => rfl)) (adds_pure ()))
        fun _ => ih p

theorem adds_exitOne (keep : Sid → Bool) (full : Bool) (s : Sid) : Adds P rank e (Ref.exitOne P keep full s) := by
  unfold Ref.exitOne
  refine adds_bind (adds_modify (does_same (fun _ => rfl) (fun _ => rfl) fun _ => rfl)) fun _ => ?_
  refine adds_bind (adds_ite (adds_onThrow ?_ ?_) (adds_pure ())) fun _ => adds_modify (does_destroy hd s)
  · exact adds_bind (adds_user fun st h w => h.below rfl (hd.exit s st.view w)) fun _ => adds_bind (adds_shallow s) fun _ => adds_ite (adds_deep s _ s) (adds_pure ())
  · intro st h
    have h1 := does_destroy hd s st h
    exact h1.trans (does_drop hd keep _ _ _ (h.of h1.trig))

theorem adds_exitAll (keep : Sid → Bool) (full : Bool) (l : List Sid) : Adds P rank e (Ref.exitAll P keep full l) := by
  induction l with
  | nil => exact adds_pure ()
  | cons s l ih => exact adds_bind (adds_exitOne hd keep full s) fun _ => ih

theorem adds_exits (keep : Sid → Bool) (full : Bool) (l : (Sid → Bool) → List Sid) : Adds P rank e (Ref.exits P keep full l) :=
  adds_bind (adds_modify (does_same (fun _ => rfl) (fun _ => rfl) fun _ => rfl)) fun _ => adds_get fun _ => adds_exitAll hd keep full _

theorem adds_leaveAll (full : Bool) : Adds P rank e (Ref.leaveAll P full) := by
  unfold Ref.leaveAll
  refine adds_bind (adds_modify (does_same (fun _ => rfl) (fun _ => rfl) fun _ => rfl)) fun _ => adds_get fun st => adds_bind ?_ fun _ => adds_modify ?_
  · cases st.root with
    | none => exact adds_pure ()
    | some s => exact adds_exits hd _ _ _
  · exact fun st _ => .less rfl (by unfold tot; simp)

omit hd in
theorem adds_register (s : Sid) : Adds P rank e (Ref.register P s) := by
  unfold Ref.register
  refine adds_bind (adds_ite (adds_get fun st => adds_bind (adds_ite (adds_bind (adds_alloc _) fun _ => adds_modify
    (does_same (fun _ => rfl) (fun _ => rfl) fun _ => rfl)) (adds_pure ())) fun _ => adds_modify
    (does_same (fun _ => rfl) (fun _ => rfl) fun _ => rfl)) (adds_pure ())) fun _ => adds_modify fun st _ => ?_
  show Grows rank e st (if _ then _ else _)
  split
  · exact .same rfl rfl rfl
  · exact .refl st

theorem adds_enter (s : Sid) : Adds P rank e (Ref.enter P s) := by
  have ha : Adds P rank e (Ref.R.modify (Ref.attach P s)) := adds_modify (does_same (fun _ => rfl) (fun _ => rfl) fun _ => rfl)
  unfold Ref.enter
  exact adds_bind (adds_alloc _) fun _ => adds_bind (adds_modify (does_same (fun _ => rfl) (fun _ => rfl) fun _ => rfl)) fun _ =>
    adds_bind (adds_ite (adds_pure ()) ha) fun _ => adds_bind (adds_onThrow (adds_user fun st h w => h.below rfl (hd.ctor s st.view w)) (does_same (fun _ => rfl) (fun _ => rfl) fun _ => rfl))
      fun _ => adds_bind (adds_ite ha (adds_pure ())) fun _ => adds_onThrow (adds_register s) (does_destroy hd s)

theorem does_dropOne (s : Sid) : Does P rank e (Ref.dropOne P s) := by
  intro st h
  unfold Ref.dropOne
  split
  · exact .refl st
  · exact does_destroy hd s st h

theorem adds_build (f : Nat) : ∀ j, Adds P rank e (Ref.build P f j) := by
  induction f with
  | zero => intro j; exact adds_pure ()
  | succ f ih =>
    intro j
    cases j with
    | deep s =>
      unfold Ref.build
      exact adds_bind (adds_enter hd s) fun _ => adds_onThrow (ih _) (does_dropOne hd s)
    | target t =>
      unfold Ref.build
      exact adds_get fun st => ih _
    | inners l =>
      cases l with
      | nil => unfold Ref.build; exact adds_pure ()
      | cons t l =>
        unfold Ref.build
        exact adds_bind (ih _) fun _ => ih _
    | chain l d =>
      cases l with
      | nil => unfold Ref.build; exact ih _
      | cons x l =>
        unfold Ref.build
        exact adds_bind (adds_enter hd x) fun _ => adds_onThrow (adds_bind (ih _) fun _ => adds_bind (ih _) fun _ => ih _) (does_dropOne hd x)

theorem adds_action (a : Option Nat) : Adds P rank e (Ref.action P a) := by
  cases a with
  | none => exact adds_pure ()
  | some a => exact adds_user fun st h w => h.below rfl (hd.action a st.view w)

theorem adds_leaveFor (keep : Sid → Bool) (l : (Sid → Bool) → List Sid) : Adds P rank e (Ref.leaveFor P keep l) :=
  adds_get fun st => adds_bind (adds_exits hd keep _ l) fun _ => adds_modify (does_same (fun _ => rfl) (fun _ => rfl) fun _ => rfl)

theorem adds_leaveAndAct (s t : Sid) (c : Option Sid) (a : Option Nat) : Adds P rank e (Ref.leaveAndAct P s t c a) := by
  unfold Ref.leaveAndAct
  refine adds_ite (adds_ite (adds_bind (adds_action hd a) fun _ => adds_leaveFor hd _ _)
    (adds_ite (adds_bind (adds_leaveFor hd _ _) fun _ => adds_action hd a) ?_)) (adds_bind (adds_leaveFor hd _ _) fun _ => adds_action hd a)
  cases P.ctxOf a with
  | none => exact adds_pure ()
  | some r => exact adds_bind (adds_onThrow (adds_bind (adds_leaveFor hd _ _) fun _ => adds_action hd a) (does_drop hd _ _ _)) fun _ => adds_leaveFor hd _ _

theorem adds_transit (s : Sid) (d : Target) (a : Option Nat) : Adds P rank e (Ref.transit P s d a) := by
  unfold Ref.transit
  cases P.termState s d.st with
  | none => exact adds_pure ()
  | some t => exact adds_onThrow (adds_bind (adds_leaveAndAct hd s t _ a) fun _ => adds_build hd _ _) (does_drop hd _ _ _)

theorem adds_terminateState (s : Sid) : Adds P rank e (Ref.terminateState P s) :=
  adds_get fun st => adds_bind (adds_exits hd _ _ _) fun _ => adds_modify (does_same (fun _ => rfl) (fun _ => rfl) fun _ => rfl)

omit hd in
theorem adds_defer (s : Sid) : Adds P rank e (Ref.defer (W := W) s) := adds_modify (does_same (fun _ => rfl) (fun _ => rfl) fun _ => rfl)

theorem adds_custom (s : Sid) (id : Nat) {ev : Event} (ho : Offered P e ev) : Adds P rank e (Ref.custom P s id ev) := by
  unfold Ref.custom
  refine adds_get fun st => adds_bind (adds_user fun st _ w => ho.below (hd.react s id ev st.view w)) fun _ => ?_
  cases (P.react s id ev st.view st.world).2 with
  | discard => exact adds_pure _
  | forward => exact adds_pure _
  | defer => exact adds_bind (adds_defer s) fun _ => adds_pure _
  | transit d a => exact adds_bind (adds_transit hd s d a) fun _ => adds_pure _
  | terminate => exact adds_bind (adds_terminateState hd s) fun _ => adds_pure _

theorem adds_react (s : Sid) {ev : Event} (ho : Offered P e ev) (r : RKind) : Adds P rank e (Ref.react P s ev r) := by
  cases r with
  | transition d a => exact adds_bind (adds_transit hd s d a) fun _ => adds_pure _
  | inState a => exact adds_bind (adds_action hd a) fun _ => adds_pure _
  | termination => exact adds_bind (adds_terminateState hd s) fun _ => adds_pure _
  | deferral => exact adds_bind (adds_defer s) fun _ => adds_pure _
  | custom id => exact adds_custom hd s id ho

theorem adds_local (s : Sid) {ev : Event} (ho : Offered P e ev) : Adds P rank e (Ref.local' P s ev) := by
  unfold Ref.local'
  cases (P.reactions s).find? fun r => r.ev = none ∨ r.ev = some ev.ty with
  | none => exact adds_pure _
  | some r => exact adds_react hd s ho r.kind

theorem adds_offer {ev : Event} (ho : Offered P e ev) (l : List Sid) : Adds P rank e (Ref.offer P ev l) := by
  induction l with
  | nil => exact adds_pure _
  | cons s l ih => exact adds_bind (adds_local hd s ho) fun _ => adds_ite ih (adds_pure _)

theorem adds_handle (cur : Option Sid) {ev : Event} {y : Exc} (hy : P.translate y = some ev) (x : Exc) : Adds P rank e (Ref.handle P cur ev x) := by
  unfold Ref.handle
  refine adds_get fun st => ?_
  cases st.root with
  | none => exact adds_throw _
  | some _ =>
    cases st.unstable.or cur with
    | none => exact adds_throw _
    | some h =>
      simp only []
      have hb : Adds P rank e (do
          Ref.R.modify fun st => { st with full := false }
          let r ← Ref.offerFrom P h ev
          Ref.R.modify fun st => { st with full := true }
          let st ← Ref.R.get
          if r = Ref.Answer.discard ∧ st.unstable = none then pure Ref.Answer.discard else Ref.R.throw x : Ref.R W Ref.Answer) :=
        adds_bind (adds_modify (does_same (fun _ => rfl) (fun _ => rfl) fun _ => rfl)) fun _ => adds_bind (adds_offer hd (.inr ⟨y, hy⟩) _) fun r =>
          adds_bind (adds_modify (does_same (fun _ => rfl) (fun _ => rfl) fun _ => rfl)) fun _ => adds_get fun st => adds_ite (adds_pure _) (adds_throw _)
      intro st1 _
      have h2 := hb { st1 with trig := some ev } (.inr ⟨y, ev, hy, rfl⟩)
      unfold Ref.during
      revert h2
      generalize ((do
          Ref.R.modify fun st => { st with full := false }
          let r ← Ref.offerFrom P h ev
          Ref.R.modify fun st => { st with full := true }
          let st ← Ref.R.get
          if r = Ref.Answer.discard ∧ st.unstable = none then pure Ref.Answer.discard else Ref.R.throw x : Ref.R W Ref.Answer) { st1 with trig := some ev }) = o
      intro h2
      cases o with
      | ok a st2 => exact ⟨rfl, h2.grows⟩
      | thrown z st2 => exact ⟨rfl, h2.grows⟩

theorem adds_translated {x : Ref.R W Ref.Answer} (cur : Option Sid) (hx : Adds P rank e x) : Adds P rank e (Ref.translated P cur x) := by
  intro st h
  have h1 := hx st h
  unfold Ref.translated Ref.R.tryCatch
  cases hr : x st with
  | ok a st1 => rw [hr] at h1; exact h1
  | thrown y st1 =>
    rw [hr] at h1
    simp only []
    cases ht : P.translate y with
    | none => exact h1
    | some ev =>
      have h2 := adds_handle hd cur ht y (e := e) st1 (h.of h1.trig)
      simp only []
      cases hr2 : Ref.handle P cur ev y st1 with
      | ok a st2 => rw [hr2] at h2; exact h1.trans h2
      | thrown z st2 => rw [hr2] at h2; exact h1.trans h2

theorem adds_ask (l : List Sid) : Adds P rank e (Ref.ask P e l) := by
  induction l with
  | nil => exact adds_pure _
  | cons s l ih => exact adds_bind (adds_translated hd _ (adds_offer hd (.inl rfl) _)) fun _ => adds_ite ih (adds_pure _)

/-! ## Events that are forwarded or deferred -/

variable (hh : Reticent P)

/-- If the event is passed on or deferred, the queues have not changed. -/
def Idle (x : Ref.R W Ref.Answer) : Prop := ∀ st a st', x st = .ok a st' → a = .forward ∨ a = .defer → st'.evq = st.evq ∧ st'.dq = st.dq

omit hd [Preorder α] in
theorem discards {x : Ref.R W Unit} {st st' : Ref.St W} {a : Ref.Answer} (h : (do
    x
    pure Ref.Answer.discard : Ref.R W Ref.Answer) st = .ok a st') : a = .discard := by
  change Ref.R.bnd x _ st = _ at h
  unfold Ref.R.bnd at h
  cases hx : x st with
  | ok u st1 =>
    rw [hx] at h
    change Ref.Out.ok Ref.Answer.discard st1 = _ at h
    injection h with h1 _
    exact h1.symm
  | thrown y st1 => rw [hx] at h; cases h

omit hd [Preorder α] in
theorem idle_discard {x : Ref.R W Unit} : Idle (do
    x
    pure Ref.Answer.discard) := by
  intro st a st' h ha
  have hn := discards h
  subst hn
  rcases ha with ha | ha <;> cases ha

omit hd [Preorder α] in
theorem idle_defer (s : Sid) : Idle (W := W) (do
    Ref.defer s
    pure .defer) := by
  intro st a st' h _
  change Ref.Out.ok _ _ = _ at h
  injection h with _ h2
  subst h2
  exact ⟨rfl, rfl⟩

omit hd [Preorder α] in
theorem cmds_idle (cs : List Cmd) : ∀ st : Ref.St W, (∀ p, Cmd.post p ∉ cs) → (cs.foldl Ref.St.cmd st).evq = st.evq ∧ (cs.foldl Ref.St.cmd st).dq = st.dq := by
  induction cs with
  | nil => intro st _; exact ⟨rfl, rfl⟩
  | cons c cs ih =>
    intro st h
    obtain ⟨h1, h2⟩ := ih (st.cmd c) fun p hp => h p (List.mem_cons_of_mem _ hp)
    have h3 : (st.cmd c).evq = st.evq ∧ (st.cmd c).dq = st.dq := by
      cases c with
      | post p => exact absurd List.mem_cons_self (h p)
      | clearShallow k => exact ⟨rfl, rfl⟩
      | clearDeep k => exact ⟨rfl, rfl⟩
    exact ⟨h1.trans h3.1, h2.trans h3.2⟩

omit hd [Preorder α] in
include hh in
theorem idle_custom (s : Sid) (id : Nat) {ev : Event} (hm : MayDefer P ev) : Idle (Ref.custom P s id ev) := by
  intro st a st' h ha
  let x : Ref.R W Unit := Ref.user (fun v w => (P.react s id ev v w).1) [.react s id] [.react s id]
  change Ref.R.bnd x _ st = _ at h
  unfold Ref.R.bnd at h
  cases hx : x st with
  | thrown y st1 => rw [hx] at h; cases h
  | ok u st1 =>
    rw [hx] at h
    simp only [] at h
    have hq : (P.react s id ev st.view st.world).2 = .forward ∨ (P.react s id ev st.view st.world).2 = .defer → st1.evq = st.evq ∧ st1.dq = st.dq := by
      intro hdp
      have h2 := cmds_idle (P.react s id ev st.view st.world).1.cmds { st with world := (P.react s id ev st.view st.world).1.world }
        fun p => hh s id ev st.view st.world p hm hdp
      change Ref.user _ _ _ st = _ at hx
      unfold Ref.user at hx
      cases ht : (P.react s id ev st.view st.world).1.throws with
      | none => simp only [ht] at hx; injection hx with _ h3; subst h3; exact h2
      | some y => simp only [ht] at hx; cases hx
    cases hdec : (P.react s id ev st.view st.world).2 with
    | discard =>
      rw [hdec] at h
      change Ref.Out.ok Ref.Answer.discard st1 = _ at h
      injection h with h1 _
      subst h1
      rcases ha with ha | ha <;> cases ha
    | forward =>
      rw [hdec] at h
      change Ref.Out.ok Ref.Answer.forward st1 = _ at h
      injection h with _ h2
      subst h2
      exact hq (.inl hdec)
    | defer =>
      rw [hdec] at h
      obtain ⟨h1, h2⟩ := idle_defer s st1 a st' h ha
      obtain ⟨h3, h4⟩ := hq (.inr hdec)
      exact ⟨h1.trans h3, h2.trans h4⟩
    | transit d a' =>
      rw [hdec] at h
      have hn := discards (x := Ref.transit P s d a') h
      subst hn
      rcases ha with ha | ha <;> cases ha
    | terminate =>
      rw [hdec] at h
      have hn := discards (x := Ref.terminateState P s) h
      subst hn
      rcases ha with ha | ha <;> cases ha

omit hd [Preorder α] in
include hh in
theorem idle_local (s : Sid) {ev : Event} (hm : MayDefer P ev) : Idle (Ref.local' P s ev) := by
  unfold Ref.local'
  cases (P.reactions s).find? fun r => r.ev = none ∨ r.ev = some ev.ty with
  | none =>
    intro st a st' h _
    injection h with _ h2
    subst h2
    exact ⟨rfl, rfl⟩
  | some r =>
    simp only []
    cases r.kind with
    | transition d a => exact idle_discard
    | inState a => exact idle_discard
    | termination => exact idle_discard
    | deferral => exact idle_defer s
    | custom id => exact idle_custom hh s id hm

omit hd [Preorder α] in
theorem idle_next {x y : Ref.R W Ref.Answer} (hx : Idle x) (hy : Idle y) : Idle (do
    let r ← x
    if r = .forward then y else pure r) := by
  intro st a st' h ha
  change Ref.R.bnd x _ st = _ at h
  unfold Ref.R.bnd at h
  cases hr : x st with
  | thrown z st1 => rw [hr] at h; cases h
  | ok b st1 =>
    rw [hr] at h
    simp only [] at h
    by_cases hb : b = .forward
    · rw [if_pos hb] at h
      obtain ⟨h1, h2⟩ := hx st b st1 hr (.inl hb)
      obtain ⟨h3, h4⟩ := hy st1 a st' h ha
      exact ⟨h3.trans h1, h4.trans h2⟩
    · rw [if_neg hb] at h
      change Ref.Out.ok b st1 = _ at h
      injection h with h1 h2
      subst h1 h2
      exact hx st b st1 hr ha

omit hd [Preorder α] in
include hh in
theorem idle_offer {ev : Event} (l : List Sid) (hm : MayDefer P ev) : Idle (Ref.offer P ev l) := by
  induction l with
  | nil =>
    intro st a st' h _
    injection h with _ h2
    subst h2
    exact ⟨rfl, rfl⟩
  | cons s l ih => exact idle_next (idle_local hh s hm) ih

omit hd [Preorder α] in
theorem handle_discard {cur : Option Sid} {ev : Event} {x : Exc} {st st' : Ref.St W} {a : Ref.Answer} (h : Ref.handle P cur ev x st = .ok a st') :
    a = .discard := by
  unfold Ref.handle at h
  change (match st.root, st.unstable.or cur with
    | some _, some h => Ref.during (some ev) (do
      Ref.R.modify fun st => { st with full := false }
      let r ← Ref.offerFrom P h ev
      Ref.R.modify fun st => { st with full := true }
      let st ← Ref.R.get
      if r = Ref.Answer.discard ∧ st.unstable = none then pure Ref.Answer.discard else Ref.R.throw x)
    | _, _ => Ref.R.throw x) st = _ at h
  cases hr : st.root with
  | none => rw [hr] at h; cases h
  | some r0 =>
    rw [hr] at h
    cases hu : st.unstable.or cur with
    | none => rw [hu] at h; cases h
    | some s =>
      rw [hu] at h
      simp only [] at h
      unfold Ref.during at h
      cases ho : (do
          Ref.R.modify fun st => { st with full := false }
          let r ← Ref.offerFrom P s ev
          Ref.R.modify fun st => { st with full := true }
          let st ← Ref.R.get
          if r = Ref.Answer.discard ∧ st.unstable = none then pure Ref.Answer.discard else Ref.R.throw x : Ref.R W Ref.Answer) { st with trig := some ev } with
      | thrown y st1 => rw [ho] at h; cases h
      | ok b st1 =>
        rw [ho] at h
        injection h with h1 _
        subst h1
        change Ref.R.bnd (Ref.offerFrom P s ev) _ _ = _ at ho
        unfold Ref.R.bnd at ho
        cases hb : Ref.offerFrom P s ev { st with trig := some ev, full := false } with
        | thrown y st2 => rw [hb] at ho; cases ho
        | ok c st2 =>
          rw [hb] at ho
          simp only [] at ho
          change Ref.R.bnd _ _ _ = _ at ho
          unfold Ref.R.bnd at ho
          simp only [Ref.R.modify] at ho
          change Ref.R.bnd _ _ _ = _ at ho
          unfold Ref.R.bnd at ho
          simp only [Ref.R.get] at ho
          split at ho
          · injection ho with h3 _; exact h3.symm
          · cases ho

omit hd [Preorder α] in
theorem idle_translated {x : Ref.R W Ref.Answer} (cur : Option Sid) (hx : Idle x) : Idle (Ref.translated P cur x) := by
  intro st a st' h ha
  unfold Ref.translated Ref.R.tryCatch at h
  cases hr : x st with
  | ok b st1 =>
    rw [hr] at h
    injection h with h1 h2
    subst h1 h2
    exact hx st b st1 hr ha
  | thrown y st1 =>
    rw [hr] at h
    simp only [] at h
    cases ht : P.translate y with
    | none => rw [ht] at h; cases h
    | some ev =>
      rw [ht] at h
      have := handle_discard h
      subst this
      rcases ha with ha | ha <;> cases ha

omit hd [Preorder α] in
include hh in
theorem idle_ask {ev : Event} (l : List Sid) (hm : MayDefer P ev) : Idle (Ref.ask P ev l) := by
  induction l with
  | nil =>
    intro st a st' h _
    injection h with _ h2
    subst h2
    exact ⟨rfl, rfl⟩
  | cons s l ih => exact idle_next (idle_translated _ (idle_offer hh _ hm)) ih

/-! ## Events that nobody defers -/

/-- The event is not deferred. -/
def NoDefer (x : Ref.R W Ref.Answer) : Prop := ∀ st st', x st ≠ .ok .defer st'

omit hd [Preorder α] in
theorem nodefer_discard {x : Ref.R W Unit} : NoDefer (do
    x
    pure Ref.Answer.discard) := fun _ _ h => by cases discards h

omit hd [Preorder α] in
theorem nodefer_local (s : Sid) {ev : Event} (hm : ¬ MayDefer P ev) : NoDefer (Ref.local' P s ev) := by
  unfold Ref.local'
  cases hf : (P.reactions s).find? fun r => r.ev = none ∨ r.ev = some ev.ty with
  | none => intro st st' h; cases h
  | some r =>
    have h1 := List.mem_of_find?_eq_some hf
    have h2 := List.find?_some hf
    simp only [decide_eq_true_eq] at h2
    have h3 : ¬ (r.kind = .deferral ∨ ∃ id v w, r.kind = .custom id ∧ (P.react s id ev v w).2 = .defer) := fun h => hm ⟨s, r, h1, h2, h⟩
    simp only []
    cases hk : r.kind with
    | transition d a => exact nodefer_discard
    | inState a => exact nodefer_discard
    | termination => exact nodefer_discard
    | deferral => exact absurd (.inl hk) h3
    | custom id =>
      intro st st' h
      have h4 : (P.react s id ev st.view st.world).2 ≠ .defer := fun h => h3 (.inr ⟨id, _, _, hk, h⟩)
      let x : Ref.R W Unit := Ref.user (fun v w => (P.react s id ev v w).1) [.react s id] [.react s id]
      change Ref.R.bnd x _ st = _ at h
      unfold Ref.R.bnd at h
      cases hx : x st with
      | thrown y st1 => rw [hx] at h; cases h
      | ok u st1 =>
        rw [hx] at h
        simp only [] at h
        cases hdec : (P.react s id ev st.view st.world).2 with
        | discard => rw [hdec] at h; cases h
        | forward => rw [hdec] at h; cases h
        | defer => exact h4 hdec
        | transit d a => rw [hdec] at h; cases discards h
        | terminate => rw [hdec] at h; cases discards h

omit hd [Preorder α] in
theorem nodefer_next {x y : Ref.R W Ref.Answer} (hx : NoDefer x) (hy : NoDefer y) : NoDefer (do
    let r ← x
    if r = .forward then y else pure r) := by
  intro st st' h
  change Ref.R.bnd x _ st = _ at h
  unfold Ref.R.bnd at h
  cases hr : x st with
  | thrown z st1 => rw [hr] at h; cases h
  | ok b st1 =>
    rw [hr] at h
    simp only [] at h
    by_cases hb : b = .forward
    · rw [if_pos hb] at h; exact hy st1 st' h
    · rw [if_neg hb] at h
      change Ref.Out.ok b st1 = _ at h
      injection h with h1 _
      subst h1
      exact hx st st1 hr

omit hd [Preorder α] in
theorem nodefer_offer {ev : Event} (hm : ¬ MayDefer P ev) (l : List Sid) : NoDefer (Ref.offer P ev l) := by
  induction l with
  | nil => intro st st' h; cases h
  | cons s l ih => exact nodefer_next (nodefer_local s hm) ih

omit hd [Preorder α] in
theorem nodefer_ask {ev : Event} (hm : ¬ MayDefer P ev) (l : List Sid) : NoDefer (Ref.ask P ev l) := by
  induction l with
  | nil => intro st st' h; cases h
  | cons s l ih =>
    refine nodefer_next ?_ ih
    intro st st' h
    unfold Ref.translated Ref.R.tryCatch at h
    cases hr : Ref.offer P ev (s :: P.ancestors s) st with
    | ok b st1 =>
      rw [show Ref.offerFrom P s ev st = _ from hr] at h
      injection h with h1 _
      subst h1
      exact nodefer_offer hm _ _ _ hr
    | thrown y st1 =>
      rw [show Ref.offerFrom P s ev st = _ from hr] at h
      simp only [] at h
      cases ht : P.translate y with
      | none => rw [ht] at h; cases h
      | some ev => rw [ht] at h; cases handle_discard h

/-! ## The loop -/

omit hd in
/-- Less than `x`, apart from elements below `a`, is less than `x` with `a`. -/
theorem dm_lt {m x ps : Multiset α} {a : α} (h : m ≤ x + ps) (hp : ∀ p ∈ ps, p < a) : Multiset.IsDershowitzMannaLT m (x + {a}) := by
  classical
  refine ⟨m ∩ x, m - x, (x - m) + {a}, ?_, ?_, ?_, ?_⟩
  · intro hz
    have : a ∈ (x - m) + {a} := Multiset.mem_add.2 (.inr (Multiset.mem_singleton_self a))
    rw [hz] at this
    exact Multiset.notMem_zero a this
  · rw [add_comm]; exact (Multiset.sub_add_inter m x).symm
  · rw [← add_assoc, Multiset.inter_comm, add_comm (x ∩ m), Multiset.sub_add_inter]
  · intro y hy
    have : m - x ≤ ps := tsub_le_iff_left.2 h
    exact ⟨a, Multiset.mem_add.2 (.inr (Multiset.mem_singleton_self a)), hp y (Multiset.mem_of_le this hy)⟩

omit hd [Preorder α] in
theorem bnd_ok {γ : Type} {x : Ref.R W γ} {f : γ → Ref.R W β} {st st' : Ref.St W} {b : β} (h : Ref.R.bnd x f st = .ok b st') :
    ∃ a st1, x st = .ok a st1 ∧ f a st1 = .ok b st' := by
  unfold Ref.R.bnd at h
  cases hx : x st with
  | ok a st1 => rw [hx] at h; exact ⟨a, st1, rfl, h⟩
  | thrown y st1 => rw [hx] at h; cases h

omit hd [Preorder α] in
theorem during_ok {ev : Option Event} {x : Ref.R W β} {st st' : Ref.St W} {b : β} (h : Ref.during ev x st = .ok b st') :
    ∃ st1, x { st with trig := ev } = .ok b st1 ∧ { st1 with trig := st.trig } = st' := by
  unfold Ref.during at h
  cases hx : x { st with trig := ev } with
  | ok a st1 => rw [hx] at h; injection h with h1 h2; subst h1; exact ⟨st1, rfl, h2⟩
  | thrown y st1 => rw [hx] at h; cases h

omit hd [Preorder α] in
theorem guarded_ok {x : Ref.R W β} {st st' : Ref.St W} {b : β} (h : Ref.guarded P x st = .ok b st') : x st = .ok b st' := by
  unfold Ref.guarded at h
  cases hx : x st with
  | ok a st1 => rw [hx] at h; exact h
  | thrown y st1 =>
    rw [hx] at h
    simp only [] at h
    cases hl : Ref.leaveAll P false st1 <;> rw [hl] at h <;> cases h

include hh

/-- One turn: there is less to do afterwards, or the event was deferred. -/
theorem dispatch_step {st st' : Ref.St W} {e : Event} {u : Unit} (h : Ref.dispatch P e st = .ok u st') :
    Multiset.IsDershowitzMannaLT (tot rank st') (tot rank st + {rank e}) ∨ (tot rank st' = tot rank st + {rank e} ∧ st'.evq = st.evq) := by
  obtain ⟨a, st0, h1, h⟩ := bnd_ok (x := Ref.during (some e) (do
    let r ← Ref.guarded P (do
      let st ← Ref.R.get
      Ref.ask P e st.leaves)
    (if r = .forward then Ref.user (P.unconsumed e) [.unconsumed] [.unconsumed] else pure ())
    pure r)) h
  obtain ⟨st3, g1, rfl⟩ := during_ok h1
  obtain ⟨r, st1, hr, h1⟩ := bnd_ok (x := Ref.guarded P (do
      let st ← Ref.R.get
      Ref.ask P e st.leaves)) g1
  have hr := guarded_ok hr
  change Ref.ask P e st.leaves { st with trig := some e } = _ at hr
  obtain ⟨u1, st2, hu, h1⟩ := bnd_ok (x := (if r = .forward then Ref.user (P.unconsumed e) [.unconsumed] [.unconsumed] else pure ())) h1
  change Ref.Out.ok r st2 = _ at h1
  injection h1 with h1 h2
  subst h1 h2
  have h0 : Handles P e { st with trig := some e } := .inl rfl
  have ha := adds_ask hd st.leaves _ h0 (rank := rank)
  rw [hr] at ha
  simp only [] at ha
  cases r with
  | discard =>
    left
    change Ref.Out.ok () st1 = _ at hu
    injection hu with _ hu
    subst hu
    change Ref.Out.ok () { st1 with trig := st.trig } = _ at h
    injection h with _ h2
    subst h2
    obtain ⟨ps, h3, h4⟩ := ha.grows
    exact dm_lt h4 h3
  | noReaction =>
    left
    change Ref.Out.ok () st1 = _ at hu
    injection hu with _ hu
    subst hu
    change Ref.Out.ok () { st1 with trig := st.trig } = _ at h
    injection h with _ h2
    subst h2
    obtain ⟨ps, h3, h4⟩ := ha.grows
    exact dm_lt h4 h3
  | forward =>
    left
    have hv := adds_user (P := P) (e := e) (rank := rank) (a := [.unconsumed]) (b := [.unconsumed]) (fun st _ w => Offered.below (.inl rfl) (hd.unconsumed e st.view w)) st1 (h0.of ha.trig)
    rw [if_pos rfl] at hu
    rw [hu] at hv
    change Ref.Out.ok () { st2 with trig := st.trig } = _ at h
    injection h with _ h2
    subst h2
    obtain ⟨ps, h3, h4⟩ := (ha.trans hv).grows
    exact dm_lt h4 h3
  | defer =>
    right
    change Ref.Out.ok () st1 = _ at hu
    injection hu with _ hu
    subst hu
    have hm : MayDefer P e := Classical.byContradiction fun hm => nodefer_ask hm _ _ _ hr
    obtain ⟨h1, h2⟩ := idle_ask hh st.leaves hm _ _ _ hr (.inr rfl)
    obtain ⟨u2, st3, h3, h⟩ := bnd_ok (x := Ref.alloc P (.deferNode e)) h
    change Ref.Out.ok () { st3 with dq := st3.dq ++ [e] } = _ at h
    injection h with _ h
    subst h
    have h4 : st3.evq = st1.evq ∧ st3.dq = st1.dq := by
      unfold Ref.alloc at h3
      cases hal : P.alloc (.deferNode e) st1.world with
      | mk w x =>
        cases x with
        | some y => simp only [hal] at h3; cases h3
        | none =>
          simp only [hal] at h3
          injection h3 with _ h3
          subst h3
          exact ⟨rfl, rfl⟩
    refine ⟨?_, h4.1.trans h1⟩
    unfold tot
    change ((((st3.evq ++ (st3.dq ++ [e])).map rank : List α)) : Multiset α) = _
    rw [h4.1, h4.2, h1, h2, ← Multiset.coe_singleton, Multiset.coe_add]
    simp

omit hd hh [Preorder α] in
theorem drain_cons {st : Ref.St W} {e : Event} {q : List Event} (hq : st.evq = e :: q) (k : Nat) :
    Ref.drain P (k + 1) st = match Ref.dispatch P e { st with evq := q } with
      | .ok _ st1 => Ref.drain P k st1
      | .thrown y st1 => .thrown y st1 := by
  show (match st.evq with
    | [] => pure true
    | e :: q => Ref.R.bnd (Ref.R.modify fun st => { st with evq := q }) fun _ => Ref.R.bnd (Ref.dispatch P e) fun _ => Ref.drain P k : Ref.R W Bool) st = _
  rw [hq]
  show Ref.R.bnd (Ref.dispatch P e) _ { st with evq := q } = _
  unfold Ref.R.bnd
  cases Ref.dispatch P e { st with evq := q } <;> rfl

/-- From every state, the queue runs empty or an exception ends the loop. -/
theorem drains [WellFoundedLT α] (st : Ref.St W) : ∃ k0, ∀ k, k0 ≤ k → ∀ st', Ref.drain P k st ≠ .ok false st' := by
  have wf := (Prod.lex (⟨Multiset.IsDershowitzMannaLT, Multiset.wellFounded_isDershowitzMannaLT (α := α)⟩ : WellFoundedRelation (Multiset α))
    (⟨Nat.lt, Nat.lt_wfRel.wf⟩ : WellFoundedRelation Nat)).wf
  have key : ∀ (x : Multiset α × Nat) (st : Ref.St W), (tot rank st, st.evq.length) = x → ∃ k0, ∀ k, k0 ≤ k → ∀ st', Ref.drain P k st ≠ .ok false st' := by
    intro x
    induction x using wf.induction with
    | _ x ih =>
      intro st hx
      subst hx
      cases hq : st.evq with
      | nil =>
        refine ⟨0, fun k _ st' h => ?_⟩
        cases k with
        | zero =>
          change Ref.Out.ok st.evq.isEmpty st = _ at h
          rw [hq] at h
          cases h
        | succ k =>
          unfold Ref.drain at h
          change (match st.evq with
            | [] => pure true
            | e :: q => Ref.R.bnd (Ref.R.modify fun st => { st with evq := q }) fun _ => Ref.R.bnd (Ref.dispatch P e) fun _ => Ref.drain P k :
              Ref.R W Bool) st = _ at h
          rw [hq] at h
          cases h
      | cons e q =>
        have hstep := fun k => drain_cons (P := P) hq k
        cases hdp : Ref.dispatch P e { st with evq := q } with
        | thrown y st1 =>
          refine ⟨1, fun k hk st' h => ?_⟩
          obtain ⟨k, rfl⟩ : ∃ j, k = j + 1 := ⟨k - 1, by omega⟩
          rw [hstep, hdp] at h
          cases h
        | ok u st1 =>
          have htot : tot rank st = tot rank { st with evq := q } + {rank e} := by
            unfold tot
            rw [hq, ← Multiset.coe_singleton, Multiset.coe_add, Multiset.coe_eq_coe]
            simp only [List.cons_append, List.map_cons, List.map_append]
            exact (List.perm_append_singleton _ _).symm
          have hlt : (tot rank st1, st1.evq.length) = (tot rank st, q.length) ∨ Multiset.IsDershowitzMannaLT (tot rank st1) (tot rank st) := by
            rcases dispatch_step hd hh hdp with h | ⟨h1, h2⟩
            · right; rw [htot]; exact h
            · left; rw [htot, h1, h2]
          obtain ⟨k0, hk0⟩ := ih (tot rank st1, st1.evq.length) (by
            rcases hlt with h | h
            · rw [h]; exact Prod.Lex.right _ (by rw [hq]; exact Nat.lt_succ_self _)
            · exact Prod.Lex.left _ _ h) st1 rfl
          refine ⟨k0 + 1, fun k hk st' h => ?_⟩
          obtain ⟨k, rfl⟩ : ∃ j, k = j + 1 := ⟨k - 1, by omega⟩
          rw [hstep, hdp] at h
          exact hk0 k (by omega) st' h
  exact key _ st rfl

end Cascade
end SC
