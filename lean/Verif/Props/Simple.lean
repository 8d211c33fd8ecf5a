import Verif.Props.Reference
/-!
# C72: `simple_state` and `state`

A state class derives from `simple_state` or from `state`. The difference is what its constructor may do.
-/

namespace SC
open Spec
variable {W : Type}

/-- `P` whose states derive from `simple_state` (`g s`) or `state`. -/
def Prog.derive (P : Prog W) (g : Sid → Bool) : Prog W := { P with isSimple := g }

namespace Derive
variable (P : Prog W) (g : Sid → Bool)

theorem n : (P.derive g).n = P.n := rfl
theorem parent : (P.derive g).parent = P.parent := rfl
theorem pos : (P.derive g).pos = P.pos := rfl
theorem init : (P.derive g).init = P.init := rfl
theorem deepH : (P.derive g).deepH = P.deepH := rfl
theorem shallowH : (P.derive g).shallowH = P.shallowH := rfl
theorem initial : (P.derive g).initial = P.initial := rfl
theorem reactions : (P.derive g).reactions = P.reactions := rfl
theorem relaxed : (P.derive g).relaxed = P.relaxed := rfl
theorem actCtx : (P.derive g).actCtx = P.actCtx := rfl
theorem isLeaf : (P.derive g).isLeaf = P.isLeaf := rfl
theorem ctor : (P.derive g).ctor = P.ctor := rfl
theorem exit : (P.derive g).exit = P.exit := rfl
theorem dtor : (P.derive g).dtor = P.dtor := rfl
theorem act : (P.derive g).action = P.action := rfl
theorem reacts : (P.derive g).react = P.react := rfl
theorem unconsumed : (P.derive g).unconsumed = P.unconsumed := rfl
theorem translate : (P.derive g).translate = P.translate := rfl
theorem regions (c : Option Sid) : (P.derive g).regions c = P.regions c := by cases c <;> rfl
theorem ctxOf (c : Option Nat) : (P.derive g).ctxOf c = P.ctxOf c := by cases c <;> rfl

theorem ancF : ∀ k s, (P.derive g).ancF k s = P.ancF k s
  | 0, _ => rfl
  | k + 1, s => by
    unfold Chart.ancF
    rw [parent]
    cases P.parent s with
    | none => rfl
    | some p => simp only [ancF k p]

theorem ancestors (s : Sid) : (P.derive g).ancestors s = P.ancestors s := ancF P g s s

theorem ctxList (s : Sid) : (P.derive g).ctxList s = P.ctxList s := by
  unfold Chart.ctxList; rw [ancestors]

theorem actionCtxs (s : Sid) : (P.derive g).actionCtxs s = P.actionCtxs s := by
  unfold Chart.actionCtxs; rw [ctxList]

theorem inhDeep (s : Sid) : (P.derive g).inhDeep s = P.inhDeep s := by
  unfold Chart.inhDeep; rw [ancestors, deepH]

theorem commonCtx (s d : Sid) : (P.derive g).commonCtx s d = P.commonCtx s d := by
  unfold Chart.commonCtx; rw [ctxList, ctxList]

theorem termState (s d : Sid) : (P.derive g).termState s d = P.termState s d := by
  unfold Chart.termState; rw [ctxList, commonCtx]

theorem pathBelow (c : Option Sid) (d : Sid) : (P.derive g).pathBelow c d = P.pathBelow c d := by
  unfold Chart.pathBelow; rw [ctxList]

theorem transitOK (s : Sid) (d : Target) (a : Option Nat) : (P.derive g).transitOK s d a = P.transitOK s d a := by
  unfold Chart.transitOK Chart.firstEntered
  simp only [actionCtxs, ctxOf, termState, commonCtx, pathBelow]
  rfl

theorem childless (a : Sid → Bool) (s : Sid) : childless (P.derive g).toChart a s = childless P.toChart a s := rfl

theorem exitOrderF (a : Sid → Bool) : ∀ k s, exitOrderF (P.derive g).toChart a k s = exitOrderF P.toChart a k s
  | 0, _ => rfl
  | k + 1, s => by
    unfold Spec.exitOrderF
    simp only [exitOrderF a k, regions]
    rfl

theorem exitOrder (a : Sid → Bool) (s : Sid) : exitOrder (P.derive g).toChart a s = exitOrder P.toChart a s := exitOrderF P g a _ s

theorem upwardF (lock : Sid → Bool) : ∀ k a c, upwardF (P.derive g).toChart lock k a c = upwardF P.toChart lock k a c
  | 0, _, _ => rfl
  | _ + 1, _, none => rfl
  | k + 1, a, some s => by
    unfold Spec.upwardF
    simp only [upwardF lock k, childless, parent]

theorem terminated (a : Sid → Bool) (s : Sid) : terminated (P.derive g).toChart a s = terminated P.toChart a s := by
  unfold Spec.terminated Spec.upward
  simp only [exitOrder, upwardF, parent, n]

/-- Well-formedness does not depend on the base classes. -/
theorem wf (h : P.toChart.WF) : (P.derive g).toChart.WF where
  parent_lt := h.parent_lt
  pos_lt := fun {s} hs => by rw [regions]; exact h.pos_lt hs
  init_ok := h.init_ok
  init_len := h.init_len
  init_shallow := h.init_shallow
  init_deep := h.init_deep
  deep_one := fun {s} hs hd => h.deep_one hs (by
    rw [parent] at hd
    cases hp : P.parent s with
    | none => rw [hp] at hd; exact hd
    | some p => rw [hp] at hd; exact (inhDeep P g p).symm.trans hd)
  initial_ok := h.initial_ok
  trans_ok := fun {s r d a} hs hr hk => by rw [transitOK]; exact h.trans_ok hs hr hk

/-! ## The reference machine -/

open Ref

theorem alloc (s : Site) : alloc (P.derive g) s = alloc P s := rfl
theorem destroy (s : Sid) : destroy (P.derive g) s = destroy P s := rfl
theorem needed (keep : Sid → Bool) (st : St W) (s : Sid) : needed (P.derive g) keep st s = needed P keep st s := rfl

theorem drop (keep : Sid → Bool) : ∀ k c st, drop (P.derive g) keep k c st = drop P keep k c st
  | 0, _, _ => rfl
  | _ + 1, none, _ => rfl
  | k + 1, some s, st => by
    unfold Ref.drop
    simp only [drop keep k, needed, parent, destroy] <;> rfl

theorem drop' (keep : Sid → Bool) (k : Nat) (c : Option Sid) : Ref.drop (P.derive g) keep k c = Ref.drop P keep k c := funext (drop P g keep k c)

theorem entry (has : St W → Bool) (s : Site) : entry (P.derive g) has s = entry P has s := rfl
theorem rememberShallow (s : Sid) : rememberShallow (P.derive g) s = rememberShallow P s := rfl

theorem rememberDeep (leaf : Sid) : ∀ k s, rememberDeep (P.derive g) leaf k s = rememberDeep P leaf k s
  | 0, _ => rfl
  | k + 1, s => by
    unfold Ref.rememberDeep
    simp only [rememberDeep leaf k, parent, deepH, pos, entry] <;> rfl

theorem exitOne (keep : Sid → Bool) (full : Bool) (s : Sid) : exitOne (P.derive g) keep full s = exitOne P keep full s := by
  unfold Ref.exitOne
  simp only [parent, exit, rememberShallow, isLeaf, rememberDeep, n, drop, destroy] <;> rfl

theorem exitAll (keep : Sid → Bool) (full : Bool) : ∀ l, exitAll (P.derive g) keep full l = exitAll P keep full l
  | [] => rfl
  | s :: l => by
    unfold Ref.exitAll
    simp only [exitAll keep full l, exitOne] <;> rfl

theorem exits (keep : Sid → Bool) (full : Bool) (l : (Sid → Bool) → List Sid) : Ref.exits (P.derive g) keep full l = Ref.exits P keep full l := by
  unfold Ref.exits
  simp only [exitAll] <;> rfl

theorem leaveAll (full : Bool) : leaveAll (P.derive g) full = leaveAll P full := by
  unfold Ref.leaveAll
  simp only [exits, exitOrder] <;> rfl

theorem register (s : Sid) : register (P.derive g) s = register P s := by
  unfold Ref.register
  simp only [isLeaf, alloc, pos, regions, parent] <;> rfl

theorem recalled (t : Target) (st : St W) : recalled (P.derive g) t st = recalled P t st := by
  unfold Ref.recalled
  simp only [parent, pos, pathBelow] <;> rfl

theorem action (a : Option Nat) : action (P.derive g) a = action P a := by cases a <;> rfl

theorem leaveFor (keep : Sid → Bool) (l : (Sid → Bool) → List Sid) : leaveFor (P.derive g) keep l = leaveFor P keep l := by
  unfold Ref.leaveFor
  simp only [exits] <;> rfl

theorem leaveAndAct (s t : Sid) (c : Option Sid) (a : Option Nat) : leaveAndAct (P.derive g) s t c a = leaveAndAct P s t c a := by
  unfold Ref.leaveAndAct
  simp only [leaveFor, exitOrder, relaxed, ctxOf, actionCtxs, ctxList, isLeaf, action, drop', n] <;> rfl

theorem terminateState (s : Sid) : Ref.terminateState (P.derive g) s = Ref.terminateState P s := by
  unfold Ref.terminateState
  simp only [exits, terminated] <;> rfl

theorem guarded {α : Type} (x : R W α) : guarded (P.derive g) x = guarded P x := by
  unfold Ref.guarded
  simp only [leaveAll] <;> rfl

end Derive

section
variable (P : Prog W) (g : Sid → Bool)

/-- The constructor of an outermost state whose base class differs does not ask whether the machine is terminated. -/
def Spec.Unaware : Prop := ∀ s, P.parent s = none → g s ≠ P.isSimple s → ∀ v t w, P.ctor s { v with terminated := t } w = P.ctor s v w

variable (h : Spec.Unaware P g)

theorem attach_inner {s p : Sid} (hp : P.parent s = some p) (st : Ref.St W) : Ref.attach P s st = st := by
  unfold Ref.attach
  simp [hp]

theorem cmds_root (l : List Cmd) (r : Option Sid) : ∀ st : Ref.St W, l.foldl Ref.St.cmd { st with root := r } = { l.foldl Ref.St.cmd st with root := r } := by
  induction l with
  | nil => intro st; rfl
  | cons c l ih =>
    intro st
    simp only [List.foldl_cons]
    rw [← ih]
    cases c <;> rfl

/-- A constructor that does not ask whether the machine is terminated. -/
theorem user_root {f : View → W → UOut W} (hf : ∀ v t w, f { v with terminated := t } w = f v w) {o o' : Obs} {r : Option Sid} (st : Ref.St W) :
    Ref.user f [o] [o'] { st with root := r } = match Ref.user f [o] [o'] st with
      | .ok a st' => .ok a { st' with root := r }
      | .thrown x st' => .thrown x { st' with root := r } := by
  have h1 : f ({ st with root := r } : Ref.St W).view st.world = f st.view st.world := (hf st.view r.isNone st.world)
  unfold Ref.user
  simp only [h1]
  have h2 := cmds_root (f st.view st.world).cmds r { st with world := (f st.view st.world).world }
  cases (f st.view st.world).throws with
  | none => simp only [h2]; rfl
  | some x => simp only [h2]; rfl

/-- Constructors before and after the state is attached to its context. -/
theorem enter_order {f : View → W → UOut W} (s : Sid) (hf : P.parent s = none → ∀ v t w, f { v with terminated := t } w = f v w) {o o' : Obs} (st : Ref.St W) :
    (Ref.R.onThrow (Ref.user f [o] [o']) (Ref.vanish P s)) (Ref.attach P s st) =
    (do
      Ref.R.onThrow (Ref.user f [o] [o']) (Ref.vanish P s)
      Ref.R.modify (Ref.attach P s) : Ref.R W Unit) st := by
  show _ = Ref.R.bnd _ _ st
  unfold Ref.R.bnd
  cases hp : P.parent s with
  | some p =>
    have ha : Ref.attach P s = id := funext fun st => attach_inner P hp st
    rw [ha]
    unfold Ref.R.modify id
    cases Ref.R.onThrow (Ref.user f [o] [o']) (Ref.vanish P s) st <;> rfl
  | none =>
    have ha : ∀ st, Ref.attach P s st = { st with root := some s } := fun st => by unfold Ref.attach; simp [hp]
    have hv : ∀ st : Ref.St W, Ref.vanish P s { st with root := some s } = Ref.vanish P s st := fun st => by unfold Ref.vanish; simp [hp]
    unfold Ref.R.onThrow
    rw [ha, user_root (hf hp)]
    cases Ref.user f [o] [o'] st with
    | ok a st' => simp only [Ref.R.modify, ha]
    | thrown x st' => simp only [hv]

/-- One state is entered; `b`: it is attached after its constructor. -/
def enterAs (b : Bool) (s : Sid) : Ref.R W Unit := do
  Ref.alloc P (.object s)
  Ref.R.modify (Ref.appear s)
  (if b then pure () else Ref.R.modify (Ref.attach P s))
  Ref.R.onThrow (Ref.user (P.ctor s) [.enter s] [.enterFail s]) (Ref.vanish P s)
  (if b then Ref.R.modify (Ref.attach P s) else pure ())
  Ref.R.onThrow (Ref.register P s) (Ref.destroy P s)

theorem enterAs_eq (s : Sid) (hf : P.parent s = none → ∀ v t w, P.ctor s { v with terminated := t } w = P.ctor s v w) : enterAs P false s = enterAs P true s := by
  funext st
  unfold enterAs
  simp only [if_true, Bool.false_eq_true, if_false]
  show Ref.R.bnd _ (fun _ => Ref.R.bnd _ fun _ => Ref.R.bnd _ fun _ => Ref.R.bnd _ fun _ => Ref.R.bnd _ _) st =
    Ref.R.bnd _ (fun _ => Ref.R.bnd _ fun _ => Ref.R.bnd _ fun _ => Ref.R.bnd _ fun _ => Ref.R.bnd _ _) st
  unfold Ref.R.bnd
  cases Ref.alloc P (.object s) st with
  | thrown x st1 => rfl
  | ok u st1 =>
    have key := enter_order P (f := P.ctor s) s hf (o := .enter s) (o' := .enterFail s) (Ref.appear s st1)
    have key' : Ref.R.onThrow (Ref.user (P.ctor s) [.enter s] [.enterFail s]) (Ref.vanish P s) (Ref.attach P s (Ref.appear s st1)) =
      Ref.R.bnd (Ref.R.onThrow (Ref.user (P.ctor s) [.enter s] [.enterFail s]) (Ref.vanish P s)) (fun _ => Ref.R.modify (Ref.attach P s)) (Ref.appear s st1) := key
    unfold Ref.R.bnd at key'
    simp only [Ref.R.modify] at key' ⊢
    rw [key']
    have hp : ∀ st : Ref.St W, (pure () : Ref.R W Unit) st = .ok () st := fun _ => rfl
    simp only [hp]
    cases Ref.R.onThrow (Ref.user (P.ctor s) [.enter s] [.enterFail s]) (Ref.vanish P s) (Ref.appear s st1) <;> rfl

include h in
theorem derive_enter (s : Sid) : Ref.enter (P.derive g) s = Ref.enter P s := by
  have h1 : Ref.enter P s = enterAs P (P.isSimple s) s := rfl
  have h2 : Ref.enter (P.derive g) s = enterAs P (g s) s := by
    unfold Ref.enter enterAs
    simp only [Derive.register] <;> rfl
  rw [h1, h2]
  by_cases he : g s = P.isSimple s
  · rw [he]
  · have hf := enterAs_eq P s fun hp => h s hp he
    cases hg : g s <;> cases hp : P.isSimple s
    · rfl
    · exact hf
    · exact hf.symm
    · rfl

theorem derive_dropOne (s : Sid) : Ref.dropOne (P.derive g) s = Ref.dropOne P s := rfl

include h

theorem derive_build : ∀ k j, Ref.build (P.derive g) k j = Ref.build P k j
  | 0, _ => rfl
  | k + 1, .deep s => by
    unfold Ref.build
    simp only [derive_enter P g h, derive_build k, derive_dropOne] <;> rfl
  | _ + 1, .inners [] => rfl
  | k + 1, .inners (t :: ts) => by
    unfold Ref.build
    simp only [derive_build k]
  | k + 1, .target t => by
    unfold Ref.build
    simp only [derive_build k, Derive.recalled]
  | k + 1, .chain [] d => by
    unfold Ref.build
    simp only [derive_build k]
  | k + 1, .chain (x :: cs) d => by
    unfold Ref.build
    simp only [derive_enter P g h, derive_build k, derive_dropOne] <;> rfl

theorem derive_transit (s : Sid) (d : Target) (a : Option Nat) : Ref.transit (P.derive g) s d a = Ref.transit P s d a := by
  have hd : Ref.depth (P.derive g) = Ref.depth P := rfl
  unfold Ref.transit
  simp only [Derive.termState, Derive.commonCtx, Derive.leaveAndAct, derive_build P g h, hd, Derive.pathBelow, Derive.drop', Derive.n] <;> rfl

theorem derive_react (s : Sid) (e : Event) (k : RKind) : Ref.react (P.derive g) s e k = Ref.react P s e k := by
  cases k with
  | transition d a => unfold Ref.react; simp only [derive_transit P g h]
  | inState a => unfold Ref.react; simp only [Derive.action]
  | termination => unfold Ref.react; simp only [Derive.terminateState]
  | deferral => rfl
  | custom id =>
    show Ref.custom (P.derive g) s id e = Ref.custom P s id e
    unfold Ref.custom
    simp only [derive_transit P g h, Derive.terminateState, Derive.reacts] <;> rfl

theorem derive_local (s : Sid) (e : Event) : Ref.local' (P.derive g) s e = Ref.local' P s e := by
  unfold Ref.local'
  simp only [derive_react P g h, Derive.reactions] <;> rfl

theorem derive_offer (e : Event) : ∀ l, Ref.offer (P.derive g) e l = Ref.offer P e l
  | [] => rfl
  | s :: l => by
    unfold Ref.offer
    simp only [derive_local P g h, derive_offer e l]

theorem derive_from (s : Sid) (e : Event) : Ref.offerFrom (P.derive g) s e = Ref.offerFrom P s e := by
  unfold Ref.offerFrom
  simp only [derive_offer P g h, Derive.ancestors]

theorem derive_translated (c : Option Sid) (x : Ref.R W Ref.Answer) : Ref.translated (P.derive g) c x = Ref.translated P c x := by
  unfold Ref.translated Ref.handle
  simp only [derive_from P g h, Derive.translate] <;> rfl

theorem derive_ask (e : Event) : ∀ l, Ref.ask (P.derive g) e l = Ref.ask P e l
  | [] => rfl
  | s :: l => by
    unfold Ref.ask
    simp only [derive_from P g h, derive_translated P g h, derive_ask e l]

theorem derive_dispatch (e : Event) : Ref.dispatch (P.derive g) e = Ref.dispatch P e := by
  unfold Ref.dispatch
  simp only [derive_ask P g h, Derive.guarded, Derive.unconsumed, Derive.alloc] <;> rfl

theorem derive_drain : ∀ k, Ref.drain (P.derive g) k = Ref.drain P k
  | 0 => rfl
  | k + 1 => by
    unfold Ref.drain
    simp only [derive_dispatch P g h, derive_drain k] <;> rfl

theorem derive_stop : Ref.stop (P.derive g) = Ref.stop P := by
  unfold Ref.stop
  simp only [derive_translated P g h, Derive.guarded, Derive.leaveAll]

theorem derive_run (o : Ref.Op) : Ref.run (P.derive g) o = Ref.run P o := by
  have hd : Ref.depth (P.derive g) = Ref.depth P := rfl
  cases o with
  | initiate k =>
    unfold Ref.run
    simp only [derive_stop P g h, derive_translated P g h, Derive.guarded, derive_build P g h, derive_drain P g h, hd, Derive.initial]
  | terminate => unfold Ref.run; simp only [derive_stop P g h]
  | process e k => unfold Ref.run; simp only [derive_dispatch P g h, derive_drain P g h]
  | post e => rfl
  | clearShallow k => rfl
  | clearDeep k => rfl

theorem derive_session {w : W} {l : List (ClientStep W)} {st : Ref.St W} : Ref.Session (P.derive g) w l st ↔ Ref.Session P w l st := by
  have hl : ∀ (o : Ref.Op) st, o.legal (P.derive g) st ↔ o.legal P st := by
    intro o st
    cases o with
    | initiate k => unfold Ref.Op.legal; simp only [derive_stop P g h]
    | _ => exact Iff.rfl
  constructor
  · intro h1
    induction h1 with
    | new => exact .new
    | returns _ h2 hr ih => exact .returns ih ((hl _ _).1 h2) (by rwa [derive_run P g h] at hr)
    | throws _ h2 hr ih => exact .throws ih ((hl _ _).1 h2) (by rwa [derive_run P g h] at hr)
  · intro h1
    induction h1 with
    | new => exact .new
    | returns _ h2 hr ih => exact .returns ih ((hl _ _).2 h2) (by rwa [derive_run P g h])
    | throws _ h2 hr ih => exact .throws ih ((hl _ _).2 h2) (by rwa [derive_run P g h])

end

/-- A client cannot distinguish the machines: the same states exist, `state_begin()`..`state_end()` is the same range, `terminated()` and `triggering_event()` are the same, the same
events wait in both queues, the same states are remembered by histories, the environment is the same, and user code was called in the same order with the same triggering events. -/
structure Spec.Twins (m m' : Mach W) : Prop where
  states : ∀ s, (m.heap s).isSome = (m'.heap s).isSome
  range : (List.range m.endIx).map m.slot = (List.range m'.endIx).map m'.slot
  terminated : m.outermost = none ↔ m'.outermost = none
  trig : m.trig = m'.trig
  posted : m.evq = m'.evq
  deferred : m.dq = m'.dq
  shallow : ∀ k, (m.sh k).map HFn.last = (m'.sh k).map HFn.last
  deep : ∀ k, (m.dh k).map HFn.last = (m'.dh k).map HFn.last
  world : m.world = m'.world
  calls : m.trace = m'.trace

theorem twins_of_abs {m m' : Mach W} (h : Filled m) (h' : Filled m') (he : abs m = abs m') : Spec.Twins m m' := by
  have k := matches_abs h
  have k' := matches_abs h'
  rw [← he] at k'
  exact ⟨fun s => (k.states s).trans (k'.states s).symm, k.range.trans k'.range.symm, k.terminated.trans k'.terminated.symm, k.trig.trans k'.trig.symm, k.posted.trans k'.posted.symm,
    k.deferred.trans k'.deferred.symm, fun x => congrFun (congrArg Ref.St.sh he) x, fun x => congrFun (congrArg Ref.St.dh he) x, k.world.trans k'.world.symm, k.calls.trans k'.calls.symm⟩

section
variable {P : Prog W} {g : Sid → Bool} {w : W} {l : List (ClientStep W)} (hwf : P.toChart.WF) (hok : Contract P) (hpl : Plain P)
  (hg : ∀ s v w, g s = true → (P.ctor s v w).cmds = []) (h : Unaware P g)
include hwf hok hpl hg h

/-- **C72.** It does not matter which states derive from `simple_state` and which from `state`. The constructors of those that derive from `simple_state` do not use their context
(which does not exist yet), and the constructors of outermost states whose base class is changed do not ask whether the machine is terminated. -/
theorem C72_base_class :
    (∀ m, Session P w l m → ∃ m', Session (P.derive g) w l m' ∧ Twins m m') ∧ ∀ m', Session (P.derive g) w l m' → ∃ m, Session P w l m ∧ Twins m m' := by
  have hwf' := Derive.wf P g hwf
  have hok' : Contract (P.derive g) := ⟨hg, fun s r e v w d a hd => by rw [Derive.transitOK]; exact hok.react s r e v w d a hd⟩
  have hpl' : Plain (P.derive g) := ⟨hpl.ctor, hpl.exit, hpl.dtor, hpl.action, hpl.react, hpl.unconsumed⟩
  constructor
  · intro m hm
    obtain ⟨m', h1, h2⟩ := ((derive_session P g h).2 (hm.sound hwf hok hpl)).complete hwf' hok' hpl'
    exact ⟨m', h1, twins_of_abs (hm.reach.stable hwf hok).1.inv.filled (h1.reach.stable hwf' hok').1.inv.filled h2.symm⟩
  · intro m' hm
    obtain ⟨m, h1, h2⟩ := ((derive_session P g h).1 (hm.sound hwf' hok' hpl')).complete hwf hok hpl
    exact ⟨m, h1, twins_of_abs (h1.reach.stable hwf hok).1.inv.filled (hm.reach.stable hwf' hok').1.inv.filled h2⟩

end

end SC

namespace SC.Ex
open Spec

/-- In the example C and G derive from `simple_state`. If all states derive from `state`, or all from `simple_state` (their constructors do not use the context), the ten calls
of `calls` end in the same way. -/
example (g : Sid → Bool) : ∃ (l : List (ClientStep Nat)) (m m' : Mach Nat), Session looking 0 l m ∧ Session (looking.derive g) 0 l m' ∧ Twins m m' ∧
    l.reverse.map (·.ended) = ends ∧ m'.trace.length = 75 := by
  have h : ((play looking calls [] (Mach.fresh 0)).any fun r => decide (r.1.reverse.map (·.ended) = ends ∧ r.2.trace.length = 75)) = true := by
    decide +kernel
  rw [Option.any_eq_true] at h
  obtain ⟨⟨l, m⟩, h1, h2⟩ := h
  obtain ⟨h2, h3⟩ := of_decide_eq_true h2
  have hs := play_session calls Session.new h1
  obtain ⟨m', k1, k2⟩ := (C72_base_class (P := looking) (g := g) wf looking_contract looking_plain (fun _ _ _ _ => rfl) (fun _ _ _ _ _ _ => rfl)).1 m hs
  exact ⟨l, m, m', hs, k1, k2, h2, by rw [← k2.calls]; exact h3⟩

/-- A program whose constructors ask (by means of a global variable) whether the machine is terminated and write the answer to the environment. -/
def curious : Prog Nat := { prog with ctor := fun _ v w => { world := if v.terminated then w + 1 else w } }

/-- The condition `Unaware` is needed: during the constructor of the initial state (0) the machine is terminated only if the state derives from `simple_state`. -/
example : (match initiate curious 0 (Mach.fresh 0), initiate (curious.derive fun s => s == 0) 0 (Mach.fresh 0) with
    | .ok _ m, .ok _ m' => decide (m.world = 0 ∧ m'.world = 1 ∧ m.trace = m'.trace)
    | _, _ => false) = true := by decide +kernel

end SC.Ex
