import Verif.EntrySpec
import Verif.Dispatch
import Verif.Props.Vocab
/-!
# Specification of reactions and event dispatch

A big-step semantics of what one event does when no exception is thrown, in
terms of active states, remembered history and observations only.
-/

namespace SC.Spec
open SC

/-- Abstract configuration: the active states and the remembered history. -/
structure Conf where
  act : Sid → Bool
  mem : Memory

/-- Observation of an optional action. -/
def acts : Option Nat → List Obs
  | none => []
  | some a => [.act a]

/-- Observations of the exit of the states `l`, in order. -/
def exitObs (full : Bool) (l : List Sid) : List Obs :=
  l.flatMap fun s => if full then [.exit s, .destroy s] else [.destroy s]

/-- Observations of entry. -/
def enterObs (l : List Sid) : List Obs := l.map .enter

/-- `c` is the innermost common context of `s` and `d`: a proper outer state of both
(`none`: the machine) inside every other one. -/
structure CommonCtx (C : Chart) (s d : Sid) (c : Option Sid) : Prop where
  outer : ∀ p, c = some p → Outer C p s ∧ Outer C p d
  inner : ∀ x, Outer C x s → Outer C x d → ∃ p, c = some p ∧ Below C x p

/-- States exited by the termination of `s`: its active subtree, then outer states
left without active inner state, innermost first. -/
def terminated (C : Chart) (act : Sid → Bool) (s : Sid) : List Sid :=
  exitOrder C act s ++ upward C (fun _ => false) (without act (exitOrder C act s)) (C.parent s)

/-- The active state `x` is unstable after the observations `obs`, which started with the active states `act0`
(doc/definitions.html:168-176): one of its regions is empty although `x` was entered meanwhile or the region was not empty before. -/
def Unstable (C : Chart) (act0 : Sid → Bool) (obs : List Obs) (act : Sid → Bool) (x : Sid) : Prop :=
  act x = true ∧ ∃ i, i < C.regions (some x) ∧ (∀ y, C.parent y = some x → C.pos y = i → act y = false) ∧
    (Obs.enter x ∈ obs ∨ ∃ y, C.parent y = some x ∧ C.pos y = i ∧ act0 y = true)

/-- `u` is unstable and all other unstable states are inside `u`. -/
structure OutermostUnstable (C : Chart) (act0 : Sid → Bool) (obs : List Obs) (act : Sid → Bool) (u : Sid) : Prop where
  unstable : Unstable C act0 obs act u
  outermost : ∀ x, Unstable C act0 obs act x → Below C u x

/-- `h` is the state to which an exception event goes: the outermost unstable state, or `cur` if no state is unstable
(doc/reference.html:1015-1027). -/
def OfferedTo (C : Chart) (cur : Option Sid) (act0 : Sid → Bool) (obs : List Obs) (act : Sid → Bool) (h : Sid) : Prop :=
  act h = true ∧ (OutermostUnstable C act0 obs act h ∨ ((∀ x, ¬ Unstable C act0 obs act x) ∧ cur = some h))

/-- The observations of a transition that was interrupted while it left states after its action, which came after the exit of other states. This is possible only with relaxed
transition context. -/
def LateExit (obs : List Obs) : Prop :=
  ∃ (p q : List Obs) (a : Nat), obs = p ++ .act a :: q ∧ (∃ y, .destroy y ∈ p) ∧ (∃ z, .exit z ∈ q ∨ .exitFail z ∈ q) ∧
    ∀ o ∈ q, ∃ z, o = .exit z ∨ o = .exitFail z ∨ o = .destroy z

/-- As `OfferedTo`, but after an interrupted late exit the exception event may go to any unstable state. -/
def SentTo (C : Chart) (cur : Option Sid) (act0 : Sid → Bool) (obs : List Obs) (act : Sid → Bool) (h : Sid) : Prop :=
  act h = true ∧ ((Unstable C act0 obs act h ∧ (C.relaxed = false ∨ ¬ LateExit obs → ∀ x, Unstable C act0 obs act x → Below C h x)) ∨
    ((∀ x, ¬ Unstable C act0 obs act x) ∧ cur = some h))

theorem OfferedTo.sentTo {C : Chart} {cur : Option Sid} {act0 : Sid → Bool} {obs : List Obs} {act : Sid → Bool} {h : Sid}
    (ho : OfferedTo C cur act0 obs act h) : SentTo C cur act0 obs act h :=
  ⟨ho.1, ho.2.imp (fun g => ⟨g.unstable, fun _ => g.outermost⟩) id⟩

/-- In the default configuration exception events go to the outermost unstable state; otherwise they do, too, unless a late exit was interrupted. -/
theorem SentTo.offeredTo {C : Chart} {cur : Option Sid} {act0 : Sid → Bool} {obs : List Obs} {act : Sid → Bool} {h : Sid}
    (hr : C.relaxed = false ∨ ¬ LateExit obs) (hs : SentTo C cur act0 obs act h) : OfferedTo C cur act0 obs act h :=
  ⟨hs.1, hs.2.imp (fun g => ⟨g.1, g.2 hr⟩) id⟩

/-- `x` is strictly inside the context `q` (everything is inside the machine). -/
def Inside (C : Chart) (q : Option Sid) (x : Sid) : Prop := ∀ y, q = some y → Outer C y x

/-- In a transition with action `a` the state `x` is exited before the action runs: always, unless the transition context is
relaxed; then, if it is inside the context of which the action is a member; without action always (doc/configuration.html:135-160). -/
def Before (C : Chart) (a : Option Nat) (x : Sid) : Prop := C.relaxed = true → Inside C (a.bind C.actCtx) x

theorem before_default {C : Chart} (h : C.relaxed = false) (a : Option Nat) (x : Sid) : Before C a x := by
  intro hr; rw [h] at hr; cases hr

/-- A transition leaves the active states at or below `t`: before the action `l1`, those that satisfy `B`, and after it the others, `l2`. -/
structure Leaves (C : Chart) (act : Sid → Bool) (t : Sid) (B : Sid → Prop) (l1 l2 : List Sid) : Prop where
  first : ExitList C (fun x => (act x = true ∧ Below C t x) ∧ B x) l1
  rest : ExitList C (fun x => (act x = true ∧ Below C t x) ∧ ¬ B x) l2

variable (C : Chart) (F : Memory → Memory → Prop) (full : Bool)

/-- A transition from `s` to `d` with action `a`: exit of the subtree of the
state `t` below the innermost common context, with the action after it or (relaxed transition context) in between, entry down to `d`. -/
structure Transits (s : Sid) (d : Target) (a : Option Nat) (c : Conf) (obs : List Obs) (c' : Conf) : Prop where
  ex : ∃ k t l1 l2 l h1, CommonCtx C s d.st k ∧ C.parent t = k ∧ Below C t s ∧ Leaves C c.act t (Before C a) l1 l2 ∧
    obs = exitObs full l1 ++ acts a ++ exitObs full l2 ++ enterObs l ∧
    MemRun C F c.mem (exitObs full l1 ++ acts a ++ exitObs full l2) h1 ∧
    Enters C F h1 (.down k d) l c'.mem ∧
    (∀ x, c'.act x = true ↔ (c.act x = true ∧ ¬ Below C t x) ∨ x ∈ l) ∧
    (∀ x ∈ l, ∃ y, C.parent y = k ∧ C.pos y = C.pos t ∧ Below C y x) ∧ ∃ y, C.parent y = k ∧ C.pos y = C.pos t ∧ Below C y d.st

/-- Termination of `s`. -/
structure Terminates (s : Sid) (c : Conf) (obs : List Obs) (c' : Conf) : Prop where
  seen : obs = exitObs full (terminated C c.act s)
  mem : MemRun C F c.mem obs c'.mem
  act : c'.act = without c.act (terminated C c.act s)

/-- What transitions and terminations do: `trans s d a c obs c'` relates the configurations before and after a
transition from `s` to `d` with action `a`, and the observations made; `term s` is the termination of `s`. -/
structure Moves where
  trans : Sid → Target → Option Nat → Conf → List Obs → Conf → Prop
  term : Sid → Conf → List Obs → Conf → Prop

/-- Transitions and terminations as in the code. -/
def Moves.code : Moves := ⟨Transits C F full, Terminates C F full⟩

/-- The exit of the states `l`, in order, is interrupted at one of them, `y`: those before it were exited and destroyed, `y` is
destroyed. Either its `exit()` threw, or `exit()` returned and what follows it threw. States outside `y` may be destroyed, too. -/
def ExitsUntil (l : List Sid) (obs : List Obs) : Prop :=
  ∃ (l1 : List Sid) (y : Sid) (l2 : List Sid) (o : Obs) (l3 : List Sid), l = l1 ++ y :: l2 ∧ (o = .exit y ∨ o = .exitFail y) ∧ obs = exitObs true l1 ++ o :: (y :: l3).map .destroy ∧
    ∀ x ∈ l3, Below C x y

theorem ExitsUntil.more {C : Chart} {l l' : List Sid} {obs : List Obs} (h : ExitsUntil C l obs) (hl : ∀ y ∈ l, ∀ x ∈ l', Below C x y) :
    ExitsUntil C l (obs ++ l'.map .destroy) := by
  obtain ⟨l1, y, l2, o, l3, rfl, h1, rfl, h2⟩ := h
  refine ⟨l1, y, l2, o, l3 ++ l', rfl, h1, by simp, fun x hx => ?_⟩
  rcases List.mem_append.1 hx with hx | hx
  · exact h2 x hx
  · exact hl y (by simp) x hx

/-- The entry of `g` with memory `h` is interrupted: after the entry of some states that of a state `y` failed. Entered states
outside `y` may be destroyed again. -/
def EntersUntil (h : Memory) (g : Goal) (obs : List Obs) : Prop :=
  ∃ (l : List Sid) (y : Sid) (tail : List Obs) (l3 : List Sid), Begins C F h g l y ∧ NotEntered y tail ∧ obs = enterObs l ++ (tail ++ l3.map .destroy) ∧ ∀ x ∈ l3, x ∈ l ∧ Below C x y

/-- In a transition with action `a` the exit of the active states at or below `t` is interrupted: before the action, by it, or after it. The
states that satisfy `B` are exited before the action. -/
inductive LeavesUntil (act : Sid → Bool) (t : Sid) (B : Sid → Prop) (a : Option Nat) : List Obs → Prop
  | first {l1 obs} : full = true → ExitList C (fun x => (act x = true ∧ Below C t x) ∧ B x) l1 → ExitsUntil C l1 obs → LeavesUntil act t B a obs
  | action {l1} : a ≠ none → ExitList C (fun x => (act x = true ∧ Below C t x) ∧ B x) l1 → LeavesUntil act t B a (exitObs full l1 ++ acts a)
  | rest {l1 l2 obs} : full = true → Leaves C act t B l1 l2 → ExitsUntil C l2 obs → LeavesUntil act t B a (exitObs full l1 ++ acts a ++ obs)

/-- A transition from `s` to `d` with action `a` that is interrupted by an exception during exit, by the action, or during entry. -/
inductive TransitsUntil (s : Sid) (d : Target) (a : Option Nat) (c : Conf) : List Obs → Prop
  | leave {k t obs} : CommonCtx C s d.st k → C.parent t = k → Below C t s → LeavesUntil C full c.act t (Before C a) a obs → TransitsUntil s d a c obs
  | entry {k t l1 l2 h1 obs} : CommonCtx C s d.st k → C.parent t = k → Below C t s → Leaves C c.act t (Before C a) l1 l2 →
      MemRun C F c.mem (exitObs full l1 ++ acts a ++ exitObs full l2) h1 → EntersUntil C F h1 (.down k d) obs →
      TransitsUntil s d a c (exitObs full l1 ++ acts a ++ exitObs full l2 ++ obs)

/-- The termination of `s` is interrupted. -/
def TerminatesUntil (s : Sid) (c : Conf) (obs : List Obs) : Prop := full = true ∧ ExitsUntil C (terminated C c.act s) obs

/-- What interrupted transitions and terminations do. -/
structure Breaks where
  trans : Sid → Target → Option Nat → Conf → List Obs → Prop
  term : Sid → Conf → List Obs → Prop

/-- Interrupted transitions and terminations as in the code. -/
def Breaks.code : Breaks := ⟨TransitsUntil C F full, TerminatesUntil C full⟩

/-- One reaction of `s` is interrupted: by an action, by a `react` member, or during a transition or termination. -/
inductive FiresUntil (B : Breaks) (D : Sid → Nat → Event → Decision → Prop) (s : Sid) (e : Event) (c : Conf) : RKind → List Obs → Prop
  | transition {d a obs} : B.trans s d a c obs → FiresUntil B D s e c (.transition d a) obs
  | inState {a} : FiresUntil B D s e c (.inState (some a)) [.act a]
  | termination {obs} : B.term s c obs → FiresUntil B D s e c .termination obs
  | react {id} : FiresUntil B D s e c (.custom id) [.react s id]
  | transit {h id d a obs} : F c.mem h → D s id e (.transit d a) → B.trans s d a ⟨c.act, h⟩ obs →
      FiresUntil B D s e c (.custom id) (.react s id :: obs)
  | terminate {h id obs} : F c.mem h → D s id e .terminate → B.term s ⟨c.act, h⟩ obs →
      FiresUntil B D s e c (.custom id) (.react s id :: obs)

/-- The first reaction in the list that names the type of the event (or any event) is interrupted. -/
def LocalUntil (B : Breaks) (D : Sid → Nat → Event → Decision → Prop) (s : Sid) (e : Event) (l : List Reaction) (c : Conf) (obs : List Obs) : Prop :=
  ∃ l1 r l2, l = l1 ++ r :: l2 ∧ (∀ q ∈ l1, q.ev ≠ none ∧ q.ev ≠ some e.ty) ∧ (r.ev = none ∨ r.ev = some e.ty) ∧ FiresUntil F B D s e c r.kind obs

variable (T : Moves)

/-- One reaction of `s` is executed; `D s id e d`: the user's `react` member
`id` of `s` may return decision `d` for `e`. -/
inductive Fires (D : Sid → Nat → Event → Decision → Prop) (s : Sid) (e : Event) : Conf → RKind → List Obs → RR → Conf → Prop
  | transition {c c' d a obs} : T.trans s d a c obs c' → Fires D s e c (.transition d a) obs .discard c'
  | inState {c h a} : F c.mem h → Fires D s e c (.inState a) (acts a) .discard ⟨c.act, h⟩
  | termination {c c' obs} : T.term s c obs c' → Fires D s e c .termination obs .discard c'
  | deferral {c} : Fires D s e c .deferral [.defer s] .defer c
  | discard {c h id} : F c.mem h → D s id e .discard → Fires D s e c (.custom id) [.react s id] .discard ⟨c.act, h⟩
  | forward {c h id} : F c.mem h → D s id e .forward → Fires D s e c (.custom id) [.react s id] .forward ⟨c.act, h⟩
  | defer {c h id} : F c.mem h → D s id e .defer → Fires D s e c (.custom id) [.react s id, .defer s] .defer ⟨c.act, h⟩
  | transit {c h c' id d a obs} : F c.mem h → D s id e (.transit d a) → T.trans s d a ⟨c.act, h⟩ obs c' →
      Fires D s e c (.custom id) (.react s id :: obs) .discard c'
  | terminate {c h c' id obs} : F c.mem h → D s id e .terminate → T.term s ⟨c.act, h⟩ obs c' →
      Fires D s e c (.custom id) (.react s id :: obs) .discard c'

/-- The first reaction in the list that names the type of the event (or any event) is executed. -/
inductive Local (D : Sid → Nat → Event → Decision → Prop) (s : Sid) (e : Event) : List Reaction → Conf → List Obs → RR → Conf → Prop
  | none {c} : Local D s e [] c [] .forward c
  | skip {r rs c obs res c'} : r.ev ≠ none → r.ev ≠ some e.ty → Local D s e rs c obs res c' → Local D s e (r :: rs) c obs res c'
  | fire {r rs c obs res c'} : r.ev = none ∨ r.ev = some e.ty → Fires F T D s e c r.kind obs res c' →
      Local D s e (r :: rs) c obs res c'

/-- Reaction search from `s` outward: an outer state is asked if the event was forwarded. -/
inductive Search (D : Sid → Nat → Event → Decision → Prop) (e : Event) : Sid → Conf → List Obs → RR → Conf → Prop
  | stop {s c obs res c'} : Local F T D s e (C.reactions s) c obs res c' → res ≠ .forward → Search D e s c obs res c'
  | top {s c obs c'} : Local F T D s e (C.reactions s) c obs .forward c' → C.parent s = none → Search D e s c obs .forward c'
  | out {s p c o1 c1 o2 res c'} : Local F T D s e (C.reactions s) c o1 .forward c1 → C.parent s = some p →
      Search D e p c1 o2 res c' → Search D e s c (o1 ++ o2) res c'

/-- The search for a reaction went from `s` outward to `k`; the states before `k` forwarded the event. -/
inductive Passes (D : Sid → Nat → Event → Decision → Prop) (e : Event) : Sid → Conf → List Obs → Sid → Conf → Prop
  | here {s c} : Passes D e s c [] s c
  | out {s p k c o1 c1 o2 c'} : Local F T D s e (C.reactions s) c o1 .forward c1 → C.parent s = some p →
      Passes D e p c1 o2 k c' → Passes D e s c (o1 ++ o2) k c'

/-- The search for a reaction went from `s` outward to `k`, whose reaction is interrupted. -/
def SearchUntil (B : Breaks) (D : Sid → Nat → Event → Decision → Prop) (e : Event) (s : Sid) (c : Conf) (obs : List Obs) : Prop :=
  ∃ o1 k c1 o2, obs = o1 ++ o2 ∧ Passes C F T D e s c o1 k c1 ∧ LocalUntil F B D k e (C.reactions k) c1 o2

variable {C F T}

/-- Forwarding enters nothing. -/
theorem Local.noEnter {D : Sid → Nat → Event → Decision → Prop} {s : Sid} {e : Event} {l : List Reaction} {c c' : Conf} {obs : List Obs} {r : RR}
    (h : Local F T D s e l c obs r c') : r = .forward → ∀ o ∈ obs, ∀ x, o ≠ .enter x := by
  induction h with
  | none => intro _ o ho; cases ho
  | skip _ _ _ ih => exact ih
  | @fire r _ _ _ _ _ _ hf =>
    intro hr
    generalize r.kind = k at hf
    cases hf <;> cases hr
    simp

theorem Search.noEnter {D : Sid → Nat → Event → Decision → Prop} {s : Sid} {e : Event} {c c' : Conf} {obs : List Obs} {r : RR}
    (h : Search C F T D e s c obs r c') : r = .forward → ∀ o ∈ obs, ∀ x, o ≠ .enter x := by
  induction h with
  | stop _ hn => intro hr; exact absurd hr hn
  | top hl _ => intro _; exact hl.noEnter rfl
  | out hl _ _ ih =>
    intro hr o ho
    rcases List.mem_append.1 ho with ho | ho
    · exact hl.noEnter rfl o ho
    · exact ih hr o ho

variable (C F T)

/-- The innermost states `l` are asked in order until one of them does not forward. -/
inductive Sweep (D : Sid → Nat → Event → Decision → Prop) (e : Event) : List Sid → Conf → List Obs → RR → Conf → Prop
  | none {c} : Sweep D e [] c [] .forward c
  | stop {s l c obs res c'} : Search C F T D e s c obs res c' → res ≠ .forward → Sweep D e (s :: l) c obs res c'
  | next {s l c o1 c1 o2 res c'} : Search C F T D e s c o1 .forward c1 → Sweep D e l c1 o2 res c' →
      Sweep D e (s :: l) c (o1 ++ o2) res c'

end SC.Spec
