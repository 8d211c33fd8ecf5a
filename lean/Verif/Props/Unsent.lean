import Verif.Unsent
import Verif.Props.Inherit
/-!
# C76: reactions to events that do not occur do not matter

If the client sends only events of a set and user code posts only events of the set, the machine never sees another event, and the reactions to other events can be changed.
-/

namespace SC
open Spec
variable {W : Type}

namespace Spec

/-- The client sends only events of `E`. -/
def Call.Sends (E : Event → Prop) : Call → Prop
  | .process e _ | .post e => E e
  | _ => True

/-- Machines of clients that send only events of `E`. -/
inductive ReachBy (P : Prog W) (E : Event → Prop) : Mach W → Prop
  | fresh (w : W) : ReachBy P E (Mach.fresh w)
  | returns {c m m' b} : ReachBy P E m → Call.Sends E c → c.legal P m → c.run P m = .ok b m' → ReachBy P E m'
  | throws {c x m m'} : ReachBy P E m → Call.Sends E c → c.legal P m → c.run P m = .thrown x m' → ReachBy P E m'
  | world {m} (w : W) : ReachBy P E m → ReachBy P E { m with world := w }

end Spec

theorem Heard.fresh (E : Event → Prop) (w : W) : Heard E (Mach.fresh w) :=
  ⟨fun _ h => (by cases h), fun _ h => (by cases h), fun _ h => (by cases h), fun _ h => (by cases h)⟩

section
variable {E : Event → Prop} {P : Prog W} {r : Sid → List Reaction} {f : Sid → Nat → Event → View → W → UOut W × Decision}

theorem Deaf.run (hE : Posts P E) (hK : SameFor P r f E) {c : Call} (hc : Call.Sends E c) : Deaf0 E (c.run P) (c.run (P.recast r f P.relaxed P.translate)) := by
  cases c with
  | initiate k => exact Deaf.bind (Deaf.terminate hE hK) fun _ _ => Deaf.construct hE hK k
  | terminate => exact Deaf.bind (Deaf.terminate hE hK) fun _ _ => Deaf.pure0 _
  | process e k => exact Deaf.processEvent hE hK hc k
  | post e =>
    exact Deaf.bind (Deaf.bind (Deaf.allocate P _) fun _ _ => Deaf.modify fun m hm => Deaf.heard_cmds [Cmd.post e] (fun e' h => by
      rcases List.mem_singleton.1 h with h; cases h; exact hc) hm) fun _ _ => Deaf.pure0 _
  | clearShallow k => exact Deaf.bind (Deaf.bind (Deaf.allocNode P _ _) fun _ _ => Deaf.same fun _ => ⟨rfl, rfl, rfl, rfl⟩) fun _ _ => Deaf.pure0 _
  | clearDeep k => exact Deaf.bind (Deaf.bind (Deaf.allocNode P _ _) fun _ _ => Deaf.same fun _ => ⟨rfl, rfl, rfl, rfl⟩) fun _ _ => Deaf.pure0 _

/-- `P` has the reactions of `P`. -/
theorem SameFor.self (P : Prog W) (E : Event → Prop) : SameFor P P.reactions P.react E := ⟨fun _ => rfl, fun _ => rfl⟩

theorem heard_reach (hE : Posts P E) {m : Mach W} (hm : ReachBy P E m) : Heard E m := by
  induction hm with
  | fresh w => exact .fresh E w
  | @returns c m m' _ _ hc _ hr ih =>
    have := (Deaf.run hE (SameFor.self P E) hc m ih).2
    rw [hr] at this
    exact this.1
  | @throws c x m m' _ hc _ hr ih =>
    have := (Deaf.run hE (SameFor.self P E) hc m ih).2
    rw [hr] at this
    exact this
  | world w _ ih => exact ⟨ih.evq, ih.dq, ih.trig, ih.trace⟩

/-- **C76.** No other event waits in a queue, and user code was never called while another event was processed. -/
theorem C76_events (hE : Posts P E) {m : Mach W} (hm : ReachBy P E m) :
    (∀ e ∈ m.evq, E e) ∧ (∀ e ∈ m.dq, E e) ∧ ∀ e o, (some e, o) ∈ m.trace → E e := by
  have h := heard_reach hE hm
  exact ⟨h.evq, h.dq, fun e o he => h.trace _ he e rfl⟩

/-- **C76.** Every call that sends only these events does exactly the same with other reactions to the other events, and so does the destructor. -/
theorem C76_call (hE : Posts P E) (hK : SameFor P r f E) {m : Mach W} (hm : ReachBy P E m) {c : Call} (hc : Call.Sends E c) :
    (c.legal (P.recast r f P.relaxed P.translate) m ↔ c.legal P m) ∧ c.run (P.recast r f P.relaxed P.translate) m = c.run P m ∧
      destruct (P.recast r f P.relaxed P.translate) m = destruct P m := by
  have hw := heard_reach hE hm
  refine ⟨?_, ((Deaf.run hE hK hc) m hw).1.symm, congrFun (Recast.terminateMachine P r f P.relaxed P.translate false) m⟩
  cases c with
  | initiate k =>
    unfold Call.legal
    rw [((Deaf.terminate hE hK) m hw).1]
  | terminate => exact Iff.rfl
  | process e k => exact Iff.rfl
  | post e => exact Iff.rfl
  | clearShallow k => exact Iff.rfl
  | clearDeep k => exact Iff.rfl

/-- **C76.** Clients that send only these events reach the same machines. -/
theorem C76_reach (hE : Posts P E) (hK : SameFor P r f E) (m : Mach W) : ReachBy (P.recast r f P.relaxed P.translate) E m ↔ ReachBy P E m := by
  constructor
  · intro h1
    induction h1 with
    | fresh w => exact .fresh w
    | @returns c m m' b _ hc h2 hr ih =>
      obtain ⟨h3, h4, _⟩ := C76_call hE hK ih hc
      exact .returns ih hc (h3.1 h2) (h4.symm.trans hr)
    | @throws c x m m' _ hc h2 hr ih =>
      obtain ⟨h3, h4, _⟩ := C76_call hE hK ih hc
      exact .throws ih hc (h3.1 h2) (h4.symm.trans hr)
    | world w _ ih => exact .world w ih
  · intro h1
    induction h1 with
    | fresh w => exact .fresh w
    | @returns c m m' b h0 hc h2 hr ih =>
      obtain ⟨h3, h4, _⟩ := C76_call hE hK h0 hc
      exact .returns ih hc (h3.2 h2) (h4.trans hr)
    | @throws c x m m' h0 hc h2 hr ih =>
      obtain ⟨h3, h4, _⟩ := C76_call hE hK h0 hc
      exact .throws ih hc (h3.2 h2) (h4.trans hr)
    | world w _ ih => exact .world w ih

theorem Session.reachBy {w : W} {l : List (ClientStep W)} {m : Mach W} (h : Session P w l m) (hl : ∀ x ∈ l, Call.Sends E x.call) : ReachBy P E m := by
  induction h with
  | new => exact .fresh w
  | returns _ h2 hr ih => exact .returns (.world _ (ih fun x hx => hl x (List.mem_cons_of_mem _ hx))) (hl _ List.mem_cons_self) h2 hr
  | throws _ h2 hr ih => exact .throws (.world _ (ih fun x hx => hl x (List.mem_cons_of_mem _ hx))) (hl _ List.mem_cons_self) h2 hr

/-- **C76.** A client that sends only these events can do the same with both machines, with the same results. -/
theorem C76_sessions (hE : Posts P E) (hK : SameFor P r f E) (w : W) (l : List (ClientStep W)) (hl : ∀ x ∈ l, Call.Sends E x.call) (m : Mach W) :
    Session (P.recast r f P.relaxed P.translate) w l m ↔ Session P w l m := by
  constructor
  · intro h1
    induction h1 with
    | new => exact .new
    | @returns l m m' v c _ h2 hr ih =>
      have ih := ih fun x hx => hl x (List.mem_cons_of_mem _ hx)
      obtain ⟨h3, h4, _⟩ := C76_call hE hK (.world v (ih.reachBy fun x hx => hl x (List.mem_cons_of_mem _ hx))) (c := c) (hl _ List.mem_cons_self)
      exact .returns ih (h3.1 h2) (h4.symm.trans hr)
    | @throws l m m' x v c _ h2 hr ih =>
      have ih := ih fun x hx => hl x (List.mem_cons_of_mem _ hx)
      obtain ⟨h3, h4, _⟩ := C76_call hE hK (.world v (ih.reachBy fun x hx => hl x (List.mem_cons_of_mem _ hx))) (c := c) (hl _ List.mem_cons_self)
      exact .throws ih (h3.1 h2) (h4.symm.trans hr)
  · intro h1
    induction h1 with
    | new => exact .new
    | @returns l m m' v c h0 h2 hr ih =>
      have ih := ih fun x hx => hl x (List.mem_cons_of_mem _ hx)
      obtain ⟨h3, h4, _⟩ := C76_call hE hK (.world v (h0.reachBy fun x hx => hl x (List.mem_cons_of_mem _ hx))) (c := c) (hl _ List.mem_cons_self)
      exact .returns ih (h3.2 h2) (h4.trans hr)
    | @throws l m m' x v c h0 h2 hr ih =>
      have ih := ih fun x hx => hl x (List.mem_cons_of_mem _ hx)
      obtain ⟨h3, h4, _⟩ := C76_call hE hK (.world v (h0.reachBy fun x hx => hl x (List.mem_cons_of_mem _ hx))) (c := c) (hl _ List.mem_cons_self)
      exact .throws ih (h3.2 h2) (h4.trans hr)

end

end SC

namespace SC.Ex
open Spec

/-- The user code of the example posts events of several types, but not of type 8. -/
theorem posts_but8 : Posts prog fun e => e.ty ≠ 8 where
  ctor := by intro s v w e h; cases h
  exit := by intro s v w e h; cases h
  dtor := by
    intro s v w e h
    have h : Cmd.post e ∈ (if s = 7 then [Cmd.post ⟨20, 0⟩] else []) := h
    split at h
    · rcases List.mem_singleton.1 h with h; cases h; decide
    · cases h
  action := by intro s v w e h; cases h
  react := by
    intro s id e' v w e _ h
    have h : Cmd.post e ∈ (if w = 5 then [Cmd.post ⟨1, 0⟩, .post ⟨4, 0⟩] else []) := h
    split at h
    · rcases List.mem_cons.1 h with h | h
      · cases h; decide
      · rcases List.mem_singleton.1 h with h; cases h; decide
    · cases h
  unconsumed := by intro e' v w e _ h; cases h
  translate := by
    intro x e h
    have h : (if 100 ≤ x then some (⟨9, x⟩ : Event) else none) = some e := h
    split at h
    · cases h; exact (by decide : (9 : Nat) ≠ 8)
    · cases h

/-- B (1) does not react to events of type 8 any more, but C (2) does. -/
def other8 (s : Sid) : List Reaction := if s = 1 then [] else if s = 2 then ⟨some 8, .custom 0⟩ :: prog.reactions s else prog.reactions s

/-- Reactions to events of type 8 terminate the state. -/
def react8 (s : Sid) (id : Nat) (e : Event) (v : View) (w : Nat) : UOut Nat × Decision := if e.ty = 8 then ({ world := 0 }, .terminate) else prog.react s id e v w

theorem other8_same : SameFor prog other8 react8 fun e => e.ty ≠ 8 where
  reactions := by
    intro s e he
    have h8 : ¬(some 8 = none ∨ some 8 = some e.ty) := by
      rintro (h | h)
      · cases h
      · exact he (Option.some.inj h).symm
    unfold other8
    split
    · next h =>
      subst h
      show _ = firstFor e.ty [⟨some 8, .termination⟩]
      unfold firstFor
      rw [if_neg h8]
      rfl
    · split
      · next h =>
        subst h
        show firstFor e.ty (⟨some 8, .custom 0⟩ :: prog.reactions 2) = _
        rw [firstFor, if_neg h8]
      · rfl
  react := by
    intro s id e he
    funext v w
    exact if_neg he

example (w : Nat) (l : List (ClientStep Nat)) (hl : ∀ x ∈ l, Call.Sends (fun e => e.ty ≠ 8) x.call) (m : Mach Nat) :
    Session (prog.recast other8 react8 prog.relaxed prog.translate) w l m ↔ Session prog w l m := C76_sessions posts_but8 other8_same w l hl m

/-- The machines react alike to an event of type 1. -/
example : lastCalls (prog.recast other8 react8 false prog.translate) [(0, .initiate 0)] ⟨1, 0⟩ = [.exit 2, .destroy 2, .act 7, .enter 3] ∧
    lastCalls prog [(0, .initiate 0)] ⟨1, 0⟩ = [.exit 2, .destroy 2, .act 7, .enter 3] := by decide +kernel

/-- They do not react alike to an event of type 8. -/
example : lastCalls (prog.recast other8 react8 false prog.translate) [(0, .initiate 0)] ⟨8, 0⟩ ≠ lastCalls prog [(0, .initiate 0)] ⟨8, 0⟩ := by decide +kernel

end SC.Ex
