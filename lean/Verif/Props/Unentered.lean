import Verif.Recode
import Verif.Props.Inherit
/-!
# C75: states that cannot be entered do not matter

A set of states that contains the initial state and is closed under what states lead to is never left, and the code of all other states can be changed.
-/

namespace SC
open Spec
variable {W : Type}

theorem Within.fresh (A : Sid → Prop) (w : W) : Within A (Mach.fresh w) :=
  ⟨fun _ _ h => (by cases h), fun _ _ h => (by cases h), fun _ _ h => (by cases h), fun _ h => (by cases h)⟩

section
variable {A : Sid → Prop} {P : Prog W} {K : Code W}

theorem Eqv.run (hA : Sealed P A) (hK : SameCode P K A) (c : Call) : Eqv0 A (c.run P) (c.run (P.withCode K)) := by
  cases c with
  | initiate k => exact Eqv.bind (Eqv.terminate hA hK) fun _ _ => Eqv.construct hA hK k
  | terminate => exact Eqv.bind (Eqv.terminate hA hK) fun _ _ => Eqv.pure0 _
  | process e k => exact Eqv.processEvent hA hK e k
  | post e => exact Eqv.bind (Eqv.bind (Eqv.allocate P _) fun _ _ => Eqv.modify fun m hm => Eqv.within_cmds [Cmd.post e] hm) fun _ _ => Eqv.pure0 _
  | clearShallow k => exact Eqv.bind (Eqv.bind (Eqv.allocNode P _ _) fun _ _ => Eqv.modify fun m hm => Eqv.within_cmds [Cmd.clearShallow k] hm) fun _ _ => Eqv.pure0 _
  | clearDeep k => exact Eqv.bind (Eqv.bind (Eqv.allocNode P _ _) fun _ _ => Eqv.modify fun m hm => Eqv.within_cmds [Cmd.clearDeep k] hm) fun _ _ => Eqv.pure0 _

/-- `P` has the code of `P`. -/
theorem SameCode.self (P : Prog W) (A : Sid → Prop) : SameCode P ⟨P.isSimple, P.reactions, P.ctor, P.exit, P.dtor, P.react⟩ A :=
  ⟨fun _ => rfl, fun _ => rfl, fun _ => rfl, fun _ => rfl, fun _ => rfl, fun _ => rfl⟩

theorem within_reach (hA : Sealed P A) {m : Mach W} (hm : Reach P m) : Within A m := by
  induction hm with
  | fresh w => exact .fresh A w
  | @returns c m m' _ _ hr ih =>
    have := (Eqv.run hA (SameCode.self P A) c m ih).2
    rw [hr] at this
    exact this.1
  | @throws c x m m' _ _ hr ih =>
    have := (Eqv.run hA (SameCode.self P A) c m ih).2
    rw [hr] at this
    exact this
  | world w _ ih => exact ⟨ih.heap, ih.sh, ih.dh, ih.trace⟩

/-- **C75.** Only states of the closed set exist between calls. -/
theorem C75_states (hA : Sealed P A) {m : Mach W} (hm : Reach P m) {s : Sid} (hs : (m.heap s).isSome) : A s := by
  obtain ⟨o, ho⟩ := Option.isSome_iff_exists.1 hs
  exact (within_reach hA hm).heap s o ho

/-- **C75.** No other state is ever entered, not even during a call: no constructor of another state was called. -/
theorem C75_never_entered (hA : Sealed P A) {m : Mach W} (hm : Reach P m) {e : Option Event} {s : Sid} (h : (e, .enter s) ∈ m.trace ∨ (e, .enterFail s) ∈ m.trace) : A s := by
  rcases h with h | h
  · exact (within_reach hA hm).trace _ h
  · exact (within_reach hA hm).trace _ h

/-- **C75.** In every reachable state every call does exactly the same with the other code, and so does the destructor. -/
theorem C75_call (hA : Sealed P A) (hK : SameCode P K A) {m : Mach W} (hm : Reach P m) (c : Call) :
    (c.legal (P.withCode K) m ↔ c.legal P m) ∧ c.run (P.withCode K) m = c.run P m ∧ destruct (P.withCode K) m = destruct P m := by
  have hw := within_reach hA hm
  refine ⟨?_, ((Eqv.run hA hK c) m hw).1.symm, ((Eqv.terminateMachine hA hK false) m hw).1.symm⟩
  cases c with
  | initiate k =>
    unfold Call.legal
    rw [((Eqv.terminate hA hK) m hw).1]
  | terminate => exact Iff.rfl
  | process e k => exact Iff.rfl
  | post e => exact Iff.rfl
  | clearShallow k => exact Iff.rfl
  | clearDeep k => exact Iff.rfl

/-- **C75.** A client can do the same with both machines, with the same results. -/
theorem C75_sessions (hA : Sealed P A) (hK : SameCode P K A) (w : W) (l : List (ClientStep W)) (m : Mach W) : Session (P.withCode K) w l m ↔ Session P w l m := by
  constructor
  · intro h1
    induction h1 with
    | new => exact .new
    | @returns l m m' v c _ h2 hr ih =>
      obtain ⟨h3, h4, _⟩ := C75_call hA hK (ih.reach.world v) c
      exact .returns ih (h3.1 h2) (h4.symm.trans hr)
    | @throws l m m' x v c _ h2 hr ih =>
      obtain ⟨h3, h4, _⟩ := C75_call hA hK (ih.reach.world v) c
      exact .throws ih (h3.1 h2) (h4.symm.trans hr)
  · intro h1
    induction h1 with
    | new => exact .new
    | @returns l m m' v c h0 h2 hr ih =>
      obtain ⟨h3, h4, _⟩ := C75_call hA hK (h0.reach.world v) c
      exact .returns ih (h3.2 h2) (h4.trans hr)
    | @throws l m m' x v c h0 h2 hr ih =>
      obtain ⟨h3, h4, _⟩ := C75_call hA hK (h0.reach.world v) c
      exact .throws ih (h3.2 h2) (h4.trans hr)

end

end SC

namespace SC.Ex
open Spec

/-- The example without the transitions of A (0) to I (8). -/
def cutOff : Prog Nat := prog.relist fun s => if s = 0 then [⟨some 12, .inState (some 3)⟩] else prog.reactions s

theorem cutOff_sealed : Sealed cutOff fun s => s < 8 where
  initial := by decide
  outer := by
    intro s p hs h
    have key : ∀ s, s < 8 → ∀ p ∈ cutOff.parent s, p < 8 := by decide
    exact key s hs p h
  inner := by
    intro s t hs h
    have key : ∀ s, s < 8 → ∀ t ∈ cutOff.init s, t.st < 8 := by decide
    exact key s hs t h
  transition := by
    intro s r d a hs hr hk
    have key : ∀ s, s < 8 → ∀ r ∈ cutOff.reactions s, (match r.kind with | .transition d _ => decide (d.st < 8) | _ => true) = true := by decide
    have := key s hs r hr
    rw [hk] at this
    exact of_decide_eq_true this
  custom := by
    intro s id e v w d a _ h
    have h' : (match e.val with
      | 0 => Decision.discard
      | 1 => .forward
      | 2 => .defer
      | 3 => if s = 2 then .transit ⟨.plain, 3⟩ none else .discard
      | _ => .terminate) = .transit d a := h
    split at h'
    · cases h'
    · cases h'
    · cases h'
    · split at h'
      · cases h'; decide
      · cases h'
    · cases h'

/-- Other code of I (8). -/
def otherCode : Code Nat where
  isSimple s := if s = 8 then true else cutOff.isSimple s
  reactions s := if s = 8 then [⟨none, .termination⟩] else cutOff.reactions s
  ctor s v w := if s = 8 then { world := w + 1, throws := some 1 } else cutOff.ctor s v w
  exit s v w := if s = 8 then { world := 0, throws := some 2 } else cutOff.exit s v w
  dtor s v w := if s = 8 then (7, []) else cutOff.dtor s v w
  react s id e v w := if s = 8 then ({ world := 0 }, .transit ⟨.plain, 8⟩ none) else cutOff.react s id e v w

theorem otherCode_same : SameCode cutOff otherCode fun s => s < 8 := by
  have h : ∀ {s : Sid}, s < 8 → s ≠ 8 := fun h1 h2 => absurd (h2 ▸ h1) (by decide)
  constructor <;> intro s hs
  · exact if_neg (h hs)
  · exact if_neg (h hs)
  · funext v w; exact if_neg (h hs)
  · funext v w; exact if_neg (h hs)
  · funext v w; exact if_neg (h hs)
  · funext id e v w; exact if_neg (h hs)

example (w : Nat) (l : List (ClientStep Nat)) (m : Mach Nat) : Session (cutOff.withCode otherCode) w l m ↔ Session cutOff w l m := C75_sessions cutOff_sealed otherCode_same w l m

/-- Transitions inside the set take place with both. -/
example : lastCalls (cutOff.withCode otherCode) [(0, .initiate 0)] ⟨1, 0⟩ = [.exit 2, .destroy 2, .act 7, .enter 3] ∧
    lastCalls cutOff [(0, .initiate 0)] ⟨1, 0⟩ = [.exit 2, .destroy 2, .act 7, .enter 3] := by decide +kernel

/-- If I (8) can be entered, its code matters. -/
example : lastCalls prog [(0, .initiate 0)] ⟨5, 0⟩ ≠ [] ∧ lastCalls (prog.withCode { otherCode with reactions := fun s => if s = 8 then [] else prog.reactions s }) [(0, .initiate 0)] ⟨5, 0⟩ = [] := by
  decide +kernel

end SC.Ex
