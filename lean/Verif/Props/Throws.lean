import Verif.Only
import Verif.Born
import Verif.Props.Config
import Verif.Example
/-!
# C77: calls throw only what user code or an allocation throws

An exception that leaves a call is one that user code or an allocation can throw.
-/

namespace SC
open Spec
variable {W α β : Type}

namespace Spec

/-- The exceptions that a call can end with. -/
inductive MayThrow (P : Prog W) (x : Exc) : Call → Prop
  | initiate {k} : CanRaise P x → MayThrow P x (.initiate k)
  | terminate : CanRaise P x → MayThrow P x .terminate
  | process {e k} : CanRaise P x → MayThrow P x (.process e k)
  /-- `unconsumed_event` throws for an event, or there is no memory to defer it. The event is the argument or a queued one. -/
  | unconsumed {e' v w e k} : (P.unconsumed e' v w).throws = some x → MayThrow P x (.process e k)
  | unconsumed' {e' v w k} : (P.unconsumed e' v w).throws = some x → MayThrow P x (.initiate k)
  | defer {e' w e k} : (P.alloc (.deferNode e') w).2 = some x → MayThrow P x (.process e k)
  | defer' {e' w k} : (P.alloc (.deferNode e') w).2 = some x → MayThrow P x (.initiate k)
  | post {e w} : (P.alloc (.postNode e) w).2 = some x → MayThrow P x (.post e)
  | clearShallow {k w} : (P.alloc (.shallowNode k) w).2 = some x → MayThrow P x (.clearShallow k)
  | clearDeep {k w} : (P.alloc (.deepNode k) w).2 = some x → MayThrow P x (.clearDeep k)

end Spec

namespace Only
variable {X : Exc → Prop} {P : Prog W}

theorem throw {x : Exc} (h : X x) : Only X (M.throw x : M W α) := fun _ _ _ he => by cases he; exact h

theorem tryCatch {x : M W α} {f : Exc → M W α} (hx : Only X x) (hf : ∀ e, X e → Only X (f e)) : Only X (M.tryCatch x f) := by
  intro m e m' h
  unfold M.tryCatch at h
  cases h1 : x m with
  | ok a m1 => rw [h1] at h; cases h
  | thrown y m1 => rw [h1] at h; exact hf y (hx _ _ _ h1) m1 e m' h
  | fault g => rw [h1] at h; cases h

theorem withTrig {x : M W α} (ev : Option Event) (hx : Only X x) : Only X (withTrig ev x) := by
  intro m e m' h
  unfold SC.withTrig at h
  cases h1 : x { m with trig := ev } with
  | ok a m1 => rw [h1] at h; cases h
  | thrown y m1 => rw [h1] at h; cases h; exact hx _ _ _ h1
  | fault g => rw [h1] at h; cases h

theorem guardTerm {x : M W α} (hx : Only X x) : Only X (guardTerm P x) := by
  intro m e m' h
  unfold SC.guardTerm at h
  cases h1 : x m with
  | ok a m1 => rw [h1] at h; cases h
  | thrown y m1 =>
    rw [h1] at h
    simp only at h
    cases h2 : SC.terminateMachine P false m1 with
    | ok a m2 => rw [h2] at h; cases h; exact hx _ _ _ h1
    | thrown z m2 => rw [h2] at h; cases h
    | fault g => rw [h2] at h; cases h
  | fault g => rw [h1] at h; cases h

theorem allocate' {i : Site} (h : ∀ w x, (P.alloc i w).2 = some x → X x) : Only X (SC.allocate P i) := by
  intro m e m' h1
  unfold SC.allocate at h1
  rcases h2 : P.alloc i m.world with ⟨w, _ | x⟩
  · rw [h2] at h1; cases h1
  · rw [h2] at h1; cases h1; exact h m.world _ (by rw [h2])

theorem allocNode {i : Site} (has : Mach W → Bool) (h : ∀ w x, (P.alloc i w).2 = some x → X x) : Only X (SC.allocNode P has i) := by
  intro m e m' h1
  unfold SC.allocNode at h1
  cases h2 : has m with
  | true => rw [h2] at h1; cases h1
  | false => rw [h2] at h1; exact allocate' h _ _ _ h1

variable (hX : ∀ x, CanRaise P x → X x)
include hX

theorem handleException (c : Option Sid) (ev : Event) {x : Exc} (hx : X x) : Only X (handleException P c ev x) := by
  unfold SC.handleException
  refine bind get fun m => ?_
  split
  · exact throw hx
  · split
    · exact fault _
    · refine withTrig _ (bind (modify _) fun _ => bind (reactImpl hX _ ev) fun r => bind (modify _) fun _ => bind get fun m => ?_)
      split
      · exact throw hx
      · exact pure _

theorem translated (c : Option Sid) {x : M W RR} (hx : Only X x) : Only X (translated P c x) := by
  unfold SC.translated
  refine tryCatch hx fun e he => ?_
  split
  · exact throw he
  · exact handleException hX c _ he

theorem sendLoop (e : Event) : ∀ k i, Only X (sendLoop P e k i)
  | 0, _ => fault _
  | k + 1, i => by
    have ih := sendLoop e k
    unfold SC.sendLoop
    refine bind get fun m => ?_
    split
    · exact pure _
    · split
      · exact fault _
      · refine bind (translated hX _ (reactImpl hX _ e)) fun r => ?_
        split
        · exact ih _
        · exact pure _

theorem terminate : Only X (terminate P) :=
  bind (withTrig _ (guardTerm (translated hX none (bind (terminateMachine hX true) fun _ => pure _)))) fun _ => pure _

variable (hU : ∀ e v w x, (P.unconsumed e v w).throws = some x → X x) (hD : ∀ e w x, (P.alloc (.deferNode e) w).2 = some x → X x)
include hU

theorem sendEvent (e : Event) : Only X (sendEvent P e) := by
  unfold SC.sendEvent
  refine withTrig _ (bind (guardTerm (bind get fun m => ?_)) fun r => bind ?_ fun _ => pure _)
  · split
    · exact fault _
    · exact sendLoop hX e _ 0
  · split
    · exact runUser (hU e)
    · exact pure _

include hD

theorem dispatch (e : Event) : Only X (dispatch P e) := by
  unfold SC.dispatch SC.qop
  refine bind (onThrow (sendEvent hX hU e)) fun r => ?_
  split
  · exact bind (onThrow (allocate' (hD e))) fun _ => modify _
  · exact modify _

theorem processQueued : ∀ k, Only X (processQueued P k)
  | 0 => bind get fun _ => pure _
  | k + 1 => by
    have ih := processQueued k
    unfold SC.processQueued
    refine bind get fun m => ?_
    split
    · exact pure _
    · exact bind (modify _) fun _ => bind (dispatch hX hU hD _) fun _ => ih

theorem construct (k : Nat) : Only X (construct P k) :=
  bind (withTrig _ (guardTerm (translated hX none (bind (initialConstruct hX) fun _ => pure _)))) fun _ => processQueued hX hU hD k

end Only

/-- **C77.** An exception that leaves a call can be thrown by user code or by an allocation, in particular not by a call that runs no such code. -/
theorem C77_call (P : Prog W) {m m' : Mach W} {c : Call} {x : Exc} (h : c.run P m = .thrown x m') : MayThrow P x c := by
  have key : ∀ c : Call, Only (fun x => MayThrow P x c) (c.run P) := by
    intro c
    cases c with
    | initiate k =>
      exact Only.bind (Only.terminate fun _ h => .initiate h) fun _ =>
        Only.construct (fun _ h => .initiate h) (fun _ _ _ _ h => .unconsumed' h) (fun _ _ _ h => .defer' h) k
    | terminate => exact Only.bind (Only.terminate fun _ h => .terminate h) fun _ => Only.pure _
    | process e k =>
      exact Only.bind (Only.modify _) fun _ => Only.bind (Only.dispatch (fun _ h => .process h) (fun _ _ _ _ h => .unconsumed h) (fun _ _ _ h => .defer h) e) fun _ =>
        Only.processQueued (fun _ h => .process h) (fun _ _ _ _ h => .unconsumed h) (fun _ _ _ h => .defer h) k
    | post e => exact Only.bind (Only.bind (Only.allocate' fun _ _ h => .post h) fun _ => Only.modify _) fun _ => Only.pure _
    | clearShallow k => exact Only.bind (Only.bind (Only.allocNode _ fun _ _ h => .clearShallow h) fun _ => Only.modify _) fun _ => Only.pure _
    | clearDeep k => exact Only.bind (Only.bind (Only.allocNode _ fun _ _ h => .clearDeep h) fun _ => Only.modify _) fun _ => Only.pure _
  exact key c m x m' h

/-- **C77.** An exception that leaves a call was raised during the call (`xlog` is the list of the exceptions raised by user code and allocations). -/
theorem C77_raised (P : Prog W) {m m' : Mach W} {c : Call} {x : Exc} (h : c.run P m = .thrown x m') : ∃ l, m'.xlog = m.xlog ++ l ∧ x ∈ l := by
  have key : ∀ B, Born B [] (c.run P) := by
    intro B
    cases c with
    | initiate k => exact Born.bind Born.terminate fun _ => Born.construct k
    | terminate => exact Born.bind Born.terminate fun _ => Born.pure _
    | process e k => exact Born.bind (Born.modify _ fun _ => rfl) fun _ => Born.bind (Born.dispatch e) fun _ => Born.processQueued k
    | post e => exact Born.bind (Born.bind (Born.allocate _) fun _ => Born.modify _ fun _ => rfl) fun _ => Born.pure _
    | clearShallow k => exact Born.bind (Born.bind (Born.allocNode _ _) fun _ => Born.modify _ fun _ => rfl) fun _ => Born.pure _
    | clearDeep k => exact Born.bind (Born.bind (Born.allocNode _ _) fun _ => Born.modify _ fun _ => rfl) fun _ => Born.pure _
  have h1 := key m.xlog m ⟨[], (List.append_nil _).symm, fun _ h => by cases h⟩
  rw [h] at h1
  obtain ⟨l, h2, h3⟩ := h1
  exact ⟨l, h2, h3 x List.mem_cons_self⟩

/-- **C77.** In reachable states a legal call returns, if what the call can do throws nothing. -/
theorem C77_returns {P : Prog W} (hwf : P.toChart.WF) (hok : Contract P) {m : Mach W} (hm : Reach P m) {c : Call} (hl : c.legal P m) (hn : ∀ x, ¬ MayThrow P x c) :
    ∃ b m', c.run P m = .ok b m' := by
  cases h : c.run P m with
  | ok b m' => exact ⟨b, m', rfl⟩
  | thrown x m' => exact absurd (C77_call P h) (hn x)
  | fault g => exact absurd h (C01_call_is_safe hwf hok hm c hl g)

end SC

namespace SC.Ex
open Spec

/-- The exceptions of the example are few. -/
theorem throws_few {x : Exc} {c : Call} (h : MayThrow prog x c) : x = 5 ∨ x = 7 ∨ 100 ≤ x := by
  have key : ∀ y, CanRaise prog y → y = 5 ∨ y = 7 ∨ 100 ≤ y := by
    intro y hy
    cases hy with
    | @ctor s v w h =>
      have h : (if w = 1 ∧ s = 3 then some 100 else if w = 7 ∧ s = 4 then some 7 else none) = some y := h
      split at h
      · cases h; exact .inr (.inr (Nat.le_refl _))
      · split at h
        · cases h; exact .inr (.inl rfl)
        · cases h
    | @exit s v w h =>
      have h : (if w = 2 ∧ s = 2 then some 101 else if w = 6 ∧ s = 2 then some 5 else none) = some y := h
      split at h
      · cases h; exact .inr (.inr (by decide))
      · split at h
        · cases h; exact .inl rfl
        · cases h
    | @action a v w h =>
      have h : (if w = 3 then some (102 + a) else none) = some y := h
      split at h
      · cases h; exact .inr (.inr (Nat.le_trans (by decide) (Nat.le_add_right 102 a)))
      · cases h
    | react h => cases h
    | alloc _ h => cases h
  have hu : ∀ e v w, (prog.unconsumed e v w).throws = some x → x = 5 ∨ x = 7 ∨ 100 ≤ x := by
    intro e v w h
    have h : (if w = 4 then some 103 else none) = some x := h
    split at h
    · cases h; exact .inr (.inr (by decide))
    · cases h
  cases h with
  | initiate h => exact key _ h
  | terminate h => exact key _ h
  | process h => exact key _ h
  | unconsumed h => exact hu _ _ _ h
  | unconsumed' h => exact hu _ _ _ h
  | defer h => cases h
  | defer' h => cases h
  | post h => cases h
  | clearShallow h => cases h
  | clearDeep h => cases h

/-- So no call of the example throws 6. -/
example (m m' : Mach Nat) (c : Call) : c.run prog m ≠ .thrown 6 m' := fun h => absurd (throws_few (C77_call prog h)) (by decide)

/-- 7 leaves `initiate` if the environment makes the constructor of state 4 throw. -/
example : (match (Call.initiate 0).run prog (Mach.fresh 7) with | .thrown x _ => x == 7 | _ => false) = true := by decide +kernel

/-- An exception of the action is translated and dispatched to state 0, whose action throws another one: both were raised, the second leaves the call. -/
example : (match (Call.initiate 0).run prog (Mach.fresh 0) with
    | .ok _ m => (match (Call.process ⟨1, 0⟩ 0).run prog { m with world := 3 } with | .thrown x n => (m.xlog, x, n.xlog) == ([], 103, [109, 103]) | _ => false)
    | _ => false) = true := by decide +kernel

/-- Posting an event never throws, since memory never runs out. -/
example (m : Mach Nat) (hm : Reach prog m) (e : Event) : ∃ b m', (Call.post e).run prog m = .ok b m' := C77_returns wf contract hm trivial fun x h => by cases h with | post h => cases h

end SC.Ex
