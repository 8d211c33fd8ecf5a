import Verif.Recast
/-!
# Which exceptions a reaction can end with (proof infrastructure)

The library itself throws nothing, so an exception comes from user code or from an allocation.
-/

namespace SC
variable {W α β : Type}

namespace Spec

/-- The library allocates memory here while it leaves and enters states. Deferred and posted events are stored elsewhere. -/
def OfStates : Site → Prop
  | .object _ | .leafNode _ | .shallowNode _ | .deepNode _ => True
  | .deferNode _ | .postNode _ => False

/-- The exceptions that constructors, functions `exit` and `react` and actions of states can throw, and the failing allocations of state objects, list nodes and history entries. -/
inductive CanRaise (P : Prog W) (x : Exc) : Prop
  | ctor {s v w} : (P.ctor s v w).throws = some x → CanRaise P x
  | exit {s v w} : (P.exit s v w).throws = some x → CanRaise P x
  | action {a v w} : (P.action a v w).throws = some x → CanRaise P x
  | react {s id e v w} : (P.react s id e v w).1.throws = some x → CanRaise P x
  | alloc {i w} : OfStates i → (P.alloc i w).2 = some x → CanRaise P x

end Spec

open Spec

/-- Only exceptions in `X` leave `x`. -/
def Only (X : Exc → Prop) (x : M W α) : Prop := ∀ m e m', x m = .thrown e m' → X e

namespace Only
variable {X : Exc → Prop}

theorem pure (a : α) : Only X (Pure.pure a : M W α) := fun _ _ _ h => by cases h
theorem get : Only X (M.get : M W (Mach W)) := fun _ _ _ h => by cases h
theorem modify (f : Mach W → Mach W) : Only X (M.modify f) := fun _ _ _ h => by cases h
theorem fault (g : Fault) : Only X (M.fault g : M W α) := fun _ _ _ h => by cases h

theorem bind {x : M W α} {f : α → M W β} (hx : Only X x) (hf : ∀ a, Only X (f a)) : Only X (x >>= f) := by
  intro m e m' h
  have h : M.bnd x f m = .thrown e m' := h
  unfold M.bnd at h
  cases h1 : x m with
  | ok a m1 => rw [h1] at h; exact hf a m1 e m' h
  | thrown y m1 => rw [h1] at h; cases h; exact hx _ _ _ h1
  | fault g => rw [h1] at h; cases h

theorem ite {c : Prop} [Decidable c] {x y : M W α} (hx : Only X x) (hy : Only X y) : Only X (if c then x else y) := by
  split <;> assumption

theorem onThrow {x : M W α} {u : M W Unit} (hx : Only X x) : Only X (M.onThrow x u) := by
  intro m e m' h
  unfold M.onThrow at h
  cases h1 : x m with
  | ok a m1 => rw [h1] at h; cases h
  | thrown y m1 =>
    rw [h1] at h
    simp only at h
    cases h2 : u m1 with
    | ok a m2 => rw [h2] at h; cases h; exact hx _ _ _ h1
    | thrown z m2 => rw [h2] at h; cases h
    | fault g => rw [h2] at h; cases h
  | fault g => rw [h1] at h; cases h

theorem finally' {x : M W α} {u : M W Unit} (hx : Only X x) (hu : Only X u) : Only X (M.finally' x u) := by
  intro m e m' h
  unfold M.finally' at h
  cases h1 : x m with
  | ok a m1 =>
    rw [h1] at h
    simp only at h
    cases h2 : u m1 with
    | ok a m2 => rw [h2] at h; cases h
    | thrown z m2 => rw [h2] at h; cases h; exact hu _ _ _ h2
    | fault g => rw [h2] at h; cases h
  | thrown y m1 =>
    rw [h1] at h
    simp only at h
    cases h2 : u m1 with
    | ok a m2 => rw [h2] at h; cases h; exact hx _ _ _ h1
    | thrown z m2 => rw [h2] at h; cases h
    | fault g => rw [h2] at h; cases h
  | fault g => rw [h1] at h; cases h

theorem getObj (s : Sid) : Only X (getObj s : M W Obj) := by
  intro m e m' h
  unfold SC.getObj at h
  cases h1 : m.heap s <;> rw [h1] at h <;> cases h

theorem setObj (s : Sid) (o : Obj) : Only X (setObj s o : M W Unit) := modify _

macro "only_step" : tactic => `(tactic| first
  | exact Only.pure _ | exact Only.get | exact Only.modify _ | exact Only.fault _ | exact Only.getObj _ | exact Only.setObj _ _
  | assumption
  | refine Only.bind ?_ fun _ => ?_
  | refine Only.onThrow ?_
  | refine Only.finally' ?_ ?_
  | split)

theorem addRef (s : Sid) : Only X (addRef s : M W Unit) := by unfold SC.addRef; repeat' only_step

variable (P : Prog W)

theorem removeInner (c : Option Sid) (k : Nat) : Only X (removeInner P c k) := by unfold SC.removeInner; repeat' only_step
theorem addInner (c : Option Sid) (k : Nat) (s : Sid) : Only X (addInner P c k s) := by unfold SC.addInner; repeat' only_step
theorem releaseEvents (s : Sid) : Only X (releaseEvents s : M W Unit) := modify _
theorem userDtor (s : Sid) : Only X (userDtor P s) := modify _

theorem baseDtor {rel : Sid → M W Unit} (h : ∀ p, Only X (rel p)) (s : Sid) : Only X (baseDtor P rel s) := by
  unfold SC.baseDtor
  repeat' first | exact removeInner P _ _ | exact releaseEvents _ | exact h _ | only_step

theorem releaseF : ∀ k s, Only X (releaseF P k s)
  | 0, _ => fault _
  | k + 1, s => by
    unfold SC.releaseF
    repeat' first | exact userDtor P _ | exact baseDtor P (releaseF k) _ | only_step

theorem release (s : Sid) : Only X (release P s) := releaseF P _ s

theorem releaseBase (s : Sid) : Only X (releaseBase s : M W Unit) := by unfold SC.releaseBase; repeat' only_step

theorem setOU (o : Option Sid) : Only X (setOU o : M W Unit) := by
  unfold SC.setOU
  repeat' first | exact addRef _ | exact releaseBase _ | only_step

theorem setCtxOU (s : Sid) : Only X (setCtxOU P s) := by
  unfold SC.setCtxOU
  repeat' first | exact setOU _ | only_step

theorem runUser {f : View → W → UOut W} {a b : List Obs} (h : ∀ v w x, (f v w).throws = some x → X x) : Only X (runUser f a b) := by
  intro m e m' h1
  unfold SC.runUser at h1
  cases h2 : (f m.view m.world).throws with
  | none => simp only [h2] at h1; cases h1
  | some x => simp only [h2] at h1; cases h1; exact h _ _ _ h2

variable {P} (hX : ∀ x, CanRaise P x → X x)
include hX

theorem allocate {i : Site} (hi : OfStates i) : Only X (allocate P i) := by
  intro m e m' h
  unfold SC.allocate at h
  rcases h1 : P.alloc i m.world with ⟨w, _ | x⟩
  · rw [h1] at h; cases h
  · rw [h1] at h; cases h; exact hX _ (.alloc hi (by rw [h1]))

theorem histNode (has : Mach W → Bool) {i : Site} (hi : OfStates i) (s : Sid) (k : Option Sid) : Only X (histNode P has i s k) := by
  unfold SC.histNode
  refine onThrow fun m e m' h => ?_
  unfold SC.allocNode at h
  cases h1 : has m with
  | true => rw [h1] at h; cases h
  | false => rw [h1] at h; exact allocate hX hi _ _ _ h

theorem storeShallow (s : Sid) : Only X (storeShallow P s) := by
  unfold SC.storeShallow
  repeat' first | exact histNode hX _ (i := .shallowNode _) trivial _ _ | only_step

theorem storeDeepF : ∀ k s t, Only X (storeDeepF P k s t)
  | 0, _, _ => fault _
  | k + 1, s, t => by
    unfold SC.storeDeepF
    repeat' first | exact histNode hX _ (i := .deepNode _) trivial _ _ | exact storeDeepF k _ _ | only_step

theorem storeDeep (s : Sid) : Only X (storeDeep P s) := by
  unfold SC.storeDeep
  repeat' first | exact storeDeepF hX _ _ _ | only_step

theorem fullExitPart (s : Sid) : Only X (fullExitPart P s) := by
  unfold SC.fullExitPart
  exact bind (runUser fun _ _ _ h => hX _ (.exit h)) fun _ => bind (storeShallow hX s) fun _ => storeDeep hX s

theorem exitF : ∀ k s b, Only X (exitF P k s b)
  | 0, _, _ => fault _
  | k + 1, s, b => by
    unfold SC.exitF
    repeat' first | exact setCtxOU P _ | exact fullExitPart hX _ | exact release P _ | exact addRef _ | exact exitF k _ _ | only_step

theorem exitImpl (s : Sid) (b : Bool) : Only X (exitImpl P s b) := exitF hX _ s b

theorem leafRemove (s : Sid) (b : Bool) : Only X (leafRemove P s b) := by
  unfold SC.leafRemove SC.takeSlot
  repeat' first | exact exitImpl hX _ _ | only_step

omit hX in
theorem removeLoop {rec : Sid → M W Unit} (h : ∀ c, Only X (rec c)) (s : Sid) : ∀ l, Only X (removeLoop rec s l)
  | [] => pure _
  | i :: l => by
    unfold SC.removeLoop
    repeat' first | exact h _ | exact removeLoop h s l | only_step

theorem removeF : ∀ k s b, Only X (removeF P k s b)
  | 0, _, _ => fault _
  | k + 1, s, b => by
    unfold SC.removeF
    repeat' first | exact leafRemove hX _ _ | exact addRef _ | exact exitImpl hX _ _ | exact removeLoop (fun c => removeF k c b) _ _ | only_step

theorem terminateState (s : Sid) (b : Bool) : Only X (terminateState P s b) := by
  unfold SC.terminateState SC.takeSlot
  repeat' first | exact removeF hX _ _ _ | exact exitImpl hX _ _ | only_step

theorem terminateMachine (b : Bool) : Only X (terminateMachine P b) := by
  unfold SC.terminateMachine
  repeat' first | exact terminateState hX _ _ | only_step

theorem runCtor (s : Sid) : Only X (runCtor P s) := by
  intro m e m' h
  unfold SC.runCtor at h
  split at h
  · cases h
  · exact runUser (fun _ _ _ h => hX _ (.ctor h)) _ _ _ h

theorem shallowConstruct (s : Sid) : Only X (shallowConstruct P s) := by
  unfold SC.shallowConstruct SC.setContext SC.addToMachine SC.addLeaf
  repeat' first
    | exact allocate hX trivial | exact runCtor hX _ | exact addRef _ | exact addInner P _ _ _ | exact releaseBase _ | exact setOU _
    | only_step

theorem build : ∀ k t, Only X (build P k t)
  | 0, _ => fault _
  | k + 1, t => by
    have ih := build k
    cases t with
    | deep s => unfold SC.build; exact bind (shallowConstruct hX s) fun _ => finally' (ih _) (release P s)
    | target t =>
      obtain ⟨j, d⟩ := t
      unfold SC.build
      refine bind (fun m e m' h => ?_) fun v => ?_
      · unfold SC.lookupHist at h
        cases h1 : P.parent d with
        | none => rw [h1] at h; cases h
        | some p => rw [h1] at h; cases j <;> cases h
      · repeat' first | exact ih _ | only_step
    | chain a t =>
      cases a with
      | nil => unfold SC.build; exact ih _
      | cons x cs =>
        unfold SC.build
        exact bind (shallowConstruct hX x) fun _ => finally' (bind (ih _) fun _ => bind (ih _) fun _ => ih _) (release P x)
    | inners l =>
      cases l with
      | nil => unfold SC.build; exact pure _
      | cons t l => unfold SC.build; exact bind (ih _) fun _ => ih _

theorem initialConstruct : Only X (initialConstruct P) := build hX _ _

theorem runAction (a : Option Nat) : Only X (runAction P a) := by
  cases a with
  | none => exact pure _
  | some a => exact runUser fun _ _ _ h => hX _ (.action h)

omit hX in
theorem checkCtx (c : Option Sid) : Only X (checkCtx c : M W Unit) := by
  unfold SC.checkCtx
  repeat' only_step

theorem terminateInTransit (t : Sid) : Only X (terminateInTransit P t) := by
  unfold SC.terminateInTransit
  repeat' first | exact terminateState hX _ _ | only_step

theorem transit (s : Sid) (d : Target) (a : Option Nat) : Only X (transit P s d a) := by
  unfold SC.transit SC.transitRelaxed SC.transitDefault SC.relaxedExit
  simp only
  repeat' first
    | exact terminateState hX _ _ | exact terminateInTransit hX _ | exact checkCtx _ | exact runAction hX _ | exact build hX _ _ | exact release P _ | exact addRef _
    | only_step

theorem terminateReaction (s : Sid) : Only X (terminateReaction P s) := by
  unfold SC.terminateReaction
  repeat' first | exact terminateState hX _ _ | exact setOU _ | only_step

omit hX in
theorem deferEvent (s : Sid) : Only X (deferEvent s : M W Unit) := by
  unfold SC.deferEvent
  repeat' only_step

theorem reactOne (s : Sid) (e : Event) (r : Reaction) : Only X (reactOne P s e r) := by
  have hr : ∀ id, Only X (SC.runUser (fun v w => (P.react s id e v w).1) [.react s id] [.react s id]) := fun id => runUser fun _ _ _ h => hX _ (.react h)
  unfold SC.reactOne SC.customReact
  repeat' first
    | exact transit hX _ _ _ | exact runAction hX _ | exact terminateReaction hX _ | exact deferEvent _ | exact hr _
    | only_step

theorem localReact (s : Sid) (e : Event) : ∀ l, Only X (localReact P s e l)
  | [] => pure _
  | r :: l => by
    unfold SC.localReact
    repeat' first | exact reactOne hX _ _ _ | exact localReact s e l | only_step

theorem reactF : ∀ k s e, Only X (reactF P k s e)
  | 0, _, _ => fault _
  | k + 1, s, e => by
    unfold SC.reactF
    repeat' first | exact localReact hX _ _ _ | exact reactF k _ _ | only_step

theorem reactImpl (s : Sid) (e : Event) : Only X (reactImpl P s e) := reactF hX _ s e

end Only
end SC
