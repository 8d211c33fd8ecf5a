import Verif.Dispatch
/-!
# Exceptions that leave a function were raised in it (proof infrastructure)
-/

namespace SC
variable {W α β : Type}

/-- Since the list of raised exceptions was `B`, exceptions were raised, among them those of `H`. -/
def Grown (B H : List Exc) (m : Mach W) : Prop := ∃ l, m.xlog = B ++ l ∧ ∀ e ∈ H, e ∈ l

theorem Grown.weaken {B H H' : List Exc} {m : Mach W} (h : Grown B H m) (hs : ∀ e ∈ H', e ∈ H) : Grown B H' m := by
  obtain ⟨l, h1, h2⟩ := h
  exact ⟨l, h1, fun e he => h2 e (hs e he)⟩

/-- If the exceptions of `H` were raised before `x`, an exception that leaves `x` is one of the raised ones. -/
def Born (B H : List Exc) (x : M W α) : Prop := ∀ m, Grown B H m → match x m with
  | .ok _ n => Grown B H n
  | .thrown e n => Grown B (e :: H) n
  | .fault _ => True

namespace Born
variable {B H : List Exc}

theorem pure (a : α) : Born B H (Pure.pure a : M W α) := fun _ h => h
theorem get : Born B H (M.get : M W (Mach W)) := fun _ h => h
theorem fault (g : Fault) : Born B H (M.fault g : M W α) := fun _ _ => trivial
theorem modify (f : Mach W → Mach W) (h : ∀ m, (f m).xlog = m.xlog) : Born B H (M.modify f) := by
  rintro m ⟨l, h1, h2⟩
  exact ⟨l, (h m).trans h1, h2⟩
theorem throw {x : Exc} (hx : x ∈ H) : Born B H (M.throw x : M W α) := fun _ h => h.weaken fun e he => by
  rcases List.mem_cons.1 he with rfl | he
  · exact hx
  · exact he

theorem bind {x : M W α} {f : α → M W β} (hx : Born B H x) (hf : ∀ a, Born B H (f a)) : Born B H (x >>= f) := by
  intro m hm
  have h := hx m hm
  show match M.bnd x f m with | .ok _ n => Grown B H n | .thrown e n => Grown B (e :: H) n | .fault _ => True
  unfold M.bnd
  revert h
  cases x m with
  | ok a n => exact fun h => hf a n h
  | thrown e n => exact fun h => h
  | fault g => exact fun h => h

theorem tryCatch {x : M W α} {f : Exc → M W α} (hx : Born B H x) (hf : ∀ e, Born B (e :: H) (f e)) : Born B H (M.tryCatch x f) := by
  intro m hm
  have h := hx m hm
  unfold M.tryCatch
  revert h
  cases x m with
  | ok a n => exact fun h => h
  | fault g => exact fun h => h
  | thrown e n =>
    intro h
    have h' := hf e n h
    simp only
    revert h'
    cases f e n with
    | ok a k => exact fun h => h.weaken fun y hy => List.mem_cons_of_mem _ hy
    | thrown z k =>
      refine fun h => h.weaken fun y hy => ?_
      rcases List.mem_cons.1 hy with rfl | hy
      · exact List.mem_cons_self
      · exact List.mem_cons_of_mem _ (List.mem_cons_of_mem _ hy)
    | fault g => exact fun h => h

theorem onThrow {x : M W α} {u : M W Unit} (hx : Born B H x) (hu : ∀ H, Born B H u) : Born B H (M.onThrow x u) := by
  intro m hm
  have h := hx m hm
  unfold M.onThrow
  revert h
  cases x m with
  | ok a n => exact fun h => h
  | fault g => exact fun h => h
  | thrown e n =>
    intro h
    have h' := hu _ n h
    simp only
    revert h'
    cases u n with
    | ok a k => exact fun h => h
    | thrown z k => exact fun _ => trivial
    | fault g => exact fun h => h

theorem finally' {x : M W α} {u : M W Unit} (hx : Born B H x) (hu : ∀ H, Born B H u) : Born B H (M.finally' x u) := by
  intro m hm
  have h := hx m hm
  unfold M.finally'
  revert h
  cases x m with
  | fault g => exact fun h => h
  | ok a n =>
    intro h
    have h' := hu _ n h
    simp only
    revert h'
    cases u n with
    | ok a k => exact fun h => h
    | thrown z k => exact fun h => h
    | fault g => exact fun h => h
  | thrown e n =>
    intro h
    have h' := hu _ n h
    simp only
    revert h'
    cases u n with
    | ok a k => exact fun h => h
    | thrown z k => exact fun _ => trivial
    | fault g => exact fun h => h

theorem withTrig {x : M W α} (ev : Option Event) (hx : Born B H x) : Born B H (withTrig ev x) := by
  intro m hm
  have h := hx { m with trig := ev } hm
  unfold SC.withTrig
  revert h
  cases x { m with trig := ev } with
  | ok a n => exact fun h => h
  | thrown y n => exact fun h => h
  | fault g => exact fun h => h

theorem getObj (s : Sid) : Born B H (getObj s : M W Obj) := by
  intro m h
  unfold SC.getObj
  cases h1 : m.heap s with
  | none => trivial
  | some o => exact h

theorem setObj (s : Sid) (o : Obj) : Born B H (setObj s o : M W Unit) := modify _ fun _ => rfl

macro "born_step" : tactic => `(tactic| first
  | with_reducible exact Born.pure _ | with_reducible exact Born.get | with_reducible exact Born.fault _ | with_reducible exact Born.getObj _ | with_reducible exact Born.setObj _ _
  | (with_reducible refine Born.modify _ ?_); exact fun _ => rfl
  | assumption
  | with_reducible refine Born.bind ?_ fun _ => ?_
  | with_reducible refine Born.onThrow ?_ fun _ => ?_
  | with_reducible refine Born.finally' ?_ fun _ => ?_
  | split)

theorem addRef (s : Sid) : Born B H (addRef s : M W Unit) := by unfold SC.addRef; repeat' born_step

variable (P : Prog W)

theorem removeInner (c : Option Sid) (k : Nat) : Born B H (removeInner P c k) := by unfold SC.removeInner; repeat' born_step
theorem addInner (c : Option Sid) (k : Nat) (s : Sid) : Born B H (addInner P c k s) := by unfold SC.addInner; repeat' born_step
theorem releaseEvents (s : Sid) : Born B H (releaseEvents s : M W Unit) := modify _ fun _ => rfl
theorem userDtor (s : Sid) : Born B H (userDtor P s) := modify _ fun m => by
  have : ∀ (l : List Cmd) (m : Mach W), (l.foldl Mach.cmd m).xlog = m.xlog := by
    intro l
    induction l with
    | nil => exact fun _ => rfl
    | cons c l ih => exact fun m => (ih _).trans (by cases c <;> rfl)
  exact this _ _

theorem baseDtor {rel : Sid → M W Unit} (h : ∀ p, Born B H (rel p)) (s : Sid) : Born B H (baseDtor P rel s) := by
  unfold SC.baseDtor
  repeat' first | exact removeInner P _ _ | exact releaseEvents _ | exact h _ | born_step

theorem releaseF : ∀ k s, Born B H (releaseF P k s)
  | 0, _ => fault _
  | k + 1, s => by
    unfold SC.releaseF
    repeat' first | exact userDtor P _ | exact baseDtor P (releaseF k) _ | born_step

theorem release (s : Sid) : Born B H (release P s) := releaseF P _ s

theorem releaseBase (s : Sid) : Born B H (releaseBase s : M W Unit) := by unfold SC.releaseBase; repeat' born_step

theorem setOU (o : Option Sid) : Born B H (setOU o : M W Unit) := by
  unfold SC.setOU
  repeat' first | exact addRef _ | exact releaseBase _ | born_step

theorem setCtxOU (s : Sid) : Born B H (setCtxOU P s) := by
  unfold SC.setCtxOU
  repeat' first | exact setOU _ | born_step

theorem raise {m n : Mach W} {x : Exc} (h : Grown B H m) (hx : n.xlog = m.xlog ++ [x]) : Grown B (x :: H) n := by
  obtain ⟨l, h1, h2⟩ := h
  refine ⟨l ++ [x], by rw [hx, h1, List.append_assoc], fun e he => ?_⟩
  rcases List.mem_cons.1 he with rfl | he
  · exact List.mem_append_right _ List.mem_cons_self
  · exact List.mem_append_left _ (h2 e he)

theorem xlog_cmds : ∀ (l : List Cmd) (m : Mach W), (l.foldl Mach.cmd m).xlog = m.xlog
  | [], _ => rfl
  | c :: l, m => (xlog_cmds l (m.cmd c)).trans (by cases c <;> rfl)

theorem runUser (f : View → W → UOut W) (a b : Obs) : Born B H (SC.runUser f [a] [b]) := by
  intro m hm
  unfold SC.runUser
  have h := xlog_cmds (f m.view m.world).cmds { m with world := (f m.view m.world).world }
  cases h1 : (f m.view m.world).throws with
  | none =>
    simp only [h1]
    obtain ⟨l, h2, h3⟩ := hm
    exact ⟨l, h.trans h2, h3⟩
  | some x =>
    simp only [h1]
    exact raise hm (congrArg (· ++ [x]) h)

variable {P}

theorem allocate (i : Site) : Born B H (SC.allocate P i) := by
  intro m hm
  unfold SC.allocate
  rcases P.alloc i m.world with ⟨w, _ | x⟩
  · exact hm
  · exact raise hm rfl

theorem allocNode (has : Mach W → Bool) (i : Site) : Born B H (SC.allocNode P has i) := by
  intro m hm
  unfold SC.allocNode
  cases has m with
  | true => exact hm
  | false => exact allocate i m hm

theorem histNode (has : Mach W → Bool) (i : Site) (s : Sid) (k : Option Sid) : Born B H (SC.histNode P has i s k) :=
  onThrow (allocNode has i) fun _ => modify _ fun _ => rfl

theorem storeShallow (s : Sid) : Born B H (storeShallow P s) := by
  unfold SC.storeShallow
  repeat' first | exact histNode _ _ _ _ | born_step

theorem storeDeepF : ∀ k s t, Born B H (storeDeepF P k s t)
  | 0, _, _ => fault _
  | k + 1, s, t => by
    unfold SC.storeDeepF
    repeat' first | exact histNode _ _ _ _ | exact storeDeepF k _ _ | born_step

theorem storeDeep (s : Sid) : Born B H (storeDeep P s) := by
  unfold SC.storeDeep
  repeat' first | exact storeDeepF  _ _ _ | born_step

theorem fullExitPart (s : Sid) : Born B H (fullExitPart P s) := by
  unfold SC.fullExitPart
  exact bind (runUser _ _ _) fun _ => bind (storeShallow  s) fun _ => storeDeep  s

theorem exitF : ∀ k s b, Born B H (exitF P k s b)
  | 0, _, _ => fault _
  | k + 1, s, b => by
    unfold SC.exitF
    repeat' first | exact setCtxOU P _ | exact fullExitPart  _ | exact release P _ | exact addRef _ | exact exitF k _ _ | born_step

theorem exitImpl (s : Sid) (b : Bool) : Born B H (exitImpl P s b) := exitF  _ s b

theorem leafRemove (s : Sid) (b : Bool) : Born B H (leafRemove P s b) := by
  unfold SC.leafRemove SC.takeSlot
  repeat' first | exact exitImpl  _ _ | born_step

theorem removeLoop {rec : Sid → M W Unit} (h : ∀ c, Born B H (rec c)) (s : Sid) : ∀ l, Born B H (removeLoop rec s l)
  | [] => pure _
  | i :: l => by
    unfold SC.removeLoop
    repeat' first | exact h _ | exact removeLoop h s l | born_step

theorem removeF : ∀ k s b, Born B H (removeF P k s b)
  | 0, _, _ => fault _
  | k + 1, s, b => by
    unfold SC.removeF
    repeat' first | exact leafRemove  _ _ | exact addRef _ | exact exitImpl  _ _ | exact removeLoop (fun c => removeF k c b) _ _ | born_step

theorem terminateState (s : Sid) (b : Bool) : Born B H (terminateState P s b) := by
  unfold SC.terminateState SC.takeSlot
  repeat' first | exact removeF  _ _ _ | exact exitImpl  _ _ | born_step

theorem terminateMachine (b : Bool) : Born B H (terminateMachine P b) := by
  unfold SC.terminateMachine SC.clearAll
  repeat' first | exact terminateState  _ _ | born_step

theorem guardTerm {x : M W α} (hx : Born B H x) : Born B H (SC.guardTerm P x) := by
  intro m hm
  have h := hx m hm
  unfold SC.guardTerm
  revert h
  cases x m with
  | ok a n => exact fun h => h
  | fault g => exact fun h => h
  | thrown e n =>
    intro h
    have h' := terminateMachine (P := P) false n h
    simp only
    revert h'
    cases SC.terminateMachine P false n with
    | ok a k => exact fun h => h
    | thrown z k => exact fun _ => trivial
    | fault g => exact fun h => h

theorem runCtor (s : Sid) : Born B H (runCtor P s) := by
  intro m hm
  unfold SC.runCtor
  by_cases h : P.isSimple s = true ∧ (P.ctor s m.view m.world).cmds ≠ []
  · rw [if_pos h]; trivial
  · rw [if_neg h]; exact runUser (P.ctor s) _ _ m hm

theorem shallowConstruct (s : Sid) : Born B H (shallowConstruct P s) := by
  unfold SC.shallowConstruct SC.setContext SC.addToMachine SC.addLeaf
  repeat' first
    | exact allocate _ | exact baseDtor P (release P) _ | exact release P _ | exact runCtor  _ | exact addRef _ | exact addInner P _ _ _ | exact releaseBase _ | exact setOU _
    | born_step

theorem build : ∀ k t, Born B H (build P k t)
  | 0, _ => fault _
  | k + 1, t => by
    have ih := build k
    cases t with
    | deep s => unfold SC.build; exact bind (shallowConstruct  s) fun _ => finally' (ih _) fun _ => release P s
    | target t =>
      obtain ⟨j, d⟩ := t
      unfold SC.build
      refine bind (fun m hm => ?_) fun v => ?_
      · unfold SC.lookupHist
        cases P.parent d with
        | none => exact hm
        | some p => cases j <;> exact hm
      · repeat' first | exact ih _ | born_step
    | chain a t =>
      cases a with
      | nil => unfold SC.build; exact ih _
      | cons x cs =>
        unfold SC.build
        exact bind (shallowConstruct  x) fun _ => finally' (bind (ih _) fun _ => bind (ih _) fun _ => ih _) fun _ => release P x
    | inners l =>
      cases l with
      | nil => unfold SC.build; exact pure _
      | cons t l => unfold SC.build; exact bind (ih _) fun _ => ih _

theorem initialConstruct : Born B H (initialConstruct P) := build  _ _

theorem runAction (a : Option Nat) : Born B H (runAction P a) := by
  cases a with
  | none => exact pure _
  | some a => exact runUser _ _ _

theorem checkCtx (c : Option Sid) : Born B H (checkCtx c : M W Unit) := by
  unfold SC.checkCtx
  repeat' born_step

theorem terminateInTransit (t : Sid) : Born B H (terminateInTransit P t) := by
  unfold SC.terminateInTransit
  repeat' first | exact terminateState  _ _ | born_step

theorem transit (s : Sid) (d : Target) (a : Option Nat) : Born B H (transit P s d a) := by
  unfold SC.transit SC.transitRelaxed SC.transitDefault SC.relaxedExit
  simp only
  repeat' first
    | with_reducible exact terminateState  _ _ | with_reducible exact terminateInTransit  _ | with_reducible exact checkCtx _ | with_reducible exact runAction  _ | with_reducible exact build  _ _ | with_reducible exact release P _ | with_reducible exact addRef _
    | born_step

theorem terminateReaction (s : Sid) : Born B H (terminateReaction P s) := by
  unfold SC.terminateReaction
  repeat' first | exact terminateState  _ _ | exact setOU _ | born_step

theorem deferEvent (s : Sid) : Born B H (deferEvent s : M W Unit) := by
  unfold SC.deferEvent
  repeat' born_step

theorem reactOne (s : Sid) (e : Event) (r : Reaction) : Born B H (reactOne P s e r) := by
  have hr : ∀ id, Born B H (SC.runUser (fun v w => (P.react s id e v w).1) [.react s id] [.react s id]) := fun id => runUser _ _ _
  unfold SC.reactOne SC.customReact
  repeat' first
    | exact transit  _ _ _ | exact runAction  _ | exact terminateReaction  _ | exact deferEvent _ | exact hr _
    | born_step

theorem localReact (s : Sid) (e : Event) : ∀ l, Born B H (localReact P s e l)
  | [] => pure _
  | r :: l => by
    unfold SC.localReact
    repeat' first | exact reactOne  _ _ _ | exact localReact s e l | born_step

theorem reactF : ∀ k s e, Born B H (reactF P k s e)
  | 0, _, _ => fault _
  | k + 1, s, e => by
    unfold SC.reactF
    repeat' first | exact localReact  _ _ _ | exact reactF k _ _ | born_step

theorem reactImpl (s : Sid) (e : Event) : Born B H (reactImpl P s e) := reactF  _ s e

theorem handleException (c : Option Sid) (ev : Event) {x : Exc} (hx : x ∈ H) : Born B H (handleException P c ev x) := by
  unfold SC.handleException
  refine bind get fun m => ?_
  split
  · exact throw hx
  · split
    · exact fault _
    · refine withTrig _ (bind (modify _ fun _ => rfl) fun _ => bind (reactImpl  _ ev) fun r => bind (modify _ fun _ => rfl) fun _ => bind get fun m => ?_)
      split
      · exact throw hx
      · exact pure _

theorem translated (c : Option Sid) {x : M W RR} (hx : ∀ {H}, Born B H x) : Born B H (translated P c x) := by
  unfold SC.translated
  refine tryCatch hx fun e => ?_
  split
  · exact throw List.mem_cons_self
  · exact handleException c _ List.mem_cons_self

theorem sendLoop (e : Event) : ∀ k i, Born B H (sendLoop P e k i)
  | 0, _ => fault _
  | k + 1, i => by
    have ih := sendLoop e k
    unfold SC.sendLoop
    refine bind get fun m => ?_
    split
    · exact pure _
    · split
      · exact fault _
      · refine bind (translated  _ (reactImpl  _ e)) fun r => ?_
        split
        · exact ih _
        · exact pure _

theorem terminate : Born B H (terminate P) :=
  bind (withTrig _ (guardTerm (translated  none (bind (terminateMachine  true) fun _ => pure _)))) fun _ => pure _


theorem sendEvent (e : Event) : Born B H (sendEvent P e) := by
  unfold SC.sendEvent
  refine withTrig _ (bind (guardTerm (bind get fun m => ?_)) fun r => bind ?_ fun _ => pure _)
  · split
    · exact fault _
    · exact sendLoop  e _ 0
  · split
    · exact runUser _ _ _
    · exact pure _


theorem dispatch (e : Event) : Born B H (dispatch P e) := by
  unfold SC.dispatch SC.qop
  refine bind (onThrow (sendEvent e) fun _ => modify _ fun _ => rfl) fun r => ?_
  split
  · exact bind (onThrow (allocate _) fun _ => modify _ fun _ => rfl) fun _ => modify _ fun _ => rfl
  · exact modify _ fun _ => rfl

theorem processQueued : ∀ k, Born B H (processQueued P k)
  | 0 => bind get fun _ => pure _
  | k + 1 => by
    have ih := processQueued k
    unfold SC.processQueued
    refine bind get fun m => ?_
    split
    · exact pure _
    · exact bind (modify _ fun _ => rfl) fun _ => bind (dispatch  _) fun _ => ih

theorem construct (k : Nat) : Born B H (construct P k) :=
  bind (withTrig _ (guardTerm (translated  none (bind (initialConstruct ) fun _ => pure _)))) fun _ => processQueued  k

end Born

end SC
