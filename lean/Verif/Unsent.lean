import Verif.Props.Custom
/-!
# Programs with the same reactions to some events

Programs that differ only in the reactions to events outside a set `E` do the same as long as all events in the queues are in `E`, if user code posts only events of `E`.
-/

namespace SC
open Spec
variable {W α β : Type}

namespace Spec

/-- User code posts only events of `E` (while it reacts to such events), and exceptions are translated to such events. -/
structure Posts (P : Prog W) (E : Event → Prop) : Prop where
  ctor : ∀ {s v w e}, .post e ∈ (P.ctor s v w).cmds → E e
  exit : ∀ {s v w e}, .post e ∈ (P.exit s v w).cmds → E e
  dtor : ∀ {s v w e}, .post e ∈ (P.dtor s v w).2 → E e
  action : ∀ {a v w e}, .post e ∈ (P.action a v w).cmds → E e
  react : ∀ {s id e' v w e}, E e' → .post e ∈ (P.react s id e' v w).1.cmds → E e
  unconsumed : ∀ {e' v w e}, E e' → .post e ∈ (P.unconsumed e' v w).cmds → E e
  translate : ∀ {x e}, P.translate x = some e → E e

/-- The events of `E` are treated alike: the first reaction that fits is the same, and so are the functions `react`. -/
structure SameFor (P : Prog W) (r : Sid → List Reaction) (f : Sid → Nat → Event → View → W → UOut W × Decision) (E : Event → Prop) : Prop where
  reactions : ∀ {s e}, E e → firstFor e.ty (r s) = firstFor e.ty (P.reactions s)
  react : ∀ {s id e}, E e → f s id e = P.react s id e

end Spec

/-- All events in the queues, the current event and the events for which user code was called are in `E`. -/
structure Heard (E : Event → Prop) (m : Mach W) : Prop where
  evq : ∀ e ∈ m.evq, E e
  dq : ∀ e ∈ m.dq, E e
  trig : ∀ e, m.trig = some e → E e
  trace : ∀ p ∈ m.trace, ∀ e, p.1 = some e → E e

/-- `x` and `y` do the same if all events are in `E`, and all events stay in `E`. -/
def Deaf (E : Event → Prop) (Q : α → Prop) (x y : M W α) : Prop := ∀ m, Heard E m → x m = y m ∧
  match x m with
  | .ok a n => Heard E n ∧ Q a
  | .thrown _ n => Heard E n
  | .fault _ => True

/-- No condition on the result. -/
abbrev Deaf0 (E : Event → Prop) (x y : M W α) : Prop := Deaf E (fun _ => True) x y

namespace Deaf
variable {E : Event → Prop} {Q : α → Prop} {Q' : β → Prop}

theorem pure {a : α} (h : Q a) : Deaf E Q (Pure.pure a : M W α) (Pure.pure a) := fun _ hm => ⟨rfl, hm, h⟩
theorem pure0 (a : α) : Deaf0 E (Pure.pure a : M W α) (Pure.pure a) := fun _ hm => ⟨rfl, hm, trivial⟩
theorem fault (g : Fault) : Deaf E Q (M.fault g : M W α) (M.fault g) := fun _ _ => ⟨rfl, trivial⟩
theorem throw (x : Exc) : Deaf E Q (M.throw x : M W α) (M.throw x) := fun _ hm => ⟨rfl, hm⟩
theorem get : Deaf E (Heard E) (M.get : M W (Mach W)) M.get := fun _ hm => ⟨rfl, hm, hm⟩

theorem modify {f : Mach W → Mach W} (h : ∀ m, Heard E m → Heard E (f m)) : Deaf0 E (M.modify f) (M.modify f) := fun m hm => ⟨rfl, h m hm, trivial⟩

/-- The queues, the current event and the log are not changed. -/
theorem same {f : Mach W → Mach W} (h : ∀ m, (f m).evq = m.evq ∧ (f m).dq = m.dq ∧ (f m).trig = m.trig ∧ (f m).trace = m.trace) : Deaf0 E (M.modify f) (M.modify f) :=
  modify fun m hm => ⟨by rw [(h m).1]; exact hm.evq, by rw [(h m).2.1]; exact hm.dq, by rw [(h m).2.2.1]; exact hm.trig, by rw [(h m).2.2.2]; exact hm.trace⟩

theorem mono {Q' : α → Prop} {x y : M W α} (h : Deaf E Q x y) (hq : ∀ a, Q a → Q' a) : Deaf E Q' x y := by
  intro m hm
  obtain ⟨h1, h2⟩ := h m hm
  refine ⟨h1, ?_⟩
  revert h2
  cases x m with
  | ok a n => exact fun h => ⟨h.1, hq _ h.2⟩
  | thrown e n => exact fun h => h
  | fault g => exact fun h => h

theorem any {x y : M W α} (h : Deaf E Q x y) : Deaf0 E x y := h.mono fun _ _ => trivial

theorem bind {x y : M W α} {f k : α → M W β} (h : Deaf E Q x y) (hf : ∀ a, Q a → Deaf E Q' (f a) (k a)) : Deaf E Q' (x >>= f) (y >>= k) := by
  intro m hm
  obtain ⟨h1, h2⟩ := h m hm
  show M.bnd x f m = M.bnd y k m ∧ match M.bnd x f m with | .ok a n => Heard E n ∧ Q' a | .thrown _ n => Heard E n | .fault _ => True
  unfold M.bnd
  rw [← h1]
  revert h2
  cases x m with
  | ok a n => exact fun h => hf a h.2 n h.1
  | thrown e n => exact fun h => ⟨rfl, h⟩
  | fault g => exact fun h => ⟨rfl, h⟩

theorem tryCatch {x y : M W α} {f k : Exc → M W α} (h : Deaf E Q x y) (hf : ∀ e, Deaf E Q (f e) (k e)) : Deaf E Q (M.tryCatch x f) (M.tryCatch y k) := by
  intro m hm
  obtain ⟨h1, h2⟩ := h m hm
  unfold M.tryCatch
  rw [← h1]
  revert h2
  cases x m with
  | ok a n => exact fun h => ⟨rfl, h⟩
  | thrown e n => exact fun h => hf e n h
  | fault g => exact fun h => ⟨rfl, h⟩

theorem onThrow {x y : M W α} {u v : M W Unit} (h : Deaf E Q x y) (hu : Deaf0 E u v) : Deaf E Q (M.onThrow x u) (M.onThrow y v) := by
  intro m hm
  obtain ⟨h1, h2⟩ := h m hm
  unfold M.onThrow
  rw [← h1]
  revert h2
  cases x m with
  | ok a n => exact fun h => ⟨rfl, h⟩
  | fault g => exact fun h => ⟨rfl, h⟩
  | thrown e n =>
    intro h
    obtain ⟨h3, h4⟩ := hu n h
    simp only
    rw [← h3]
    revert h4
    cases u n with
    | ok a n' => exact fun h => ⟨rfl, h.1⟩
    | thrown e' n' => exact fun _ => ⟨rfl, trivial⟩
    | fault g => exact fun _ => ⟨rfl, trivial⟩

theorem finally' {x y : M W α} {u v : M W Unit} (h : Deaf E Q x y) (hu : Deaf0 E u v) : Deaf E Q (M.finally' x u) (M.finally' y v) := by
  intro m hm
  obtain ⟨h1, h2⟩ := h m hm
  unfold M.finally'
  rw [← h1]
  revert h2
  cases x m with
  | fault g => exact fun h => ⟨rfl, h⟩
  | ok a n =>
    intro h
    obtain ⟨h3, h4⟩ := hu n h.1
    simp only
    rw [← h3]
    revert h4
    cases u n with
    | ok b n' => exact fun h' => ⟨rfl, h'.1, h.2⟩
    | thrown e' n' => exact fun h' => ⟨rfl, h'⟩
    | fault g => exact fun _ => ⟨rfl, trivial⟩
  | thrown e n =>
    intro h
    obtain ⟨h3, h4⟩ := hu n h
    simp only
    rw [← h3]
    revert h4
    cases u n with
    | ok a n' => exact fun h => ⟨rfl, h.1⟩
    | thrown e' n' => exact fun _ => ⟨rfl, trivial⟩
    | fault g => exact fun _ => ⟨rfl, trivial⟩

theorem withTrig {x y : M W α} (ev : Option Event) (hev : ∀ e, ev = some e → E e) (h : Deaf E Q x y) : Deaf E Q (withTrig ev x) (withTrig ev y) := by
  intro m hm
  obtain ⟨h1, h2⟩ := h { m with trig := ev } ⟨hm.evq, hm.dq, hev, hm.trace⟩
  unfold SC.withTrig
  rw [← h1]
  revert h2
  cases x { m with trig := ev } with
  | ok a n => exact fun h => ⟨rfl, ⟨h.1.evq, h.1.dq, hm.trig, h.1.trace⟩, h.2⟩
  | thrown e n => exact fun h => ⟨rfl, ⟨h.evq, h.dq, hm.trig, h.trace⟩⟩
  | fault g => exact fun _ => ⟨rfl, trivial⟩

theorem getObj (s : Sid) : Deaf0 E (getObj s : M W Obj) (SC.getObj s) := by
  intro m hm
  refine ⟨rfl, ?_⟩
  unfold SC.getObj
  cases h : m.heap s with
  | none => trivial
  | some o => exact ⟨hm, trivial⟩

theorem setObj (s : Sid) (o : Obj) : Deaf0 E (setObj s o : M W Unit) (SC.setObj s o) := same fun _ => ⟨rfl, rfl, rfl, rfl⟩

theorem heard_cmds : ∀ (l : List Cmd), (∀ e, .post e ∈ l → E e) → ∀ {m : Mach W}, Heard E m → Heard E (l.foldl Mach.cmd m) := by
  intro l
  induction l with
  | nil => exact fun _ _ h => h
  | cons c l ih =>
    intro hl m hm
    refine ih (fun e he => hl e (List.mem_cons_of_mem _ he)) ?_
    cases c with
    | post e =>
      refine ⟨fun e' he => ?_, hm.dq, hm.trig, hm.trace⟩
      rcases List.mem_append.1 he with he | he
      · exact hm.evq e' he
      · rw [List.mem_singleton.1 he]; exact hl e List.mem_cons_self
    | clearShallow k => exact ⟨hm.evq, hm.dq, hm.trig, hm.trace⟩
    | clearDeep k => exact ⟨hm.evq, hm.dq, hm.trig, hm.trace⟩

theorem heard_log (o : Obs) {m : Mach W} (hm : Heard E m) : Heard E (m.log o) := by
  refine ⟨hm.evq, hm.dq, hm.trig, fun p hp => ?_⟩
  rcases List.mem_append.1 hp with hp | hp
  · exact hm.trace p hp
  · rw [List.mem_singleton.1 hp]; exact hm.trig

theorem runUser {f : View → W → UOut W} (hf : ∀ v w e, .post e ∈ (f v w).cmds → E e) (a b : Obs) : Deaf0 E (runUser f [a] [b]) (SC.runUser f [a] [b]) := by
  intro m hm
  refine ⟨rfl, ?_⟩
  unfold SC.runUser
  have h : Heard E ((f m.view m.world).cmds.foldl Mach.cmd { m with world := (f m.view m.world).world }) := heard_cmds _ (hf _ _) ⟨hm.evq, hm.dq, hm.trig, hm.trace⟩
  cases h1 : (f m.view m.world).throws with
  | none => simp only [h1]; exact ⟨heard_log a h, trivial⟩
  | some x => simp only [h1]; have := heard_log b h; exact ⟨this.evq, this.dq, this.trig, this.trace⟩

macro "deaf_step" : tactic => `(tactic| first
  | with_reducible exact Deaf.pure0 _ | with_reducible exact Deaf.fault _ | with_reducible exact Deaf.throw _ | with_reducible exact Deaf.get | with_reducible exact Deaf.getObj _
  | with_reducible exact Deaf.setObj _ _
  | with_reducible refine Deaf.same ?_; exact fun _ => ⟨rfl, rfl, rfl, rfl⟩
  | with_reducible refine Deaf.bind Deaf.get fun _ _ => ?_
  | with_reducible refine Deaf.bind (Q := fun _ => True) ?_ fun _ _ => ?_
  | with_reducible refine Deaf.onThrow ?_ ?_
  | with_reducible refine Deaf.finally' ?_ ?_
  | split)

theorem addRef (s : Sid) : Deaf0 E (addRef s : M W Unit) (SC.addRef s) := by unfold SC.addRef; repeat' deaf_step
theorem releaseBase (s : Sid) : Deaf0 E (releaseBase s : M W Unit) (SC.releaseBase s) := by unfold SC.releaseBase; repeat' deaf_step
theorem setOU (o : Option Sid) : Deaf0 E (setOU o : M W Unit) (SC.setOU o) := by
  unfold SC.setOU
  repeat' first | with_reducible exact addRef _ | with_reducible exact releaseBase _ | deaf_step
theorem releaseEvents (s : Sid) : Deaf0 E (releaseEvents s : M W Unit) (SC.releaseEvents s) := modify fun m hm => by
  refine ⟨fun e he => ?_, fun _ h => (by cases h), hm.trig, hm.trace⟩
  rcases List.mem_append.1 he with he | he
  · exact hm.dq e he
  · exact hm.evq e he
theorem takeSlot (i : Nat) : Deaf0 E (takeSlot i : M W Sid) (SC.takeSlot i) := by unfold SC.takeSlot; repeat' deaf_step
theorem checkCtx (c : Option Sid) : Deaf0 E (checkCtx c : M W Unit) (SC.checkCtx c) := by unfold SC.checkCtx; repeat' deaf_step
theorem deferEvent (s : Sid) : Deaf0 E (deferEvent s : M W Unit) (SC.deferEvent s) := by
  unfold SC.deferEvent
  refine bind (getObj s) fun o _ => ?_
  split
  · exact modify fun m hm => heard_log (.defer s) ⟨hm.evq, hm.dq, hm.trig, hm.trace⟩
  · exact fault _

theorem allocate (P : Prog W) (i : Site) : Deaf0 E (allocate P i) (SC.allocate P i) := by
  intro m hm
  refine ⟨rfl, ?_⟩
  unfold SC.allocate
  rcases P.alloc i m.world with ⟨w, _ | x⟩
  · exact ⟨⟨hm.evq, hm.dq, hm.trig, hm.trace⟩, trivial⟩
  · exact ⟨hm.evq, hm.dq, hm.trig, hm.trace⟩

theorem allocNode (P : Prog W) (has : Mach W → Bool) (i : Site) : Deaf0 E (allocNode P has i) (SC.allocNode P has i) := by
  intro m hm
  refine ⟨rfl, ?_⟩
  unfold SC.allocNode
  cases has m with
  | true => exact ⟨hm, trivial⟩
  | false => exact (allocate P i m hm).2

theorem histNode (P : Prog W) (has : Mach W → Bool) (i : Site) (s : Sid) (k : Option Sid) : Deaf0 E (histNode P has i s k) (SC.histNode P has i s k) :=
  onThrow (allocNode P has i) (same fun _ => ⟨rfl, rfl, rfl, rfl⟩)

end Deaf

/-! ## The library -/

namespace Deaf
variable {E : Event → Prop} {P : Prog W}

theorem removeInner (c : Option Sid) (k : Nat) : Deaf0 E (removeInner P c k) (SC.removeInner P c k) := by
  unfold SC.removeInner
  repeat' deaf_step

theorem addInner (c : Option Sid) (k : Nat) (s : Sid) : Deaf0 E (addInner P c k s) (SC.addInner P c k s) := by
  unfold SC.addInner
  repeat' deaf_step

variable (hE : Posts P E)

include hE in
theorem runAction (a : Option Nat) : Deaf0 E (runAction P a) (SC.runAction P a) := by
  cases a with
  | none => exact pure0 _
  | some a => exact runUser (f := P.action a) (fun v w e h => hE.action h) (.act a) (.act a)

theorem setCtxOU (s : Sid) : Deaf0 E (setCtxOU P s) (SC.setCtxOU P s) := by
  unfold SC.setCtxOU
  refine bind (getObj s) fun o _ => ?_
  split
  · exact setOU (P.parent s)
  · exact fault _

theorem storeShallow (s : Sid) : Deaf0 E (storeShallow P s) (SC.storeShallow P s) := by
  unfold SC.storeShallow
  repeat' first | with_reducible exact histNode P _ _ _ _ | deaf_step

theorem storeDeepF (t : Sid) : ∀ k s, Deaf0 E (storeDeepF P k s t) (SC.storeDeepF P k s t)
  | 0, _ => fault _
  | k + 1, s => by
    have ih := storeDeepF t k
    unfold SC.storeDeepF
    repeat' first | with_reducible exact ih _ | with_reducible exact histNode P _ _ _ _ | deaf_step

theorem storeDeep (s : Sid) : Deaf0 E (storeDeep P s) (SC.storeDeep P s) := by
  unfold SC.storeDeep
  split
  · exact storeDeepF s _ _
  · exact pure0 _

include hE

theorem userDtor (s : Sid) : Deaf0 E (userDtor P s) (SC.userDtor P s) := by
  unfold SC.userDtor
  refine modify fun m hm => ?_
  have : Heard E ((P.dtor s m.view m.world).2.foldl Mach.cmd { m with world := (P.dtor s m.view m.world).1 }) := heard_cmds _ (fun e h => hE.dtor h) ⟨hm.evq, hm.dq, hm.trig, hm.trace⟩
  exact heard_log (.destroy s) this

omit hE in
theorem baseDtor {rel : Sid → M W Unit} (h : ∀ p, Deaf0 E (rel p) (rel p)) (s : Sid) : Deaf0 E (baseDtor P rel s) (SC.baseDtor P rel s) := by
  unfold SC.baseDtor
  refine bind (getObj s) fun o _ => ?_
  split
  · have h2 : Deaf0 E (SC.removeInner P (P.parent s) (P.pos s) >>= fun _ => M.modify (fun m => { m with heap := upd m.heap s none }) >>= fun _ =>
          match P.parent s with | none => Pure.pure () | some p => rel p)
        (SC.removeInner P (P.parent s) (P.pos s) >>= fun _ => M.modify (fun m => { m with heap := upd m.heap s none }) >>= fun _ =>
          match P.parent s with | none => Pure.pure () | some p => rel p) := by
      refine bind (removeInner _ _) fun _ _ => bind (same fun _ => ⟨rfl, rfl, rfl, rfl⟩) fun _ _ => ?_
      cases P.parent s with
      | none => exact pure0 _
      | some p => exact h p
    cases o.deferred with
    | true => exact bind (releaseEvents s) fun _ _ => h2
    | false => exact h2
  · exact same fun _ => ⟨rfl, rfl, rfl, rfl⟩

theorem releaseF : ∀ k s, Deaf0 E (releaseF P k s) (SC.releaseF P k s)
  | 0, _ => fault _
  | k + 1, s => by
    have ih := releaseF k
    unfold SC.releaseF
    repeat' first | with_reducible exact userDtor hE _ | with_reducible exact baseDtor ih _ | deaf_step

theorem release (s : Sid) : Deaf0 E (release P s) (SC.release P s) := releaseF hE _ s

theorem fullExitPart (s : Sid) : Deaf0 E (fullExitPart P s) (SC.fullExitPart P s) := by
  unfold SC.fullExitPart
  exact bind (runUser (f := P.exit s) (fun v w e h => hE.exit h) _ _) fun _ _ => bind (storeShallow s) fun _ _ => storeDeep s

theorem exitF : ∀ k s b, Deaf0 E (exitF P k s b) (SC.exitF P k s b)
  | 0, _, _ => fault _
  | k + 1, s, b => by
    have ih := exitF k
    unfold SC.exitF
    repeat' first | with_reducible exact ih _ _ | with_reducible exact setCtxOU _ | with_reducible exact fullExitPart hE _ | with_reducible exact release hE _ | with_reducible exact addRef _ | deaf_step

theorem exitImpl (s : Sid) (b : Bool) : Deaf0 E (exitImpl P s b) (SC.exitImpl P s b) := exitF hE _ s b

theorem leafRemove (s : Sid) (b : Bool) : Deaf0 E (leafRemove P s b) (SC.leafRemove P s b) := by
  unfold SC.leafRemove
  repeat' first | with_reducible exact exitImpl hE _ _ | with_reducible exact takeSlot _ | deaf_step

omit hE in
theorem removeLoop {rec : Sid → M W Unit} (h : ∀ c, Deaf0 E (rec c) (rec c)) (s : Sid) : ∀ l, Deaf0 E (removeLoop rec s l) (SC.removeLoop rec s l)
  | [] => pure0 _
  | i :: l => by
    unfold SC.removeLoop
    refine bind (getObj s) fun o _ => bind (Q := fun _ => True) ?_ fun _ _ => removeLoop h s l
    cases o.inner i with
    | none => exact pure0 _
    | some c => exact h c

theorem removeF : ∀ k s b, Deaf0 E (removeF P k s b) (SC.removeF P k s b)
  | 0, _, _ => fault _
  | k + 1, s, b => by
    have ih := removeF k
    unfold SC.removeF
    repeat' first | with_reducible exact leafRemove hE _ _ | with_reducible exact exitImpl hE _ _ | with_reducible exact addRef _ | exact removeLoop (fun c => ih c b) s _ | deaf_step

theorem remove (s : Sid) (b : Bool) : Deaf0 E (remove P s b) (SC.remove P s b) := removeF hE _ s b

theorem terminateState (s : Sid) (b : Bool) : Deaf0 E (terminateState P s b) (SC.terminateState P s b) := by
  unfold SC.terminateState
  repeat' first | with_reducible exact exitImpl hE _ _ | with_reducible exact remove hE _ _ | with_reducible exact takeSlot _ | deaf_step

theorem terminateMachine (b : Bool) : Deaf0 E (terminateMachine P b) (SC.terminateMachine P b) := by
  unfold SC.terminateMachine
  refine bind (same fun _ => ⟨rfl, rfl, rfl, rfl⟩) fun _ _ => bind get fun m _ => bind (Q := fun _ => True) ?_ fun _ _ =>
    modify fun m hm => ⟨fun _ h => (by cases h), fun _ h => (by cases h), hm.trig, hm.trace⟩
  cases m.outermost with
  | none => exact pure0 _
  | some s => exact terminateState hE s b

theorem runCtor (s : Sid) : Deaf0 E (runCtor P s) (SC.runCtor P s) := by
  intro m hm
  unfold SC.runCtor
  refine ⟨rfl, ?_⟩
  by_cases h : P.isSimple s = true ∧ (P.ctor s m.view m.world).cmds ≠ []
  · rw [if_pos h]; trivial
  · rw [if_neg h]; exact (runUser (f := P.ctor s) (fun v w e h => hE.ctor h) (.enter s) (.enterFail s) m hm).2

omit hE in
theorem setContext (s : Sid) : Deaf0 E (setContext P s) (SC.setContext P s) := by
  unfold SC.setContext
  repeat' first | with_reducible exact addRef _ | with_reducible exact addInner _ _ _ | deaf_step

omit hE in
theorem addToMachine (s : Sid) : Deaf0 E (addToMachine P s) (SC.addToMachine P s) := by
  unfold SC.addToMachine SC.addLeaf
  repeat' first | with_reducible exact allocate P _ | with_reducible exact addRef _ | with_reducible exact releaseBase _ | with_reducible exact setOU _ | deaf_step

theorem shallowConstruct (s : Sid) : Deaf0 E (shallowConstruct P s) (SC.shallowConstruct P s) := by
  unfold SC.shallowConstruct
  repeat' first | with_reducible exact allocate P _ | with_reducible exact addRef _ | with_reducible exact addToMachine _ | with_reducible exact setContext _ | with_reducible exact runCtor hE _ | with_reducible exact release hE _ | with_reducible exact baseDtor (release hE) _ | deaf_step

omit hE in
theorem lookupHist (k : TKind) (d : Sid) : Deaf0 E (lookupHist P k d) (SC.lookupHist P k d) := by
  intro m hm
  refine ⟨rfl, ?_⟩
  unfold SC.lookupHist
  cases P.parent d with
  | none => exact ⟨hm, trivial⟩
  | some p => cases k <;> exact ⟨hm, trivial⟩

theorem build : ∀ k t, Deaf0 E (build P k t) (SC.build P k t)
  | 0, _ => fault _
  | k + 1, t => by
    have ih := build k
    rcases t with s | ⟨j, d⟩ | ⟨_ | ⟨x, cs⟩, d⟩ | (_ | ⟨x, l⟩)
    all_goals unfold SC.build
    all_goals repeat' first | with_reducible exact ih _ | with_reducible exact shallowConstruct hE _ | with_reducible exact release hE _ | with_reducible exact lookupHist _ _ | deaf_step

theorem initialConstruct : Deaf0 E (initialConstruct P) (SC.initialConstruct P) := build hE _ _

theorem terminateInTransit (t : Sid) : Deaf0 E (terminateInTransit P t) (SC.terminateInTransit P t) := by
  unfold SC.terminateInTransit
  repeat' first | with_reducible exact terminateState hE _ _ | deaf_step

theorem relaxedExit (s t : Sid) (c q : Option Sid) (a : Option Nat) : Deaf0 E (relaxedExit P s t c q a) (SC.relaxedExit P s t c q a) := by
  unfold SC.relaxedExit
  dsimp only
  repeat' first | with_reducible exact terminateInTransit hE _ | with_reducible exact checkCtx _ | with_reducible exact runAction hE _ | with_reducible exact addRef _ | with_reducible exact release hE _ | deaf_step

theorem transit (s : Sid) (d : Target) (a : Option Nat) : Deaf0 E (transit P s d a) (SC.transit P s d a) := by
  unfold SC.transit SC.transitRelaxed SC.transitDefault
  repeat' first | with_reducible exact relaxedExit hE _ _ _ _ _ | with_reducible exact terminateState hE _ _ | with_reducible exact checkCtx _ | with_reducible exact runAction hE _ | with_reducible exact addRef _ | with_reducible exact release hE _ | with_reducible exact build hE _ _ | deaf_step

theorem terminateReaction (s : Sid) : Deaf0 E (terminateReaction P s) (SC.terminateReaction P s) := by
  unfold SC.terminateReaction
  exact bind get fun m _ => bind (terminateState hE s _) fun _ _ => setOU none

theorem guardTerm {x y : M W α} {Q : α → Prop} (h : Deaf E Q x y) : Deaf E Q (guardTerm P x) (SC.guardTerm P y) := by
  intro m hm
  obtain ⟨h1, h2⟩ := h m hm
  unfold SC.guardTerm
  rw [← h1]
  revert h2
  cases x m with
  | ok a n => exact fun h => ⟨rfl, h⟩
  | fault g => exact fun h => ⟨rfl, h⟩
  | thrown e n =>
    intro h
    obtain ⟨h3, h4⟩ := terminateMachine hE false n h
    simp only
    revert h4
    cases SC.terminateMachine P false n with
    | ok a n' => exact fun h => ⟨trivial, h.1⟩
    | thrown e' n' => exact fun _ => ⟨trivial, trivial⟩
    | fault g => exact fun _ => ⟨trivial, trivial⟩

/-! ## Reactions -/

variable {r : Sid → List Reaction} {f : Sid → Nat → Event → View → W → UOut W × Decision} (hK : SameFor P r f E)
include hK

local notation "P'" => Prog.recast P r f P.relaxed P.translate

theorem customReact (s : Sid) (id : Nat) {e : Event} (he : E e) : Deaf0 E (customReact P s id e) (SC.customReact P' s id e) := by
  unfold SC.customReact
  rw [show (P').react s id e = P.react s id e from hK.react he]
  simp only [Recast.transit, Recast.terminateReaction]
  refine bind get fun m _ => bind (runUser (f := fun v w => (P.react s id e v w).1) (fun v w e' h => hE.react he h) _ _) fun _ _ => ?_
  cases hd : (P.react s id e m.view m.world).2 with
  | discard => exact pure0 _
  | forward => exact pure0 _
  | defer => exact bind (deferEvent s) fun _ _ => pure0 _
  | transit d a => exact bind (transit hE s d a) fun _ _ => pure0 _
  | terminate => exact bind (terminateReaction hE s) fun _ _ => pure0 _

theorem reactOne (s : Sid) {e : Event} (he : E e) (x : Reaction) : Deaf0 E (reactOne P s e x) (SC.reactOne P' s e x) := by
  unfold SC.reactOne
  simp only [Recast.transit, Recast.terminateReaction, Recast.runAction]
  split
  · cases hk : x.kind with
    | transition d a => exact bind (transit hE s d a) fun _ _ => pure0 _
    | inState a => exact bind (runAction hE a) fun _ _ => pure0 _
    | termination => exact bind (terminateReaction hE s) fun _ _ => pure0 _
    | deferral => exact bind (deferEvent s) fun _ _ => pure0 _
    | custom id => exact customReact hE hK s id he
  · exact pure0 _

theorem localReact (s : Sid) {e : Event} (he : E e) : Deaf0 E (localReact P s e (P.reactions s)) (SC.localReact P' s e (r s)) := by
  rw [localReact_first, localReact_first, hK.reactions he]
  cases firstFor e.ty (P.reactions s) with
  | none => exact pure0 _
  | some x => exact reactOne hE hK s he x

theorem reactF {e : Event} (he : E e) : ∀ k s, Deaf0 E (reactF P k s e) (SC.reactF P' k s e)
  | 0, _ => fault _
  | k + 1, s => by
    have ih := reactF he k
    unfold SC.reactF
    refine bind (getObj s) fun o _ => bind (localReact hE hK s he) fun x _ => ?_
    split
    · refine bind (getObj s) fun o _ => ?_
      split
      · show Deaf0 E (match P.parent s with | none => _ | some p => _) (match P.parent s with | none => _ | some p => _)
        cases P.parent s with
        | none => exact pure0 _
        | some p => exact ih p
      · exact fault _
    · exact pure0 _

theorem reactImpl (s : Sid) {e : Event} (he : E e) : Deaf0 E (reactImpl P s e) (SC.reactImpl P' s e) := reactF hE hK he _ s

theorem handleException (c : Option Sid) {ev : Event} (he : E ev) (x : Exc) : Deaf0 E (handleException P c ev x) (SC.handleException P' c ev x) := by
  unfold SC.handleException
  refine bind get fun m _ => ?_
  split
  · exact throw _
  · cases m.handler c with
    | none => exact fault _
    | some h =>
      refine withTrig _ (fun e h => by cases h; exact he) (bind (same fun _ => ⟨rfl, rfl, rfl, rfl⟩) fun _ _ => bind (reactImpl hE hK h he) fun r _ => bind (same fun _ => ⟨rfl, rfl, rfl, rfl⟩) fun _ _ =>
        bind get fun m _ => ?_)
      split
      · exact throw _
      · exact pure0 _

theorem translated (c : Option Sid) {x y : M W RR} (h : Deaf0 E x y) : Deaf0 E (translated P c x) (SC.translated P' c y) := by
  unfold SC.translated
  refine tryCatch h fun e => ?_
  show Deaf0 E (match P.translate e with | none => M.throw e | some ev => _) (match P.translate e with | none => M.throw e | some ev => _)
  cases ht : P.translate e with
  | none => exact throw _
  | some ev => exact handleException hE hK c (hE.translate ht) e

theorem sendLoop {e : Event} (he : E e) : ∀ k i, Deaf0 E (sendLoop P e k i) (SC.sendLoop P' e k i)
  | 0, _ => fault _
  | k + 1, i => by
    unfold SC.sendLoop
    refine bind get fun m _ => ?_
    split
    · exact pure0 _
    · cases m.slot i with
      | none => exact fault _
      | some s =>
        refine bind (translated hE hK (some s) (reactImpl hE hK s he)) fun r _ => ?_
        split
        · exact sendLoop he k (i + 1)
        · exact pure0 _

theorem sendEvent {e : Event} (he : E e) : Deaf0 E (sendEvent P e) (SC.sendEvent P' e) := by
  unfold SC.sendEvent
  simp only [Recast.guardTerm]
  refine withTrig _ (fun e h => by cases h; exact he) (bind (guardTerm hE (Q := fun _ => True) (bind get fun m _ => ?_)) fun r _ => bind (Q := fun _ => True) ?_ fun _ _ => pure0 _)
  · split
    · exact fault _
    · exact sendLoop hE hK he _ 0
  · split
    · exact runUser (f := P.unconsumed e) (fun v w e h => hE.unconsumed he h) _ _
    · exact pure0 _

theorem dispatch {e : Event} (he : E e) : Deaf0 E (dispatch P e) (SC.dispatch P' e) := by
  unfold SC.dispatch SC.qop
  refine bind (onThrow (sendEvent hE hK he) (same fun _ => ⟨rfl, rfl, rfl, rfl⟩)) fun r _ => ?_
  split
  · refine bind (onThrow (allocate P _) (same fun _ => ⟨rfl, rfl, rfl, rfl⟩)) fun _ _ => modify fun m hm => ⟨hm.evq, fun e' h => ?_, hm.trig, hm.trace⟩
    rcases List.mem_append.1 h with h | h
    · exact hm.dq e' h
    · rw [List.mem_singleton.1 h]; exact he
  · exact same fun _ => ⟨rfl, rfl, rfl, rfl⟩

theorem processQueued : ∀ k, Deaf0 E (processQueued P k) (SC.processQueued P' k)
  | 0 => bind get fun m _ => pure0 _
  | k + 1 => by
    have ih := processQueued k
    unfold SC.processQueued
    refine bind get fun m hm => ?_
    cases hq : m.evq with
    | nil => exact pure0 _
    | cons e q =>
      exact bind (modify fun m' hm' => ⟨fun e' h => hm.evq e' (by rw [hq]; exact List.mem_cons_of_mem _ h), hm'.dq, hm'.trig, hm'.trace⟩) fun _ _ =>
        bind (dispatch hE hK (hm.evq e (by rw [hq]; exact List.mem_cons_self))) fun _ _ => ih

theorem terminate : Deaf0 E (terminate P) (SC.terminate P') := by
  unfold SC.terminate
  simp only [Recast.guardTerm, Recast.terminateMachine]
  exact bind (withTrig _ (fun _ h => by cases h) (guardTerm hE (translated hE hK none (bind (terminateMachine hE true) fun _ _ => pure0 _)))) fun _ _ => pure0 _

theorem construct (k : Nat) : Deaf0 E (construct P k) (SC.construct P' k) := by
  unfold SC.construct
  simp only [Recast.guardTerm, Recast.initialConstruct]
  exact bind (withTrig _ (fun _ h => by cases h) (guardTerm hE (translated hE hK none (bind (initialConstruct hE) fun _ _ => pure0 _)))) fun _ _ => processQueued hE hK k

theorem processEvent {e : Event} (he : E e) (k : Nat) : Deaf0 E (processEvent P e k) (SC.processEvent P' e k) :=
  bind (same fun _ => ⟨rfl, rfl, rfl, rfl⟩) fun _ _ => bind (dispatch hE hK he) fun _ _ => processQueued hE hK k

end Deaf
end SC
