import Verif.Props.Macro
/-!
# C73: reactions of outer states are inherited by inner states

A transition or in-state reaction of an outer state can as well be written in the inner states that forward the event to it.
-/

namespace SC
open Spec Chart
variable {W α β : Type}

/-! ## Programs that do the same unless the first one faults -/

/-- `y` does what `x` does, unless `x` faults. -/
def Le (x y : M W α) : Prop := ∀ m, (∃ g, x m = .fault g) ∨ x m = y m

theorem Le.refl (x : M W α) : Le x x := fun _ => .inr rfl

theorem Le.of_eq {x y : M W α} (h : x = y) : Le x y := h ▸ .refl x

theorem Le.bind {x y : M W α} {f k : α → M W β} (h : Le x y) (hf : ∀ a, Le (f a) (k a)) : Le (x >>= f) (y >>= k) := by
  intro m
  show (∃ g, M.bnd x f m = .fault g) ∨ M.bnd x f m = M.bnd y k m
  unfold M.bnd
  rcases h m with ⟨g, h⟩ | h
  · rw [h]; exact .inl ⟨g, rfl⟩
  · rw [← h]
    cases x m with
    | ok a m' => exact hf a m'
    | thrown e m' => exact .inr rfl
    | fault g => exact .inl ⟨g, rfl⟩

theorem Le.tryCatch {x y : M W α} {f k : Exc → M W α} (h : Le x y) (hf : ∀ a, Le (f a) (k a)) : Le (M.tryCatch x f) (M.tryCatch y k) := by
  intro m
  unfold M.tryCatch
  rcases h m with ⟨g, h⟩ | h
  · rw [h]; exact .inl ⟨g, rfl⟩
  · rw [← h]
    cases x m with
    | ok a m' => exact .inr rfl
    | thrown e m' => exact hf e m'
    | fault g => exact .inl ⟨g, rfl⟩

theorem Le.onThrow {x y : M W α} {u : M W Unit} (h : Le x y) : Le (M.onThrow x u) (M.onThrow y u) := by
  intro m
  unfold M.onThrow
  rcases h m with ⟨g, h⟩ | h
  · rw [h]; exact .inl ⟨g, rfl⟩
  · rw [h]; exact .inr rfl

theorem Le.withTrig {x y : M W α} (ev : Option Event) (h : Le x y) : Le (withTrig ev x) (withTrig ev y) := by
  intro m
  unfold SC.withTrig
  rcases h { m with trig := ev } with ⟨g, h⟩ | h
  · rw [h]; exact .inl ⟨g, rfl⟩
  · rw [h]; exact .inr rfl

theorem Le.guardTerm (P : Prog W) {x y : M W α} (h : Le x y) : Le (guardTerm P x) (guardTerm P y) := by
  intro m
  unfold SC.guardTerm
  rcases h m with ⟨g, h⟩ | h
  · rw [h]; exact .inl ⟨g, rfl⟩
  · rw [h]; exact .inr rfl

/-! ## Inherited reactions -/

namespace Spec

/-- No state from `s` up to (not including) its outer state `S` has a reaction to events of type `ty`. -/
inductive Unheard (P : Prog W) (ty : Nat) (S : Sid) : Sid → Prop
  | direct {s} : firstFor ty (P.reactions s) = none → P.parent s = some S → Unheard P ty S s
  | step {s p} : firstFor ty (P.reactions s) = none → P.parent s = some p → Unheard P ty S p → Unheard P ty S s

/-- The reaction can be inherited from `S`: an in-state reaction, or a transition to a state that is not inside `S`. With relaxed transition context its action is a member of the
common context or of a context outside. -/
def Inheritable (P : Prog W) (S : Sid) : RKind → Prop
  | .transition d a => ¬ Outer P.toChart S d.st ∧ (P.relaxed = true → Fits P.toChart S d a)
  | .inState _ => True
  | _ => False

/-- For each type of event, a state has the same first reaction as before, or it had none and now has that of the outer state to which it forwarded such events. -/
def Inherits (P : Prog W) (r : Sid → List Reaction) : Prop :=
  ∀ s ty, firstFor ty (r s) = firstFor ty (P.reactions s) ∨
    ∃ S x y, s < P.n ∧ Unheard P ty S s ∧ firstFor ty (P.reactions S) = some y ∧ Inheritable P S y.kind ∧ firstFor ty (r s) = some x ∧ x.kind = y.kind

end Spec

theorem Unheard.outer {P : Prog W} {ty : Nat} {S s : Sid} (h : Unheard P ty S s) : Outer P.toChart S s := by
  induction h with
  | direct _ hp => exact ⟨S, hp, .refl⟩
  | step _ hp _ ih => exact ⟨_, hp, ih.below⟩

/-- A transition out of `S` has the same common context and termination state for all inner states of `S`. -/
theorem ctx_up {C : Chart} (hwf : C.WF) {S d : Sid} (hd : ¬ Outer C S d) (hdn : d < C.n) : ∀ {s : Sid}, s < C.n → Below C S s →
    C.commonCtx s d = C.commonCtx S d ∧ C.termState s d = C.termState S d := by
  intro s hs hb
  induction hb with
  | refl => exact ⟨rfl, rfl⟩
  | @step s p hp hb ih =>
    have hpn := parent_bound hwf hs hp
    obtain ⟨h1, h2⟩ := ih hpn
    have hl := ctxList_some hwf hs hp
    have hnot : (C.ctxList d).contains (some p) = false := by
      rw [Bool.eq_false_iff]
      intro hc
      rw [List.contains_iff_mem] at hc
      rcases (mem_ctxList hwf hdn).1 hc with h | ⟨z, hz, ho⟩
      · cases h
      · cases hz
        obtain ⟨q, hq, hqb⟩ := ho
        exact hd ⟨q, hq, hb.trans hqb⟩
    have hcc : C.commonCtx s d = C.commonCtx p d := by
      unfold Chart.commonCtx
      rw [hl, List.find?_cons, hnot]
    have hcs := (commonCtx_spec hwf hpn hdn)
    have hne : ((some p : Option Sid) == C.commonCtx p d) = false := by
      rw [beq_eq_false_iff_ne]
      intro he
      have := hcs.2.1
      rw [← he] at this
      rw [← List.contains_iff_mem, hnot] at this
      cases this
    refine ⟨hcc.trans h1, ?_⟩
    rw [← h2]
    unfold Chart.termState
    rw [hcc, hl, List.idxOf_cons, hne]
    simp only [cond_false, List.getD_cons_succ]

section
variable {P : Prog W} {r : Sid → List Reaction} (hwf : P.toChart.WF)

include hwf in
/-- Transitions from `S` and from its inner states are the same. -/
theorem transit_up {S s : Sid} {d : Target} {a : Option Nat} (hd : ¬ Outer P.toChart S d.st) (hf : P.relaxed = true → Fits P.toChart S d a)
    (hdn : d.st < P.n) (hs : s < P.n) (hb : Below P.toChart S s) : transit P s d a = transit P S d a := by
  obtain ⟨h1, h2⟩ := ctx_up hwf hd hdn hs hb
  have hdef : transitDefault P s d a = transitDefault P S d a := by
    unfold transitDefault
    rw [h1, h2]
  unfold transit
  cases hr : P.relaxed with
  | false => simpa using hdef
  | true =>
    have hSn := hb.bound hwf hs
    have hf' : Fits P.toChart s d a := by
      intro k q hk hq
      have hc := commonCtx_common hwf hs hdn
      have hkc : k = P.commonCtx s d.st := by
        cases hk' : k with
        | none =>
          cases hc' : P.commonCtx s d.st with
          | none => rfl
          | some p =>
            obtain ⟨h3, h4⟩ := hc.outer p hc'
            obtain ⟨_, h5, _⟩ := hk.inner p h3 h4
            rw [hk'] at h5; cases h5
        | some p =>
          obtain ⟨h3, h4⟩ := hk.outer p hk'
          obtain ⟨p', h5, h6⟩ := hc.inner p h3 h4
          obtain ⟨h7, h8⟩ := hc.outer p' h5
          obtain ⟨p'', h9, h10⟩ := hk.inner p' h7 h8
          rw [hk'] at h9; cases h9
          rw [h5, Below.antisymm hwf (h7.below.bound hwf hs) h6 h10]
      refine hf hr k q ?_ hq
      rw [hkc, h1]
      exact commonCtx_common hwf hSn hdn
    simp only [if_true]
    rw [transit_aligned hwf hs hdn hf', transit_aligned hwf hSn hdn (hf hr), hdef]

theorem react_discards {s : Sid} {e : Event} {x : Reaction} (hx : Inheritable P s x.kind) (hev : x.ev = none ∨ x.ev = some e.ty) {m m' : Mach W} {v : RR}
    (h : reactOne P s e x m = .ok v m') : v = .discard := by
  unfold reactOne at h
  rw [if_pos hev] at h
  have key : ∀ {y : M W Unit}, (y >>= fun _ => (pure .discard : M W RR)) m = .ok v m' → v = .discard := by
    intro y hy
    have hy : M.bnd y (fun _ => (pure .discard : M W RR)) m = .ok v m' := hy
    unfold M.bnd at hy
    cases h1 : y m with
    | ok u m1 => rw [h1] at hy; cases hy; rfl
    | thrown e m1 => rw [h1] at hy; cases hy
    | fault g => rw [h1] at hy; cases hy
  cases hk : x.kind with
  | transition d a => rw [hk] at h; exact key h
  | inState a => rw [hk] at h; exact key h
  | termination => rw [hk] at hx; exact hx.elim
  | deferral => rw [hk] at hx; exact hx.elim
  | custom id => rw [hk] at hx; exact hx.elim

theorem firstFor_mem {ty : Nat} {x : Reaction} : ∀ {l : List Reaction}, firstFor ty l = some x → x ∈ l
  | q :: l, h => by
    have h : (if q.ev = none ∨ q.ev = some ty then some q else firstFor ty l) = some x := h
    by_cases hq : q.ev = none ∨ q.ev = some ty
    · rw [if_pos hq] at h; cases h; exact List.mem_cons_self
    · rw [if_neg hq] at h; exact List.mem_cons_of_mem _ (firstFor_mem h)

theorem reactF_here {s : Sid} {e : Event} {y : Reaction} (hy : firstFor e.ty (P.reactions s) = some y) (hi : ∀ m v m', reactOne P s e y m = .ok v m' → v = .discard)
    {m : Mach W} (hm : (m.heap s).isSome) (f : Nat) : reactF P (f + 1) s e m = reactOne P s e y m := by
  obtain ⟨o, ho⟩ := Option.isSome_iff_exists.1 hm
  unfold reactF
  rw [localReact_first, hy]
  simp only
  show M.bnd (getObj s) (fun _ => M.bnd (reactOne P s e y) _) m = _
  unfold M.bnd getObj
  rw [ho]
  simp only
  cases h1 : reactOne P s e y m with
  | ok v m' =>
    have := hi m v m' h1
    subst this
    rfl
  | thrown x m' => rfl
  | fault g => rfl

theorem reactF_gone {s : Sid} {e : Event} {m : Mach W} (hm : m.heap s = none) : ∀ f, ∃ g, reactF P f s e m = .fault g
  | 0 => ⟨_, rfl⟩
  | f + 1 => by
    unfold reactF
    refine ⟨.useAfterFree, ?_⟩
    show M.bnd (getObj s) _ m = _
    unfold M.bnd getObj
    rw [hm]

theorem bind_at {x : M W α} {f : α → M W β} {a : α} {m m' : Mach W} (h : x m = .ok a m') : (x >>= f) m = f a m' := by
  show M.bnd x f m = _
  unfold M.bnd
  rw [h]

theorem reactF_up {s p : Sid} {e : Event} (hy : firstFor e.ty (P.reactions s) = none) (hp : P.parent s = some p) (m : Mach W) (f : Nat) :
    (∃ g, reactF P (f + 1) s e m = .fault g) ∨ ((m.heap s).isSome ∧ reactF P (f + 1) s e m = reactF P f p e m) := by
  cases ho : m.heap s with
  | none => exact .inl (reactF_gone ho _)
  | some o =>
    have h1 : reactF P (f + 1) s e m = if o.ctxSet then reactF P f p e m else .fault .nullDeref := by
      have hg : getObj s m = .ok o m := by unfold getObj; rw [ho]
      have hlr : localReact P s e (P.reactions s) m = .ok .forward m := by rw [localReact_first, hy]; rfl
      have h2 : reactF P (f + 1) s e m = (getObj s >>= fun _ => localReact P s e (P.reactions s) >>= fun x =>
          if x = .forward then getObj s >>= fun o => if o.ctxSet then (match P.parent s with | none => pure .forward | some p => reactF P f p e) else M.fault .nullDeref
          else pure x) m := rfl
      rw [h2, bind_at hg, bind_at hlr, if_pos rfl, bind_at hg, hp]
      cases o.ctxSet <;> rfl
    cases hc : o.ctxSet with
    | true => rw [hc] at h1; exact .inr ⟨rfl, h1⟩
    | false => rw [hc] at h1; exact .inl ⟨_, h1⟩

/-- The event goes up to `S`, unless there is a fault. -/
theorem climb {S : Sid} {e : Event} {y : Reaction} (hy : firstFor e.ty (P.reactions S) = some y) (hi : Inheritable P S y.kind) (m : Mach W) :
    ∀ {s : Sid}, Unheard P e.ty S s → ∀ f, (∃ g, reactF P f s e m = .fault g) ∨ (∃ k, f = k + 1) ∧ (m.heap s).isSome ∧ reactF P f s e m = reactOne P S e y m := by
  intro s h
  induction h with
  | @direct s h1 h2 =>
    intro f
    cases f with
    | zero => exact .inl ⟨_, rfl⟩
    | succ f =>
      rcases reactF_up h1 h2 m f with h3 | ⟨h3, h4⟩
      · exact .inl h3
      · cases f with
        | zero => rw [h4]; exact .inl ⟨_, rfl⟩
        | succ f =>
          cases hS : m.heap S with
          | none => rw [h4]; exact .inl (reactF_gone hS _)
          | some o =>
            have := reactF_here hy (fun _ _ _ h => react_discards hi (firstFor_fits hy) h) (m := m) (by rw [hS]; rfl) f
            exact .inr ⟨⟨_, rfl⟩, h3, h4.trans this⟩
  | @step s p h1 h2 _ ih =>
    intro f
    cases f with
    | zero => exact .inl ⟨_, rfl⟩
    | succ f =>
      rcases reactF_up h1 h2 m f with h3 | ⟨h3, h4⟩
      · exact .inl h3
      · rcases ih f with h5 | ⟨_, _, h5⟩
        · rw [h4]; exact .inl h5
        · exact .inr ⟨⟨_, rfl⟩, h3, h4.trans h5⟩

variable (hok : Contract P) (h : Inherits P r)
include hwf h

theorem inherit_reactF (e : Event) : ∀ f s, Le (reactF P f s e) (reactF (P.relist r) f s e)
  | 0, _ => .refl _
  | f + 1, s => by
    rcases h s e.ty with h1 | ⟨S, x, y, hs, h1, h2, h3, h4, h5⟩
    · have hl : localReact (P.relist r) s e (r s) = localReact P s e (P.reactions s) := by
        rw [localReact_first, localReact_first, h1]
        cases firstFor e.ty (P.reactions s) with
        | none => rfl
        | some x =>
          show reactOne (P.recast r P.react P.relaxed P.translate) s e x = reactOne P s e x
          unfold reactOne customReact
          simp only [Recast.transit, Recast.runAction, Recast.terminateReaction]
          rfl
      unfold reactF
      show Le _ (getObj s >>= fun _ => localReact (P.relist r) s e (r s) >>= fun x => _)
      rw [hl]
      refine (Le.refl _).bind fun _ => (Le.refl _).bind fun v => ?_
      show Le (if v = .forward then _ else _) (if v = .forward then _ else _)
      split
      · refine (Le.refl _).bind fun o => ?_
        show Le (if o.ctxSet = true then _ else _) (if o.ctxSet = true then _ else _)
        split
        · show Le (match P.parent s with | none => pure .forward | some p => reactF P f p e) (match P.parent s with | none => pure .forward | some p => reactF (P.relist r) f p e)
          cases P.parent s with
          | none => exact .refl _
          | some p => exact inherit_reactF e f p
        · exact .refl _
      · exact .refl _
    · intro m
      rcases climb h2 h3 m h1 (f + 1) with h6 | ⟨_, h6, h7⟩
      · exact .inl h6
      · right
        rw [h7]
        have hb := (Unheard.outer h1).below
        obtain hx := firstFor_fits h4
        obtain hy := firstFor_fits h2
        have hkey : reactOne (P.relist r) s e x = reactOne P S e y := by
          show reactOne (P.recast r P.react P.relaxed P.translate) s e x = reactOne P S e y
          unfold reactOne
          rw [if_pos hx, if_pos hy, h5]
          cases hk : y.kind with
          | transition d a =>
            rw [hk] at h3
            obtain ⟨_, ⟨hd, _⟩, _⟩ := transitOK_spec (hwf.trans_ok (hb.bound hwf hs) (firstFor_mem h2) hk)
            simp only [Recast.transit]
            rw [transit_up hwf h3.1 h3.2 hd hs hb]
          | inState a => simp only [Recast.runAction]
          | termination => rw [hk] at h3; exact h3.elim
          | deferral => rw [hk] at h3; exact h3.elim
          | custom id => rw [hk] at h3; exact h3.elim
        have := reactF_here (P := P.relist r) (s := s) (e := e) (y := x) h4 (fun m v m' hv => by
          rw [hkey] at hv
          exact react_discards h3 hy hv) h6 f
        rw [this, hkey]

theorem inherit_impl (s : Sid) (e : Event) : Le (reactImpl P s e) (reactImpl (P.relist r) s e) := inherit_reactF hwf h e _ s

theorem inherit_handle (c : Option Sid) (ev : Event) (x : Exc) : Le (handleException P c ev x) (handleException (P.relist r) c ev x) := by
  unfold handleException
  refine (Le.refl _).bind fun m => ?_
  split
  · exact .refl _
  · cases m.handler c with
    | none => exact .refl _
    | some h' => exact Le.withTrig _ ((Le.refl _).bind fun _ => (inherit_impl hwf h h' ev).bind fun _ => .refl _)

theorem inherit_translated (c : Option Sid) {x y : M W RR} (hx : Le x y) : Le (translated P c x) (translated (P.relist r) c y) := by
  unfold translated
  refine hx.tryCatch fun e => ?_
  show Le (match P.translate e with | none => M.throw e | some ev => handleException P c ev e)
    (match P.translate e with | none => M.throw e | some ev => handleException (P.relist r) c ev e)
  cases P.translate e with
  | none => exact .refl _
  | some ev => exact inherit_handle hwf h c ev e

theorem inherit_loop (e : Event) : ∀ f i, Le (sendLoop P e f i) (sendLoop (P.relist r) e f i)
  | 0, _ => .refl _
  | f + 1, i => by
    unfold sendLoop
    refine (Le.refl _).bind fun m => ?_
    split
    · exact .refl _
    · cases m.slot i with
      | none => exact .refl _
      | some s =>
        refine (inherit_translated hwf h (some s) (inherit_impl hwf h s e)).bind fun v => ?_
        split
        · exact inherit_loop e f (i + 1)
        · exact .refl _

theorem inherit_send (e : Event) : Le (sendEvent P e) (sendEvent (P.relist r) e) := by
  unfold sendEvent
  show Le _ (withTrig _ (guardTerm (P.recast r P.react P.relaxed P.translate) _ >>= _))
  rw [Recast.guardTerm]
  refine Le.withTrig _ (Le.bind (Le.guardTerm P ((Le.refl _).bind fun m => ?_)) fun _ => .refl _)
  split
  · exact .refl _
  · exact inherit_loop hwf h e _ 0

theorem inherit_dispatch (e : Event) : Le (dispatch P e) (dispatch (P.relist r) e) :=
  Le.bind (inherit_send hwf h e).onThrow fun _ => .refl _

theorem inherit_queued : ∀ k, Le (processQueued P k) (processQueued (P.relist r) k)
  | 0 => .refl _
  | k + 1 => by
    unfold processQueued
    refine (Le.refl _).bind fun m => ?_
    cases m.evq with
    | nil => exact .refl _
    | cons e q => exact (Le.refl _).bind fun _ => (inherit_dispatch hwf h e).bind fun _ => inherit_queued k

theorem inherit_terminate : Le (terminate P) (terminate (P.relist r)) := by
  unfold terminate
  have h1 : terminateMachine (P.relist r) true = terminateMachine P true := Recast.terminateMachine P r P.react P.relaxed P.translate true
  have h2 : ∀ x : M W RR, guardTerm (P.relist r) x = guardTerm P x := Recast.guardTerm P r P.react P.relaxed P.translate
  rw [h1, h2]
  exact Le.bind (Le.withTrig _ (Le.guardTerm P (inherit_translated hwf h none (.refl _)))) fun _ => .refl _

theorem inherit_construct (k : Nat) : Le (construct P k) (construct (P.relist r) k) := by
  unfold construct
  have h1 : initialConstruct (P.relist r) = initialConstruct P := Recast.initialConstruct P r P.react P.relaxed P.translate
  have h2 : ∀ x : M W RR, guardTerm (P.relist r) x = guardTerm P x := Recast.guardTerm P r P.react P.relaxed P.translate
  rw [h1, h2]
  exact Le.bind (Le.withTrig _ (Le.guardTerm P (inherit_translated hwf h none (.refl _)))) fun _ => inherit_queued hwf h k

theorem inherit_run (c : Call) : Le (c.run P) (c.run (P.relist r)) := by
  cases c with
  | initiate k => exact (inherit_terminate hwf h).bind fun _ => inherit_construct hwf h k
  | terminate => exact (inherit_terminate hwf h).bind fun _ => .refl _
  | process e k => exact (Le.refl _).bind fun _ => (inherit_dispatch hwf h e).bind fun _ => inherit_queued hwf h k
  | post e => exact .refl _
  | clearShallow k => exact .refl _
  | clearDeep k => exact .refl _

include hok

/-- **C73.** In every reachable state every call does exactly the same with both lists of reactions. -/
theorem C73_call {m : Mach W} (hm : Reach P m) (c : Call) : (c.legal (P.relist r) m ↔ c.legal P m) ∧ (c.legal P m → c.run (P.relist r) m = c.run P m) := by
  have hleg : c.legal (P.relist r) m ↔ c.legal P m := by
    cases c with
    | initiate k =>
      have h1 : SC.terminate (P.relist r) m = SC.terminate P m := by
        rcases inherit_terminate hwf h m with ⟨g, hg⟩ | h1
        · refine absurd ?_ (C01_call_is_safe hwf hok hm .terminate trivial g)
          show M.bnd (SC.terminate P) _ m = _
          unfold M.bnd
          rw [hg]
        · exact h1.symm
      unfold Call.legal
      rw [h1]
    | terminate => exact Iff.rfl
    | process e k => exact Iff.rfl
    | post e => exact Iff.rfl
    | clearShallow k => exact Iff.rfl
    | clearDeep k => exact Iff.rfl
  refine ⟨hleg, fun hl => ?_⟩
  rcases inherit_run hwf h c m with ⟨g, hg⟩ | h1
  · exact absurd hg (C01_call_is_safe hwf hok hm c hl g)
  · exact h1.symm

/-- **C73.** A client can do the same with both machines, with the same results. -/
theorem C73_sessions (w : W) (l : List (ClientStep W)) (m : Mach W) : Session (P.relist r) w l m ↔ Session P w l m := by
  constructor
  · intro h1
    induction h1 with
    | new => exact .new
    | @returns l m m' v c _ h2 hr ih =>
      obtain ⟨h3, h4⟩ := C73_call hwf hok h (ih.reach.world v) c
      exact .returns ih (h3.1 h2) ((h4 (h3.1 h2)).symm.trans hr)
    | @throws l m m' x v c _ h2 hr ih =>
      obtain ⟨h3, h4⟩ := C73_call hwf hok h (ih.reach.world v) c
      exact .throws ih (h3.1 h2) ((h4 (h3.1 h2)).symm.trans hr)
  · intro h1
    induction h1 with
    | new => exact .new
    | @returns l m m' v c h0 h2 hr ih =>
      obtain ⟨h3, h4⟩ := C73_call hwf hok h (h0.reach.world v) c
      exact .returns ih (h3.2 h2) ((h4 h2).trans hr)
    | @throws l m m' x v c h0 h2 hr ih =>
      obtain ⟨h3, h4⟩ := C73_call hwf hok h (h0.reach.world v) c
      exact .throws ih (h3.2 h2) ((h4 h2).trans hr)

end

end SC

namespace SC.Ex
open Spec

/-- G (6) gets the transition of A (0) to I (8) for event 5 and the in-state reaction of F (5) for event 10. -/
def lower (s : Sid) : List Reaction :=
  if s = 6 then ⟨some 4, .transition ⟨.plain, 7⟩ none⟩ :: [⟨some 10, .inState (some 2)⟩, ⟨some 5, .transition ⟨.plain, 8⟩ none⟩] else prog.reactions s

theorem lower_inherits : Inherits prog lower := by
  intro s ty
  by_cases hs : s = 6
  · subst hs
    have h6 : prog.reactions 6 = [⟨some 4, .transition ⟨.plain, 7⟩ none⟩] := rfl
    have hl : lower 6 = [⟨some 4, .transition ⟨.plain, 7⟩ none⟩, ⟨some 10, .inState (some 2)⟩, ⟨some 5, .transition ⟨.plain, 8⟩ none⟩] := rfl
    by_cases h1 : ty = 10
    · subst h1
      exact .inr ⟨5, ⟨some 10, .inState (some 2)⟩, ⟨some 10, .inState (some 2)⟩, by decide, .direct (by decide) rfl, by decide, trivial, by decide, rfl⟩
    · by_cases h2 : ty = 5
      · subst h2
        refine .inr ⟨0, ⟨some 5, .transition ⟨.plain, 8⟩ none⟩, ⟨some 5, .transition ⟨.plain, 8⟩ none⟩, by decide,
          .step (by decide) (p := 5) rfl (.step (by decide) (p := 4) rfl (.direct (by decide) rfl)), by decide, ⟨?_, fun h => by cases h⟩, by decide, rfl⟩
        rintro ⟨p, hp, _⟩
        cases hp
      · left
        rw [h6, hl]
        simp only [firstFor]
        have h1' : ¬ (10 = ty) := fun h => h1 h.symm
        have h2' : ¬ (5 = ty) := fun h => h2 h.symm
        simp [h1', h2']
  · left
    unfold lower
    rw [if_neg hs]

/-- The calls of user code after the last event. -/
def lastCalls (P : Prog Nat) (l : List (Nat × Call)) (e : Event) : List Obs := match scenario P l (Mach.fresh 0) with
  | none => []
  | some m => match processEvent P e 5 m with
    | .ok _ m' => (m'.trace.drop m.trace.length).map (·.2)
    | _ => []

/-- Both reactions are executed, with the same effects. -/
example : lastCalls prog [(0, .initiate 0)] ⟨5, 0⟩ = lastCalls (prog.relist lower) [(0, .initiate 0)] ⟨5, 0⟩ ∧ lastCalls prog [(0, .initiate 0)] ⟨5, 0⟩ ≠ [] ∧
    lastCalls (prog.relist lower) [(0, .initiate 0)] ⟨10, 0⟩ = [.act 2] := by decide +kernel

example (w : Nat) (l : List (ClientStep Nat)) (m : Mach Nat) : Session (prog.relist lower) w l m ↔ Session prog w l m := C73_sessions wf contract lower_inherits w l m

/-- The condition on the destination is needed. A transition of F (5) to its inner state H (7) leaves F; the same transition of G (6) does not. -/
def inwards (s : Sid) : List Reaction := if s = 5 then [⟨some 30, .transition ⟨.plain, 7⟩ none⟩] else prog.reactions s
def inwardsLow (s : Sid) : List Reaction := if s = 6 then [⟨some 30, .transition ⟨.plain, 7⟩ none⟩] else inwards s

example : lastCalls (prog.relist inwards) [(0, .initiate 0)] ⟨30, 0⟩ = [.exit 6, .destroy 6, .exit 5, .destroy 5, .enter 5, .enter 7] ∧
    lastCalls (prog.relist inwardsLow) [(0, .initiate 0)] ⟨30, 0⟩ = [.exit 6, .destroy 6, .enter 7] := by decide +kernel

end SC.Ex
