import Verif.Only
import Verif.Props.Inherit
/-!
# C74: which exception translators are equivalent

A translator matters only for exceptions that states and allocations can raise, and translating an exception to an event that no state reacts to is the same as not translating it.
-/

namespace SC
open Spec
variable {W α β : Type}

/-- `P` with the exception translator `t`. -/
def Prog.withTranslator (P : Prog W) (t : Exc → Option Event) : Prog W := { P with translate := t }

namespace Spec

/-- The exception is not translated, or to an event that no state reacts to. -/
def Futile (P : Prog W) (o : Option Event) : Prop := ∀ ev, o = some ev → ∀ s r, r ∈ P.reactions s → r.ev ≠ none ∧ r.ev ≠ some ev.ty

/-- Each exception that can be raised is translated to the same event, or neither translation has a chance. -/
def SameTranslations (P : Prog W) (t : Exc → Option Event) : Prop := ∀ x, CanRaise P x → t x = P.translate x ∨ Futile P (t x) ∧ Futile P (P.translate x)

end Spec

/-! ## Programs that do the same unless the first one faults, up to a flag that the clean-up after an exception sets anyway -/

def LeT (x y : M W α) : Prop := ∀ m, (∃ g, x m = .fault g) ∨ x m = y m ∨
  ∃ e n n', x m = .thrown e n ∧ y m = .thrown e n' ∧ { n with fullExit := true } = { n' with fullExit := true }

theorem LeT.refl (x : M W α) : LeT x x := fun _ => .inr (.inl rfl)

theorem LeT.bind {x y : M W α} {f k : α → M W β} (h : LeT x y) (hf : ∀ a, LeT (f a) (k a)) : LeT (x >>= f) (y >>= k) := by
  intro m
  show (∃ g, M.bnd x f m = .fault g) ∨ M.bnd x f m = M.bnd y k m ∨ ∃ e n n', M.bnd x f m = .thrown e n ∧ M.bnd y k m = .thrown e n' ∧ _
  unfold M.bnd
  rcases h m with ⟨g, h⟩ | h | ⟨e, n, n', h1, h2, h3⟩
  · rw [h]; exact .inl ⟨g, rfl⟩
  · rw [← h]
    cases x m with
    | ok a m' => exact hf a m'
    | thrown e m' => exact .inr (.inl rfl)
    | fault g => exact .inl ⟨g, rfl⟩
  · rw [h1, h2]; exact .inr (.inr ⟨e, n, n', rfl, rfl, h3⟩)

theorem terminateMachine_flag (P : Prog W) (b : Bool) {n n' : Mach W} (h : { n with fullExit := true } = { n' with fullExit := true }) :
    terminateMachine P b n = terminateMachine P b n' := by
  have key : ∀ m : Mach W, terminateMachine P b m = (do
      let m ← M.get
      (match m.outermost with
        | none => pure ()
        | some s => terminateState P s b)
      clearAll : M W Unit) { m with fullExit := true } := fun m => rfl
  rw [key n, key n', h]

theorem LeT.guardTerm (P : Prog W) {x y : M W α} (h : LeT x y) : Le (guardTerm P x) (guardTerm P y) := by
  intro m
  unfold SC.guardTerm
  rcases h m with ⟨g, h⟩ | h | ⟨e, n, n', h1, h2, h3⟩
  · rw [h]; exact .inl ⟨g, rfl⟩
  · rw [h]; exact .inr rfl
  · rw [h1, h2]
    simp only
    rw [terminateMachine_flag P false h3]
    exact .inr rfl

theorem bind_fault {x : M W α} {f : α → M W β} {g : Fault} {m : Mach W} (h : x m = .fault g) : (x >>= f) m = .fault g := by
  show M.bnd x f m = _
  unfold M.bnd
  rw [h]

/-! ## Events without reactions -/

section
variable {P : Prog W}

theorem localReact_futile {s : Sid} {e : Event} : ∀ {l : List Reaction}, (∀ r ∈ l, r.ev ≠ none ∧ r.ev ≠ some e.ty) → localReact P s e l = pure .forward
  | [], _ => rfl
  | r :: l, h => by
    have hr := h r List.mem_cons_self
    have h1 : reactOne P s e r = pure .noReaction := by
      unfold reactOne
      rw [if_neg fun h => h.elim hr.1 hr.2]
    have ih := localReact_futile (s := s) (l := l) fun r hr => h r (List.mem_cons_of_mem _ hr)
    unfold localReact
    rw [h1, ih]
    rfl

theorem reactF_futile {e : Event} (h : ∀ s r, r ∈ P.reactions s → r.ev ≠ none ∧ r.ev ≠ some e.ty) (m : Mach W) :
    ∀ k s, (∃ g, reactF P k s e m = .fault g) ∨ reactF P k s e m = .ok .forward m
  | 0, _ => .inl ⟨_, rfl⟩
  | k + 1, s => by
    cases ho : m.heap s with
    | none => exact .inl (reactF_gone ho _)
    | some o =>
      have hg : getObj s m = .ok o m := by unfold getObj; rw [ho]
      have h2 : reactF P (k + 1) s e m = (getObj s >>= fun _ => localReact P s e (P.reactions s) >>= fun x =>
          if x = .forward then getObj s >>= fun o => if o.ctxSet then (match P.parent s with | none => pure .forward | some p => reactF P k p e) else M.fault .nullDeref
          else pure x) m := rfl
      rw [h2, bind_at hg, localReact_futile (h s), bind_at (x := (pure RR.forward : M W RR)) (m := m) (m' := m) rfl, if_pos rfl, bind_at hg]
      cases o.ctxSet with
      | false => exact .inl ⟨_, rfl⟩
      | true =>
        cases P.parent s with
        | none => exact .inr rfl
        | some p => exact reactF_futile h m k p

/-- An exception event that no state reacts to: the original exception goes on. -/
theorem handle_futile {ev : Event} (h : ∀ s r, r ∈ P.reactions s → r.ev ≠ none ∧ r.ev ≠ some ev.ty) (c : Option Sid) (x : Exc) (m : Mach W) :
    (∃ g, handleException P c ev x m = .fault g) ∨ handleException P c ev x m = .thrown x m ∨ handleException P c ev x m = .thrown x { m with fullExit := true } := by
  have h0 : handleException P c ev x m = (if m.terminated then M.throw x else match m.handler c with
    | none => M.fault .assertFail
    | some h => withTrig (some ev) do
      M.modify fun m => { m with fullExit := false }
      let r ← reactImpl P h ev
      M.modify fun m => { m with fullExit := true }
      let m ← M.get
      if r ≠ .discard ∨ m.pOU ≠ none then M.throw x
      else pure .discard : M W RR) m := rfl
  rw [h0]
  cases m.terminated with
  | true => exact .inr (.inl rfl)
  | false =>
    cases m.handler c with
    | none => exact .inl ⟨_, rfl⟩
    | some q =>
      simp only [Bool.false_eq_true, if_false]
      unfold withTrig
      rw [bind_at (x := M.modify fun m : Mach W => { m with fullExit := false }) (m := { m with trig := some ev }) (m' := { m with trig := some ev, fullExit := false }) rfl]
      rcases reactF_futile h { m with trig := some ev, fullExit := false } (q + 1) q with ⟨g, hg⟩ | hg
      · left
        refine ⟨g, ?_⟩
        rw [bind_fault (x := reactImpl P q ev) hg]
      · right; right
        rw [bind_at (x := reactImpl P q ev) hg]
        rfl

/-! ## Equivalent translators -/

variable {t : Exc → Option Event}

theorem retr_transit (s : Sid) (d : Target) (a : Option Nat) : transit (P.withTranslator t) s d a = transit P s d a := Recast.transit P P.reactions P.react t s d a

theorem retr_one (s : Sid) (e : Event) (x : Reaction) : reactOne (P.withTranslator t) s e x = reactOne P s e x := by
  show reactOne (P.recast P.reactions P.react P.relaxed t) s e x = reactOne P s e x
  unfold reactOne customReact
  simp only [Recast.transit, Recast.runAction, Recast.terminateReaction]
  rfl

theorem retr_local (s : Sid) (e : Event) : ∀ l, localReact (P.withTranslator t) s e l = localReact P s e l
  | [] => rfl
  | r :: l => by
    unfold localReact
    rw [retr_one, retr_local s e l]

theorem retr_reactF (e : Event) : ∀ k s, reactF (P.withTranslator t) k s e = reactF P k s e
  | 0, _ => rfl
  | k + 1, s => by
    have ih := retr_reactF e k
    unfold reactF
    rw [retr_local]
    simp only [ih]
    rfl

theorem retr_impl (s : Sid) (e : Event) : reactImpl (P.withTranslator t) s e = reactImpl P s e := retr_reactF e _ s

theorem retr_handle (c : Option Sid) (ev : Event) (x : Exc) : handleException (P.withTranslator t) c ev x = handleException P c ev x := by
  unfold handleException
  simp only [retr_impl]

theorem retr_guard (x : M W α) : guardTerm (P.withTranslator t) x = guardTerm P x := Recast.guardTerm P P.reactions P.react P.relaxed t x
theorem retr_end (b : Bool) : terminateMachine (P.withTranslator t) b = terminateMachine P b := Recast.terminateMachine P P.reactions P.react P.relaxed t b
theorem retr_init : initialConstruct (P.withTranslator t) = initialConstruct P := Recast.initialConstruct P P.reactions P.react P.relaxed t

/-- `t` leaves out useless translations. -/
def Leaner (P : Prog W) (t : Exc → Option Event) : Prop := ∀ x, CanRaise P x → t x = P.translate x ∨ t x = none ∧ Futile P (P.translate x)

variable (h : Leaner P t)
include h

theorem retr_translated (c : Option Sid) {x : M W RR} (hx : Only (CanRaise P) x) : LeT (translated P c x) (translated (P.withTranslator t) c x) := by
  intro m
  unfold translated M.tryCatch
  cases h1 : x m with
  | ok a n => exact .inr (.inl rfl)
  | fault g => exact .inl ⟨g, rfl⟩
  | thrown e n =>
    simp only
    show _ ∨ _ = (match t e with | none => M.throw e | some ev => handleException (P.withTranslator t) c ev e) n ∨ _
    simp only [retr_handle]
    rcases h e (hx _ _ _ h1) with h2 | ⟨h2, h3⟩
    · rw [show (P.withTranslator t).translate e = P.translate e from h2, h2]
      exact .inr (.inl rfl)
    · rw [show (P.withTranslator t).translate e = none from h2, h2]
      cases h4 : P.translate e with
      | none => exact .inr (.inl rfl)
      | some ev =>
        rcases handle_futile (h3 ev h4) c e n with h5 | h5 | h5
        · exact .inl h5
        · right; right; exact ⟨e, n, n, h5, rfl, rfl⟩
        · right; right; exact ⟨e, _, n, h5, rfl, rfl⟩

theorem retr_loop (e : Event) : ∀ f i, LeT (sendLoop P e f i) (sendLoop (P.withTranslator t) e f i)
  | 0, _ => .refl _
  | f + 1, i => by
    unfold sendLoop
    refine (LeT.refl _).bind fun m => ?_
    split
    · exact .refl _
    · cases m.slot i with
      | none => exact .refl _
      | some s =>
        simp only [retr_impl]
        refine (retr_translated h (some s) (Only.reactImpl (fun _ h => h) s e)).bind fun v => ?_
        split
        · exact retr_loop e f (i + 1)
        · exact .refl _

theorem retr_send (e : Event) : Le (sendEvent P e) (sendEvent (P.withTranslator t) e) := by
  unfold sendEvent
  rw [retr_guard]
  refine Le.withTrig _ (Le.bind (LeT.guardTerm P ((LeT.refl _).bind fun m => ?_)) fun _ => .refl _)
  split
  · exact .refl _
  · exact retr_loop h e _ 0

theorem retr_dispatch (e : Event) : Le (dispatch P e) (dispatch (P.withTranslator t) e) :=
  Le.bind (retr_send h e).onThrow fun _ => .refl _

theorem retr_queued : ∀ k, Le (processQueued P k) (processQueued (P.withTranslator t) k)
  | 0 => .refl _
  | k + 1 => by
    unfold processQueued
    refine (Le.refl _).bind fun m => ?_
    cases m.evq with
    | nil => exact .refl _
    | cons e q => exact (Le.refl _).bind fun _ => (retr_dispatch h e).bind fun _ => retr_queued k

theorem retr_terminate : Le (terminate P) (terminate (P.withTranslator t)) := by
  unfold terminate
  rw [retr_end, retr_guard]
  exact Le.bind (Le.withTrig _ (LeT.guardTerm P (retr_translated h none
    (Only.bind (Only.terminateMachine (fun _ h => h) _) fun _ => Only.pure _)))) fun _ => .refl _

theorem retr_construct (k : Nat) : Le (construct P k) (construct (P.withTranslator t) k) := by
  unfold construct
  rw [retr_init, retr_guard]
  exact Le.bind (Le.withTrig _ (LeT.guardTerm P (retr_translated h none
    (Only.bind (Only.initialConstruct (fun _ h => h)) fun _ => Only.pure _)))) fun _ => retr_queued h k

theorem retr_run (c : Call) : Le (c.run P) (c.run (P.withTranslator t)) := by
  cases c with
  | initiate k => exact (retr_terminate h).bind fun _ => retr_construct h k
  | terminate => exact (retr_terminate h).bind fun _ => .refl _
  | process e k => exact (Le.refl _).bind fun _ => (retr_dispatch h e).bind fun _ => retr_queued h k
  | post e => exact .refl _
  | clearShallow k => exact .refl _
  | clearDeep k => exact .refl _

variable (hwf : P.toChart.WF) (hok : Contract P)
include hwf hok

theorem retr_call {m : Mach W} (hm : Reach P m) (c : Call) :
    (c.legal (P.withTranslator t) m ↔ c.legal P m) ∧ (c.legal P m → c.run (P.withTranslator t) m = c.run P m) := by
  have hleg : c.legal (P.withTranslator t) m ↔ c.legal P m := by
    cases c with
    | initiate k =>
      have h1 : SC.terminate (P.withTranslator t) m = SC.terminate P m := by
        rcases retr_terminate h m with ⟨g, hg⟩ | h1
        · refine absurd ?_ (C01_call_is_safe hwf hok hm .terminate trivial g)
          show M.bnd (SC.terminate P) _ m = _
          unfold M.bnd
          rw [hg]
        · exact h1.symm
      unfold Call.legal
      rw [h1]
    | terminate => exact Iff.rfl
    | process e k => exact Iff.rfl
    | post e => exact Iff.rfl
    | clearShallow k => exact Iff.rfl
    | clearDeep k => exact Iff.rfl
  refine ⟨hleg, fun hl => ?_⟩
  rcases retr_run h c m with ⟨g, hg⟩ | h1
  · exact absurd hg (C01_call_is_safe hwf hok hm c hl g)
  · exact h1.symm

theorem retr_reach {m : Mach W} (hm : Reach P m) : Reach (P.withTranslator t) m := by
  induction hm with
  | fresh w => exact .fresh w
  | @returns c m m' hm hl hr ih =>
    obtain ⟨h1, h2⟩ := retr_call h hwf hok hm c
    exact .returns ih (h1.2 hl) ((h2 hl).trans hr)
  | @throws c x m m' hm hl hr ih =>
    obtain ⟨h1, h2⟩ := retr_call h hwf hok hm c
    exact .throws ih (h1.2 hl) ((h2 hl).trans hr)
  | world w _ ih => exact ih.world w

theorem retr_reach' {m : Mach W} (hm : Reach (P.withTranslator t) m) : Reach P m := by
  induction hm with
  | fresh w => exact .fresh w
  | @returns c m m' hm hl hr ih =>
    obtain ⟨h1, h2⟩ := retr_call h hwf hok ih c
    exact .returns ih (h1.1 hl) ((h2 (h1.1 hl)).symm.trans hr)
  | @throws c x m m' hm hl hr ih =>
    obtain ⟨h1, h2⟩ := retr_call h hwf hok ih c
    exact .throws ih (h1.1 hl) ((h2 (h1.1 hl)).symm.trans hr)
  | world w _ ih => exact ih.world w

end

section
variable {P : Prog W} {t : Exc → Option Event}

open Classical in
/-- Useless translations are left out. -/
noncomputable def lean (P : Prog W) (x : Exc) : Option Event := if Futile P (P.translate x) then none else P.translate x

theorem lean_left : Leaner P (lean P) := by
  intro x _
  unfold lean
  split
  · exact .inr ⟨rfl, ‹_›⟩
  · exact .inl rfl

theorem CanRaise.of_translator {x : Exc} (h : CanRaise (P.withTranslator t) x) : CanRaise P x := by
  cases h with
  | ctor h => exact .ctor h
  | exit h => exact .exit h
  | action h => exact .action h
  | react h => exact .react h
  | alloc h1 h2 => exact .alloc h1 h2

theorem lean_right (h : SameTranslations P t) : Leaner (P.withTranslator t) (lean P) := by
  intro x hx
  show lean P x = t x ∨ lean P x = none ∧ Futile P (t x)
  unfold lean
  rcases h x (CanRaise.of_translator hx) with h1 | ⟨h1, h2⟩
  · split
    · exact .inr ⟨rfl, h1 ▸ ‹_›⟩
    · exact .inl h1.symm
  · rw [if_pos h2]
    exact .inr ⟨rfl, h1⟩

variable (hwf : P.toChart.WF) (hok : Contract P) (h : SameTranslations P t)
include hwf hok h

/-- **C74.** In every reachable state every call does exactly the same with both translators. -/
theorem C74_call {m : Mach W} (hm : Reach P m) (c : Call) :
    (c.legal (P.withTranslator t) m ↔ c.legal P m) ∧ (c.legal P m → c.run (P.withTranslator t) m = c.run P m) := by
  have hok' : Contract (P.withTranslator t) := ⟨hok.ctor, hok.react⟩
  have hr : Reach (P.withTranslator (lean P)) m := retr_reach lean_left hwf hok hm
  have hm' : Reach (P.withTranslator t) m := retr_reach' (lean_right h) (P := P.withTranslator t) hwf hok' hr
  obtain ⟨h1, h2⟩ := retr_call lean_left hwf hok hm c
  obtain ⟨h3, h4⟩ := retr_call (lean_right h) (P := P.withTranslator t) hwf hok' hm' c
  exact ⟨h3.symm.trans h1, fun hl => (h4 (h3.1 (h1.2 hl))).symm.trans (h2 hl)⟩

/-- **C74.** A client can do the same with both machines, with the same results. -/
theorem C74_sessions (w : W) (l : List (ClientStep W)) (m : Mach W) : Session (P.withTranslator t) w l m ↔ Session P w l m := by
  constructor
  · intro h1
    induction h1 with
    | new => exact .new
    | @returns l m m' v c _ h2 hr ih =>
      obtain ⟨h3, h4⟩ := C74_call hwf hok h (ih.reach.world v) c
      exact .returns ih (h3.1 h2) ((h4 (h3.1 h2)).symm.trans hr)
    | @throws l m m' x v c _ h2 hr ih =>
      obtain ⟨h3, h4⟩ := C74_call hwf hok h (ih.reach.world v) c
      exact .throws ih (h3.1 h2) ((h4 (h3.1 h2)).symm.trans hr)
  · intro h1
    induction h1 with
    | new => exact .new
    | @returns l m m' v c h0 h2 hr ih =>
      obtain ⟨h3, h4⟩ := C74_call hwf hok h (h0.reach.world v) c
      exact .returns ih (h3.2 h2) ((h4 h2).trans hr)
    | @throws l m m' x v c h0 h2 hr ih =>
      obtain ⟨h3, h4⟩ := C74_call hwf hok h (h0.reach.world v) c
      exact .throws ih (h3.2 h2) ((h4 h2).trans hr)

end

end SC

namespace SC.Ex
open Spec

/-- As in the example, but the exceptions 5 and 7 are translated to events that no state reacts to, and exceptions that are never thrown are translated to an event that makes A (0)
exit. -/
def verbose (x : Exc) : Option Event := if 100 ≤ x then some ⟨9, x⟩ else if x = 5 ∨ x = 7 then some ⟨99, x⟩ else some ⟨5, 0⟩

theorem raised {x : Exc} (h : CanRaise prog x) : 100 ≤ x ∨ x = 5 ∨ x = 7 := by
  cases h with
  | @ctor s v w h =>
    have h : (if w = 1 ∧ s = 3 then some 100 else if w = 7 ∧ s = 4 then some 7 else none) = some x := h
    split at h
    · cases h; exact .inl (Nat.le_refl _)
    · split at h
      · cases h; exact .inr (.inr rfl)
      · cases h
  | @exit s v w h =>
    have h : (if w = 2 ∧ s = 2 then some 101 else if w = 6 ∧ s = 2 then some 5 else none) = some x := h
    split at h
    · cases h; exact .inl (by decide)
    · split at h
      · cases h; exact .inr (.inl rfl)
      · cases h
  | @action a v w h =>
    have h : (if w = 3 then some (102 + a) else none) = some x := h
    split at h
    · cases h; exact .inl (Nat.le_trans (by decide) (Nat.le_add_right 102 a))
    · cases h
  | react h => cases h
  | alloc _ h => cases h

/-- No state reacts to events of type 99. -/
theorem deaf (v : Nat) : Futile prog (some ⟨99, v⟩) := by
  intro ev he s r hr
  cases he
  have key : ∀ s, s < 9 → ∀ r ∈ prog.reactions s, r.ev ≠ none ∧ r.ev ≠ some 99 := by decide
  by_cases hs : s < 9
  · exact key s hs r hr
  · have : prog.reactions s = [] := by
      show chart.reactions s = []
      unfold chart
      simp only
      split <;> first | rfl | omega
    rw [this] at hr
    cases hr

theorem verbose_same : SameTranslations prog verbose := by
  intro x hx
  show verbose x = (if 100 ≤ x then some ⟨9, x⟩ else none) ∨ _ ∧ Futile prog (if 100 ≤ x then some ⟨9, x⟩ else none)
  unfold verbose
  by_cases h1 : 100 ≤ x
  · left; rw [if_pos h1, if_pos h1]
  · right
    rw [if_neg h1, if_neg h1, if_pos ((raised hx).resolve_left h1)]
    exact ⟨deaf x, fun ev h => by cases h⟩

/-- What the last event leads to: the calls of user code and whether `process_event` returns. -/
def lastEnd (P : Prog Nat) (l : List (Nat × Call)) (v : Nat) (e : Event) : List Obs × Option Exc := match scenario P l (Mach.fresh 0) with
  | none => ([], none)
  | some m => match processEvent P e 5 { m with world := v } with
    | .ok _ m' => ((m'.trace.drop m.trace.length).map (·.2), none)
    | .thrown x m' => ((m'.trace.drop m.trace.length).map (·.2), some x)
    | .fault _ => ([], none)

/-- C (2) fails to exit: exception 5 leaves the machine with both translators. -/
example : lastEnd prog [(0, .initiate 0)] 6 ⟨1, 0⟩ = lastEnd (prog.withTranslator verbose) [(0, .initiate 0)] 6 ⟨1, 0⟩ ∧
    (lastEnd prog [(0, .initiate 0)] 6 ⟨1, 0⟩).2 = some 5 ∧ (lastEnd prog [(0, .initiate 0)] 6 ⟨1, 0⟩).1 = [.exitFail 2, .destroy 2, .destroy 6, .destroy 5, .destroy 4, .destroy 1, .destroy 0] := by
  decide +kernel

/-- Exception 101 is handled by the transition of A (0) with both translators. -/
example : lastEnd prog [(0, .initiate 0)] 2 ⟨1, 0⟩ = lastEnd (prog.withTranslator verbose) [(0, .initiate 0)] 2 ⟨1, 0⟩ ∧ (lastEnd prog [(0, .initiate 0)] 2 ⟨1, 0⟩).2 = none := by
  decide +kernel

example (w : Nat) (l : List (ClientStep Nat)) (m : Mach Nat) : Session (prog.withTranslator verbose) w l m ↔ Session prog w l m := C74_sessions wf contract verbose_same w l m

/-- A translation of exception 5 to an event that a state reacts to matters. -/
example : (lastEnd (prog.withTranslator fun x => some ⟨9, x⟩) [(0, .initiate 0)] 6 ⟨1, 0⟩).2 = none := by decide +kernel

end SC.Ex
