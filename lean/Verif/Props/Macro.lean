import Verif.Props.Custom
import Verif.Props.Late
/-!
# C71: BOOST_STATECHART_RELAX_TRANSITION_CONTEXT

Defining the macro allows more transition actions. It does not change what machines do that are possible without it.
-/

namespace SC
open Spec Chart
variable {W : Type}

/-- `P` compiled with BOOST_STATECHART_RELAX_TRANSITION_CONTEXT defined (`b`) or not. -/
def Prog.withMacro (P : Prog W) (b : Bool) : Prog W := { P with relaxed := b }

section
variable {P : Prog W} (hwf : P.toChart.WF) (hc : Contract P) (ha : Aligned P.toChart P.decides)

include hwf in
/-- The action is not called before all states are left. -/
theorem uml_le {s : Sid} {d : Target} {a : Option Nat} (hs : s < P.n) (hd : d.st < P.n) (hf : Fits P.toChart s d a) :
    (P.ctxList s).idxOf (P.commonCtx s d.st) + 1 ≤ (P.actionCtxs s).idxOf (P.ctxOf a) := by
  have hcm := (Chart.commonCtx_spec hwf hs hd).1
  by_cases h : (P.ctxList s).idxOf (P.commonCtx s d.st) + 1 ≤ (P.actionCtxs s).idxOf (P.ctxOf a)
  · exact h
  exfalso
  obtain ⟨q, t, h1, h2, h3, h4⟩ := ctx_inside hwf s hs hcm ((P.actionCtxs s).idxOf (P.ctxOf a)) (by omega)
  have hlt : (P.actionCtxs s).idxOf (P.ctxOf a) < (P.actionCtxs s).length := by
    rw [List.getElem?_eq_some_iff] at h1; exact h1.1
  rw [List.getElem?_eq_getElem hlt, List.getElem_idxOf] at h1
  cases h1' : P.ctxOf a with
  | none => rw [h1'] at h1; cases h1
  | some x =>
    rw [h1'] at h1; cases h1
    have hx : a.bind P.actCtx = some q := by
      cases a with
      | none => cases h1'
      | some a => exact h1'
    obtain ⟨p, hp, hb⟩ := hf _ q (commonCtx_common hwf hs hd) hx
    rw [hp] at h3
    have hq := Below.bound hwf hs h2
    have ht := Below.bound hwf hq h4
    have e1 := Below.le hwf hq h4
    have e2 := Below.le hwf (Chart.parent_bound hwf ht h3) hb
    have e3 := hwf.parent_lt ht h3
    omega

theorem M.bind_assoc' {α β γ : Type} (x : M W α) (f : α → M W β) (g : β → M W γ) : (x >>= f) >>= g = x >>= fun a => f a >>= g := by
  funext m
  show M.bnd (M.bnd x f) g m = M.bnd x (fun a => M.bnd (f a) g) m
  unfold M.bnd
  cases x m <;> rfl

include hwf in
theorem relaxedExit_aligned {s t : Sid} {d : Target} {a : Option Nat} (hs : s < P.n) (hd : d.st < P.n) (hf : Fits P.toChart s d a) :
    relaxedExit P s t (P.commonCtx s d.st) (P.ctxOf a) a = (do
      terminateInTransit P t
      checkCtx (P.commonCtx s d.st)
      runAction P a) := by
  have hu := uml_le hwf hs hd hf
  have hcm := (Chart.commonCtx_spec hwf hs hd).1
  have hreal : (P.actionCtxs s).getD (min ((P.actionCtxs s).idxOf (P.ctxOf a)) ((P.ctxList s).idxOf (P.commonCtx s d.st) + 1)) none = P.commonCtx s d.st := by
    rw [Nat.min_eq_right hu]
    show (some s :: P.ctxList s).getD _ none = _
    rw [List.getD_cons_succ, List.getD_eq_getElem?_getD, List.getElem?_eq_getElem (List.idxOf_lt_length_of_mem hcm), List.getElem_idxOf]
    rfl
  unfold relaxedExit
  simp only [hreal]
  rw [if_neg (by omega), if_pos hu]

include hwf in
theorem transit_aligned {s : Sid} {d : Target} {a : Option Nat} (hs : s < P.n) (hd : d.st < P.n) (hf : Fits P.toChart s d a) :
    transitRelaxed P s d (P.ctxOf a) a = transitDefault P s d a := by
  unfold transitRelaxed transitDefault
  simp only [relaxedExit_aligned hwf hs hd hf, terminateInTransit, M.bind_assoc']

include hwf in
theorem macro_transit (b : Bool) {s : Sid} {d : Target} {a : Option Nat} (hs : s < P.n) (hd : d.st < P.n) (hf : Fits P.toChart s d a) :
    transit (P.withMacro b) s d a = transit P s d a := by
  show transit (P.recast P.reactions P.react b P.translate) s d a = _
  rw [Recast.transit', transit_aligned hwf hs hd hf]
  unfold transit
  rw [transit_aligned hwf hs hd hf]
  simp only [ite_self]

include hwf hc ha in
theorem macro_custom (b : Bool) (s : Sid) (id : Nat) (e : Event) : customReact (P.withMacro b) s id e = customReact P s id e := by
  funext m
  have key : ∀ d a, (P.react s id e m.view m.world).2 = .transit d a → (P.react s id e m.view m.world).1.throws = none →
      transit (P.withMacro b) s d a = transit P s d a := by
    intro d a h1 h2
    obtain ⟨hs, ⟨hd, _⟩, _⟩ := transitOK_spec (hc.react s id e _ _ d a h1)
    exact macro_transit hwf b hs hd (ha.react s id e d a ⟨_, _, h1, h2⟩)
  show M.bnd (runUser (fun v w => (P.react s id e v w).1) [.react s id] [.react s id]) (fun _ => (match (P.react s id e m.view m.world).2 with
      | .discard => pure RR.discard
      | .forward => pure RR.forward
      | .defer => deferEvent s >>= fun _ => pure RR.defer
      | .transit dest a => transit (P.withMacro b) s dest a >>= fun _ => pure RR.discard
      | .terminate => terminateReaction (P.withMacro b) s >>= fun _ => pure RR.discard)) m =
    M.bnd (runUser (fun v w => (P.react s id e v w).1) [.react s id] [.react s id]) (fun _ => (match (P.react s id e m.view m.world).2 with
      | .discard => pure RR.discard
      | .forward => pure RR.forward
      | .defer => deferEvent s >>= fun _ => pure RR.defer
      | .transit dest a => transit P s dest a >>= fun _ => pure RR.discard
      | .terminate => terminateReaction P s >>= fun _ => pure RR.discard)) m
  unfold M.bnd runUser
  cases ht : (P.react s id e m.view m.world).1.throws with
  | some x => simp only [ht]
  | none =>
    simp only [ht]
    cases hd : (P.react s id e m.view m.world).2 with
    | discard => rfl
    | forward => rfl
    | defer => rfl
    | transit d a => simp only [key d a hd ht]
    | terminate =>
      have : terminateReaction (P.withMacro b) s = terminateReaction P s := Recast.terminateReaction P P.reactions P.react b P.translate s
      simp only [this]

variable (hl : ∀ s r, r ∈ P.reactions s → s < P.n) (b : Bool)

include hwf hc ha in
theorem macro_one (s : Sid) (e : Event) {r : Reaction} (hr : r ∈ P.reactions s) (hs : s < P.n) : reactOne (P.withMacro b) s e r = reactOne P s e r := by
  unfold reactOne
  cases hk : r.kind with
  | transition d a =>
    obtain ⟨_, ⟨hd, _⟩, _⟩ := transitOK_spec (hwf.trans_ok hs hr hk)
    simp only [macro_transit hwf b hs hd (ha.declared s r d a hr hk)]
  | inState a =>
    have : ∀ a, runAction (P.withMacro b) a = runAction P a := Recast.runAction P P.reactions P.react b P.translate
    simp only [this]
  | termination =>
    have : terminateReaction (P.withMacro b) s = terminateReaction P s := Recast.terminateReaction P P.reactions P.react b P.translate s
    simp only [this]
  | deferral => rfl
  | custom id => simp only [macro_custom hwf hc ha]

include hwf hc ha hl

theorem macro_local (s : Sid) (e : Event) : ∀ l, (∀ r ∈ l, r ∈ P.reactions s) → localReact (P.withMacro b) s e l = localReact P s e l
  | [], _ => rfl
  | r :: l, h => by
    have ih := macro_local s e l fun r hr => h r (List.mem_cons_of_mem _ hr)
    have h1 := h r List.mem_cons_self
    unfold localReact
    rw [macro_one hwf hc ha b s e h1 (hl s r h1), ih]

theorem macro_reactF : ∀ f s e, reactF (P.withMacro b) f s e = reactF P f s e
  | 0, _, _ => rfl
  | f + 1, s, e => by
    have ih := macro_reactF f
    unfold reactF
    have h1 := macro_local hwf hc ha hl b s e (P.reactions s) fun _ h => h
    show (getObj s >>= fun _ => localReact (P.withMacro b) s e (P.reactions s) >>= fun x => _) = _
    rw [h1]
    simp only [ih]
    rfl

theorem macro_reactImpl (s : Sid) (e : Event) : reactImpl (P.withMacro b) s e = reactImpl P s e := macro_reactF hwf hc ha hl b _ s e

theorem macro_handle (c : Option Sid) (ev : Event) (x : Exc) : handleException (P.withMacro b) c ev x = handleException P c ev x := by
  unfold handleException
  simp only [macro_reactImpl hwf hc ha hl]

theorem macro_translated (c : Option Sid) (x : M W RR) : translated (P.withMacro b) c x = translated P c x := by
  unfold translated
  simp only [macro_handle hwf hc ha hl]
  rfl

theorem macro_sendLoop (e : Event) : ∀ f k, sendLoop (P.withMacro b) e f k = sendLoop P e f k
  | 0, _ => rfl
  | f + 1, k => by
    have ih := macro_sendLoop e f
    unfold sendLoop
    simp only [macro_reactImpl hwf hc ha hl, macro_translated hwf hc ha hl, ih]

theorem macro_send (e : Event) : sendEvent (P.withMacro b) e = sendEvent P e := by
  unfold sendEvent
  simp only [macro_sendLoop hwf hc ha hl]
  show withTrig _ (guardTerm (P.recast P.reactions P.react b P.translate) _ >>= _) = _
  rw [Recast.guardTerm]
  rfl

theorem macro_dispatch (e : Event) : dispatch (P.withMacro b) e = dispatch P e := by
  unfold dispatch
  simp only [macro_send hwf hc ha hl]
  rfl

theorem macro_queued : ∀ k, processQueued (P.withMacro b) k = processQueued P k
  | 0 => rfl
  | k + 1 => by
    have ih := macro_queued k
    unfold processQueued
    simp only [macro_dispatch hwf hc ha hl, ih]

theorem macro_terminate : terminate (P.withMacro b) = terminate P := by
  have h1 : ∀ f, terminateMachine (P.withMacro b) f = terminateMachine P f := Recast.terminateMachine P P.reactions P.react b P.translate
  have h2 : ∀ x : M W RR, guardTerm (P.withMacro b) x = guardTerm P x := Recast.guardTerm P P.reactions P.react b P.translate
  unfold terminate
  simp only [macro_translated hwf hc ha hl, h1, h2]

theorem macro_run (c : Call) : c.run (P.withMacro b) = c.run P := by
  cases c with
  | initiate k =>
    have h1 : initialConstruct (P.withMacro b) = initialConstruct P := Recast.initialConstruct P P.reactions P.react b P.translate
    have h2 : ∀ x : M W RR, guardTerm (P.withMacro b) x = guardTerm P x := Recast.guardTerm P P.reactions P.react b P.translate
    show initiate (P.withMacro b) k = initiate P k
    unfold initiate construct
    simp only [macro_terminate hwf hc ha hl, macro_translated hwf hc ha hl, macro_queued hwf hc ha hl, h1, h2]
  | terminate =>
    show (terminate (P.withMacro b) >>= fun _ => _) = _
    rw [macro_terminate hwf hc ha hl]; rfl
  | process e k =>
    show processEvent (P.withMacro b) e k = processEvent P e k
    unfold processEvent
    simp only [macro_dispatch hwf hc ha hl, macro_queued hwf hc ha hl]
  | post e => rfl
  | clearShallow k => rfl
  | clearDeep k => rfl

theorem macro_legal (m : Mach W) (c : Call) : c.legal (P.withMacro b) m ↔ c.legal P m := by
  cases c with
  | initiate k => unfold Call.legal; rw [macro_terminate hwf hc ha hl]
  | terminate => exact Iff.rfl
  | process e k => exact Iff.rfl
  | post e => exact Iff.rfl
  | clearShallow k => exact Iff.rfl
  | clearDeep k => exact Iff.rfl

/-- **C71.** If all transition actions are members of the innermost common context or of a context outside it, then defining BOOST_STATECHART_RELAX_TRANSITION_CONTEXT changes
nothing: every call has the same outcome (result, exception, machine afterwards, user code called) in any state of the machine, and so has the destructor. -/
theorem C71_call (c : Call) (m : Mach W) : (c.legal (P.withMacro b) m ↔ c.legal P m) ∧ c.run (P.withMacro b) m = c.run P m ∧ destruct (P.withMacro b) m = destruct P m :=
  ⟨macro_legal hwf hc ha hl b m c, by rw [macro_run hwf hc ha hl], congrFun (Recast.terminateMachine P P.reactions P.react b P.translate false) m⟩

theorem C71_sessions (w : W) (l : List (ClientStep W)) (m : Mach W) : Session (P.withMacro b) w l m ↔ Session P w l m := by
  constructor
  · intro h1
    induction h1 with
    | new => exact .new
    | returns _ h2 hr ih => exact .returns ih ((macro_legal hwf hc ha hl b _ _).1 h2) (by rwa [macro_run hwf hc ha hl] at hr)
    | throws _ h2 hr ih => exact .throws ih ((macro_legal hwf hc ha hl b _ _).1 h2) (by rwa [macro_run hwf hc ha hl] at hr)
  · intro h1
    induction h1 with
    | new => exact .new
    | returns _ h2 hr ih => exact .returns ih ((macro_legal hwf hc ha hl b _ _).2 h2) (by rwa [macro_run hwf hc ha hl])
    | throws _ h2 hr ih => exact .throws ih ((macro_legal hwf hc ha hl b _ _).2 h2) (by rwa [macro_run hwf hc ha hl])

end

end SC

namespace SC.Ex
open Spec

theorem alignedProg_listed : ∀ s r, r ∈ alignedProg.reactions s → s < alignedProg.n := by
  intro s r hr
  have hr' : r ∈ chart.reactions s := hr
  unfold chart at hr'
  simp only at hr'
  split at hr'
  all_goals first | (cases hr'; done) | decide

/-- All hypotheses of C71 are met by a program with an action in a state. -/
example (b : Bool) (c : Call) (m : Mach Nat) : c.run (alignedProg.withMacro b) m = c.run alignedProg m ∧ alignedProg.actCtx 7 = some 1 :=
  ⟨(C71_call alignedProg_wf alignedProg_contract alignedProg_aligned alignedProg_listed b c m).2.1, rfl⟩

/-- `alignedProg` throws and handles an exception while an action of B runs; the macro does not matter. -/
example : ∃ m m' : Mach Nat, Reach alignedProg m ∧ (∃ b, processEvent (alignedProg.withMacro false) ⟨1, 0⟩ 0 m = .ok b m') ∧ m'.xlog = m.xlog ++ [100] ∧
    m'.trace = m.trace ++ (tag (some ⟨1, 0⟩) [.exit 2, .destroy 2, .act 7, .enterFail 3] ++ tag (some ⟨9, 100⟩) [.destroy 6, .destroy 5, .destroy 4, .destroy 1, .destroy 0, .act 1, .enter 8]) := by
  obtain ⟨m, h1, h2⟩ := scenario_ex (P := alignedProg) [(0, .initiate 0)] 1 (fun m => shows true
    (tag (some ⟨1, 0⟩) [.exit 2, .destroy 2, .act 7, .enterFail 3] ++ tag (some ⟨9, 100⟩) [.destroy 6, .destroy 5, .destroy 4, .destroy 1, .destroy 0, .act 1, .enter 8]) [100] m
    (processEvent (alignedProg.withMacro false) ⟨1, 0⟩ 0 m)) (by decide +kernel)
  obtain ⟨m', h3, h4, ⟨_, h5⟩ | ⟨h5, _⟩⟩ := of_shows h2
  · exact ⟨m, m', h1, h5, h4, h3⟩
  · cases h5

def orderOf (P : Prog Nat) (m : Mach Nat) : List Obs := match processEvent P ⟨13, 0⟩ 0 m with
  | .ok _ m' => (m'.trace.drop m.trace.length).map (·.2)
  | _ => []

/-- An action of B on the way from C to I: it is called between exits. Without the macro (the program does not compile then, simple_state.hpp 775-777) it would be called after them. -/
example : ∃ m : Mach Nat, Reach relaxedProg m ∧ orderOf relaxedProg m = [.exit 2, .destroy 2, .act 6, .exit 6, .destroy 6, .exit 5, .destroy 5, .exit 4, .destroy 4, .exit 1, .destroy 1, .exit 0, .destroy 0, .enter 8] ∧
    orderOf (relaxedProg.withMacro false) m ≠ orderOf relaxedProg m := by
  obtain ⟨m, h1, h2⟩ := scenario_ex (P := relaxedProg) [(0, .initiate 0)] 0 (fun m =>
    decide (orderOf relaxedProg m = [.exit 2, .destroy 2, .act 6, .exit 6, .destroy 6, .exit 5, .destroy 5, .exit 4, .destroy 4, .exit 1, .destroy 1, .exit 0, .destroy 0, .enter 8]) &&
    decide (orderOf (relaxedProg.withMacro false) m ≠ orderOf relaxedProg m)) (by decide +kernel)
  rw [Bool.and_eq_true, decide_eq_true_eq, decide_eq_true_eq] at h2
  exact ⟨m, h1, h2⟩

end SC.Ex
