import Verif.History
/-!
# Which exceptions are raised (proof infrastructure)

`Mach.xlog` records every exception raised by user code or by an allocation. A library function that returns raised
nothing; a function that throws `x` raised exactly `x` (it catches and replaces nothing).
-/

namespace SC
open Spec Chart
variable {W : Type} {P : Prog W} {m : Mach W}

def excK : KRel W where
  R m m' := m'.xlog = m.xlog
  E x m m' := m'.xlog = m.xlog ++ [x]
  refl _ := rfl
  trans h1 h2 := h2.trans h1
  re h1 h2 := by rw [h2, h1]
  er h1 h2 := by rw [h2, h1]

theorem xlog_cmds (l : List Cmd) : ∀ m : Mach W, (l.foldl Mach.cmd m).xlog = m.xlog := by
  induction l with
  | nil => exact fun _ => rfl
  | cons c l ih => intro m; rw [List.foldl_cons, ih]; cases c <;> rfl

theorem xlog_logs (l : List Obs) : ∀ m : Mach W, (l.foldl Mach.log m).xlog = m.xlog := by
  induction l with
  | nil => exact fun _ => rfl
  | cons c l ih => intro m; rw [List.foldl_cons, ih]; rfl

theorem keeps_runUser_exc {f : View → W → UOut W} {a b : List Obs} : Keeps excK (runUser f a b) := by
  intro m
  unfold KeepsAt runUser
  cases h : (f m.view m.world).throws with
  | none =>
    simp only [h]
    show Mach.xlog (List.foldl _ _ _) = _
    rw [xlog_logs, xlog_cmds]
  | some x =>
    simp only [h]
    show Mach.xlog (List.foldl _ _ _) ++ [x] = _
    rw [xlog_logs, xlog_cmds]

theorem excPrims_core (P : Prog W) : CorePrims excK P where
  core h := h.xlog
  raise _ _ := rfl
  ctor s := by
    intro m
    have := keeps_runUser_exc (f := P.ctor s) (a := [.enter s]) (b := [.enterFail s]) m
    unfold KeepsAt runCtor
    by_cases hc : P.isSimple s = true ∧ (P.ctor s m.view m.world).cmds ≠ []
    · simp [hc]
    · rw [if_neg hc]; exact this
  dtor s := by
    intro m
    show Mach.xlog (List.foldl _ _ _) = _
    rw [xlog_cmds]
  action a := by
    cases a with
    | none => exact Keeps.pure _
    | some a => exact keeps_runUser_exc
  react s id e := keeps_runUser_exc
  relEv := fun _ m => rfl
  hold := fun s m => rfl

theorem excPrims (P : Prog W) : RPrims excK P := (excPrims_core P).rprims

theorem keeps_fullExit_exc (s : Sid) : Keeps excK (fullExitPart P s) :=
  (excPrims P).toPrims.fullExit (fun _ _ => rfl) (fun _ _ _ => rfl) (fun _ _ _ => rfl) (fun _ => keeps_runUser_exc) s

theorem keeps_reactImpl_exc (s : Sid) (e : Event) : Keeps excK (reactImpl P s e) := fun _ =>
  (excPrims P).reactFAt (fun _ _ _ => keeps_fullExit_exc) e _ s (fun _ => keeps_fullExit_exc)

theorem keeps_terminateMachine_exc (full : Bool) : Keeps excK (terminateMachine P full) := by
  have hK := excPrims P
  unfold terminateMachine clearAll
  have h1 := hK.terminateState (full := full) (fun _ => keeps_fullExit_exc)
  keep
  all_goals first | exact h1 _ | exact Keeps.modify fun m => rfl

theorem keeps_initialConstruct_exc : Keeps excK (initialConstruct P) := (excPrims P).build _ _

/-- The destruction of all states raises nothing. -/
theorem terminateMachine_false_wp' (hwf : P.toChart.WF) (h : Inv P.toChart (fun _ => 0) none m)
    {Q : Unit → Mach W → Prop} {E : Exc → Mach W → Prop} (hq : ∀ m', TermPost P.toChart false m m' → m'.xlog = m.xlog → Q () m') :
    wp (terminateMachine P false) Q E m :=
  wp_mono (wp_keeps (terminateMachine_false_wp (Q := fun _ m' => TermPost P.toChart false m m') (E := fun _ _ => False) hwf h fun _ h => h)
    (keeps_terminateMachine_exc false m)) (fun _ m' h => hq m' h.1 h.2) (fun _ _ h => h.1.elim)

end SC
