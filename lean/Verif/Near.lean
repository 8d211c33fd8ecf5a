import Verif.Blind
import Verif.Reach
/-!
# Nearly equal machines

`Near b1 b2 m1 m2`: the machines differ only in their logs, or else they are terminated and differ in `isInnermostCommonOuter_` too, which
has no influence then.
-/

namespace SC
open Spec Chart
variable {W α β : Type} {P : Prog W}

def Near (P : Prog W) (b1 b2 m1 m2 : Mach W) : Prop :=
  Par P false b1 b2 m1 m2 ∨ (Par P true b1 b2 m1 m2 ∧ m2.outermost = none ∧ m2.endIx = 0)

def NearR (P : Prog W) (b1 b2 : Mach W) : Res W α → Res W α → Prop
  | .ok a m1, .ok a' m2 => a = a' ∧ Near P b1 b2 m1 m2
  | .thrown x m1, .thrown x' m2 => x = x' ∧ Near P b1 b2 m1 m2
  | .fault _, _ => True
  | _, _ => False

section
variable {b1 b2 m1 m2 : Mach W}

theorem ParR.near {r1 r2 : Res W α} (h : ParR P false b1 b2 r1 r2) : NearR P b1 b2 r1 r2 := by
  cases r1 <;> cases r2
  case fault.fault => trivial
  all_goals first | exact ⟨h.1, .inl h.2⟩ | exact h.elim | trivial

theorem NearR.bind {x : M W α} {f : α → M W β} (hx : NearR P b1 b2 (x m1) (x m2))
    (hf : ∀ a n1 n2, x m2 = .ok a n2 → Near P b1 b2 n1 n2 → NearR P b1 b2 (f a n1) (f a n2)) : NearR P b1 b2 ((x >>= f) m1) ((x >>= f) m2) := by
  show NearR P b1 b2 (match x m1 with | .ok a m' => f a m' | .thrown e m' => .thrown e m' | .fault g => .fault g)
    (match x m2 with | .ok a m' => f a m' | .thrown e m' => .thrown e m' | .fault g => .fault g)
  revert hx hf
  cases x m1 <;> cases x m2 <;> intro hx hf
  · obtain ⟨rfl, hx⟩ := hx; exact hf _ _ _ rfl hx
  all_goals first | exact hx | exact hx.elim | trivial

theorem NearR.onThrow {x : M W α} {f : M W Unit} (hx : NearR P b1 b2 (x m1) (x m2))
    (hf : ∀ n1 n2, Near P b1 b2 n1 n2 → NearR P b1 b2 (f n1) (f n2)) : NearR P b1 b2 (M.onThrow x f m1) (M.onThrow x f m2) := by
  unfold M.onThrow
  revert hx
  cases x m1 <;> cases x m2 <;> intro hx
  case thrown.thrown m1 _ m2 =>
    obtain ⟨rfl, hx⟩ := hx
    have h2 := hf _ _ hx
    simp only
    revert h2
    cases f m1 <;> cases f m2 <;> intro h2
    case ok.ok => exact ⟨rfl, h2.2⟩
    case thrown.thrown => trivial
    all_goals first | exact h2 | exact h2.elim | trivial
  all_goals first | exact hx | exact hx.elim | trivial

theorem NearR.tryCatch {x : M W α} {f : Exc → M W α} (hx : NearR P b1 b2 (x m1) (x m2))
    (hf : ∀ e n1 n2, Near P b1 b2 n1 n2 → NearR P b1 b2 (f e n1) (f e n2)) : NearR P b1 b2 (M.tryCatch x f m1) (M.tryCatch x f m2) := by
  unfold M.tryCatch
  revert hx
  cases x m1 <;> cases x m2 <;> intro hx
  case thrown.thrown => obtain ⟨rfl, hx⟩ := hx; exact hf _ _ _ hx
  all_goals first | exact hx | exact hx.elim | trivial

theorem Near.setTrig (h : Near P b1 b2 m1 m2) (t : Option Event) : Near P b1 b2 { m1 with trig := t } { m2 with trig := t } := by
  rcases h with h | ⟨h, hd⟩
  · exact .inl { h with trig := rfl }
  · exact .inr ⟨{ h with trig := rfl }, hd⟩

theorem Near.trig (h : Near P b1 b2 m1 m2) : m1.trig = m2.trig := by
  rcases h with h | ⟨h, _⟩ <;> exact h.trig

theorem NearR.withTrig {x : M W α} {e : Option Event} (hx : NearR P b1 b2 (x { m1 with trig := e }) (x { m2 with trig := e })) (ht : m1.trig = m2.trig) :
    NearR P b1 b2 (withTrig e x m1) (withTrig e x m2) := by
  unfold SC.withTrig
  revert hx
  cases x { m1 with trig := e } <;> cases x { m2 with trig := e } <;> intro hx
  case fault.fault => trivial
  case ok.ok => rw [ht]; exact ⟨hx.1, hx.2.setTrig _⟩
  case thrown.thrown => rw [ht]; exact ⟨hx.1, hx.2.setTrig _⟩
  all_goals first | exact hx.elim | trivial

/-- A function that does not read or write what matters here. -/
theorem Near.of {f : M W α} (hb : ∀ i, Blind P i f) (hk : ∀ m : Mach W, wp f (fun _ m' => m'.outermost = m.outermost ∧ m'.endIx = m.endIx)
    (fun _ m' => m'.outermost = m.outermost ∧ m'.endIx = m.endIx) m) (h : Near P b1 b2 m1 m2) : NearR P b1 b2 (f m1) (f m2) := by
  rcases h with h | ⟨h, h1, h2⟩
  · exact (hb false _ _ _ _ h).near
  · have hp := hb true _ _ _ _ h
    have hw := hk m2
    unfold wp at hw
    revert hp hw
    cases f m1 <;> cases f m2 <;> intro hp hw
    case ok.ok => exact ⟨hp.1, .inr ⟨hp.2, by rw [hw.1, h1], by rw [hw.2, h2]⟩⟩
    case thrown.thrown => exact ⟨hp.1, .inr ⟨hp.2, by rw [hw.1, h1], by rw [hw.2, h2]⟩⟩
    case fault.fault => trivial
    all_goals first | exact hp.elim | trivial

theorem Near.qop (o : QOp) (h : Near P b1 b2 m1 m2) : NearR P b1 b2 (SC.qop o m1) (SC.qop o m2) :=
  Near.of (fun _ => Blind.qop o) (fun _ => ⟨rfl, rfl⟩) h

theorem Near.runUser (f : View → W → UOut W) (a b : List Obs) (h : Near P b1 b2 m1 m2) : NearR P b1 b2 (SC.runUser f a b m1) (SC.runUser f a b m2) :=
  Near.of (fun _ => Blind.runUser f a b) (fun _ => wp_runUser (fun _ hu => ⟨hu.core.outermost, hu.core.endIx⟩) (fun _ _ hu => ⟨hu.core.outermost, hu.core.endIx⟩)) h

theorem Near.cmd (c : Cmd) (h : Near P b1 b2 m1 m2) : Near P b1 b2 (m1.cmd c) (m2.cmd c) := by
  rcases h with h | ⟨h, h1, h2⟩
  · exact .inl (h.cmd c)
  · exact .inr ⟨h.cmd c, by rw [(cmd_core m2 c).outermost, h1], by rw [(cmd_core m2 c).endIx, h2]⟩

end

section
variable {b1 b2 m1 m2 : Mach W}

local notation "NN" => Near P b1 b2 m1 m2

theorem Near.allocate (s : Site) (h : NN) : NearR P b1 b2 (SC.allocate P s m1) (SC.allocate P s m2) :=
  Near.of (fun _ => Blind.allocate P s) (fun _ => wp_allocate P s (fun _ => ⟨rfl, rfl⟩) (fun _ _ => ⟨rfl, rfl⟩)) h

theorem terminateMachine_dead {full : Bool} {m : Mach W} (hm : m.outermost = none) : SC.terminateMachine P full m = clearAll { m with fullExit := true } := by
  show M.bnd (match m.outermost with | none => (Pure.pure () : M W Unit) | some s => SC.terminateState P s full) (fun _ => clearAll) { m with fullExit := true } = _
  rw [hm]; rfl

theorem Near.terminateMachine (full : Bool) (h : NN) : NearR P b1 b2 (SC.terminateMachine P full m1) (SC.terminateMachine P full m2) := by
  rcases h with h | ⟨h, h1, h2⟩
  · exact (Blind.terminateMachine P full _ _ _ _ h).near
  · rw [terminateMachine_dead (by rw [h.outermost, h1]), terminateMachine_dead h1]
    exact Near.of (fun _ => Blind.clearAll) (fun _ => ⟨rfl, rfl⟩) (.inr ⟨{ h with fullExit := rfl }, h1, h2⟩)

theorem NearR.guardTerm {x : M W α} (hx : NearR P b1 b2 (x m1) (x m2)) : NearR P b1 b2 (guardTerm P x m1) (guardTerm P x m2) := by
  unfold SC.guardTerm
  revert hx
  cases x m1 <;> cases x m2 <;> intro hx
  case thrown.thrown m1 _ m2 =>
    obtain ⟨rfl, hx⟩ := hx
    have h2 := hx.terminateMachine false
    simp only
    revert h2
    cases SC.terminateMachine P false m1 <;> cases SC.terminateMachine P false m2 <;> intro h2
    case ok.ok => exact ⟨rfl, h2.2⟩
    case thrown.thrown => trivial
    all_goals first | exact h2 | exact h2.elim | trivial
  all_goals first | exact hx | exact hx.elim | trivial

theorem Near.handleException (c : Option Sid) (ev : Event) (x : Exc) (h : NN) :
    NearR P b1 b2 (SC.handleException P c ev x m1) (SC.handleException P c ev x m2) := by
  rcases h with h | ⟨h, h1, h2⟩
  · exact (Blind.handleException P c ev x _ _ _ _ h).near
  · have e : ∀ m : Mach W, m.outermost = none → SC.handleException P c ev x m = .thrown x m := by
      intro m hm
      unfold SC.handleException
      show (if m.terminated = true then M.throw x else _ : M W RR) m = _
      rw [if_pos (by unfold Mach.terminated; rw [hm]; rfl)]
      rfl
    rw [e m1 (by rw [h.outermost, h1]), e m2 h1]
    exact ⟨rfl, .inr ⟨h, h1, h2⟩⟩

theorem NearR.translated (c : Option Sid) {x : M W RR} (hx : NearR P b1 b2 (x m1) (x m2)) :
    NearR P b1 b2 (translated P c x m1) (translated P c x m2) := by
  refine NearR.tryCatch hx fun e n1 n2 hn => ?_
  show NearR _ _ _ ((match P.translate e with | none => M.throw e | some ev => SC.handleException P c ev e) n1)
    ((match P.translate e with | none => M.throw e | some ev => SC.handleException P c ev e) n2)
  cases P.translate e with
  | none => exact ⟨rfl, hn⟩
  | some ev => exact hn.handleException c ev e

theorem Near.sendEvent (e : Event) (h : NN) : NearR P b1 b2 (SC.sendEvent P e m1) (SC.sendEvent P e m2) := by
  unfold SC.sendEvent
  refine NearR.withTrig (NearR.bind (NearR.guardTerm ?_) fun r n1 n2 _ hn => NearR.bind ?_ fun _ n1 n2 _ hn => ⟨rfl, hn⟩) h.trig
  · rcases h.setTrig (some e) with h | ⟨h, h1, h2⟩
    · exact (Blind.get (fun h => by rw [h.pOU, h.endIx]) (fun m => Blind.ite (Blind.fault _) (Blind.sendLoop P e _ _)) _ _ _ _ h).near
    · have k : ∀ m : Mach W, m.pOU = none → m.endIx = 0 → (M.get >>= fun m => if m.pOU ≠ none then M.fault .assertFail else SC.sendLoop P e (m.endIx + 1) 0) m = .ok .forward m := by
        intro m hm hn
        show (if m.pOU ≠ none then M.fault .assertFail else SC.sendLoop P e (m.endIx + 1) 0) m = _
        rw [if_neg (by simp [hm]), hn]
        show (if 0 = m.endIx then Pure.pure .forward else _ : M W RR) m = _
        rw [if_pos hn.symm]; rfl
      exact (k _ (by rw [h.pOU]; exact h.ou rfl) (by rw [h.endIx]; exact h2)).symm ▸ (k _ (h.ou rfl) h2).symm ▸ ⟨rfl, .inr ⟨h, h1, h2⟩⟩
  · split
    · exact hn.runUser _ _ _
    · exact ⟨rfl, hn⟩

theorem Near.dispatch (e : Event) (h : NN) : NearR P b1 b2 (SC.dispatch P e m1) (SC.dispatch P e m2) := by
  unfold SC.dispatch
  refine NearR.bind (NearR.onThrow (h.sendEvent e) fun n1 n2 hn => hn.qop _) fun r n1 n2 _ hn => ?_
  split
  · refine NearR.bind (NearR.onThrow (hn.allocate _) fun n1 n2 hn => hn.qop _) fun _ n1 n2 _ hn => ?_
    rcases hn with hn | ⟨hn, h1, h2⟩
    · exact ⟨rfl, .inl { hn with dq := by show n1.dq ++ [e] = n2.dq ++ [e]; rw [hn.dq]
                                 qlog := snoc_ex hn.qlog _ }⟩
    · exact ⟨rfl, .inr ⟨{ hn with dq := by show n1.dq ++ [e] = n2.dq ++ [e]; rw [hn.dq]
                                  qlog := snoc_ex hn.qlog _ }, h1, h2⟩⟩
  · exact hn.qop _

theorem Near.evq (h : NN) : m1.evq = m2.evq := by
  rcases h with h | ⟨h, _⟩ <;> exact h.evq

end

theorem Near.processQueued {b1 b2 : Mach W} : ∀ (k : Nat) {m1 m2 : Mach W}, Near P b1 b2 m1 m2 →
    NearR P b1 b2 (SC.processQueued P k m1) (SC.processQueued P k m2)
  | 0, m1, m2, h => by
    show NearR _ _ _ (.ok m1.evq.isEmpty m1) (.ok m2.evq.isEmpty m2)
    exact ⟨by rw [h.evq], h⟩
  | k + 1, m1, m2, h => by
    unfold SC.processQueued
    have e : ∀ m : Mach W, (M.get >>= fun m => match m.evq with
        | [] => Pure.pure true
        | e :: q => M.modify (fun m => { m with evq := q, qlog := m.qlog ++ [.pop e] }) >>= fun _ => SC.dispatch P e >>= fun _ => SC.processQueued P k : M W Bool) m =
        (match m.evq with
        | [] => Pure.pure true
        | e :: q => M.modify (fun m => { m with evq := q, qlog := m.qlog ++ [.pop e] }) >>= fun _ => SC.dispatch P e >>= fun _ => SC.processQueued P k : M W Bool) m :=
      fun _ => rfl
    show NearR _ _ _ ((M.get >>= _) m1) ((M.get >>= _) m2)
    refine (e m1).symm ▸ (e m2).symm ▸ ?_
    rw [h.evq]
    cases m2.evq with
    | nil => exact ⟨rfl, h⟩
    | cons e q =>
      refine NearR.bind (f := fun _ => SC.dispatch P e >>= fun _ => SC.processQueued P k) ?_ fun _ n1 n2 _ hn => NearR.bind (hn.dispatch e) fun _ n1 n2 _ hn => hn.processQueued k
      rcases h with h | ⟨h, h1, h2⟩
      · exact ⟨rfl, .inl { h with evq := rfl, qlog := snoc_ex h.qlog _ }⟩
      · exact ⟨rfl, .inr ⟨{ h with evq := rfl, qlog := snoc_ex h.qlog _ }, h1, h2⟩⟩

/-! ### Construction -/

/-- Starting from machines that may differ in `isInnermostCommonOuter_`, they do not any more unless an exception is thrown. -/
def MixR (P : Prog W) (b1 b2 : Mach W) : Res W α → Res W α → Prop
  | .ok a m1, .ok a' m2 => a = a' ∧ Par P false b1 b2 m1 m2
  | .thrown x m1, .thrown x' m2 => x = x' ∧ Par P true b1 b2 m1 m2
  | .fault _, _ => True
  | _, _ => False

def Mixed (P : Prog W) (f : M W α) : Prop := ∀ b1 b2 m1 m2, Par P true b1 b2 m1 m2 → MixR P b1 b2 (f m1) (f m2)

namespace Mixed

theorem bind {x : M W α} {f : α → M W β} (hx : Blind P true x) (hf : ∀ a, Mixed P (f a)) : Mixed P (x >>= f) := by
  intro b1 b2 m1 m2 h
  have h1 := hx b1 b2 m1 m2 h
  show MixR P b1 b2 (match x m1 with | .ok a m' => f a m' | .thrown e m' => .thrown e m' | .fault g => .fault g)
    (match x m2 with | .ok a m' => f a m' | .thrown e m' => .thrown e m' | .fault g => .fault g)
  revert h1
  cases x m1 <;> cases x m2 <;> intro h1
  · obtain ⟨rfl, h1⟩ := h1; exact hf _ _ _ _ _ h1
  all_goals first | exact h1 | exact h1.elim | trivial

theorem onThrow {x : M W α} {f : M W Unit} (hx : Mixed P x) (hf : Blind P true f) : Mixed P (M.onThrow x f) := by
  intro b1 b2 m1 m2 h
  have h1 := hx b1 b2 m1 m2 h
  unfold M.onThrow
  revert h1
  cases x m1 <;> cases x m2 <;> intro h1
  case thrown.thrown m1 _ m2 =>
    obtain ⟨rfl, h1⟩ := h1
    have h2 := hf b1 b2 _ _ h1
    simp only
    revert h2
    cases f m1 <;> cases f m2 <;> intro h2
    case ok.ok => exact ⟨rfl, h2.2⟩
    case thrown.thrown => trivial
    all_goals first | exact h2 | exact h2.elim | trivial
  all_goals first | exact h1 | exact h1.elim | trivial

theorem addToMachine {s : Sid} (hp : P.parent s = none) (hh : isHighest P s = true) : Mixed P (addToMachine P s) := by
  refine bind (Blind.ite' (Blind.addLeaf P) (Blind.pure _)) fun _ => ?_
  intro b1 b2 m1 m2 h
  have e : ∀ m : Mach W, m.pOU = none → (M.get >>= fun m => if m.ico ∨ (isHighest P s ∧ m.pOU = P.parent s) then (do
      M.modify fun m => { m with ico := false }
      setOU (if P.isLeaf s then none else some s)) else Pure.pure () : M W Unit) m = setOU (if P.isLeaf s then none else some s) { m with ico := false } := by
    intro m hm
    show (if m.ico ∨ (isHighest P s ∧ m.pOU = P.parent s) then (do
      M.modify fun m => { m with ico := false }
      setOU (if P.isLeaf s then none else some s)) else Pure.pure () : M W Unit) m = _
    rw [if_pos (.inr ⟨hh, by rw [hm, hp]⟩)]
    rfl
  refine (e m1 (by rw [h.pOU]; exact h.ou rfl)).symm ▸ (e m2 (h.ou rfl)).symm ▸ ?_
  have hb := Blind.setOU (P := P) (if P.isLeaf s then none else some s) b1 b2 { m1 with ico := false } { m2 with ico := false }
    { h with ico := fun _ => rfl, ou := fun h => by cases h }
  have hn : ∀ x n, setOU (if P.isLeaf s then none else some s) { m2 with ico := false } ≠ .thrown x n := by
    intro x n hx
    unfold setOU at hx
    rw [show ({ m2 with ico := false } : Mach W) = ({ m2 with ico := false, pOU := none } : Mach W) by rw [← h.ou rfl]] at hx
    cases hc : (if P.isLeaf s then none else some s : Option Sid) with
    | none => rw [hc] at hx; cases hx
    | some t =>
      rw [hc] at hx
      revert hx
      show M.bnd (M.bnd (getObj t) _) _ _ = _ → False
      unfold M.bnd getObj
      cases m2.heap t with
      | none => simp
      | some o => intro hx; cases hx
  revert hb hn
  cases setOU (if P.isLeaf s then none else some s) { m1 with ico := false } <;>
    cases setOU (if P.isLeaf s then none else some s) { m2 with ico := false } <;> intro hb hn
  case thrown.thrown => exact absurd rfl (hn _ _)
  all_goals first | exact hb | exact hb.elim | trivial

theorem shallowConstruct {s : Sid} (hp : P.parent s = none) (hh : isHighest P s = true) : Mixed P (shallowConstruct P s) := by
  refine bind (Blind.allocate P _) fun _ => ?_
  intro b1 b2 m1 m2 h
  by_cases hd : (m2.heap s).isSome
  · have e : ∀ m : Mach W, (m.heap s).isSome → (M.get >>= fun m => if (m.heap s).isSome then M.fault .doubleConstruct else (do
        setObj s newObj
        (if P.isSimple s then do
          M.onThrow (runCtor P s) (baseDtor P (release P) s)
          addRef s
          setContext P s
        else do
          setContext P s
          M.onThrow (runCtor P s) (baseDtor P (release P) s)
          addRef s)
        M.onThrow (SC.addToMachine P s) (release P s)) : M W Unit) m = .fault .doubleConstruct := by
      intro m hm
      show (if (m.heap s).isSome then M.fault .doubleConstruct else _ : M W Unit) m = _
      rw [if_pos hm]; rfl
    refine (e m1 (by rw [h.heap]; exact hd)).symm ▸ (e m2 hd).symm ▸ trivial
  · have e : ∀ m : Mach W, ¬ (m.heap s).isSome → (M.get >>= fun m => if (m.heap s).isSome then M.fault .doubleConstruct else (do
        setObj s newObj
        (if P.isSimple s then do
          M.onThrow (runCtor P s) (baseDtor P (release P) s)
          addRef s
          setContext P s
        else do
          setContext P s
          M.onThrow (runCtor P s) (baseDtor P (release P) s)
          addRef s)
        M.onThrow (SC.addToMachine P s) (release P s)) : M W Unit) m = (setObj s newObj >>= fun _ => (if P.isSimple s then do
          M.onThrow (runCtor P s) (baseDtor P (release P) s)
          addRef s
          setContext P s
        else do
          setContext P s
          M.onThrow (runCtor P s) (baseDtor P (release P) s)
          addRef s) >>= fun _ => M.onThrow (SC.addToMachine P s) (release P s) : M W Unit) m := by
      intro m hm
      show (if (m.heap s).isSome then M.fault .doubleConstruct else _ : M W Unit) m = _
      rw [if_neg hm]
    refine (e m1 (by rw [h.heap]; exact hd)).symm ▸ (e m2 hd).symm ▸ ?_
    exact bind (Blind.setObj _ _ fun _ => rfl) (fun _ => bind (Blind.ite
      (Blind.bind (Blind.onThrow (Blind.runCtor P s) (Blind.baseDtor P (Blind.release P) s)) fun _ => Blind.bind (Blind.addRef s) fun _ => Blind.setContext P s)
      (Blind.bind (Blind.setContext P s) fun _ => Blind.bind (Blind.onThrow (Blind.runCtor P s) (Blind.baseDtor P (Blind.release P) s)) fun _ => Blind.addRef s)) fun _ =>
      onThrow (addToMachine hp hh) (Blind.release P s)) b1 b2 m1 m2 h

end Mixed

section
variable {b1 b2 m1 m2 : Mach W} (hwf : P.toChart.WF) (hok : Contract P)
include hwf hok

theorem Near.initialConstruct (h : Near P b1 b2 m1 m2) (hs : Stable P.toChart m2) (hd : ∀ x, m2.act x = false) :
    NearR P b1 b2 (SC.initialConstruct P m1) (SC.initialConstruct P m2) := by
  rcases h with h | ⟨h, h1, h2⟩
  · exact (Blind.initialConstruct P _ _ _ _ h).near
  · obtain ⟨hi, hp⟩ := hwf.initial_ok
    have hh : isHighest P P.initial = true := by
      have := hwf.pos_lt hi
      unfold isHighest
      rw [hp] at this ⊢
      have e : P.regions none = 1 := rfl
      rw [e] at this ⊢
      simp; omega
    unfold SC.initialConstruct
    obtain ⟨f, hf⟩ : ∃ f, buildFuel P = f + 1 := by
      unfold buildFuel
      exact ⟨(P.n + 1) * (P.n + 300) - 1, by have := Nat.mul_pos (n := P.n + 1) (m := P.n + 300) (by omega) (by omega); omega⟩
    rw [hf]
    unfold SC.build
    have hm := Mixed.shallowConstruct hp hh b1 b2 m1 m2 h
    have hw := shallowConstruct_wp (L := noL) (m := m2) hwf hok (userMem_forget P).ctorMem hs.inv hi (fun c hc => by
        have := hd c; unfold Mach.act at this; rw [this] at hc; cases hc) (fun p hp' => by rw [hp] at hp'; cases hp') (fun _ => by rw [hs.pOU, hp])
    show NearR P b1 b2 (M.bnd (SC.shallowConstruct P P.initial) _ m1) (M.bnd (SC.shallowConstruct P P.initial) _ m2)
    unfold M.bnd
    unfold wp at hw
    revert hm hw
    cases SC.shallowConstruct P P.initial m1 <;> cases SC.shallowConstruct P P.initial m2 <;> intro hm hw
    case ok.ok => exact (Blind.finally' (Blind.build P f _) (Blind.release P _) _ _ _ _ hm.2).near
    case thrown.thrown => exact ⟨hm.1, .inr ⟨hm.2, hw.inv.outer_dead (by rw [hw.act]; exact hd), hw.inv.end_dead (by rw [hw.act]; exact hd)⟩⟩
    case fault.fault => trivial
    all_goals first | exact hm.elim | trivial

omit hwf hok in
theorem Near.terminate (h : Near P b1 b2 m1 m2) : NearR P b1 b2 (SC.terminate P m1) (SC.terminate P m2) := by
  unfold SC.terminate
  refine NearR.bind (NearR.withTrig (NearR.guardTerm (NearR.translated none (NearR.bind ((h.setTrig none).terminateMachine true) fun _ n1 n2 _ hn => ⟨rfl, hn⟩))) h.trig)
    fun _ n1 n2 _ hn => ⟨rfl, hn⟩

theorem Near.construct (k : Nat) (h : Near P b1 b2 m1 m2) (hs : Stable P.toChart m2) (hd : ∀ x, m2.act x = false) :
    NearR P b1 b2 (SC.construct P k m1) (SC.construct P k m2) := by
  unfold SC.construct
  exact NearR.bind (NearR.withTrig (NearR.guardTerm (NearR.translated none (NearR.bind
    ((h.setTrig none).initialConstruct hwf hok (hs.setTrig none) hd) fun _ n1 n2 _ hn => ⟨rfl, hn⟩))) h.trig) fun _ n1 n2 _ hn => hn.processQueued k

/-- Calls of nearly equal machines have the same outcome. -/
theorem Near.call (c : Call) (h : Near P b1 b2 m1 m2) (hs : Stable P.toChart m2) (hl : c.legal P m2) :
    NearR P b1 b2 (c.run P m1) (c.run P m2) := by
  cases c with
  | initiate k =>
    refine NearR.bind h.terminate fun _ n1 n2 he hn => ?_
    have hw := terminate_wp' hwf hok hs
    unfold wp at hw
    rw [he] at hw
    exact hn.construct hwf hok k hw.1 ((hw.1.terminated_iff hwf).1 (hl n2 he))
  | terminate => exact NearR.bind h.terminate fun _ n1 n2 _ hn => ⟨rfl, hn⟩
  | process e k => exact NearR.bind (h.qop _) fun _ n1 n2 _ hn => NearR.bind (hn.dispatch e) fun _ n1 n2 _ hn => hn.processQueued k
  | post e =>
    refine NearR.bind (x := postEvent P e) (NearR.bind (h.allocate _) fun _ n1 n2 _ hn => ?_) fun _ n1 n2 _ hn => ⟨rfl, hn⟩
    exact ⟨rfl, hn.cmd _⟩
  | clearShallow k =>
    refine NearR.bind (x := clearShallowHistory P k) (NearR.bind (Near.of (fun _ => Blind.allocNode P Blind.shKey)
      (fun _ => wp_allocNode P _ _ (fun _ => ⟨rfl, rfl⟩) (fun _ _ => ⟨rfl, rfl⟩)) h) fun _ n1 n2 _ hn => ?_) fun _ n1 n2 _ hn => ⟨rfl, hn⟩
    exact ⟨rfl, hn.cmd _⟩
  | clearDeep k =>
    refine NearR.bind (x := clearDeepHistory P k) (NearR.bind (Near.of (fun _ => Blind.allocNode P Blind.dhKey)
      (fun _ => wp_allocNode P _ _ (fun _ => ⟨rfl, rfl⟩) (fun _ _ => ⟨rfl, rfl⟩)) h) fun _ n1 n2 _ hn => ?_) fun _ n1 n2 _ hn => ⟨rfl, hn⟩
    exact ⟨rfl, hn.cmd _⟩

end

/-! ### Positions of states -/

/-- Only innermost states are in the list of the machine, and others have no position. -/
def Neat (C : Chart) (m : Mach W) : Prop :=
  (∀ {s o}, m.heap s = some o → C.isLeaf s = false → o.lpos = 0) ∧ ∀ {k s}, m.slot k = some s → C.isLeaf s = true

theorem Neat.par {m : Mach W} (h : Neat P.toChart m) : Par P false m m m m := by
  constructor
  case lp => exact h.1
  case sl => exact h.2
  case trace => exact ⟨[], by simp⟩
  case qlog => exact ⟨[], by simp⟩
  case xlog => exact ⟨[], by simp⟩
  case ou => intro h; cases h
  case nodes => exact .inl ⟨rfl, rfl, rfl⟩
  all_goals first | rfl | exact fun _ => rfl

theorem Blind.call (c : Call) : Blind P false (c.run P) := by
  cases c with
  | initiate k => exact initiate P k
  | terminate => exact bind (terminate P) fun _ => pure _
  | process e k => exact processEvent P e k
  | post e => exact bind (postEvent P e) fun _ => pure _
  | clearShallow k => exact bind (clearShallowHistory P k) fun _ => pure _
  | clearDeep k => exact bind (clearDeepHistory P k) fun _ => pure _

theorem Reach.neat {m : Mach W} (h : Reach P m) : Neat P.toChart m := by
  induction h with
  | fresh w => exact ⟨fun h => (by cases h), fun h => (by cases h)⟩
  | @returns c _ _ _ _ hr ih => have := Blind.call c _ _ _ _ ih.par; rw [hr] at this; exact ⟨this.2.lp, this.2.sl⟩
  | @throws c _ _ _ _ _ hr ih => have := Blind.call c _ _ _ _ ih.par; rw [hr] at this; exact ⟨this.2.lp, this.2.sl⟩
  | world w _ ih => exact ⟨ih.1, ih.2⟩

end SC
