import Verif.Api2
/-!
# Sequences of API calls
-/

namespace SC
open Spec Chart
variable {W α : Type} {P : Prog W} {m : Mach W} {F : Memory → Memory → Prop}

/-- Calls a client makes; `k` bounds the number of queued events processed. -/
inductive Call
  | initiate (k : Nat)
  | terminate
  | process (e : Event) (k : Nat)
  | post (e : Event)
  | clearShallow (k : HKey)
  | clearDeep (k : HKey)

/-- Run a call; `false`: the bound `k` was reached before the queue was empty, i.e. the
C++ function has not returned yet. -/
def Call.run (P : Prog W) : Call → M W Bool
  | .initiate k => SC.initiate P k
  | .terminate => do
    SC.terminate P
    pure true
  | .process e k => SC.processEvent P e k
  | .post e => do
    SC.postEvent P e
    pure true
  | .clearShallow k => do
    SC.clearShallowHistory P k
    pure true
  | .clearDeep k => do
    SC.clearDeepHistory P k
    pure true

/-- `initiate()` may only be called when its initial `terminate()` leaves the machine
terminated (see `Call.legal_of_terminated`, `Call.legal_of_null` and property C36). -/
def Call.legal (P : Prog W) (m : Mach W) : Call → Prop
  | .initiate _ => ∀ m1, SC.terminate P m = .ok () m1 → m1.terminated = true
  | _ => True

/-- Machines a client can have: constructed, then any sequence of API calls, each
returning or throwing; anything outside the machine may change between calls. -/
inductive Reach (P : Prog W) : Mach W → Prop
  | fresh (w : W) : Reach P (Mach.fresh w)
  | returns {c : Call} {m m' : Mach W} : Reach P m → c.legal P m → c.run P m = .ok true m' → Reach P m'
  | throws {c : Call} {x : Exc} {m m' : Mach W} : Reach P m → c.legal P m → c.run P m = .thrown x m' → Reach P m'
  | world {m : Mach W} (w : W) : Reach P m → Reach P { m with world := w }

theorem stable_fresh (C : Chart) (w : W) : Stable C (Mach.fresh w) := by
  refine ⟨?_, rfl, fun h => (by cases h), rfl, fun h => absurd rfl h⟩
  constructor
  case tr => rfl
  case hist => exact ⟨fun h => (by cases h), fun h => (by cases h)⟩
  case end_le => exact ⟨Nat.le_refl _, peak_zero C _⟩
  all_goals simp [Mach.fresh, noL]

theorem Stable.cmd {C : Chart} (h : Stable C m) (c : Cmd) : Stable C (m.cmd c) := by
  refine ⟨h.inv.congrT (cmd_core m c) (cmd_trace m c) (cmd_hist c h.inv.hist), ?_, ?_, ?_, ?_⟩
  · rw [(cmd_core m c).pOU, h.pOU]
  · rw [(cmd_core m c).ico, (cmd_core m c).act]; exact h.ico
  · rw [(cmd_core m c).fullExit, h.fullExit]
  · cases c <;> exact h.flags

section
variable (hwf : P.toChart.WF) (hok : Contract P)
include hwf

theorem Stable.terminated_iff (h : Stable P.toChart m) : m.terminated = true ↔ ∀ x, m.act x = false := by
  unfold Mach.terminated
  constructor
  · intro ho
    refine h.inv.dead_of_outer hwf ?_
    cases hm : m.outermost with
    | none => rfl
    | some s => rw [hm] at ho; cases ho
  · intro hd; rw [h.inv.outer_dead hd]; rfl

include hok

theorem terminate_wp' (hm : Stable P.toChart m) :
    wp (SC.terminate P) (fun _ m' => Stable P.toChart m' ∧ m'.trig = m.trig) (fun _ m' => Stable P.toChart m' ∧ m'.trig = m.trig) m :=
  wp_mono (terminate_wp hwf hok (userMem_forget P) hm) (fun _ _ h => ⟨h.1, h.2.1⟩) (fun _ _ h => ⟨h.1, h.2.1⟩)

theorem initiate_wp (k : Nat) (hF : UserMem P F) (hm : Stable P.toChart m) (hl : (Call.initiate k).legal P m) :
    wp (SC.initiate P k)
      (fun b m' => Stable P.toChart m' ∧ m'.trig = m.trig ∧ (b = true → m'.evq = []) ∧ ∃ m0 m1 es,
        SC.terminate P m = .ok () m0 ∧ (∀ x, m0.act x = false) ∧
        GuardOk P F (initBody P) (Entered P F m0.untrigger) m0 m1 ∧ Runs P F es m1 m')
      (fun y m' => Stable P.toChart m' ∧ m'.trig = m.trig ∧ (GuardFails P F (termBody P) m y m' ∨ ∃ m0, SC.terminate P m = .ok () m0 ∧
        (GuardFails P F (initBody P) m0 y m' ∨ ∃ m1 es m2 e q, GuardOk P F (initBody P) (Entered P F m0.untrigger) m0 m1 ∧
          Runs P F es m1 m2 ∧ m2.evq = e :: q ∧ DispatchFails P F e { m2 with evq := q, qlog := m2.qlog ++ [.pop e] } y m'))) m := by
  unfold SC.initiate
  simp only [wp_bind]
  refine wp_mono (wp_eq (terminate_wp hwf hok hF hm)) ?_ ?_
  · rintro _ m0 ⟨⟨h1, h2, _⟩, h3⟩
    have hd := (h1.terminated_iff hwf).1 (hl m0 h3)
    refine wp_mono (construct_wp hwf hok hF k h1 hd) ?_ ?_
    · rintro b m' ⟨k1, k2, k3, m1, es, k4, k5⟩
      exact ⟨k1, by rw [k2, h2], k3, m0, m1, es, h3, hd, k4, k5⟩
    · rintro y m' ⟨k1, k2, k3⟩
      refine ⟨k1, by rw [k2, h2], .inr ⟨m0, h3, ?_⟩⟩
      rcases k3 with k3 | ⟨a, b, c, d, e, f⟩
      · exact .inl k3
      · exact .inr ⟨a, b, c, d, e, f⟩
  · rintro y m' ⟨⟨h1, h2, h3⟩, _⟩
    exact ⟨h1, h2, .inl h3⟩

theorem call_wp (c : Call) (hm : Stable P.toChart m) (hl : c.legal P m) :
    wp (c.run P) (fun _ m' => Stable P.toChart m' ∧ m'.trig = m.trig) (fun _ m' => Stable P.toChart m' ∧ m'.trig = m.trig) m := by
  have hF := userMem_forget P
  cases c with
  | initiate k => exact wp_mono (initiate_wp hwf hok k hF hm hl) (fun _ _ h => ⟨h.1, h.2.1⟩) (fun _ _ h => ⟨h.1, h.2.1⟩)
  | terminate =>
    unfold Call.run
    simp only [wp_bind, wp_pure]
    exact terminate_wp' hwf hok hm
  | process e k => exact wp_mono (processEvent_wp hwf hok hF e k hm) (fun _ _ h => ⟨h.1, h.2.1⟩) (fun _ _ h => ⟨h.1, h.2.1⟩)
  | post e =>
    unfold Call.run postEvent
    simp only [wp_bind, wp_pure, wp_modify]
    refine wp_allocate P _ ?_ ?_
    · intro w
      exact ⟨hm.same ⟨by constructor <;> rfl, rfl, rfl, rfl, rfl⟩ hm.flags, rfl⟩
    · intro x w
      exact ⟨hm.same ⟨by constructor <;> rfl, rfl, rfl, rfl, rfl⟩ hm.flags, rfl⟩
  | clearShallow k =>
    unfold Call.run clearShallowHistory
    simp only [wp_bind, wp_pure, wp_modify]
    refine wp_allocNode P _ _ ?_ ?_
    · intro w
      have h1 : Stable P.toChart { m with world := w } := hm.same ⟨by constructor <;> rfl, rfl, rfl, rfl, rfl⟩ hm.flags
      exact ⟨h1.cmd _, rfl⟩
    · intro x w
      exact ⟨hm.same ⟨by constructor <;> rfl, rfl, rfl, rfl, rfl⟩ hm.flags, rfl⟩
  | clearDeep k =>
    unfold Call.run clearDeepHistory
    simp only [wp_bind, wp_pure, wp_modify]
    refine wp_allocNode P _ _ ?_ ?_
    · intro w
      have h1 : Stable P.toChart { m with world := w } := hm.same ⟨by constructor <;> rfl, rfl, rfl, rfl, rfl⟩ hm.flags
      exact ⟨h1.cmd _, rfl⟩
    · intro x w
      exact ⟨hm.same ⟨by constructor <;> rfl, rfl, rfl, rfl, rfl⟩ hm.flags, rfl⟩

/-- Every machine a client can have is stable, and no event is being dispatched. -/
theorem Reach.stable (h : Reach P m) : Stable P.toChart m ∧ m.trig = none := by
  induction h with
  | fresh w => exact ⟨stable_fresh _ w, rfl⟩
  | @returns c m m' _ hl hr ih =>
    have := call_wp hwf hok c ih.1 hl
    unfold wp at this
    rw [hr] at this
    exact ⟨this.1, by rw [this.2]; exact ih.2⟩
  | @throws c x m m' _ hl hr ih =>
    have := call_wp hwf hok c ih.1 hl
    unfold wp at this
    rw [hr] at this
    exact ⟨this.1, by rw [this.2]; exact ih.2⟩
  | world w _ ih => exact ⟨ih.1.same ⟨by constructor <;> rfl, rfl, rfl, rfl, rfl⟩ ih.1.flags, ih.2⟩

omit hwf hok in
/-- Sufficient conditions for `initiate()`. -/
theorem Call.legal_of_terminated (ht : m.terminated = true) (k : Nat) : (Call.initiate k).legal P m := by
  intro m1 h1
  unfold SC.terminate at h1
  have hb : terminateMachine P true m.untrigger = .ok () ({ m.untrigger with
      fullExit := true, evq := [], dq := [], sh := fun _ => none, dh := fun _ => none, shKeys := fun _ => false, dhKeys := fun _ => false, qlog := m.qlog ++ [.clear], hlog := m.hlog ++ [.clear] }) := by
    have ho : m.outermost = none := by
      unfold Mach.terminated at ht
      cases h : m.outermost with
      | none => rfl
      | some s => rw [h] at ht; cases ht
    obtain ⟨heap, slot, len, endIx, outermost, ico, pOU, fullExit, sh, dh, evq, dq, trig, world, trace, qlog, hlog⟩ := m
    simp only at ho
    subst ho
    rfl
  have : wp (withTrig none (guardTerm P (translated P none (termBody P))))
      (fun _ m' => m'.terminated = true) (fun _ _ => True) m := by
    simp only [wp_withTrig, wp_guardTerm, translated, wp_tryCatch, wp_bind, wp_pure]
    unfold wp
    rw [show ({ m with trig := none } : Mach W) = m.untrigger from rfl, hb]
    exact ht
  have h2 : wp (SC.terminate P) (fun _ m' => m'.terminated = true) (fun _ _ => True) m := by
    unfold SC.terminate
    simp only [wp_bind, wp_pure]
    exact this
  unfold wp at h2
  unfold SC.terminate at h2
  rw [h1] at h2
  exact h2

theorem Call.legal_of_null (hm : Stable P.toChart m) (ht : ∀ x, P.translate x = none) (k : Nat) : (Call.initiate k).legal P m := by
  intro m1 h1
  have := terminate_wp hwf hok (userMem_forget P) hm
  unfold wp at this
  rw [h1] at this
  obtain ⟨h2, _, h3⟩ := this
  rw [h2.terminated_iff hwf]
  cases h3 with
  | ok h => exact h.dead
  | caught _ h _ _ => rw [ht] at h; cases h

end
end SC
