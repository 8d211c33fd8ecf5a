import Verif.Calms
import Verif.Props.Reference
/-!
# C54: the library when nothing goes wrong

If no user code throws and memory does not run out, then no call throws, and every call computes the function of `Calm.lean`: a machine that is
described without exceptions, unstable states and memory.
-/

namespace SC
variable {W : Type}

/-- What can be observed is the same (see `Matches`). -/
structure Calm.Matches (m : Mach W) (st : Calm.St W) : Prop where
  states : ∀ s, (m.heap s).isSome = st.act s
  range : (List.range m.endIx).map m.slot = st.leaves.map some
  terminated : m.outermost = none ↔ st.root = none
  trig : m.trig = st.trig
  posted : m.evq = st.evq
  deferred : m.dq = st.dq
  world : m.world = st.world
  calls : m.trace = st.trace

/-- The calm machine after steps (latest first), each of which returns. -/
inductive Calm.Session (P : Prog W) (w : W) : List (ClientStep W) → Calm.St W → Prop
  | new : Calm.Session P w [] (Calm.start w)
  | returns {l st st'} {v : W} {c : Call} : Calm.Session P w l st → Calm.run P c.op { st with world := v } = (true, st') →
      Calm.Session P w (⟨v, c, .returned⟩ :: l) st'

section
variable {P : Prog W} {m : Mach W} {w : W} {l : List (ClientStep W)} (hwf : P.toChart.WF) (hok : Contract P) (hpl : Plain P) (hq : Smooth P)

theorem Calm.matches_strip {m : Mach W} (h : Filled m) : Calm.Matches m (Calm.strip (abs m)) :=
  ⟨fun _ => rfl, (view_same h).slots, Iff.rfl, rfl, rfl, rfl, rfl, rfl⟩

include hwf hok hpl hq

/-- `initiate()` may be called at any time. -/
theorem C54_initiate_is_legal (h : Reach P m) (c : Call) : c.legal P m := by
  cases c with
  | initiate k =>
    intro m1 hm1
    have hs := ((h.stable hwf hok).1.setTrig none)
    have hsim := terminateMachine_sim hwf hpl true hs.inv
    have hwp := terminateMachine_wp hwf true hs.inv
    obtain ⟨st, h1, -, -⟩ := Calm.acts_leaveAll hq (abs { m with trig := none }) hs.fullExit
    cases hr : terminateMachine P true { m with trig := none } with
    | ok u m2 =>
      have hp := wp_okAt hwp hr
      have h2 : SC.terminate P m = .ok () { m2 with trig := m.trig } := by
        show M.bnd (withTrig none (guardTerm P (translated P none (M.bnd (terminateMachine P true) fun _ => M.ret RR.discard)))) (fun _ => M.ret ()) m = _
        simp only [M.bnd, M.ret, withTrig, guardTerm, translated, M.tryCatch, hr]
      rw [h2] at hm1
      cases hm1
      rw [(hp.stable.setTrig m.trig).terminated_iff hwf]
      exact hp.dead
    | thrown x m2 =>
      have h2 := hsim.thrown hr
      rw [h1] at h2
      cases h2
    | fault g => unfold wp at hwp; rw [hr] at hwp; exact hwp.elim
  | _ => trivial

/-- One call: it returns, with the result and the state of the calm machine. -/
theorem C54_call (h : Reach P m) (c : Call) : ∃ m', c.run P m = .ok (Calm.run P c.op (Calm.strip (abs m))).1 m' ∧
    Calm.strip (abs m') = (Calm.run P c.op (Calm.strip (abs m))).2 := by
  have hl := C54_initiate_is_legal hwf hok hpl hq h c
  have hc := C53_call hwf hok hpl h c hl
  obtain ⟨st, h1, -, h3⟩ := Calm.does_run hq c.op (abs m) (h.stable hwf hok).1.fullExit
  cases hr : c.run P m with
  | ok b m' =>
    rw [hr] at hc
    have h4 := hc.symm.trans h1
    injection h4 with h5 h6
    exact ⟨m', by rw [h5], by rw [h6, h3]⟩
  | thrown x m' =>
    rw [hr] at hc
    have h4 := hc.symm.trans h1
    cases h4
  | fault g => rw [hr] at hc; exact hc.elim

theorem Calm.sound (h : SC.Session P w l m) : Calm.Session P w l (Calm.strip (abs m)) := by
  induction h with
  | new => exact .new
  | @returns l m m' v c h hl hr ih =>
    obtain ⟨m2, h1, h2⟩ := C54_call hwf hok hpl hq ((h.reach).world v) c
    rw [hr] at h1
    injection h1 with h3 h4
    subst h4
    exact .returns ih (Prod.ext h3.symm h2.symm)
  | @throws l m m' x v c h hl hr ih =>
    obtain ⟨m2, h1, h2⟩ := C54_call hwf hok hpl hq ((h.reach).world v) c
    rw [hr] at h1
    cases h1

/-- Whatever a client does with the library: no call throws, and the calm machine does the same. -/
theorem C54_library (h : SC.Session P w l m) : (∀ x ∈ l, x.ended = .returned) ∧ ∃ st, Calm.Session P w l st ∧ Calm.Matches m st := by
  have hs := Calm.sound hwf hok hpl hq h
  refine ⟨?_, _, hs, Calm.matches_strip ((h.reach).stable hwf hok).1.inv.filled⟩
  clear h
  generalize Calm.strip (abs m) = st at hs
  induction hs with
  | new => intro x hx; cases hx
  | returns _ _ ih =>
    intro x hx
    rcases List.mem_cons.1 hx with rfl | hx
    · rfl
    · exact ih x hx

/-- Whatever the calm machine does, the library does the same. -/
theorem C54_calm {st : Calm.St W} (h : Calm.Session P w l st) : ∃ m, SC.Session P w l m ∧ Calm.Matches m st := by
  have key : ∃ m, SC.Session P w l m ∧ Calm.strip (abs m) = st := by
    induction h with
    | new => exact ⟨_, .new, rfl⟩
    | @returns l st st' v c h hr ih =>
      obtain ⟨m, h1, h2⟩ := ih
      have hre := (h1.reach).world v
      obtain ⟨m2, h3, h4⟩ := C54_call hwf hok hpl hq hre c
      have he : Calm.strip (abs { m with world := v }) = ({ st with world := v } : Calm.St W) := by rw [← h2]; rfl
      rw [he, hr] at h3 h4
      exact ⟨m2, .returns h1 (C54_initiate_is_legal hwf hok hpl hq hre c) h3, h4⟩
  obtain ⟨m, h1, h2⟩ := key
  exact ⟨m, h1, h2 ▸ Calm.matches_strip ((h1.reach).stable hwf hok).1.inv.filled⟩

end

/-! ## A concrete session -/

namespace Ex

/-- The program of Example.lean without exceptions. An action posts an event if there are two innermost states; the environment counts constructor calls. -/
def serene : Prog Nat :=
  { prog with
    ctor := fun _ _ w => { world := w + 1 }
    exit := fun _ _ w => { world := w }
    action := fun a v w => { world := w, cmds := if v.slots.length = 2 then [.post ⟨4, a⟩] else [] }
    unconsumed := fun _ _ w => { world := w }
    react := fun s r e v w => ({ (prog.react s r e v w).1 with throws := none }, (prog.react s r e v w).2) }

theorem serene_plain : Plain serene := by
  constructor
  all_goals intro v v'
  all_goals intros
  all_goals first
    | rfl
    | (rename_i h; show UOut.mk _ _ _ = UOut.mk _ _ _; simp only [h.slots])

theorem serene_contract : Contract serene := ⟨fun s v w h => contract.1 s v w h, fun s r e v w d a h => contract.2 s r e v w d a h⟩

theorem serene_smooth : Smooth serene :=
  ⟨fun _ _ _ => rfl, fun _ _ _ => rfl, fun _ _ _ => rfl, fun _ _ _ _ _ => rfl, fun _ _ _ => rfl, fun _ _ => rfl⟩

/-- Run calls on the calm machine. -/
def calmly (P : Prog W) : List (W × Call) → List (ClientStep W) → Calm.St W → Option (List (ClientStep W) × Calm.St W)
  | [], l, st => some (l, st)
  | (v, c) :: cs, l, st => match Calm.run P c.op { st with world := v } with
    | (true, st') => calmly P cs (⟨v, c, .returned⟩ :: l) st'
    | _ => none

theorem calmly_session {P : Prog W} {w : W} (cs : List (W × Call)) : ∀ {l l' : List (ClientStep W)} {st st' : Calm.St W}, Calm.Session P w l st →
    calmly P cs l st = some (l', st') → Calm.Session P w l' st' := by
  induction cs with
  | nil => intro l l' st st' h hp; cases hp; exact h
  | cons a cs ih =>
    obtain ⟨v, c⟩ := a
    intro l l' st st' h hp
    unfold calmly at hp
    split at hp
    · next hr => exact ih (.returns h hr) hp
    · cases hp

def serenity : List (Nat × Call) :=
  [(0, .initiate 0), (0, .process ⟨10, 0⟩ 5), (0, .process ⟨2, 2⟩ 5), (0, .process ⟨2, 3⟩ 5), (0, .process ⟨3, 0⟩ 5), (0, .process ⟨1, 0⟩ 5),
    (1, .initiate 0), (0, .post ⟨4, 0⟩), (0, .process ⟨5, 0⟩ 5), (0, .process ⟨11, 0⟩ 5), (0, .process ⟨8, 0⟩ 5), (2, .terminate)]

/-- Twelve calls: posted events, events that are deferred and released, entry with and without history, `initiate()` while the machine runs, transitions out
of orthogonal regions, a termination, `terminate()`. The library makes the same 74 calls of user code. -/
example : ∃ (l : List (ClientStep Nat)) (m : Mach Nat) (st : Calm.St Nat), SC.Session serene 0 l m ∧ Calm.Session serene 0 l st ∧ Calm.Matches m st ∧
    l.length = 12 ∧ m.trace.length = 74 := by
  have h : ((calmly serene serenity [] (Calm.start 0)).any fun r => decide (r.1.length = 12 ∧ r.2.trace.length = 74)) = true := by decide +kernel
  rw [Option.any_eq_true] at h
  obtain ⟨⟨l, st⟩, h1, h2⟩ := h
  obtain ⟨h2, h3⟩ := of_decide_eq_true h2
  have hs := calmly_session serenity Calm.Session.new h1
  obtain ⟨m, k1, k2⟩ := C54_calm (P := serene) wf serene_contract serene_plain serene_smooth hs
  exact ⟨l, m, st, k1, hs, k2, h2, by rw [k2.calls]; exact h3⟩

end Ex
end SC
