import Verif.Refine8
import Verif.Example
/-!
# C53: the library behaves like the reference machine

`Ref.lean` describes a state machine without pointers, reference counts, list nodes or removal loops: the configuration is a set of states, a
reaction is an explicit list of states to leave and a tree of states to enter. Here: for every sequence of calls of a client the library and the
reference machine give the same results (return or exception) and the same observable state, and one has such a sequence iff the other has.
-/

namespace SC
variable {W : Type}

/-- How a call ended. -/
inductive CallEnd
  | returned
  | threw (x : Exc)
deriving DecidableEq

/-- One step of a client: the environment is changed to `world`, then `call` is made and ends with `ended`. -/
structure ClientStep (W : Type) where
  world : W
  call : Call
  ended : CallEnd

/-- The library object after its construction in environment `w` and the steps `l` (latest first). -/
inductive Session (P : Prog W) (w : W) : List (ClientStep W) → Mach W → Prop
  | new : Session P w [] (Mach.fresh w)
  | returns {l m m'} {v : W} {c : Call} : Session P w l m → c.legal P { m with world := v } → c.run P { m with world := v } = .ok true m' →
      Session P w (⟨v, c, .returned⟩ :: l) m'
  | throws {l m m' x} {v : W} {c : Call} : Session P w l m → c.legal P { m with world := v } → c.run P { m with world := v } = .thrown x m' →
      Session P w (⟨v, c, .threw x⟩ :: l) m'

/-- `initiate()` is called only if its initial termination succeeds (see C36). -/
def Ref.Op.legal (P : Prog W) (st : Ref.St W) : Ref.Op → Prop
  | .initiate _ => ∀ st', Ref.stop P st = .ok () st' → st'.root = none
  | _ => True

/-- The same for the reference machine. -/
inductive Ref.Session (P : Prog W) (w : W) : List (ClientStep W) → Ref.St W → Prop
  | new : Ref.Session P w [] (Ref.start w)
  | returns {l st st'} {v : W} {c : Call} : Ref.Session P w l st → c.op.legal P { st with world := v } →
      Ref.run P c.op { st with world := v } = .ok true st' → Ref.Session P w (⟨v, c, .returned⟩ :: l) st'
  | throws {l st st' x} {v : W} {c : Call} : Ref.Session P w l st → c.op.legal P { st with world := v } →
      Ref.run P c.op { st with world := v } = .thrown x st' → Ref.Session P w (⟨v, c, .threw x⟩ :: l) st'

/-- What can be observed is the same: the states, the range `state_begin()`..`state_end()`, `terminated()`, `triggering_event()`, the events waiting
in both queues, the environment, and every call of user code so far together with the triggering event at that time. -/
structure Matches (m : Mach W) (st : Ref.St W) : Prop where
  states : ∀ s, (m.heap s).isSome = st.act s
  range : (List.range m.endIx).map m.slot = st.leaves.map some
  terminated : m.outermost = none ↔ st.root = none
  trig : m.trig = st.trig
  posted : m.evq = st.evq
  deferred : m.dq = st.dq
  world : m.world = st.world
  calls : m.trace = st.trace

theorem matches_abs {m : Mach W} (h : Filled m) : Matches m (abs m) :=
  ⟨fun _ => rfl, (view_same h).slots, Iff.rfl, rfl, rfl, rfl, rfl, rfl⟩

section
variable {P : Prog W} {m : Mach W} {w : W} {l : List (ClientStep W)} (hwf : P.toChart.WF) (hok : Contract P) (hpl : Plain P)

theorem Session.reach (h : Session P w l m) : Reach P m := by
  induction h with
  | new => exact .fresh w
  | returns _ hl hr ih => exact (ih.world _).returns hl hr
  | throws _ hl hr ih => exact (ih.world _).throws hl hr

include hwf hok hpl

theorem legal_iff (hm : Stable P.toChart m) (c : Call) : c.op.legal P (abs m) ↔ c.legal P m := by
  cases c with
  | initiate k =>
    have hs := terminate_sim hwf hok hpl hm
    constructor
    · intro h m1 hm1
      have := h _ (hs.ok hm1)
      unfold Mach.terminated
      rw [show m1.outermost = none from this]; rfl
    · intro h st hst
      have hw := terminate_wp' hwf hok hm
      cases hr : SC.terminate P m with
      | ok u m1 =>
        have h1 := hs.ok hr
        have h2 : Ref.Out.ok (id u) (abs m1) = .ok () st := by rw [← h1]; exact hst
        injection h2 with _ h3
        subst h3
        have := h m1 hr
        unfold Mach.terminated at this
        show m1.outermost = none
        cases ho : m1.outermost with
        | none => rfl
        | some s => rw [ho] at this; cases this
      | thrown x m1 =>
        have h1 := hs.thrown hr
        have h2 : Ref.Out.thrown x (abs m1) = .ok () st := by rw [← h1]; exact hst
        cases h2
      | fault g => unfold wp at hw; rw [hr] at hw; exact hw.elim
  | _ => exact Iff.rfl

/-- One call: the library does not fault, and ends as the reference machine does. -/
theorem C53_call (h : Reach P m) (c : Call) (hl : c.legal P m) :
    match c.run P m with
    | .ok b m' => Ref.run P c.op (abs m) = .ok b (abs m')
    | .thrown x m' => Ref.run P c.op (abs m) = .thrown x (abs m')
    | .fault _ => False := by
  have hm := (h.stable hwf hok).1
  have hw := call_wp hwf hok c hm hl
  have hs := call_sim hwf hok hpl c hm hl
  unfold wp at hw
  unfold Sim at hs
  cases hr : c.run P m with
  | ok b m' => rw [hr] at hs; exact hs
  | thrown x m' => rw [hr] at hs; exact hs
  | fault g => rw [hr] at hw; exact hw.elim

theorem Session.sound (h : Session P w l m) : Ref.Session P w l (abs m) := by
  induction h with
  | new => exact .new
  | @returns l m m' v c h hl hr ih =>
    have hre := (h.reach).world v
    have := C53_call hwf hok hpl hre c hl
    rw [hr] at this
    exact .returns ih ((legal_iff hwf hok hpl (hre.stable hwf hok).1 c).2 hl) this
  | @throws l m m' x v c h hl hr ih =>
    have hre := (h.reach).world v
    have := C53_call hwf hok hpl hre c hl
    rw [hr] at this
    exact .throws ih ((legal_iff hwf hok hpl (hre.stable hwf hok).1 c).2 hl) this

/-- Whatever a client does with the library, the same steps end in the same way with the reference machine, and nothing else can be observed. -/
theorem C53_library (h : Session P w l m) : ∃ st, Ref.Session P w l st ∧ Matches m st :=
  ⟨abs m, h.sound hwf hok hpl, matches_abs ((h.reach).stable hwf hok).1.inv.filled⟩

theorem Ref.Session.complete {st : Ref.St W} (h : Ref.Session P w l st) : ∃ m, SC.Session P w l m ∧ abs m = st := by
  induction h with
  | new => exact ⟨_, .new, rfl⟩
  | @returns l st st' v c h hl hr ih =>
    obtain ⟨m, h1, h2⟩ := ih
    have hre := (h1.reach).world v
    have he : ({ st with world := v } : Ref.St W) = abs { m with world := v } := by rw [← h2]; rfl
    rw [he] at hl hr
    have hl' := (legal_iff hwf hok hpl (hre.stable hwf hok).1 c).1 hl
    have := C53_call hwf hok hpl hre c hl'
    cases hx : c.run P { m with world := v } with
    | ok b m' =>
      rw [hx] at this
      have h3 : Ref.Out.ok b (abs m') = .ok true st' := by rw [← this]; exact hr
      injection h3 with h4 h5
      subst h4
      exact ⟨m', .returns h1 hl' hx, h5⟩
    | thrown y m' =>
      rw [hx] at this
      have h3 : Ref.Out.thrown y (abs m') = .ok true st' := by rw [← this]; exact hr
      cases h3
    | fault g => rw [hx] at this; exact this.elim
  | @throws l st st' x v c h hl hr ih =>
    obtain ⟨m, h1, h2⟩ := ih
    have hre := (h1.reach).world v
    have he : ({ st with world := v } : Ref.St W) = abs { m with world := v } := by rw [← h2]; rfl
    rw [he] at hl hr
    have hl' := (legal_iff hwf hok hpl (hre.stable hwf hok).1 c).1 hl
    have := C53_call hwf hok hpl hre c hl'
    cases hx : c.run P { m with world := v } with
    | ok b m' =>
      rw [hx] at this
      have h3 : Ref.Out.ok b (abs m') = .thrown x st' := by rw [← this]; exact hr
      cases h3
    | thrown y m' =>
      rw [hx] at this
      have h3 : Ref.Out.thrown y (abs m') = (.thrown x st' : Ref.Out W Bool) := by rw [← this]; exact hr
      injection h3 with h4 h5
      subst h4
      exact ⟨m', .throws h1 hl' hx, h5⟩
    | fault g => rw [hx] at this; exact this.elim

/-- Whatever a client does with the reference machine, the same steps end in the same way with the library, and nothing else can be observed. -/
theorem C53_reference {st : Ref.St W} (h : Ref.Session P w l st) : ∃ m, Session P w l m ∧ Matches m st := by
  obtain ⟨m, h1, h2⟩ := h.complete hwf hok hpl
  exact ⟨m, h1, h2 ▸ matches_abs ((h1.reach).stable hwf hok).1.inv.filled⟩

/-- The destructor: all states are left without `exit()`. -/
theorem C53_destroyed (h : Session P w l m) : ∃ st st' m', Ref.Session P w l st ∧ Ref.leaveAll P false st = .ok () st' ∧
    SC.destruct P m = .ok () m' ∧ Matches m' st' := by
  have hm := ((h.reach).stable hwf hok).1
  have hs := terminateMachine_sim hwf hpl false hm.inv
  have hw : wp (terminateMachine P false) (fun _ m' => Inv P.toChart noL none m') (fun _ _ => False) m :=
    terminateMachine_false_wp' hwf hm.inv fun m' hp _ => hp.inv
  cases hr : terminateMachine P false m with
  | ok u m' => exact ⟨abs m, abs m', m', h.sound hwf hok hpl, hs.ok hr, hr, matches_abs (wp_okAt hw hr).filled⟩
  | thrown x m' => exact (wp_thrownAt hw hr).elim
  | fault g => unfold wp at hw; rw [hr] at hw; exact hw.elim

end

/-! ## Concrete sessions -/

namespace Ex

/-- Run calls on the library; only `initiate()` on a terminated machine. -/
def play (P : Prog W) : List (W × Call) → List (ClientStep W) → Mach W → Option (List (ClientStep W) × Mach W)
  | [], l, m => some (l, m)
  | (v, c) :: cs, l, m =>
    if c.easy { m with world := v } = true then
      match c.run P { m with world := v } with
      | .ok true m' => play P cs (⟨v, c, .returned⟩ :: l) m'
      | .thrown x m' => play P cs (⟨v, c, .threw x⟩ :: l) m'
      | _ => none
    else none

theorem play_session {P : Prog W} {w : W} (cs : List (W × Call)) : ∀ {l l' : List (ClientStep W)} {m m' : Mach W}, Session P w l m →
    play P cs l m = some (l', m') → Session P w l' m' := by
  induction cs with
  | nil => intro l l' m m' h hp; cases hp; exact h
  | cons a cs ih =>
    obtain ⟨v, c⟩ := a
    intro l l' m m' h hp
    unfold play at hp
    split at hp
    · next hl =>
      have hleg : c.legal P { m with world := v } := by
        cases c with
        | initiate k => exact Call.legal_of_terminated hl k
        | _ => trivial
      split at hp
      · next hr => exact ih (.returns h hleg hr) hp
      · next hr => exact ih (.throws h hleg hr) hp
      · cases hp
    · cases hp

/-- The program of Example.lean with an action that looks at the machine: it throws unless there are two innermost states. -/
def looking : Prog Nat :=
  { prog with action := fun a v w => { world := w, throws := if v.slots.length = 2 then none else some (a + 1) } }

theorem looking_plain : Plain looking := by
  constructor
  all_goals intro v v'
  all_goals intros
  all_goals first
    | rfl
    | (rename_i h; show UOut.mk _ _ _ = UOut.mk _ _ _; simp only [h.slots])

theorem looking_contract : Contract looking := ⟨fun s v w h => contract.1 s v w h, fun s r e v w d a h => contract.2 s r e v w d a h⟩

def calls : List (Nat × Call) :=
  [(0, .initiate 0), (0, .process ⟨10, 0⟩ 5), (0, .process ⟨1, 0⟩ 5), (0, .initiate 0), (0, .process ⟨4, 0⟩ 5), (0, .process ⟨9, 0⟩ 5),
    (1, .initiate 0), (1, .process ⟨5, 0⟩ 5), (0, .process ⟨6, 0⟩ 4), (2, .terminate)]

def ends : List CallEnd := [.returned, .returned, .threw 8, .returned, .returned, .threw 2, .returned, .returned, .returned, .threw 2]

/-- Ten calls: an in-state reaction whose action finds two innermost states; transitions whose actions find fewer and throw, with an exception that
is not translated, so that the machine is terminated; entry again; a transition that leaves all states; `terminate()`, during which `exit()` of `C`
throws, the exception is translated, and the reaction to it throws. -/
example : ∃ (l : List (ClientStep Nat)) (m : Mach Nat) (st : Ref.St Nat), Session looking 0 l m ∧ Ref.Session looking 0 l st ∧ Matches m st ∧
    l.reverse.map (·.ended) = ends ∧ st.trace.length = 75 := by
  have h : ((play looking calls [] (Mach.fresh 0)).any fun r => decide (r.1.reverse.map (·.ended) = ends ∧ r.2.trace.length = 75)) = true := by
    decide +kernel
  rw [Option.any_eq_true] at h
  obtain ⟨⟨l, m⟩, h1, h2⟩ := h
  obtain ⟨h2, h3⟩ := of_decide_eq_true h2
  have hs := play_session calls Session.new h1
  obtain ⟨st, k1, k2⟩ := C53_library (P := looking) wf looking_contract looking_plain hs
  exact ⟨l, m, st, hs, k1, k2, h2, by rw [← k2.calls]; exact h3⟩

/-- The reference machine alone: the states after entering the initial state and the reaction to event 4, which leads from `G` (6) to `H` (7), and the
calls of user code. -/
example : (match (do
      let _ ← Ref.run looking (.initiate 0)
      Ref.run looking (.process ⟨4, 0⟩ 5) : Ref.R Nat Bool) (Ref.start 0) with
    | .ok b st => decide (b = true ∧ st.leaves = [2, 7] ∧ (List.range 9).filter st.act = [0, 1, 2, 4, 5, 7] ∧
        st.trace.map (·.2) = [.enter 0, .enter 1, .enter 2, .enter 4, .enter 5, .enter 6, .exit 6, .destroy 6, .enter 7])
    | _ => false) = true := by decide +kernel

end Ex
end SC
