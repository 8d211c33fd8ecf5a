import Verif.Cascade
import Verif.Props.Reference
import Verif.Props.Returns
/-!
# Cascades of posted events end (C55)

C43 bounds the number of turns by the number of events posted. Here: a condition on the user code under which `process_event` and `initiate` end although
events are posted. `Descends`, `MayDefer` and `Reticent` are in `Cascade.lean`.
-/

namespace SC
open Spec
variable {W α : Type} {P : Prog W} {m : Mach W} [Preorder α] [WellFoundedLT α] {rank : Event → α}

omit [Preorder α] [WellFoundedLT α] in
theorem Cascade.run_initiate_eq (k : Nat) (st : Ref.St W) : Ref.run P (.initiate k) st = Ref.R.bnd (Ref.R.bnd (Ref.stop P) fun _ =>
    Ref.during none (Ref.guarded P (Ref.translated P none (do
      Ref.build P (Ref.depth P) (.deep P.initial)
      pure .discard)))) (fun _ => Ref.drain P k) st := by
  show Ref.R.bnd (Ref.stop P) (fun _ => Ref.R.bnd _ fun _ => Ref.drain P k) st = _
  unfold Ref.R.bnd
  cases Ref.stop P st <;> rfl

theorem Cascade.run_initiate (hd : Descends P rank) (hh : Reticent P) (st : Ref.St W) :
    ∃ k0, ∀ k, k0 ≤ k → ∀ st', Ref.run P (.initiate k) st ≠ .ok false st' := by
  have hrun := fun k => Cascade.run_initiate_eq (P := P) k st
  cases hx : Ref.R.bnd (Ref.stop P) (fun _ => Ref.during none (Ref.guarded P (Ref.translated P none (do
      Ref.build P (Ref.depth P) (.deep P.initial)
      pure .discard)))) st with
  | thrown x st1 =>
    refine ⟨0, fun k _ st' h => ?_⟩
    rw [hrun] at h
    unfold Ref.R.bnd at h hx
    rw [hx] at h
    cases h
  | ok a st1 =>
    obtain ⟨k0, hk⟩ := Cascade.drains hd hh st1
    refine ⟨k0, fun k hle st' h => hk k hle st' ?_⟩
    rw [hrun] at h
    unfold Ref.R.bnd at h hx
    rw [hx] at h
    exact h

theorem Cascade.run_process (hd : Descends P rank) (hh : Reticent P) (e : Event) (st : Ref.St W) :
    ∃ k0, ∀ k, k0 ≤ k → ∀ st', Ref.run P (.process e k) st ≠ .ok false st' := by
  have hrun : ∀ k, Ref.run P (.process e k) st = Ref.R.bnd (Ref.dispatch P e) (fun _ => Ref.drain P k) st := fun _ => rfl
  cases hx : Ref.dispatch P e st with
  | thrown x st1 =>
    refine ⟨0, fun k _ st' h => ?_⟩
    rw [hrun] at h
    unfold Ref.R.bnd at h
    rw [hx] at h
    cases h
  | ok a st1 =>
    obtain ⟨k0, hk⟩ := Cascade.drains hd hh st1
    refine ⟨k0, fun k hle st' h => hk k hle st' ?_⟩
    rw [hrun] at h
    unfold Ref.R.bnd at h
    rw [hx] at h
    exact h

section
variable (hwf : P.toChart.WF) (hok : Contract P) (hpl : Plain P) (hd : Descends P rank) (hh : Reticent P)
include hwf hok hpl hd hh

/-- **C55.** If whatever user code posts while an event is handled ranks lower than this event, and reactions that defer an event, or forward one that may be
deferred, post nothing, then `process_event` ends: after finitely many turns it returns or throws. -/
theorem C55_process_event (e : Event) (h : Reach P m) : ∃ k, ((∃ m', processEvent P e k m = .ok true m') ∨ ∃ x m', processEvent P e k m = .thrown x m') ∧
    ∀ k', k ≤ k' → processEvent P e k' m = processEvent P e k m := by
  obtain ⟨k, hk⟩ := Cascade.run_process hd hh e (abs m)
  have hc := C53_call hwf hok hpl h (.process e k) trivial
  change match processEvent P e k m with
    | .ok b m' => Ref.run P (.process e k) (abs m) = .ok b (abs m')
    | .thrown x m' => Ref.run P (.process e k) (abs m) = .thrown x (abs m')
    | .fault _ => False at hc
  cases hr : processEvent P e k m with
  | fault g => rw [hr] at hc; exact hc.elim
  | thrown x m' => exact ⟨k, .inr ⟨x, m', hr⟩, fun k' hk' => C43_limit hk' (by rw [hr]; intro _ h; cases h)⟩
  | ok b m' =>
    rw [hr] at hc
    cases b with
    | false => exact absurd hc (hk k (Nat.le_refl k) _)
    | true => exact ⟨k, .inl ⟨m', hr⟩, fun k' hk' => C43_limit hk' (by rw [hr]; intro _ h; cases h)⟩

omit hd hh [Preorder α] [WellFoundedLT α] in
theorem Cascade.initiate_false {k : Nat} {st : Ref.St W} (h : Reach P m) (hl : (Call.initiate k).legal P m) (hr : Ref.run P (.initiate k) (abs m) = .ok false st) :
    ∃ m', initiate P k m = .ok false m' := by
  have hc := C53_call hwf hok hpl h (.initiate k) hl
  change match initiate P k m with
    | .ok b m' => Ref.run P (.initiate k) (abs m) = .ok b (abs m')
    | .thrown x m' => Ref.run P (.initiate k) (abs m) = .thrown x (abs m')
    | .fault _ => False at hc
  cases hi : initiate P k m with
  | fault g => rw [hi] at hc; exact hc.elim
  | thrown x m' => rw [hi, hr] at hc; cases hc
  | ok b m' => rw [hi, hr] at hc; injection hc with h1 _; subst h1; exact ⟨m', rfl⟩

/-- **C55.** The same of `initiate()`. -/
theorem C55_initiate (h : Reach P m) (hl : (Call.initiate 0).legal P m) : ∃ k, ((∃ m', initiate P k m = .ok true m') ∨ ∃ x m', initiate P k m = .thrown x m') ∧
    ∀ k', k ≤ k' → initiate P k' m = initiate P k m := by
  obtain ⟨k, hk⟩ := Cascade.run_initiate hd hh (abs m)
  have hc := C53_call hwf hok hpl h (.initiate k) hl
  change match initiate P k m with
    | .ok b m' => Ref.run P (.initiate k) (abs m) = .ok b (abs m')
    | .thrown x m' => Ref.run P (.initiate k) (abs m) = .thrown x (abs m')
    | .fault _ => False at hc
  cases hr : initiate P k m with
  | fault g => rw [hr] at hc; exact hc.elim
  | thrown x m' => exact ⟨k, .inr ⟨x, m', hr⟩, fun k' hk' => C43_limit_initiate hk' (by rw [hr]; intro _ h; cases h)⟩
  | ok b m' =>
    rw [hr] at hc
    cases b with
    | false => exact absurd hc (hk k (Nat.le_refl k) _)
    | true => exact ⟨k, .inl ⟨m', hr⟩, fun k' hk' => C43_limit_initiate hk' (by rw [hr]; intro _ h; cases h)⟩

end

end SC

/-! ## Examples -/

namespace SC.Ex
open Spec

/-- The example program; a custom reaction posts two events unless it defers its event, the destructor of `H` (7) posts one. -/
def falls : Prog Nat := { prog with
  dtor := fun s v w => (w, match v.trig with
    | some e => if s = 7 ∧ e.ty ≠ 9 ∧ e.ty ≠ 20 then [.post ⟨20, 0⟩] else []
    | none => [.post ⟨2, 0⟩])
  react := fun s i e v w => ({ world := w, cmds := if e.ty = 2 ∧ e.val ≠ 2 then [.post ⟨1, 0⟩, .post ⟨4, 0⟩] else [] }, (prog.react s i e v w).2) }

/-- Events of type 2 post events of types 1 and 4, these may post events of type 20. -/
def height (e : Event) : Nat := match e.ty with
  | 2 => 2
  | 20 => 0
  | _ => 1

theorem falls_wf : falls.toChart.WF := wf
theorem falls_contract : Contract falls := ⟨fun _ _ _ _ => rfl, contract.react⟩
theorem falls_plain : Plain falls := by
  constructor
  case dtor =>
    intro v v' s w h
    show (w, _) = (w, _)
    simp only [h.trig]
  all_goals intros; rfl

theorem falls_descends : Descends falls height := by
  constructor
  case dtor =>
    intro s v w e hv p hp
    change Cmd.post p ∈ (match v.trig with
      | some e => if s = 7 ∧ e.ty ≠ 9 ∧ e.ty ≠ 20 then [.post ⟨20, 0⟩] else []
      | none => [.post ⟨2, 0⟩] : List Cmd) at hp
    rw [hv] at hp
    simp only [] at hp
    split at hp
    · next hc =>
      simp only [List.mem_singleton, Cmd.post.injEq] at hp
      subst hp
      refine ⟨?_, ?_⟩
      · show (0 : Nat) < height e
        unfold height
        split
        · decide
        · next h20 => exact absurd h20 hc.2.2
        · decide
      · intro x hx
        change (if 100 ≤ x then some (⟨9, x⟩ : Event) else none) = some e at hx
        split at hx
        · injection hx with hx; subst hx; exact absurd rfl hc.2.1
        · cases hx
    · cases hp
  case react =>
    intro s i e v w p hp
    change Cmd.post p ∈ (if e.ty = 2 ∧ e.val ≠ 2 then [.post ⟨1, 0⟩, .post ⟨4, 0⟩] else [] : List Cmd) at hp
    split at hp
    · next hc =>
      have he : height e = 2 := by unfold height; simp only [hc.1]
      refine ⟨?_, ?_⟩
      · rw [he]
        simp only [List.mem_cons, Cmd.post.injEq, List.mem_nil_iff, or_false] at hp
        rcases hp with rfl | rfl <;> decide
      · intro x hx
        change (if 100 ≤ x then some (⟨9, x⟩ : Event) else none) = some e at hx
        split at hx
        · injection hx with hx; subst hx; exact absurd (show (9 : Nat) = 2 from hc.1) (by decide)
        · cases hx
    · cases hp
  all_goals (intros; intro p hp; cases hp)

theorem falls_reticent : Reticent falls := by
  intro s i e v w p hm hf hp
  change Cmd.post p ∈ (if e.ty = 2 ∧ e.val ≠ 2 then [.post ⟨1, 0⟩, .post ⟨4, 0⟩] else [] : List Cmd) at hp
  split at hp
  · next hc =>
    obtain ⟨s, r, h1, h2, h3⟩ := hm
    rcases h3 with h3 | ⟨id, v, w, h3, h4⟩
    · have all3 : ∀ s, ((chart.reactions s).all fun r => match r.kind with
          | .deferral => r.ev == some 3
          | _ => true) = true := by
        intro s
        unfold chart
        simp only
        split <;> rfl
      have key : ∀ s, ∀ r ∈ chart.reactions s, r.kind = .deferral → r.ev = some 3 := by
        intro s r hr hk
        have := List.all_eq_true.1 (all3 s) r hr
        rw [hk] at this
        exact eq_of_beq this
      have := key s r h1 h3
      rw [this, hc.1] at h2
      rcases h2 with h2 | h2 <;> cases h2
    · change (match e.val with
        | 0 => Decision.discard
        | 1 => .forward
        | 2 => .defer
        | 3 => if s = 2 then .transit ⟨.plain, 3⟩ none else .discard
        | _ => .terminate) = .defer at h4
      split at h4
      · cases h4
      · cases h4
      · next hv => exact hc.2 hv
      · split at h4 <;> cases h4
      · cases h4
  · cases hp

/-- `C` (2) and `G` (6) are active. The event makes `C` post two events; the second of them makes `H` (7) follow `G`. The machine then waits for more. -/
example : ∃ m, Reach falls m ∧ ∃ k, ((∃ m', processEvent falls ⟨2, 0⟩ k m = .ok true m') ∨ ∃ x m', processEvent falls ⟨2, 0⟩ k m = .thrown x m') ∧
    ∀ k', k ≤ k' → processEvent falls ⟨2, 0⟩ k' m = processEvent falls ⟨2, 0⟩ k m := by
  obtain ⟨m, h1, _⟩ := scenario_ex (P := falls) [(0, .initiate 3)] 0
    (fun m => match processEvent falls ⟨2, 0⟩ 0 m with
      | .ok false m' => m'.evq.length == 2
      | _ => false) (by decide +kernel)
  exact ⟨m, h1, C55_process_event falls_wf falls_contract falls_plain falls_descends falls_reticent _ h1⟩

/-- `H` is left: three ranks are used. -/
example : ∃ m, Reach falls m ∧ (match processEvent falls ⟨2, 0⟩ 1 m with
    | .ok false m' => m'.evq == [⟨4, 0⟩]
    | _ => false) = true := by
  exact scenario_ex (P := falls) [(0, .initiate 3)] 0 _ (by decide +kernel)

/-! ## A reaction that posts and defers -/

/-- State 0 defers an event of type 1 and posts one of type 2, which leads out of the state and into it again. The constructor posts the first event. -/
def wheel : Prog Unit where
  n := 1
  parent _ := none
  pos _ := 0
  init _ := []
  shallowH _ := false
  deepH _ := false
  isSimple _ := false
  initial := 0
  reactions s := if s = 0 then [⟨some 1, .custom 0⟩, ⟨some 2, .transition ⟨.plain, 0⟩ none⟩] else []
  ctor := fun _ v w => { world := w, cmds := if v.trig = none then [.post ⟨1, 0⟩] else [] }
  exit := fun _ _ w => { world := w }
  dtor := fun _ _ w => (w, [])
  action := fun _ _ w => { world := w }
  react := fun _ _ e _ w => ({ world := w, cmds := if e.ty = 1 then [.post ⟨2, 0⟩] else [] }, .defer)
  unconsumed := fun _ _ w => { world := w }
  alloc := fun _ w => (w, none)
  translate := fun _ => none

theorem wheel_wf : wheel.toChart.WF := Chart.wf_of_check _ (by decide)
theorem wheel_contract : Contract wheel := ⟨fun _ _ _ h => (by cases h), fun _ _ _ _ _ _ _ h => (by cases h)⟩
theorem wheel_plain : Plain wheel := by
  constructor
  case ctor =>
    intro v v' s w h
    show ({ world := w, cmds := _ } : UOut Unit) = { world := w, cmds := _ }
    rw [h.trig]
  all_goals intros; rfl

def wheelRank (e : Event) : Nat := if e.ty = 1 then 1 else 0

theorem wheel_descends : Descends wheel wheelRank := by
  constructor
  case ctor =>
    intro s v w e hv p hp
    change Cmd.post p ∈ (if v.trig = none then [.post ⟨1, 0⟩] else [] : List Cmd) at hp
    rw [hv] at hp
    cases hp
  case react =>
    intro s i e v w p hp
    change Cmd.post p ∈ (if e.ty = 1 then [.post ⟨2, 0⟩] else [] : List Cmd) at hp
    split at hp
    · next hc =>
      simp only [List.mem_singleton, Cmd.post.injEq] at hp
      subst hp
      exact ⟨by unfold wheelRank; rw [if_pos hc]; decide, fun x h => by cases h⟩
    · cases hp
  all_goals (intros; intro p hp; cases hp)

/-- State 0 is active; the event of type 1 is waiting. -/
def turning (tr : List (Option Event × Obs)) : Ref.St Unit where
  act s := decide (s = 0)
  defers _ := false
  leaves := [0]
  nodes := 1
  root := some 0
  unstable := none
  first := false
  full := true
  sh _ := none
  dh _ := none
  shKeys _ := false
  dhKeys _ := false
  evq := [⟨1, 0⟩]
  dq := []
  trig := none
  world := ()
  trace := tr

theorem wheel_one (tr : List (Option Event × Obs)) : Ref.dispatch wheel ⟨1, 0⟩ { turning tr with evq := [] } = .ok () { turning (tr ++ [(some ⟨1,0⟩, .react 0 0), (some ⟨1,0⟩, .defer 0)]) with evq := [⟨2, 0⟩], dq := [⟨1, 0⟩], defers := fun s => decide (s = 0) } := by
  simp [Ref.dispatch, Ref.during, Ref.guarded, Ref.ask, Ref.translated, Ref.offerFrom, Ref.offer, Ref.local', wheel, turning, Ref.react, Ref.custom, Ref.user, Ref.defer, Ref.R.tryCatch, Ref.R.bnd, bind, pure, Ref.R.ret, Ref.R.get, Ref.R.modify, Ref.St.log, Ref.St.cmd, Ref.alloc, Ref.St.view]


theorem wheel_term : wheel.termState 0 0 = some 0 := by decide
theorem wheel_common : wheel.commonCtx 0 0 = none := by decide
theorem wheel_path : wheel.pathBelow none 0 = [] := by decide
theorem wheel_order : Spec.exitOrder wheel.toChart (fun s => decide (s = 0)) 0 = [0] := by decide


theorem wheel_strict : wheel.relaxed = false := rfl
theorem wheel_depth : Ref.depth wheel = 599 + 1 + 1 + 1 := rfl

theorem wheel_exit (st : Ref.St Unit) (keep : Sid → Bool) (h2 : st.leaves = [0]) (h4 : st.unstable = none) (h6 : st.defers 0 = true) (h7 : st.trig = some ⟨2, 0⟩) :
    Ref.exitOne wheel keep true 0 st = .ok () { st with
      act := fun s => if s = 0 then false else st.act s, defers := fun s => if s = 0 then false else st.defers s, leaves := [],
      evq := st.dq ++ st.evq, dq := [], root := none, trace := st.trace ++ [(some ⟨2, 0⟩, .exit 0), (some ⟨2, 0⟩, .destroy 0)] } := by
  simp [Ref.exitOne, Ref.R.bnd, bind, pure, Ref.R.modify, Ref.R.ret, Ref.R.onThrow, Ref.user, wheel, Ref.leave, h2, h4, h6, h7, Ref.rememberShallow, Ref.rememberDeep, Ref.destroy, Ref.St.log, Chart.isLeaf]

theorem wheel_enter (st : Ref.St Unit) (h2 : st.leaves = []) (h5 : st.nodes = 1) (h4 : st.unstable = none) (h7 : st.trig = some ⟨2, 0⟩) (hf : st.first = true) :
    Ref.enter wheel 0 st = .ok () { st with
      act := fun s => if s = 0 then true else st.act s, defers := fun s => if s = 0 then false else st.defers s, leaves := [0],
      root := some 0, first := false, trace := st.trace ++ [(some ⟨2, 0⟩, .enter 0)] } := by
  simp [Ref.enter, Ref.alloc, Ref.appear, Ref.attach, Ref.register, Ref.St.view, Ref.R.get, Ref.R.bnd, bind, pure, Ref.R.modify, Ref.R.ret, Ref.R.onThrow, Ref.user, wheel, h2, h4, h5, h7, hf, Ref.St.log, Chart.isLeaf]

theorem wheel_build (st : Ref.St Unit) (h2 : st.leaves = []) (h5 : st.nodes = 1) (h4 : st.unstable = none) (h7 : st.trig = some ⟨2, 0⟩) (hf : st.first = true) :
    Ref.build wheel (Ref.depth wheel) (.chain [] ⟨.plain, 0⟩) st = .ok () { st with
      act := fun s => if s = 0 then true else st.act s, defers := fun s => if s = 0 then false else st.defers s, leaves := [0],
      root := some 0, first := false, trace := st.trace ++ [(some ⟨2, 0⟩, .enter 0)] } := by
  rw [wheel_depth]
  simp only [Ref.build, Ref.recalled, bind, Ref.R.bnd, Ref.R.get, show wheel.parent 0 = none from rfl, wheel_enter st h2 h5 h4 h7 hf, show wheel.init 0 = [] from rfl, Ref.R.onThrow, pure, Ref.R.ret]

theorem wheel_leave (st : Ref.St Unit) (h1 : st.full = true) (h2 : st.leaves = [0]) (h3 : st.act = fun s => decide (s = 0)) (h4 : st.unstable = none) (h6 : st.defers 0 = true) (h7 : st.trig = some ⟨2, 0⟩) :
    Ref.leaveAndAct wheel 0 0 none none st = .ok () { st with
      act := fun s => if s = 0 then false else st.act s, defers := fun s => if s = 0 then false else st.defers s, leaves := [], first := true,
      evq := st.dq ++ st.evq, dq := [], root := none, trace := st.trace ++ [(some ⟨2, 0⟩, .exit 0), (some ⟨2, 0⟩, .destroy 0)] } := by
  have hw : Ref.leaveAndAct wheel 0 0 none none = (do
      Ref.leaveFor wheel (fun x => none == some x) fun a => Spec.exitOrder wheel.toChart a 0
      Ref.action wheel none) := by
    unfold Ref.leaveAndAct
    rw [if_neg (by rw [wheel_strict]; decide)]
  rw [hw]
  simp only [Ref.leaveFor, Ref.exits, bind, Ref.R.bnd, Ref.R.get, Ref.R.modify, h1, h3, wheel_order, Ref.exitAll]
  simp [wheel_exit, h2, h4, h6, h7, pure, Ref.R.ret, Ref.action]

theorem wheel_transit (st : Ref.St Unit) (h1 : st.full = true) (h2 : st.leaves = [0]) (h3 : st.act = fun s => decide (s = 0)) (h4 : st.unstable = none) (h5 : st.nodes = 1)
    (h6 : st.defers = fun s => decide (s = 0)) (h7 : st.trig = some ⟨2, 0⟩) :
    Ref.transit wheel 0 ⟨.plain, 0⟩ none st = .ok () { st with
      defers := fun _ => false, first := false, evq := st.dq ++ st.evq, dq := [], root := some 0,
      trace := st.trace ++ [(some ⟨2, 0⟩, .exit 0), (some ⟨2, 0⟩, .destroy 0), (some ⟨2, 0⟩, .enter 0)] } := by
  simp only [Ref.transit, wheel_term, wheel_common, wheel_path, Ref.R.onThrow, bind, Ref.R.bnd]
  rw [wheel_leave st h1 h2 h3 h4 (by rw [h6]; rfl) h7]
  simp only [wheel_build, h2, h3, h4, h5, h6, h7]
  congr 2
  · funext s
    by_cases hs : s = 0
    · rw [if_pos hs, hs]; rfl
    · simp [hs]
  · funext s
    by_cases hs : s = 0
    · rw [if_pos hs]
    · simp [hs]
  · simp

theorem wheel_two (tr : List (Option Event × Obs)) : Ref.dispatch wheel ⟨2, 0⟩ { turning tr with evq := [], dq := [⟨1, 0⟩], defers := fun s => decide (s = 0) } =
    .ok () (turning (tr ++ [(some ⟨2, 0⟩, .exit 0), (some ⟨2, 0⟩, .destroy 0), (some ⟨2, 0⟩, .enter 0)])) := by
  have hf : (wheel.reactions 0).find? (fun r => decide (r.ev = none ∨ r.ev = some 2)) = some ⟨some 2, .transition ⟨.plain, 0⟩ none⟩ := by decide
  simp only [Ref.dispatch, Ref.during, Ref.guarded, Ref.ask, Ref.translated, Ref.offerFrom, Ref.offer, Ref.local', Ref.react, Ref.R.tryCatch, Ref.R.bnd, bind, pure, Ref.R.ret, Ref.R.get, turning, hf]
  rw [wheel_transit _ rfl rfl rfl rfl rfl rfl rfl]
  rfl

theorem wheel_start : ∃ tr, (do
      Ref.stop wheel
      Ref.during none (Ref.guarded wheel (Ref.translated wheel none (do
        Ref.build wheel (Ref.depth wheel) (.deep wheel.initial)
        pure .discard))) : Ref.R Unit Ref.Answer) (Ref.start ()) = .ok .discard (turning tr) := by
  refine ⟨[(none, .enter 0)], ?_⟩
  rw [wheel_depth]
  simp [Ref.build, Ref.stop, Ref.leaveAll, Ref.start, Ref.during, Ref.guarded, Ref.translated, Ref.R.tryCatch, Ref.enter, Ref.alloc, Ref.appear, Ref.attach, Ref.register, Ref.St.view, Ref.St.cmd, Ref.R.get, Ref.R.bnd, bind, pure, Ref.R.modify, Ref.R.ret, Ref.R.onThrow, Ref.user, wheel, Ref.St.log, Chart.isLeaf, Chart.regions, turning]
  constructor <;> funext s <;> by_cases hs : s = 0 <;> simp [hs]

theorem wheel_turn (tr : List (Option Event × Obs)) (k : Nat) : ∃ tr', Ref.drain wheel (k + 2) (turning tr) = Ref.drain wheel k (turning tr') := by
  refine ⟨tr ++ [(some ⟨1, 0⟩, .react 0 0), (some ⟨1, 0⟩, .defer 0)] ++ [(some ⟨2, 0⟩, .exit 0), (some ⟨2, 0⟩, .destroy 0), (some ⟨2, 0⟩, .enter 0)], ?_⟩
  rw [Cascade.drain_cons (st := turning tr) rfl, wheel_one]
  simp only []
  rw [Cascade.drain_cons (e := ⟨2, 0⟩) (q := []) rfl]
  have h := wheel_two (tr ++ [(some ⟨1, 0⟩, .react 0 0), (some ⟨1, 0⟩, .defer 0)])
  generalize Ref.dispatch wheel ⟨2, 0⟩ _ = o at h ⊢
  rw [h]

theorem wheel_turns (k : Nat) : ∀ tr, ∃ st, Ref.drain wheel (2 * k) (turning tr) = .ok false st := by
  induction k with
  | zero => intro tr; exact ⟨turning tr, rfl⟩
  | succ k ih =>
    intro tr
    obtain ⟨tr', h⟩ := wheel_turn tr (2 * k)
    rw [show 2 * (k + 1) = 2 * k + 2 from rfl, h]
    exact ih tr'

theorem wheel_runs (k : Nat) : ∃ st, Ref.run wheel (.initiate (2 * k)) (Ref.start ()) = .ok false st := by
  obtain ⟨t, h2⟩ := wheel_start
  obtain ⟨st, h3⟩ := wheel_turns k t
  refine ⟨st, ?_⟩
  rw [Cascade.run_initiate_eq]
  generalize hx : Ref.R.bnd (Ref.stop wheel) _ = x
  have h4 : x (Ref.start ()) = .ok .discard (turning t) := by rw [← hx]; exact h2
  unfold Ref.R.bnd
  rw [h4]
  exact h3

/-- The second condition of C55 is needed: whatever is posted ranks lower than the event being handled, but `initiate()` never returns. -/
theorem C55_needed : Descends wheel wheelRank ∧ ∀ k, ∃ m', initiate wheel k (Mach.fresh ()) = .ok false m' := by
  refine ⟨wheel_descends, fun k => ?_⟩
  have hl : (Call.initiate (2 * k)).legal wheel (Mach.fresh ()) := Call.legal_of_terminated rfl _
  obtain ⟨st, hst⟩ := wheel_runs k
  obtain ⟨m2, h2⟩ := Cascade.initiate_false wheel_wf wheel_contract wheel_plain (.fresh ()) hl hst
  refine Classical.byContradiction fun hn => ?_
  have := C43_limit_initiate (P := wheel) (m := Mach.fresh ()) (k := k) (k' := 2 * k) (by omega) (fun m' h => hn ⟨m', h⟩)
  exact hn ⟨m2, this ▸ h2⟩

end SC.Ex
