import Verif.Tidy2
import Verif.Props.Cast
import Verif.Props.Ends
/-!
# Property C40: state queries inside user code

`P.watch` (Verif/Watch.lean) is `P` with user code that notes what it sees; `Seen` and `Shown` say
what it has to see.
-/

namespace SC
open Spec Chart
variable {W V : Type} {P : Prog W}

/-- The part of a machine that the queries read, as user code saw it. -/
def View.mach (v : View) (w : V) : Mach V :=
  { (Mach.fresh w) with heap := v.objs, slot := fun i => (v.slots[i]?).join, len := v.slots.length, endIx := v.slots.length }

namespace Spec

/-- How a library function ends. -/
inductive Outcome (α : Type)
  | value (a : α)
  | exception (x : Exc)
  | undefined
  deriving DecidableEq

def outcome {α : Type} : Res V α → Outcome α
  | .ok a _ => .value a
  | .thrown x _ => .exception x
  | .fault _ => .undefined

/-- `s` is found by a query: it is at or outside an innermost state that is alive and not being left. -/
def Found (C : Chart) (act : Sid → Bool) (o : Obs) (s : Sid) : Prop :=
  ∃ l, act l = true ∧ C.isLeaf l = true ∧ leaving o ≠ some l ∧ Below C s l

end Spec

/-! ### The queries read nothing else -/

section
variable {V' : Type} {m : Mach V} {m' : Mach V'} {P' : Prog V} {P'' : Prog V'}

theorem searchUp_view (hc : P'.toChart = P''.toChart) (hh : m'.heap = m.heap) (hit : Sid → Bool) : ∀ f s,
    (∃ r, searchUp P' hit f s m = .ok r m ∧ searchUp P'' hit f s m' = .ok r m') ∨
      ∃ g, searchUp P' hit f s m = .fault g ∧ searchUp P'' hit f s m' = .fault g := by
  intro f
  induction f with
  | zero =>
    intro s
    cases s with
    | none => exact .inl ⟨none, rfl, rfl⟩
    | some s => exact .inr ⟨_, rfl, rfl⟩
  | succ f ih =>
    intro s
    cases s with
    | none => exact .inl ⟨none, rfl, rfl⟩
    | some s =>
      have hb : ∀ {V : Type} (P : Prog V) (m : Mach V), searchUp P hit (f + 1) (some s) m = match m.heap s with
          | none => .fault .useAfterFree
          | some o => if hit s then .ok (some s) m else searchUp P hit f (if o.ctxSet then P.parent s else none) m := by
        intro V P m
        rw [searchUp]
        show M.bnd (getObj s) _ m = _
        unfold M.bnd getObj
        cases ho : m.heap s with
        | none => rfl
        | some o =>
          simp only
          by_cases hs : hit s = true
          · rw [if_pos hs, if_pos hs]; rfl
          · rw [if_neg hs, if_neg hs]
            show M.bnd (outerStatePtr P s) _ m = _
            have h1 : outerStatePtr P s m = .ok (if o.ctxSet then P.parent s else none) m := by
              unfold outerStatePtr
              show M.bnd (getObj s) _ m = _
              unfold M.bnd getObj
              rw [ho]
              show (if o.ctxSet = true then pure (P.parent s) else pure none : M V (Option Sid)) m = _
              by_cases h : o.ctxSet = true
              · rw [if_pos h, if_pos h]; rfl
              · rw [if_neg h, if_neg h]; rfl
            unfold M.bnd
            rw [h1]
      rw [hb, hb, hh]
      cases m.heap s with
      | none => exact .inr ⟨_, rfl, rfl⟩
      | some o =>
        simp only
        by_cases hs : hit s = true
        · rw [if_pos hs, if_pos hs]; exact .inl ⟨_, rfl, rfl⟩
        · rw [if_neg hs, if_neg hs, ← hc]; exact ih _

theorem searchLeaves_view (hc : P'.toChart = P''.toChart) (hh : m'.heap = m.heap) (hit : Sid → Bool) : ∀ n i, (∀ j, i ≤ j → j < i + n → m'.slot j = m.slot j) →
    (∃ r, searchLeaves P' hit n i m = .ok r m ∧ searchLeaves P'' hit n i m' = .ok r m') ∨
      ∃ g, searchLeaves P' hit n i m = .fault g ∧ searchLeaves P'' hit n i m' = .fault g := by
  intro n
  induction n with
  | zero => intro i _; exact .inl ⟨none, rfl, rfl⟩
  | succ n ih =>
    intro i hs
    have hb : ∀ {V : Type} (P : Prog V) (m : Mach V), searchLeaves P hit (n + 1) i m =
        M.bnd (searchUp P hit (P.n + 1) (m.slot i)) (fun r => match r with
          | some s => pure (some s)
          | none => searchLeaves P hit n (i + 1)) m := fun P m => by rw [searchLeaves]; rfl
    rw [hb, hb, hs i (Nat.le_refl _) (by omega), ← hc]
    unfold M.bnd
    rcases searchUp_view hc hh hit (P'.n + 1) (m.slot i) with ⟨r, h1, h2⟩ | ⟨g, h1, h2⟩
    · rw [h1, h2]
      cases r with
      | some s => exact .inl ⟨some s, rfl, rfl⟩
      | none => exact ih (i + 1) fun j h1 h2 => hs j (by omega) (by omega)
    · rw [h1, h2]; exact .inr ⟨g, rfl, rfl⟩

/-- A query made by user code gives the same answer on the machine and on what the user code sees of it. -/
theorem stateCast_view (hc : P'.toChart = P''.toChart) (conv : Sid → Bool) (k : CastTarget) (w : V') :
    outcome (stateCast P'' conv k (m.view.mach w)) = outcome (stateCast P' conv k m) := by
  have hs : ∀ j, 0 ≤ j → j < 0 + m.endIx → (m.view.mach w).slot j = m.slot j := by
    intro j _ hj
    show (((List.range m.endIx).map m.slot)[j]?).join = m.slot j
    rw [List.getElem?_map, List.getElem?_range (by omega)]
    rfl
  have he : (m.view.mach w).endIx = m.endIx := by
    show ((List.range m.endIx).map m.slot).length = _
    simp
  have hb : ∀ {V : Type} (P : Prog V) (m : Mach V), stateCast P conv k m =
      M.bnd (searchLeaves P conv m.endIx 0) (fun r => match r with
        | some s => pure (some s)
        | none => notFound k) m := fun P m => rfl
  rw [hb, hb, he]
  unfold M.bnd
  rcases searchLeaves_view (m' := m.view.mach w) hc rfl conv m.endIx 0 hs with ⟨r, h1, h2⟩ | ⟨g, h1, h2⟩
  · rw [h1, h2]
    cases r with
    | some s => rfl
    | none => cases k <;> rfl
  · rw [h1, h2]; rfl

end

/-! ### The property -/

theorem filterMap_congr' {α β : Type} {f g : α → Option β} {l : List α} (h : ∀ x ∈ l, f x = g x) : l.filterMap f = l.filterMap g := by
  induction l <;> simp_all [List.filterMap_cons]

theorem filterMap_get {α : Type} (l : List α) : (List.range l.length).filterMap (fun i => l[i]?) = l := by
  induction l using snocInd with
  | nil => rfl
  | snoc l x ih =>
    rw [List.length_append, List.length_singleton, List.range_succ, List.filterMap_append]
    refine congr (congrArg _ (Eq.trans (filterMap_congr' fun i hi => ?_) ih)) (by simp)
    exact List.getElem?_append_left (List.mem_range.1 hi)

/-- A machine whose user code takes notes: between calls, at the moment when the next queued event is
about to be dispatched during a call, or after the destructor. -/
inductive Noted (P : Prog W) (m : Mach (W × Log)) : Prop
  | between : Watched P m → Noted P m
  | during {m0 : Mach (W × Log)} {c : Call} : Watched P m0 → Call.legal P.watch m0 c → c.run P.watch m0 = .ok false m → Noted P m
  | destroyed {m0 : Mach (W × Log)} : Watched P m0 → SC.destruct P.watch m0 = .ok () m → Noted P m

section
variable (hwf : P.toChart.WF) (hok : Contract P) {m : Mach (W × Log)}
include hwf hok

theorem Noted.tidy (h : Noted P m) : Tidy P.toChart {} m := by
  cases h with
  | between h => exact h.tidy hwf hok
  | @during m0 c h0 hl hr =>
    have := call_keepsTidy P.watch_watching hwf hok.watch c m0 (h0.tidy hwf hok)
    unfold wlp at this; rw [hr] at this; exact this
  | destroyed h0 hr =>
    have := terminateMachine_tidy P.watch_watching hwf false (h0.tidy hwf hok)
    unfold wlp at this
    unfold SC.destruct at hr
    rw [hr] at this
    exact this

theorem Noted.has_life (h : Noted P m) : ∃ st, life P.toChart (m.trace.map (·.2)) = some st := by
  have hv : ∀ {m : Mach (W × Log)}, Visible P.watch m → ∃ st, Spec.life P.toChart (m.trace.map (·.2)) = some st :=
    fun h => ⟨_, ((h.stable (P := P.watch) hwf hok.watch).1).inv.tr⟩
  cases h with
  | between h => exact hv (.inl h.reach)
  | during h0 hl hr => exact hv (.inr ⟨_, _, h0.reach, hl, hr⟩)
  | @destroyed m0 h0 hr =>
    have hs := h0.reach.stable (P := P.watch) hwf hok.watch
    have hp : TermPost P.toChart false m0 m :=
      wp_ok (x := SC.destruct P.watch) (Q := fun _ m' => TermPost P.toChart false m0 m') (E := fun _ _ => False)
        (terminateMachine_false_wp (P := P.watch) hwf hs.1.inv fun _ h => h) hr
    exact ⟨_, hp.inv.tr⟩

/-- **C40 (the range).** Every call of user code was noted, in order, with the event that `triggering_event()`
returned; each saw exactly the innermost states alive at that moment, without the one being left. -/
theorem C40_state_range (h : Noted P m) :
    m.world.2.map (fun n => (n.1.trig, n.2)) = m.trace.filter (fun x => userCall x.2) ∧ Seen P.toChart m.world.2 :=
  ⟨(h.tidy hwf hok).logged, (h.tidy hwf hok).seen⟩

omit hok in
theorem life_forest {tr : List Obs} : ∀ {st : Life}, life P.toChart tr = some st → ∀ s p, alive tr s = true → P.parent s = some p → alive tr p = true := by
  induction tr using snocInd with
  | nil => intro st _ s p h; cases h
  | snoc tr o ih =>
    intro st h s p hs hp
    obtain ⟨st1, st2, h1, h2, _⟩ := life_split (a := tr) (b := []) h
    have ha := life_act h1
    rw [alive_snoc] at hs ⊢
    have hne : s < P.n → p ≠ s := fun hn he => by subst he; exact absurd (hwf.parent_lt hn hp) (Nat.lt_irrefl _)
    cases o with
    | enter x =>
      simp only [aliveStep] at hs ⊢
      split at hs
      · next he =>
        subst he
        simp only [lifeStep] at h2
        split at h2
        · next hc =>
          have := parentActive_iff.1 hc.2.2.2.1 p hp
          rw [ha] at this
          split
          · rfl
          · exact this
        · cases h2
      · split
        · rfl
        · exact ih h1 s p hs hp
    | destroy x =>
      simp only [aliveStep] at hs ⊢
      split at hs
      · cases hs
      · next he =>
        split
        · next hpx =>
          subst hpx
          simp only [lifeStep] at h2
          split at h2
          · next hc =>
            exfalso
            have hb := life_alive_bound h1 s hs
            have hcl := hc.2.2
            unfold childless at hcl
            rw [List.all_eq_true] at hcl
            have := hcl s (List.mem_range.2 hb)
            rw [ha, hs, hp] at this
            simp at this
          · cases h2
        · exact ih h1 s p hs hp
    | _ => exact ih h1 s p hs hp

omit hwf hok in
/-- The records of deferral do not matter for what is alive. -/
theorem life_users {C : Chart} {tr : List Obs} : ∀ {st : Life}, life C tr = some st → life C (tr.filter userCall) = some st := by
  induction tr using snocInd with
  | nil => intro st h; exact h
  | snoc tr o ih =>
    intro st h
    obtain ⟨st1, st2, h1, h2, h3⟩ := life_split (a := tr) (b := []) h
    cases h3
    have h4 := ih h1
    rw [List.filter_append]
    cases o with
    | defer s =>
      simp only [lifeStep] at h2
      split at h2
      · cases h2
        simpa [userCall] using h4
      · cases h2
    | _ =>
      simp only [List.filter_cons, userCall, if_true, List.filter_nil]
      rw [life_snoc, h4]
      exact h2

/-- The calls before a note are possible, and the noted call may follow. -/
theorem Noted.life_pre (h : Noted P m) {pre post : Log} {v : View} {o : Obs} (hl : m.world.2 = pre ++ (v, o) :: post) :
    ∃ st st', life P.toChart (pre.map (·.2)) = some st ∧ lifeStep P.toChart st o = some st' := by
  obtain ⟨_, hlife⟩ := h.has_life hwf hok
  have h1 := life_users hlife
  have hlog : m.world.2.map (·.2) = (m.trace.map (·.2)).filter userCall := by
    have := congrArg (List.map (fun x : Option Event × Obs => x.2)) (h.tidy hwf hok).logged
    rw [List.map_map] at this
    rw [List.filter_map]
    exact this
  rw [← hlog, hl, List.map_append, List.map_cons] at h1
  obtain ⟨st, st', k1, k2, _⟩ := life_split h1
  exact ⟨st, st', k1, k2⟩

/-- The states alive when a note was taken. -/
theorem Noted.forest (h : Noted P m) {pre post : Log} {v : View} {o : Obs} (hl : m.world.2 = pre ++ (v, o) :: post) :
    (∀ s, alive (pre.map (·.2)) s = true → s < P.n) ∧
    ∀ s p, alive (pre.map (·.2)) s = true → P.parent s = some p → alive (pre.map (·.2)) p = true := by
  obtain ⟨st, _, hst, _⟩ := h.life_pre hwf hok hl
  exact ⟨life_alive_bound hst, life_forest hwf hst⟩

/-- **C40 (`state_cast`).** Called by user code, it does not touch a null or dangling pointer; if a state at or
outside a listed innermost state converts to the target, the result is such a state; otherwise
a null pointer, or `std::bad_cast`. -/
theorem C40_state_cast (h : Noted P m) {pre post : Log} {v : View} {o : Obs} (hl : m.world.2 = pre ++ (v, o) :: post)
    (conv : Sid → Bool) (k : CastTarget) (w : W) :
    (∃ s, Found P.toChart (alive (pre.map (·.2))) o s ∧ conv s = true ∧ outcome (stateCast P conv k (v.mach w)) = .value (some s)) ∨
    ((∀ s, Found P.toChart (alive (pre.map (·.2))) o s → conv s = false) ∧
      outcome (stateCast P conv k (v.mach w)) = match k with
        | .pointer => .value none
        | .reference bad => .exception bad) := by
  obtain ⟨hb, hp⟩ := h.forest hwf hok hl
  obtain ⟨⟨l, e1, _, e3⟩, e4, _, _⟩ := (h.tidy hwf hok).seen pre v o post hl
  have hsl : ∀ i, (v.mach w).slot i = l[i]? := by
    intro i
    show (v.slots[i]?).join = _
    rw [e1, List.getElem?_map]
    cases l[i]? <;> rfl
  have hlv : (v.mach w).leaves = l := by
    unfold Mach.leaves
    rw [show (v.mach w).endIx = l.length by show v.slots.length = _; rw [e1]; simp]
    rw [show (v.mach w).slot = fun i => l[i]? from funext hsl]
    exact filterMap_get l
  have hr : Readable P.toChart (alive (pre.map (·.2))) (v.mach w) := by
    refine ⟨fun x hx => ⟨hb x hx, e4 x hx⟩, hp, fun i s hs => ?_⟩
    rw [hsl] at hs
    exact ((e3 s).1 (List.mem_of_getElem? hs)).1
  have hmem : ∀ s, s ∈ searchOrder P.toChart l ↔ Found P.toChart (alive (pre.map (·.2))) o s := by
    intro s
    unfold searchOrder Found
    rw [List.mem_flatMap]
    constructor
    · rintro ⟨x, hx, hs⟩
      obtain ⟨k1, k2, k3⟩ := (e3 x).1 hx
      refine ⟨x, k1, k2, k3, ?_⟩
      rcases List.mem_cons.1 hs with rfl | hs
      · exact .refl
      · exact ((mem_ancestors hwf (hb x k1)).1 hs).below
    · rintro ⟨x, k1, k2, k3, k4⟩
      refine ⟨x, (e3 x).2 ⟨k1, k2, k3⟩, ?_⟩
      rcases k4.eq_or_outer with rfl | k4
      · exact List.mem_cons_self
      · exact List.mem_cons_of_mem _ ((mem_ancestors hwf (hb x k1)).2 k4)
  rw [stateCast_ok hwf hr, hlv]
  cases hf : (searchOrder P.toChart l).find? conv with
  | some s => exact .inl ⟨s, (hmem s).1 (List.mem_of_find?_eq_some hf), List.find?_some hf, rfl⟩
  | none =>
    refine .inr ⟨fun s hs => ?_, by cases k <;> rfl⟩
    have := List.find?_eq_none.1 hf s ((hmem s).2 hs)
    simpa using this

/-- **C40 (`state_downcast`).** Called by user code, it finds a state iff the state is at or outside a listed innermost state. -/
theorem C40_state_downcast (h : Noted P m) {pre post : Log} {v : View} {o : Obs} (hl : m.world.2 = pre ++ (v, o) :: post)
    (t : Sid) (k : CastTarget) (w : W) :
    (Found P.toChart (alive (pre.map (·.2))) o t ∧ outcome (stateDowncast P t k (v.mach w)) = .value (some t)) ∨
    (¬ Found P.toChart (alive (pre.map (·.2))) o t ∧
      outcome (stateDowncast P t k (v.mach w)) = match k with
        | .pointer => .value none
        | .reference bad => .exception bad) := by
  rcases C40_state_cast hwf hok h hl (fun s => s == t) k w with ⟨s, h1, h2, h3⟩ | ⟨h1, h2⟩
  · simp only [beq_iff_eq] at h2
    subst h2
    exact .inl ⟨h1, h3⟩
  · exact .inr ⟨fun hf => by simpa using h1 t hf, h2⟩

end

/-! ### Examples -/

namespace Ex

/-- `scenario` with notes. -/
def wscenario {W : Type} (P : Prog W) : List (W × Call) → Mach (W × Log) → Option (Mach (W × Log))
  | [], m => some m
  | (w, c) :: l, m =>
    let m := { m with world := (w, m.world.2) }
    if c.easy m = true then
      match c.run P.watch m with
      | .ok true m' => wscenario P l m'
      | .thrown _ m' => wscenario P l m'
      | _ => none
    else none

theorem wscenario_watched {W : Type} {P : Prog W} (l : List (W × Call)) : ∀ {m m' : Mach (W × Log)},
    Watched P m → wscenario P l m = some m' → Watched P m' := by
  induction l with
  | nil => intro m m' h hs; cases hs; exact h
  | cons a l ih =>
    obtain ⟨w, c⟩ := a
    intro m m' h hs
    unfold wscenario at hs
    simp only at hs
    split at hs
    · next hl =>
      have hw : Watched P { m with world := (w, m.world.2) } := h.world w
      have hleg : c.legal P.watch { m with world := (w, m.world.2) } := by
        cases c with
        | initiate k => exact Call.legal_of_terminated hl k
        | _ => trivial
      split at hs
      · next hr => exact ih (hw.returns hleg hr) hs
      · next hr => exact ih (hw.throws hleg hr) hs
      · cases hs
    · cases hs

theorem wscenario_ex {W : Type} {P : Prog W} (l : List (W × Call)) (w : W) (p : Mach (W × Log) → Bool)
    (h : ((wscenario P l (Mach.fresh (w, []))).any fun m => p m) = true) : ∃ m, Watched P m ∧ p m = true := by
  rw [Option.any_eq_true] at h
  obtain ⟨m, h1, h2⟩ := h
  exact ⟨_, wscenario_watched l (.fresh w) h1, h2⟩

/-- The list of innermost states as seen by each call of user code. -/
def lists (m : Mach (Nat × Log)) : List (List (Option Sid) × Obs) := m.world.2.map fun n => (n.1.slots, n.2)

def notes1 : List (List (Option Sid) × Obs) :=
  [([], .enter 0), ([], .enter 1), ([], .enter 2), ([some 2], .enter 4), ([some 2], .enter 5), ([some 2], .enter 6),
    ([some 2, some 6], .unconsumed), ([some 2], .exit 6), ([some 2], .destroy 6), ([some 2], .exit 5), ([some 2], .destroy 5),
    ([some 2], .exit 4), ([some 2], .destroy 4), ([], .exitFail 2), ([], .destroy 2), ([], .destroy 1), ([], .destroy 0),
    ([], .act 1), ([], .enter 8)]

/-- The notes of a run in which `exit()` of `C` (2) fails: no innermost state is listed before its constructor
has returned or from its exit() on; the other one stays listed. -/
example : ∃ m : Mach (Nat × Log), Noted prog m ∧ lists m = notes1 := by
  obtain ⟨m, h1, h2⟩ := wscenario_ex (P := prog) [(0, .initiate 0), (0, .process ⟨0, 0⟩ 0), (2, .terminate)] 0
    (fun m => decide (lists m = notes1)) (by decide +kernel)
  exact ⟨m, .between h1, of_decide_eq_true h2⟩

def notes2 : List (List (Option Sid) × Obs) :=
  [([], .enter 0), ([], .enter 1), ([], .enter 2), ([some 2], .enter 4), ([some 2], .enter 5), ([some 2], .enter 6),
    ([some 2], .destroy 6), ([some 2], .destroy 5), ([some 2], .destroy 4), ([], .destroy 2), ([], .destroy 1), ([], .destroy 0)]

/-- The run of the destructor is covered as well. -/
example : ∃ m : Mach (Nat × Log), Noted prog m ∧ lists m = notes2 := by
  obtain ⟨m, h1, h2⟩ := wscenario_ex (P := prog) [(0, .initiate 0)] 0
    (fun m => match SC.destruct prog.watch m with
      | .ok () m' => decide (lists m' = notes2)
      | _ => false) (by decide +kernel)
  split at h2
  · next hr => exact ⟨_, .destroyed h1 hr, of_decide_eq_true h2⟩
  · cases h2

/-- In `exit()` of `G` (6), a query for `B` (1) finds it, and one for `F` (5) does not, although `F` is active. -/
example : ∃ (m : Mach (Nat × Log)) (pre post : Log) (v : View), Noted prog m ∧ m.world.2 = pre ++ (v, .exit 6) :: post ∧
    alive (pre.map (·.2)) 5 = true ∧ outcome (stateDowncast prog 1 .pointer (v.mach 0)) = .value (some 1) ∧
    outcome (stateDowncast prog 5 (.reference 77) (v.mach 0)) = .exception 77 := by
  obtain ⟨m, h1, h2⟩ := wscenario_ex (P := prog) [(0, .initiate 0), (0, .process ⟨0, 0⟩ 0), (2, .terminate)] 0
    (fun m => match m.world.2.drop 7 with
      | (v, o) :: _ => decide (o = .exit 6 ∧ alive ((m.world.2.take 7).map (·.2)) 5 = true ∧
          outcome (stateDowncast prog 1 .pointer (v.mach 0)) = .value (some 1) ∧
          outcome (stateDowncast prog 5 (.reference 77) (v.mach 0)) = .exception 77)
      | _ => false) (by decide +kernel)
  split at h2
  · next v o post hd =>
    obtain ⟨rfl, k1, k2, k3⟩ := of_decide_eq_true h2
    exact ⟨m, m.world.2.take 7, post, v, .between h1, by rw [← hd, List.take_append_drop], k1, k2, k3⟩
  · cases h2

/-- The reference manual says that `terminated()` is equivalent to `state_begin() == state_end()`. Inside user code
it is not: the constructor of `B` (1) sees an empty range, but the machine is not terminated. -/
theorem C40_terminated_differs : ∃ (m : Mach (Nat × Log)) (pre post : Log) (v : View), Noted prog m ∧
    m.world.2 = pre ++ (v, .enter 1) :: post ∧ v.slots = [] ∧ v.terminated = false := by
  obtain ⟨m, h1, h2⟩ := wscenario_ex (P := prog) [(0, .initiate 0)] 0
    (fun m => match m.world.2.drop 1 with
      | (v, o) :: _ => decide (o = .enter 1 ∧ v.slots = [] ∧ v.terminated = false)
      | _ => false) (by decide +kernel)
  split at h2
  · next v o post hd =>
    obtain ⟨rfl, k1, k2⟩ := of_decide_eq_true h2
    exact ⟨m, m.world.2.take 1, post, v, .between h1, by rw [← hd, List.take_append_drop], k1, k2⟩
  · cases h2

end Ex
end SC
