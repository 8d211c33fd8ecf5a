import Verif.AnyOrder
import Verif.Props.Calm
import Verif.Props.Config
/-!
# C56: the order of the innermost states

According to the documentation, an event is offered to the innermost states in an arbitrary order. `AnyOrder.Run` describes the machines that this allows.
The library is one of them. If the order is left to chance by neither chart nor user code (`Unambiguous`, `Orderless`), then they all do the same.
-/

namespace SC
open Spec
variable {W : Type}

/-- Sessions with a machine that puts the innermost states into any order before each dispatch. -/
inductive AnyOrder.Session (P : Prog W) (w : W) : List (ClientStep W) → Calm.St W → Prop
  | new : AnyOrder.Session P w [] (Calm.start w)
  | returns {l st st'} {v : W} {c : Call} : AnyOrder.Session P w l st → AnyOrder.Run P c.op { st with world := v } true st' →
      AnyOrder.Session P w (⟨v, c, .returned⟩ :: l) st'

/-- What can be observed is the same except for the order of the innermost states. -/
structure AnyOrder.Matches (m : Mach W) (st : Calm.St W) : Prop where
  states : ∀ s, (m.heap s).isSome = st.act s
  range : ((List.range m.endIx).map m.slot).Perm (st.leaves.map some)
  terminated : m.outermost = none ↔ st.root = none
  trig : m.trig = st.trig
  posted : m.evq = st.evq
  deferred : m.dq = st.dq
  world : m.world = st.world
  calls : m.trace = st.trace

namespace AnyOrder

/-! ## The library is one of the machines -/

section
variable {P : Prog W}

theorem dispatch_self (e : Event) (st : Calm.St W) : Dispatch P e st (Calm.dispatch P e st) := ⟨st.leaves, .refl _, rfl⟩

theorem drain_self (k : Nat) : ∀ st : Calm.St W, Drain P k st (Calm.drain P k st).1 (Calm.drain P k st).2 := by
  induction k with
  | zero => intro st; exact ⟨rfl, rfl⟩
  | succ k ih =>
    intro st
    unfold Drain Calm.drain
    cases st.evq with
    | nil => exact ⟨rfl, rfl⟩
    | cons e q => exact ⟨_, dispatch_self e _, ih _⟩

theorem run_self (c : Ref.Op) (st : Calm.St W) : Run P c st (Calm.run P c st).1 (Calm.run P c st).2 := by
  cases c with
  | initiate k => exact drain_self k _
  | process e k => exact ⟨_, dispatch_self e _, drain_self k _⟩
  | _ => rfl

end

/-! ## The machines do the same -/

section
variable {P : Prog W} {m : Mach W} (hwf : P.toChart.WF) (hok : Contract P) (hpl : Plain P) (hq : Smooth P) (ho : Orderless P) (hu : Unambiguous P.toChart)

/-- The state is that of a library object at the start of a dispatch. -/
def Good (P : Prog W) (a : Calm.St W) : Prop := ∃ m, Stable P.toChart m ∧ Calm.strip (abs m) = a

theorem Good.evq {a : Calm.St W} (h : Good P a) (q : List Event) : Good P { a with evq := q } := by
  obtain ⟨m, h1, rfl⟩ := h
  exact ⟨{ m with evq := q }, h1.same ⟨by constructor <;> rfl, rfl, rfl, rfl, rfl⟩ h1.flags, rfl⟩

include hwf hok hpl hq in
theorem Good.dispatch {a : Calm.St W} (h : Good P a) (e : Event) : Good P (Calm.dispatch P e a) := by
  obtain ⟨m, h1, rfl⟩ := h
  have hsim := dispatch_sim hwf hok hpl e h1
  have hwp := dispatch_wp (F := fun _ _ => True) hwf hok anyUserMem e h1
  obtain ⟨st, k1, -, k3⟩ := Calm.acts_dispatch hq e (abs m) h1.fullExit
  cases hr : SC.dispatch P e m with
  | ok u m2 =>
    have h2 := hsim.ok hr
    rw [k1] at h2
    injection h2 with _ h3
    exact ⟨m2, (wp_okAt hwp hr).1, by rw [← h3, k3]⟩
  | thrown x m2 =>
    have h2 := hsim.thrown hr
    rw [k1] at h2
    cases h2
  | fault g => unfold wp at hwp; rw [hr] at hwp; exact hwp.elim

theorem Good.fine {a : Calm.St W} (h : Good P a) : Fine a.trace := by
  obtain ⟨m, h1, rfl⟩ := h
  intro x y s ht
  have hl := h1.inv.tr
  have ht' : m.trace.map (·.2) = x ++ .enter s :: y := ht
  rw [ht'] at hl
  obtain ⟨st1, st2, k1, k2, _⟩ := life_split hl
  simp only [lifeStep] at k2
  split at k2
  · next hc =>
    rw [life_act k1] at hc
    exact hc.2.2.1
  · cases k2

theorem abs_leaves (m : Mach W) : (Calm.strip (abs m)).leaves = m.leaves := rfl

theorem Good.twin {a : Calm.St W} (h : Good P a) {l : List Sid} (hl : a.leaves.Perm l) : Twin a { a with leaves := l } := by
  obtain ⟨m, h1, rfl⟩ := h
  refine ⟨hl, rfl, h1.innermost.1.nodup, ?_⟩
  intro s hs
  have ha := ((h1.innermost.1.mem s).1 hs).1
  have := life_act h1.inv.tr
  show alive (m.trace.map (·.2)) s = true
  rw [← this]; exact ha

include hwf hu in
theorem Good.agree {a : Calm.St W} (h : Good P a) (e : Event) : Agree P e a.leaves := by
  obtain ⟨m, h1, rfl⟩ := h
  exact AnyOrder.agree hwf hu h1.inv.forest (fun s hs => (h1.innermost.1.mem s).1 hs) e

include hwf hok hpl hq ho hu

theorem twin_dispatch {a b b' : Calm.St W} (e : Event) (h : Good P a) (ht : Twin a b) (hd : Dispatch P e b b') : Twin (Calm.dispatch P e a) b' := by
  obtain ⟨l, hl, rfl⟩ := hd
  have hf := (h.dispatch hwf hok hpl hq e).fine
  have ht2 : Twin a { b with leaves := l } := by
    rw [ht.eq]
    exact ⟨ht.perm.trans hl.symm, rfl, ht.nodup, ht.live⟩
  generalize ({ b with leaves := l } : Calm.St W) = c at ht2
  have heven : Even1 fun st : Calm.St W =>
      match (Calm.ask P e a.leaves { st with trig := some e }).1 with
      | .forward => { Calm.user (P.unconsumed e) .unconsumed (Calm.ask P e a.leaves { st with trig := some e }).2 with trig := st.trig }
      | .defer => { (Calm.ask P e a.leaves { st with trig := some e }).2 with
        trig := st.trig, dq := (Calm.ask P e a.leaves { st with trig := some e }).2.dq ++ [e] }
      | _ => { (Calm.ask P e a.leaves { st with trig := some e }).2 with trig := st.trig } := by
    refine even_of (fun st => st.trig) (g := fun t st => ((),
      match (Calm.ask P e a.leaves { st with trig := some e }).1 with
      | .forward => { Calm.user (P.unconsumed e) .unconsumed (Calm.ask P e a.leaves { st with trig := some e }).2 with trig := t }
      | .defer => { (Calm.ask P e a.leaves { st with trig := some e }).2 with
        trig := t, dq := (Calm.ask P e a.leaves { st with trig := some e }).2.dq ++ [e] }
      | _ => { (Calm.ask P e a.leaves { st with trig := some e }).2 with trig := t })) (fun a b h => by rw [h.eq]) fun t => ?_
    refine even_comp (f := fun st => { st with trig := some e }) (g := fun st => ((),
      match (Calm.ask P e a.leaves st).1 with
      | .forward => { Calm.user (P.unconsumed e) .unconsumed (Calm.ask P e a.leaves st).2 with trig := t }
      | .defer => { (Calm.ask P e a.leaves st).2 with trig := t, dq := (Calm.ask P e a.leaves st).2.dq ++ [e] }
      | _ => { (Calm.ask P e a.leaves st).2 with trig := t })) (even_set (fun _ _ => rfl) (fun _ => rfl)) ?_
    refine even_bind (even_ask ho e a.leaves) (k := fun r st => ((),
      match r with
      | .forward => { Calm.user (P.unconsumed e) .unconsumed st with trig := t }
      | .defer => { st with trig := t, dq := st.dq ++ [e] }
      | _ => { st with trig := t })) fun r => ?_
    cases r with
    | forward =>
      exact even_comp (f := Calm.user (P.unconsumed e) .unconsumed) (g := fun st => ((), { st with trig := t }))
        (even_user (fun w => ho.unconsumed e w) (fun _ => nofun)) (even_set (fun _ _ => rfl) (fun _ => rfl))
    | defer => exact even_set (f := fun st : Calm.St W => { st with trig := t, dq := st.dq ++ [e] }) (fun _ _ => rfl) (fun _ => rfl)
    | _ => exact even_set (f := fun st : Calm.St W => { st with trig := t }) (fun _ _ => rfl) (fun _ => rfl)
  have h2 := (heven.same a c ht2 hf).2
  have hask : Calm.ask P e c.leaves { c with trig := some e } = Calm.ask P e a.leaves { c with trig := some e } :=
    (ask_perm hwf ht2.perm (h.agree hwf hu e) _).symm
  have h3 : Calm.dispatch P e c = (match (Calm.ask P e a.leaves { c with trig := some e }).1 with
      | .forward => { Calm.user (P.unconsumed e) .unconsumed (Calm.ask P e a.leaves { c with trig := some e }).2 with trig := c.trig }
      | .defer => { (Calm.ask P e a.leaves { c with trig := some e }).2 with
        trig := c.trig, dq := (Calm.ask P e a.leaves { c with trig := some e }).2.dq ++ [e] }
      | _ => { (Calm.ask P e a.leaves { c with trig := some e }).2 with trig := c.trig }) := by
    unfold Calm.dispatch
    simp only [hask]
    cases (Calm.ask P e a.leaves { c with trig := some e }).1 <;> rfl
  rw [h3]
  exact h2

theorem twin_drain (k : Nat) : ∀ {a b b' : Calm.St W} {r : Bool}, Good P a → Twin a b → Drain P k b r b' →
    (Calm.drain P k a).1 = r ∧ Twin (Calm.drain P k a).2 b' := by
  induction k with
  | zero =>
    rintro a b b' r h ht ⟨rfl, rfl⟩
    refine ⟨?_, ht⟩
    show a.evq.isEmpty = b'.evq.isEmpty
    rw [ht.eq]
  | succ k ih =>
    intro a b b' r h ht hd
    unfold Drain at hd
    unfold Calm.drain
    have he : b.evq = a.evq := by rw [ht.eq]
    rw [he] at hd
    cases hq' : a.evq with
    | nil =>
      rw [hq'] at hd
      obtain ⟨rfl, rfl⟩ := hd
      exact ⟨rfl, ht⟩
    | cons e q =>
      rw [hq'] at hd
      obtain ⟨b1, h1, h2⟩ := hd
      have ht1 : Twin ({ a with evq := q } : Calm.St W) { b with evq := q } :=
        twin_set (f := fun st => { st with evq := q }) (fun _ _ => rfl) (fun _ => rfl) ht
      exact ih ((h.evq q).dispatch hwf hok hpl hq e) (twin_dispatch hwf hok hpl hq ho hu e (h.evq q) ht1 h1) h2

omit hok hpl hq hu hwf in
theorem even_stop : Even1 (Calm.stop P) := by
  refine even_of (fun st => st.trig) (g := fun t st => ((), { Calm.leaveAll P { st with trig := none } with trig := t })) (fun a b h => by rw [h.eq]) fun t => ?_
  exact even_comp (f := fun st : Calm.St W => { st with trig := none }) (g := fun st => ((), { Calm.leaveAll P st with trig := t }))
    (even_set (fun _ _ => rfl) (fun _ => rfl))
    (even_comp (f := Calm.leaveAll P) (g := fun st => ((), { st with trig := t })) (even_leaveAll ho) (even_set (fun _ _ => rfl) (fun _ => rfl)))

omit hok hpl hq hu hwf in
theorem even_begin : Even1 fun st => { Calm.build P (Ref.depth P) (.deep P.initial) { Calm.stop P st with trig := none } with trig := (Calm.stop P st).trig } := by
  refine even_comp (f := Calm.stop P)
    (g := fun st => ((), { Calm.build P (Ref.depth P) (.deep P.initial) { st with trig := none } with trig := st.trig })) (even_stop ho) ?_
  refine even_of (fun st => st.trig) (g := fun t st => ((), { Calm.build P (Ref.depth P) (.deep P.initial) { st with trig := none } with trig := t }))
    (fun a b h => by rw [h.eq]) fun t => ?_
  exact even_comp (f := fun st : Calm.St W => { st with trig := none })
    (g := fun st => ((), { Calm.build P (Ref.depth P) (.deep P.initial) st with trig := t })) (even_set (fun _ _ => rfl) (fun _ => rfl))
    (even_comp (f := Calm.build P (Ref.depth P) (.deep P.initial)) (g := fun st => ((), { st with trig := t })) (even_build ho _ _)
      (even_set (fun _ _ => rfl) (fun _ => rfl)))

theorem twin_run (c : Call) (h : Reach P m) {b b' : Calm.St W} {r : Bool} (ht : Twin (Calm.strip (abs m)) b) (hr : Run P c.op b r b') :
    (Calm.run P c.op (Calm.strip (abs m))).1 = r ∧ Twin (Calm.run P c.op (Calm.strip (abs m))).2 b' := by
  have hg : Good P (Calm.strip (abs m)) := ⟨m, (h.stable hwf hok).1, rfl⟩
  have hset : ∀ x : Cmd, Calm.run P c.op = (fun st => (true, st.cmd x)) → Run P c.op b r b' → ((true, b.cmd x) = (r, b')) →
      (Calm.run P c.op (Calm.strip (abs m))).1 = r ∧ Twin (Calm.run P c.op (Calm.strip (abs m))).2 b' := by
    intro x hx _ he
    rw [hx]
    cases he
    exact ⟨rfl, twin_set (f := fun st : Calm.St W => st.cmd x) (fun a l => by cases x <;> rfl) (fun a => by cases x <;> rfl) ht⟩
  cases c with
  | initiate k =>
    have h0 := C54_call hwf hok hpl hq h (.initiate 0)
    obtain ⟨m', h1, h2⟩ := h0
    have hl := call_wp hwf hok (.initiate 0) (h.stable hwf hok).1 (C54_initiate_is_legal hwf hok hpl hq h _)
    have hs := (wp_okAt hl h1).1
    have hg1 : Good P (Calm.run P (Ref.Op.initiate 0) (Calm.strip (abs m))).2 := ⟨m', hs, h2⟩
    exact twin_drain hwf hok hpl hq ho hu k hg1 ((even_begin ho).same _ _ ht hg1.fine).2 hr
  | terminate =>
    have he : (true, Calm.stop P b) = (r, b') := hr
    cases he
    have h0 := C54_call hwf hok hpl hq h .terminate
    obtain ⟨m', h1, h2⟩ := h0
    have hl := call_wp hwf hok .terminate (h.stable hwf hok).1 trivial
    have hg1 : Good P (Calm.run P Ref.Op.terminate (Calm.strip (abs m))).2 := ⟨m', (wp_okAt hl h1).1, h2⟩
    exact ⟨rfl, ((even_stop ho).same _ _ ht hg1.fine).2⟩
  | process e k =>
    obtain ⟨b1, h1, h2⟩ := hr
    exact twin_drain hwf hok hpl hq ho hu k (hg.dispatch hwf hok hpl hq e) (twin_dispatch hwf hok hpl hq ho hu e hg ht h1) h2
  | post e => exact hset (.post e) rfl hr hr
  | clearShallow k => exact hset (.clearShallow k) rfl hr hr
  | clearDeep k => exact hset (.clearDeep k) rfl hr hr

end
end AnyOrder

/-- The calm machine is a function of the calls. -/
theorem Calm.unique {P : Prog W} {w : W} {l : List (ClientStep W)} {x : Calm.St W} (h : Calm.Session P w l x) : ∀ {y : Calm.St W}, Calm.Session P w l y → x = y := by
  induction h with
  | new => intro y h; cases h; rfl
  | returns _ hr ih =>
    intro y h
    cases h with
    | returns h2 hr2 =>
      have := ih h2
      subst this
      rw [hr] at hr2
      injection hr2

section
variable {P : Prog W} {m : Mach W} {w : W} {l : List (ClientStep W)} (hwf : P.toChart.WF) (hok : Contract P) (hpl : Plain P) (hq : Smooth P)
include hwf hok hpl hq

/-- The library is one of the machines that the documentation allows. -/
theorem C56_library (h : SC.Session P w l m) : ∃ st, AnyOrder.Session P w l st ∧ Calm.Matches m st := by
  obtain ⟨-, st, h1, h2⟩ := C54_library hwf hok hpl hq h
  refine ⟨st, ?_, h2⟩
  clear h h2
  induction h1 with
  | new => exact .new
  | @returns l st st' v c _ hr ih =>
    have := AnyOrder.run_self (P := P) c.op { st with world := v }
    rw [hr] at this
    exact .returns ih this

variable (ho : AnyOrder.Orderless P) (hu : AnyOrder.Unambiguous P.toChart)
include ho hu

theorem AnyOrder.same {st : Calm.St W} (h : AnyOrder.Session P w l st) : ∃ m, SC.Session P w l m ∧ AnyOrder.Twin (Calm.strip (abs m)) st := by
  induction h with
  | new => exact ⟨_, .new, .refl _, rfl, List.nodup_nil, fun _ h => by cases h⟩
  | @returns l st st' v c h hr ih =>
    obtain ⟨m, h1, h2⟩ := ih
    have hre := (h1.reach).world v
    have ht : AnyOrder.Twin (Calm.strip (abs { m with world := v })) { st with world := v } :=
      AnyOrder.twin_set (f := fun st : Calm.St W => { st with world := v }) (fun _ _ => rfl) (fun _ => rfl) h2
    obtain ⟨k1, k2⟩ := AnyOrder.twin_run hwf hok hpl hq ho hu c hre ht hr
    obtain ⟨m2, h3, h4⟩ := C54_call hwf hok hpl hq hre c
    rw [k1] at h3
    exact ⟨m2, .returns h1 (C54_initiate_is_legal hwf hok hpl hq hre c) h3, by rw [h4]; exact k2⟩

theorem AnyOrder.Twin.matches {m : Mach W} (h : Reach P m) {st : Calm.St W} (ht : AnyOrder.Twin (Calm.strip (abs m)) st) : AnyOrder.Matches m st := by
  have hm := Calm.matches_strip (h.stable hwf hok).1.inv.filled
  rw [ht.eq]
  exact ⟨hm.states, by rw [hm.range]; exact ht.perm.map some, hm.terminated, hm.trig, hm.posted, hm.deferred, hm.world, hm.calls⟩

/-- Whatever such a machine does, the library does the same. -/
theorem C56_any_order {st : Calm.St W} (h : AnyOrder.Session P w l st) : ∃ m, SC.Session P w l m ∧ AnyOrder.Matches m st := by
  obtain ⟨m, h1, h2⟩ := AnyOrder.same hwf hok hpl hq ho hu h
  exact ⟨m, h1, h2.matches hwf hok hpl hq ho hu h1.reach⟩

/-- One more call: whatever order is chosen, it ends as in the library. -/
theorem C56_call {st st' : Calm.St W} {v : W} {c : Call} {b : Bool} (h : AnyOrder.Session P w l st) (hr : AnyOrder.Run P c.op { st with world := v } b st') :
    ∃ m m', SC.Session P w l m ∧ AnyOrder.Matches m st ∧ c.run P { m with world := v } = .ok b m' ∧ AnyOrder.Matches m' st' := by
  obtain ⟨m, h1, h2⟩ := AnyOrder.same hwf hok hpl hq ho hu h
  have hre := (h1.reach).world v
  have ht : AnyOrder.Twin (Calm.strip (abs { m with world := v })) { st with world := v } :=
    AnyOrder.twin_set (f := fun st : Calm.St W => { st with world := v }) (fun _ _ => rfl) (fun _ => rfl) h2
  obtain ⟨k1, k2⟩ := AnyOrder.twin_run hwf hok hpl hq ho hu c hre ht hr
  obtain ⟨m2, h3, h4⟩ := C54_call hwf hok hpl hq hre c
  rw [k1] at h3
  refine ⟨m, m2, h1, h2.matches hwf hok hpl hq ho hu h1.reach, h3, ?_⟩
  have hs := (wp_okAt (call_wp hwf hok c (hre.stable hwf hok).1 (C54_initiate_is_legal hwf hok hpl hq hre c)) h3).1
  have hm := Calm.matches_strip hs.inv.filled
  rw [k2.eq, ← h4]
  exact ⟨hm.states, by rw [hm.range, h4]; exact k2.perm.map some, hm.terminated, hm.trig, hm.posted, hm.deferred, hm.world, hm.calls⟩

/-- The library and any of the machines after the same calls. -/
theorem C56_same {st : Calm.St W} (h : SC.Session P w l m) (hs : AnyOrder.Session P w l st) : AnyOrder.Matches m st := by
  obtain ⟨m', h1, h2⟩ := AnyOrder.same hwf hok hpl hq ho hu hs
  rw [← Calm.unique (Calm.sound hwf hok hpl hq h) (Calm.sound hwf hok hpl hq h1)] at h2
  exact h2.matches hwf hok hpl hq ho hu h.reach

/-- The same calls have the same effect in all machines. -/
theorem C56_one_behaviour {st st' : Calm.St W} (h : AnyOrder.Session P w l st) (h' : AnyOrder.Session P w l st') :
    st.leaves.Perm st'.leaves ∧ st' = { st with leaves := st'.leaves } := by
  obtain ⟨m, h1, h2⟩ := AnyOrder.same hwf hok hpl hq ho hu h
  obtain ⟨m', h1', h2'⟩ := AnyOrder.same hwf hok hpl hq ho hu h'
  rw [← Calm.unique (Calm.sound hwf hok hpl hq h1) (Calm.sound hwf hok hpl hq h1')] at h2'
  refine ⟨h2.perm.symm.trans h2'.perm, ?_⟩
  rw [h2'.eq, h2.eq]

end

/-! ## Concrete sessions -/

/-- A check that implies `Unambiguous`: no two states with a reaction to the same event are outside of two states in different regions. -/
def AnyOrder.check (C : Chart) : Bool :=
  (List.range C.n).all fun a => (List.range C.n).all fun b =>
    !((a :: C.ancestors a).any fun c => (b :: C.ancestors b).any fun d => decide (C.parent c = C.parent d ∧ C.pos c ≠ C.pos d)) ||
    ((a :: C.ancestors a).all fun s => (b :: C.ancestors b).all fun t => s == t ||
      (C.reactions s).all fun r => (C.reactions t).all fun q => decide (r.ev ≠ none ∧ q.ev ≠ none ∧ r.ev ≠ q.ev))

theorem AnyOrder.unambiguous_of_check {C : Chart} (hwf : C.WF) (h : AnyOrder.check C = true) : AnyOrder.Unambiguous C := by
  have hmem : ∀ {s a : Sid}, a < C.n → Spec.Below C s a → s ∈ a :: C.ancestors a := by
    intro s a ha hb
    rcases hb.eq_or_outer with rfl | ho
    · exact List.mem_cons_self
    · exact List.mem_cons_of_mem _ ((Chart.mem_ancestors hwf ha).2 ho)
  intro ty a b s t ha hb hsep hs ht
  obtain ⟨c, d, h1, h2, h3, h4⟩ := hsep
  unfold AnyOrder.check at h
  rw [List.all_eq_true] at h
  have h5 := h a (List.mem_range.2 ha)
  rw [List.all_eq_true] at h5
  have h6 := h5 b (List.mem_range.2 hb)
  have hany : ((a :: C.ancestors a).any fun c => (b :: C.ancestors b).any fun d => decide (C.parent c = C.parent d ∧ C.pos c ≠ C.pos d)) = true :=
    List.any_eq_true.2 ⟨c, hmem ha h3, List.any_eq_true.2 ⟨d, hmem hb h4, decide_eq_true ⟨h1, h2⟩⟩⟩
  rw [hany, Bool.not_true, Bool.false_or, List.all_eq_true] at h6
  have h7 := h6 s (hmem ha hs.outer)
  rw [List.all_eq_true] at h7
  have h8 := h7 t (hmem hb ht.outer)
  rcases Bool.or_eq_true_iff.1 h8 with h9 | h9
  · exact eq_of_beq h9
  · obtain ⟨r, hr, hre⟩ := hs.reacts
    obtain ⟨q, hq, hqe⟩ := ht.reacts
    rw [List.all_eq_true] at h9
    have h10 := h9 r hr
    rw [List.all_eq_true] at h10
    obtain ⟨k1, k2, k3⟩ := of_decide_eq_true (h10 q hq)
    rcases hre with hre | hre
    · exact absurd hre k1
    · rcases hqe with hqe | hqe
      · exact absurd hqe k2
      · exact absurd (hre.trans hqe.symm) k3

deriving instance DecidableEq for Call
deriving instance DecidableEq for ClientStep

namespace Ex
open AnyOrder

/-- A machine that turns the order round before every dispatch. -/
def turnedDrain (P : Prog W) : Nat → Calm.St W → Bool × Calm.St W
  | 0, st => (st.evq.isEmpty, st)
  | k + 1, st => match st.evq with
    | [] => (true, st)
    | e :: q => turnedDrain P k (Calm.dispatch P e { st with evq := q, leaves := st.leaves.reverse })

def turned (P : Prog W) : Ref.Op → Calm.St W → Bool × Calm.St W
  | .initiate k, st =>
    let st := Calm.stop P st
    turnedDrain P k { Calm.build P (Ref.depth P) (.deep P.initial) { st with trig := none } with trig := st.trig }
  | .process e k, st => turnedDrain P k (Calm.dispatch P e { st with leaves := st.leaves.reverse })
  | c, st => Calm.run P c st

theorem turned_run (P : Prog W) (c : Ref.Op) (st : Calm.St W) : Run P c st (turned P c st).1 (turned P c st).2 := by
  have hd : ∀ k (st : Calm.St W), Drain P k st (turnedDrain P k st).1 (turnedDrain P k st).2 := by
    intro k
    induction k with
    | zero => intro st; exact ⟨rfl, rfl⟩
    | succ k ih =>
      intro st
      unfold Drain turnedDrain
      cases st.evq with
      | nil => exact ⟨rfl, rfl⟩
      | cons e q => exact ⟨_, ⟨st.leaves.reverse, List.reverse_perm _, rfl⟩, ih _⟩
  cases c with
  | initiate k => exact hd k _
  | process e k => exact ⟨_, ⟨st.leaves.reverse, List.reverse_perm _, rfl⟩, hd k _⟩
  | _ => rfl

def turnedly (P : Prog W) : List (W × Call) → List (ClientStep W) → Calm.St W → Option (List (ClientStep W) × Calm.St W)
  | [], l, st => some (l, st)
  | (v, c) :: cs, l, st => match turned P c.op { st with world := v } with
    | (true, st') => turnedly P cs (⟨v, c, .returned⟩ :: l) st'
    | _ => none

theorem turnedly_session {P : Prog W} {w : W} (cs : List (W × Call)) : ∀ {l l' : List (ClientStep W)} {st st' : Calm.St W}, AnyOrder.Session P w l st →
    turnedly P cs l st = some (l', st') → AnyOrder.Session P w l' st' := by
  induction cs with
  | nil => intro l l' st st' h hp; cases hp; exact h
  | cons a cs ih =>
    obtain ⟨v, c⟩ := a
    intro l l' st st' h hp
    unfold turnedly at hp
    split at hp
    · next hr =>
      have h1 := turned_run P c.op { st with world := v }
      rw [hr] at h1
      exact ih (.returns h h1) hp
    · cases hp

theorem serene_orderless : Orderless serene := by
  constructor
  all_goals intro v v'
  all_goals intros
  all_goals first
    | rfl
    | (rename_i h; show UOut.mk _ _ _ = UOut.mk _ _ _; rw [h.slots.length_eq])

theorem serene_unambiguous : Unambiguous serene.toChart := unambiguous_of_check wf (by decide +kernel)

/-- Six calls on a machine that always turns the order round: it ends with another order than the library, but has made the same 22 calls of user code. -/
example : ∃ (l : List (ClientStep Nat)) (m : Mach Nat) (st : Calm.St Nat), AnyOrder.Session serene 0 l st ∧ SC.Session serene 0 l m ∧
    AnyOrder.Matches m st ∧ l.length = 6 ∧ st.trace.length = 22 ∧ (List.range m.endIx).map m.slot = [some 7, some 2] ∧ st.leaves = [2, 7] := by
  have h : ((turnedly serene (serenity.take 6) [] (Calm.start 0)).any fun r => (calmly serene (serenity.take 6) [] (Calm.start 0)).any fun q =>
      decide (r.1 = q.1 ∧ r.1.length = 6 ∧ r.2.trace.length = 22 ∧
        r.2.leaves = [2, 7] ∧ q.2.leaves = [7, 2])) = true := by decide +kernel
  rw [Option.any_eq_true] at h
  obtain ⟨⟨l, st⟩, h1, h2⟩ := h
  rw [Option.any_eq_true] at h2
  obtain ⟨⟨l', st'⟩, h3, h4⟩ := h2
  obtain ⟨h4, h5, h6, h7, h8⟩ := of_decide_eq_true h4
  have hl : l = l' := h4
  subst hl
  have hs := turnedly_session (serenity.take 6) AnyOrder.Session.new h1
  obtain ⟨m, k1, k2⟩ := C54_calm (P := serene) wf serene_contract serene_plain serene_smooth (calmly_session (serenity.take 6) Calm.Session.new h3)
  refine ⟨l, m, st, hs, k1, C56_same (P := serene) wf serene_contract serene_plain serene_smooth serene_orderless serene_unambiguous k1 hs, h5, h6, ?_, h7⟩
  rw [k2.range]
  simp only at h8
  rw [h8]
  rfl

/-! ## The order matters otherwise -/

/-- Two regions; state 1 in the first and state 2 in the second react to event 1. Actions set the environment to their number. -/
def rivals : Prog Nat where
  n := 3
  parent s := if s = 0 then none else some 0
  pos s := s - 1
  init s := if s = 0 then [⟨.plain, 1⟩, ⟨.plain, 2⟩] else []
  shallowH _ := false
  deepH _ := false
  isSimple _ := false
  initial := 0
  reactions s := match s with
    | 1 => [⟨some 1, .inState (some 1)⟩, ⟨some 2, .transition ⟨.plain, 1⟩ none⟩]
    | 2 => [⟨some 1, .inState (some 2)⟩]
    | _ => []
  ctor _ _ w := { world := w }
  exit _ _ w := { world := w }
  dtor _ _ w := (w, [])
  action a _ _ := { world := a }
  react _ _ _ _ w := ({ world := w }, .discard)
  unconsumed _ _ w := { world := w }
  alloc _ w := (w, none)
  translate _ := none

theorem rivals_wf : rivals.toChart.WF := Chart.wf_of_check _ (by decide)
theorem rivals_contract : Contract rivals := ⟨fun _ _ _ _ => rfl, fun _ _ _ _ _ _ _ h => by cases h⟩
theorem rivals_plain : Plain rivals := by constructor <;> (intros; rfl)
theorem rivals_orderless : Orderless rivals := by constructor <;> (intros; rfl)
theorem rivals_smooth : Smooth rivals :=
  ⟨fun _ _ _ => rfl, fun _ _ _ => rfl, fun _ _ _ => rfl, fun _ _ _ _ _ => rfl, fun _ _ _ => rfl, fun _ _ => rfl⟩

/-- `Unambiguous` is needed: otherwise the machines of the documentation differ. -/
theorem C56_order_matters : ∃ (P : Prog Nat), P.toChart.WF ∧ Contract P ∧ Plain P ∧ Smooth P ∧ AnyOrder.Orderless P ∧
    ∃ (l : List (ClientStep Nat)) (st st' : Calm.St Nat), AnyOrder.Session P 0 l st ∧ AnyOrder.Session P 0 l st' ∧ st.world = 1 ∧ st'.world = 2 := by
  refine ⟨rivals, rivals_wf, rivals_contract, rivals_plain, rivals_smooth, rivals_orderless,
    [⟨0, .process ⟨1, 0⟩ 0, .returned⟩, ⟨0, .initiate 0, .returned⟩], ?_⟩
  have h1 : AnyOrder.Session rivals 0 [⟨0, .initiate 0, .returned⟩] (Calm.run rivals (.initiate 0) (Calm.start 0)).2 :=
    .returns .new (AnyOrder.run_self (P := rivals) (.initiate 0) (Calm.start 0))
  have h2 := h1.returns (v := 0) (c := .process ⟨1, 0⟩ 0) (AnyOrder.run_self (P := rivals) (.process ⟨1, 0⟩ 0) _)
  have h3 := h1.returns (v := 0) (c := .process ⟨1, 0⟩ 0) (turned_run rivals (.process ⟨1, 0⟩ 0) _)
  exact ⟨_, _, h2, h3, by decide +kernel, by decide +kernel⟩

/-- In such a case the reaction of the library depends on the past: two machines without history, with the same active states, the same environment and
no deferred or posted events, in which the same event makes different states react. -/
theorem C56_past_matters : ∃ (P : Prog Nat) (m1 m2 m1' m2' : Mach Nat) (e : Event), P.toChart.WF ∧ Contract P ∧ (∀ s, P.shallowH s = false ∧ P.deepH s = false) ∧
    Reach P m1 ∧ Reach P m2 ∧ (∀ s, m1.act s = m2.act s) ∧ m1.world = m2.world ∧ m1.evq = [] ∧ m2.evq = [] ∧ m1.dq = [] ∧ m2.dq = [] ∧
    (Call.process e 0).run P m1 = .ok true m1' ∧ (Call.process e 0).run P m2 = .ok true m2' ∧ m1'.trace = m1.trace ++ [(some e, .act 1)] ∧
    m2'.trace = m2.trace ++ [(some e, .act 2)] := by
  have h : ((scenario rivals [(0, .initiate 0)] (Mach.fresh 0)).any fun m1 =>
      (scenario rivals [(0, .initiate 0), (0, .process ⟨2, 0⟩ 0)] (Mach.fresh 0)).any fun m2 =>
      ((List.range 3).all fun s => m1.act s == m2.act s) && m1.world == m2.world && decide (m1.evq = [] ∧ m2.evq = [] ∧ m1.dq = [] ∧ m2.dq = []) &&
      match (Call.process ⟨1, 0⟩ 0).run rivals m1, (Call.process ⟨1, 0⟩ 0).run rivals m2 with
      | .ok true m1', .ok true m2' => decide (m1'.trace = m1.trace ++ [(some ⟨1, 0⟩, .act 1)] ∧ m2'.trace = m2.trace ++ [(some ⟨1, 0⟩, .act 2)])
      | _, _ => false) = true := by decide +kernel
  rw [Option.any_eq_true] at h
  obtain ⟨m1, h1, h⟩ := h
  rw [Option.any_eq_true] at h
  obtain ⟨m2, h2, h⟩ := h
  simp only [Bool.and_eq_true] at h
  obtain ⟨⟨⟨h3, h4⟩, h5⟩, h6⟩ := h
  obtain ⟨k1, k2, k3, k4⟩ := of_decide_eq_true h5
  have r1 := scenario_reach _ (Reach.fresh (P := rivals) 0) h1
  have r2 := scenario_reach _ (Reach.fresh (P := rivals) 0) h2
  split at h6
  · next m1' m2' e1 e2 =>
    obtain ⟨k5, k6⟩ := of_decide_eq_true h6
    refine ⟨rivals, m1, m2, m1', m2', ⟨1, 0⟩, rivals_wf, rivals_contract, fun _ => ⟨rfl, rfl⟩, r1, r2, ?_, eq_of_beq h4, k1, k2, k3, k4, e1, e2, k5, k6⟩
    intro s
    by_cases hs : s < 3
    · exact eq_of_beq (List.all_eq_true.1 h3 s (List.mem_range.2 hs))
    · have hn : ∀ {m : Mach Nat}, Reach rivals m → m.act s = false := by
        intro m hr
        cases ha : m.act s with
        | false => rfl
        | true => exact absurd ((hr.stable rivals_wf rivals_contract).1.inv.forest.bound s ha) hs
      rw [hn r1, hn r2]
  · cases h6

end Ex
end SC
