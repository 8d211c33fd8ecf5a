import Verif.Props.Events
import Verif.Queue
import Verif.Example
/-!
# Calls as sequences of dispatches

Everything a call does after its first part is a sequence of dispatches of single events. Each
dispatch starts in a machine the client could see.
-/

namespace SC
open Spec Chart
variable {W : Type} {P : Prog W} {m m' : Mach W}

/-- `Spec.Episode` for a program. -/
abbrev Prog.Episode (P : Prog W) := Spec.Episode P.toChart P.decides P.translate
/-- `Spec.Episodes` for a program. -/
abbrev Prog.Episodes (P : Prog W) := Spec.Episodes P.toChart P.decides P.translate

/-- Event `e` is taken from the caller or from the queue; `m0` is the machine when its dispatch begins. -/
inductive Takes (e : Event) (m : Mach W) : Mach W → Prop
  | recv : Takes e m (m.qop (.recv e))
  | pop {q} : m.evq = e :: q → Takes e m { m with evq := q, qlog := m.qlog ++ [.pop e] }

theorem Takes.same {e : Event} {m0 : Mach W} (h : Takes e m m0) : SameState m m0 := by
  cases h <;> exact ⟨by constructor <;> rfl, rfl, rfl, rfl, rfl⟩

theorem Takes.xlog {e : Event} {m0 : Mach W} (h : Takes e m m0) : m0.xlog = m.xlog := by cases h <;> rfl

theorem Takes.trig {e : Event} {m0 : Mach W} (h : Takes e m m0) : m0.trig = m.trig := by cases h <;> rfl

theorem Takes.leaves {e : Event} {m0 : Mach W} (h : Takes e m m0) : m0.leaves = m.leaves := by cases h <;> rfl

theorem Takes.dq {e : Event} {m0 : Mach W} (h : Takes e m m0) : m0.dq = m.dq := by cases h <;> rfl

theorem Takes.stable {e : Event} {m0 : Mach W} (h : Takes e m m0) (hm : Stable P.toChart m) : Stable P.toChart m0 :=
  hm.same h.same (by cases h <;> exact hm.flags)

/-- Queue operations of the dispatch of one event: none of them takes an event. -/
theorem dispatch_ops (e : Event) (h : Early m) :
    wlp (dispatch P e) (fun _ m' => ∃ ops, m'.qlog = m.qlog ++ ops ∧ pops ops = [] ∧ recvs ops = [])
      (fun _ m' => ∃ ops, m'.qlog = m.qlog ++ ops ∧ pops ops = [] ∧ recvs ops = []) m := by
  have hin : ∀ ops : List QOp, (∀ o ∈ ops, o.isInner = true) → pops ops = [] ∧ recvs ops = [] := by
    intro ops ho
    constructor
    · unfold pops
      rw [List.filterMap_eq_nil_iff]
      intro o h
      have := ho o h
      cases o <;> first | rfl | cases this
    · unfold recvs
      rw [List.filterMap_eq_nil_iff]
      intro o h
      have := ho o h
      cases o <;> first | rfl | cases this
  have key : ∀ {m1 m2 : Mach W} {ops : List QOp} {o : QOp}, QStep m m1 ops → m2.qlog = m1.qlog ++ [o] → pops [o] = [] → recvs [o] = [] →
      ∃ ops, m2.qlog = m.qlog ++ ops ∧ pops ops = [] ∧ recvs ops = [] := by
    intro m1 m2 ops o h1 h2 h3 h4
    refine ⟨ops ++ [o], by rw [h2, h1.qlog, List.append_assoc], ?_, ?_⟩
    · show List.filterMap _ _ = []
      rw [List.filterMap_append]
      have := (hin ops h1.inner).1
      unfold pops at this h3
      rw [this, h3]; rfl
    · show List.filterMap _ _ = []
      rw [List.filterMap_append]
      have := (hin ops h1.inner).2
      unfold recvs at this h4
      rw [this, h4]; rfl
  unfold dispatch qop
  rw [wlp_bind, wlp_onThrow]
  refine wlp_mono ((queuePrims P).sendEvent e |>.wlp m) ?_ ?_
  · intro r m1 h1
    obtain ⟨he, o1, h1⟩ := h1 h
    by_cases hr : r = .defer
    · rw [if_pos hr, wlp_bind, wlp_onThrow]
      refine wlp_mono ((queuePrims P).toPrims.alloc (.deferNode e) |>.wlp m1) ?_ ?_
      · intro _ m2 h2
        obtain ⟨_, o2, h2⟩ := h2 he
        exact key (m2 := { m2 with dq := m2.dq ++ [e], qlog := m2.qlog ++ [.defer e] }) (h1.trans h2) rfl rfl rfl
      · intro _ m2 h2
        obtain ⟨_, o2, h2⟩ := h2 he
        exact key (m2 := m2.qop (.lost e)) (h1.trans h2) rfl rfl rfl
    · rw [if_neg hr]
      exact key (m2 := m1.qop (.done e)) h1 rfl rfl rfl
  · intro x m1 h1
    obtain ⟨he, o1, h1⟩ := h1 h
    exact key (m2 := m1.qop (.done e)) h1 rfl rfl rfl

theorem wlp_ok {α : Type} {x : M W α} {Q : α → Mach W → Prop} {E : Exc → Mach W → Prop} {a : α} (h : wlp x Q E m) (hx : x m = .ok a m') : Q a m' := by
  unfold wlp at h; rw [hx] at h; exact h

theorem wlp_thrown {α : Type} {x : M W α} {Q : α → Mach W → Prop} {E : Exc → Mach W → Prop} {e : Exc} (h : wlp x Q E m) (hx : x m = .thrown e m') : E e m' := by
  unfold wlp at h; rw [hx] at h; exact h

theorem wp_ok {α : Type} {x : M W α} {Q : α → Mach W → Prop} {E : Exc → Mach W → Prop} {a : α} (h : wp x Q E m) (hx : x m = .ok a m') : Q a m' := by
  unfold wp at h; rw [hx] at h; exact h

theorem wp_thrown {α : Type} {x : M W α} {Q : α → Mach W → Prop} {E : Exc → Mach W → Prop} {e : Exc} (h : wp x Q E m) (hx : x m = .thrown e m') : E e m' := by
  unfold wp at h; rw [hx] at h; exact h

theorem bind_ok {α β : Type} {x : M W α} {f : α → M W β} {a : α} {m1 : Mach W} (h : x m = .ok a m1) : (x >>= f) m = f a m1 := by
  show M.bnd x f m = _
  unfold M.bnd
  rw [h]

/-- The queued events `es` were dispatched, one after the other. -/
theorem Runs.pops {es : List Event} (h : Runs P Forget es m m') : ∃ ops, m'.qlog = m.qlog ++ ops ∧ Spec.pops ops = es ∧ recvs ops = [] := by
  induction h with
  | nil _ => exact ⟨[], by simp, rfl, rfl⟩
  | @cons e q es m m1 m' h1 h2 h3 _ ih =>
    obtain ⟨o2, k1, k2, k3⟩ := ih
    obtain ⟨o1, g1, g2, g3⟩ := wlp_ok (dispatch_ops (P := P) e (m := { m with evq := q, qlog := m.qlog ++ [.pop e] }) h1.inv.early) h3.eq
    refine ⟨.pop e :: (o1 ++ o2), by rw [k1, g1]; simp, ?_, ?_⟩
    · show List.filterMap _ _ = _
      rw [List.filterMap_cons, List.filterMap_append]
      unfold Spec.pops at g2 k2
      rw [g2, k2]; rfl
    · show List.filterMap _ _ = _
      rw [List.filterMap_cons, List.filterMap_append]
      unfold recvs at g3 k3
      rw [g3, k3]; rfl

/-- Sequence of dispatches. -/
theorem Runs.processQueued {es : List Event} (h : Runs P Forget es m m') :
    ∃ b, SC.processQueued P es.length m = .ok b m' ∧ b = m'.evq.isEmpty := by
  induction h with
  | nil _ => exact ⟨_, rfl, rfl⟩
  | @cons e q es m m1 m' h1 h2 h3 _ ih =>
    obtain ⟨b, h4, h5⟩ := ih
    refine ⟨b, ?_, h5⟩
    show SC.processQueued P (es.length + 1) m = _
    unfold SC.processQueued
    rw [bind_ok (x := M.get) (a := m) (m1 := m) rfl, h2]
    simp only
    rw [bind_ok (x := M.modify _) (a := ()) (m1 := { m with evq := q, qlog := m.qlog ++ [QOp.pop e] }) rfl, bind_ok h3.eq]
    exact h4

section
variable (hwf : P.toChart.WF) (hok : Contract P)
include hwf hok

/-- The dispatch of one event that ends normally. -/
theorem Visible.dispatched {e : Event} {m0 : Mach W} (h : Visible P m) (ht : Takes e m m0) (hr : dispatch P e m0 = .ok () m') :
    ∃ xs tr, m'.trace = m.trace ++ tr ∧ m'.xlog = m.xlog ++ xs ∧ P.Episode e m.leaves m.conf xs tr m'.conf := by
  have h0 := ht.stable (h.stable hwf hok).1
  obtain ⟨_, _, h1⟩ := wp_ok (dispatch_wp hwf hok (userMem_forget P) e h0) hr
  obtain ⟨xs, tr, h2, hx, h3⟩ := h1.episode hwf hok h0
  rw [ht.same.trace] at h2
  rw [ht.leaves, ht.same.conf] at h3
  rw [ht.xlog] at hx
  exact ⟨xs, tr, h2, hx, h3⟩

/-- The dispatch of one event that ends with an exception. -/
theorem Visible.failed {e : Event} {m0 : Mach W} {y : Exc} (h : Visible P m) (ht : Takes e m m0) (hr : dispatch P e m0 = .thrown y m') :
    ∃ xs tr, m'.trace = m.trace ++ tr ∧ m'.xlog = m.xlog ++ xs ∧ P.Fails e m0 y xs tr m' := by
  have h0 := ht.stable (h.stable hwf hok).1
  obtain ⟨_, _, h1⟩ := wp_thrown (dispatch_wp hwf hok (userMem_forget P) e h0) hr
  obtain ⟨xs, tr, h2, hx, h3⟩ := h1.episode hwf hok h0
  rw [ht.same.trace] at h2
  rw [ht.xlog] at hx
  exact ⟨xs, tr, h2, hx, h3⟩

/-- `process_event(e)` that returns (or is still processing queued events): `e` is dispatched, then queued events `es`, in this order. -/
theorem process_event_returns {e : Event} {k : Nat} {b : Bool} (h : Reach P m) (hr : processEvent P e k m = .ok b m') :
    ∃ es xs1 tr1 c1 xs2 tr2, m'.trace = m.trace ++ (tr1 ++ tr2) ∧ m'.xlog = m.xlog ++ (xs1 ++ xs2) ∧
      P.Episode e m.leaves m.conf xs1 tr1 c1 ∧ P.Episodes es c1 xs2 tr2 m'.conf ∧
      (b = true → m'.evq = []) ∧ ∃ ops, m'.qlog = m.qlog ++ ops ∧ recvs ops = [e] ∧ pops ops = es := by
  have hs := (h.stable hwf hok).1
  obtain ⟨_, _, h3, m1, es, h4, h5⟩ := wp_ok (processEvent_wp hwf hok (userMem_forget P) e k hs) hr
  obtain ⟨xs1, tr1, k1, kx1, k2⟩ := Visible.dispatched hwf hok (.inl h) .recv h4.eq
  obtain ⟨xs2, tr2, k3, kx2, k4⟩ := h5.episodes hwf hok
  refine ⟨es, xs1, tr1, _, xs2, tr2, by rw [k3, k1, List.append_assoc], by rw [kx2, kx1, List.append_assoc], k2, k4, h3, ?_⟩
  obtain ⟨o1, g1, g2, g3⟩ := wlp_ok (dispatch_ops (P := P) e (m := m.qop (.recv e)) hs.inv.early) h4.eq
  obtain ⟨o2, g4, g5, g6⟩ := h5.pops
  refine ⟨.recv e :: (o1 ++ o2), by rw [g4, g1]; simp [Mach.qop], ?_, ?_⟩
  · show List.filterMap _ _ = _
    rw [List.filterMap_cons, List.filterMap_append]
    unfold recvs at g3 g6
    rw [g3, g6]; rfl
  · show List.filterMap _ _ = _
    rw [List.filterMap_cons, List.filterMap_append]
    unfold pops at g2 g5
    rw [g2, g5]; rfl

/-- `process_event(e)` that throws: some events were dispatched normally, the dispatch of the next one (`e` or a queued one) failed.
That dispatch started in a machine `m1` the client could have seen. -/
theorem process_event_throws {e : Event} {k : Nat} {y : Exc} (h : Reach P m) (hr : processEvent P e k m = .thrown y m') :
    ∃ es e' m1 m0 xs tr xs' tr', P.Episodes es m.conf xs tr m1.conf ∧ m1.trace = m.trace ++ tr ∧ m1.xlog = m.xlog ++ xs ∧ Visible P m1 ∧ Takes e' m1 m0 ∧
      dispatch P e' m0 = .thrown y m' ∧ m'.trace = m1.trace ++ tr' ∧ m'.xlog = m1.xlog ++ xs' ∧ P.Fails e' m0 y xs' tr' m' ∧
      ∃ ops, m'.qlog = m.qlog ++ ops ∧ recvs ops = [e] ∧ e :: pops ops = es ++ [e'] := by
  have hs := (h.stable hwf hok).1
  have hearly : Early (m.qop (.recv e)) := hs.inv.early
  obtain ⟨hst', _, h3⟩ := wp_thrown (processEvent_wp hwf hok (userMem_forget P) e k hs) hr
  rcases h3 with h3 | ⟨m2, es, m1, e', q, h4, h5, h6, h7⟩
  · obtain ⟨xs, tr, k1, kx, k2⟩ := Visible.failed hwf hok (.inl h) .recv h3.eq
    refine ⟨[], e, m, _, [], [], xs, tr, .nil, by simp, by simp, .inl h, .recv, h3.eq, k1, kx, k2, ?_⟩
    obtain ⟨o1, g1, g2, g3⟩ := wlp_thrown (dispatch_ops (P := P) e hearly) h3.eq
    refine ⟨.recv e :: o1, by rw [g1]; simp [Mach.qop], ?_, ?_⟩
    · show List.filterMap _ _ = _
      rw [List.filterMap_cons]
      unfold recvs at g3
      rw [g3]
    · show e :: List.filterMap _ _ = _
      rw [List.filterMap_cons]
      unfold pops at g2
      rw [g2]; rfl
  · obtain ⟨b, hb, hb'⟩ := h5.processQueued
    have hproc : processEvent P e es.length m = .ok b m1 := by
      unfold processEvent
      rw [bind_ok (x := qop _) (a := ()) (m1 := m.qop (.recv e)) rfl, bind_ok h4.eq]
      exact hb
    rw [h6] at hb'
    subst hb'
    have hv : Visible P m1 := .inr ⟨m, .process e es.length, h, trivial, hproc⟩
    obtain ⟨xs1, tr1, k1, kx1, k2⟩ := Visible.dispatched hwf hok (.inl h) .recv h4.eq
    obtain ⟨xs2, tr2, k3, kx2, k4⟩ := h5.episodes hwf hok
    obtain ⟨xs, tr, k5, kx3, k6⟩ := Visible.failed hwf hok hv (.pop h6) h7.eq
    refine ⟨e :: es, e', m1, _, xs1 ++ xs2, tr1 ++ tr2, xs, tr, .cons hs.innermost.1 k2 k4, by rw [k3, k1, List.append_assoc],
      by rw [kx2, kx1, List.append_assoc], hv, .pop h6, h7.eq, k5, kx3, k6, ?_⟩
    obtain ⟨o1, g1, g2, g3⟩ := wlp_ok (dispatch_ops (P := P) e hearly) h4.eq
    obtain ⟨o2, g4, g5, g6⟩ := h5.pops
    have hs1 := (hv.stable hwf hok).1
    obtain ⟨o3, g7, g8, g9⟩ := wlp_thrown (dispatch_ops (P := P) e' (m := { m1 with evq := q, qlog := m1.qlog ++ [.pop e'] }) hs1.inv.early) h7.eq
    refine ⟨.recv e :: (o1 ++ (o2 ++ .pop e' :: o3)), by rw [g7, g4, g1]; simp [Mach.qop], ?_, ?_⟩
    · show List.filterMap _ _ = _
      rw [List.filterMap_cons, List.filterMap_append, List.filterMap_append, List.filterMap_cons]
      unfold recvs at g3 g6 g9
      rw [g3, g6, g9]; rfl
    · show e :: List.filterMap _ _ = _
      rw [List.filterMap_cons, List.filterMap_append, List.filterMap_append, List.filterMap_cons]
      unfold pops at g2 g5 g8
      rw [g2, g5, g8]; rfl

end
end SC
