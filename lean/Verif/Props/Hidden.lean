import Verif.Near
import Verif.Example

/-!
# C48: no hidden state

What a state machine does next depends on its active states in the order of `state_begin()`, on the stored histories, on the queues and on which
states deferred, and on nothing else that happened before.
-/

namespace SC
open Spec Chart
variable {W α : Type} {P : Prog W}

namespace Spec

/-- The machines look the same. Nodes of the list and of the history maps that were allocated before only matter if their allocation has an effect. -/
structure Alike (P : Prog W) (m1 m2 : Mach W) : Prop where
  act : ∀ s, (m1.heap s).isSome = (m2.heap s).isSome
  leaves : m1.leaves = m2.leaves
  held : ∀ s, (m1.heap s).map (·.deferred) = (m2.heap s).map (·.deferred)
  sh : m1.sh = m2.sh
  dh : m1.dh = m2.dh
  evq : m1.evq = m2.evq
  dq : m1.dq = m2.dq
  world : m1.world = m2.world
  nodes : (m1.len = m2.len ∧ m1.shKeys = m2.shKeys ∧ m1.dhKeys = m2.dhKeys) ∨ NodeAlloc P

/-- The same calls of user code, exceptions and queue operations came after `m1` and `m2`. -/
structure Added (m1 m2 n1 n2 : Mach W) : Prop where
  trace : ∃ l, n1.trace = m1.trace ++ l ∧ n2.trace = m2.trace ++ l
  qlog : ∃ l, n1.qlog = m1.qlog ++ l ∧ n2.qlog = m2.qlog ++ l
  xlog : ∃ l, n1.xlog = m1.xlog ++ l ∧ n2.xlog = m2.xlog ++ l

/-- The same result or exception, with the same calls of user code on the way, and the machines look the same afterwards. -/
inductive SameEnd (P : Prog W) (m1 m2 : Mach W) : Res W α → Res W α → Prop where
  | ok {a n1 n2} : Alike P n1 n2 → Added m1 m2 n1 n2 → SameEnd P m1 m2 (.ok a n1) (.ok a n2)
  | thrown {x n1 n2} : Alike P n1 n2 → Added m1 m2 n1 n2 → SameEnd P m1 m2 (.thrown x n1) (.thrown x n2)

end Spec

section
variable {m1 m2 : Mach W}

/-- Machines that look the same are the same, but for nodes, logs and `isInnermostCommonOuter_`. -/
theorem Spec.Alike.core (h : Alike P m1 m2) (h1 : Stable P.toChart m1) (h2 : Stable P.toChart m2) (k1 : Neat P.toChart m1) (k2 : Neat P.toChart m2) :
    m1.heap = m2.heap ∧ m1.slot = m2.slot ∧ m1.endIx = m2.endIx ∧ m1.outermost = m2.outermost := by
  have he : m1.endIx = m2.endIx := by
    have := h.leaves
    rw [h1.inv.leaves_eq, h2.inv.leaves_eq] at this
    simpa using congrArg List.length this
  have hs : m1.slot = m2.slot := by
    funext i
    by_cases hi : i < m1.endIx
    · have e := h.leaves
      rw [h1.inv.leaves_eq, h2.inv.leaves_eq, he] at e
      have e' := congrArg (·[i]?) e
      rw [he] at hi
      simp only [List.getElem?_map, List.getElem?_range hi, Option.map_some, Option.some.injEq] at e'
      obtain ⟨s, _, g, _⟩ := h2.inv.slot_in hi
      rw [← he] at hi
      obtain ⟨s', _, g', _⟩ := h1.inv.slot_in hi
      rw [g, g'] at e' ⊢
      exact congrArg some e'
    · rw [h1.inv.slot_out (by omega), h2.inv.slot_out (by omega)]
  have ho : m1.outermost = m2.outermost := by
    apply Option.ext
    intro s
    rw [h1.inv.outer, h2.inv.outer, h.act]
  refine ⟨?_, hs, he, ho⟩
  funext s
  have ha := h.act s
  have hd := h.held s
  cases e1 : m1.heap s with
  | none => cases e2 : m2.heap s with
    | none => rfl
    | some o => rw [e1, e2] at ha; cases ha
  | some o1 => cases e2 : m2.heap s with
    | none => rw [e1, e2] at ha; cases ha
    | some o2 =>
      have hi : o1.inner = o2.inner := by
        funext i
        apply Option.ext
        intro c
        rw [h1.inv.inner_iff e1, h2.inv.inner_iff e2, h.act]
      have hl : o1.lpos = o2.lpos := by
        by_cases hleaf : P.isLeaf s = true
        · have g1 := h1.inv.leaf_in e1 hleaf rfl
          rw [hs] at g1
          obtain ⟨s', o', g2, g3, _, g4⟩ := h2.inv.slot_in (i := o1.lpos) (by
            apply Classical.byContradiction
            intro hc
            rw [h2.inv.slot_out (by omega)] at g1
            cases g1)
          rw [g1] at g2
          cases g2
          rw [e2] at g3
          cases g3
          exact g4.symm
        · rw [k1.1 e1 (by simpa using hleaf), k2.1 e2 (by simpa using hleaf)]
      have hr := h1.inv.rc e1
      have hr' := h2.inv.rc e2
      rw [h1.pOU, hi, hl, hs] at hr
      rw [h2.pOU] at hr'
      have hc := h1.inv.ctx e1
      have hc' := h2.inv.ctx e2
      rw [e1, e2] at hd
      simp only [Option.map_some, Option.some.injEq] at hd
      obtain ⟨a, b, c, d, e⟩ := o1
      obtain ⟨a', b', c', d', e'⟩ := o2
      simp only at hi hl hr hr' hc hc' hd
      subst hi hl hc hc' hd
      rw [hr, hr']

/-- `m2` with more nodes, and with the past of the machine that has more of them. -/
def Mach.grow (m1 m2 : Mach W) : Mach W :=
  { m2 with trace := if m1.len ≤ m2.len then m2.trace else m1.trace, len := max m1.len m2.len, shKeys := fun k => m1.shKeys k || m2.shKeys k, dhKeys := fun k => m1.dhKeys k || m2.dhKeys k }

theorem Stable.grow {C : Chart} (h1 : Stable C m1) (h : Stable C m2) (ha : m1.act = m2.act) : Stable C (m1.grow m2) := by
  refine ⟨h.inv.congr' (m' := m1.grow m2) rfl rfl ?_ rfl rfl rfl ?_ ⟨h.inv.hist.sh, h.inv.hist.dh⟩, h.pOU, h.ico, h.fullExit, h.flags⟩
  · refine ⟨Nat.le_trans h.inv.end_le.1 (Nat.le_max_right _ _), ?_⟩
    by_cases hl : m1.len ≤ m2.len
    · simp only [Mach.grow, if_pos hl, Nat.max_eq_right hl]; exact h.inv.end_le.2
    · simp only [Mach.grow, if_neg hl, Nat.max_eq_left (Nat.le_of_not_le hl)]; exact h1.inv.end_le.2
  · by_cases hl : m1.len ≤ m2.len
    · simp only [Mach.grow, if_pos hl]; exact h.inv.tr
    · have e := h1.inv.tr
      rw [ha] at e
      simp only [Mach.grow, if_neg hl]; exact e

/-- Machines that look the same are nearly equal to a third one. -/
theorem Spec.Alike.near (h : Alike P m1 m2) (h1 : Stable P.toChart m1) (h2 : Stable P.toChart m2) (k1 : Neat P.toChart m1) (k2 : Neat P.toChart m2)
    (ht : m1.trig = m2.trig) : ∃ m3, Near P m1 m3 m1 m3 ∧ Near P m2 m3 m2 m3 ∧ (m3 = m2 ∨ m3 = m1.grow m2) := by
  obtain ⟨g1, g2, g3, g4⟩ := h.core h1 h2 k1 k2
  have hp : ∀ (i : Bool) (m3 : Mach W), m3 = m2 ∨ m3 = m1.grow m2 →
      ((m1.len = m3.len ∧ m1.shKeys = m3.shKeys ∧ m1.dhKeys = m3.dhKeys) ∨ (NodeAlloc P ∧ m1.len ≤ m3.len ∧
        (∀ k, m1.shKeys k = true → m3.shKeys k = true) ∧ ∀ k, m1.dhKeys k = true → m3.dhKeys k = true)) →
      (i = false → m1.ico = m2.ico) → Par P i m1 m3 m1 m3 := by
    rintro i m3 hm hn hi
    have e : m3.heap = m2.heap ∧ m3.slot = m2.slot ∧ m3.endIx = m2.endIx ∧ m3.outermost = m2.outermost ∧ m3.ico = m2.ico ∧ m3.pOU = m2.pOU ∧ m3.fullExit = m2.fullExit ∧
        m3.sh = m2.sh ∧ m3.dh = m2.dh ∧ m3.evq = m2.evq ∧ m3.dq = m2.dq ∧ m3.trig = m2.trig ∧ m3.world = m2.world := by
      rcases hm with rfl | rfl <;> simp [Mach.grow]
    obtain ⟨a1, a2, a3, a4, a5, a6, a7, a8, a9, a10, a11, a12, a13⟩ := e
    exact { heap := by rw [a1, g1], slot := by rw [a2, g2], endIx := by rw [a3, g3], outermost := by rw [a4, g4], ico := by rw [a5]; exact hi
            pOU := by rw [a6, h1.pOU, h2.pOU], fullExit := by rw [a7, h1.fullExit, h2.fullExit], sh := by rw [a8, h.sh], dh := by rw [a9, h.dh]
            nodes := hn, evq := by rw [a10, h.evq], dq := by rw [a11, h.dq], trig := by rw [a12, ht], world := by rw [a13, h.world]
            trace := ⟨[], by simp⟩, qlog := ⟨[], by simp⟩, xlog := ⟨[], by simp⟩
            lp := by rw [a1]; exact k2.1
            sl := by rw [a2]; exact k2.2
            ou := fun _ => by rw [a6, h2.pOU] }
  have hq : ∀ m3 : Mach W, m3 = m2 ∨ m3 = m1.grow m2 → m3.outermost = m2.outermost ∧ m3.endIx = m2.endIx := by
    rintro m3 (rfl | rfl) <;> exact ⟨rfl, rfl⟩
  have hx : ∀ m3 : Mach W, m3 = m2 ∨ m3 = m1.grow m2 → ((m1.len = m3.len ∧ m1.shKeys = m3.shKeys ∧ m1.dhKeys = m3.dhKeys) ∨ (NodeAlloc P ∧ m1.len ≤ m3.len ∧
        (∀ k, m1.shKeys k = true → m3.shKeys k = true) ∧ ∀ k, m1.dhKeys k = true → m3.dhKeys k = true)) → Near P m1 m3 m1 m3 := by
    intro m3 hm hn
    by_cases hi : m1.ico = m2.ico
    · exact .inl (hp false m3 hm hn fun _ => hi)
    · refine .inr ⟨hp true m3 hm hn (fun h => by cases h), ?_⟩
      rw [(hq m3 hm).1, (hq m3 hm).2]
      have hd : ∀ x, m2.act x = false := by
        cases e2 : m2.ico with
        | true => exact h2.ico e2
        | false =>
          have e1 : m1.ico = true := by
            cases e1 : m1.ico with
            | true => rfl
            | false => rw [e1, e2] at hi; exact absurd rfl hi
          intro x
          have := h1.ico e1 x
          unfold Mach.act at this ⊢
          rw [← h.act]; exact this
      exact ⟨h2.inv.outer_dead hd, h2.inv.end_dead hd⟩
  rcases h.nodes with hn | hn
  · exact ⟨m2, hx m2 (.inl rfl) (.inl hn), .inl k2.par, .inl rfl⟩
  · refine ⟨m1.grow m2, hx _ (.inr rfl) (.inr ⟨hn, Nat.le_max_left _ _, fun k hk => by simp [Mach.grow, hk], fun k hk => by simp [Mach.grow, hk]⟩), .inl ?_, .inr rfl⟩
    exact { k2.par with trace := ⟨[], by simp⟩, nodes := .inr ⟨hn, Nat.le_max_right _ _, fun k hk => by simp [Mach.grow, hk], fun k hk => by simp [Mach.grow, hk]⟩ }

theorem Near.fields {b1 b2 n1 n2 : Mach W} (h : Near P b1 b2 n1 n2) : ∃ i, Par P i b1 b2 n1 n2 := by
  rcases h with h | ⟨h, _⟩ <;> exact ⟨_, h⟩

theorem Near.alike {b1 b2 b3 n1 n2 n3 : Mach W} (h1 : Near P b1 b3 n1 n3) (h2 : Near P b2 b3 n2 n3) : Alike P n1 n2 ∧ Added b1 b2 n1 n2 := by
  obtain ⟨_, h1⟩ := h1.fields
  obtain ⟨_, h2⟩ := h2.fields
  refine ⟨⟨fun s => by rw [h1.heap, h2.heap], by unfold Mach.leaves; rw [h1.endIx, h2.endIx, h1.slot, h2.slot], fun s => by rw [h1.heap, h2.heap],
    by rw [h1.sh, h2.sh], by rw [h1.dh, h2.dh], by rw [h1.evq, h2.evq], by rw [h1.dq, h2.dq], by rw [h1.world, h2.world], ?_⟩, ?_, ?_, ?_⟩
  · rcases h1.nodes with a | a
    · rcases h2.nodes with b | b
      · exact .inl ⟨by rw [a.1, b.1], by rw [a.2.1, b.2.1], by rw [a.2.2, b.2.2]⟩
      · exact .inr b.1
    · exact .inr a.1
  · obtain ⟨l, e1, e2⟩ := h1.trace
    obtain ⟨l', e3, e4⟩ := h2.trace
    exact ⟨l, e1, by rw [e3, List.append_cancel_left (e4.symm.trans e2)]⟩
  · obtain ⟨l, e1, e2⟩ := h1.qlog
    obtain ⟨l', e3, e4⟩ := h2.qlog
    exact ⟨l, e1, by rw [e3, List.append_cancel_left (e4.symm.trans e2)]⟩
  · obtain ⟨l, e1, e2⟩ := h1.xlog
    obtain ⟨l', e3, e4⟩ := h2.xlog
    exact ⟨l, e1, by rw [e3, List.append_cancel_left (e4.symm.trans e2)]⟩

theorem NearR.same {b1 b2 b3 : Mach W} {r1 r2 r3 : Res W α} (h1 : NearR P b1 b3 r1 r3) (h2 : NearR P b2 b3 r2 r3) (f1 : ∀ g, r1 ≠ .fault g) (f2 : ∀ g, r2 ≠ .fault g) :
    SameEnd P b1 b2 r1 r2 := by
  cases r1 with
  | fault g => exact absurd rfl (f1 g)
  | ok a n1 => cases r2 with
    | fault g => exact absurd rfl (f2 g)
    | ok a' n2 => cases r3 with
      | ok a'' n3 =>
        obtain ⟨rfl, h1⟩ := h1
        obtain ⟨rfl, h2⟩ := h2
        exact .ok (h1.alike h2).1 (h1.alike h2).2
      | _ => exact h1.elim
    | thrown x n2 => cases r3 <;> first | exact h1.elim | exact h2.elim
  | thrown x n1 => cases r2 with
    | fault g => exact absurd rfl (f2 g)
    | thrown a' n2 => cases r3 with
      | thrown a'' n3 =>
        obtain ⟨rfl, h1⟩ := h1
        obtain ⟨rfl, h2⟩ := h2
        exact .thrown (h1.alike h2).1 (h1.alike h2).2
      | _ => exact h1.elim
    | ok x n2 => cases r3 <;> first | exact h1.elim | exact h2.elim

theorem wp_nofault {f : M W α} {Q : α → Mach W → Prop} {E : Exc → Mach W → Prop} {m : Mach W} (h : wp f Q E m) (g : Fault) : f m ≠ .fault g := by
  intro e
  unfold wp at h
  rw [e] at h
  exact h

end

section
variable {m1 m2 : Mach W} (hwf : P.toChart.WF) (hok : Contract P) (h1 : Reach P m1) (h2 : Reach P m2) (ha : Alike P m1 m2)
include hwf hok h1 h2 ha

/-- A machine that both are nearly equal to. -/
theorem Spec.Alike.third : ∃ m3, Near P m1 m3 m1 m3 ∧ Near P m2 m3 m2 m3 ∧ Stable P.toChart m3 := by
  obtain ⟨s1, t1⟩ := h1.stable hwf hok
  obtain ⟨s2, t2⟩ := h2.stable hwf hok
  obtain ⟨m3, g1, g2, rfl | rfl⟩ := ha.near s1 s2 h1.neat h2.neat (by rw [t1, t2])
  · exact ⟨_, g1, g2, s2⟩
  · exact ⟨_, g1, g2, s1.grow s2 (funext ha.act)⟩

theorem C48_terminate : SameEnd P m1 m2 (terminate P m1) (terminate P m2) := by
  obtain ⟨m3, g1, g2, s3⟩ := ha.third hwf hok h1 h2
  exact g1.terminate.same g2.terminate (wp_nofault (terminate_wp' hwf hok (h1.stable hwf hok).1)) (wp_nofault (terminate_wp' hwf hok (h2.stable hwf hok).1))

/-- The same calls are allowed. -/
theorem C48_legal (c : Call) (hl : c.legal P m1) : c.legal P m2 := by
  cases c with
  | initiate k =>
    intro n2 he
    have := C48_terminate hwf hok h1 h2 ha
    rw [he] at this
    cases hx : terminate P m1 with
    | ok a n1 =>
      rw [hx] at this
      cases this with
      | ok ha _ =>
        have hs := terminate_wp' hwf hok (h2.stable hwf hok).1
        have hs1 := terminate_wp' hwf hok (h1.stable hwf hok).1
        unfold wp at hs hs1
        rw [he] at hs
        rw [hx] at hs1
        have := (hs1.1.terminated_iff hwf).1 (hl n1 hx)
        refine (hs.1.terminated_iff hwf).2 fun x => ?_
        have e := this x
        unfold Mach.act at e ⊢
        rw [← ha.act]; exact e
    | thrown x n1 => rw [hx] at this; cases this
    | fault g => rw [hx] at this; cases this
  | _ => trivial

/-- **C48**, one call: machines that look the same do the same and look the same afterwards. -/
theorem C48_call (c : Call) (hl : c.legal P m1) : SameEnd P m1 m2 (c.run P m1) (c.run P m2) := by
  obtain ⟨m3, g1, g2, s3⟩ := ha.third hwf hok h1 h2
  have l3 : c.legal P m3 := by
    cases c with
    | initiate k =>
      intro n3 he
      have hn := g1.terminate
      have hw := terminate_wp' hwf hok (h1.stable hwf hok).1
      rw [he] at hn
      cases hx : terminate P m1 with
      | ok a n1 =>
        rw [hx] at hn
        obtain ⟨_, hn⟩ := hn.2.fields
        rw [← hn.terminated]; exact hl n1 hx
      | thrown x n1 => rw [hx] at hn; exact hn.elim
      | fault g => exact absurd hx (wp_nofault hw g)
    | _ => trivial
  exact (g1.call hwf hok c s3 l3).same (g2.call hwf hok c s3 l3) (wp_nofault (call_wp hwf hok c (h1.stable hwf hok).1 hl))
    (wp_nofault (call_wp hwf hok c (h2.stable hwf hok).1 (C48_legal hwf hok h1 h2 ha c hl)))

end

namespace Spec

/-- What a client does and sees: calls that return or throw, and changes of the world outside. -/
inductive Played (W : Type)
  | returned (c : Call)
  | threw (c : Call) (x : Exc)
  | outside (w : W)

inductive Plays (P : Prog W) : Mach W → List (Played W) → Mach W → Prop where
  | nil {m} : Plays P m [] m
  | returned {c m m1 l m'} : c.legal P m → c.run P m = .ok true m1 → Plays P m1 l m' → Plays P m (.returned c :: l) m'
  | threw {c x m m1 l m'} : c.legal P m → c.run P m = .thrown x m1 → Plays P m1 l m' → Plays P m (.threw c x :: l) m'
  | outside {w m l m'} : Plays P { m with world := w } l m' → Plays P m (.outside w :: l) m'

end Spec

theorem Spec.Added.trans {m1 m2 n1 n2 k1 k2 : Mach W} (h : Added m1 m2 n1 n2) (h' : Added n1 n2 k1 k2) : Added m1 m2 k1 k2 := by
  obtain ⟨⟨a, e1, e2⟩, ⟨b, e3, e4⟩, ⟨c, e5, e6⟩⟩ := h
  obtain ⟨⟨a', f1, f2⟩, ⟨b', f3, f4⟩, ⟨c', f5, f6⟩⟩ := h'
  exact ⟨⟨a ++ a', by rw [f1, e1, List.append_assoc], by rw [f2, e2, List.append_assoc]⟩, ⟨b ++ b', by rw [f3, e3, List.append_assoc], by rw [f4, e4, List.append_assoc]⟩,
    ⟨c ++ c', by rw [f5, e5, List.append_assoc], by rw [f6, e6, List.append_assoc]⟩⟩

theorem Spec.SameEnd.after {m1 m2 n1 n2 : Mach W} {r1 r2 : Res W α} (h : SameEnd P n1 n2 r1 r2) (ha : Added m1 m2 n1 n2) : SameEnd P m1 m2 r1 r2 := by
  cases h with
  | ok a b => exact .ok a (ha.trans b)
  | thrown a b => exact .thrown a (ha.trans b)

/-- **C48** Whatever a client does with a machine and sees from it, it can do and see with any other machine that looks the same, with the same calls
of user code, and the machines look the same in the end. -/
theorem C48_no_hidden_state (hwf : P.toChart.WF) (hok : Contract P) {m1 n1 : Mach W} {l : List (Played W)} (hp : Plays P m1 l n1) :
    ∀ {m2 : Mach W}, Reach P m1 → Reach P m2 → Alike P m1 m2 → ∃ n2, Plays P m2 l n2 ∧ Alike P n1 n2 ∧ Added m1 m2 n1 n2 := by
  induction hp with
  | nil => exact fun {m2} _ _ ha => ⟨m2, .nil, ha, ⟨[], by simp⟩, ⟨[], by simp⟩, ⟨[], by simp⟩⟩
  | @returned c m m1 l m' hl he _ ih =>
    intro m2 h1 h2 ha
    have hs := C48_call hwf hok h1 h2 ha c hl
    have hl2 := C48_legal hwf hok h1 h2 ha c hl
    rw [he] at hs
    cases hx : c.run P m2 with
    | ok a n2 =>
      rw [hx] at hs
      cases hs with
      | ok hb hd =>
        obtain ⟨k2, g1, g2, g3⟩ := ih (.returns h1 hl he) (.returns h2 hl2 hx) hb
        exact ⟨k2, .returned hl2 hx g1, g2, hd.trans g3⟩
    | thrown x n2 => rw [hx] at hs; cases hs
    | fault g => rw [hx] at hs; cases hs
  | @threw c x m m1 l m' hl he _ ih =>
    intro m2 h1 h2 ha
    have hs := C48_call hwf hok h1 h2 ha c hl
    have hl2 := C48_legal hwf hok h1 h2 ha c hl
    rw [he] at hs
    cases hx : c.run P m2 with
    | ok a n2 => rw [hx] at hs; cases hs
    | thrown x n2 =>
      rw [hx] at hs
      cases hs with
      | thrown hb hd =>
        obtain ⟨k2, g1, g2, g3⟩ := ih (.throws h1 hl he) (.throws h2 hl2 hx) hb
        exact ⟨k2, .threw hl2 hx g1, g2, hd.trans g3⟩
    | fault g => rw [hx] at hs; cases hs
  | @outside w m l m' _ ih =>
    intro m2 h1 h2 ha
    obtain ⟨k2, g1, g2, g3⟩ := ih (.world w h1) (.world w h2) { ha with world := rfl }
    exact ⟨k2, .outside g1, g2, g3.trace, g3.qlog, g3.xlog⟩

/-- **C48**, destruction: machines that look the same call the same user code in their destructor. -/
theorem C48_destruct (hwf : P.toChart.WF) (hok : Contract P) {m1 m2 : Mach W} (h1 : Reach P m1) (h2 : Reach P m2) (ha : Alike P m1 m2) :
    SameEnd P m1 m2 (destruct P m1) (destruct P m2) := by
  obtain ⟨m3, g1, g2, s3⟩ := ha.third hwf hok h1 h2
  have hw : ∀ {m : Mach W}, Reach P m → ∀ g, terminateMachine P false m ≠ .fault g := fun h =>
    wp_nofault (terminateMachine_false_wp (Q := fun _ _ => True) (E := fun _ _ => False) hwf (h.stable hwf hok).1.inv fun _ _ => trivial)
  exact (g1.terminateMachine false).same (g2.terminateMachine false) (hw h1) (hw h2)

/-- `terminate` of a terminated machine. -/
def Mach.reset (m : Mach W) : Mach W :=
  { m with fullExit := true, evq := [], dq := [], sh := fun _ => none, dh := fun _ => none, shKeys := fun _ => false, dhKeys := fun _ => false,
           qlog := m.qlog ++ [.clear], hlog := m.hlog ++ [.clear] }

theorem terminate_dead {m : Mach W} (hm : m.outermost = none) : terminate P m = .ok () m.reset := by
  have e : (terminateMachine P true >>= fun _ => (pure RR.discard : M W RR)) { m with trig := none } = .ok .discard { m.reset with trig := none } := by
    show M.bnd (terminateMachine P true) _ _ = _
    unfold M.bnd
    rw [terminateMachine_dead (by exact hm)]
    rfl
  show M.bnd (withTrig none (guardTerm P (translated P none (terminateMachine P true >>= fun _ => (pure RR.discard : M W RR))))) _ m = _
  unfold M.bnd withTrig guardTerm translated M.tryCatch
  rw [e]
  rfl

/-- **C48**, restart: `initiate` of a terminated machine does the same as that of a newly constructed one. -/
theorem C48_restart (hwf : P.toChart.WF) (hok : Contract P) (hn : NodeAlloc P) {m : Mach W} (h : Reach P m) (ht : m.terminated = true) (k : Nat) :
    SameEnd P m (Mach.fresh m.world) (initiate P k m) (initiate P k (Mach.fresh m.world)) := by
  have hs := (h.stable hwf hok).1
  have hd := (hs.terminated_iff hwf).1 ht
  have e1 := terminate_dead (P := P) (hs.inv.outer_dead hd)
  have e2 := terminate_dead (P := P) (m := Mach.fresh m.world) rfl
  have r : ∀ {m : Mach W}, Reach P m → terminate P m = .ok () m.reset → Reach P m.reset := fun {m} h e => .returns (c := .terminate) h trivial (by
    show M.bnd (terminate P) (fun _ => pure true) m = _
    unfold M.bnd; rw [e]; rfl)
  have r1 := r h e1
  have r2 := r (.fresh m.world) e2
  have hh : ∀ s, m.heap s = none := fun s => by
    have := hd s
    unfold Mach.act at this
    cases hx : m.heap s with
    | none => rfl
    | some o => rw [hx] at this; cases this
  have ha : Alike P m.reset (Mach.fresh m.world).reset := ⟨fun s => by
      show (m.heap s).isSome = false
      rw [hh]; rfl, by
      show (List.range m.endIx).filterMap m.slot = []
      rw [hs.inv.end_dead hd]; rfl, fun s => by
      show (m.heap s).map _ = none
      rw [hh]; rfl, rfl, rfl, rfl, rfl, rfl, .inr hn⟩
  obtain ⟨m3, g1, g2, s3⟩ := ha.third hwf hok r1 r2
  have d3 : ∀ x, m3.act x = false := fun x => by
    obtain ⟨_, g⟩ := g1.fields
    show (m3.heap x).isSome = false
    rw [← g.heap]
    exact hd x
  have hw : ∀ {m : Mach W}, Stable P.toChart m → (∀ x, m.act x = false) → ∀ g, construct P k m ≠ .fault g := fun hs hd =>
    wp_nofault (construct_wp hwf hok (userMem_forget P) k hs hd)
  have hc := (g1.construct hwf hok k s3 d3).same (g2.construct hwf hok k s3 d3) (hw (r1.stable hwf hok).1 hd) (hw (r2.stable hwf hok).1 fun _ => rfl)
  have i1 : initiate P k m = construct P k m.reset := by
    show M.bnd (terminate P) (fun _ => construct P k) m = _
    unfold M.bnd; rw [e1]
  have i2 : initiate P k (Mach.fresh m.world) = construct P k (Mach.fresh m.world).reset := by
    show M.bnd (terminate P) (fun _ => construct P k) (Mach.fresh m.world) = _
    unfold M.bnd; rw [e2]
  have hb : Added m (Mach.fresh m.world) m.reset (Mach.fresh m.world).reset := ⟨⟨[], by simp [Mach.reset]⟩, ⟨[.clear], rfl, rfl⟩, ⟨[], by simp [Mach.reset]⟩⟩
  rw [i1, i2]
  exact hc.after hb

end SC

namespace SC.Ex
open Spec

theorem nodeAlloc : NodeAlloc prog := fun _ => ⟨fun _ => rfl, fun _ => rfl, fun _ => rfl⟩

/-- Two machines that look the same, are not terminated and got there differently: one was terminated by an exception in the middle of a transition before
and had `isInnermostCommonOuter_` set since then. -/
theorem C48_alike : ∃ m n1 n2 : Mach Nat, Reach prog m ∧ m.ico = true ∧ Reach prog n1 ∧ Reach prog n2 ∧ Alike prog n1 n2 ∧ n1.terminated = false ∧ n1.xlog ≠ n2.xlog ∧
    initiate prog 8 m = .ok true n1 := by
  obtain ⟨m, hr, hp⟩ := scenario_ex (P := prog) [(0, .initiate 8), (3, .process ⟨9, 0⟩ 8)] 0
    (fun m => m.terminated && m.ico && m.world == 0 && m.xlog == [103] && match initiate prog 8 m with | .ok true m' => !m'.terminated | _ => false) (by decide +kernel)
  simp only [Bool.and_eq_true, beq_iff_eq] at hp
  obtain ⟨⟨⟨⟨h1, h2⟩, h3⟩, h4⟩, h5⟩ := hp
  have hs := C48_restart wf contract nodeAlloc hr h1 8
  cases hx : initiate prog 8 m with
  | fault g => rw [hx] at h5; cases h5
  | thrown x n => rw [hx] at h5; cases h5
  | ok b n1 =>
    rw [hx] at h5 hs
    cases b with
    | false => cases h5
    | true =>
      cases hy : initiate prog 8 (Mach.fresh m.world) with
      | fault g => rw [hy] at hs; cases hs
      | thrown x n => rw [hy] at hs; cases hs
      | ok b n2 =>
        rw [hy] at hs
        cases hs with
        | ok ha hd =>
          refine ⟨m, n1, n2, hr, h2, hr.returns (c := .initiate 8) (Call.legal_of_terminated h1 8) hx, (Reach.fresh m.world).returns (c := .initiate 8)
            (Call.legal_of_terminated rfl 8) hy, ha, by simpa using h5, ?_, hx⟩
          obtain ⟨l, e1, e2⟩ := hd.xlog
          rw [e1, e2, h4]
          intro e
          have := congrArg List.length e
          simp [Mach.fresh] at this

end SC.Ex
