import Verif.Props.Scheduler
import Verif.Fifo.Shared

/-!
# C47: the life of a processor

Unlike C32 this is about arbitrary code of processors and work items: they may call `operator()` of their own scheduler, and constructors may throw.
-/

namespace SC.Fifo

variable {W : Type} {U : W → W → Prop}

namespace Spec

/-- `Life h st o`: `o` is a possible life of the processor of handle `h` up to now: it is constructed once, then called any number of times, then
destroyed once; or there is no memory for it or its constructor throws, and then there is nothing to call or to destroy. -/
inductive Life (h : Nat) : Status → List PEv → Prop where
  | start : Life h .unborn []
  | made (a : Nat) : Life h .alive [.made h a]
  | failed : Life h .failed [.failed h]
  | lost : Life h .gone [.lost h]
  | called {o} (op : HOp) : Life h .alive o → Life h .alive (o ++ [.called op h])
  | gone {o} : Life h .alive o → Life h .gone (o ++ [.gone h])

/-- What was observed of the processor of handle `h`. -/
def obsOf (h : Nat) (l : List PEv) : List PEv := l.filter fun e => evHandle e == h

theorem obsOf_own {h : Nat} {l : List PEv} {e : PEv} (he : evHandle e = h) : obsOf h (l ++ [e]) = obsOf h l ++ [e] := by
  simp [obsOf, List.filter_append, he]

theorem obsOf_other {h : Nat} {l : List PEv} {e : PEv} (he : evHandle e ≠ h) : obsOf h (l ++ [e]) = obsOf h l := by
  simp [obsOf, List.filter_append, he]

end Spec

open Spec

/-- A scheduler a client can get hold of, with arbitrary code: every call of the client has returned or thrown. -/
inductive Used (beh : Fun → Code W) : Wk Op (Ct W) → Prop where
  | fresh (w : W) : Used beh { st := { user := w } }
  /-- Client code outside of work items, which calls the scheduler in any way it likes. -/
  | client {m m'} (k : Nat) (c : Code W) : Used beh m →
      (exec (fun n m => run (body beh) k n m) (c.run .ret .throw) m = .ok () m' ∨
        ∃ x, exec (fun n m => run (body beh) k n m) (c.run .ret .throw) m = .thrown x m') → Used beh m'

/-! ### The invariant -/

/-- The creation of `h`. -/
def isCreate (h : Nat) : Work Op → Bool
  | .user (.create g _) => g == h
  | _ => false

/-- The number of creations of `h` in a queue. -/
def creates (h : Nat) (l : List (Work Op)) : Nat := l.countP (isCreate h)

theorem creates_append (h : Nat) (a b : List (Work Op)) : creates h (a ++ b) = creates h a + creates h b := List.countP_append

/-- What a running function holds a reference for. -/
inductive Use where
  | var
  /-- It calls the processor. -/
  | call
  /-- It constructs the processor, with this argument. -/
  | ctor (a : Nat)

/-- References held by running functions. -/
abbrev Frames := List (Nat × Use)

def held (h : Nat) : Frames → Nat
  | [] => 0
  | (g, _) :: l => (if g = h then 1 else 0) + held h l

def building (h : Nat) : Frames → Nat
  | [] => 0
  | (g, .ctor _) :: l => (if g = h then 1 else 0) + building h l
  | (_, .var) :: l => building h l
  | (_, .call) :: l => building h l

def calling (h : Nat) : Frames → Nat
  | [] => 0
  | (g, .call) :: l => (if g = h then 1 else 0) + calling h l
  | (_, .var) :: l => calling h l
  | (_, .ctor _) :: l => calling h l

theorem calling_le (h : Nat) : ∀ F : Frames, calling h F ≤ held h F
  | [] => Nat.le_refl _
  | (g, .call) :: l => by have := calling_le h l; simp only [calling, held]; omega
  | (g, .var) :: l => by have := calling_le h l; simp only [calling, held]; omega
  | (g, .ctor _) :: l => by have := calling_le h l; simp only [calling, held]; omega

/-- What holds for the handle `h` whose processor has status `st`, while the references `F` are held. -/
structure Sound1 (F : Frames) (m : Wk Op (Ct W)) (h : Nat) (st : Status) : Prop where
  life : Life h st (obsOf h m.st.log)
  full : m.st.full h = true ↔ st = .alive
  refs : m.st.refs h = (if m.st.set h = true then 1 else 0) + creates h m.work + held h F
  alive : st = .alive → 0 < m.st.refs h
  gone : st = .gone → PEv.lost h ∉ obsOf h m.st.log → m.st.refs h = 0
  count : creates h m.work + building h F + (if st = .unborn then 0 else 1) = if h < m.st.next then 1 else 0
  first : creates h m.work = 1 → ∃ q1 a q2, m.work = q1 ++ .user (.create h a) :: q2 ∧ NoOp h q1
  fresh : m.st.next ≤ h ∨ creates h m.work = 1 → NoOp h (starts m.log)
  none : m.st.next ≤ h → NoOp h m.work ∧ held h F = 0
  set : m.st.set h = true ↔ ((∃ a, Work.user (.create h a) ∈ starts m.log) ∧ PEv.lost h ∉ obsOf h m.st.log) ∧ Work.user (.destroy (some h)) ∉ starts m.log
  started : (∃ a, Work.user (.create h a) ∈ starts m.log) ↔ h < m.st.next ∧ creates h m.work = 0
  made : ∀ a, PEv.made h a ∈ obsOf h m.st.log → Work.user (.create h a) ∈ starts m.log
  arg : ∀ a, (h, .ctor a) ∈ F → Work.user (.create h a) ∈ starts m.log
  busy : m.st.busy h = calling h F ∧ (0 < calling h F → st = .alive)

/-- The calls of processors, as operations. -/
def callsOf (l : List PEv) : List Op := l.filterMap fun
  | .called o h => some (.deliver o (some h))
  | _ => none

theorem callsOf_append (a b : List PEv) : callsOf (a ++ b) = callsOf a ++ callsOf b := List.filterMap_append

/-- Null pointers were dereferenced only for processors whose creation has begun and which did not exist yet, and nothing else is wrong. -/
structure Unharmed (m : Wk Op (Ct W)) : Prop where
  fault : m.st.fault = true → m.st.nulls ≠ []
  nulls : ∀ x ∈ m.st.nulls, x.2 <+: m.st.log ∧ (∀ a, PEv.made x.1 a ∉ x.2) ∧ ∃ a, Work.user (.create x.1 a) ∈ starts m.log

theorem Unharmed.of {m m' : Wk Op (Ct W)} (g : Unharmed m) (hf : m'.st.fault = m.st.fault) (hn : m'.st.nulls = m.st.nulls) (hl : m.st.log <+: m'.st.log)
    (ht : starts m.log <+: starts m'.log) : Unharmed m' := by
  refine ⟨by rw [hf, hn]; exact g.fault, fun x hx => ?_⟩
  rw [hn] at hx
  obtain ⟨h1, h2, a, h3⟩ := g.nulls x hx
  exact ⟨h1.trans hl, h2, a, ht.subset h3⟩

structure Sound (F : Frames) (m : Wk Op (Ct W)) : Prop where
  each : ∀ h, ∃ st, Sound1 F m h st
  calls : (callsOf m.st.log).Sublist (ops (starts m.log))
  safe : Unharmed m

/-- `m1` is `m` after the operation `op` has been taken out and before it has done anything. -/
structure Popped (op : Op) (m m1 : Wk Op (Ct W)) : Prop where
  work : m.work = .user op :: m1.work
  starts : starts m1.log = starts m.log ++ [.user op]
  st : m1.st = m.st

/-- The state at any time. -/
def Sane (m : Wk Op (Ct W)) : Prop := (∃ F, Sound F m) ∨ ∃ F op m0, Popped op m0 m ∧ Sound F m0

/-- The outcome is good. -/
def Ends {α : Type} (F : Frames) : Out Op (Ct W) α → Prop
  | .ok _ m => Sound F m
  | .thrown _ m => Sound F m
  | .more m => Sane m

/-- Only this matters for the invariant. -/
theorem Sound1.congr {F F' : Frames} {m m' : Wk Op (Ct W)} {h : Nat} {st : Status} (g : Sound1 F m h st) (hl : obsOf h m'.st.log = obsOf h m.st.log)
    (hf : m'.st.full h = m.st.full h) (hr : m'.st.refs h = m.st.refs h) (hs : m'.st.set h = m.st.set h) (hn : m'.st.next = m.st.next) (hq : m'.work = m.work)
    (ht : starts m'.log = starts m.log) (hF : held h F' = held h F) (hB : building h F' = building h F)
    (hA : ∀ a, (h, .ctor a) ∈ F' → (h, .ctor a) ∈ F) (hC : calling h F' = calling h F) (hy : m'.st.busy h = m.st.busy h) : Sound1 F' m' h st := by
  obtain ⟨a1, a2, a3, a4, a5, a6, a7, a8, a9, a10, b1, b2, b3, b4⟩ := g
  constructor
  · rw [hl]; exact a1
  · rw [hf]; exact a2
  · rw [hr, hs, hq, hF]; exact a3
  · rw [hr]; exact a4
  · rw [hr, hl]; exact a5
  · rw [hq, hB, hn]; exact a6
  · rw [hq]; exact a7
  · rw [hn, hq, ht]; exact a8
  · rw [hn, hq, hF]; exact a9
  · rw [hs, ht, hl]; exact a10
  · rw [hn, hq, ht]; exact b1
  · rw [hl, ht]; exact b2
  · rw [ht]; exact fun a ha => b3 a (hA a ha)
  · rw [hC, hy]; exact b4

theorem Sound.same {F : Frames} {m m' : Wk Op (Ct W)} (g : Sound F m) (hl : m'.st.log = m.st.log)
    (hf : m'.st.full = m.st.full) (hr : m'.st.refs = m.st.refs) (hs : m'.st.set = m.st.set) (hn : m'.st.next = m.st.next) (hq : m'.work = m.work)
    (ht : starts m'.log = starts m.log) (hy : m'.st.busy = m.st.busy) (hz : m'.st.fault = m.st.fault ∧ m'.st.nulls = m.st.nulls) : Sound F m' :=
  ⟨fun h =>
    let ⟨st, g1⟩ := g.each h
    ⟨st, g1.congr (by rw [hl]) (by rw [hf]) (by rw [hr]) (by rw [hs]) hn hq ht rfl rfl (fun _ h => h) rfl (by rw [hy])⟩,
    by rw [hl, ht]; exact g.calls, g.safe.of hz.1 hz.2 (by rw [hl]; exact List.prefix_refl _) (by rw [ht]; exact List.prefix_refl _)⟩

theorem noOp_append {h : Nat} {a b : List (Work Op)} : NoOp h (a ++ b) ↔ NoOp h a ∧ NoOp h b := by
  unfold NoOp
  constructor
  · exact fun g => ⟨fun o ho => g o (List.mem_append_left _ ho), fun o ho => g o (List.mem_append_right _ ho)⟩
  · rintro ⟨g1, g2⟩ o ho
    rcases List.mem_append.1 ho with ho | ho
    · exact g1 o ho
    · exact g2 o ho

theorem starts_queue (w : Work Op) (m : Wk Op (Ct W)) : starts (queueWorkItem (some w) m).log = starts m.log := by
  simp [queueWorkItem, starts_append, starts]

/-- Queuing something that is not a creation. -/
theorem Sound.queue {F : Frames} {m : Wk Op (Ct W)} (g : Sound F m) (w : Work Op) (h1 : ∀ h a, w ≠ .user (.create h a))
    (h2 : ∀ h o, w = .user o → opHandle o = some h → h < m.st.next) : Sound F (queueWorkItem (some w) m) := by
  refine ⟨fun h => ?_, by rw [starts_queue]; exact g.calls, g.safe.of rfl rfl (List.prefix_refl _) (by rw [starts_queue]; exact List.prefix_refl _)⟩
  obtain ⟨st, a1, a2, a3, a4, a5, a6, a7, a8, a9, a10, b1, b2, b3, b4⟩ := g.each h
  have hw := work_queueWorkItem w m
  have hc : creates h (queueWorkItem (some w) m).work = creates h m.work := by
    rw [hw, creates_append]
    have : creates h [w] = 0 := by
      have : isCreate h w = false := by
        unfold isCreate
        split
        · exact absurd rfl (h1 _ _)
        · rfl
      simp [creates, this]
    omega
  refine ⟨st, a1, a2, ?_, a4, a5, ?_, ?_, ?_, ?_, ?_, ?_, ?_, ?_, b4⟩
  · rw [hc]; exact a3
  · rw [hc]; exact a6
  · intro h3
    rw [hc] at h3
    obtain ⟨q1, a, q2, h4, h5⟩ := a7 h3
    exact ⟨q1, a, q2 ++ [w], by rw [hw, h4]; simp, h5⟩
  · rw [hc, starts_queue]; exact a8
  · intro h3
    rw [hw]
    refine ⟨noOp_append.2 ⟨(a9 h3).1, ?_⟩, (a9 h3).2⟩
    intro o ho hh
    have := h2 h o (List.mem_singleton.1 ho).symm hh
    have h3' : m.st.next ≤ h := h3
    omega
  · rw [starts_queue]; exact a10
  · rw [starts_queue, hc]; exact b1
  · rw [starts_queue]; exact b2
  · rw [starts_queue]; exact b3

/-- Making a holder and queuing the creation. -/
theorem Sound.create {F : Frames} {m : Wk Op (Ct W)} (g : Sound F m) (a : Nat) : Sound F
    (queueWorkItem (some (.user (.create m.st.next a)))
      { m with st := { m.st with
          next := m.st.next + 1
          refs := upd m.st.refs m.st.next 1 } }) := by
  refine ⟨fun h => ?_, by rw [starts_queue]; exact g.calls, g.safe.of rfl rfl (List.prefix_refl _) (by rw [starts_queue]; exact List.prefix_refl _)⟩
  obtain ⟨st, a1, a2, a3, a4, a5, a6, a7, a8, a9, a10, b1, b2, b3, b4⟩ := g.each h
  generalize hm' : queueWorkItem (some (.user (.create m.st.next a)))
    { m with st := { m.st with
        next := m.st.next + 1
        refs := upd m.st.refs m.st.next 1 } } = m'
  have hw : m'.work = m.work ++ [.user (.create m.st.next a)] := by
    rw [← hm', work_queueWorkItem]; rfl
  have hn : m'.st.next = m.st.next + 1 := by rw [← hm']; rfl
  have hr : m'.st.refs = upd m.st.refs m.st.next 1 := by rw [← hm']; rfl
  have hs : m'.st.set = m.st.set := by rw [← hm']; rfl
  have hf : m'.st.full = m.st.full := by rw [← hm']; rfl
  have hl : m'.st.log = m.st.log := by rw [← hm']; rfl
  have hy : m'.st.busy = m.st.busy := by rw [← hm']; rfl
  have ht : starts m'.log = starts m.log := by rw [← hm', starts_queue]
  have hc : creates h m'.work = creates h m.work + if m.st.next = h then 1 else 0 := by
    rw [hw, creates_append]; by_cases hh' : m.st.next = h <;> simp [creates, isCreate, hh']
  by_cases hh : m.st.next = h
  · subst hh
    rw [if_neg (Nat.lt_irrefl m.st.next)] at a6
    have h0 : creates m.st.next m.work = 0 := by omega
    have hb0 : building m.st.next F = 0 := by omega
    have hu : st = .unborn := by
      cases st <;> first | rfl | (simp at a6)
    have hset : m.st.set m.st.next = false := by
      cases hx : m.st.set m.st.next with
      | false => rfl
      | true =>
        obtain ⟨a', ha'⟩ := (a10.1 hx).1.1
        exact absurd rfl (a8 (.inl (Nat.le_refl _)) _ ha')
    have hheld : held m.st.next F = 0 := by
      exact (a9 (Nat.le_refl _)).2
    refine ⟨st, by rw [hl]; exact a1, by rw [hf]; exact a2, ?_, ?_, ?_, ?_, ?_, ?_, ?_, ?_, ?_, ?_, ?_, by rw [hy]; exact b4⟩
    · rw [hr, upd_same, hs, hset, hc, h0, hheld]; simp
    · intro h; rw [hu] at h; cases h
    · intro h; rw [hu] at h; cases h
    · rw [hc, h0, hb0, hn, hu]; simp
    · intro _
      exact ⟨m.work, a, [], hw, (a9 (Nat.le_refl _)).1⟩
    · intro _; rw [ht]; exact a8 (.inl (Nat.le_refl _))
    · intro h; rw [hn] at h; omega
    · rw [hs, ht, hl]; exact a10
    · rw [ht, hn, hc, h0]
      refine ⟨fun ⟨a', ha'⟩ => absurd rfl (a8 (.inl (Nat.le_refl _)) _ ha'), fun hx => ?_⟩
      simp at hx
    · rw [hl, ht]; exact b2
    · rw [ht]; exact b3
  · rw [if_neg hh, Nat.add_zero] at hc
    refine ⟨st, by rw [hl]; exact a1, by rw [hf]; exact a2, ?_, ?_, ?_, ?_, ?_, ?_, ?_, ?_, ?_, ?_, ?_, by rw [hy]; exact b4⟩
    · rw [hr, upd_ne _ _ (Ne.symm hh), hs, hc]; exact a3
    · rw [hr, upd_ne _ _ (Ne.symm hh)]; exact a4
    · rw [hr, upd_ne _ _ (Ne.symm hh), hl]; exact a5
    · rw [hc, a6, hn]
      by_cases hlt : h < m.st.next
      · rw [if_pos hlt, if_pos (by omega)]
      · rw [if_neg hlt, if_neg (by omega)]
    · intro h3
      rw [hc] at h3
      obtain ⟨q1, a', q2, h4, h5⟩ := a7 h3
      exact ⟨q1, a', q2 ++ [.user (.create m.st.next a)], by rw [hw, h4]; simp, h5⟩
    · rw [hc, ht, hn]
      rintro (h3 | h3)
      · exact a8 (.inl (by omega))
      · exact a8 (.inr h3)
    · intro h3
      rw [hn] at h3
      rw [hw]
      refine ⟨noOp_append.2 ⟨(a9 (by omega)).1, ?_⟩, (a9 (by omega)).2⟩
      intro o ho he
      cases List.mem_singleton.1 ho
      exact hh (Option.some.inj he)
    · rw [hs, ht, hl]; exact a10
    · rw [ht, hn, hc, b1]
      exact and_congr_left fun _ => by omega
    · rw [hl, ht]; exact b2
    · rw [ht]; exact b3

theorem Sound.handled {F : Frames} {m : Wk Op (Ct W)} (g : Sound F m) (d : Nat) (f : Option Nat → Op) (h1 : ∀ h a, f (handle m.st d) ≠ .create h a)
    (h2 : ∀ h, opHandle (f (handle m.st d)) = some h → handle m.st d = some h) : Sound F (queueWorkItem (some (.user (f (handle m.st d)))) m) := by
  refine g.queue _ (fun h a he => h1 h a (Work.user.inj he)) ?_
  intro h o ho hh
  cases ho
  have := h2 h hh
  unfold handle at this
  split at this
  · cases this; assumption
  · cases this

theorem Sound.destroyed {F : Frames} {m : Wk Op (Ct W)} (g : Sound F m) (d : Nat) : Sound F (queueWorkItem (some (.user (.destroy (handle m.st d)))) m) :=
  g.handled d .destroy (by simp) (fun _ h => h)

theorem Sound.delivered {F : Frames} {m : Wk Op (Ct W)} (g : Sound F m) (o : HOp) (d : Nat) :
    Sound F (queueWorkItem (some (.user (.deliver o (handle m.st d)))) m) :=
  g.handled d (.deliver o) (by simp) (fun _ h => h)

theorem Sound.itemQueued {F : Frames} {m : Wk Op (Ct W)} (g : Sound F m) (i : Nat) : Sound F (queueWorkItem (some (.user (.item i))) m) := by
  refine g.queue _ (by simp) ?_
  intro h o ho hh
  cases ho
  cases hh

theorem Sound.stopped {F : Frames} {m : Wk Op (Ct W)} (g : Sound F m) : Sound F (Fifo.terminate m) := g.queue _ (by simp) (by simp)

/-- Steps of other threads. -/
theorem Sound.env {F : Frames} {m m' : Wk Op (Ct W)} (g : Sound F m) (h : Env U m m') : Sound F m' := by
  cases h with
  | create a => exact g.create a
  | destroy h => exact g.destroyed h
  | deliver o h => exact g.delivered o h
  | item i => exact g.itemQueued i
  | terminate => exact g.stopped
  | user w => exact g.same rfl rfl rfl rfl rfl rfl rfl rfl ⟨rfl, rfl⟩

theorem Sound.others {F : Frames} {m m' : Wk Op (Ct W)} (g : Sound F m) (h : Others U m m') : Sound F m' := by
  induction h with
  | refl => exact g
  | step _ h ih => exact ih.env h

/-- All outcomes of `operator()` are good. -/
abbrev GoodLoop (lp : Nat → Wk Op (Ct W) → Out Op (Ct W) Nat → Prop) : Prop := ∀ F n m o, Sound F m → lp n m o → Ends F o

/-- All outcomes of the code are good. -/
abbrev Fine (U : W → W → Prop) (F F' : Frames) (lp : Nat → Wk Op (Ct W) → Out Op (Ct W) Nat → Prop) (p : Prog Op (Ct W)) : Prop := ∀ m o, Sound F m → execS U lp p m o → Ends F' o

/-- Other threads make steps, then something is done. -/
theorem Sound.andThen {F F' : Frames} {m : Wk Op (Ct W)} {o : Out Op (Ct W) Unit} {p : Wk Op (Ct W) → Prop} (g : Sound F m)
    (h : ∃ m1, Others U m m1 ∧ (o = .more m1 ∨ p m1)) (hp : ∀ m1, Sound F m1 → p m1 → Ends F' o) : Ends F' o := by
  obtain ⟨m1, h1, rfl | h2⟩ := h
  · exact .inl ⟨F, g.others h1⟩
  · exact hp m1 (g.others h1) h2

/-- Queuing and taking out commute. -/
theorem Popped.env {op : Op} {m m1 m1' : Wk Op (Ct W)} (g : Popped op m m1) (h : Env U m1 m1') : ∃ m', Env U m m' ∧ Popped op m' m1' := by
  have hq : ∀ w, Popped op (queueWorkItem (some w) m) (queueWorkItem (some w) m1) := fun w =>
    ⟨by rw [work_queueWorkItem, work_queueWorkItem, g.work]; rfl, by rw [starts_queue, starts_queue, g.starts], g.st⟩
  cases h with
  | create a =>
    refine ⟨_, .create a m, ?_⟩
    rw [← g.st]
    exact ⟨by rw [work_queueWorkItem, work_queueWorkItem]; show m.work ++ _ = _; rw [g.work]; rfl,
      by rw [starts_queue, starts_queue]; exact g.starts, rfl⟩
  | destroy d => exact ⟨_, .destroy d m, by rw [g.st]; exact hq _⟩
  | deliver o d => exact ⟨_, .deliver o d m, by rw [g.st]; exact hq _⟩
  | item i => exact ⟨_, .item i m, hq _⟩
  | terminate => exact ⟨_, .terminate m, hq _⟩
  | user w _ hu => exact ⟨_, .user w m (by rw [← g.st]; exact hu), g.work, g.starts, by rw [g.st]⟩

theorem Popped.others {op : Op} {m m1 m1' : Wk Op (Ct W)} (g : Popped op m m1) (h : Others U m1 m1') : ∃ m', Others U m m' ∧ Popped op m' m1' := by
  induction h with
  | refl => exact ⟨m, .refl _, g⟩
  | step _ h ih =>
    obtain ⟨m', h1, h2⟩ := ih
    obtain ⟨m'', h3, h4⟩ := h2.env h
    exact ⟨m'', h1.step h3, h4⟩

theorem Sound.popThen {F F' : Frames} {op : Op} {m m1 : Wk Op (Ct W)} {o : Out Op (Ct W) Unit} {p : Wk Op (Ct W) → Prop} (g : Sound F m) (hp : Popped op m m1)
    (h : ∃ m2, Others U m1 m2 ∧ (o = .more m2 ∨ p m2)) (hk : ∀ m m1, Sound F m → Popped op m m1 → p m1 → Ends F' o) : Ends F' o := by
  obtain ⟨m2, h1, h2⟩ := h
  obtain ⟨m', h3, h4⟩ := hp.others h1
  rcases h2 with rfl | h2
  · exact .inr ⟨F, op, m', h4, g.others h3⟩
  · exact hk m' m2 (g.others h3) h4 h2

/-- User code, which may call `operator()`, followed by library code. -/
theorem Sound.code {lp : Nat → Wk Op (Ct W) → Out Op (Ct W) Nat → Prop} (hlp : GoodLoop lp) {F F' : Frames} {kr : Prog Op (Ct W)}
    {kt : Nat → Prog Op (Ct W)} (hr : Fine U F F' lp kr) (ht : ∀ x, Fine U F F' lp (kt x)) :
    ∀ c : Code W, Fine U F F' lp (c.run kr kt)
  | .ret, m, o, h, he => hr m o h he
  | .throw x, m, o, h, he => ht x m o h he
  | .create a k, m, o, h, he => by
    refine h.andThen he fun m1 g he => (g.create a).andThen he fun m2 g he => Sound.code hlp hr ht (k m1.st.next) m2 o g he
  | .destroy d k, m, o, h, he =>
    h.andThen he fun _ g he => (g.destroyed d).andThen he fun m2 g he => Sound.code hlp hr ht k m2 o g he
  | .deliver op d k, m, o, h, he =>
    h.andThen he fun _ g he => (g.delivered op d).andThen he fun m2 g he => Sound.code hlp hr ht k m2 o g he
  | .item .none k, m, o, h, he => h.andThen he fun _ g he => g.andThen he fun m2 g he => Sound.code hlp hr ht k m2 o g he
  | .item (some i) k, m, o, h, he => h.andThen he fun _ g he => (g.itemQueued i).andThen he fun m2 g he => Sound.code hlp hr ht k m2 o g he
  | .terminate k, m, o, h, he => h.andThen he fun _ g he => g.stopped.andThen he fun m2 g he => Sound.code hlp hr ht k m2 o g he
  | .terminated k, m, o, h, he => h.andThen he fun m2 g he => Sound.code hlp hr ht (k m2.terminated) m2 o g he
  | .get k, m, o, h, he => h.andThen he fun m2 g he => Sound.code hlp hr ht (k m2.st.user) m2 o g he
  | .put w k, m, o, h, he => h.andThen he fun m2 g he =>
    Sound.code hlp hr ht k { m2 with st := { m2.st with user := w } } o (g.same rfl rfl rfl rfl rfl rfl rfl rfl ⟨rfl, rfl⟩) he
  | .call n k c, m, o, h, he => by
    rw [Code.run, execS] at he
    obtain ⟨r, h1, h2⟩ := he
    have hn := hlp F n m r h h1
    cases r with
    | ok i m' => exact Sound.code hlp hr ht (k i) m' o hn h2
    | thrown x m' => exact Sound.code hlp hr ht (c x) m' o hn h2
    | more m' => rw [h2]; exact hn

/-- The library changes what is stored for handle `h` only. -/
theorem Sound.one {F F' : Frames} {m m' : Wk Op (Ct W)} (g : Sound F m) (h : Nat) {e : List PEv} (hl : m'.st.log = m.st.log ++ e) (he : ∀ x ∈ e, evHandle x = h)
    (hf : ∀ i, i ≠ h → m'.st.full i = m.st.full i) (hr : ∀ i, i ≠ h → m'.st.refs i = m.st.refs i) (hs : ∀ i, i ≠ h → m'.st.set i = m.st.set i)
    (hn : m'.st.next = m.st.next) (hq : m'.work = m.work) (ht : starts m'.log = starts m.log) (hF : ∀ i, i ≠ h → held i F' = held i F ∧ building i F' = building i F ∧ calling i F' = calling i F)
    (hA : ∀ i a, (i, .ctor a) ∈ F' → (i, .ctor a) ∈ F) (hc : (callsOf m'.st.log).Sublist (ops (starts m.log))) (hy : ∀ i, i ≠ h → m'.st.busy i = m.st.busy i)
    (hz : m'.st.fault = m.st.fault ∧ m'.st.nulls = m.st.nulls) (own : ∀ st, Sound1 F m h st → ∃ st', Sound1 F' m' h st') : Sound F' m' := by
  refine ⟨fun i => ?_, by rw [ht]; exact hc, g.safe.of hz.1 hz.2 (by rw [hl]; exact List.prefix_append _ _) (by rw [ht]; exact List.prefix_refl _)⟩
  obtain ⟨st, g1⟩ := g.each i
  by_cases hi : i = h
  · subst hi; exact own st g1
  · refine ⟨st, g1.congr ?_ (hf i hi) (hr i hi) (hs i hi) hn hq ht (hF i hi).1 (hF i hi).2.1 (hA i) (hF i hi).2.2 (hy i hi)⟩
    rw [hl]
    unfold obsOf
    rw [List.filter_append]
    have : e.filter (fun x => evHandle x == i) = [] := by
      rw [List.filter_eq_nil_iff]; intro x hx; simp [he x hx, Ne.symm hi]
    rw [this, List.append_nil]

theorem held_cons_ne {h i : Nat} {b : Use} {F : Frames} (hi : i ≠ h) : held i ((h, b) :: F) = held i F ∧ building i ((h, b) :: F) = building i F ∧
    calling i ((h, b) :: F) = calling i F := by
  cases b <;> simp [held, building, calling, Ne.symm hi]

/-- Releasing a reference. -/
theorem Sound.release {lp : Nat → Wk Op (Ct W) → Out Op (Ct W) Nat → Prop} (hlp : GoodLoop lp) {beh : Fun → Code W} {F F' : Frames} {h : Nat}
    {k : Prog Op (Ct W)} (hk : Fine U F F' lp k) : Fine U ((h, .var) :: F) F' lp (release beh h k) := by
  intro m o g he
  have hF : ∀ i, i ≠ h → held i F = held i ((h, .var) :: F) ∧ building i F = building i ((h, .var) :: F) ∧ calling i F = calling i ((h, .var) :: F) :=
    fun i hi => ⟨(held_cons_ne hi).1.symm, (held_cons_ne hi).2.1.symm, (held_cons_ne hi).2.2.symm⟩
  have hle := calling_le h F
  have hh : held h ((h, .var) :: F) = held h F + 1 := by simp [held]; omega
  have hb : building h ((h, .var) :: F) = building h F := by simp [building]
  have hA : ∀ i a, (i, .ctor a) ∈ F → (i, .ctor a) ∈ (h, .var) :: F := fun _ _ h => List.mem_cons_of_mem _ h
  unfold Fifo.release at he
  refine g.andThen he fun m g he => ?_
  simp only at he
  split at he
  · rename_i h1
    split at he
    · rename_i h2
      refine Sound.code hlp hk (fun _ => hk) _ _ o ?_ he
      refine g.one h (e := [.gone h]) rfl (by simp [evHandle]) (fun i hi => upd_ne _ _ hi) (fun i hi => upd_ne _ _ hi) (fun _ _ => rfl) rfl rfl rfl hF hA (by rw [callsOf_append]; simpa [callsOf] using g.calls) (fun _ _ => rfl) ⟨rfl, rfl⟩ ?_
      rintro st ⟨a1, a2, a3, a4, a5, a6, a7, a8, a9, a10, b1, b2, b3, b4⟩
      have hst := a2.1 h2
      subst hst
      rw [hh, h1] at a3
      rw [hb] at a6
      have hlo : PEv.lost h ∈ obsOf h (m.st.log ++ [.gone h]) ↔ PEv.lost h ∈ obsOf h m.st.log := by
        rw [obsOf_own (h := h) (e := .gone h) rfl]; simp
      refine ⟨.gone, ?_, ?_, ?_, ?_, ?_, ?_, a7, a8, ?_, ?_, b1, ?_, fun a ha => b3 a (hA h a ha), b4.1, fun hx => ?_⟩
      · show Life h .gone (obsOf h (m.st.log ++ [.gone h]))
        rw [obsOf_own (h := h) (e := .gone h) rfl]; exact .gone a1
      · show upd m.st.full h false h = true ↔ _
        rw [upd_same]; simp
      · show upd m.st.refs h 0 h = (if m.st.set h = true then 1 else 0) + creates h m.work + held h F
        rw [upd_same]; omega
      · intro hx; cases hx
      · intro _ _; exact upd_same _ _ _
      · exact a6
      · intro hx; exact ⟨(a9 hx).1, by have := (a9 hx).2; omega⟩
      · show m.st.set h = true ↔ (_ ∧ ¬ PEv.lost h ∈ obsOf h (m.st.log ++ [.gone h])) ∧ _
        rw [hlo]; exact a10
      · intro a ha
        refine b2 a ?_
        have ha' : PEv.made h a ∈ obsOf h (m.st.log ++ [.gone h]) := ha
        rw [obsOf_own (h := h) (e := .gone h) rfl] at ha'
        simpa using ha'
      · omega
    · rename_i h2
      rw [execS] at he
      refine hk _ o ?_ he
      refine g.one h (e := []) (by simp) (by simp) (fun _ _ => rfl) (fun i hi => upd_ne _ _ hi) (fun _ _ => rfl) rfl rfl rfl hF hA g.calls (fun _ _ => rfl) ⟨rfl, rfl⟩ ?_
      rintro st ⟨a1, a2, a3, a4, a5, a6, a7, a8, a9, a10, b1, b2, b3, b4⟩
      rw [hh, h1] at a3
      rw [hb] at a6
      refine ⟨st, a1, a2, ?_, ?_, ?_, a6, a7, a8, ?_, a10, b1, b2, fun a ha => b3 a (hA h a ha), b4⟩
      · show upd m.st.refs h 0 h = (if m.st.set h = true then 1 else 0) + creates h m.work + held h F
        rw [upd_same]; omega
      · intro hx; exact absurd (a2.2 hx) h2
      · intro _ _; exact upd_same _ _ _
      · intro hx; exact ⟨(a9 hx).1, by have := (a9 hx).2; omega⟩
  · rename_i h1
    rw [execS] at he
    refine hk _ o ?_ he
    have h0 : (m.st.refs h == 0) = false := by
      obtain ⟨st, g1⟩ := g.each h
      have := g1.refs
      rw [hh] at this
      simp; omega
    refine g.one h (e := []) (by simp) (by simp) (fun _ _ => rfl) (fun i hi => upd_ne _ _ hi) (fun _ _ => rfl) rfl rfl rfl hF hA g.calls (fun _ _ => rfl)
      ⟨by show (m.st.fault || m.st.refs h == 0) = _; rw [h0, Bool.or_false], rfl⟩ ?_
    rintro st ⟨a1, a2, a3, a4, a5, a6, a7, a8, a9, a10, b1, b2, b3, b4⟩
    rw [hh] at a3
    rw [hb] at a6
    refine ⟨st, a1, a2, ?_, ?_, ?_, a6, a7, a8, ?_, a10, b1, b2, fun a ha => b3 a (hA h a ha), b4⟩
    · show upd m.st.refs h (m.st.refs h - 1) h = (if m.st.set h = true then 1 else 0) + creates h m.work + held h F
      rw [upd_same]; omega
    · intro hx
      show 0 < upd m.st.refs h (m.st.refs h - 1) h
      rw [upd_same]; have := a4 hx; omega
    · intro hx hy
      show upd m.st.refs h (m.st.refs h - 1) h = 0
      rw [upd_same]; have := a5 hx hy; omega
    · intro hx; exact ⟨(a9 hx).1, by have := (a9 hx).2; omega⟩

/-- Taking out an operation that is not the creation of `h`. -/
theorem Sound1.pop {F F' : Frames} {m m1 : Wk Op (Ct W)} {h : Nat} {st : Status} {op : Op} (g : Sound1 F m h st) (hw : m.work = .user op :: m1.work)
    (ht : starts m1.log = starts m.log ++ [.user op]) (hop : ∀ a, op ≠ .create h a) (hl : m1.st.log = m.st.log) (hf : m1.st.full h = m.st.full h) (hn : m1.st.next = m.st.next)
    (hr : creates h m1.work = creates h m.work → m1.st.refs h = (if m1.st.set h = true then 1 else 0) + creates h m1.work + held h F') (hz : m1.st.refs h = 0 ↔ m.st.refs h = 0)
    (hF : held h F = 0 → opHandle op ≠ some h → held h F' = 0) (hB : building h F' = building h F)
    (hA : ∀ a, (h, .ctor a) ∈ F' → (h, .ctor a) ∈ F) (hC : calling h F' = calling h F) (hy : m1.st.busy h = m.st.busy h) (hs : m1.st.set h = true ↔ m.st.set h = true ∧ op ≠ .destroy (some h)) : Sound1 F' m1 h st := by
  obtain ⟨a1, a2, a3, a4, a5, a6, a7, a8, a9, a10, b1, b2, b3, b4⟩ := g
  have hc : creates h m1.work = creates h m.work := by
    rw [hw]
    have : isCreate h (.user op) = false := by
      unfold isCreate
      split
      · rename_i g' a he
        cases he
        have : g' ≠ h := fun he => hop a (by rw [he])
        simp [this]
      · rfl
    simp [creates, this]
  have hno : m.st.next ≤ h ∨ creates h m1.work = 1 → opHandle op ≠ some h := by
    rintro (h1 | h1)
    · exact (a9 h1).1 op (by rw [hw]; exact List.mem_cons_self)
    · rw [hc] at h1
      obtain ⟨q1, a, q2, h2, h3⟩ := a7 h1
      rw [hw] at h2
      cases q1 with
      | nil => cases (List.cons.inj h2).1; exact absurd rfl (hop a)
      | cons v q1 => exact h3 op (by rw [← (List.cons.inj h2).1]; exact List.mem_cons_self)
  refine ⟨by rw [hl]; exact a1, by rw [hf]; exact a2, hr hc, ?_, ?_, ?_, ?_, ?_, ?_, ?_, ?_, ?_, ?_, by rw [hC, hy]; exact b4⟩
  · intro h1; have := a4 h1; omega
  · intro h1 h2; rw [hl] at h2; exact hz.2 (a5 h1 h2)
  · rw [hc, hB, hn]; exact a6
  · intro h1
    rw [hc] at h1
    obtain ⟨q1, a, q2, h2, h3⟩ := a7 h1
    rw [hw] at h2
    cases q1 with
    | nil => cases (List.cons.inj h2).1; exact absurd rfl (hop a)
    | cons v q1 => exact ⟨q1, a, q2, (List.cons.inj h2).2, h3.tail⟩
  · intro h1
    rw [hn] at h1
    rw [ht]
    refine noOp_append.2 ⟨a8 (by rw [← hc]; exact h1), ?_⟩
    intro o ho
    cases List.mem_singleton.1 ho
    exact hno h1
  · intro h1
    rw [hn] at h1
    have h2 := (a9 h1).1
    rw [hw] at h2
    exact ⟨h2.tail, hF (a9 h1).2 (hno (.inl h1))⟩
  · rw [hs, ht, a10, hl]
    constructor
    · rintro ⟨⟨⟨⟨a, h1⟩, h0⟩, h2⟩, h3⟩
      refine ⟨⟨⟨a, List.mem_append_left _ h1⟩, h0⟩, fun h4 => ?_⟩
      rcases List.mem_append.1 h4 with h4 | h4
      · exact h2 h4
      · cases List.mem_singleton.1 h4; exact h3 rfl
    · rintro ⟨⟨⟨a, h1⟩, h0⟩, h2⟩
      refine ⟨⟨⟨?_, h0⟩, fun h4 => h2 (List.mem_append_left _ h4)⟩, fun h3 => h2 (by rw [h3]; simp)⟩
      rcases List.mem_append.1 h1 with h1 | h1
      · exact ⟨a, h1⟩
      · cases List.mem_singleton.1 h1; exact absurd rfl (hop a)
  · rw [ht, hn, hc, ← b1]
    refine ⟨fun ⟨a, ha⟩ => ?_, fun ⟨a, ha⟩ => ⟨a, List.mem_append_left _ ha⟩⟩
    rcases List.mem_append.1 ha with ha | ha
    · exact ⟨a, ha⟩
    · cases List.mem_singleton.1 ha; exact absurd rfl (hop a)
  · rw [hl, ht]; exact fun a ha => List.mem_append_left _ (b2 a ha)
  · rw [ht]; exact fun a ha => List.mem_append_left _ (b3 a (hA a ha))

theorem Sound.callsPop {F : Frames} {m m1 : Wk Op (Ct W)} {op : Op} (g : Sound F m) (ht : starts m1.log = starts m.log ++ [.user op]) (hl : m1.st.log = m.st.log) :
    (callsOf m1.st.log).Sublist (ops (starts m1.log)) := by
  rw [hl, ht, ops_append]
  exact g.calls.trans (List.sublist_append_left _ _)

/-- Taking out an operation that neither creates nor destroys. -/
theorem Sound.pop {F : Frames} {m m1 : Wk Op (Ct W)} {op : Op} (g : Sound F m) (hw : m.work = .user op :: m1.work)
    (ht : starts m1.log = starts m.log ++ [.user op]) (hst : m1.st = m.st) (h1 : ∀ h a, op ≠ .create h a) (h2 : ∀ h, op ≠ .destroy (some h)) : Sound F m1 := by
  refine ⟨fun h => ?_, g.callsPop ht (by rw [hst]), g.safe.of (by rw [hst]) (by rw [hst]) (by rw [hst]; exact List.prefix_refl _) (by rw [ht]; exact List.prefix_append _ _)⟩
  obtain ⟨st, g1⟩ := g.each h
  refine ⟨st, g1.pop hw ht (h1 h) (by rw [hst]) (by rw [hst]) (by rw [hst]) ?_ (by rw [hst]) (fun h _ => h) rfl (fun _ h => h) rfl (by rw [hst]) ?_⟩
  · intro hc; rw [hc, hst]; exact g1.refs
  · rw [hst]; simp [h2 h]

/-- The creation of a processor is taken out and its holder is inserted into the set. -/
theorem Sound.popCreate {F : Frames} {m m1 : Wk Op (Ct W)} {h a : Nat} (g : Sound F m) (hw : m.work = .user (.create h a) :: m1.work)
    (ht : starts m1.log = starts m.log ++ [.user (.create h a)])
    (hst : m1.st = { m.st with set := upd m.st.set h true, refs := upd m.st.refs h (m.st.refs h + 1) }) : Sound ((h, .ctor a) :: F) m1 := by
  refine ⟨fun i => ?_, g.callsPop ht (by rw [hst]), g.safe.of (by rw [hst]) (by rw [hst]) (by rw [hst]; exact List.prefix_refl _) (by rw [ht]; exact List.prefix_append _ _)⟩
  obtain ⟨st, g1⟩ := g.each i
  by_cases hi : i = h
  · subst hi
    obtain ⟨a1, a2, a3, a4, a5, a6, a7, a8, a9, a10, b1, b2, b3, b4⟩ := g1
    have hc : creates i m.work = creates i m1.work + 1 := by rw [hw]; simp [creates, isCreate]
    have hle : creates i m1.work = 0 ∧ building i F = 0 ∧ st = .unborn ∧ i < m.st.next := by
      by_cases hlt : i < m.st.next
      · rw [if_pos hlt] at a6
        refine ⟨by omega, by omega, ?_, hlt⟩
        cases st <;> first | rfl | (simp at a6; omega)
      · rw [if_neg hlt] at a6; omega
    obtain ⟨h1, h2, h3, h4⟩ := hle
    subst h3
    have hno := a8 (.inr (by omega))
    have hset : m.st.set i = false := by
      cases hx : m.st.set i with
      | false => rfl
      | true =>
        obtain ⟨a', ha'⟩ := (a10.1 hx).1.1
        exact absurd rfl (hno _ ha')
    refine ⟨.unborn, by rw [hst]; exact a1, by rw [hst]; exact a2, ?_, ?_, ?_, ?_, ?_, ?_, ?_, ?_, ?_, ?_, ?_, by rw [hst]; exact b4⟩
    · rw [hst]
      show upd m.st.refs i (m.st.refs i + 1) i = (if upd m.st.set i true i = true then 1 else 0) + _ + _
      rw [upd_same, upd_same, a3, hset, hc, h1]
      simp [held]; omega
    · intro hx; cases hx
    · intro hx; cases hx
    · rw [h1, hst]
      show _ = if i < m.st.next then 1 else 0
      rw [if_pos h4]
      simp [building, h2]
    · intro hx; omega
    · intro hx
      rw [hst, h1] at hx
      have hx' : m.st.next ≤ i ∨ 0 = 1 := hx
      omega
    · intro hx
      rw [hst] at hx
      have hx' : m.st.next ≤ i := hx
      omega
    · rw [hst, ht]
      show upd m.st.set i true i = true ↔ _
      rw [upd_same]
      refine ⟨fun _ => ⟨⟨⟨a, by simp⟩, ?_⟩, fun hx => ?_⟩, fun _ => rfl⟩
      · show PEv.lost i ∉ obsOf i m.st.log
        revert a1; generalize obsOf i m.st.log = l; intro a1; cases a1; simp
      rcases List.mem_append.1 hx with hx | hx
      · exact hno _ hx rfl
      · cases List.mem_singleton.1 hx
    · rw [hst, ht]
      exact ⟨fun _ => ⟨h4, h1⟩, fun _ => ⟨a, by simp⟩⟩
    · rw [hst, ht]; exact fun a' ha' => List.mem_append_left _ (b2 a' ha')
    · rw [ht]
      intro a' ha'
      rcases List.mem_cons.1 ha' with ha' | ha'
      · cases ha'; simp
      · exact List.mem_append_left _ (b3 a' ha')
  · have hF := held_cons_ne (h := h) (i := i) (b := .ctor a) (F := F) hi
    have hA : ∀ a', (i, .ctor a') ∈ (h, .ctor a) :: F → (i, .ctor a') ∈ F := by
      intro a' ha'
      rcases List.mem_cons.1 ha' with ha' | ha'
      · cases ha'; exact absurd rfl hi
      · exact ha'
    have e1 : m1.st.refs i = m.st.refs i := by rw [hst]; exact upd_ne _ _ hi
    have e2 : m1.st.set i = m.st.set i := by rw [hst]; exact upd_ne _ _ hi
    refine ⟨st, g1.pop hw ht (fun a' he => by cases he; exact hi rfl) (by rw [hst]) (by rw [hst]) (by rw [hst]) ?_ (by rw [e1]) ?_ hF.2.1 hA hF.2.2 (by rw [hst]) ?_⟩
    · intro hc; rw [hc, e1, e2, hF.1]; exact g1.refs
    · intro h0 _; rw [hF.1]; exact h0
    · rw [e2]; simp

/-- The creation of a processor is taken out and there is no memory for it. -/
theorem Sound.popLost {F : Frames} {m m1 : Wk Op (Ct W)} {h a : Nat} (g : Sound F m) (hw : m.work = .user (.create h a) :: m1.work)
    (ht : starts m1.log = starts m.log ++ [.user (.create h a)]) (hst : m1.st = { m.st with log := m.st.log ++ [.lost h] }) : Sound ((h, .var) :: F) m1 := by
  have hl : m1.st.log = m.st.log ++ [.lost h] := by rw [hst]
  refine ⟨fun i => ?_, ?_, g.safe.of (by rw [hst]) (by rw [hst]) (by rw [hl]; exact List.prefix_append _ _) (by rw [ht]; exact List.prefix_append _ _)⟩
  rotate_left
  · rw [hl, callsOf_append, ht, ops_append]
    simpa [callsOf] using g.calls.trans (List.sublist_append_left _ _)
  obtain ⟨st, g1⟩ := g.each i
  by_cases hi : i = h
  · subst hi
    obtain ⟨a1, a2, a3, a4, a5, a6, a7, a8, a9, a10, b1, b2, b3, b4⟩ := g1
    have hc : creates i m.work = creates i m1.work + 1 := by rw [hw]; simp [creates, isCreate]
    have hle : creates i m1.work = 0 ∧ building i F = 0 ∧ st = .unborn ∧ i < m.st.next := by
      by_cases hlt : i < m.st.next
      · rw [if_pos hlt] at a6
        refine ⟨by omega, by omega, ?_, hlt⟩
        cases st <;> first | rfl | (simp at a6; omega)
      · rw [if_neg hlt] at a6; omega
    obtain ⟨h1, h2, h3, h4⟩ := hle
    subst h3
    have hno := a8 (.inr (by omega))
    have hset : m.st.set i = false := by
      cases hx : m.st.set i with
      | false => rfl
      | true =>
        obtain ⟨a', ha'⟩ := (a10.1 hx).1.1
        exact absurd rfl (hno _ ha')
    have ho : obsOf i m1.st.log = [.lost i] := by
      rw [hl, obsOf_own (h := i) (e := .lost i) rfl]
      revert a1; generalize obsOf i m.st.log = l; intro a1; cases a1; rfl
    have e1 : m1.st.refs = m.st.refs := by rw [hst]
    have e2 : m1.st.set = m.st.set := by rw [hst]
    have e3 : m1.st.next = m.st.next := by rw [hst]
    have e4 : m1.st.full = m.st.full := by rw [hst]
    have e5 : m1.st.busy = m.st.busy := by rw [hst]
    refine ⟨.gone, by rw [ho]; exact .lost, ?_, ?_, ?_, ?_, ?_, ?_, ?_, ?_, ?_, ?_, ?_, ?_, by rw [e5]; exact b4.1, fun hx => by cases b4.2 hx⟩
    · rw [e4, a2]; simp
    · rw [e1, e2, a3, hset, hc, h1]; simp [held]
    · intro hx; cases hx
    · intro _ hx; rw [ho] at hx; simp at hx
    · rw [h1, e3, if_pos h4]; simp [building, h2]
    · intro hx; omega
    · intro hx; rw [e3, h1] at hx; omega
    · intro hx; rw [e3] at hx; omega
    · rw [e2, hset, ho]; simp
    · rw [e3, ht]; exact ⟨fun _ => ⟨h4, h1⟩, fun _ => ⟨a, by simp⟩⟩
    · rw [ho]; intro a' ha'; simp at ha'
    · rw [ht]; intro a' ha'; exact List.mem_append_left _ (b3 a' (by simpa using ha'))
  · have hF := held_cons_ne (h := h) (i := i) (b := .var) (F := F) hi
    have ho : obsOf i m1.st.log = obsOf i m.st.log := by rw [hl]; exact obsOf_other (e := .lost h) (Ne.symm hi)
    have g2 : Sound1 F { m1 with st := m.st } i st :=
      g1.pop hw ht (fun a' he => by cases he; exact hi rfl) rfl rfl rfl (fun hc => by
        show _ = _ + creates i m1.work + _
        rw [show creates i m1.work = _ from hc]; exact g1.refs) Iff.rfl (fun h0 _ => h0) rfl (fun _ h => h) rfl rfl (by simp)
    exact ⟨st, g2.congr ho (by rw [hst]) (by rw [hst]) (by rw [hst]) (by rw [hst]) rfl rfl hF.1 hF.2.1 (fun a' ha' => by simpa using ha') hF.2.2 (by rw [hst])⟩

/-- The destruction of a processor is taken out, and its holder, if it still exists, is removed from the set. -/
theorem Sound.popDestroy {F : Frames} {m m1 : Wk Op (Ct W)} {h : Nat} (g : Sound F m) (hw : m.work = .user (.destroy (some h)) :: m1.work)
    (ht : starts m1.log = starts m.log ++ [.user (.destroy (some h))]) (h0 : m.st.refs h ≠ 0)
    (hst : m1.st = { m.st with refs := upd m.st.refs h (if m.st.set h then m.st.refs h else m.st.refs h + 1), set := upd m.st.set h false }) :
    Sound ((h, .var) :: F) m1 := by
  refine ⟨fun i => ?_, g.callsPop ht (by rw [hst]), g.safe.of (by rw [hst]) (by rw [hst]) (by rw [hst]; exact List.prefix_refl _) (by rw [ht]; exact List.prefix_append _ _)⟩
  obtain ⟨st, g1⟩ := g.each i
  by_cases hi : i = h
  · subst hi
    have e1 : m1.st.refs i = if m.st.set i then m.st.refs i else m.st.refs i + 1 := by rw [hst]; exact upd_same _ _ _
    have e2 : m1.st.set i = false := by rw [hst]; exact upd_same _ _ _
    refine ⟨st, g1.pop hw ht (by simp) (by rw [hst]) (by rw [hst]) (by rw [hst]) ?_ ?_ ?_ (by simp [building]) (fun a' ha' => by simpa using ha') rfl (by rw [hst]) (by rw [e2]; simp)⟩
    · intro hc
      rw [hc, e1, e2]
      have := g1.refs
      cases hx : m.st.set i <;> rw [hx] at this <;> simp [held] at this ⊢ <;> omega
    · rw [e1]; split <;> omega
    · intro _ hx; exact absurd rfl hx
  · have hF := held_cons_ne (h := h) (i := i) (b := .var) (F := F) hi
    have hA : ∀ a', (i, .ctor a') ∈ (h, .var) :: F → (i, .ctor a') ∈ F := by
      intro a' ha'
      rcases List.mem_cons.1 ha' with ha' | ha'
      · cases ha'
      · exact ha'
    have e1 : m1.st.refs i = m.st.refs i := by rw [hst]; exact upd_ne _ _ hi
    have e2 : m1.st.set i = m.st.set i := by rw [hst]; exact upd_ne _ _ hi
    refine ⟨st, g1.pop hw ht (by simp) (by rw [hst]) (by rw [hst]) (by rw [hst]) ?_ (by rw [e1]) ?_ hF.2.1 hA hF.2.2 (by rw [hst]) ?_⟩
    · intro hc; rw [hc, e1, e2, hF.1]; exact g1.refs
    · intro h0 _; rw [hF.1]; exact h0
    · rw [e2]; simp [Ne.symm hi]

theorem Sound.popDestroyed {F : Frames} {m m1 : Wk Op (Ct W)} {h : Nat} (g : Sound F m) (hw : m.work = .user (.destroy (some h)) :: m1.work)
    (ht : starts m1.log = starts m.log ++ [.user (.destroy (some h))]) (h0 : m.st.refs h = 0) (hst : m1.st = m.st) : Sound F m1 := by
  refine ⟨fun i => ?_, g.callsPop ht (by rw [hst]), g.safe.of (by rw [hst]) (by rw [hst]) (by rw [hst]; exact List.prefix_refl _) (by rw [ht]; exact List.prefix_append _ _)⟩
  obtain ⟨st, g1⟩ := g.each i
  refine ⟨st, g1.pop hw ht (by simp) (by rw [hst]) (by rw [hst]) (by rw [hst]) ?_ (by rw [hst]) (fun h _ => h) rfl (fun _ h => h) rfl (by rw [hst]) ?_⟩
  · intro hc; rw [hc, hst]; exact g1.refs
  · rw [hst]
    by_cases hi : i = h
    · subst hi
      have := g1.refs
      rw [h0] at this
      cases hx : m.st.set i with
      | false => simp
      | true => rw [hx] at this; simp at this; omega
    · simp [Ne.symm hi]

/-- The constructor of the processor has returned or thrown. -/
theorem Sound.born {F : Frames} {m m1 : Wk Op (Ct W)} {h a : Nat} (g : Sound ((h, .ctor a) :: F) m) (e : PEv) (f : Bool)
    (he : e = .made h a ∧ f = true ∨ e = .failed h ∧ f = false) (hq : m1.work = m.work) (ht : m1.log = m.log) (hl : m1.st.log = m.st.log ++ [e])
    (hf : ∀ i, i ≠ h → m1.st.full i = m.st.full i) (hfh : m1.st.full h = if f then true else m.st.full h) (hr : m1.st.refs = m.st.refs) (hs : m1.st.set = m.st.set) (hn : m1.st.next = m.st.next)
    (hy : m1.st.busy = m.st.busy) (hz : m1.st.fault = m.st.fault ∧ m1.st.nulls = m.st.nulls) : Sound ((h, .var) :: F) m1 := by
  have heh : evHandle e = h := by rcases he with ⟨rfl, _⟩ | ⟨rfl, _⟩ <;> rfl
  refine g.one h (e := [e]) hl (by simp [heh]) hf (fun _ _ => by rw [hr]) (fun _ _ => by rw [hs]) hn hq (by rw [ht])
    (fun i hi => ⟨(held_cons_ne hi).1.trans (held_cons_ne hi).1.symm, (held_cons_ne hi).2.1.trans (held_cons_ne hi).2.1.symm,
      (held_cons_ne hi).2.2.trans (held_cons_ne hi).2.2.symm⟩)
    (fun i a' ha' => by simp at ha'; exact List.mem_cons_of_mem _ ha')
    (by rw [hl, callsOf_append]; rcases he with ⟨rfl, _⟩ | ⟨rfl, _⟩ <;> simpa [callsOf] using g.calls) (fun _ _ => by rw [hy]) hz ?_
  rintro st ⟨a1, a2, a3, a4, a5, a6, a7, a8, a9, a10, b1, b2, b3, b4⟩
  have hbu : building h ((h, .ctor a) :: F) = building h F + 1 := by simp [building]; omega
  have hbu' : building h ((h, .var) :: F) = building h F := by simp [building]
  have hhe : held h ((h, .var) :: F) = held h ((h, .ctor a) :: F) := by simp [held]
  have hhe' : 0 < held h ((h, .ctor a) :: F) := by simp [held]; omega
  rw [hbu] at a6
  have hlt : h < m.st.next := by
    apply Classical.byContradiction
    intro hx
    rw [if_neg hx] at a6
    omega
  have hu : st = .unborn := by
    rw [if_pos hlt] at a6
    cases st <;> first | rfl | (simp at a6)
  subst hu
  have ho : obsOf h m.st.log = [] := by
    revert a1; generalize obsOf h m.st.log = l; intro a1; cases a1; rfl
  refine ⟨if f then .alive else .failed, ?_, ?_, ?_, ?_, ?_, ?_, ?_, ?_, ?_, ?_, ?_, ?_, ?_, by rw [hy]; exact b4.1, fun hx => by cases b4.2 hx⟩
  · rw [hl, obsOf_own heh, ho]
    rcases he with ⟨rfl, rfl⟩ | ⟨rfl, rfl⟩
    · exact .made a
    · exact .failed
  · rw [hfh]
    cases f
    · simp at a2 ⊢; exact a2
    · simp
  · rw [hr, hs, hq, hhe]; exact a3
  · intro _; rw [hr]; omega
  · intro hx; cases f <;> cases hx
  · rw [hq, hbu', hn]
    rw [if_pos hlt] at a6 ⊢
    have : (if (if f then Status.alive else Status.failed) = Status.unborn then 0 else 1) = 1 := by cases f <;> rfl
    rw [this]
    simp at a6 ⊢
    omega
  · rw [hq]; exact a7
  · rw [hn, hq, ht]; exact a8
  · rw [hn, hq, hhe]; exact a9
  · rw [hs, ht, a10, hl, obsOf_own heh, ho]
    rcases he with ⟨rfl, _⟩ | ⟨rfl, _⟩ <;> simp
  · rw [hn, hq, ht]; exact b1
  · rw [hl, obsOf_own heh, ho, ht]
    intro a' ha'
    rcases he with ⟨rfl, _⟩ | ⟨rfl, _⟩
    · cases List.mem_singleton.1 ha'
      exact b3 a List.mem_cons_self
    · simp at ha'
  · rw [ht]
    intro a' ha'
    exact b3 a' (List.mem_cons_of_mem _ (by simpa using ha'))

/-- An empty holder is dereferenced. -/
theorem Sound.null {F : Frames} {m : Wk Op (Ct W)} (g : Sound F m) (h : Nat) (h0 : m.st.refs h ≠ 0) (h1 : ¬ m.st.full h = true)
    (hs : ∃ o, Work.user (.deliver o (some h)) ∈ starts m.log) :
    Sound F { m with st := { m.st with fault := true, nulls := m.st.nulls ++ [(h, m.st.log)] } } := by
  refine ⟨fun i => ?_, g.calls, fun _ => by simp, fun x hx => ?_⟩
  · obtain ⟨st, g1⟩ := g.each i
    exact ⟨st, g1.congr rfl rfl rfl rfl rfl rfl rfl rfl rfl (fun _ h => h) rfl rfl⟩
  · rcases List.mem_append.1 hx with hx | hx
    · exact g.safe.nulls x hx
    · cases List.mem_singleton.1 hx
      obtain ⟨st, a1, a2, a3, a4, a5, a6, a7, a8, a9, a10, b1, b2, b3, b4⟩ := g.each h
      obtain ⟨o, ho⟩ := hs
      have hlt : h < m.st.next := Classical.byContradiction fun hx => a8 (.inl (by omega)) _ ho rfl
      rw [if_pos hlt] at a6
      have hc : creates h m.work = 0 := by
        have : creates h m.work ≠ 1 := fun hx => a8 (.inr hx) _ ho rfl
        omega
      refine ⟨List.prefix_refl _, fun a ha => ?_, b1.2 ⟨hlt, hc⟩⟩
      have ha' : PEv.made h a ∈ obsOf h m.st.log := List.mem_filter.2 ⟨ha, by simp [evHandle]⟩
      have hna : st ≠ .alive := fun hx => h1 (a2.2 hx)
      have hlost : st = .gone → PEv.lost h ∈ obsOf h m.st.log := fun hx => Classical.byContradiction fun hy => h0 (a5 hx hy)
      revert a1 ha' hna hlost
      generalize obsOf h m.st.log = l
      intro a1 ha' hna hlost
      cases a1 with
      | start => simp at ha'
      | made a => exact hna rfl
      | failed => simp at ha'
      | lost => simp at ha'
      | called op _ => exact hna rfl
      | gone h2 =>
        have : ∀ {st l}, Life h st l → st = .alive → PEv.lost h ∉ l := by
          intro st l hl
          induction hl with
          | made a => simp
          | called op _ ih => intro _; simpa using ih rfl
          | _ => intro hx; cases hx
        exact this h2 rfl (by simpa using hlost rfl)

/-- A processor is called. -/
theorem Sound.call {F : Frames} {m m1 : Wk Op (Ct W)} {h : Nat} (g : Sound F m) (o : HOp)
    (hc : (callsOf m.st.log ++ [Op.deliver o (some h)]).Sublist (ops (starts m.log))) (hfull : m.st.full h = true) (hq : m1.work = m.work) (ht : m1.log = m.log)
    (hl : m1.st.log = m.st.log ++ [.called o h]) (hf : m1.st.full = m.st.full) (hr : m1.st.refs = upd m.st.refs h (m.st.refs h + 1)) (hs : m1.st.set = m.st.set)
    (hn : m1.st.next = m.st.next) (hy : m1.st.busy = upd m.st.busy h (m.st.busy h + 1))
    (hz : m1.st.fault = m.st.fault ∧ m1.st.nulls = m.st.nulls) : Sound ((h, .call) :: F) m1 := by
  refine g.one h (e := [.called o h]) hl (by simp [evHandle]) (fun i hi => by rw [hf]) (fun i hi => by rw [hr]; exact upd_ne _ _ hi) (fun _ _ => by rw [hs]) hn hq (by rw [ht])
    (fun i hi => held_cons_ne hi) (fun i a' ha' => by simpa using ha') (by rw [hl, callsOf_append]; exact hc) (fun i hi => by rw [hy]; exact upd_ne _ _ hi) hz ?_
  rintro st ⟨a1, a2, a3, a4, a5, a6, a7, a8, a9, a10, b1, b2, b3, b4⟩
  have hu := a2.1 hfull
  subst hu
  refine ⟨.alive, ?_, by rw [hf]; exact a2, ?_, ?_, ?_, ?_, by rw [hq]; exact a7, by rw [hn, hq, ht]; exact a8, ?_,
    by rw [hs, ht, a10, hl, obsOf_own (h := h) (e := .called o h) rfl]; simp, by rw [hn, hq, ht]; exact b1, ?_, by rw [ht]; exact fun a' ha' => b3 a' (by simpa using ha'), ?_, fun _ => rfl⟩
  · rw [hl, obsOf_own (h := h) (e := .called o h) rfl]; exact .called o a1
  · rw [hr, upd_same, hs, hq]; simp [held]; omega
  · intro _; rw [hr, upd_same]; omega
  · intro hx; cases hx
  · rw [hq, hn]; simpa [building] using a6
  · intro hx
    rw [hn] at hx
    rw [if_neg (by omega : ¬ h < m.st.next)] at a6
    simp at a6
  · rw [hl, obsOf_own (h := h) (e := .called o h) rfl, ht]
    exact fun a' ha' => b2 a' (by simpa using ha')
  · rw [hy, upd_same, b4.1]; simp [calling]; omega

/-- The call ends. -/
theorem Sound.leave {F F' : Frames} {lp : Nat → Wk Op (Ct W) → Out Op (Ct W) Nat → Prop} {h : Nat} {k : Prog Op (Ct W)}
    (hk : Fine U ((h, .var) :: F) F' lp k) : Fine U ((h, .call) :: F) F' lp (leave h k) := by
  intro m o g he
  unfold Fifo.leave at he
  refine g.andThen he fun m g he => ?_
  rw [execS] at he
  refine hk { m with st := { m.st with busy := upd m.st.busy h (m.st.busy h - 1) } } o (g.one h (e := []) (by simp) (by simp) (fun _ _ => rfl) (fun _ _ => rfl) (fun _ _ => rfl) rfl rfl rfl
    (fun i hi => ⟨(held_cons_ne hi).1.trans (held_cons_ne hi).1.symm, (held_cons_ne hi).2.1.trans (held_cons_ne hi).2.1.symm,
      (held_cons_ne hi).2.2.trans (held_cons_ne hi).2.2.symm⟩)
    (fun i a ha => by simpa using ha) g.calls (fun i hi => upd_ne _ _ hi) ⟨rfl, rfl⟩ ?_) he
  rintro st ⟨a1, a2, a3, a4, a5, a6, a7, a8, a9, a10, b1, b2, b3, b4⟩
  refine ⟨st, a1, a2, a3, a4, a5, a6, a7, a8, a9, a10, b1, b2, fun a ha => b3 a (by simpa using ha), ?_, fun hx => b4.2 ?_⟩
  · show upd m.st.busy h (m.st.busy h - 1) h = _
    rw [upd_same, b4.1]; simp [calling]
  · simp [calling]; omega

theorem ends_ret {lp : Nat → Wk Op (Ct W) → Out Op (Ct W) Nat → Prop} {F : Frames} : Fine U F F lp .ret := by
  rintro m o h rfl; exact h

theorem ends_throw {lp : Nat → Wk Op (Ct W) → Out Op (Ct W) Nat → Prop} {F : Frames} (x : Nat) : Fine U F F lp (.throw x) := by
  rintro m o h rfl; exact h

/-- One operation. -/
theorem Sound.body {lp : Nat → Wk Op (Ct W) → Out Op (Ct W) Nat → Prop} (hlp : GoodLoop lp) {beh : Fun → Code W} {F : Frames}
    {m m1 : Wk Op (Ct W)} {op : Op} (g : Sound F m) (hp : Popped op m m1) {r : Out Op (Ct W) Unit} (he : execS U lp (body beh op) m1 r) : Ends F r := by
  cases op with
  | create h a =>
    simp only [Fifo.body] at he
    split at he
    · rename_i x _
      refine g.popThen hp he fun m m1 g hp he => ?_
      simp only at he
      rw [execS] at he
      refine Sound.release hlp (ends_throw x) _ _ ?_ he
      exact g.popLost (m1 := { m1 with st := { m1.st with log := m1.st.log ++ [.lost h] } }) hp.work hp.starts (by simp only [hp.st])
    refine g.popThen hp he fun m m1 g hp he => ?_
    simp only at he
    rw [execS] at he
    refine Sound.code (F := (h, .ctor a) :: F) hlp ?_ ?_ _ _ r ?_ he
    rotate_left 2
    · refine g.popCreate hp.work hp.starts ?_
      simp only [hp.st]
    · intro m2 o g2 he
      refine g2.andThen he fun m2 g2 he => ?_
      simp only at he
      rw [execS] at he
      refine Sound.release hlp ends_ret _ _ ?_ he
      exact g2.born (.made h a) true (.inl ⟨rfl, rfl⟩) rfl rfl rfl (fun i hi => upd_ne _ _ hi) (upd_same _ _ _) rfl rfl rfl rfl ⟨rfl, rfl⟩
    · intro x m2 o g2 he
      refine g2.andThen he fun m2 g2 he => ?_
      simp only at he
      rw [execS] at he
      refine Sound.release hlp (ends_throw x) _ _ ?_ he
      exact g2.born (.failed h) false (.inr ⟨rfl, rfl⟩) rfl rfl rfl (fun _ _ => rfl) rfl rfl rfl rfl rfl ⟨rfl, rfl⟩
  | destroy oh =>
    cases oh with
    | none =>
      cases (show r = _ from he)
      exact g.pop hp.work hp.starts hp.st (by simp) (by simp)
    | some h =>
      unfold Fifo.body at he
      refine g.popThen hp he fun m m1 g hp he => ?_
      simp only at he
      split at he
      · rename_i h0
        rw [hp.st] at h0
        cases (show r = _ from he)
        exact g.popDestroyed hp.work hp.starts h0 hp.st
      · rename_i h0
        rw [hp.st] at h0
        rw [execS] at he
        refine Sound.release hlp ends_ret _ _ (g.popDestroy (m1 := { m1 with st := { m1.st with
          refs := upd m1.st.refs h (if m1.st.set h then m1.st.refs h else m1.st.refs h + 1)
          set := upd m1.st.set h false } }) hp.work hp.starts h0 ?_) he
        simp only [hp.st]
  | deliver o oh =>
    cases oh with
    | none =>
      cases (show r = _ from he)
      exact g.pop hp.work hp.starts hp.st (by simp) (by simp)
    | some h =>
      unfold Fifo.body at he
      refine g.popThen hp he fun m m1 g hp he => ?_
      have g1 := g.pop hp.work hp.starts hp.st (by simp) (by simp)
      simp only at he
      split at he
      · cases (show r = _ from he)
        exact g1
      · split at he
        · rename_i h1
          rw [execS] at he
          refine Sound.code (F := (h, .call) :: F) hlp (Sound.leave (Sound.release hlp ends_ret))
            (fun x => Sound.leave (Sound.release hlp (ends_throw x))) _ _ r ?_ he
          exact (g1.call o (by rw [hp.starts, hp.st, ops_append]; exact g.calls.append (List.Sublist.refl _)) h1 rfl rfl rfl rfl rfl rfl rfl rfl ⟨rfl, rfl⟩)
        · rename_i h0 h1
          cases (show r = _ from he)
          exact g1.null h h0 h1 ⟨o, by rw [hp.starts]; simp⟩
  | item i => exact Sound.code hlp ends_ret ends_throw _ _ r (g.pop hp.work hp.starts hp.st (by simp) (by simp)) he

/-- One work item. -/
theorem Sound.item {lp : Nat → Wk Op (Ct W) → Out Op (Ct W) Nat → Prop} (hlp : GoodLoop lp) {beh : Fun → Code W} {F : Frames}
    {m : Wk Op (Ct W)} (g : Sound F m) {w : Work Op} {q : List (Option (Work Op))} (hq : m.queue = some w :: q) {o : Out Op (Ct W) Unit}
    (he : callItemS U (Fifo.body beh) lp w { m with queue := q } o) : Ends F o := by
  have hw : m.work = w :: Wk.work { m with queue := q, log := m.log ++ [.start w] } := by
    unfold Wk.work; rw [hq]; rfl
  have hl : starts (m.log ++ [.start w]) = starts m.log ++ [w] := by
    simp [starts_append, Spec.starts]
  cases w with
  | stop =>
    obtain ⟨_, rfl, he⟩ := he
    cases (show o = _ from he)
    have hst : starts (m.log ++ [.start .stop] ++ [.fin .stop]) = starts m.log ++ [.stop] := by
      simp [starts_append, Spec.starts]
    refine ⟨fun h => ?_, ?_, g.safe.of rfl rfl (List.prefix_refl _)
      (by show _ <+: starts (m.log ++ [.start .stop] ++ [.fin .stop]); rw [hst]; exact List.prefix_append _ _)⟩
    rotate_left
    · show (callsOf m.st.log).Sublist (ops (starts (m.log ++ [.start .stop] ++ [.fin .stop])))
      rw [hst, ops_append]
      simpa [ops] using g.calls
    obtain ⟨st, a1, a2, a3, a4, a5, a6, a7, a8, a9, a10, b1, b2, b3, b4⟩ := g.each h
    have hc : creates h m.work = creates h (q.filterMap id) := by
      rw [hw]; simp [creates, isCreate, Wk.work]
    have hno : NoOp h (starts m.log ++ [.stop]) ↔ NoOp h (starts m.log) := by
      rw [noOp_append]
      exact ⟨fun h => h.1, fun h => ⟨h, fun o ho => by simp at ho⟩⟩
    refine ⟨st, a1, a2, ?_, a4, a5, ?_, ?_, ?_, ?_, ?_, ?_, ?_, ?_, b4⟩
    · show m.st.refs h = _ + creates h (q.filterMap id) + _
      rw [← hc]; exact a3
    · show creates h (q.filterMap id) + _ + _ = _
      rw [← hc]; exact a6
    · show creates h (q.filterMap id) = 1 → _
      rw [← hc]
      intro h1
      obtain ⟨q1, a, q2, h2, h3⟩ := a7 h1
      rw [hw] at h2
      cases q1 with
      | nil => cases (List.cons.inj h2).1
      | cons v q1 => exact ⟨q1, a, q2, (List.cons.inj h2).2, h3.tail⟩
    · show _ ∨ creates h (q.filterMap id) = 1 → NoOp h (starts (m.log ++ [.start .stop] ++ [.fin .stop]))
      rw [← hc, hst, hno]; exact a8
    · intro h1
      have h2 := (a9 h1).1
      rw [hw] at h2
      exact ⟨h2.tail, (a9 h1).2⟩
    · show _ ↔ ((∃ a, _ ∈ starts (m.log ++ [.start .stop] ++ [.fin .stop])) ∧ _) ∧ _ ∉ starts (m.log ++ [.start .stop] ++ [.fin .stop])
      rw [hst]; simpa using a10
    · show (∃ a, _ ∈ starts (m.log ++ [.start .stop] ++ [.fin .stop])) ↔ _ ∧ creates h (q.filterMap id) = 0
      rw [hst, ← hc]; simpa using b1
    · show ∀ a, _ → _ ∈ starts (m.log ++ [.start .stop] ++ [.fin .stop])
      rw [hst]; simpa using b2
    · show ∀ a, _ → _ ∈ starts (m.log ++ [.start .stop] ++ [.fin .stop])
      rw [hst]; simpa using b3
  | user op =>
    obtain ⟨r, h1, h2⟩ := he
    have h1 := Sound.body hlp (beh := beh) g (m1 := { m with queue := q, log := m.log ++ [.start (.user op)] }) ⟨hw, hl, rfl⟩ h1
    cases r with
    | ok a m' => cases (show o = _ from h2); exact h1.same rfl rfl rfl rfl rfl rfl (by simp [starts_append, Spec.starts]) rfl ⟨rfl, rfl⟩
    | thrown x m' => cases (show o = _ from h2); exact h1.same rfl rfl rfl rfl rfl rfl (by simp [starts_append, Spec.starts]) rfl ⟨rfl, rfl⟩
    | more m' => cases (show o = _ from h2); exact h1

theorem loop_sound (wait : Bool) (beh : Fun → Code W) : ∀ (k : Nat) (F : Frames) (max c : Nat) (m : Wk Op (Ct W)) (o : Out Op (Ct W) Nat), Sound F m →
    loopS U wait (body beh) k max c m o → Ends F o
  | 0, F, _, _, _, _, g, he => by cases (show _ = _ from he); exact .inl ⟨F, g⟩
  | k + 1, F, max, c, m, o, g, he => by
    rw [loopS] at he
    obtain ⟨m1, h1, he⟩ := he
    replace g := g.others h1
    rcases he with rfl | he
    · exact .inl ⟨F, g⟩
    split at he
    · split at he
      · rw [he]; exact .inl ⟨F, g⟩
      · unfold dequeueItem at he
        cases hq : m1.queue with
        | nil => rw [hq] at he; cases (show o = _ from he); exact g
        | cons w q =>
          rw [hq] at he
          cases w with
          | none =>
            cases (show o = _ from he)
            refine g.same rfl rfl rfl rfl rfl ?_ rfl rfl ⟨rfl, rfl⟩
            unfold Wk.work; rw [hq]; rfl
          | some w =>
            obtain ⟨r, h2, h3⟩ := he
            have h4 := g.item (beh := beh) (fun F n m o h => loop_sound wait beh k F n 0 m o h) hq h2
            cases r with
            | ok a m' => exact loop_sound wait beh k F max (c + 1) m' o h4 h3
            | thrown x m' => rw [h3]; exact h4
            | more m' => rw [h3]; exact h4
    · rw [he]; exact g

theorem Sound.fresh (w : W) : Sound [] ({ st := { user := w } } : Wk Op (Ct W)) :=
  ⟨fun h => ⟨.unborn, .start, by simp, by simp [creates, Wk.work, held], by simp, by simp, by simp [creates, Wk.work, building], by simp [creates, Wk.work],
    fun _ o ho => (by cases ho), fun _ => ⟨fun o ho => (by cases ho), rfl⟩, by simp [starts], by simp [starts], by simp [obsOf], by simp, rfl, by simp [calling]⟩, by simp [callsOf], by simp, by simp⟩

theorem run_sound (wait : Bool) (beh : Fun → Code W) (k : Nat) (c : Code W) {m : Wk Op (Ct W)} {o : Out Op (Ct W) Unit} (g : Sound [] m)
    (he : execS U (fun n m o => loopS U wait (Fifo.body beh) k n 0 m o) (c.run .ret .throw) m o) : Ends [] o :=
  Sound.code (fun F n m o h => loop_sound wait beh k F n 0 m o h) ends_ret ends_throw c m o g he

theorem Shared.sound {wait : Bool} {beh : Fun → Code W} {m : Wk Op (Ct W)} (h : Shared U wait beh m) : Sound [] m := by
  induction h with
  | fresh w => exact .fresh w
  | other _ he ih => exact ih.env he
  | client k c _ hr ih => rcases hr with hr | ⟨x, hr⟩ <;> exact run_sound wait beh k c ih hr

theorem SharedBusy.sane {wait : Bool} {beh : Fun → Code W} {m : Wk Op (Ct W)} (h : SharedBusy U wait beh m) : Sane m := by
  rcases h with h | ⟨m0, k, c, h, hr⟩
  · exact .inl ⟨[], h.sound⟩
  · exact run_sound wait beh k c h.sound hr

/-- What is true of each processor at any time. -/
theorem Sane.each {m : Wk Op (Ct W)} (h : Sane m) (hd : Nat) : ∃ F st, Life hd st (obsOf hd m.st.log) ∧ (m.st.full hd = true ↔ st = .alive) ∧
    (∀ a, PEv.made hd a ∈ obsOf hd m.st.log → Work.user (.create hd a) ∈ starts m.log) ∧ m.st.busy hd = calling hd F ∧ (0 < calling hd F → st = .alive) := by
  rcases h with ⟨F, g⟩ | ⟨F, op, m0, hp, g⟩
  · obtain ⟨st, g1⟩ := g.each hd
    exact ⟨F, st, g1.life, g1.full, g1.made, g1.busy⟩
  · obtain ⟨st, g1⟩ := g.each hd
    rw [hp.st]
    exact ⟨F, st, g1.life, g1.full, fun a ha => by rw [hp.starts]; exact List.mem_append_left _ (g1.made a ha), g1.busy⟩

theorem Sane.calls {m : Wk Op (Ct W)} (h : Sane m) : (callsOf m.st.log).Sublist (ops (starts m.log)) := by
  rcases h with ⟨F, g⟩ | ⟨F, op, m0, hp, g⟩
  · exact g.calls
  · rw [hp.st, hp.starts, ops_append]
    exact g.calls.trans (List.sublist_append_left _ _)

/-- Without other threads. -/
theorem Used.shared {beh : Fun → Code W} {m : Wk Op (Ct W)} (h : Used beh m) : Shared U false beh m := by
  induction h with
  | fresh w => exact .fresh w
  | @client m m' k c _ hr ih =>
    have h1 := execS_of_exec (U := U) (lp := fun n m => Fifo.run (Fifo.body beh) k n m) (fun n m => loopS_of_loop (U := U) (Fifo.body beh) k n 0 m) (c.run .ret .throw) m
    refine .client k c ih ?_
    rcases hr with hr | ⟨x, hr⟩
    · rw [hr] at h1; exact .inl h1
    · rw [hr] at h1; exact .inr ⟨x, h1⟩

theorem Used.sound {beh : Fun → Code W} {m : Wk Op (Ct W)} (h : Used beh m) : Sound [] m := (h.shared (U := fun _ _ => True)).sound

/-! ### The destructor of the scheduler -/

/-- Code that does not use the scheduler. -/
inductive Code.Calm : Code W → Prop where
  | ret : Calm .ret
  | throw (x) : Calm (.throw x)
  | get {k} : (∀ w, Calm (k w)) → Calm (.get k)
  | put (w) {k} : Calm k → Calm (.put w k)

theorem Code.Calm.finish {c : Code W} (h : c.Calm) (s : Ct W) : ∃ w, c.finish s = { s with user := w } := by
  induction h generalizing s with
  | ret => exact ⟨s.user, rfl⟩
  | throw x => exact ⟨s.user, rfl⟩
  | get _ ih => exact ih s.user s
  | put w _ ih => exact ih { s with user := w }

/-- What `drop` does, apart from the state of user code. -/
theorem drop_spec {beh : Fun → Code W} (hd : ∀ h, (beh (.dtor h)).Calm) (h : Nat) (c : Ct W) (h0 : c.refs h ≠ 0) :
    ∃ w, drop beh h c = { c with
      refs := upd c.refs h (c.refs h - 1)
      full := if c.refs h = 1 then upd c.full h false else c.full
      log := c.log ++ if c.refs h = 1 ∧ c.full h = true then [.gone h] else []
      user := w } := by
  unfold drop
  split
  · rename_i h1
    split
    · rename_i h2
      obtain ⟨w, hw⟩ := (hd h).finish { c with
        refs := upd c.refs h 0
        full := upd c.full h false
        log := c.log ++ [.gone h] }
      exact ⟨w, by rw [hw]; simp [h1, h2]⟩
    · rename_i h2
      refine ⟨c.user, ?_⟩
      have : upd c.full h false = c.full := by
        funext i
        by_cases hi : i = h
        · subst hi; rw [upd_same]; simpa using (Eq.symm (by simpa using h2))
        · rw [upd_ne _ _ hi]
      simp [h1, h2, this]
  · rename_i h1
    exact ⟨c.user, by simp [h1, h0]⟩

/-- Destroying the queue: the holders of processors that were never made go away. -/
theorem drop_queue {beh : Fun → Code W} (hd : ∀ h, (beh (.dtor h)).Calm) : ∀ (q : List (Option (Work Op))) (c : Ct W),
    (∀ h, creates h (q.filterMap id) ≤ c.refs h ∧ (0 < creates h (q.filterMap id) → c.full h = false)) →
    ∃ w r, q.foldl (dropItem beh) c = { c with refs := r, user := w } ∧ ∀ h, r h = c.refs h - creates h (q.filterMap id)
  | [], c, _ => ⟨c.user, c.refs, rfl, fun h => by simp [creates]⟩
  | w :: q, c, hc => by
    rw [List.foldl_cons]
    by_cases hw : ∃ h a, w = some (.user (.create h a))
    · obtain ⟨h, a, rfl⟩ := hw
      have hcr : ∀ i, creates i ((some (.user (.create h a)) :: q).filterMap id) = creates i (q.filterMap id) + if h = i then 1 else 0 := by
        intro i
        by_cases hi : h = i <;> simp [creates, isCreate, hi]
      obtain ⟨h1, h2⟩ := hc h
      rw [hcr, if_pos rfl] at h1 h2
      have hf := h2 (by omega)
      obtain ⟨u, hu⟩ := drop_spec hd h c (by omega)
      have hu' : dropItem beh c (some (.user (.create h a))) = { c with refs := upd c.refs h (c.refs h - 1), user := u } := by
        show drop beh h c = _
        rw [hu]
        have : (if c.refs h = 1 then upd c.full h false else c.full) = c.full := by
          split
          · funext i
            by_cases hi : i = h
            · subst hi; rw [upd_same, hf]
            · rw [upd_ne _ _ hi]
          · rfl
        rw [this]
        simp [hf]
      rw [hu']
      obtain ⟨v, r, h3, h4⟩ := drop_queue hd q { c with refs := upd c.refs h (c.refs h - 1), user := u } (by
        intro i
        obtain ⟨g1, g2⟩ := hc i
        rw [hcr] at g1 g2
        refine ⟨?_, fun hi => g2 (by omega)⟩
        show _ ≤ upd c.refs h (c.refs h - 1) i
        by_cases hi : i = h
        · subst hi; rw [upd_same]; omega
        · rw [upd_ne _ _ hi]; omega)
      refine ⟨v, r, h3, fun i => ?_⟩
      rw [h4 i, hcr]
      show upd c.refs h (c.refs h - 1) i - _ = _
      by_cases hi : i = h
      · subst hi; rw [upd_same, if_pos rfl]; omega
      · rw [upd_ne _ _ hi, if_neg (Ne.symm hi)]; rfl
    · have h1 : dropItem beh c w = c := by
        unfold dropItem
        split
        · rename_i h a; exact absurd ⟨h, a, rfl⟩ hw
        · rfl
      have h2 : ∀ i, creates i ((w :: q).filterMap id) = creates i (q.filterMap id) := by
        intro i
        cases w with
        | none => rfl
        | some w =>
          have : isCreate i w = false := by
            unfold isCreate
            split
            · rename_i g a; exact absurd ⟨g, a, rfl⟩ hw
            · rfl
          simp [creates, this]
      rw [h1]
      obtain ⟨v, r, h3, h4⟩ := drop_queue hd q c (fun i => by rw [← h2 i]; exact hc i)
      exact ⟨v, r, h3, fun i => by rw [h2 i]; exact h4 i⟩

/-- Destroying the set: each element holds the only reference to its holder. -/
theorem drop_set {beh : Fun → Code W} (hd : ∀ h, (beh (.dtor h)).Calm) : ∀ (l : List Nat) (c : Ct W), l.Nodup → (∀ h, c.refs h = if h ∈ l then 1 else 0) →
    ∃ w f, l.foldl (fun c h => drop beh h c) c = { c with refs := fun _ => 0, full := f, user := w, log := c.log ++ (l.filter fun h => c.full h).map .gone } ∧
      ∀ h, f h = true ↔ c.full h = true ∧ h ∉ l
  | [], c, _, hr => by
    refine ⟨c.user, c.full, ?_, by simp⟩
    have : c.refs = fun _ => 0 := by funext h; simpa using hr h
    cases c
    simp at this ⊢
    exact this
  | h :: l, c, hn, hr => by
    rw [List.foldl_cons]
    have h1 : c.refs h = 1 := by rw [hr]; simp
    obtain ⟨u, hu⟩ := drop_spec hd h c (by omega)
    rw [if_pos h1] at hu
    have hnl := (List.nodup_cons.1 hn).1
    rw [hu]
    obtain ⟨w, f, h2, h3⟩ := drop_set hd l { c with
      refs := upd c.refs h (c.refs h - 1)
      full := upd c.full h false
      log := c.log ++ if c.refs h = 1 ∧ c.full h = true then [.gone h] else []
      user := u } (List.nodup_cons.1 hn).2 (by
        intro i
        show upd c.refs h (c.refs h - 1) i = _
        by_cases hi : i = h
        · subst hi; rw [upd_same, h1, if_neg hnl]
        · rw [upd_ne _ _ hi, hr]; simp [hi])
    refine ⟨w, f, ?_, ?_⟩
    · rw [h2]
      have e : (l.filter fun i => upd c.full h false i) = l.filter fun i => c.full i := by
        apply List.filter_congr
        intro i hi
        rw [upd_ne]
        rintro rfl; exact hnl hi
      simp only [e]
      by_cases hf : c.full h = true
      · simp [h1, hf]
      · simp [hf]
    · intro i
      rw [h3]
      show upd c.full h false i = true ∧ _ ↔ _
      by_cases hi : i = h
      · subst hi; rw [upd_same]; simp
      · rw [upd_ne _ _ hi]; simp [hi]

theorem filter_one {p : Nat → Bool} {i : Nat} : ∀ {l : List Nat}, l.Nodup → i ∈ l → (∀ j, p j = true ↔ j = i) → l.filter p = [i]
  | [], _, h, _ => absurd h (by simp)
  | j :: l, hn, h, hp => by
    have hn := List.nodup_cons.1 hn
    by_cases hj : j = i
    · subst hj
      rw [List.filter_cons, if_pos ((hp j).2 rfl), List.filter_eq_nil_iff.2]
      intro k hk hx
      exact hn.1 ((hp k).1 hx ▸ hk)
    · rw [List.filter_cons, if_neg (fun hx => hj ((hp j).1 hx))]
      exact filter_one hn.2 ((List.mem_cons.1 h).resolve_left (Ne.symm hj)) hp

/-! ### The theorems -/

/-- A state of the scheduler in the middle of a call, after any number of steps. -/
def Busy (beh : Fun → Code W) (m : Wk Op (Ct W)) : Prop :=
  ∃ (m0 : Wk Op (Ct W)) (k : Nat) (c : Code W), Used beh m0 ∧ exec (fun n m => run (body beh) k n m) (c.run .ret .throw) m0 = .more m

theorem shared_of {beh : Fun → Code W} {m : Wk Op (Ct W)} (h : Used beh m ∨ Busy beh m) : SharedBusy U false beh m := by
  rcases h with h | ⟨m0, k, c, h, hr⟩
  · exact .inl h.shared
  · refine .inr ⟨m0, k, c, h.shared, ?_⟩
    have h1 := execS_of_exec (U := U) (lp := fun n m => Fifo.run (Fifo.body beh) k n m) (fun n m => loopS_of_loop (U := U) (Fifo.body beh) k n 0 m) (c.run .ret .throw) m0
    rw [hr] at h1; exact h1

/-- **C49 (life).**  At any time, whatever other threads do: as in `C47_life`. -/
theorem C49_life {wait : Bool} {beh : Fun → Code W} {m : Wk Op (Ct W)} (h : SharedBusy U wait beh m) (hd : Nat) :
    (∃ st, Life hd st (obsOf hd m.st.log)) ∧ (∀ a, PEv.made hd a ∈ m.st.log → Work.user (.create hd a) ∈ starts m.log) ∧
    (callsOf m.st.log).Sublist (ops (starts m.log)) := by
  obtain ⟨F, st, g1, -, g2, -⟩ := h.sane.each hd
  exact ⟨⟨st, g1⟩, fun a ha => g2 a (List.mem_filter.2 ⟨ha, by simp [evHandle]⟩), h.sane.calls⟩

/-- **C47 (life).**  At any time, also during calls, the processor of each handle was constructed at most once, by the execution of its creation and with
its argument, was called only after that, and was destroyed at most once, after all calls. The calls are executions of operations that were queued, in the same order. -/
theorem C47_life {beh : Fun → Code W} {m : Wk Op (Ct W)} (h : Used beh m ∨ Busy beh m) (hd : Nat) :
    (∃ st, Life hd st (obsOf hd m.st.log)) ∧ (∀ a, PEv.made hd a ∈ m.st.log → Work.user (.create hd a) ∈ starts m.log) ∧
    (callsOf m.st.log).Sublist (ops (starts m.log)) := by
  exact C49_life (shared_of (U := fun _ _ => True) h) hd

theorem Spec.Life.unborn {h : Nat} {st : Status} {o : List PEv} (hl : Life h st o) :
    st = .unborn ↔ ¬ ((∃ a, PEv.made h a ∈ o) ∨ .failed h ∈ o ∨ .lost h ∈ o) := by
  have : ∀ {st o}, Life h st o → st ≠ .unborn → (∃ a, PEv.made h a ∈ o) ∨ .failed h ∈ o ∨ .lost h ∈ o := by
    intro st o hl
    induction hl with
    | start => intro hx; exact absurd rfl hx
    | made a => intro _; exact .inl ⟨a, by simp⟩
    | failed => intro _; exact .inr (.inl (by simp))
    | lost => intro _; exact .inr (.inr (by simp))
    | called op _ ih =>
      intro _
      rcases ih (by simp) with ⟨a, ha⟩ | ha | ha
      · exact .inl ⟨a, by simp [ha]⟩
      · exact .inr (.inl (by simp [ha]))
      · exact .inr (.inr (by simp [ha]))
    | gone _ ih =>
      intro _
      rcases ih (by simp) with ⟨a, ha⟩ | ha | ha
      · exact .inl ⟨a, by simp [ha]⟩
      · exact .inr (.inl (by simp [ha]))
      · exact .inr (.inr (by simp [ha]))
  constructor
  · rintro rfl
    cases hl
    simp
  · intro hx
    exact Classical.byContradiction fun hy => hx (this hl hy)

theorem Spec.Life.gone_iff {h : Nat} {st : Status} {o : List PEv} (hl : Life h st o) :
    (st = .gone ↔ PEv.gone h ∈ o ∨ PEv.lost h ∈ o) ∧ (PEv.lost h ∈ o → (∀ a, PEv.made h a ∉ o) ∧ PEv.gone h ∉ o) := by
  have : ∀ {o st}, Life h st o → st = .alive → PEv.gone h ∉ o ∧ PEv.lost h ∉ o := by
    intro o st hl
    induction hl with
    | made a => simp
    | called op _ ih => intro _; simpa using ih rfl
    | _ => intro hx; cases hx
  cases hl with
  | gone h1 => simp [(this h1 rfl).2]
  | lost => simp
  | start => simp
  | made a => simp
  | failed => simp
  | called op h1 => simp [(this h1 rfl).1, (this h1 rfl).2]

theorem Spec.Life.failed_iff {h : Nat} {st : Status} {o : List PEv} (hl : Life h st o) : st = .failed ↔ PEv.failed h ∈ o := by
  have : ∀ {o st}, Life h st o → st = .alive → PEv.failed h ∉ o := by
    intro o st hl
    induction hl with
    | made a => simp
    | called op _ ih => intro _; simpa using ih rfl
    | _ => intro hx; cases hx
  constructor
  · rintro rfl
    cases hl
    simp
  · intro hx
    cases hl with
    | gone h1 => exact absurd (by simpa using hx) (this h1 rfl)
    | start => cases hx
    | made a => simp at hx
    | failed => rfl
    | lost => simp at hx
    | called op h1 => exact absurd hx (this (.called op h1) rfl)

theorem mem_obsOf {h : Nat} {l : List PEv} {e : PEv} (he : evHandle e = h) : e ∈ obsOf h l ↔ e ∈ l := by
  simp [obsOf, he]

/-- **C49 (existence).**  The same for a scheduler that other threads use. -/
theorem C49_exists {wait : Bool} {beh : Fun → Code W} {m : Wk Op (Ct W)} (h : Shared U wait beh m) (hd : Nat) :
    (((∃ a, PEv.made hd a ∈ m.st.log) ∨ .failed hd ∈ m.st.log ∨ .lost hd ∈ m.st.log) ↔ ∃ a, Work.user (.create hd a) ∈ starts m.log) ∧
    (PEv.gone hd ∈ m.st.log ↔ (∃ a, PEv.made hd a ∈ m.st.log) ∧ Work.user (.destroy (some hd)) ∈ starts m.log) := by
  obtain ⟨st, a1, a2, a3, a4, a5, a6, a7, a8, a9, a10, b1, b2, b3, b4⟩ := h.sound.each hd
  have hm : ∀ a, PEv.made hd a ∈ obsOf hd m.st.log ↔ PEv.made hd a ∈ m.st.log := fun a => mem_obsOf rfl
  have hf : PEv.failed hd ∈ obsOf hd m.st.log ↔ PEv.failed hd ∈ m.st.log := mem_obsOf rfl
  have hg : PEv.gone hd ∈ obsOf hd m.st.log ↔ PEv.gone hd ∈ m.st.log := mem_obsOf rfl
  have hlo : PEv.lost hd ∈ obsOf hd m.st.log ↔ PEv.lost hd ∈ m.st.log := mem_obsOf rfl
  have l1 := a1.unborn
  have ⟨l2, l4⟩ := a1.gone_iff
  have l3 := a1.failed_iff
  simp only [hm, hf, hg, hlo] at l1 l2 l3 l4 a5 a10
  simp only [building, Nat.add_zero, held] at a3 a6
  have hb : (∃ a, Work.user (.create hd a) ∈ starts m.log) ↔ st ≠ .unborn := by
    rw [b1]
    by_cases hu : st = .unborn
    · rw [if_pos hu] at a6
      refine ⟨fun ⟨hx, hy⟩ => ?_, fun hx => absurd hu hx⟩
      rw [if_pos hx] at a6; omega
    · rw [if_neg hu] at a6
      refine ⟨fun _ => hu, fun _ => ?_⟩
      by_cases hx : hd < m.st.next
      · rw [if_pos hx] at a6; exact ⟨hx, by omega⟩
      · rw [if_neg hx] at a6; omega
  constructor
  · rw [hb, Ne, l1, Classical.not_not]
  · constructor
    · intro hst0
      have hnl : PEv.lost hd ∉ m.st.log := fun hx => (l4 hx).2 hst0
      have hst := l2.2 (.inl hst0)
      have h0 := a5 hst hnl
      have hset : m.st.set hd ≠ true := by
        intro hx; rw [hx] at a3; simp at a3; omega
      have hun : st ≠ .unborn := by rw [hst]; simp
      refine ⟨?_, Classical.byContradiction fun hx => hset (a10.2 ⟨⟨hb.2 hun, hnl⟩, hx⟩)⟩
      rcases Classical.byContradiction fun hx => hun (l1.2 hx) with hx | hx | hx
      · exact hx
      · rw [l3.2 hx] at hst; cases hst
      · exact absurd hx hnl
    · rintro ⟨hma, hx⟩
      have hun : st ≠ .unborn := fun hu => l1.1 hu (.inl hma)
      have hnf : st ≠ .failed := by
        rintro rfl
        obtain ⟨a, ha⟩ := hma
        rw [← hm] at ha
        revert ha a1
        generalize obsOf hd m.st.log = o
        intro a1 ha
        cases a1
        simp at ha
      have hset : m.st.set hd ≠ true := fun hy => (a10.1 hy).2 hx
      have hc := (b1.1 (hb.2 hun)).2
      cases st with
      | unborn => exact absurd rfl hun
      | failed => exact absurd rfl hnf
      | gone =>
        rcases l2.1 rfl with hy | hy
        · exact hy
        · obtain ⟨a, ha⟩ := hma
          exact absurd ha ((l4 hy).1 a)
      | alive =>
        have := a4 rfl
        rw [if_neg hset] at a3
        omega

/-- **C47 (existence).**  When a call of the client has returned or thrown: a processor was constructed, or its constructor threw, or there was no memory for it, iff its creation was executed;
if it was constructed, it was destroyed iff its destruction was executed. -/
theorem C47_exists {beh : Fun → Code W} {m : Wk Op (Ct W)} (h : Used beh m) (hd : Nat) :
    (((∃ a, PEv.made hd a ∈ m.st.log) ∨ .failed hd ∈ m.st.log ∨ .lost hd ∈ m.st.log) ↔ ∃ a, Work.user (.create hd a) ∈ starts m.log) ∧
    (PEv.gone hd ∈ m.st.log ↔ (∃ a, PEv.made hd a ∈ m.st.log) ∧ Work.user (.destroy (some hd)) ∈ starts m.log) :=
  C49_exists (h.shared (U := fun _ _ => True)) hd

/-- **C49 (calls).**  The same for a scheduler that other threads use. -/
theorem C49_busy {wait : Bool} {beh : Fun → Code W} {m : Wk Op (Ct W)} (h : SharedBusy U wait beh m) (hd : Nat) :
    (0 < m.st.busy hd → (∃ a, PEv.made hd a ∈ m.st.log) ∧ PEv.gone hd ∉ m.st.log) ∧ (Shared U wait beh m → m.st.busy hd = 0) := by
  constructor
  · intro hb
    obtain ⟨F, st, g1, -, -, g2, g3⟩ := h.sane.each hd
    have hst := g3 (by rw [← g2]; exact hb)
    subst hst
    have l1 := g1.unborn
    have l2 := g1.gone_iff.1
    have hlo : PEv.lost hd ∉ obsOf hd m.st.log := fun hx => by cases l2.2 (.inr hx)
    have l3 := g1.failed_iff
    have hm : ∀ a, PEv.made hd a ∈ obsOf hd m.st.log ↔ PEv.made hd a ∈ m.st.log := fun a => mem_obsOf rfl
    rw [mem_obsOf (h := hd) (e := .gone hd) rfl] at l2
    simp only [hm] at l1
    refine ⟨?_, fun hx => by cases l2.2 (.inl hx)⟩
    rcases Classical.byContradiction fun hx => (show Status.alive ≠ .unborn by simp) (l1.2 hx) with hy | hy | hy
    · exact hy
    · cases l3.2 hy
    · exact absurd hy hlo
  · intro h1
    obtain ⟨st, g1⟩ := h1.sound.each hd
    exact g1.busy.1

/-- **C47 (calls).**  A processor is not destroyed while it is being called, whatever its code does; all calls have ended when the call of the client has. -/
theorem C47_busy {beh : Fun → Code W} {m : Wk Op (Ct W)} (h : Used beh m ∨ Busy beh m) (hd : Nat) :
    (0 < m.st.busy hd → (∃ a, PEv.made hd a ∈ m.st.log) ∧ PEv.gone hd ∉ m.st.log) ∧ (Used beh m → m.st.busy hd = 0) :=
  ⟨(C49_busy (shared_of (U := fun _ _ => True) h) hd).1, fun h1 => (C49_busy (shared_of (U := fun _ _ => True) h) hd).2 h1.shared⟩

theorem Sane.safe {m : Wk Op (Ct W)} (h : Sane m) : Unharmed m := by
  rcases h with ⟨F, g⟩ | ⟨F, op, m0, hp, g⟩
  · exact g.safe
  · exact g.safe.of (by rw [hp.st]) (by rw [hp.st]) (by rw [hp.st]; exact List.prefix_refl _) (by rw [hp.starts]; exact List.prefix_append _ _)

/-- **C49 (safety).**  The same for a scheduler that other threads use. -/
theorem C49_safe {wait : Bool} {beh : Fun → Code W} {m : Wk Op (Ct W)} (h : SharedBusy U wait beh m) :
    (m.st.fault = true → m.st.nulls ≠ []) ∧
    ∀ x ∈ m.st.nulls, x.2 <+: m.st.log ∧ (∀ a, PEv.made x.1 a ∉ x.2) ∧ ∃ a, Work.user (.create x.1 a) ∈ starts m.log :=
  ⟨h.sane.safe.fault, h.sane.safe.nulls⟩

/-- **C47 (safety).**  At any time, also during calls, and whatever the code does: no reference was released that was not held, and an empty holder was dereferenced
only for a handle whose creation had begun and whose processor had not been constructed at that time (its constructor was running, or had thrown). -/
theorem C47_safe {beh : Fun → Code W} {m : Wk Op (Ct W)} (h : Used beh m ∨ Busy beh m) :
    (m.st.fault = true → m.st.nulls ≠ []) ∧
    ∀ x ∈ m.st.nulls, x.2 <+: m.st.log ∧ (∀ a, PEv.made x.1 a ∉ x.2) ∧ ∃ a, Work.user (.create x.1 a) ∈ starts m.log :=
  C49_safe (shared_of (U := fun _ _ => True) h)

/-- **C49 (destruction of the scheduler).**  The same for a scheduler that other threads have used. -/
theorem C49_dispose {wait : Bool} {beh : Fun → Code W} (hd : ∀ h, (beh (.dtor h)).Calm) {m : Wk Op (Ct W)} (h : Shared U wait beh m) {l : List Nat} (hn : l.Nodup)
    (hl : ∀ i, i ∈ l ↔ m.st.set i = true) :
    (dispose beh l m).log = m.st.log ++ (l.filter fun i => m.st.full i).map .gone ∧ (dispose beh l m).fault = m.st.fault ∧
    ∀ i, (dispose beh l m).refs i = 0 ∧ (dispose beh l m).full i = false ∧
      ((∃ a, PEv.made i a ∈ (dispose beh l m).log) ↔ .gone i ∈ (dispose beh l m).log) ∧ ∃ st, Life i st (obsOf i (dispose beh l m).log) := by
  have hs := h.sound
  have hset : ∀ i, m.st.full i = true → i ∈ l := by
    intro i hi
    obtain ⟨st, a1, a2, a3, a4, a5, a6, a7, a8, a9, a10, b1, b2, b3, b4⟩ := hs.each i
    have hst := a2.1 hi
    subst hst
    have h1 := a4 rfl
    have h2 : creates i m.work = 0 := by
      have h3 : (if i < m.st.next then 1 else 0) ≤ 1 := by split <;> omega
      rw [if_neg (by simp : Status.alive ≠ .unborn)] at a6
      omega
    rw [h2, held] at a3
    apply (hl i).2
    apply Classical.byContradiction
    intro hx
    rw [if_neg hx] at a3
    omega
  obtain ⟨w, r, h1, h2⟩ := drop_queue hd m.queue m.st (by
    intro i
    obtain ⟨st, a1, a2, a3, a4, a5, a6, a7, a8, a9, a10, b1, b2, b3, b4⟩ := hs.each i
    have e : m.queue.filterMap id = m.work := rfl
    rw [e]
    refine ⟨by omega, fun hx => ?_⟩
    cases hf : m.st.full i with
    | false => rfl
    | true =>
      rw [a2.1 hf] at a6
      have h3 : (if i < m.st.next then 1 else 0) ≤ 1 := by split <;> omega
      rw [if_neg (by simp : Status.alive ≠ .unborn)] at a6
      omega)
  obtain ⟨u, f, h3, h4⟩ := drop_set hd l { m.st with refs := r, user := w, set := fun _ => false } hn (by
    intro i
    show r i = _
    rw [h2 i]
    have := (hs.each i).elim fun st g => g.refs
    have e : m.queue.filterMap id = m.work := rfl
    rw [e, this, held]
    simp only [hl]
    omega)
  have hx : dispose beh l m = { m.st with refs := fun _ => 0, full := f, user := u, set := fun _ => false, log := m.st.log ++ (l.filter fun i => m.st.full i).map .gone } := by
    unfold dispose
    simp only [h1]
    exact h3
  have hlog : (dispose beh l m).log = m.st.log ++ (l.filter fun i => m.st.full i).map .gone := by rw [hx]
  refine ⟨hlog, by rw [hx], fun i => ⟨by rw [hx], ?_, ?_⟩⟩
  · rw [hx]
    show f i = false
    cases hf : f i with
    | false => rfl
    | true => exact absurd (hset i ((h4 i).1 hf).1) ((h4 i).1 hf).2
  · obtain ⟨st, a1, a2, -⟩ := hs.each i
    rw [hlog]
    have hmade : (∃ a, PEv.made i a ∈ m.st.log ++ (l.filter fun i => m.st.full i).map .gone) ↔ ∃ a, PEv.made i a ∈ obsOf i m.st.log := by
      simp [obsOf, evHandle]
    by_cases hf : m.st.full i = true
    · have hst := a2.1 hf
      subst hst
      have hobs : obsOf i (m.st.log ++ (l.filter fun i => m.st.full i).map .gone) = obsOf i m.st.log ++ [.gone i] := by
        unfold obsOf
        rw [List.filter_append, List.filter_map]
        congr 1
        have : (l.filter fun i => m.st.full i).filter ((fun e => evHandle e == i) ∘ PEv.gone) = [i] := by
          refine filter_one (hn.filter _) (List.mem_filter.2 ⟨hset i hf, hf⟩) fun j => ?_
          simp [evHandle]
        rw [this]; rfl
      refine ⟨?_, .gone, by rw [hobs]; exact .gone a1⟩
      rw [hmade]
      refine ⟨fun _ => List.mem_append_right _ (List.mem_map.2 ⟨i, List.mem_filter.2 ⟨hset i hf, hf⟩, rfl⟩), fun _ => ?_⟩
      rcases Classical.byContradiction fun hx => (show Status.alive ≠ .unborn by simp) (a1.unborn.2 hx) with hy | hy | hy
      · exact hy
      · cases a1.failed_iff.2 hy
      · cases a1.gone_iff.1.2 (.inr hy)
    · have hobs : obsOf i (m.st.log ++ (l.filter fun i => m.st.full i).map .gone) = obsOf i m.st.log := by
        unfold obsOf
        rw [List.filter_append]
        have : ((l.filter fun i => m.st.full i).map PEv.gone).filter (fun e => evHandle e == i) = [] := by
          rw [List.filter_eq_nil_iff]
          intro e he
          obtain ⟨j, hj, rfl⟩ := List.mem_map.1 he
          have := (List.mem_filter.1 hj).2
          simp only [evHandle, beq_iff_eq]
          rintro rfl
          exact hf this
        rw [this, List.append_nil]
      refine ⟨?_, st, by rw [hobs]; exact a1⟩
      rw [hmade, ← mem_obsOf (h := i) (e := .gone i) rfl, hobs]
      have hna : st ≠ .alive := fun hx => hf (a2.2 hx)
      constructor
      · rintro ⟨a, ha⟩
        revert ha a1 hna
        generalize obsOf i m.st.log = o
        intro a1 ha hna
        cases a1 <;> simp_all
      · intro hg
        have hst := a1.gone_iff.1.2 (.inl hg)
        rcases Classical.byContradiction fun hx => (show st ≠ .unborn by rw [hst]; simp) (a1.unborn.2 hx) with hy | hy | hy
        · exact hy
        · rw [a1.failed_iff.2 hy] at hst; cases hst
        · exact absurd hg (a1.gone_iff.2 hy).2

/-- **C47 (destruction of the scheduler).**  Suppose the destructors of processors do not use the scheduler. Whatever the order `l` of the processors that have been
created and not destroyed (`processorSet_`): all of those that exist are destroyed, in this order, and nothing else happens; no holder of a processor is left. -/
theorem C47_dispose {beh : Fun → Code W} (hd : ∀ h, (beh (.dtor h)).Calm) {m : Wk Op (Ct W)} (h : Used beh m) {l : List Nat} (hn : l.Nodup)
    (hl : ∀ i, i ∈ l ↔ m.st.set i = true) :
    (dispose beh l m).log = m.st.log ++ (l.filter fun i => m.st.full i).map .gone ∧ (dispose beh l m).fault = m.st.fault ∧
    ∀ i, (dispose beh l m).refs i = 0 ∧ (dispose beh l m).full i = false ∧
      ((∃ a, PEv.made i a ∈ (dispose beh l m).log) ↔ .gone i ∈ (dispose beh l m).log) ∧ ∃ st, Life i st (obsOf i (dispose beh l m).log) :=
  C49_dispose hd (h.shared (U := fun _ _ => True)) hn hl

/-! ### Destructors that use the scheduler too late -/

/-- The code calls the scheduler when it is run with state `w`. -/
inductive Spec.Uses : Code W → W → Prop where
  | create (a k w) : Uses (.create a k) w
  | destroy (h k w) : Uses (.destroy h k) w
  | deliver (o h k w) : Uses (.deliver o h k) w
  | item (i k w) : Uses (.item i k) w
  | terminate (k w) : Uses (.terminate k) w
  | terminated (k w) : Uses (.terminated k) w
  | call (n k c w) : Uses (.call n k c) w
  | get {k w} : Uses (k w) w → Uses (.get k) w
  | put {w' k w} : Uses k w' → Uses (.put w' k) w

theorem Code.finish_fault (c : Code W) : ∀ s : Ct W, (c.finish s).fault = true ↔ s.fault = true ∨ Spec.Uses c s.user := by
  induction c with
  | ret => intro s; exact ⟨.inl, fun h => h.elim id (by rintro ⟨⟩)⟩
  | throw x => intro s; exact ⟨.inl, fun h => h.elim id (by rintro ⟨⟩)⟩
  | get k ih =>
    intro s
    refine (ih s.user s).trans (or_congr Iff.rfl ⟨.get, ?_⟩)
    rintro ⟨⟩; assumption
  | put w k ih =>
    intro s
    refine (ih { s with user := w }).trans (or_congr Iff.rfl ⟨.put, ?_⟩)
    rintro ⟨⟩; assumption
  | create a k => intro s; exact ⟨fun _ => .inr (.create ..), fun _ => rfl⟩
  | destroy h k => intro s; exact ⟨fun _ => .inr (.destroy ..), fun _ => rfl⟩
  | deliver o h k => intro s; exact ⟨fun _ => .inr (.deliver ..), fun _ => rfl⟩
  | item i k => intro s; exact ⟨fun _ => .inr (.item ..), fun _ => rfl⟩
  | terminate k => intro s; exact ⟨fun _ => .inr (.terminate ..), fun _ => rfl⟩
  | terminated k => intro s; exact ⟨fun _ => .inr (.terminated ..), fun _ => rfl⟩
  | call n k c => intro s; exact ⟨fun _ => .inr (.call ..), fun _ => rfl⟩

theorem Code.finish_rest (c : Code W) : ∀ s : Ct W, (c.finish s).refs = s.refs ∧ (c.finish s).full = s.full := by
  induction c with
  | get k ih => exact fun s => ih s.user s
  | put w k ih => exact fun s => ih { s with user := w }
  | _ => exact fun s => ⟨rfl, rfl⟩

theorem drop_other (beh : Fun → Code W) {h i : Nat} (hi : i ≠ h) (c : Ct W) : (drop beh h c).refs i = c.refs i ∧ (drop beh h c).full i = c.full i := by
  unfold drop
  split
  · split
    · rw [(Code.finish_rest _ _).1, (Code.finish_rest _ _).2]
      exact ⟨upd_ne _ _ hi, upd_ne _ _ hi⟩
    · exact ⟨upd_ne _ _ hi, rfl⟩
  · exact ⟨upd_ne _ _ hi, rfl⟩

theorem drop_fault (beh : Fun → Code W) (h : Nat) {c : Ct W} (hf : c.fault = true) : (drop beh h c).fault = true := by
  unfold drop
  split
  · split
    · exact (Code.finish_fault _ _).2 (.inl hf)
    · exact hf
  · simp [hf]

theorem fold_fault (beh : Fun → Code W) : ∀ (l : List Nat) {c : Ct W}, c.fault = true → (l.foldl (fun c h => drop beh h c) c).fault = true
  | [], _, h => h
  | i :: l, _, h => fold_fault beh l (drop_fault beh i h)

theorem fold_late (beh : Fun → Code W) {i : Nat} (hu : ∀ w, Spec.Uses (beh (.dtor i)) w) : ∀ (l : List Nat) {c : Ct W}, i ∈ l → c.refs i = 1 → c.full i = true →
    (l.foldl (fun c h => drop beh h c) c).fault = true
  | [], _, h, _, _ => absurd h (by simp)
  | j :: l, c, h, h1, h2 => by
    by_cases hj : i = j
    · subst hj
      refine fold_fault beh l ?_
      show (drop beh i c).fault = true
      unfold drop
      rw [if_pos h1, if_pos h2]
      exact (Code.finish_fault _ _).2 (.inr (hu _))
    · obtain ⟨g1, g2⟩ := drop_other beh hj c
      exact fold_late beh hu l ((List.mem_cons.1 h).resolve_left hj) (g1.trans h1) (g2.trans h2)

theorem queue_other (beh : Fun → Code W) {i : Nat} : ∀ (q : List (Option (Work Op))) (c : Ct W), creates i (q.filterMap id) = 0 →
    (q.foldl (dropItem beh) c).refs i = c.refs i ∧ (q.foldl (dropItem beh) c).full i = c.full i
  | [], c, _ => ⟨rfl, rfl⟩
  | x :: q, c, h => by
    have hx : creates i (q.filterMap id) = 0 ∧ (dropItem beh c x).refs i = c.refs i ∧ (dropItem beh c x).full i = c.full i := by
      cases x with
      | none => exact ⟨h, rfl, rfl⟩
      | some w =>
        have h : creates i (w :: q.filterMap id) = 0 := h
        have : creates i (q.filterMap id) = 0 ∧ isCreate i w = false := by
          unfold creates at h ⊢
          rw [List.countP_cons] at h
          cases e : isCreate i w
          · rw [e] at h; exact ⟨by simpa using h, rfl⟩
          · rw [e] at h; simp at h
        refine ⟨this.1, ?_⟩
        cases w with
        | stop => exact ⟨rfl, rfl⟩
        | user o => cases o with
          | create j a => exact drop_other beh (fun e => by have := this.2; simp [isCreate, e] at this) c
          | _ => exact ⟨rfl, rfl⟩
    obtain ⟨g1, g2⟩ := queue_other beh q (dropItem beh c x) hx.1
    exact ⟨g1.trans hx.2.1, g2.trans hx.2.2⟩

/-- **C47, finding.**  If the scheduler is destroyed while a processor exists whose destructor calls the scheduler, this destructor uses the queue after
the queue has been destroyed, whatever else happens. -/
theorem C47_late {beh : Fun → Code W} {m : Wk Op (Ct W)} (h : Used beh m) {l : List Nat} (hl : ∀ i, i ∈ l ↔ m.st.set i = true)
    {i : Nat} (hi : m.st.full i = true) (hu : ∀ w, Uses (beh (.dtor i)) w) : (dispose beh l m).fault = true := by
  obtain ⟨st, a1, a2, a3, a4, a5, a6, a7, a8, a9, a10, b1, b2, b3, b4⟩ := h.sound.each i
  have hst := a2.1 hi
  subst hst
  have h1 := a4 rfl
  have h2 : creates i m.work = 0 := by
    have h3 : (if i < m.st.next then 1 else 0) ≤ 1 := by split <;> omega
    rw [if_neg (by simp : Status.alive ≠ .unborn)] at a6
    omega
  rw [h2, held] at a3
  have hs : m.st.set i = true := by
    apply Classical.byContradiction
    intro hx
    rw [if_neg hx] at a3
    omega
  rw [if_pos hs] at a3
  obtain ⟨g1, g2⟩ := queue_other beh m.queue m.st h2
  unfold dispose
  exact fold_late beh hu l ((hl i).2 hs) (g1.trans a3) (g2.trans hi)

namespace Ex

/-- Whether a call has returned or thrown. -/
def ended {α : Type} : Out Op (Ct Unit) α → Bool
  | .more _ => false
  | _ => true

theorem used {nested : Bool} {c : Code Unit}
    (h : ended (exec (fun n m => Fifo.run (Fifo.body (beh nested)) 30 n m) (c.run .ret .throw) { st := { user := () } }) = true) :
    Used (beh nested) (after nested c) := by
  unfold after
  refine .client 30 c (.fresh ()) ?_
  revert h
  cases exec (fun n m => Fifo.run (Fifo.body (beh nested)) 30 n m) (c.run .ret .throw) { st := { user := () } } with
  | ok a m' => exact fun _ => .inl rfl
  | thrown x m' => exact fun _ => .inr ⟨x, rfl⟩
  | more m' => intro h; cases h

/-- Processor 0 calls `operator()` while it handles event 6; its destruction and event 7 are executed by this call.  Then a constructor throws, and the client goes
on: processor 2 is made; the creation of processor 3 is not executed. -/
def nest : Code Unit :=
  .create 0 fun h => .deliver (.event 6) h (.destroy h (.deliver (.event 7) h (.create 2 fun _ => .create 0 fun _ =>
    .call 0 (fun _ => .ret) fun _ => .call 1 (fun _ => .create 0 fun _ => .ret) fun _ => .ret)))

theorem nest_used : Used (beh true) (after true nest) := used (by decide +kernel)

example : (after true nest).st.log = [.made 0 0, .called (.event 6) 0, .called (.event 7) 0, .failed 1, .gone 0, .made 2 0] ∧
    ops (starts (after true nest).log) = [.create 0 0, .deliver (.event 6) (some 0), .destroy (some 0), .deliver (.event 7) (some 0), .create 1 2, .create 2 0] ∧
    (after true nest).work = [.user (.create 3 0)] := by
  decide +kernel

example : Life 0 .gone (obsOf 0 (after true nest).st.log) :=
  .gone (.called _ (.called _ (.made 0)))

/-- In the middle of the nested call: processor 0 is being called, its destruction has been executed, and it still exists. -/
def mid : Wk Op (Ct Unit) :=
  (exec (fun n m => Fifo.run (Fifo.body (beh true)) 4 n m) (nest.run .ret .throw) { st := { user := () } }).wk

theorem mid_busy : Busy (beh true) mid := by
  have h : (match exec (fun n m => Fifo.run (Fifo.body (beh true)) 4 n m) (nest.run .ret .throw) { st := { user := () } } with
    | .more _ => true
    | _ => false) = true := by decide +kernel
  refine ⟨{ st := { user := () } }, 4, nest, .fresh (), ?_⟩
  unfold mid
  revert h
  cases exec (fun n m => Fifo.run (Fifo.body (beh true)) 4 n m) (nest.run .ret .throw) { st := { user := () } } with
  | more m' => exact fun _ => rfl
  | _ => intro h; cases h

example : mid.st.busy 0 = 1 ∧ Work.user (.destroy (some 0)) ∈ starts mid.log ∧ PEv.gone 0 ∉ mid.st.log := by
  decide +kernel

example : PEv.gone 0 ∉ mid.st.log := ((C47_busy (.inr mid_busy) 0).1 (by decide +kernel)).2

/-- An event for a processor whose constructor has thrown. -/
def late : Code Unit := .create 2 fun h => .deliver (.event 6) h (.call 0 (fun _ => .ret) fun _ => .call 0 (fun _ => .ret) fun _ => .ret)

theorem late_used : Used (beh true) (after true late) := used (by decide +kernel)

example : (after true late).st.nulls = [(0, [.failed 0])] ∧ (after true late).st.fault = true := by decide +kernel

example : ∃ a, Work.user (.create 0 a) ∈ starts (after true late).log :=
  ((C47_safe (.inl late_used)).2 (0, [.failed 0]) (by decide +kernel)).2.2

/-- The constructor of a processor sends an event to this processor and calls `operator()` of the scheduler: the event is delivered to an empty holder. -/
def eager : Fun → Code Unit
  | .ctor h _ => .deliver (.event 6) h (.call 0 (fun _ => .ret) .throw)
  | _ => .ret

def rash : Code Unit := .create 0 fun h => .call 0 (fun _ => .deliver (.event 7) h (.call 0 (fun _ => .ret) .throw)) .throw

def rashly : Wk Op (Ct Unit) := (exec (fun n m => Fifo.run (Fifo.body eager) 30 n m) (rash.run .ret .throw) { st := { user := () } }).wk

/-- The processor is made afterwards, and the next event reaches it. -/
example : rashly.st.nulls = [(0, [])] ∧ rashly.st.log = [.made 0 0, .called (.event 7) 0] ∧ rashly.st.fault = true := by decide +kernel

/-- No null pointer is met without these. -/
example : (after true nest).st.nulls = [] ∧ (after true nest).st.fault = false := by decide +kernel

theorem beh_calm (h : Nat) : (beh true (.dtor h)).Calm := .ret

/-- `processorSet_` has the empty holder 1 and processor 2; the holder 3 belongs to the queued creation. -/
example : (∀ i, i ∈ [2, 1] ↔ (after true nest).st.set i = true) ∧ (after true nest).st.refs 3 = 1 ∧
    (dispose (beh true) [2, 1] (after true nest)).log = (after true nest).st.log ++ [.gone 2] := by
  have hs : (after true nest).st.next = 4 := by decide +kernel
  refine ⟨fun i => ?_, by decide +kernel, by decide +kernel⟩
  by_cases hi : i < 4
  · have : ∀ i, i < 4 → (i ∈ [2, 1] ↔ (after true nest).st.set i = true) := by decide +kernel
    exact this i hi
  · obtain ⟨st, g⟩ := nest_used.sound.each i
    constructor
    · intro hx; simp at hx; omega
    · intro hx
      have := (g.started.1 (g.set.1 hx).1.1).1
      omega

/-- **C47, finding.**  A processor that lives until its scheduler is destroyed, and that sends an event in its destructor, uses the queue of the scheduler after the
queue has been destroyed. -/
theorem C47_late_destructor : ∃ (beh : Fun → Code Unit) (m : Wk Op (Ct Unit)), Used beh m ∧ (∀ i, i ∈ [0] ↔ m.st.set i = true) ∧ m.st.fault = false ∧
    (dispose beh [0] m).fault = true := by
  let beh : Fun → Code Unit := fun
    | .dtor _ => .deliver .terminate 0 .ret
    | _ => .ret
  let c : Code Unit := .create 0 fun _ => .call 0 (fun _ => .ret) fun _ => .ret
  let r := exec (fun n m => Fifo.run (Fifo.body beh) 30 n m) (c.run .ret .throw) { st := { user := () } }
  have h : ended r = true := by decide +kernel
  have hu : Used beh r.wk := by
    refine .client 30 c (.fresh ()) ?_
    show r = _ ∨ ∃ x, r = _
    revert h
    cases r with
    | ok a m' => exact fun _ => .inl rfl
    | thrown x m' => exact fun _ => .inr ⟨x, rfl⟩
    | more m' => intro h; cases h
  refine ⟨beh, r.wk, hu, fun i => ?_, by decide +kernel, by decide +kernel⟩
  have hn : r.wk.st.next = 1 := by decide +kernel
  by_cases hi : i = 0
  · subst hi
    have : r.wk.st.set 0 = true := by decide +kernel
    simp [this]
  · obtain ⟨st, g⟩ := hu.sound.each i
    refine ⟨fun hx => absurd (List.mem_singleton.1 hx) hi, fun hx => ?_⟩
    have := (g.started.1 (g.set.1 hx).1.1).1
    omega

end Ex

end SC.Fifo
