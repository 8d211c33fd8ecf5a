import Verif.Machine
/-!
# Specification of the event queues

An abstract machine with a queue of pending events, a queue of deferred events, at most one
event being dispatched, and the set of states that have deferred an event. It is driven by
the log of queue operations and rejects illegal ones.
-/

namespace SC.Spec
open SC

structure Queues where
  pending : List Event
  deferred : List Event
  current : Option Event
  holders : Sid → Bool

def Queues.empty : Queues := ⟨[], [], none, fun _ => false⟩

/-- One operation; `none` = illegal. -/
def Queues.step (q : Queues) : QOp → Option Queues
  | .post e => some { q with pending := q.pending ++ [e] }
  | .recv e => if q.current = none then some { q with current := some e } else none
  | .pop e => match q.pending with
    | [] => none
    | x :: rest => if q.current = none ∧ x = e then some { q with pending := rest, current := some e } else none
  | .defer e => if q.current = some e then some { q with current := none, deferred := q.deferred ++ [e] } else none
  | .lost e => if q.current = some e then some { q with current := none } else none
  | .done e => if q.current = some e then some { q with current := none } else none
  | .hold s => some { q with holders := fun x => if x = s then true else q.holders x }
  | .release s => if q.holders s then
      some { q with pending := q.deferred ++ q.pending, deferred := [], holders := fun x => if x = s then false else q.holders x }
    else none
  | .clear => some { q with pending := [], deferred := [] }

def Queues.run (q : Queues) (l : List QOp) : Option Queues := l.foldlM Queues.step q

end SC.Spec

namespace SC.Spec
open SC

/-- Posted events, in order. -/
def posts (l : List QOp) : List Event := l.filterMap fun | .post e => some e | _ => none
/-- Events given to `process_event`. -/
def recvs (l : List QOp) : List Event := l.filterMap fun | .recv e => some e | _ => none
/-- Events taken from the queue, in order. -/
def pops (l : List QOp) : List Event := l.filterMap fun | .pop e => some e | _ => none
/-- Events whose dispatch ended without deferral. -/
def dones (l : List QOp) : List Event := l.filterMap fun | .done e => some e | _ => none

/-- Events in the machine. -/
def Queues.inside (q : Queues) : List Event := q.current.toList ++ (q.deferred ++ q.pending)

theorem step_inside {q q' : Queues} {o : QOp} (h : q.step o = some q') (hc : o ≠ .clear) (hl : ∀ e, o ≠ .lost e) :
    (posts [o] ++ recvs [o] ++ q.inside).Perm (dones [o] ++ q'.inside) := by
  cases o with
  | post e =>
    simp only [Queues.step, Option.some.injEq] at h
    subst h
    simp only [posts, recvs, dones, Queues.inside, List.filterMap_cons, List.filterMap_nil]
    have : q.current.toList ++ (q.deferred ++ (q.pending ++ [e])) = (q.current.toList ++ (q.deferred ++ q.pending)) ++ [e] := by simp
    rw [List.nil_append, this]
    exact List.perm_append_comm
  | recv e =>
    simp only [Queues.step] at h
    split at h
    · next hn =>
      cases h
      simp [posts, recvs, dones, Queues.inside, hn]
    · cases h
  | pop e =>
    simp only [Queues.step] at h
    split at h
    · cases h
    · next x rest hp =>
      split at h
      · next hn =>
        cases h
        obtain ⟨h1, rfl⟩ := hn
        simp only [posts, recvs, dones, Queues.inside, List.filterMap_cons, List.filterMap_nil, h1, hp, Option.toList, List.nil_append]
        exact List.perm_middle
      · cases h
  | defer e =>
    simp only [Queues.step] at h
    split at h
    · next hn =>
      cases h
      simp only [posts, recvs, dones, Queues.inside, List.filterMap_cons, List.filterMap_nil, hn, Option.toList, List.nil_append, List.append_assoc]
      exact (List.perm_middle (a := e) (l₁ := q.deferred) (l₂ := q.pending)).symm
    · cases h
  | lost e => exact absurd rfl (hl e)
  | done e =>
    simp only [Queues.step] at h
    split at h
    · next hn =>
      cases h
      simp [posts, recvs, dones, Queues.inside, hn]
    · cases h
  | hold s =>
    simp only [Queues.step, Option.some.injEq] at h
    subst h
    exact .refl _
  | release s =>
    simp only [Queues.step] at h
    split at h
    · cases h
      simp [posts, recvs, dones, Queues.inside]
    · cases h
  | clear => exact absurd rfl hc

/-- No event is lost or duplicated: as long as the queues are not cleared (and memory for
deferred events is available), every event that was posted or given to `process_event` is
either completely processed or still in the machine, with the same multiplicity. -/
theorem run_conserve (l : List QOp) : ∀ {q q' : Queues}, q.run l = some q' → (∀ o ∈ l, o ≠ .clear ∧ ∀ e, o ≠ .lost e) →
    (posts l ++ recvs l ++ q.inside).Perm (dones l ++ q'.inside) := by
  induction l with
  | nil => intro q q' h _; cases h; exact .refl _
  | cons o l ih =>
    intro q q' h hl
    have h' : (q.step o).bind (fun x => x.run l) = some q' := h
    obtain ⟨q1, h1, h2⟩ := Option.bind_eq_some_iff.1 h'
    have a := step_inside h1 (hl o (by simp)).1 (hl o (by simp)).2
    have b := ih h2 fun o ho => hl o (by simp [ho])
    have e1 : posts (o :: l) = posts [o] ++ posts l := List.filterMap_append (l := [o])
    have e2 : recvs (o :: l) = recvs [o] ++ recvs l := List.filterMap_append (l := [o])
    have e3 : dones (o :: l) = dones [o] ++ dones l := List.filterMap_append (l := [o])
    rw [List.perm_iff_count] at a b ⊢
    intro x
    have ax := a x
    have bx := b x
    rw [e1, e2, e3]
    simp only [List.count_append] at ax bx ⊢
    omega

/-- Between releases of deferred events the queue is first in, first out. -/
theorem run_fifo (l : List QOp) : ∀ {q q' : Queues}, q.run l = some q' → (∀ o ∈ l, o ≠ .clear ∧ ∀ s, o ≠ .release s) →
    q.pending ++ posts l = pops l ++ q'.pending := by
  induction l with
  | nil => intro q q' h _; cases h; simp [posts, pops]
  | cons o l ih =>
    intro q q' h hl
    have h' : (q.step o).bind (fun x => x.run l) = some q' := h
    obtain ⟨q1, h1, h2⟩ := Option.bind_eq_some_iff.1 h'
    have b := ih h2 fun o ho => hl o (by simp [ho])
    have ho := hl o (by simp)
    have e1 : posts (o :: l) = posts [o] ++ posts l := List.filterMap_append (l := [o])
    have e3 : pops (o :: l) = pops [o] ++ pops l := List.filterMap_append (l := [o])
    have key : q.pending ++ posts [o] = pops [o] ++ q1.pending := by
      cases o with
      | post e => cases h1; simp [posts, pops]
      | pop e =>
        simp only [Queues.step] at h1
        split at h1
        · cases h1
        · next x rest hp =>
          split at h1
          · next hn => cases h1; simp [posts, pops, hp, hn.2]
          · cases h1
      | clear => exact absurd rfl ho.1
      | release s => exact absurd rfl (ho.2 s)
      | hold s => cases h1; simp [posts, pops]
      | recv e =>
        simp only [Queues.step] at h1
        split at h1
        · cases h1; simp [posts, pops]
        · cases h1
      | defer e =>
        simp only [Queues.step] at h1
        split at h1
        · cases h1; simp [posts, pops]
        · cases h1
      | lost e =>
        simp only [Queues.step] at h1
        split at h1
        · cases h1; simp [posts, pops]
        · cases h1
      | done e =>
        simp only [Queues.step] at h1
        split at h1
        · cases h1; simp [posts, pops]
        · cases h1
    rw [e1, e3, ← List.append_assoc, key, List.append_assoc, b, List.append_assoc]

end SC.Spec
