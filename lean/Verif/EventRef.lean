/-!
# C33: the life of event objects

Model of the reference counting of events:

* `counted_base` (`/repo/include/boost/statechart/detail/counted_base.hpp` lines 25-82) with the
  atomic counter that `event_base` uses (`event_base.hpp` lines 49-50),
* `intrusive_ptr_add_ref` and `intrusive_ptr_release` (`event_base.hpp` lines 82-93),
* `event_base::intrusive_from_this` (lines 108-118),
* `event::clone` (`event.hpp` lines 64-68), with the copy constructor of `counted_base` (lines 61-64),
  which starts at 0.

Events are `const` for all code of the library, so the other members of an event are a value `val` of
an arbitrary type that never changes.

The operations may come from any number of threads.  What is atomic here is what is atomic there: the
increment, the decrement together with its result, and the test in `ref_counted`.  Between the test
and the increment of `intrusive_from_this`, and between the decrement and the deletion of
`intrusive_ptr_release`, other operations can happen.

Pointers are numbered; a pointer is whatever holds an `intrusive_ptr`, such as an entry of a queue.
-/

namespace SC.EventRef

variable {α : Type}

/-- An event object. -/
structure Obj (α : Type) where
  val : α
  cnt : Nat := 0
  heap : Bool
deriving DecidableEq, Repr

/-- The objects and pointers of the program. -/
structure St (α : Type) where
  /-- The objects that exist. -/
  objs : Nat → Option (Obj α) := fun _ => none
  nextO : Nat := 0
  /-- The pointers that exist, with the object each points to. -/
  ptrs : List (Nat × Nat) := []
  nextP : Nat := 0
  /-- Calls of `intrusive_from_this` between test and increment: the pointer through which the event
  is accessed, and the event. -/
  adding : List (Nat × Nat) := []
  /-- Calls of `intrusive_ptr_release` between decrement and deletion. -/
  dying : List Nat := []
  /-- Ghost: objects made with `new` that were never given to a pointer. -/
  raw : List Nat := []
  /-- Ghost: all objects ever made with `new`. -/
  made : List Nat := []
  /-- Ghost: what was deleted, in order. -/
  freed : List Nat := []

/-- What a program can do. -/
inductive Op (α : Type) where
  /-- An event with automatic storage comes into being. -/
  | auto (v : α)
  /-- It goes out of scope. -/
  | leave (o : Nat)
  /-- `new Event(...)`. -/
  | new (v : α)
  /-- Construction of an `intrusive_ptr` from a plain pointer. -/
  | wrap (o : Nat)
  /-- Copy construction of an `intrusive_ptr`. -/
  | copy (p : Nat)
  /-- `intrusive_from_this`, called on an object that a pointer points to. -/
  | fromPtr (p : Nat)
  /-- `intrusive_from_this`, called on any other object. -/
  | fromObj (o : Nat)
  /-- The increment of `intrusive_from_this`. -/
  | add (p o : Nat)
  /-- Destruction of a pointer. -/
  | release (p : Nat)
  /-- The deletion of `intrusive_ptr_release`. -/
  | delete (o : Nat)

/-- Outcome of an operation. -/
inductive Out (α : Type) where
  | ok (s : St α)
  /-- The assert of `counted_base::release` fails. -/
  | assert
  /-- An object that does not exist is used, or `delete` is called for one not made with `new`. -/
  | undefined

def setObj (f : Nat → Option (Obj α)) (o : Nat) (x : Option (Obj α)) : Nat → Option (Obj α) :=
  fun i => if i = o then x else f i

/-- The object a pointer points to. -/
def target (p : Nat) : List (Nat × Nat) → Option Nat
  | [] => none
  | (q, o) :: l => if q = p then some o else target p l

/-- `new` of an event: the count starts at 0. -/
def alloc (v : α) (heap : Bool) (s : St α) : St α :=
  { s with
    objs := setObj s.objs s.nextO (some { val := v, heap := heap })
    nextO := s.nextO + 1
    raw := if heap then s.nextO :: s.raw else s.raw
    made := if heap then s.nextO :: s.made else s.made }

/-- Construction of a pointer: `add_ref` (`counted_base.hpp` lines 72-75). -/
def point (o : Nat) (s : St α) : Out α :=
  match s.objs o with
  | none => .undefined
  | some x => .ok { s with
      objs := setObj s.objs o (some { x with cnt := x.cnt + 1 })
      ptrs := (s.nextP, o) :: s.ptrs
      nextP := s.nextP + 1
      raw := s.raw.filter (· ≠ o) }

/-- `clone` (`event.hpp` lines 64-68). -/
def clone (x : Obj α) (s : St α) : Out α := point s.nextO (alloc x.val true s)

/-- One operation. -/
def step (s : St α) : Op α → Out α
  | .auto v => .ok (alloc v false s)
  | .leave o => match s.objs o with
    | none => .undefined
    | some _ => .ok { s with objs := setObj s.objs o none }
  | .new v => .ok (alloc v true s)
  | .wrap o => point o s
  | .copy p => match target p s.ptrs with
    | none => .undefined
    | some o => point o s
  | .fromPtr p => match target p s.ptrs with
    | none => .undefined
    | some o => match s.objs o with
      | none => .undefined
      | some x => if x.cnt ≠ 0 then .ok { s with adding := (p, o) :: s.adding } else clone x s
  | .fromObj o => match s.objs o with
    | none => .undefined
    | some x => if x.cnt ≠ 0 then point o s else clone x s
  | .add p o => point o { s with adding := s.adding.erase (p, o) }
  | .release p => match target p s.ptrs with
    | none => .undefined
    | some o => match s.objs o with
      | none => .undefined
      | some x =>
        if x.cnt = 0 then .assert
        else .ok { s with
          objs := setObj s.objs o (some { x with cnt := x.cnt - 1 })
          ptrs := s.ptrs.filter (·.1 ≠ p)
          dying := if x.cnt - 1 = 0 then o :: s.dying else s.dying }
  | .delete o => match s.objs o with
    | none => .undefined
    | some x =>
      if x.heap then .ok { s with
        objs := setObj s.objs o none
        dying := s.dying.erase o
        freed := s.freed ++ [o] }
      else .undefined

namespace Spec

/-- What clients have to observe.  The first group is what every C++ program has to: only use objects
and pointers that exist and not destroy what is in use; the second is that pointers are only made for
objects created with `new`, either for the first time or while another pointer exists.  The last two
operations are parts of calls that have begun. -/
def Allowed (s : St α) : Op α → Prop
  | .auto _ => True
  | .new _ => True
  | .copy p => ∃ o, (p, o) ∈ s.ptrs
  | .fromPtr p => ∃ o, (p, o) ∈ s.ptrs
  | .release p => (∃ o, (p, o) ∈ s.ptrs) ∧ ∀ o, (p, o) ∉ s.adding
  | .leave o => ∃ x, s.objs o = some x ∧ x.heap = false
  | .fromObj o => o ∈ s.raw ∨ ∃ x, s.objs o = some x ∧ x.heap = false
  | .wrap o => o ∈ s.raw ∨ ∃ p, (p, o) ∈ s.ptrs
  | .add p o => (p, o) ∈ s.adding
  | .delete o => o ∈ s.dying

/-- The states that programs get to. -/
inductive Reach : St α → Prop
  | start : Reach {}
  | step {s s' : St α} {op : Op α} : Reach s → Allowed s op → step s op = .ok s' → Reach s'

/-- How many pointers point to an object. -/
def refs (s : St α) (o : Nat) : Nat := s.ptrs.countP (·.2 == o)

end Spec

open Spec

/-! ### The invariant -/

structure Inv (s : St α) : Prop where
  cnt : ∀ o x, s.objs o = some x → x.cnt = refs s o
  ptr : ∀ p o, (p, o) ∈ s.ptrs → ∃ x, s.objs o = some x ∧ x.heap = true
  pnd : (s.ptrs.map (·.1)).Nodup
  plt : ∀ p o, (p, o) ∈ s.ptrs → p < s.nextP
  add : ∀ p o, (p, o) ∈ s.adding → (p, o) ∈ s.ptrs
  dy : ∀ o ∈ s.dying, (∃ x, s.objs o = some x ∧ x.heap = true) ∧ refs s o = 0 ∧ o ∉ s.raw
  dnd : s.dying.Nodup
  rw : ∀ o ∈ s.raw, (∃ x, s.objs o = some x ∧ x.heap = true) ∧ refs s o = 0
  heap : ∀ o x, s.objs o = some x → x.heap = true → o ∈ s.raw ∨ o ∈ s.dying ∨ 0 < refs s o
  lt : ∀ o x, s.objs o = some x → o < s.nextO
  mlt : ∀ o ∈ s.made, o < s.nextO
  made : ∀ o, o ∈ s.made ↔ o ∈ s.freed ∨ ∃ x, s.objs o = some x ∧ x.heap = true
  fr : ∀ o ∈ s.freed, s.objs o = none
  fnd : s.freed.Nodup

theorem target_of_mem {l : List (Nat × Nat)} {p o : Nat} (hn : (l.map (·.1)).Nodup)
    (h : (p, o) ∈ l) : target p l = some o := by
  induction l with
  | nil => cases h
  | cons q l ih =>
    obtain ⟨q, r⟩ := q
    simp only [List.map_cons, List.nodup_cons] at hn
    unfold target
    rcases List.mem_cons.1 h with h | h
    · cases h; simp
    · have hne : q ≠ p := by
        rintro rfl
        exact hn.1 (List.mem_map.2 ⟨_, h, rfl⟩)
      rw [if_neg hne]
      exact ih hn.2 h

theorem countP_filter_ptr {l : List (Nat × Nat)} {p o : Nat} (hn : (l.map (·.1)).Nodup)
    (h : (p, o) ∈ l) (r : Nat) :
    (l.filter (·.1 ≠ p)).countP (·.2 == r) = l.countP (·.2 == r) - (if r = o then 1 else 0) := by
  induction l with
  | nil => cases h
  | cons q l ih =>
    obtain ⟨q, t⟩ := q
    simp only [List.map_cons, List.nodup_cons] at hn
    rcases List.mem_cons.1 h with h | h
    · cases h
      have hf : l.filter (·.1 ≠ p) = l := by
        rw [List.filter_eq_self]
        intro a ha
        simp only [ne_eq, decide_not, Bool.not_eq_eq_eq_not, Bool.not_true, decide_eq_false_iff_not]
        rintro rfl
        exact hn.1 (List.mem_map.2 ⟨_, ha, rfl⟩)
      rw [List.filter_cons_of_neg (by simp), hf, List.countP_cons]
      by_cases hr : r = o
      · subst hr; simp
      · simp [hr, Ne.symm hr]
    · have hne : q ≠ p := by
        rintro rfl
        exact hn.1 (List.mem_map.2 ⟨_, h, rfl⟩)
      rw [List.filter_cons_of_pos (by simpa using hne), List.countP_cons, List.countP_cons,
        ih hn.2 h]
      by_cases hr : r = o
      · subst hr
        have : 0 < l.countP (·.2 == r) := List.countP_pos_iff.2 ⟨_, h, by simp⟩
        simp only [if_pos]
        omega
      · simp [hr]

theorem refs_pos {s : St α} {p o : Nat} (h : (p, o) ∈ s.ptrs) : 0 < refs s o :=
  List.countP_pos_iff.2 ⟨_, h, by simp⟩

theorem exists_of_refs {s : St α} {o : Nat} (h : 0 < refs s o) : ∃ p, (p, o) ∈ s.ptrs := by
  obtain ⟨⟨p, r⟩, hm, he⟩ := List.countP_pos_iff.1 h
  simp at he
  subst he
  exact ⟨p, hm⟩

theorem Inv.alloc {s : St α} (hi : Inv s) (v : α) (h : Bool) : Inv (EventRef.alloc v h s) := by
  have hfree : s.objs s.nextO = none := by
    cases hc : s.objs s.nextO with
    | none => rfl
    | some x => exact absurd (hi.lt _ _ hc) (Nat.lt_irrefl _)
  have hne : ∀ o x, s.objs o = some x → o ≠ s.nextO := by
    rintro o x ho rfl; rw [hfree] at ho; cases ho
  have hr0 : refs s s.nextO = 0 := by
    rcases Nat.eq_zero_or_pos (refs s s.nextO) with h0 | h0
    · exact h0
    · obtain ⟨p, hp⟩ := exists_of_refs h0
      obtain ⟨x, hx, -⟩ := hi.ptr _ _ hp
      exact absurd rfl (hne _ _ hx)
  have hget : ∀ o x, s.objs o = some x →
      (EventRef.alloc v h s).objs o = some x := by
    intro o x ho
    show setObj _ _ _ _ = _
    unfold setObj
    rw [if_neg (hne _ _ ho)]; exact ho
  have hcase : ∀ o x, (EventRef.alloc v h s).objs o = some x →
      (o = s.nextO ∧ x = { val := v, heap := h }) ∨ s.objs o = some x := by
    intro o x ho
    change setObj _ _ _ _ = _ at ho
    unfold setObj at ho
    split at ho
    · rename_i he; cases ho; exact .inl ⟨he, rfl⟩
    · exact .inr ho
  have hraw : ∀ o, o ∈ (EventRef.alloc v h s).raw ↔ (h = true ∧ o = s.nextO) ∨ o ∈ s.raw := by
    intro o; show o ∈ (if h then _ else _) ↔ _
    cases h <;> simp
  have hmade : ∀ o, o ∈ (EventRef.alloc v h s).made ↔ (h = true ∧ o = s.nextO) ∨ o ∈ s.made := by
    intro o; show o ∈ (if h then _ else _) ↔ _
    cases h <;> simp
  refine ⟨?_, ?_, hi.pnd, hi.plt, hi.add, ?_, hi.dnd, ?_, ?_, ?_, ?_, ?_, ?_, hi.fnd⟩
  · intro o x ho
    rcases hcase o x ho with ⟨rfl, rfl⟩ | ho
    · exact hr0.symm
    · exact hi.cnt o x ho
  · intro p o hp
    obtain ⟨x, hx, hh⟩ := hi.ptr p o hp
    exact ⟨x, hget _ _ hx, hh⟩
  · intro o ho
    obtain ⟨⟨x, hx, hh⟩, h2, h3⟩ := hi.dy o ho
    refine ⟨⟨x, hget _ _ hx, hh⟩, h2, ?_⟩
    rw [hraw]
    rintro (⟨-, rfl⟩ | h4)
    · exact hne _ _ hx rfl
    · exact h3 h4
  · intro o ho
    rcases (hraw o).1 ho with ⟨rfl, rfl⟩ | ho
    · exact ⟨⟨_, by show setObj _ _ _ _ = _; unfold setObj; rw [if_pos rfl], rfl⟩, hr0⟩
    · obtain ⟨⟨x, hx, hh⟩, h2⟩ := hi.rw o ho
      exact ⟨⟨x, hget _ _ hx, hh⟩, h2⟩
  · intro o x ho hh
    rcases hcase o x ho with ⟨rfl, rfl⟩ | ho
    · exact .inl ((hraw _).2 (.inl ⟨hh, rfl⟩))
    · rcases hi.heap o x ho hh with h1 | h1
      · exact .inl ((hraw _).2 (.inr h1))
      · exact .inr h1
  · intro o x ho
    show o < s.nextO + 1
    rcases hcase o x ho with ⟨rfl, rfl⟩ | ho
    · exact Nat.lt_succ_self _
    · exact Nat.lt_succ_of_lt (hi.lt o x ho)
  · intro o ho
    show o < s.nextO + 1
    rcases (hmade o).1 ho with ⟨-, rfl⟩ | ho
    · exact Nat.lt_succ_self _
    · exact Nat.lt_succ_of_lt (hi.mlt o ho)
  · intro o
    rw [hmade]
    constructor
    · rintro (⟨rfl, rfl⟩ | ho)
      · exact .inr ⟨_, by show setObj _ _ _ _ = _; unfold setObj; rw [if_pos rfl], rfl⟩
      · rcases (hi.made o).1 ho with h1 | ⟨x, hx, hh⟩
        · exact .inl h1
        · exact .inr ⟨x, hget _ _ hx, hh⟩
    · rintro (h1 | ⟨x, hx, hh⟩)
      · exact .inr ((hi.made o).2 (.inl h1))
      · rcases hcase o x hx with ⟨rfl, rfl⟩ | hx
        · exact .inl ⟨hh, rfl⟩
        · exact .inr ((hi.made o).2 (.inr ⟨x, hx, hh⟩))
  · intro o ho
    show setObj _ _ _ _ = _
    unfold setObj
    rw [if_neg]
    · exact hi.fr o ho
    · rintro rfl
      exact absurd (hi.mlt _ ((hi.made _).2 (.inl ho))) (Nat.lt_irrefl _)

theorem refs_point {s s' : St α} {o : Nat} (h : point o s = .ok s') (r : Nat) :
    refs s' r = refs s r + (if r = o then 1 else 0) := by
  unfold point at h
  split at h
  · cases h
  · cases h
    unfold refs
    simp only [List.countP_cons]
    by_cases hr : r = o
    · subst hr; simp
    · simp [hr, Ne.symm hr]

/-- Making a pointer to an object that is not about to be deleted. -/
theorem Inv.point {s : St α} (hi : Inv s) {o : Nat}
    (ho : o ∈ s.raw ∨ ∃ p, (p, o) ∈ s.ptrs) :
    ∃ s', EventRef.point o s = .ok s' ∧ Inv s' := by
  obtain ⟨x, hx, hh⟩ : ∃ x, s.objs o = some x ∧ x.heap = true := by
    rcases ho with ho | ⟨p, hp⟩
    · exact (hi.rw o ho).1
    · exact hi.ptr p o hp
  have hnd : o ∉ s.dying := by
    intro hd
    obtain ⟨-, h2, h3⟩ := hi.dy o hd
    rcases ho with ho | ⟨p, hp⟩
    · exact h3 ho
    · have := refs_pos hp; omega
  have hpt : EventRef.point o s = .ok { s with
      objs := setObj s.objs o (some { x with cnt := x.cnt + 1 })
      ptrs := (s.nextP, o) :: s.ptrs
      nextP := s.nextP + 1
      raw := s.raw.filter (· ≠ o) } := by
    unfold EventRef.point; rw [hx]
  refine ⟨_, hpt, ?_⟩
  have href := refs_point hpt
  generalize hs' : ({ s with
      objs := setObj s.objs o (some { x with cnt := x.cnt + 1 })
      ptrs := (s.nextP, o) :: s.ptrs
      nextP := s.nextP + 1
      raw := s.raw.filter (· ≠ o) } : St α) = s' at href ⊢
  have hobj : ∀ r, s'.objs r = if r = o then some { x with cnt := x.cnt + 1 } else s.objs r := by
    intro r; subst hs'; rfl
  have hptrs : s'.ptrs = (s.nextP, o) :: s.ptrs := by subst hs'; rfl
  have hraw : ∀ r, r ∈ s'.raw ↔ r ∈ s.raw ∧ r ≠ o := by
    intro r; subst hs'; simp
  have hdy : s'.dying = s.dying := by subst hs'; rfl
  have hfr : s'.freed = s.freed := by subst hs'; rfl
  have hmd : s'.made = s.made := by subst hs'; rfl
  have hno : s'.nextO = s.nextO := by subst hs'; rfl
  have hnp : s'.nextP = s.nextP + 1 := by subst hs'; rfl
  have had : s'.adding = s.adding := by subst hs'; rfl
  have hlive : ∀ r, (∃ y, s.objs r = some y ∧ y.heap = true) ↔
      ∃ y, s'.objs r = some y ∧ y.heap = true := by
    intro r
    rw [hobj]
    by_cases hr : r = o
    · subst hr
      simp only [if_pos]
      exact ⟨fun _ => ⟨_, rfl, hh⟩, fun _ => ⟨x, hx, hh⟩⟩
    · rw [if_neg hr]
  refine ⟨?_, ?_, ?_, ?_, ?_, ?_, by rw [hdy]; exact hi.dnd, ?_, ?_, ?_, ?_, ?_, ?_,
    by rw [hfr]; exact hi.fnd⟩
  · intro r y hy
    rw [hobj] at hy
    rw [href]
    by_cases hr : r = o
    · subst hr
      rw [if_pos rfl] at hy
      cases hy
      simp [hi.cnt _ _ hx]
    · rw [if_neg hr] at hy ⊢
      exact hi.cnt _ _ hy
  · intro p r hp
    rw [← hlive]
    rw [hptrs] at hp
    rcases List.mem_cons.1 hp with hp | hp
    · cases hp; exact ⟨x, hx, hh⟩
    · exact hi.ptr p r hp
  · rw [hptrs]
    simp only [List.map_cons, List.nodup_cons]
    refine ⟨?_, hi.pnd⟩
    intro hm
    obtain ⟨⟨q, r⟩, hq, he⟩ := List.mem_map.1 hm
    have := hi.plt q r hq
    simp only at he
    omega
  · intro p r hp
    rw [hnp]
    rw [hptrs] at hp
    rcases List.mem_cons.1 hp with hp | hp
    · cases hp; exact Nat.lt_succ_self _
    · exact Nat.lt_succ_of_lt (hi.plt p r hp)
  · intro p r hp
    rw [had] at hp
    rw [hptrs]
    exact List.mem_cons_of_mem _ (hi.add p r hp)
  · intro r hr
    rw [hdy] at hr
    obtain ⟨h1, h2, h3⟩ := hi.dy r hr
    have hne : r ≠ o := by rintro rfl; exact hnd hr
    refine ⟨(hlive r).1 h1, by rw [href, if_neg hne]; exact h2, ?_⟩
    rw [hraw]; exact fun h => h3 h.1
  · intro r hr
    obtain ⟨hr, hne⟩ := (hraw r).1 hr
    obtain ⟨h1, h2⟩ := hi.rw r hr
    exact ⟨(hlive r).1 h1, by rw [href, if_neg hne]; exact h2⟩
  · intro r y hy hyh
    by_cases hr : r = o
    · subst hr
      exact .inr (.inr (by rw [href, if_pos rfl]; omega))
    · rw [hobj, if_neg hr] at hy
      rcases hi.heap r y hy hyh with h1 | h1 | h1
      · exact .inl ((hraw r).2 ⟨h1, hr⟩)
      · exact .inr (.inl (by rw [hdy]; exact h1))
      · exact .inr (.inr (by rw [href]; omega))
  · intro r y hy
    rw [hno]
    by_cases hr : r = o
    · subst hr; exact hi.lt _ _ hx
    · rw [hobj, if_neg hr] at hy; exact hi.lt _ _ hy
  · rw [hno, hmd]; exact hi.mlt
  · intro r
    rw [hmd, hfr, ← hlive]
    exact hi.made r
  · intro r hr
    rw [hfr] at hr
    have hne : r ≠ o := by
      rintro rfl; have := hi.fr _ hr; rw [hx] at this; cases this
    rw [hobj, if_neg hne]
    exact hi.fr r hr

theorem Inv.clone {s : St α} (hi : Inv s) (x : Obj α) :
    ∃ s', EventRef.clone x s = .ok s' ∧ Inv s' := by
  refine (hi.alloc x.val true).point (.inl ?_)
  show s.nextO ∈ (if true = true then s.nextO :: s.raw else s.raw)
  simp

/-- Every operation that is allowed succeeds and keeps the invariant. -/
theorem Inv.step {s : St α} (hi : Inv s) {op : Op α} (ha : Allowed s op) :
    ∃ s', EventRef.step s op = .ok s' ∧ Inv s' := by
  cases op with
  | auto v => exact ⟨_, rfl, hi.alloc v false⟩
  | new v => exact ⟨_, rfl, hi.alloc v true⟩
  | wrap o => exact hi.point ha
  | copy p =>
    obtain ⟨o, ho⟩ := ha
    have ht := target_of_mem hi.pnd ho
    unfold EventRef.step
    simp only [ht]
    exact hi.point (.inr ⟨p, ho⟩)
  | fromObj o =>
    unfold EventRef.step
    obtain ⟨x, hx, h0⟩ : ∃ x, s.objs o = some x ∧ x.cnt = 0 := by
      rcases ha with ha | ⟨x, hx, hh⟩
      · obtain ⟨⟨x, hx, -⟩, h2⟩ := hi.rw o ha
        exact ⟨x, hx, by rw [hi.cnt _ _ hx]; exact h2⟩
      · refine ⟨x, hx, ?_⟩
        rw [hi.cnt _ _ hx]
        rcases Nat.eq_zero_or_pos (refs s o) with h0 | h0
        · exact h0
        · obtain ⟨p, hp⟩ := exists_of_refs h0
          obtain ⟨y, hy, hyh⟩ := hi.ptr _ _ hp
          rw [hx] at hy; cases hy; rw [hh] at hyh; cases hyh
    simp only [hx]
    rw [if_neg (by simp [h0])]
    exact hi.clone x
  | fromPtr p =>
    obtain ⟨o, ho⟩ := ha
    have ht := target_of_mem hi.pnd ho
    obtain ⟨x, hx, hh⟩ := hi.ptr _ _ ho
    have hc : x.cnt ≠ 0 := by
      rw [hi.cnt _ _ hx]; have := refs_pos ho; omega
    unfold EventRef.step
    simp only [ht, hx]
    rw [if_pos hc]
    refine ⟨_, rfl, ⟨hi.cnt, hi.ptr, hi.pnd, hi.plt, ?_, hi.dy, hi.dnd, hi.rw, hi.heap, hi.lt,
      hi.mlt, hi.made, hi.fr, hi.fnd⟩⟩
    intro q r hq
    rcases List.mem_cons.1 hq with hq | hq
    · cases hq; exact ho
    · exact hi.add q r hq
  | add p o =>
    have hp := hi.add p o ha
    unfold EventRef.step
    have hi' : Inv { s with adding := s.adding.erase (p, o) } :=
      ⟨hi.cnt, hi.ptr, hi.pnd, hi.plt, fun q r hq => hi.add q r (List.mem_of_mem_erase hq), hi.dy,
        hi.dnd, hi.rw, hi.heap, hi.lt, hi.mlt, hi.made, hi.fr, hi.fnd⟩
    exact hi'.point (.inr ⟨p, hp⟩)
  | leave o =>
    obtain ⟨x, hx, hh⟩ := ha
    unfold EventRef.step
    simp only [hx]
    refine ⟨_, rfl, ?_⟩
    have hget : ∀ r y, s.objs r = some y → y.heap = true → setObj s.objs o none r = some y := by
      intro r y hy hyh
      unfold setObj
      rw [if_neg]
      · exact hy
      · rintro rfl; rw [hx] at hy; cases hy; rw [hh] at hyh; cases hyh
    have hold : ∀ r y, setObj s.objs o none r = some y → s.objs r = some y := by
      intro r y hy
      unfold setObj at hy
      split at hy
      · cases hy
      · exact hy
    refine ⟨fun r y hy => hi.cnt r y (hold r y hy), ?_, hi.pnd, hi.plt, hi.add, ?_, hi.dnd, ?_,
      fun r y hy => hi.heap r y (hold r y hy), fun r y hy => hi.lt r y (hold r y hy), hi.mlt, ?_, ?_,
      hi.fnd⟩
    · intro p r hp
      obtain ⟨y, hy, hyh⟩ := hi.ptr p r hp
      exact ⟨y, hget r y hy hyh, hyh⟩
    · intro r hr
      obtain ⟨⟨y, hy, hyh⟩, h2⟩ := hi.dy r hr
      exact ⟨⟨y, hget r y hy hyh, hyh⟩, h2⟩
    · intro r hr
      obtain ⟨⟨y, hy, hyh⟩, h2⟩ := hi.rw r hr
      exact ⟨⟨y, hget r y hy hyh, hyh⟩, h2⟩
    · intro r
      show r ∈ s.made ↔ _
      rw [hi.made r]
      refine or_congr Iff.rfl ⟨?_, ?_⟩
      · rintro ⟨y, hy, hyh⟩; exact ⟨y, hget r y hy hyh, hyh⟩
      · rintro ⟨y, hy, hyh⟩; exact ⟨y, hold r y hy, hyh⟩
    · intro r hr
      show setObj _ _ _ _ = _
      unfold setObj
      split
      · rfl
      · exact hi.fr r hr
  | release p =>
    obtain ⟨⟨o, ho⟩, hpin⟩ := ha
    have ht := target_of_mem hi.pnd ho
    obtain ⟨x, hx, hh⟩ := hi.ptr _ _ ho
    have hpos := refs_pos ho
    have hc : x.cnt = refs s o := hi.cnt _ _ hx
    unfold EventRef.step
    simp only [ht, hx]
    rw [if_neg (by omega)]
    refine ⟨_, rfl, ?_⟩
    generalize hs' : ({ s with
          objs := setObj s.objs o (some { x with cnt := x.cnt - 1 })
          ptrs := s.ptrs.filter (·.1 ≠ p)
          dying := if x.cnt - 1 = 0 then o :: s.dying else s.dying } : St α) = s'
    have href : ∀ r, refs s' r = refs s r - (if r = o then 1 else 0) := by
      intro r; subst hs'; exact countP_filter_ptr hi.pnd ho r
    have hobj : ∀ r, s'.objs r = if r = o then some { x with cnt := x.cnt - 1 } else s.objs r := by
      intro r; subst hs'; rfl
    have hptrs : ∀ q r, (q, r) ∈ s'.ptrs ↔ (q, r) ∈ s.ptrs ∧ q ≠ p := by
      intro q r; subst hs'; simp
    have hdy : ∀ r, r ∈ s'.dying ↔ (refs s o = 1 ∧ r = o) ∨ r ∈ s.dying := by
      intro r; subst hs'
      simp only
      split
      · have : refs s o = 1 := by omega
        simp [this]
      · have : refs s o ≠ 1 := by omega
        simp [this]
    have hraw : s'.raw = s.raw := by subst hs'; rfl
    have hfr : s'.freed = s.freed := by subst hs'; rfl
    have hmd : s'.made = s.made := by subst hs'; rfl
    have hno : s'.nextO = s.nextO := by subst hs'; rfl
    have hnp : s'.nextP = s.nextP := by subst hs'; rfl
    have had : s'.adding = s.adding := by subst hs'; rfl
    have hond : o ∉ s.dying := fun hd => by
      have := (hi.dy o hd).2.1; omega
    have hlive : ∀ r, (∃ y, s.objs r = some y ∧ y.heap = true) ↔
        ∃ y, s'.objs r = some y ∧ y.heap = true := by
      intro r
      rw [hobj]
      by_cases hr : r = o
      · subst hr
        simp only [if_pos]
        exact ⟨fun _ => ⟨_, rfl, hh⟩, fun _ => ⟨x, hx, hh⟩⟩
      · rw [if_neg hr]
    refine ⟨?_, ?_, ?_, ?_, ?_, ?_, ?_, ?_, ?_, ?_, ?_, ?_, ?_, by rw [hfr]; exact hi.fnd⟩
    · intro r y hy
      rw [hobj] at hy
      rw [href]
      by_cases hr : r = o
      · subst hr
        rw [if_pos rfl] at hy
        cases hy
        simp [hc]
      · rw [if_neg hr] at hy ⊢
        exact hi.cnt _ _ hy
    · intro q r hq
      exact (hlive r).1 (hi.ptr q r ((hptrs q r).1 hq).1)
    · subst hs'
      exact hi.pnd.sublist (List.filter_sublist.map _)
    · intro q r hq
      rw [hnp]
      exact hi.plt q r ((hptrs q r).1 hq).1
    · intro q r hq
      rw [had] at hq
      rw [hptrs]
      exact ⟨hi.add q r hq, by rintro rfl; exact hpin r hq⟩
    · intro r hr
      rcases (hdy r).1 hr with ⟨h1, rfl⟩ | hr
      · refine ⟨(hlive r).1 ⟨x, hx, hh⟩, by rw [href, if_pos rfl]; omega, ?_⟩
        rw [hraw]
        intro hw
        have := (hi.rw r hw).2; omega
      · obtain ⟨h1, h2, h3⟩ := hi.dy r hr
        exact ⟨(hlive r).1 h1, by rw [href]; omega, by rw [hraw]; exact h3⟩
    · subst hs'
      simp only
      split
      · exact List.nodup_cons.2 ⟨hond, hi.dnd⟩
      · exact hi.dnd
    · intro r hr
      rw [hraw] at hr
      obtain ⟨h1, h2⟩ := hi.rw r hr
      exact ⟨(hlive r).1 h1, by rw [href]; omega⟩
    · intro r y hy hyh
      rw [hraw, hdy, href]
      by_cases hr : r = o
      · subst hr
        rw [if_pos rfl]
        by_cases h1 : refs s r = 1
        · exact .inr (.inl (.inl ⟨h1, rfl⟩))
        · exact .inr (.inr (by omega))
      · rw [hobj, if_neg hr] at hy
        rw [if_neg hr]
        rcases hi.heap r y hy hyh with h1 | h1 | h1
        · exact .inl h1
        · exact .inr (.inl (.inr h1))
        · exact .inr (.inr h1)
    · intro r y hy
      rw [hno]
      by_cases hr : r = o
      · subst hr; exact hi.lt _ _ hx
      · rw [hobj, if_neg hr] at hy; exact hi.lt _ _ hy
    · rw [hno, hmd]; exact hi.mlt
    · intro r
      rw [hmd, hfr, ← hlive]
      exact hi.made r
    · intro r hr
      rw [hfr] at hr
      have hne : r ≠ o := by
        rintro rfl; have := hi.fr _ hr; rw [hx] at this; cases this
      rw [hobj, if_neg hne]
      exact hi.fr r hr
  | delete o =>
    obtain ⟨⟨x, hx, hh⟩, h0, hnr⟩ := hi.dy o ha
    unfold EventRef.step
    simp only [hx, hh, if_true]
    refine ⟨_, rfl, ?_⟩
    have hget : ∀ r y, s.objs r = some y → r ≠ o → setObj s.objs o none r = some y := by
      intro r y hy hr
      unfold setObj
      rw [if_neg hr]; exact hy
    have hold : ∀ r y, setObj s.objs o none r = some y → s.objs r = some y ∧ r ≠ o := by
      intro r y hy
      unfold setObj at hy
      split at hy
      · cases hy
      · rename_i hr; exact ⟨hy, hr⟩
    refine ⟨fun r y hy => hi.cnt r y (hold r y hy).1, ?_, hi.pnd, hi.plt, hi.add, ?_,
      hi.dnd.erase o, ?_, ?_, fun r y hy => hi.lt r y (hold r y hy).1, hi.mlt, ?_, ?_, ?_⟩
    · intro p r hp
      obtain ⟨y, hy, hyh⟩ := hi.ptr p r hp
      refine ⟨y, hget r y hy ?_, hyh⟩
      rintro rfl
      have : 0 < refs s r := refs_pos (s := s) hp
      omega
    · intro r hr
      obtain ⟨hne, hr⟩ := (hi.dnd.mem_erase_iff).1 hr
      obtain ⟨⟨y, hy, hyh⟩, h2⟩ := hi.dy r hr
      exact ⟨⟨y, hget r y hy hne, hyh⟩, h2⟩
    · intro r hr
      obtain ⟨⟨y, hy, hyh⟩, h2⟩ := hi.rw r hr
      exact ⟨⟨y, hget r y hy (by rintro rfl; exact hnr hr), hyh⟩, h2⟩
    · intro r y hy hyh
      obtain ⟨hy, hne⟩ := hold r y hy
      rcases hi.heap r y hy hyh with h1 | h1 | h1
      · exact .inl h1
      · exact .inr (.inl ((hi.dnd.mem_erase_iff).2 ⟨hne, h1⟩))
      · exact .inr (.inr h1)
    · intro r
      show r ∈ s.made ↔ r ∈ s.freed ++ [o] ∨ _
      rw [hi.made r, List.mem_append, List.mem_singleton]
      constructor
      · rintro (h1 | ⟨y, hy, hyh⟩)
        · exact .inl (.inl h1)
        · by_cases hr : r = o
          · exact .inl (.inr hr)
          · exact .inr ⟨y, hget r y hy hr, hyh⟩
      · rintro ((h1 | rfl) | ⟨y, hy, hyh⟩)
        · exact .inl h1
        · exact .inr ⟨x, hx, hh⟩
        · exact .inr ⟨y, (hold r y hy).1, hyh⟩
    · intro r hr
      show setObj _ _ _ _ = _
      unfold setObj
      split
      · rfl
      · rename_i hne
        rcases List.mem_append.1 hr with hr | hr
        · exact hi.fr r hr
        · exact absurd (List.mem_singleton.1 hr) hne
    · show (s.freed ++ [o]).Nodup
      rw [List.nodup_append]
      refine ⟨hi.fnd, by simp, ?_⟩
      intro a hf b hb
      simp at hb
      subst hb
      rintro rfl
      have := hi.fr _ hf
      rw [hx] at this; cases this

theorem Inv.start : Inv ({} : St α) := by
  constructor <;> simp

theorem Spec.Reach.inv {s : St α} (h : Reach s) : Inv s := by
  induction h with
  | start => exact .start
  | step _ ha hs ih =>
    obtain ⟨s2, h2, hi⟩ := ih.step ha
    rw [hs] at h2; cases h2; exact hi

/-! ### The theorems -/

/-- **C33 (no failure).**  Whatever threads do within the rules, no operation fails an assert, uses an
object that does not exist, or deletes one not made with `new`. -/
theorem C33_safe {s : St α} (h : Reach s) {op : Op α} (ha : Allowed s op) :
    ∃ s', step s op = .ok s' ∧ Reach s' := by
  obtain ⟨s', hs, -⟩ := h.inv.step ha
  exact ⟨s', hs, h.step ha hs⟩

/-- **C33 (lives as long as it is referenced).**  The object a pointer points to exists, was made with
`new`, has not been and is not about to be deleted, and its count is the number of pointers to it. -/
theorem C33_held {s : St α} (h : Reach s) {p o : Nat} (hp : (p, o) ∈ s.ptrs) :
    (∃ x, s.objs o = some x ∧ x.heap = true ∧ x.cnt = refs s o) ∧ o ∉ s.freed ∧ o ∉ s.dying := by
  have hi := h.inv
  obtain ⟨x, hx, hh⟩ := hi.ptr p o hp
  refine ⟨⟨x, hx, hh, hi.cnt _ _ hx⟩, ?_, ?_⟩
  · intro hf; have := hi.fr o hf; rw [hx] at this; cases this
  · intro hd
    have := (hi.dy o hd).2.1
    have := refs_pos hp
    omega

/-- **C33 (freed exactly once).**  No object is deleted twice, and what was deleted was made with
`new` and has no pointers. -/
theorem C33_freed_once {s : St α} (h : Reach s) :
    s.freed.Nodup ∧ ∀ o ∈ s.freed, o ∈ s.made ∧ s.objs o = none ∧ refs s o = 0 := by
  have hi := h.inv
  refine ⟨hi.fnd, fun o ho => ⟨(hi.made o).2 (.inl ho), hi.fr o ho, ?_⟩⟩
  rcases Nat.eq_zero_or_pos (refs s o) with h0 | h0
  · exact h0
  · obtain ⟨p, hp⟩ := exists_of_refs h0
    exact absurd ho (C33_held h hp).2.1

/-- **C33 (deletion follows the last release).**  Releasing a pointer begins the deletion of its
object iff no other pointer to it is left; nothing else begins a deletion. -/
theorem C33_last_reference {s s' : St α} (h : Reach s) {op : Op α} (ha : Allowed s op)
    (hs : step s op = .ok s') (o : Nat) :
    (o ∈ s'.dying ∧ o ∉ s.dying) ↔
      ∃ p, op = .release p ∧ (p, o) ∈ s.ptrs ∧ ∀ q, (q, o) ∈ s.ptrs → q = p := by
  have hi := h.inv
  have point_dying : ∀ (t t' : St α) r, point r t = .ok t' → t'.dying = t.dying := by
    intro t t' r ht
    unfold point at ht
    split at ht
    · cases ht
    · cases ht; rfl
  have other : s'.dying = s.dying ∨ (∃ r, s'.dying = s.dying.erase r) →
      (∀ p, op ≠ .release p) → ((o ∈ s'.dying ∧ o ∉ s.dying) ↔
      ∃ p, op = .release p ∧ (p, o) ∈ s.ptrs ∧ ∀ q, (q, o) ∈ s.ptrs → q = p) := by
    intro hd hne
    constructor
    · rintro ⟨h1, h2⟩
      rcases hd with hd | ⟨r, hd⟩
      · rw [hd] at h1; exact absurd h1 h2
      · rw [hd] at h1; exact absurd (List.mem_of_mem_erase h1) h2
    · rintro ⟨p, hp, -⟩; exact absurd hp (hne p)
  cases op with
  | auto v => cases hs; exact other (.inl rfl) (by simp)
  | new v => cases hs; exact other (.inl rfl) (by simp)
  | wrap r => exact other (.inl (point_dying _ _ _ hs)) (by simp)
  | add p r =>
    exact other (.inl (point_dying { s with adding := s.adding.erase (p, r) } _ _ hs)) (by simp)
  | copy p =>
    obtain ⟨r, hr⟩ := ha
    unfold step at hs
    simp only [target_of_mem hi.pnd hr] at hs
    exact other (.inl (point_dying _ _ _ hs)) (by simp)
  | leave r =>
    obtain ⟨x, hx, -⟩ := ha
    unfold step at hs
    simp only [hx] at hs
    cases hs
    exact other (.inl rfl) (by simp)
  | delete r =>
    obtain ⟨⟨x, hx, hh⟩, -⟩ := hi.dy r ha
    unfold step at hs
    simp only [hx, hh, if_true] at hs
    cases hs
    exact other (.inr ⟨r, rfl⟩) (by simp)
  | fromObj r =>
    refine other (.inl ?_) (by simp)
    unfold step at hs
    simp only at hs
    split at hs
    · cases hs
    · split at hs
      · exact point_dying _ _ _ hs
      · unfold clone at hs
        rw [point_dying _ _ _ hs]; rfl
  | fromPtr p =>
    refine other (.inl ?_) (by simp)
    unfold step at hs
    simp only at hs
    split at hs
    · cases hs
    · split at hs
      · cases hs
      · split at hs
        · cases hs; rfl
        · unfold clone at hs
          rw [point_dying _ _ _ hs]; rfl
  | release p =>
    obtain ⟨⟨r, hr⟩, -⟩ := ha
    obtain ⟨x, hx, hh⟩ := hi.ptr _ _ hr
    have hpos := refs_pos hr
    have hc : x.cnt = refs s r := hi.cnt _ _ hx
    unfold step at hs
    simp only [target_of_mem hi.pnd hr, hx] at hs
    rw [if_neg (by omega)] at hs
    cases hs
    have hcount := countP_filter_ptr hi.pnd hr r
    rw [if_pos rfl] at hcount
    have hone : refs s r = 1 ↔ ∀ q, (q, r) ∈ s.ptrs → q = p := by
      constructor
      · intro h1 q hq
        refine Classical.byContradiction fun hne => ?_
        have : 0 < (s.ptrs.filter (·.1 ≠ p)).countP (·.2 == r) :=
          List.countP_pos_iff.2 ⟨(q, r), by simp [hq, hne], by simp⟩
        unfold refs at h1
        omega
      · intro hall
        have h0 : (s.ptrs.filter (·.1 ≠ p)).countP (·.2 == r) = 0 := by
          rw [List.countP_eq_zero]
          rintro ⟨q, t⟩ hq ht
          simp at ht
          subst ht
          simp at hq
          exact hq.2 (hall q hq.1)
        unfold refs at hpos ⊢
        omega
    simp only
    constructor
    · rintro ⟨h1, h2⟩
      split at h1
      · rename_i h0
        rcases List.mem_cons.1 h1 with rfl | h1
        · exact ⟨p, rfl, hr, hone.1 (by omega)⟩
        · exact absurd h1 h2
      · exact absurd h1 h2
    · rintro ⟨q, hq, hqo, hall⟩
      cases hq
      have hro : o = r := by
        have := target_of_mem hi.pnd hqo
        rw [target_of_mem hi.pnd hr] at this
        cases this; rfl
      subst hro
      have h1 := hone.2 hall
      rw [if_pos (by omega)]
      exact ⟨List.mem_cons_self, fun hd => (C33_held h hr).2.2 hd⟩

/-- **C33 (no leak).**  When no pointer is left, everything that was given to a pointer has been
deleted, except for deletions still under way. -/
theorem C33_no_leak {s : St α} (h : Reach s) (hp : s.ptrs = []) :
    ∀ o ∈ s.made, o ∈ s.raw ∨ o ∈ s.dying ∨ o ∈ s.freed := by
  intro o ho
  have hi := h.inv
  rcases (hi.made o).1 ho with h1 | ⟨x, hx, hh⟩
  · exact .inr (.inr h1)
  · rcases hi.heap o x hx hh with h1 | h1 | h1
    · exact .inl h1
    · exact .inr (.inl h1)
    · unfold refs at h1; rw [hp] at h1; exact absurd h1 (Nat.lt_irrefl _)

/-- **C33 (`intrusive_from_this` of a counted event).**  If a pointer to the event exists, the new
pointer that results is one to the same object.  Between the test and the increment anything else
that is allowed may have happened. -/
theorem C33_from_this_counted {s s' : St α} (h : Reach s) {p : Nat} (ha : Allowed s (.fromPtr p))
    (hs : step s (.fromPtr p) = .ok s') :
    ∃ o, (p, o) ∈ s.ptrs ∧ s' = { s with adding := (p, o) :: s.adding } := by
  have hi := h.inv
  obtain ⟨o, ho⟩ := ha
  obtain ⟨x, hx, -⟩ := hi.ptr _ _ ho
  have hc : x.cnt ≠ 0 := by
    rw [hi.cnt _ _ hx]; have := refs_pos ho; omega
  unfold step at hs
  simp only [target_of_mem hi.pnd ho, hx] at hs
  rw [if_pos hc] at hs
  cases hs
  exact ⟨o, ho, rfl⟩

theorem C33_from_this_added {s s' : St α} (h : Reach s) {p o : Nat} (ha : (p, o) ∈ s.adding)
    (hs : step s (.add p o) = .ok s') :
    s'.ptrs = (s.nextP, o) :: s.ptrs ∧ refs s' o = refs s o + 1 ∧
    ∃ x, s.objs o = some x ∧ s'.objs o = some { x with cnt := x.cnt + 1 } := by
  obtain ⟨x, hx, -⟩ := h.inv.ptr _ _ (h.inv.add p o ha)
  have hr := refs_point (s := { s with adding := s.adding.erase (p, o) }) hs o
  change point o _ = _ at hs
  unfold point at hs
  simp only [hx] at hs
  cases hs
  refine ⟨rfl, ?_, x, hx, by simp [setObj]⟩
  rw [if_pos rfl] at hr
  exact hr

/-- **C33 (`intrusive_from_this` of any other event).**  The result is the only pointer to an object
that did not exist before, was made with `new` and has the same value; all other objects are as they
were. -/
theorem C33_from_this_copied {s s' : St α} (h : Reach s) {o : Nat} (ha : Allowed s (.fromObj o))
    (hs : step s (.fromObj o) = .ok s') :
    ∃ x, s.objs o = some x ∧ s.objs s.nextO = none ∧ s.nextO ∉ s.made ∧
      s'.ptrs = (s.nextP, s.nextO) :: s.ptrs ∧
      s'.objs s.nextO = some { val := x.val, cnt := 1, heap := true } ∧
      ∀ r, r ≠ s.nextO → s'.objs r = s.objs r := by
  have hi := h.inv
  obtain ⟨x, hx, h0⟩ : ∃ x, s.objs o = some x ∧ x.cnt = 0 := by
    rcases ha with ha | ⟨x, hx, hh⟩
    · obtain ⟨⟨x, hx, -⟩, h2⟩ := hi.rw o ha
      exact ⟨x, hx, by rw [hi.cnt _ _ hx]; exact h2⟩
    · refine ⟨x, hx, ?_⟩
      rw [hi.cnt _ _ hx]
      rcases Nat.eq_zero_or_pos (refs s o) with h0 | h0
      · exact h0
      · obtain ⟨p, hp⟩ := exists_of_refs h0
        obtain ⟨y, hy, hyh⟩ := hi.ptr _ _ hp
        rw [hx] at hy; cases hy; rw [hh] at hyh; cases hyh
  unfold step at hs
  simp only [hx] at hs
  rw [if_neg (by simp [h0])] at hs
  unfold clone point at hs
  simp only [alloc, setObj, if_pos] at hs
  cases hs
  refine ⟨x, hx, ?_, ?_, rfl, by simp [setObj], ?_⟩
  · cases hc : s.objs s.nextO with
    | none => rfl
    | some y => exact absurd (hi.lt _ _ hc) (Nat.lt_irrefl _)
  · intro hm; exact absurd (hi.mlt _ hm) (Nat.lt_irrefl _)
  · intro r hr
    simp [setObj, hr]

/-- **C33 (events do not change).**  An object that exists before and after an operation has the same
value; a number is never used for a second object. -/
theorem C33_value {s s' : St α} (h : Reach s) {op : Op α} (ha : Allowed s op)
    (hs : step s op = .ok s') (o : Nat) :
    (∀ x y, s.objs o = some x → s'.objs o = some y → y.val = x.val ∧ y.heap = x.heap) ∧
    (o < s.nextO → s.objs o = none → s'.objs o = none) := by
  have hi := h.inv
  have keep : ∀ (t t' : St α), (∀ r, t'.objs r = t.objs r) ∨ (∃ r, ∀ q, t'.objs q =
      if q = r then none else t.objs q) ∨ (∃ r x n, t.objs r = some x ∧ ∀ q, t'.objs q =
      if q = r then some { x with cnt := n } else t.objs q) →
      (∀ x y, t.objs o = some x → t'.objs o = some y → y.val = x.val ∧ y.heap = x.heap) ∧
      (t.objs o = none → t'.objs o = none) := by
    rintro t t' (h1 | ⟨r, h1⟩ | ⟨r, x, n, hx, h1⟩)
    · rw [h1]
      exact ⟨fun x y hx hy => by rw [hx] at hy; cases hy; exact ⟨rfl, rfl⟩, id⟩
    · rw [h1]
      split
      · exact ⟨by simp, fun _ => rfl⟩
      · exact ⟨fun x y hx hy => by rw [hx] at hy; cases hy; exact ⟨rfl, rfl⟩, id⟩
    · rw [h1]
      split
      · rename_i he
        subst he
        rw [hx]
        exact ⟨fun x y hx hy => by cases hx; cases hy; exact ⟨rfl, rfl⟩, by simp⟩
      · exact ⟨fun x y hx hy => by rw [hx] at hy; cases hy; exact ⟨rfl, rfl⟩, id⟩
  have pt : ∀ (t t' : St α) r, point r t = .ok t' → (∃ r x n, t.objs r = some x ∧ ∀ q, t'.objs q =
      if q = r then some { x with cnt := n } else t.objs q) := by
    intro t t' r ht
    unfold point at ht
    split at ht
    · cases ht
    · rename_i x hx
      cases ht
      exact ⟨r, x, x.cnt + 1, hx, fun q => rfl⟩
  have al : ∀ v b, (∀ x y, s.objs o = some x → (alloc v b s).objs o = some y →
      y.val = x.val ∧ y.heap = x.heap) ∧
      (o < s.nextO → s.objs o = none → (alloc v b s).objs o = none) := by
    intro v b
    have : ∀ q, q < s.nextO → (alloc v b s).objs q = s.objs q := by
      intro q hq
      show setObj _ _ _ _ = _
      unfold setObj
      rw [if_neg (by omega)]
    refine ⟨fun x y hx hy => ?_, fun ho hn => by rw [this o ho]; exact hn⟩
    rw [this o (hi.lt _ _ hx), hx] at hy
    cases hy
    exact ⟨rfl, rfl⟩
  have cl : ∀ x, clone x s = .ok s' → (∀ x y, s.objs o = some x → s'.objs o = some y →
      y.val = x.val ∧ y.heap = x.heap) ∧ (o < s.nextO → s.objs o = none → s'.objs o = none) := by
    intro x hc
    have h1 := al x.val true
    have h2 := keep _ _ (.inr (.inr (pt _ _ _ hc)))
    refine ⟨fun y z hy hz => ?_, fun ho hn => h2.2 (h1.2 ho hn)⟩
    cases hm : (alloc x.val true s).objs o with
    | none => rw [h2.2 hm] at hz; cases hz
    | some w =>
      have a := h1.1 y w hy hm
      have b := h2.1 w z hm hz
      exact ⟨b.1.trans a.1, b.2.trans a.2⟩
  have fin : ∀ t t' : St α, t.objs = s.objs → t' = s' → ((∀ r, t'.objs r = t.objs r) ∨
      (∃ r, ∀ q, t'.objs q = if q = r then none else t.objs q) ∨ (∃ r x n, t.objs r = some x ∧
      ∀ q, t'.objs q = if q = r then some { x with cnt := n } else t.objs q)) →
      (∀ x y, s.objs o = some x → s'.objs o = some y → y.val = x.val ∧ y.heap = x.heap) ∧
      (o < s.nextO → s.objs o = none → s'.objs o = none) := by
    rintro t t' he rfl hk
    have := keep t t' hk
    rw [he] at this
    exact ⟨this.1, fun _ => this.2⟩
  cases op with
  | auto v => cases hs; exact al v false
  | new v => cases hs; exact al v true
  | wrap r => exact fin _ _ rfl rfl (.inr (.inr (pt _ _ _ hs)))
  | add p r =>
    exact fin { s with adding := s.adding.erase (p, r) } _ rfl rfl (.inr (.inr (pt _ _ _ hs)))
  | copy p =>
    obtain ⟨r, hr⟩ := ha
    unfold step at hs
    simp only [target_of_mem hi.pnd hr] at hs
    exact fin _ _ rfl rfl (.inr (.inr (pt _ _ _ hs)))
  | leave r =>
    obtain ⟨x, hx, -⟩ := ha
    unfold step at hs
    simp only [hx] at hs
    cases hs
    exact fin s _ rfl rfl (.inr (.inl ⟨r, fun q => rfl⟩))
  | delete r =>
    obtain ⟨⟨x, hx, hh⟩, -⟩ := hi.dy r ha
    unfold step at hs
    simp only [hx, hh, if_true] at hs
    cases hs
    exact fin s _ rfl rfl (.inr (.inl ⟨r, fun q => rfl⟩))
  | fromObj r =>
    unfold step at hs
    simp only at hs
    split at hs
    · cases hs
    · split at hs
      · exact fin _ _ rfl rfl (.inr (.inr (pt _ _ _ hs)))
      · exact cl _ hs
  | fromPtr p =>
    unfold step at hs
    simp only at hs
    split at hs
    · cases hs
    · split at hs
      · cases hs
      · split at hs
        · cases hs; exact fin s _ rfl rfl (.inl fun _ => rfl)
        · exact cl _ hs
  | release p =>
    obtain ⟨⟨r, hr⟩, -⟩ := ha
    obtain ⟨x, hx, hh⟩ := hi.ptr _ _ hr
    have hpos := refs_pos hr
    have hc : x.cnt = refs s r := hi.cnt _ _ hx
    unfold step at hs
    simp only [target_of_mem hi.pnd hr, hx] at hs
    rw [if_neg (by omega)] at hs
    cases hs
    exact fin s _ rfl rfl (.inr (.inr ⟨r, x, x.cnt - 1, hx, fun q => rfl⟩))

/-! ### Examples -/

namespace Ex

/-- A sequence of operations. -/
def run (s : St Nat) : List (Op Nat) → Option (St Nat)
  | [] => some s
  | o :: l => match step s o with
    | .ok s => run s l
    | _ => none

/-- An event on the stack is posted (copied), dispatched, deferred while being dispatched (second
reference to the same copy), taken out of both queues; meanwhile the original goes out of scope. -/
def ops : List (Op Nat) :=
  [.auto 5, .fromObj 0, .leave 0, .fromPtr 0, .add 0 1, .release 0, .release 1, .delete 1]

example : (run {} ops).map (fun s => (s.made, s.freed, s.ptrs)) = some ([1], [1], []) := by
  decide +kernel

/-- After five operations both pointers are there and the count is 2. -/
example : (run {} (ops.take 5)).map (fun s => (s.ptrs, s.objs 1, s.objs 0)) =
    some ([(1, 1), (0, 1)], some { val := 5, cnt := 2, heap := true }, none) := by
  decide +kernel

/-- These states are reachable within the rules. -/
example : ∃ s : St Nat, Reach s ∧ (0, 1) ∈ s.ptrs ∧ Allowed s (.fromPtr 0) := by
  have h0 : Reach ({} : St Nat) := .start
  have h1 := h0.step (op := .auto 5) trivial rfl
  have h2 := h1.step (op := .fromObj 0) (.inr ⟨⟨5, 0, false⟩, rfl, rfl⟩) rfl
  exact ⟨_, h2, by decide +kernel, ⟨1, by decide +kernel⟩⟩

/-- Without the rule, that is with a pointer made to an event on the stack, the deletion is
undefined. -/
example : (match run {} [.auto 5, .wrap 0, .release 0] with
    | some s => match step s (.delete 0) with
      | .undefined => true
      | _ => false
    | none => false) = true := by decide +kernel

end Ex

end SC.EventRef
