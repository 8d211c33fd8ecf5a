import Verif.Rtti

/-!
# C50: type information
-/

namespace SC.Rtti

namespace Spec

/-- The class the object `k` was declared with: that of the `make` it goes back to. The list has the last operation first. -/
def origin : List Op → Nat → Option Nat
  | [], _ => none
  | .make k c :: l, i => if i = k then some c else origin l i
  | .clone k j :: l, i => if i = k then origin l j else origin l i
  | .drop k :: l, i => if i = k then none else origin l i
  | .set _ _ _ :: l, i => origin l i

/-- Whether `k` was made by copying. -/
def copied : List Op → Nat → Bool
  | [], _ => false
  | .make k _ :: l, i => if i = k then false else copied l i
  | .clone k _ :: l, i => if i = k then true else copied l i
  | .drop k :: l, i => if i = k then false else copied l i
  | .set _ _ _ :: l, i => copied l i

/-- The last custom id that was set for a class declared as `d`, with its type. -/
def lastSet (most : Nat → Nat) : List Op → Nat → Option (Nat × Option Nat)
  | [], _ => none
  | .set c t i :: l, d => if d = most c then some (t, i) else lastSet most l d
  | _ :: l, d => lastSet most l d

/-- What a query for a custom id of type `t` should give. -/
def answer (debug : Bool) (t : Nat) : Option (Nat × Option Nat) → Ans (Option Nat)
  | some (u, some i) => if debug = true ∧ u ≠ t then .assertFail else .val (some i)
  | _ => .val none

end Spec

open Spec

variable {most : Nat → Nat} {debug : Bool}

theorem run_snoc (l : List Op) (o : Op) : run most debug (l ++ [o]) = step most debug (run most debug l) o := by
  simp [run]

/-- The objects, by the operations that were executed (last first). -/
theorem objs_run (hm : ∀ c, most (most c) = most c) : ∀ (l : List Op) (k : Nat), (run most debug l.reverse).objs k =
    (origin l k).map fun c => ⟨if copied l k then most c else c, most c⟩
  | [], _ => rfl
  | o :: l, k => by
    rw [List.reverse_cons, run_snoc]
    cases o with
    | make i c =>
      show upd _ i _ k = _
      unfold upd
      simp only [origin, copied]
      split
      · simp [construct]
      · exact objs_run hm l k
    | clone i j =>
      show upd _ i _ k = _
      unfold upd
      simp only [origin, copied]
      split
      · rw [objs_run hm l j]
        cases origin l j with
        | none => rfl
        | some c =>
          simp only [Option.map_some, clone, if_true]
          split <;> simp [hm]
      · exact objs_run hm l k
    | drop i =>
      show upd _ i _ k = _
      unfold upd
      simp only [origin, copied]
      split
      · rfl
      · exact objs_run hm l k
    | set c t i => exact objs_run hm l k

/-- The static objects, by the operations that were executed (last first). -/
theorem prov_run : ∀ (l : List Op) (d : Nat), ((run most debug l.reverse).prov d).pCustomId = (lastSet most l d).bind (·.2) ∧
    (debug = true → ((run most debug l.reverse).prov d).pCustomIdType = (lastSet most l d).map (·.1))
  | [], _ => ⟨rfl, fun _ => rfl⟩
  | o :: l, d => by
    rw [List.reverse_cons, run_snoc]
    have ih := prov_run l d
    cases o with
    | set c t i =>
      simp only [step, upd, lastSet]
      split
      · refine ⟨by simp [setCustom], fun hd => ?_⟩
        subst hd
        rfl
      · exact ih
    | _ => exact ih

theorem custom_run (l : List Op) (d t : Nat) : custom debug ((run most debug l.reverse).prov d) t = answer debug t (lastSet most l d) := by
  obtain ⟨h1, h2⟩ := prov_run (most := most) (debug := debug) l d
  unfold custom
  rw [h1]
  cases hl : lastSet most l d with
  | none => rfl
  | some ui =>
    obtain ⟨u, i⟩ := ui
    cases i with
    | none => rfl
    | some i =>
      simp only [Option.bind_some, answer]
      cases hd : debug with
      | false => simp
      | true =>
        rw [hl] at h2
        subst hd
        simp only [h2 rfl, Option.map_some, if_true, true_and]
        by_cases hu : u = t <;> simp [hu]

/-- **C50 (types).**  With the type information of the library: an object, original or copy, has the type `c::static_type()` iff the class it was declared with and `c`
have the same `MostDerived`. -/
theorem C50_type (hm : ∀ c, most (most c) = most c) {l : List Op} {k : Nat} {o : Obj} (ho : (run most debug l).objs k = some o) :
    ∃ d, origin l.reverse k = some d ∧ ∀ c, dynamicType (.own debug) o = staticType most (.own debug) c ↔ most d = most c := by
  have h := objs_run (debug := debug) hm l.reverse k
  rw [List.reverse_reverse, ho] at h
  cases hd : origin l.reverse k with
  | none => rw [hd] at h; cases h
  | some d =>
    rw [hd] at h
    cases h
    exact ⟨d, rfl, fun c => Iff.rfl⟩

/-- **C50 (native types).**  With native type information: an object that was not copied has the type `c::static_type()` iff its class is `MostDerived` of `c`; a copy
iff its class and `c` have the same `MostDerived`. -/
theorem C50_native (hm : ∀ c, most (most c) = most c) {l : List Op} {k : Nat} {o : Obj} (ho : (run most debug l).objs k = some o) :
    ∃ d, origin l.reverse k = some d ∧ ∀ c, dynamicType .native o = staticType most .native c ↔ (if copied l.reverse k then most d else d) = most c := by
  have h := objs_run (debug := debug) hm l.reverse k
  rw [List.reverse_reverse, ho] at h
  cases hd : origin l.reverse k with
  | none => rw [hd] at h; cases h
  | some d =>
    rw [hd] at h
    cases h
    exact ⟨d, rfl, fun c => Iff.rfl⟩

/-- **C50 (no difference).**  If the objects are of classes that are their own `MostDerived`, as the documentation asks for, both kinds of type information
tell the same classes and objects apart, and exactly those. -/
theorem C50_same (hm : ∀ c, most (most c) = most c) {l : List Op} {k j : Nat} {o p : Obj} {d e : Nat}
    (ho : (run most debug l).objs k = some o) (hp : (run most debug l).objs j = some p) (hd : origin l.reverse k = some d) (he : origin l.reverse j = some e)
    (hdm : most d = d) (hem : most e = e) (m : Mode) (c : Nat) :
    (dynamicType m o = staticType most m c ↔ d = most c) ∧ (dynamicType m o = dynamicType m p ↔ d = e) := by
  have h1 := objs_run (debug := debug) hm l.reverse k
  have h2 := objs_run (debug := debug) hm l.reverse j
  rw [List.reverse_reverse, ho, hd] at h1
  rw [List.reverse_reverse, hp, he] at h2
  cases h1
  cases h2
  simp only [hdm, hem, ite_self]
  cases m <;> exact ⟨Iff.rfl, Iff.rfl⟩

/-- **C50 (custom ids).**  Asking an object for the custom id of its class gives what was set last for this class, null if nothing was; with asserts, one fails iff a custom id
that is not null was set last with another type. Asking the class gives the same. A null pointer to `type_info` is never dereferenced. -/
theorem C50_custom (hm : ∀ c, most (most c) = most c) {l : List Op} {k : Nat} {o : Obj} (ho : (run most debug l).objs k = some o) (t : Nat) :
    ∃ d, origin l.reverse k = some d ∧ customDynamic debug (run most debug l) o t = answer debug t (lastSet most l.reverse (most d)) ∧
      customStatic most debug (run most debug l) d t = customDynamic debug (run most debug l) o t := by
  have h := objs_run (debug := debug) hm l.reverse k
  rw [List.reverse_reverse, ho] at h
  have hc := custom_run (most := most) (debug := debug) l.reverse
  rw [List.reverse_reverse] at hc
  cases hd : origin l.reverse k with
  | none => rw [hd] at h; cases h
  | some d =>
    rw [hd] at h
    cases h
    exact ⟨d, rfl, hc _ _, rfl⟩

/-- **C50 (custom ids of classes).** -/
theorem C50_custom_static (l : List Op) (c t : Nat) : customStatic most debug (run most debug l) c t = answer debug t (lastSet most l.reverse (most c)) := by
  have hc := custom_run (most := most) (debug := debug) l.reverse
  rw [List.reverse_reverse] at hc
  exact hc _ _

namespace Ex

/-- Class 2 derives from the event 1. -/
def derived : Nat → Nat := fun c => if c = 2 then 1 else c

theorem derived_idem (c : Nat) : derived (derived c) = derived c := by
  unfold derived; split <;> simp_all

/-- Object 0 is of class 2, object 1 is a copy of it, object 2 is of class 3. -/
def prog : List Op := [.make 0 2, .clone 1 0, .make 2 3, .set 1 7 (some 40), .set 3 7 (some 50), .set 3 8 none]

example : ((run derived true prog).objs 0, (run derived true prog).objs 1, (run derived true prog).objs 2) = (some ⟨2, 1⟩, some ⟨1, 1⟩, some ⟨3, 3⟩) := by
  decide +kernel

example : customDynamic true (run derived true prog) ⟨2, 1⟩ 7 = .val (some 40) ∧ customDynamic true (run derived true prog) ⟨2, 1⟩ 8 = .assertFail ∧
    customDynamic true (run derived true prog) ⟨3, 3⟩ 7 = .val none ∧ customDynamic false (run derived false prog) ⟨2, 1⟩ 8 = .val (some 40) := by
  decide +kernel

/-- **C50, finding.**  `BOOST_STATECHART_USE_NATIVE_RTTI` makes a difference for an event of a class that derives from an event: by default it has the type of its base
class, and a reaction to that is executed; with native type information it has no event's type, not even the `static_type()` of its own class, but a copy of it,
as made by `post_event` and `defer_event`, has the type of its base class. -/
theorem C50_derived_event : ∃ (most : Nat → Nat) (l : List Op) (o p : Obj), (∀ c, most (most c) = most c) ∧ (run most true l).objs 0 = some o ∧
    (run most true l).objs 1 = some p ∧ origin l.reverse 0 = some 2 ∧ origin l.reverse 1 = some 2 ∧
    dynamicType (.own true) o = staticType most (.own true) 1 ∧ (∀ c, dynamicType .native o ≠ staticType most .native c) ∧
    dynamicType .native p = staticType most .native 1 := by
  refine ⟨derived, prog, ⟨2, 1⟩, ⟨1, 1⟩, derived_idem, by decide +kernel, by decide +kernel, by decide +kernel, by decide +kernel, by decide +kernel, fun c => ?_,
    by decide +kernel⟩
  show 2 ≠ derived c
  unfold derived
  split <;> omega

end Ex

end SC.Rtti
