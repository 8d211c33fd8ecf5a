/-!
# Type information of states and events

Model of `detail/rtti_policy.hpp` (lines 29-205): `dynamic_type`, `static_type`, `custom_dynamic_type_ptr` and `custom_static_type_ptr`, with and without
`BOOST_STATECHART_USE_NATIVE_RTTI` and with and without `NDEBUG`; and of the copies that `event::clone` makes (event.hpp 64-68).

Classes, types of custom ids and custom ids are numbers. `most c` is the class `MostDerived` of the `rtti_derived_type` that class `c` derives from: `c` itself for a
state or event that is declared as the documentation asks for, another class if `c` derives from a state or event. The address of `id_holder< D >::idProvider_`
is `D`, as there is one such object for each class (line 42).
-/

namespace SC.Rtti

/-- Which of the two implementations is used. `debug`: asserts are enabled. -/
inductive Mode
  | own (debug : Bool)
  | native
deriving DecidableEq, Repr

/-- `id_provider` (29-35). `pCustomIdType_` exists only if asserts are enabled. -/
structure Provider where
  pCustomId : Option Nat := none
  pCustomIdType : Option Nat := none
deriving DecidableEq, Repr

/-- A state or an event: its class, which `typeid` finds, and the member `idProvider_` (136). -/
structure Obj where
  cls : Nat
  idProvider : Nat
deriving DecidableEq, Repr

/-- The static objects, which are zero at first, and the states and events that exist. -/
structure St where
  prov : Nat → Provider := fun _ => {}
  objs : Nat → Option Obj := fun _ => none

def upd {α : Type} (f : Nat → α) (i : Nat) (a : α) : Nat → α := fun j => if j = i then a else f j

/-- What a query gives: a value, a failed assert, undefined behaviour. -/
inductive Ans (α : Type)
  | val (a : α)
  | assertFail
  | undefined
deriving DecidableEq, Repr

/-- The constructor of a class (rtti_policy.hpp 128-133, 195). -/
def construct (most : Nat → Nat) (c : Nat) : Obj := ⟨c, most c⟩

/-- `clone` (event.hpp 64-68) and the compiler-generated copy constructor: a `MostDerived` with a copy of `idProvider_`. -/
def clone (most : Nat → Nat) (o : Obj) : Obj := ⟨most o.cls, o.idProvider⟩

/-- `dynamic_type` (91-98). -/
def dynamicType : Mode → Obj → Nat
  | .own _, o => o.idProvider
  | .native, o => o.cls

/-- `static_type` (156-163) of class `c`. -/
def staticType (most : Nat → Nat) : Mode → Nat → Nat
  | .own _, c => most c
  | .native, c => most c

/-- The common part of `custom_dynamic_type_ptr` (102-108) and `custom_static_type_ptr` (167-175) for the type `t`. -/
def custom (debug : Bool) (p : Provider) (t : Nat) : Ans (Option Nat) :=
  match p.pCustomId with
  | none => .val none
  | some i =>
    if debug then
      match p.pCustomIdType with
      | none => .undefined
      | some u => if u = t then .val (some i) else .assertFail
    else .val (some i)

/-- `custom_static_type_ptr( p )` (178-186) with a pointer to type `t`. -/
def setCustom (debug : Bool) (p : Provider) (t : Nat) (i : Option Nat) : Provider :=
  { p with
    pCustomId := i
    pCustomIdType := if debug then some t else p.pCustomIdType }

/-- What a program does. Objects are numbered by the program. -/
inductive Op
  | make (k c : Nat)
  | clone (k j : Nat)
  | drop (k : Nat)
  | set (c t : Nat) (i : Option Nat)
deriving DecidableEq, Repr

/-- `k` in `clone k j` is the copy. -/
def step (most : Nat → Nat) (debug : Bool) (s : St) : Op → St
  | .make k c => { s with objs := upd s.objs k (some (construct most c)) }
  | .clone k j => { s with objs := upd s.objs k ((s.objs j).map (clone most)) }
  | .drop k => { s with objs := upd s.objs k none }
  | .set c t i => { s with prov := upd s.prov (most c) (setCustom debug (s.prov (most c)) t i) }

def run (most : Nat → Nat) (debug : Bool) (l : List Op) : St := l.foldl (step most debug) {}

/-- `custom_dynamic_type_ptr< t >()` of an object. -/
def customDynamic (debug : Bool) (s : St) (o : Obj) (t : Nat) : Ans (Option Nat) := custom debug (s.prov o.idProvider) t

/-- `c::custom_static_type_ptr< t >()`. -/
def customStatic (most : Nat → Nat) (debug : Bool) (s : St) (c t : Nat) : Ans (Option Nat) := custom debug (s.prov (most c)) t

end SC.Rtti
