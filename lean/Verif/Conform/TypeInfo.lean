import Verif.Props.Rtti

/-!
# TypeInfoTest.cpp

State A is class 0, state B class 1; each is its own `MostDerived`. The types `void`, `char` and `bool` are 0, 1 and 2. The machine has constructed A (object 0)
and B (object 1).
-/

namespace SC.Conform.TypeInfo

open SC.Rtti

def made : List Op := [.make 0 0, .make 1 1]

def named : List Op := made ++ [.set 1 1 (some 66), .set 0 1 (some 65)]

def nulled : List Op := named ++ [.set 1 2 none, .set 0 2 none]

def a : Obj := ⟨0, 0⟩
def b : Obj := ⟨1, 1⟩

example : (run id true made).objs 0 = some a ∧ (run id true made).objs 1 = some b := by decide +kernel

/-- Lines 41-44, with either kind of type information. -/
example : ∀ m ∈ [Mode.own true, .own false, .native], dynamicType m b = staticType id m 1 ∧ dynamicType m b ≠ staticType id m 0 ∧
    dynamicType m a = staticType id m 0 ∧ dynamicType m a ≠ staticType id m 1 := by decide +kernel

/-- Lines 48-56. -/
example : ∀ t ∈ [0, 1, 2], customDynamic true (run id true made) b t = .val none ∧ customDynamic true (run id true made) a t = .val none := by decide +kernel

/-- Lines 58-68. -/
example : customStatic id true (run id true named) 1 1 = .val (some 66) ∧ customStatic id true (run id true named) 0 1 = .val (some 65) ∧
    customDynamic true (run id true named) b 1 = .val (some 66) ∧ customDynamic true (run id true named) a 1 = .val (some 65) := by decide +kernel

/-- Lines 71-76. -/
example : customDynamic true (run id true nulled) b 1 = .val none ∧ customDynamic true (run id true nulled) a 1 = .val none := by decide +kernel

end SC.Conform.TypeInfo
