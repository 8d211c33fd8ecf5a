import Verif.Spec
/-!
# Specification of entry

What a construction enters, in which order, given what the machine remembers
(shallow: a state per region; deep: an innermost state per region).
-/

namespace SC.Spec
open SC

/-- What the machine remembers: `sh p i` is the state last exited in region `i`
of `p`, `dh p i` the innermost state last exited in that region; `log` lists all completed exits and
all clearing so far. -/
structure Memory where
  sh : Sid → Nat → Option Sid
  dh : Sid → Nat → Option Sid
  log : List HOp

/-- The operation clears one entry. -/
def _root_.SC.HOp.isClear : HOp → Bool
  | .clearShallow _ => true
  | .clearDeep _ => true
  | _ => false

/-- One entry is cleared. -/
def Memory.clear1 (h : Memory) : HOp → Memory
  | .clearShallow k => { h with sh := fun p i => if (p, i) = k then none else h.sh p i, log := h.log ++ [.clearShallow k] }
  | .clearDeep k => { h with dh := fun p i => if (p, i) = k then none else h.dh p i, log := h.log ++ [.clearDeep k] }
  | _ => h

/-- Some memory entries were cleared (and nothing else happened). -/
def Forget (h h' : Memory) : Prop := ∃ cs : List HOp, (∀ c ∈ cs, c.isClear = true) ∧ h' = cs.foldl Memory.clear1 h

theorem Forget.entries {h h' : Memory} (hf : Forget h h') :
    (∀ p i, h'.sh p i = none ∨ h'.sh p i = h.sh p i) ∧ (∀ p i, h'.dh p i = none ∨ h'.dh p i = h.dh p i) := by
  obtain ⟨cs, hc, rfl⟩ := hf
  induction cs generalizing h with
  | nil => exact ⟨fun _ _ => .inr rfl, fun _ _ => .inr rfl⟩
  | cons c cs ih =>
    obtain ⟨h1, h2⟩ := ih (h := h.clear1 c) fun c hc' => hc c (by simp [hc'])
    have k1 : ∀ p i, (h.clear1 c).sh p i = none ∨ (h.clear1 c).sh p i = h.sh p i := by
      intro p i
      unfold Memory.clear1
      split
      all_goals first | exact .inr rfl | skip
      dsimp only
      split
      · exact .inl rfl
      · exact .inr rfl
    have k2 : ∀ p i, (h.clear1 c).dh p i = none ∨ (h.clear1 c).dh p i = h.dh p i := by
      intro p i
      unfold Memory.clear1
      split
      all_goals first | exact .inr rfl | skip
      dsimp only
      split
      · exact .inl rfl
      · exact .inr rfl
    refine ⟨fun p i => ?_, fun p i => ?_⟩
    · rcases h1 p i with h | h
      · exact .inl h
      · rw [List.foldl_cons, h]; exact k1 p i
    · rcases h2 p i with h | h
      · exact .inl h
      · rw [List.foldl_cons, h]; exact k2 p i

/-- What is to be entered: a state with its inner initial tree, an
entry of an inner initial list, all states from just below context `c` down to
`t` (a state with its tree, or a history), or some regions of a state. -/
inductive Goal
  | tree (s : Sid)
  | target (t : Target)
  | down (c : Option Sid) (t : Target)
  | regions (l : List Target)

/-- `Enters C F h g l h'`: starting with memory `h`, goal `g` enters exactly the
states `l` in this order. `F` bounds what the constructor of an entered state does to the
memory. Regions are entered in ascending order, outer states before inner ones. -/
inductive Enters (C : Chart) (F : Memory → Memory → Prop) : Memory → Goal → List Sid → Memory → Prop
  | tree {h h1 h2 s l} : F h h1 → Enters C F h1 (.regions (C.init s)) l h2 → Enters C F h (.tree s) (s :: l) h2
  | rnil {h} : Enters C F h (.regions []) [] h
  | rcons {h h1 h2 t ts l l'} : Enters C F h (.target t) l h1 → Enters C F h1 (.regions ts) l' h2 →
      Enters C F h (.regions (t :: ts)) (l ++ l') h2
  | plain {h h1 d l} : Enters C F h (.tree d) l h1 → Enters C F h (.target ⟨.plain, d⟩) l h1
  | shallow {h h1 d p c l} : C.parent d = some p → h.sh p (C.pos d) = some c →
      Enters C F h (.tree c) l h1 → Enters C F h (.target ⟨.shallow, d⟩) l h1
  | shallowDefault {h h1 d p l} : C.parent d = some p → h.sh p (C.pos d) = none →
      Enters C F h (.tree d) l h1 → Enters C F h (.target ⟨.shallow, d⟩) l h1
  | deep {h h1 d p c l} : C.parent d = some p → h.dh p (C.pos d) = some c →
      Enters C F h (.down (some p) ⟨.plain, c⟩) l h1 → Enters C F h (.target ⟨.deep, d⟩) l h1
  | deepDefault {h h1 d p l} : C.parent d = some p → h.dh p (C.pos d) = none →
      Enters C F h (.tree d) l h1 → Enters C F h (.target ⟨.deep, d⟩) l h1
  | here {h h1 c d l} : C.parent d.st = c → Enters C F h (.target d) l h1 → Enters C F h (.down c d) l h1
  | via {h h1 h2 h3 h4 c d x y l1 l2 l3} : C.parent x = c → C.parent y = some x → Below C y d.st → F h h1 →
      Enters C F h1 (.regions ((C.init x).take (C.pos y))) l1 h2 →
      Enters C F h2 (.down (some x) d) l2 h3 →
      Enters C F h3 (.regions ((C.init x).drop (C.pos y + 1))) l3 h4 →
      Enters C F h (.down c d) (x :: (l1 ++ (l2 ++ l3))) h4

/-- `Begins C F h g l y`: starting with memory `h`, goal `g` entered exactly the states `l` in this order and was then to enter
`y`, whose entry failed. -/
inductive Begins (C : Chart) (F : Memory → Memory → Prop) : Memory → Goal → List Sid → Sid → Prop
  | root {h s} : Begins C F h (.tree s) [] s
  | tree {h h1 s l y} : F h h1 → Begins C F h1 (.regions (C.init s)) l y → Begins C F h (.tree s) (s :: l) y
  | first {h t ts l y} : Begins C F h (.target t) l y → Begins C F h (.regions (t :: ts)) l y
  | later {h h1 t ts l l' y} : Enters C F h (.target t) l h1 → Begins C F h1 (.regions ts) l' y →
      Begins C F h (.regions (t :: ts)) (l ++ l') y
  | plain {h d l y} : Begins C F h (.tree d) l y → Begins C F h (.target ⟨.plain, d⟩) l y
  | shallow {h d p c l y} : C.parent d = some p → h.sh p (C.pos d) = some c →
      Begins C F h (.tree c) l y → Begins C F h (.target ⟨.shallow, d⟩) l y
  | shallowDefault {h d p l y} : C.parent d = some p → h.sh p (C.pos d) = none →
      Begins C F h (.tree d) l y → Begins C F h (.target ⟨.shallow, d⟩) l y
  | deep {h d p c l y} : C.parent d = some p → h.dh p (C.pos d) = some c →
      Begins C F h (.down (some p) ⟨.plain, c⟩) l y → Begins C F h (.target ⟨.deep, d⟩) l y
  | deepDefault {h d p l y} : C.parent d = some p → h.dh p (C.pos d) = none →
      Begins C F h (.tree d) l y → Begins C F h (.target ⟨.deep, d⟩) l y
  | here {h c d l y} : C.parent d.st = c → Begins C F h (.target d) l y → Begins C F h (.down c d) l y
  | outer {h c d x y} : C.parent x = c → C.parent y = some x → Below C y d.st → Begins C F h (.down c d) [] x
  | before {h h1 c d x y l z} : C.parent x = c → C.parent y = some x → Below C y d.st → F h h1 →
      Begins C F h1 (.regions ((C.init x).take (C.pos y))) l z → Begins C F h (.down c d) (x :: l) z
  | down {h h1 h2 c d x y l1 l2 z} : C.parent x = c → C.parent y = some x → Below C y d.st → F h h1 →
      Enters C F h1 (.regions ((C.init x).take (C.pos y))) l1 h2 →
      Begins C F h2 (.down (some x) d) l2 z → Begins C F h (.down c d) (x :: (l1 ++ l2)) z
  | after {h h1 h2 h3 c d x y l1 l2 l3 z} : C.parent x = c → C.parent y = some x → Below C y d.st → F h h1 →
      Enters C F h1 (.regions ((C.init x).take (C.pos y))) l1 h2 →
      Enters C F h2 (.down (some x) d) l2 h3 →
      Begins C F h3 (.regions ((C.init x).drop (C.pos y + 1))) l3 z → Begins C F h (.down c d) (x :: (l1 ++ (l2 ++ l3))) z

/-- The entry of `y` failed: there was no memory for the state object (nothing is observed), its constructor threw, or the
constructed state could not be stored and was destroyed again. -/
inductive NotEntered (y : Sid) : List Obs → Prop
  | alloc : NotEntered y []
  | ctor : NotEntered y [.enterFail y]
  | add : NotEntered y [.enter y, .destroy y]

end SC.Spec

namespace SC.Spec
open SC

/-- The exit of `s` is remembered: `s` becomes the last exited state of its region if the
direct outer state has shallow history; an innermost state becomes the last exited innermost
state of the region of each outer state that has deep history. Nothing else changes. -/
structure Stored (C : Chart) (s : Sid) (h h' : Memory) : Prop where
  sh : ∀ p i, h'.sh p i = if C.parent s = some p ∧ C.shallowH p = true ∧ C.pos s = i then some s else h.sh p i
  deep : ∀ p c, C.isLeaf s = true → C.deepH p = true → C.parent c = some p → Below C c s → h'.dh p (C.pos c) = some s
  other : ∀ p i, ¬ (C.isLeaf s = true ∧ C.deepH p = true ∧ ∃ c, C.parent c = some p ∧ Below C c s ∧ C.pos c = i) →
    h'.dh p i = h.dh p i
  log : h'.log = h.log ++ [.exit s]

/-- Effect of a list of observations on the memory: every completed exit is
remembered; `F` bounds what user code does in between. -/
inductive MemRun (C : Chart) (F : Memory → Memory → Prop) : Memory → List Obs → Memory → Prop
  | nil {h h'} : F h h' → MemRun C F h [] h'
  | exit {h h1 h2 h' s os} : F h h1 → (s < C.n → Stored C s h1 h2) → MemRun C F h2 os h' → MemRun C F h (.exit s :: os) h'
  | other {h h' o os} : (∀ s, o ≠ .exit s) → MemRun C F h os h' → MemRun C F h (o :: os) h'

/-- `F` is a preorder. -/
structure PreOrd (F : Memory → Memory → Prop) : Prop where
  refl : ∀ h, F h h
  trans : ∀ {a b c}, F a b → F b c → F a c

theorem Forget.preord : PreOrd Forget := by
  refine ⟨fun h => ⟨[], by simp, rfl⟩, ?_⟩
  rintro a b c ⟨c1, h1, rfl⟩ ⟨c2, h3, rfl⟩
  refine ⟨c1 ++ c2, fun c hc => ?_, by rw [List.foldl_append]⟩
  rcases List.mem_append.1 hc with hc | hc
  · exact h1 c hc
  · exact h3 c hc

theorem eq_preord : PreOrd (fun a b : Memory => a = b) := ⟨fun _ => rfl, fun h1 h2 => h1.trans h2⟩

variable {C : Chart} {F : Memory → Memory → Prop}

theorem MemRun.pre (hF : PreOrd F) {h h1 h2 : Memory} {os : List Obs} (h0 : F h h1) (hr : MemRun C F h1 os h2) :
    MemRun C F h os h2 := by
  induction hr generalizing h with
  | nil h' => exact .nil (hF.trans h0 h')
  | exit h1 h2 h3 _ => exact .exit (hF.trans h0 h1) h2 h3
  | other h1 _ ih => exact .other h1 (ih h0)

theorem MemRun.append (hF : PreOrd F) {h h1 h2 : Memory} {os os' : List Obs} (ha : MemRun C F h os h1) (hb : MemRun C F h1 os' h2) :
    MemRun C F h (os ++ os') h2 := by
  induction ha with
  | nil h' => exact hb.pre hF h'
  | exit g1 g2 _ ih => exact .exit g1 g2 (ih hb)
  | other g1 _ ih => exact .other g1 (ih hb)

end SC.Spec
