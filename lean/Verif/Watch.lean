import Verif.Reach
import Verif.Props.Vocab
/-!
# User code that looks at the machine

`P.watch` is the program `P` in which every piece of user code first notes what it sees of the
machine. The notes are kept in the user world, so the library functions are used unchanged.
-/

namespace SC
open Spec Chart
variable {W : Type}

/-- What each call of user code saw, with the observation the call is recorded as. -/
abbrev Log := List (View × Obs)

/-- `P` with notes. -/
def Prog.watch (P : Prog W) : Prog (W × Log) where
  toChart := P.toChart
  ctor s v w := let o := P.ctor s v w.1
    ⟨(o.world, w.2 ++ [(v, if o.throws = none then .enter s else .enterFail s)]), o.cmds, o.throws⟩
  exit s v w := let o := P.exit s v w.1
    ⟨(o.world, w.2 ++ [(v, if o.throws = none then .exit s else .exitFail s)]), o.cmds, o.throws⟩
  dtor s v w := let o := P.dtor s v w.1
    ((o.1, w.2 ++ [(v, .destroy s)]), o.2)
  action a v w := let o := P.action a v w.1
    ⟨(o.world, w.2 ++ [(v, .act a)]), o.cmds, o.throws⟩
  react s id e v w := let o := P.react s id e v w.1
    (⟨(o.1.world, w.2 ++ [(v, .react s id)]), o.1.cmds, o.1.throws⟩, o.2)
  unconsumed e v w := let o := P.unconsumed e v w.1
    ⟨(o.world, w.2 ++ [(v, .unconsumed)]), o.cmds, o.throws⟩
  alloc s w := let o := P.alloc s w.1
    ((o.1, w.2), o.2)
  translate := P.translate

theorem Contract.watch {P : Prog W} (h : Contract P) : Contract P.watch :=
  ⟨fun s v w hs => h.ctor s v w.1 hs, fun s r e v w d a hd => h.react s r e v w.1 d a hd⟩

/-- Machines a client can have (as `Reach`); the environment does not touch the notes. -/
inductive Watched (P : Prog W) : Mach (W × Log) → Prop
  | fresh (w : W) : Watched P (Mach.fresh (w, []))
  | returns {c : Call} {m m' : Mach (W × Log)} : Watched P m → c.legal P.watch m → c.run P.watch m = .ok true m' → Watched P m'
  | throws {c : Call} {x : Exc} {m m' : Mach (W × Log)} : Watched P m → c.legal P.watch m → c.run P.watch m = .thrown x m' → Watched P m'
  | world {m : Mach (W × Log)} (w : W) : Watched P m → Watched P { m with world := (w, m.world.2) }

theorem Watched.reach {P : Prog W} {m : Mach (W × Log)} (h : Watched P m) : Reach P.watch m := by
  induction h with
  | fresh w => exact .fresh _
  | returns _ hl hr ih => exact .returns ih hl hr
  | throws _ hl hr ih => exact .throws ih hl hr
  | world w _ ih => exact .world _ ih

namespace Spec

/-- The state that is being left: during its exit() and its destructor. -/
def leaving : Obs → Option Sid
  | .exit s | .exitFail s | .destroy s => some s
  | _ => none

/-- The state whose constructor is running. -/
def making : Obs → Option Sid
  | .enter s | .enterFail s => some s
  | _ => none

/-- The outermost state the machine knows of (`pOutermostState_`) after a call of user code: the
constructor of a `state` runs when the machine already knows it, that of a `simple_state` before. -/
def topStep (C : Chart) (t : Option Sid) : Obs → Option Sid
  | .enter s => if C.parent s = none then some s else t
  | .enterFail s => if C.parent s = none ∧ C.isSimple s = false then none else t
  | .destroy s => if C.parent s = none then none else t
  | _ => t

def topOf (C : Chart) (tr : List Obs) : Option Sid := tr.foldl (topStep C) none

/-- What `terminated()` returns to user code recorded as `o`, after the calls `tr`. -/
def termSeen (C : Chart) (tr : List Obs) (o : Obs) : Bool :=
  match making o with
  | some s => if C.parent s = none ∧ C.isSimple s = false then false else (topOf C tr).isNone
  | none => (topOf C tr).isNone

/-- `v` is what user code recorded as `o` has to see after the calls `tr`:
the range `state_begin()..state_end()` has no null pointer and no duplicate, and consists of the
innermost states that are alive, without the one being left; the objects of all states that
are alive exist and know their context; of a state that is being constructed, the object exists and knows
its context iff it is a `state`, not a `simple_state`. -/
structure Shown (C : Chart) (tr : List Obs) (o : Obs) (v : View) : Prop where
  slots : ∃ l : List Sid, v.slots = l.map some ∧ l.Nodup ∧
    ∀ x, x ∈ l ↔ (alive tr x = true ∧ C.isLeaf x = true ∧ leaving o ≠ some x)
  objs : ∀ x, alive tr x = true → ∃ ob, v.objs x = some ob ∧ ob.ctxSet = true
  self : ∀ x, making o = some x → ∃ ob, v.objs x = some ob ∧ ob.ctxSet = !C.isSimple x
  term : v.terminated = termSeen C tr o

/-- All notes are exact, each with respect to the calls before it. -/
def Seen (C : Chart) (log : Log) : Prop :=
  ∀ pre v o post, log = pre ++ (v, o) :: post → Shown C (pre.map (·.2)) o v

theorem Seen.snoc {C : Chart} {log : Log} (h : Seen C log) {v : View} {o : Obs} (he : Shown C (log.map (·.2)) o v) :
    Seen C (log ++ [(v, o)]) := by
  intro pre v' o' post heq
  rcases List.eq_nil_or_concat post with rfl | ⟨post', z, rfl⟩
  · have := List.append_inj' heq rfl
    obtain ⟨h1, h2⟩ := this
    cases h2
    rw [← h1]; exact he
  · rw [List.concat_eq_append, ← List.cons_append, ← List.append_assoc] at heq
    obtain ⟨h1, _⟩ := List.append_inj' heq rfl
    exact h pre v' o' post' h1

theorem topOf_snoc (C : Chart) (tr : List Obs) (o : Obs) : topOf C (tr ++ [o]) = topStep C (topOf C tr) o := by
  unfold topOf; rw [List.foldl_append]; rfl

theorem alive_snoc (tr : List Obs) (o : Obs) : alive (tr ++ [o]) = aliveStep (alive tr) o := by
  unfold alive; rw [List.foldl_append]; rfl

/-- The deferral of an event is recorded by the library, not by user code. -/
def userCall : Obs → Bool
  | .defer _ => false
  | _ => true

end Spec

/-- What is needed of a program with notes. -/
structure Watching (Q : Prog (W × Log)) : Prop where
  ctor : ∀ s v w, ∃ w', (Q.ctor s v w).world = (w', w.2 ++ [(v, if (Q.ctor s v w).throws = none then .enter s else .enterFail s)])
  exit : ∀ s v w, ∃ w', (Q.exit s v w).world = (w', w.2 ++ [(v, if (Q.exit s v w).throws = none then .exit s else .exitFail s)])
  dtor : ∀ s v w, ∃ w', (Q.dtor s v w).1 = (w', w.2 ++ [(v, .destroy s)])
  action : ∀ a v w, ∃ w', (Q.action a v w).world = (w', w.2 ++ [(v, .act a)])
  react : ∀ s i e v w, ∃ w', (Q.react s i e v w).1.world = (w', w.2 ++ [(v, .react s i)])
  unconsumed : ∀ e v w, ∃ w', (Q.unconsumed e v w).world = (w', w.2 ++ [(v, .unconsumed)])
  alloc : ∀ s w, (Q.alloc s w).1.2 = w.2

theorem Prog.watch_watching (P : Prog W) : Watching P.watch :=
  ⟨fun _ _ _ => ⟨_, rfl⟩, fun _ _ _ => ⟨_, rfl⟩, fun _ _ _ => ⟨_, rfl⟩, fun _ _ _ => ⟨_, rfl⟩, fun _ _ _ _ _ => ⟨_, rfl⟩,
    fun _ _ _ => ⟨_, rfl⟩, fun _ _ => rfl⟩

end SC
