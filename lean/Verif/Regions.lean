import Verif.AnyOrder
import Verif.Props.Order
/-!
# Orthogonal regions that have nothing to do with each other

`Independent` describes when a region of a state is left alone by the rest of a program: events that concern the region do not concern any other state, the
transitions of the region stay in it, the others do not replace the region, and user code of one side does not touch what belongs to the other. The rest of
the file proves that the region then behaves as if there were no other states (`Props/Regions`).
-/

namespace SC
open Spec
variable {W α β : Type}

namespace Regions
open Calm

/-! ## Parts of a program -/

/-- Region `i` of state `p`, with the states, events and transition actions that belong to it; `pr w` is what belongs to it in the environment `w`. -/
structure Part (W : Type) where
  p : Sid
  i : Nat
  R : Sid → Bool
  own : Event → Bool
  mine : Nat → Bool
  A : Type
  pr : W → A

variable (K : Part W)

/-- Region `k` is the region or inside of it. -/
def Part.key (k : HKey) : Bool := K.R k.1 || (k.1 == K.p && k.2 == K.i)

def Part.owns : Cmd → Bool
  | .post e => K.own e
  | .clearShallow k => K.key k
  | .clearDeep k => K.key k

/-- The views agree in the region. -/
structure SameIn (v v' : View) : Prop where
  objs : ∀ s, K.R s = true → (v.objs s).isSome = (v'.objs s).isSome
  terminated : v.terminated = v'.terminated
  trig : v.trig = v'.trig

/-- User code of the region: what it does there depends on the region only; it touches nothing else. -/
def Inside (f : View → W → UOut W) : Prop := ∀ v v' w w', SameIn K v v' → K.pr w = K.pr w' →
  K.pr (f v w).world = K.pr (f v' w').world ∧ (f v w).cmds = (f v' w').cmds ∧ ∀ c ∈ (f v w).cmds, K.owns c = true

/-- Other user code: it does not touch the region. -/
def Outside (f : View → W → UOut W) : Prop := ∀ v w, K.pr (f v w).world = K.pr w ∧ ∀ c ∈ (f v w).cmds, K.owns c = false

variable (P : Prog W)

/-- The destructor of `s`. -/
def dtorOf (s : Sid) (v : View) (w : W) : UOut W := { world := (P.dtor s v w).1, cmds := (P.dtor s v w).2 }

/-- What a state may do about an event. -/
inductive Does (s : Sid) (e : Event) : Decision → Prop
  | transition {r d a} : r ∈ P.reactions s → r.ev = none ∨ r.ev = some e.ty → r.kind = .transition d a → Does s e (.transit d a)
  | termination {r} : r ∈ P.reactions s → r.ev = none ∨ r.ev = some e.ty → r.kind = .termination → Does s e .terminate
  | deferral {r} : r ∈ P.reactions s → r.ev = none ∨ r.ev = some e.ty → r.kind = .deferral → Does s e .defer
  | custom {r id v w} : r ∈ P.reactions s → r.ev = none ∨ r.ev = some e.ty → r.kind = .custom id → Does s e (P.react s id e v w).2

/-- `x` is in region `j` of `q`. -/
def InRegion (C : Chart) (q : Sid) (j : Nat) (x : Sid) : Prop := ∃ y, C.parent y = some q ∧ C.pos y = j ∧ Spec.Below C y x

/-- The chart and user code do not connect the region with the rest of the program. -/
structure Unconnected : Prop where
  states : ∀ x, K.R x = true ↔ InRegion P.toChart K.p K.i x
  /-- Events of the region concern no other state, other events no state of the region. -/
  events : ∀ e s, AnyOrder.Reacts P.toChart e.ty s → K.own e = K.R s
  /-- An event of the region makes at most one state react first. -/
  unambiguous : ∀ e, K.own e = true → ∀ a b s t, a < P.n → b < P.n → AnyOrder.Separate P.toChart a b →
    AnyOrder.First P.toChart e.ty a s → AnyOrder.First P.toChart e.ty b t → s = t
  /-- Transitions of the region end there. -/
  inner : ∀ s e d a, K.R s = true → Does P s e (.transit d a) → K.R d.st = true ∧ ∀ b, a = some b → K.mine b = true
  /-- Other transitions do not replace a region that contains `p`. -/
  outer : ∀ s e d a, K.R s = false → Does P s e (.transit d a) → (∀ b, a = some b → K.mine b = false) ∧
    ∃ q, CommonCtx P.toChart s d.st (some q) ∧
      ∀ t y, P.parent t = some q → Spec.Below P.toChart t s → P.parent y = some q → P.pos y = P.pos t → ¬ Spec.Below P.toChart y K.p
  /-- Actions of in-state reactions. -/
  act : ∀ s r b, r ∈ P.reactions s → r.kind = .inState (some b) → K.mine b = K.R s
  /-- No state terminates. -/
  live : ∀ s e, ¬ Does P s e .terminate
  /-- User code of the region. -/
  ctorIn : ∀ s, K.R s = true → Inside K (P.ctor s)
  exitIn : ∀ s, K.R s = true → Inside K (P.exit s)
  dtorIn : ∀ s, K.R s = true → Inside K (dtorOf P s)
  actIn : ∀ b, K.mine b = true → Inside K (P.action b)
  reactIn : ∀ s id e, K.R s = true → Inside K (fun v w => (P.react s id e v w).1) ∧
    ∀ v v' w w', SameIn K v v' → K.pr w = K.pr w' → (P.react s id e v w).2 = (P.react s id e v' w').2
  restIn : ∀ e, K.own e = true → Inside K (P.unconsumed e)
  /-- Other user code. -/
  ctorOut : ∀ s, K.R s = false → Outside K (P.ctor s)
  exitOut : ∀ s, K.R s = false → Outside K (P.exit s)
  dtorOut : ∀ s, K.R s = false → Outside K (dtorOf P s)
  actOut : ∀ b, K.mine b = false → Outside K (P.action b)
  reactOut : ∀ s id e, K.R s = false → Outside K (fun v w => (P.react s id e v w).1)
  restOut : ∀ e, K.own e = false → Outside K (P.unconsumed e)

/-- The region has nothing to do with the rest of the program: moreover, its states do not defer events (when a state that has deferred an event is left,
the events that other states have deferred are released, too). -/
structure Independent : Prop extends Unconnected K P where
  prompt : ∀ s e, K.R s = true → ¬ Does P s e .defer

/-- The state a call of user code belongs to. -/
def subject : Obs → Option Sid
  | .enter s | .enterFail s | .exit s | .exitFail s | .destroy s | .react s _ | .defer s => some s
  | .act _ | .unconsumed => none

/-- A call of user code of the state `x` is caused by an event of the side of `x`. -/
def Scoped (y : Option Event × Obs) : Prop := ∀ x, subject y.2 = some x → ∃ e, y.1 = some e ∧ K.own e = K.R x

/-- Calls of user code caused by events of the region. -/
def Part.sees (y : Option Event × Obs) : Bool := match y.1 with
  | none => false
  | some e => K.own e

/-! ## States that agree in the region -/

structure Agree (a b : St W) : Prop where
  act : ∀ s, K.R s = true → a.act s = b.act s
  root : a.root.isNone = b.root.isNone
  sh : ∀ k, K.key k = true → a.sh k = b.sh k
  dh : ∀ k, K.key k = true → a.dh k = b.dh k
  evq : a.evq.filter K.own = b.evq.filter K.own
  world : K.pr a.world = K.pr b.world

/-- What events of the region have caused since `x` resp. `y` is the same. -/
def Same (x y a b : List (Option Event × Obs)) : Prop := ∀ t u, a = x ++ t → b = y ++ u → t.filter K.sees = u.filter K.sees

/-- No event of the region is deferred, histories are in order, and user code has been called as it should since `x`. -/
structure Tame (C : Chart) (x : List (Option Event × Obs)) (a : St W) : Prop where
  dq : a.dq.filter K.own = []
  sh : ∀ q j s, a.sh (q, j) = some s → s < C.n ∧ C.parent s = some q ∧ C.pos s = j
  dh : ∀ q j s, a.dh (q, j) = some s → s < C.n ∧ InRegion C q j s
  scope : ∃ t, a.trace = x ++ t ∧ ∀ y ∈ t, Scoped K y

structure Rel (C : Chart) (x y : List (Option Event × Obs)) (a b : St W) : Prop where
  agree : Agree K a b
  left : Tame K C x a
  right : Tame K C y b
  trace : Same K x y a.trace b.trace

/-- Both handle an event of the region. -/
structure Pair (C : Chart) (x y : List (Option Event × Obs)) (a b : St W) : Prop extends Rel K C x y a b where
  trig : a.trig = b.trig
  ours : ∃ e, a.trig = some e ∧ K.own e = true

/-- The second one handles another event. -/
structure Lone (C : Chart) (x y : List (Option Event × Obs)) (a b : St W) : Prop where
  agree : Agree K a b
  right : Tame K C y b
  trace : Same K x y a.trace b.trace
  theirs : ∃ e, b.trig = some e ∧ K.own e = false

variable {K P}

theorem Agree.refl (a : St W) : Agree K a a := ⟨fun _ _ => rfl, rfl, fun _ _ => rfl, fun _ _ => rfl, rfl, rfl⟩
theorem Agree.symm {a b : St W} (h : Agree K a b) : Agree K b a :=
  ⟨fun s hs => (h.act s hs).symm, h.root.symm, fun k hk => (h.sh k hk).symm, fun k hk => (h.dh k hk).symm, h.evq.symm, h.world.symm⟩
theorem Agree.trans {a b c : St W} (h : Agree K a b) (h' : Agree K b c) : Agree K a c :=
  ⟨fun s hs => (h.act s hs).trans (h'.act s hs), h.root.trans h'.root, fun k hk => (h.sh k hk).trans (h'.sh k hk), fun k hk => (h.dh k hk).trans (h'.dh k hk),
    h.evq.trans h'.evq, h.world.trans h'.world⟩

variable (K) in
def Own (C : Chart) (x y : List (Option Event × Obs)) (g : St W → α × St W) : Prop :=
  ∀ a b, Pair K C x y a b → (g a).1 = (g b).1 ∧ Pair K C x y (g a).2 (g b).2

variable (K) in
def Other (C : Chart) (x y : List (Option Event × Obs)) (g : St W → α × St W) : Prop := ∀ z a, Lone K C x y z a → Lone K C x y z (g a).2

variable (K) in
abbrev Own1 (C : Chart) (x y : List (Option Event × Obs)) (g : St W → St W) : Prop := Own K C x y fun st => ((), g st)
variable (K) in
abbrev Other1 (C : Chart) (x y : List (Option Event × Obs)) (g : St W → St W) : Prop := Other K C x y fun st => ((), g st)

section
variable {C : Chart} {x y : List (Option Event × Obs)}

theorem own_pure (r : α) : Own K C x y fun st : St W => (r, st) := fun _ _ h => ⟨rfl, h⟩
theorem other_pure (r : α) : Other K C x y fun st : St W => (r, st) := fun _ _ h => h

theorem own_bind {g : St W → α × St W} {k : α → St W → β × St W} (hg : Own K C x y g) (hk : ∀ r, Own K C x y (k r)) :
    Own K C x y fun st => k (g st).1 (g st).2 := by
  intro a b h
  obtain ⟨h1, h2⟩ := hg a b h
  simp only [← h1]
  exact hk _ _ _ h2

theorem own_comp {f : St W → St W} {g : St W → β × St W} (hf : Own1 K C x y f) (hg : Own K C x y g) : Own K C x y fun st => g (f st) :=
  own_bind hf fun _ => hg

theorem own_of {X : Type} (v : St W → X) {g : X → St W → α × St W} (hv : ∀ a b, Pair K C x y a b → v a = v b) (h : ∀ a b, Pair K C x y a b → Own K C x y (g (v a))) :
    Own K C x y fun st => g (v st) st := by
  intro a b hp
  simp only [← hv a b hp]
  exact h a b hp a b hp

theorem own_ans {f : St W → St W} (h : Own1 K C x y f) (r : α) : Own K C x y fun st => (r, f st) := fun a b hp => ⟨rfl, (h a b hp).2⟩

theorem other_ans {f : St W → St W} (h : Other1 K C x y f) (r : α) : Other K C x y fun st => (r, f st) := h

theorem other_comp {f : St W → St W} {g : St W → β × St W} (hf : Other1 K C x y f) (hg : Other K C x y g) : Other K C x y fun st => g (f st) :=
  fun z a h => hg z _ (hf z a h)

/-! ## User code -/

theorem cmds_trig (cs : List Cmd) : ∀ a : St W, (cs.foldl St.cmd a).trig = a.trig := by
  induction cs with
  | nil => intro a; rfl
  | cons c cs ih => intro a; show (cs.foldl St.cmd (a.cmd c)).trig = _; rw [ih]; cases c <;> rfl

theorem tame_cmd {a : St W} (c : Cmd) (h : Tame K C x a) : Tame K C x (a.cmd c) := by
  cases c with
  | post e => exact ⟨h.dq, h.sh, h.dh, h.scope⟩
  | clearShallow k =>
    refine ⟨h.dq, ?_, h.dh, h.scope⟩
    intro q j s he
    simp only [St.cmd] at he
    split at he
    · cases he
    · exact h.sh q j s he
  | clearDeep k =>
    refine ⟨h.dq, h.sh, ?_, h.scope⟩
    intro q j s he
    simp only [St.cmd] at he
    split at he
    · cases he
    · exact h.dh q j s he

theorem tame_cmds (cs : List Cmd) : ∀ {a : St W}, Tame K C x a → Tame K C x (cs.foldl St.cmd a) := by
  induction cs with
  | nil => intro a h; exact h
  | cons c cs ih => intro a h; exact ih (tame_cmd c h)

theorem agree_cmd {a b : St W} {c : Cmd} (h : Agree K a b) : Agree K (a.cmd c) (b.cmd c) := by
  cases c with
  | post e => exact { h with evq := by simp only [St.cmd, List.filter_append, h.evq] }
  | clearShallow k => exact { h with sh := fun k' hk => by simp only [St.cmd]; split; rfl; exact h.sh k' hk }
  | clearDeep k => exact { h with dh := fun k' hk => by simp only [St.cmd]; split; rfl; exact h.dh k' hk }

theorem agree_cmds (cs : List Cmd) : ∀ {a b : St W}, Agree K a b → Agree K (cs.foldl St.cmd a) (cs.foldl St.cmd b) := by
  induction cs with
  | nil => intro a b h; exact h
  | cons c cs ih => intro a b h; exact ih (agree_cmd h)

theorem apart_cmd {a : St W} {c : Cmd} (hc : K.owns c = false) : Agree K a (a.cmd c) := by
  have h := Agree.refl (K := K) a
  cases c with
  | post e => exact { h with evq := by simp only [St.cmd, List.filter_append]; simp [show K.own e = false from hc] }
  | clearShallow k =>
    refine { h with sh := fun k' hk => ?_ }
    simp only [St.cmd]
    rw [if_neg]
    rintro rfl
    rw [show K.key k' = false from hc] at hk; cases hk
  | clearDeep k =>
    refine { h with dh := fun k' hk => ?_ }
    simp only [St.cmd]
    rw [if_neg]
    rintro rfl
    rw [show K.key k' = false from hc] at hk; cases hk

theorem apart_cmds (cs : List Cmd) : ∀ {a : St W}, (∀ c ∈ cs, K.owns c = false) → Agree K a (cs.foldl St.cmd a) := by
  induction cs with
  | nil => intro a _; exact .refl a
  | cons c cs ih => intro a h; exact (apart_cmd (h c (by simp))).trans (ih fun c hc => h c (by simp [hc]))

theorem tame_world {a : St W} (h : Tame K C x a) (w : W) : Tame K C x { a with world := w } := ⟨h.dq, h.sh, h.dh, h.scope⟩

theorem tame_log {a : St W} {o : Obs} (h : Tame K C x a) (ho : Scoped K (a.trig, o)) : Tame K C x (a.log o) := by
  refine ⟨h.dq, h.sh, h.dh, ?_⟩
  obtain ⟨t, h1, h2⟩ := h.scope
  refine ⟨t ++ [(a.trig, o)], ?_, ?_⟩
  · show a.trace ++ [(a.trig, o)] = _
    rw [h1, List.append_assoc]
  · intro z hz
    rcases List.mem_append.1 hz with hz | hz
    · exact h2 z hz
    · rw [List.mem_singleton.1 hz]; exact ho

theorem same_log {a b : St W} (h : Same K x y a.trace b.trace) (ha : Tame K C x a) (hb : Tame K C y b) (ht : a.trig = b.trig) (o : Obs) :
    Same K x y (a.log o).trace (b.log o).trace := by
  obtain ⟨t0, h1, -⟩ := ha.scope
  obtain ⟨u0, h2, -⟩ := hb.scope
  intro t u ht' hu'
  have e1 : x ++ t = x ++ (t0 ++ [(a.trig, o)]) := by rw [← ht', ← List.append_assoc, ← h1]; rfl
  have e2 : y ++ u = y ++ (u0 ++ [(b.trig, o)]) := by rw [← hu', ← List.append_assoc, ← h2]; rfl
  rw [List.append_cancel_left e1, List.append_cancel_left e2, List.filter_append, List.filter_append, h t0 u0 h1 h2, ht]

theorem same_apart {z a : St W} (h : Same K x y z.trace a.trace) (ha : Tame K C y a) {e : Event} (ht : a.trig = some e) (he : K.own e = false) (o : Obs) :
    Same K x y z.trace (a.log o).trace := by
  obtain ⟨u0, h2, -⟩ := ha.scope
  intro t u ht' hu'
  have e2 : y ++ u = y ++ (u0 ++ [(a.trig, o)]) := by rw [← hu', ← List.append_assoc, ← h2]; rfl
  rw [List.append_cancel_left e2, List.filter_append, h t u0 ht' h2, ht]
  simp [Part.sees, he]

theorem agree_log {a b : St W} (h : Agree K a b) (o : Obs) : Agree K (a.log o) (b.log o) := ⟨h.act, h.root, h.sh, h.dh, h.evq, h.world⟩

theorem apart_log (a : St W) (o : Obs) : Agree K a (a.log o) := { Agree.refl (K := K) a with }

/-- User code `f` is called and noted as `o`. -/
theorem Pair.view {a b : St W} (h : Pair K C x y a b) : SameIn K a.view b.view := by
  refine ⟨fun s hs => ?_, h.agree.root, h.trig⟩
  simp only [St.view, h.agree.act s hs]

theorem pair_user {f : View → W → UOut W} {o : Obs} (hf : Inside K f) (ho : ∀ s, subject o = some s → K.R s = true) {a b : St W} (h : Pair K C x y a b) :
    Pair K C x y (user f o a) (user f o b) := by
  obtain ⟨h1, h2, h3⟩ := hf a.view b.view a.world b.world h.view h.agree.world
  obtain ⟨e, he, hown⟩ := h.ours
  have hs : Scoped K (a.trig, o) := fun s hs => ⟨e, he, by rw [hown, ho s hs]⟩
  have ha := agree_cmds (f a.view a.world).cmds (a := { a with world := (f a.view a.world).world }) (b := { b with world := (f b.view b.world).world })
    { h.agree with world := h1 }
  unfold user
  simp only [← h2]
  refine ⟨⟨agree_log ha o, tame_log (tame_cmds _ (tame_world h.left _)) ?_, tame_log (tame_cmds _ (tame_world h.right _)) ?_, ?_⟩, ?_, ?_⟩
  · rw [cmds_trig]; exact hs
  · rw [cmds_trig]; show Scoped K (b.trig, o); rw [← h.trig]; exact hs
  · refine same_log (C := C) ?_ (tame_cmds _ (tame_world h.left _)) (tame_cmds _ (tame_world h.right _)) (by rw [cmds_trig, cmds_trig]; exact h.trig) o
    rw [AnyOrder.cmds_trace, AnyOrder.cmds_trace]
    exact h.trace
  · exact (cmds_trig _ _).trans (h.trig.trans (cmds_trig (f a.view a.world).cmds { b with world := (f b.view b.world).world }).symm)
  · exact ⟨e, (cmds_trig _ _).trans he, hown⟩

theorem lone_user {f : View → W → UOut W} {o : Obs} (hf : Outside K f) (ho : ∀ s, subject o = some s → K.R s = false) {z a : St W} (h : Lone K C x y z a) :
    Lone K C x y z (user f o a) := by
  obtain ⟨h1, h2⟩ := hf a.view a.world
  obtain ⟨e, he, hown⟩ := h.theirs
  have ha : Agree K a ({ a with world := (f a.view a.world).world } : St W) := { Agree.refl (K := K) a with world := h1.symm }
  have hb := ha.trans (apart_cmds (f a.view a.world).cmds h2)
  have ht : ((f a.view a.world).cmds.foldl St.cmd { a with world := (f a.view a.world).world }).trig = some e := by rw [cmds_trig]; exact he
  refine ⟨h.agree.trans (hb.trans (apart_log _ o)), tame_log (tame_cmds _ (tame_world h.right _)) ?_, same_apart (C := C) ?_ (tame_cmds _ (tame_world h.right _)) ht hown o, e, ht, hown⟩
  · intro s hs
    exact ⟨e, ht, by rw [hown, ho s hs]⟩
  · rw [AnyOrder.cmds_trace]
    exact h.trace

/-! ## Leaving states -/

variable (hI : Independent K P) (hwf : P.toChart.WF)

include hI in
/-- A state is in the region iff its region is. -/
theorem key_parent {s q : Sid} (hp : P.parent s = some q) : K.key (q, P.pos s) = K.R s := by
  rw [Bool.eq_iff_iff, hI.states s]
  unfold Part.key
  simp only [Bool.or_eq_true, Bool.and_eq_true, beq_iff_eq]
  rw [hI.states q]
  constructor
  · rintro (⟨y, h1, h2, h3⟩ | ⟨h1, h2⟩)
    · exact ⟨y, h1, h2, .step hp h3⟩
    · exact ⟨s, h1 ▸ hp, h2, .refl⟩
  · rintro ⟨y, h1, h2, h3⟩
    cases h3 with
    | refl => rw [hp] at h1; cases h1; exact .inr ⟨rfl, h2⟩
    | step hp' h3 => rw [hp] at hp'; cases hp'; exact .inl ⟨y, h1, h2, h3⟩

include hI in
theorem R_child {s q : Sid} (hp : P.parent s = some q) (h : K.R q = true) : K.R s = true := by
  rw [← key_parent hI hp]
  unfold Part.key
  simp [h]

include hI in
theorem R_below {s t : Sid} (hb : Spec.Below P.toChart t s) (h : K.R t = true) : K.R s = true := by
  induction hb with
  | refl => exact h
  | step hp _ ih => exact R_child hI hp ih

include hI in
theorem R_parent {s : Sid} (h : K.R s = true) : ∃ q, P.parent s = some q := by
  obtain ⟨y, h1, h2, h3⟩ := (hI.states s).1 h
  cases h3 with
  | refl => exact ⟨_, h1⟩
  | step hp _ => exact ⟨_, hp⟩

/-- The state and everything in it is outside of the region. -/
structure Off (K : Part W) (C : Chart) (s : Sid) : Prop where
  within : ∃ q, C.parent s = some q
  clear : ∀ t, K.R t = true → ¬ Spec.Below C s t

theorem Off.child {s t : Sid} (h : Off K C s) (hp : C.parent t = some s) : Off K C t :=
  ⟨⟨s, hp⟩, fun u hu hb => h.clear u hu (.trans (.step hp .refl) hb)⟩

theorem Off.below {s t : Sid} (h : Off K C s) (hb : Spec.Below C s t) : Off K C t := by
  induction hb with
  | refl => exact h
  | step hp _ ih => exact ih.child hp

theorem Off.out {s : Sid} (h : Off K C s) : K.R s = false := by
  cases hs : K.R s with
  | false => rfl
  | true => exact absurd .refl (h.clear s hs)

theorem shallow_at (s : Sid) (h : HKey → Option Sid) (k : HKey) : shallow P s h k = h k ∨ ∃ q, P.parent s = some q ∧ k = (q, P.pos s) := by
  unfold shallow
  cases hp : P.parent s with
  | none => exact .inl rfl
  | some q =>
    simp only []
    split
    · by_cases hk : k = (q, P.pos s)
      · exact .inr ⟨q, rfl, hk⟩
      · simp only [hk]; exact .inl rfl
    · exact .inl rfl

theorem shallow_congr (s : Sid) {h h' : HKey → Option Sid} {k : HKey} (he : h k = h' k) : shallow P s h k = shallow P s h' k := by
  unfold shallow
  cases P.parent s with
  | none => exact he
  | some q =>
    simp only []
    split
    · by_cases hk : k = (q, P.pos s)
      · simp only [hk]; rfl
      · simp only [hk]; exact he
    · exact he

theorem deep_at (leaf : Sid) : ∀ (f : Nat) (cur : Sid) (h : HKey → Option Sid) (k : HKey), Spec.Below P.toChart cur leaf →
    deep P leaf f cur h k = h k ∨ ∃ s q, Spec.Below P.toChart s leaf ∧ P.parent s = some q ∧ k = (q, P.pos s) ∧ deep P leaf f cur h k = some leaf := by
  intro f
  induction f with
  | zero => intro cur h k _; exact .inl rfl
  | succ f ih =>
    intro cur h k hb
    unfold deep
    cases hp : P.parent cur with
    | none => exact .inl rfl
    | some q =>
      simp only []
      rcases ih q _ k (.trans (.step hp .refl) hb) with h1 | h1
      · rw [h1]
        split
        · by_cases hk : k = (q, P.pos cur)
          · exact .inr ⟨cur, q, hb, hp, hk, by simp only [hk]; rfl⟩
          · simp only [hk]; exact .inl rfl
        · exact .inl rfl
      · exact .inr h1

theorem deep_congr (leaf : Sid) : ∀ (f : Nat) (cur : Sid) {h h' : HKey → Option Sid} {k : HKey}, h k = h' k →
    deep P leaf f cur h k = deep P leaf f cur h' k := by
  intro f
  induction f with
  | zero => intro cur h h' k he; exact he
  | succ f ih =>
    intro cur h h' k he
    unfold deep
    cases P.parent cur with
    | none => exact he
    | some q =>
      simp only []
      refine ih q ?_
      split
      · by_cases hk : k = (q, P.pos cur)
        · simp only [hk]; rfl
        · simp only [hk]; exact he
      · exact he

theorem tame_hist {a : St W} (s : Sid) (hs : s < P.n) (h : Tame K P.toChart x a) :
    Tame K P.toChart x { a with sh := shallow P s a.sh, dh := if P.isLeaf s then deep P s P.n s a.dh else a.dh } := by
  refine ⟨h.dq, ?_, ?_, h.scope⟩
  · intro q j t he
    have he : shallow P s a.sh (q, j) = some t := he
    rcases shallow_at s a.sh (q, j) with h1 | ⟨q', h1, h2⟩
    · rw [h1] at he; exact h.sh q j t he
    · cases h2
      unfold shallow at he
      rw [h1] at he
      simp only [] at he
      split at he
      · simp only [↓reduceIte] at he; cases he; exact ⟨hs, h1, rfl⟩
      · exact h.sh _ _ t he
  · intro q j t he
    have he : (if P.isLeaf s then deep P s P.n s a.dh else a.dh) (q, j) = some t := he
    split at he
    · rcases deep_at s P.n s a.dh (q, j) .refl with h1 | ⟨u, q', h1, h2, h3, h4⟩
      · rw [h1] at he; exact h.dh q j t he
      · rw [h4] at he
        cases he
        cases h3
        exact ⟨hs, u, h2, rfl, h1⟩
    · exact h.dh q j t he

theorem pair_hist {a b : St W} (s : Sid) (hs : s < P.n) (h : Pair K P.toChart x y a b) :
    Pair K P.toChart x y { a with sh := shallow P s a.sh, dh := if P.isLeaf s then deep P s P.n s a.dh else a.dh }
      { b with sh := shallow P s b.sh, dh := if P.isLeaf s then deep P s P.n s b.dh else b.dh } := by
  refine ⟨⟨{ h.agree with sh := fun k hk => shallow_congr s (h.agree.sh k hk), dh := fun k hk => ?_ }, tame_hist s hs h.left, tame_hist s hs h.right, h.trace⟩, h.trig, h.ours⟩
  show (if P.isLeaf s then deep P s P.n s a.dh else a.dh) k = (if P.isLeaf s then deep P s P.n s b.dh else b.dh) k
  split
  · exact deep_congr s _ _ (h.agree.dh k hk)
  · exact h.agree.dh k hk

include hI in
theorem lone_hist {z a : St W} (s : Sid) (hs : s < P.n) (ho : K.R s = false) (h : Lone K P.toChart x y z a) :
    Lone K P.toChart x y z { a with sh := shallow P s a.sh, dh := if P.isLeaf s then deep P s P.n s a.dh else a.dh } := by
  refine ⟨h.agree.trans { Agree.refl (K := K) a with sh := fun k hk => ?_, dh := fun k hk => ?_ }, tame_hist s hs h.right, h.trace, h.theirs⟩
  · rcases shallow_at (P := P) s a.sh k with h1 | ⟨q', h1, rfl⟩
    · exact h1.symm
    · rw [key_parent hI h1, ho] at hk; cases hk
  · show _ = (if P.isLeaf s then deep P s P.n s a.dh else a.dh) k
    split
    · rcases deep_at (P := P) s P.n s a.dh k .refl with h1 | ⟨u, q', h1, h2, rfl, _⟩
      · exact h1.symm
      · rw [key_parent hI h2] at hk
        rw [R_below hI h1 hk] at ho; cases ho
    · rfl

/-- `s` ceases to exist. -/
def gone (P : Prog W) (s : Sid) (st : St W) : St W :=
  let st := if st.defers s then { st with evq := st.dq ++ st.evq, dq := [] } else st
  { st with
    act := fun x => if x = s then false else st.act x
    defers := fun x => if x = s then false else st.defers x
    root := if P.parent s = none then none else st.root }

theorem destroy_eq (s : Sid) (st : St W) : destroy P s st = gone P s (user (dtorOf P s) (.destroy s) st) := rfl

theorem tame_gone {a : St W} (s : Sid) (h : Tame K P.toChart x a) : Tame K P.toChart x (gone P s a) := by
  unfold gone
  simp only []
  split
  · exact ⟨rfl, h.sh, h.dh, h.scope⟩
  · exact ⟨h.dq, h.sh, h.dh, h.scope⟩

theorem gone_evq {a : St W} (s : Sid) (h : Tame K P.toChart x a) : (gone P s a).evq.filter K.own = a.evq.filter K.own := by
  unfold gone
  simp only []
  split
  · simp only [List.filter_append, h.dq, List.nil_append]
  · rfl

theorem gone_same (s : Sid) (a : St W) : (gone P s a).act = (fun x => if x = s then false else a.act x) ∧
    (gone P s a).root = (if P.parent s = none then none else a.root) ∧ (gone P s a).sh = a.sh ∧ (gone P s a).dh = a.dh ∧
    (gone P s a).world = a.world ∧ (gone P s a).trace = a.trace ∧ (gone P s a).trig = a.trig := by
  unfold gone
  simp only []
  split
  · exact ⟨rfl, rfl, rfl, rfl, rfl, rfl, rfl⟩
  · exact ⟨rfl, rfl, rfl, rfl, rfl, rfl, rfl⟩

theorem pair_gone {a b : St W} (s : Sid) (h : Pair K P.toChart x y a b) : Pair K P.toChart x y (gone P s a) (gone P s b) := by
  obtain ⟨a1, a2, a3, a4, a5, a6, a7⟩ := gone_same (P := P) s a
  obtain ⟨b1, b2, b3, b4, b5, b6, b7⟩ := gone_same (P := P) s b
  refine ⟨⟨⟨?_, ?_, ?_, ?_, ?_, ?_⟩, tame_gone s h.left, tame_gone s h.right, ?_⟩, ?_, ?_⟩
  · intro t ht
    rw [a1, b1]
    simp only []
    split
    · rfl
    · exact h.agree.act t ht
  · rw [a2, b2]
    split
    · rfl
    · exact h.agree.root
  · rw [a3, b3]; exact h.agree.sh
  · rw [a4, b4]; exact h.agree.dh
  · rw [gone_evq s h.left, gone_evq s h.right]; exact h.agree.evq
  · rw [a5, b5]; exact h.agree.world
  · rw [a6, b6]; exact h.trace
  · rw [a7, b7]; exact h.trig
  · rw [a7]; exact h.ours

theorem lone_gone {z a : St W} (s : Sid) (ho : Off K P.toChart s) (h : Lone K P.toChart x y z a) : Lone K P.toChart x y z (gone P s a) := by
  obtain ⟨a1, a2, a3, a4, a5, a6, a7⟩ := gone_same (P := P) s a
  refine ⟨h.agree.trans ⟨?_, ?_, ?_, ?_, ?_, ?_⟩, tame_gone s h.right, ?_, ?_⟩
  · intro t ht
    rw [a1]
    simp only []
    split
    · next he => subst he; rw [ho.out] at ht; cases ht
    · rfl
  · obtain ⟨q, hq⟩ := ho.within
    rw [a2, hq]
    rfl
  · intro k _; rw [a3]
  · intro k _; rw [a4]
  · rw [gone_evq s h.right]
  · rw [a5]
  · rw [a6]; exact h.trace
  · rw [a7]; exact h.theirs

theorem pair_leaves {a b : St W} (l l' : List Sid) (h : Pair K C x y a b) : Pair K C x y { a with leaves := l } { b with leaves := l' } :=
  ⟨⟨⟨h.agree.act, h.agree.root, h.agree.sh, h.agree.dh, h.agree.evq, h.agree.world⟩, ⟨h.left.dq, h.left.sh, h.left.dh, h.left.scope⟩,
    ⟨h.right.dq, h.right.sh, h.right.dh, h.right.scope⟩, h.trace⟩, h.trig, h.ours⟩

theorem lone_leaves {z a : St W} (l : List Sid) (h : Lone K C x y z a) : Lone K C x y z { a with leaves := l } :=
  ⟨⟨h.agree.act, h.agree.root, h.agree.sh, h.agree.dh, h.agree.evq, h.agree.world⟩,
    ⟨h.right.dq, h.right.sh, h.right.dh, h.right.scope⟩, h.trace, h.theirs⟩

include hI

theorem own_exitOne (s : Sid) (hs : s < P.n) (hr : K.R s = true) : Own1 K P.toChart x y (exitOne P s) := by
  intro a b h
  refine ⟨rfl, ?_⟩
  have h1 := pair_user (o := .exit s) (hI.exitIn s hr) (fun t ht => by cases ht; exact hr) (pair_leaves (Ref.leave a.leaves s) (Ref.leave b.leaves s) h)
  have h2 := pair_hist s hs h1
  exact pair_gone s (pair_user (o := .destroy s) (hI.dtorIn s hr) (fun t ht => by cases ht; exact hr) h2)

theorem other_exitOne (s : Sid) (hs : s < P.n) (ho : Off K P.toChart s) : Other1 K P.toChart x y (exitOne P s) := by
  intro z a h
  have h1 := lone_user (o := .exit s) (hI.exitOut s ho.out) (fun t ht => by cases ht; exact ho.out) (lone_leaves (Ref.leave a.leaves s) h)
  have h2 := lone_hist hI s hs ho.out h1
  exact lone_gone s ho (lone_user (o := .destroy s) (hI.dtorOut s ho.out) (fun t ht => by cases ht; exact ho.out) h2)

theorem own_exitAll (l : List Sid) : (∀ s ∈ l, s < P.n ∧ K.R s = true) → Own1 K P.toChart x y (exitAll P l) := by
  induction l with
  | nil => intro _; exact own_pure ()
  | cons s l ih =>
    intro h
    exact own_comp (f := exitOne P s) (g := fun st => ((), exitAll P l st)) (own_exitOne hI s (h s (by simp)).1 (h s (by simp)).2) (ih fun t ht => h t (by simp [ht]))

theorem other_exitAll (l : List Sid) : (∀ s ∈ l, s < P.n ∧ Off K P.toChart s) → Other1 K P.toChart x y (exitAll P l) := by
  induction l with
  | nil => intro _; exact other_pure ()
  | cons s l ih =>
    intro h
    exact other_comp (f := exitOne P s) (g := fun st => ((), exitAll P l st)) (other_exitOne hI s (h s (by simp)).1 (h s (by simp)).2) (ih fun t ht => h t (by simp [ht]))

omit hI in
theorem exitOrderF_bound {act : Sid → Bool} : ∀ (f : Nat) (s x : Sid), s < C.n → x ∈ exitOrderF C act f s → x < C.n := by
  intro f
  induction f with
  | zero => intro s x _ hx; simp [exitOrderF] at hx
  | succ f ih =>
    intro s x hs hx
    rw [exitOrderF] at hx
    simp only [List.mem_append, List.mem_flatMap, List.mem_singleton] at hx
    rcases hx with ⟨i, _, hx⟩ | rfl
    · cases hc : childAt C act s i with
      | none => rw [hc] at hx; simp at hx
      | some c =>
        rw [hc] at hx
        exact ih c x (childAt_some hc).1 hx
    · exact hs

theorem own_exits {t : Sid} (ht : t < P.n) (hr : K.R t = true) (F : List Sid → List Sid) (hF : ∀ l, ∀ s ∈ F l, s ∈ l) :
    Own1 K P.toChart x y fun st => exitAll P (F (exitOrder P.toChart st.act t)) st := by
  refine own_of (fun st => exitOrder P.toChart st.act t) (g := fun l st => ((), exitAll P (F l) st)) ?_ ?_
  · intro a b h
    exact exitOrderF_congr _ _ fun s hs => h.agree.act s (R_below hI hs hr)
  · intro a b _
    refine own_exitAll hI _ fun s hs => ?_
    have hm := hF _ s hs
    exact ⟨exitOrderF_bound _ _ _ ht hm, R_below hI (exitOrderF_below _ _ _ hm).1 hr⟩

theorem other_exits {t : Sid} (ht : t < P.n) (ho : Off K P.toChart t) (F : List Sid → List Sid) (hF : ∀ l, ∀ s ∈ F l, s ∈ l) :
    Other1 K P.toChart x y fun st => exitAll P (F (exitOrder P.toChart st.act t)) st := by
  intro z a h
  refine other_exitAll hI _ (fun s hs => ?_) z a h
  have hm := hF _ s hs
  exact ⟨exitOrderF_bound _ _ _ ht hm, ho.below (exitOrderF_below _ _ _ hm).1⟩

theorem own_leaveTree {t : Sid} (ht : t < P.n) (hr : K.R t = true) : Own1 K P.toChart x y (leaveTree P t) := own_exits hI ht hr id fun _ _ h => h
theorem own_leaveInside {t : Sid} (ht : t < P.n) (hr : K.R t = true) : Own1 K P.toChart x y (leaveInside P t) :=
  own_exits hI ht hr List.dropLast fun _ _ h => List.dropLast_subset _ h
theorem other_leaveTree {t : Sid} (ht : t < P.n) (ho : Off K P.toChart t) : Other1 K P.toChart x y (leaveTree P t) := other_exits hI ht ho id fun _ _ h => h
theorem other_leaveInside {t : Sid} (ht : t < P.n) (ho : Off K P.toChart t) : Other1 K P.toChart x y (leaveInside P t) :=
  other_exits hI ht ho List.dropLast fun _ _ h => List.dropLast_subset _ h

/-! ## Entering states -/

omit hI in
theorem attach_same {s q : Sid} (hp : P.parent s = some q) (st : St W) : attach P s st = st := by
  unfold attach
  rw [hp]
  rfl

omit hI in
theorem enter_eq {s q : Sid} (hp : P.parent s = some q) (st : St W) : enter P s st =
    { user (P.ctor s) (.enter s) { st with act := fun x => if x = s then true else st.act x, defers := fun x => if x = s then false else st.defers x } with
      leaves := if P.isLeaf s then (user (P.ctor s) (.enter s) { st with act := fun x => if x = s then true else st.act x, defers := fun x => if x = s then false else st.defers x }).leaves ++ [s]
        else (user (P.ctor s) (.enter s) { st with act := fun x => if x = s then true else st.act x, defers := fun x => if x = s then false else st.defers x }).leaves } := by
  unfold enter
  simp only [attach_same hp, ite_self]

theorem own_enter (s : Sid) (hr : K.R s = true) : Own1 K P.toChart x y (enter P s) := by
  intro a b h
  refine ⟨rfl, ?_⟩
  obtain ⟨q, hq⟩ := R_parent hI hr
  simp only [enter_eq hq]
  refine pair_leaves _ _ (pair_user (o := .enter s) (hI.ctorIn s hr) (fun t ht => by cases ht; exact hr) ?_)
  refine ⟨⟨{ h.agree with act := fun t ht => ?_ }, ⟨h.left.dq, h.left.sh, h.left.dh, h.left.scope⟩, ⟨h.right.dq, h.right.sh, h.right.dh, h.right.scope⟩, h.trace⟩, h.trig, h.ours⟩
  simp only []
  split
  · rfl
  · exact h.agree.act t ht

theorem other_enter (s : Sid) (ho : Off K P.toChart s) : Other1 K P.toChart x y (enter P s) := by
  intro z a h
  obtain ⟨q, hq⟩ := ho.within
  simp only [enter_eq hq]
  refine lone_leaves _ (lone_user (o := .enter s) (hI.ctorOut s ho.out) (fun t ht => by cases ht; exact ho.out) ?_)
  refine ⟨h.agree.trans { Agree.refl (K := K) a with act := fun t ht => ?_ }, ⟨h.right.dq, h.right.sh, h.right.dh, h.right.scope⟩, h.trace, h.theirs⟩
  simp only []
  split
  · next he => subst he; rw [ho.out] at ht; cases ht
  · rfl

/-- All states that the job may enter satisfy `G`. -/
def JobOK (C : Chart) (G : Sid → Prop) : Ref.Job → Prop
  | .deep s => s < C.n ∧ G s
  | .target t => t.st < C.n ∧ ∀ s, C.parent s = C.parent t.st → C.pos s = C.pos t.st → G s
  | .chain cs d => d.st < C.n ∧ ∃ c, Chart.Path C c cs d.st ∧ ∀ s, C.parent s = c → C.pos s = C.pos (cs.headD d.st) → G s
  | .inners l => ∀ t ∈ l, t.st < C.n ∧ ∀ s, C.parent s = C.parent t.st → C.pos s = C.pos t.st → G s

section
variable {G : Sid → Prop} (hG : ∀ s t, G s → P.parent t = some s → G t)
include hwf

omit hI in
include hG in
theorem job_init {s : Sid} (hs : s < P.n) (h : G s) (l : List Target) (hl : ∀ t ∈ l, t ∈ P.init s) : JobOK P.toChart G (.inners l) := by
  intro t ht
  obtain ⟨j, hj⟩ := List.getElem?_of_mem (hl t ht)
  obtain ⟨h1, h2, h3⟩ := hwf.init_ok hs hj
  refine ⟨h1, fun u hu _ => hG s u h ?_⟩
  rw [hu]; exact h2

omit hI in
theorem job_recalled {t : Target} {a : St W} (h : JobOK P.toChart G (.target t)) (ha : Tame K P.toChart x a) : JobOK P.toChart G (recalled P t a) := by
  obtain ⟨h1, h2⟩ := h
  unfold recalled
  cases hp : P.parent t.st with
  | none => exact ⟨h1, h2 _ rfl rfl⟩
  | some q =>
    simp only []
    cases hk : t.kind with
    | plain => exact ⟨h1, h2 _ rfl rfl⟩
    | shallow =>
      cases hs : a.sh (q, P.pos t.st) with
      | none => exact ⟨h1, h2 _ rfl rfl⟩
      | some s =>
        obtain ⟨k1, k2, k3⟩ := ha.sh _ _ _ hs
        exact ⟨k1, h2 s (k2.trans hp.symm) k3⟩
    | deep =>
      cases hs : a.dh (q, P.pos t.st) with
      | none => exact ⟨h1, h2 _ rfl rfl⟩
      | some l =>
        obtain ⟨k1, u, k2, k3, k4⟩ := ha.dh _ _ _ hs
        have ho : Outer P.toChart q l := by
          rcases k4.eq_or_outer with rfl | ⟨v, hv, hb⟩
          · exact ⟨q, k2, .refl⟩
          · exact ⟨v, hv, .trans (.step k2 .refl) hb⟩
        have hpath := Chart.pathBelow_path hwf k1 ((Chart.mem_ctxList hwf k1).2 (.inr ⟨q, rfl, ho⟩))
        refine ⟨k1, some q, hpath, ?_⟩
        have : (P.pathBelow (some q) l).headD l = u := hpath.head_below.sibling hwf k1 k4 (hpath.head.trans k2.symm)
        intro s hs1 hs2
        refine h2 s (hs1.trans hp.symm) (hs2.trans ?_)
        show P.pos ((P.pathBelow (some q) l).headD l) = _
        rw [this]; exact k3

omit hI in
include hG in
theorem job_chain {v : Sid} {cs : List Sid} {d : Target} (h : JobOK P.toChart G (.chain (v :: cs) d)) :
    v < P.n ∧ G v ∧ JobOK P.toChart G (.chain cs d) := by
  obtain ⟨h1, c, h2, h3⟩ := h
  have hv : v < P.n := (h2.head_mem v (by simp)).bound hwf h1
  cases h2 with
  | cons hp hpath =>
    have hgv := h3 v hp rfl
    exact ⟨hv, hgv, h1, some v, hpath, fun u hu _ => hG v u hgv hu⟩

omit hI hwf in
theorem job_last {d : Target} (h : JobOK P.toChart G (.chain [] d)) : JobOK P.toChart G (.target d) := by
  obtain ⟨h1, c, h2, h3⟩ := h
  cases h2 with
  | nil hp => exact ⟨h1, fun u hu hv => h3 u (hu.trans hp) hv⟩

end

include hwf

theorem own_build (f : Nat) : ∀ j : Ref.Job, JobOK P.toChart (fun s => K.R s = true) j → Own1 K P.toChart x y (Calm.build P f j) := by
  have hG : ∀ s t, K.R s = true → P.parent t = some s → K.R t = true := fun s t h hp => R_child hI hp h
  induction f with
  | zero => intro j _; exact own_pure ()
  | succ f ih =>
    intro j hj
    cases j with
    | deep s =>
      exact own_comp (f := enter P s) (g := fun st => ((), Calm.build P f (.inners (P.init s)) st)) (own_enter hI s hj.2) (ih _ (job_init hwf hG hj.1 hj.2 _ fun _ h => h))
    | inners l =>
      cases l with
      | nil => exact own_pure ()
      | cons t ts =>
        exact own_comp (f := Calm.build P f (.target t)) (g := fun st => ((), Calm.build P f (.inners ts) st)) (ih _ (hj t (by simp)))
          (ih _ fun u hu => hj u (by simp [hu]))
    | target t =>
      refine own_of (fun st => recalled P t st) (g := fun j st => ((), Calm.build P f j st)) ?_ fun a b h => ih _ (job_recalled hwf hj h.left)
      intro a b h
      unfold recalled
      cases hp : P.parent t.st with
      | none => rfl
      | some q =>
        have hk : K.key (q, P.pos t.st) = true := by rw [key_parent hI hp]; exact hj.2 _ rfl rfl
        simp only [h.agree.sh _ hk, h.agree.dh _ hk]
    | chain l d =>
      cases l with
      | nil => exact ih _ (job_last hj)
      | cons v cs =>
        obtain ⟨h1, h2, h3⟩ := job_chain hwf hG hj
        exact own_comp (f := enter P v) (g := fun st => ((), Calm.build P f (.inners ((P.init v).drop (P.pos (cs.headD d.st) + 1)))
            (Calm.build P f (.chain cs d) (Calm.build P f (.inners ((P.init v).take (P.pos (cs.headD d.st)))) st)))) (own_enter hI v h2)
          (own_comp (f := Calm.build P f (.inners ((P.init v).take (P.pos (cs.headD d.st)))))
            (g := fun st => ((), Calm.build P f (.inners ((P.init v).drop (P.pos (cs.headD d.st) + 1))) (Calm.build P f (.chain cs d) st)))
            (ih _ (job_init hwf hG h1 h2 _ fun _ h => List.mem_of_mem_take h))
            (own_comp (f := Calm.build P f (.chain cs d)) (g := fun st => ((), Calm.build P f (.inners ((P.init v).drop (P.pos (cs.headD d.st) + 1))) st))
              (ih _ h3) (ih _ (job_init hwf hG h1 h2 _ fun _ h => List.mem_of_mem_drop h))))

theorem other_build (f : Nat) : ∀ j : Ref.Job, JobOK P.toChart (Off K P.toChart) j → Other1 K P.toChart x y (Calm.build P f j) := by
  have hG : ∀ s t, Off K P.toChart s → P.parent t = some s → Off K P.toChart t := fun s t h hp => h.child hp
  induction f with
  | zero => intro j _; exact other_pure ()
  | succ f ih =>
    intro j hj
    cases j with
    | deep s =>
      exact other_comp (f := enter P s) (g := fun st => ((), Calm.build P f (.inners (P.init s)) st)) (other_enter hI s hj.2) (ih _ (job_init hwf hG hj.1 hj.2 _ fun _ h => h))
    | inners l =>
      cases l with
      | nil => exact other_pure ()
      | cons t ts =>
        exact other_comp (f := Calm.build P f (.target t)) (g := fun st => ((), Calm.build P f (.inners ts) st)) (ih _ (hj t (by simp)))
          (ih _ fun u hu => hj u (by simp [hu]))
    | target t => exact fun z a h => ih _ (job_recalled hwf hj h.right) z a h
    | chain l d =>
      cases l with
      | nil => exact ih _ (job_last hj)
      | cons v cs =>
        obtain ⟨h1, h2, h3⟩ := job_chain hwf hG hj
        exact other_comp (f := enter P v) (g := fun st => ((), Calm.build P f (.inners ((P.init v).drop (P.pos (cs.headD d.st) + 1)))
            (Calm.build P f (.chain cs d) (Calm.build P f (.inners ((P.init v).take (P.pos (cs.headD d.st)))) st)))) (other_enter hI v h2)
          (other_comp (f := Calm.build P f (.inners ((P.init v).take (P.pos (cs.headD d.st)))))
            (g := fun st => ((), Calm.build P f (.inners ((P.init v).drop (P.pos (cs.headD d.st) + 1))) (Calm.build P f (.chain cs d) st)))
            (ih _ (job_init hwf hG h1 h2 _ fun _ h => List.mem_of_mem_take h))
            (other_comp (f := Calm.build P f (.chain cs d)) (g := fun st => ((), Calm.build P f (.inners ((P.init v).drop (P.pos (cs.headD d.st) + 1))) st))
              (ih _ h3) (ih _ (job_init hwf hG h1 h2 _ fun _ h => List.mem_of_mem_drop h))))

/-! ## Reactions -/

omit hwf in
theorem own_action {act : Option Nat} (h : ∀ b, act = some b → K.mine b = true) : Own1 K P.toChart x y (Calm.action P act) := by
  cases act with
  | none => exact own_pure ()
  | some b => exact fun a c hp => ⟨rfl, pair_user (o := .act b) (hI.actIn b (h b rfl)) (fun t ht => by cases ht) hp⟩

omit hwf in
theorem other_action {act : Option Nat} (h : ∀ b, act = some b → K.mine b = false) : Other1 K P.toChart x y (Calm.action P act) := by
  cases act with
  | none => exact other_pure ()
  | some b => exact fun z a hp => lone_user (o := .act b) (hI.actOut b (h b rfl)) (fun t ht => by cases ht) hp

omit hI in
/-- With relaxed transition context, an action of an inner state belongs to a state inside the one that is left. -/
theorem action_inside {s t r : Sid} {c : Option Sid} {a : Option Nat} (hs : s < P.n) (hc : c ∈ P.ctxList s) (htp : P.parent t = c) (htb : Spec.Below P.toChart t s)
    (hq : P.ctxOf a ∈ P.actionCtxs s) (hi : (P.actionCtxs s).idxOf (P.ctxOf a) ≤ (P.ctxList s).idxOf c) (hr : P.ctxOf a = some r) : Spec.Below P.toChart t r ∧ r < P.n := by
  obtain ⟨r', t', hr1, hr2, hr3, hr4⟩ := ctx_inside hwf s hs hc _ hi
  have htt : t' = t := (hr4.trans hr2).sibling hwf hs htb (by rw [hr3, htp])
  subst htt
  have hql := List.idxOf_lt_length_of_mem hq
  rw [List.getElem?_eq_getElem hql, List.getElem_idxOf hql, hr] at hr1
  cases hr1
  exact ⟨hr4, hr2.bound hwf hs⟩

theorem own_leaveAndAct {s t : Sid} {c : Option Sid} {a : Option Nat} (hs : s < P.n) (hc : c ∈ P.ctxList s) (htp : P.parent t = c) (htb : Spec.Below P.toChart t s)
    (hq : P.relaxed = true → P.ctxOf a ∈ P.actionCtxs s) (hr : K.R t = true) (ha : ∀ b, a = some b → K.mine b = true) :
    Own1 K P.toChart x y (leaveAndAct P s t c a) := by
  have ht := htb.bound hwf hs
  unfold leaveAndAct
  simp only []
  split
  · next hcond =>
    cases hctx : P.ctxOf a with
    | none => exact own_pure ()
    | some r =>
      obtain ⟨h1, h2⟩ := action_inside hwf hs hc htp htb (hq hcond.1) hcond.2 hctx
      exact own_comp (f := leaveInside P r) (g := fun st => ((), leaveTree P t (Calm.action P a st))) (own_leaveInside hI h2 (R_below hI h1 hr))
        (own_comp (f := Calm.action P a) (g := fun st => ((), leaveTree P t st)) (own_action hI ha) (own_leaveTree hI ht hr))
  · exact own_comp (f := leaveTree P t) (g := fun st => ((), Calm.action P a st)) (own_leaveTree hI ht hr) (own_action hI ha)

theorem other_leaveAndAct {s t : Sid} {c : Option Sid} {a : Option Nat} (hs : s < P.n) (hc : c ∈ P.ctxList s) (htp : P.parent t = c) (htb : Spec.Below P.toChart t s)
    (hq : P.relaxed = true → P.ctxOf a ∈ P.actionCtxs s) (ho : Off K P.toChart t) (ha : ∀ b, a = some b → K.mine b = false) :
    Other1 K P.toChart x y (leaveAndAct P s t c a) := by
  have ht := htb.bound hwf hs
  unfold leaveAndAct
  simp only []
  split
  · next hcond =>
    cases hctx : P.ctxOf a with
    | none => exact other_pure ()
    | some r =>
      obtain ⟨h1, h2⟩ := action_inside hwf hs hc htp htb (hq hcond.1) hcond.2 hctx
      exact other_comp (f := leaveInside P r) (g := fun st => ((), leaveTree P t (Calm.action P a st))) (other_leaveInside hI h2 (ho.below h1))
        (other_comp (f := Calm.action P a) (g := fun st => ((), leaveTree P t st)) (other_action hI ha) (other_leaveTree hI ht ho))
  · exact other_comp (f := leaveTree P t) (g := fun st => ((), Calm.action P a st)) (other_leaveTree hI ht ho) (other_action hI ha)

theorem own_transit {s : Sid} {d : Target} {a : Option Nat} (hok : P.transitOK s d a = true) (hr : K.R s = true) (hd : K.R d.st = true)
    (ha : ∀ b, a = some b → K.mine b = true) : Own1 K P.toChart x y (Calm.transit P s d a) := by
  obtain ⟨hs, htg, t, ht, hpos⟩ := Chart.transitOK_spec hok
  obtain ⟨t', ht', htp, htb⟩ := Chart.termState_spec hwf hs htg.bound
  rw [ht] at ht'; cases ht'
  obtain ⟨hc1, hc2, _⟩ := Chart.commonCtx_spec hwf hs htg.bound
  have hcom := commonCtx_common hwf hs htg.bound
  have hpath := Chart.pathBelow_path hwf htg.bound hc2
  have hout : ∀ u, K.R u = true → Outer P.toChart K.p u := by
    intro u hu
    obtain ⟨v, h1, _, h3⟩ := (hI.states u).1 hu
    exact (show Outer P.toChart K.p v from ⟨_, h1, .refl⟩).trans_below h3
  obtain ⟨q, hq, hpq⟩ := hcom.inner K.p (hout s hr) (hout d.st hd)
  rw [hq] at htp
  have hRt : K.R t = true := by
    obtain ⟨v, h1, h2, h3⟩ := (hI.states s).1 hr
    have hv : K.R v = true := (hI.states v).2 ⟨v, h1, h2, .refl⟩
    rcases hpq.child with rfl | ⟨u, hu1, hu2⟩
    · have : t = v := htb.sibling hwf hs h3 (htp.trans h1.symm)
      rw [this]; exact hv
    · have hus : Spec.Below P.toChart u s := hu2.trans (.trans (.step htp .refl) htb)
      have : u = v := hus.sibling hwf hs h3 (hu1.trans h1.symm)
      exact R_child hI htp (R_below hI hu2 (this ▸ hv))
  unfold Calm.transit
  simp only [ht]
  refine own_comp (f := leaveAndAct P s t (P.commonCtx s d.st) a)
    (g := fun st => ((), Calm.build P (Ref.depth P) (.chain (P.pathBelow (P.commonCtx s d.st) d.st) d) st)) ?_ ?_
  · exact own_leaveAndAct hI hwf hs hc1 (by rw [hq]; exact htp) htb (fun hrel => by rw [Chart.ctxOf_eq]; exact Chart.transitOK_ctx hok hrel) hRt ha
  · refine own_build hI hwf _ _ ⟨htg.bound, _, hpath, fun u hu1 hu2 => ?_⟩
    rw [hq] at hu1
    rw [← key_parent hI hu1, hu2]
    have : P.pos t = P.pos ((P.pathBelow (P.commonCtx s d.st) d.st).headD d.st) := hpos
    rw [← this, key_parent hI htp]
    exact hRt

theorem other_transit {s : Sid} {d : Target} {a : Option Nat} (hok : P.transitOK s d a = true) (hr : K.R s = false) {e : Event} (hdo : Does P s e (.transit d a)) :
    Other1 K P.toChart x y (Calm.transit P s d a) := by
  obtain ⟨ha, q, hq, hp⟩ := hI.outer s e d a hr hdo
  obtain ⟨hs, htg, t, ht, hpos⟩ := Chart.transitOK_spec hok
  obtain ⟨t', ht', htp, htb⟩ := Chart.termState_spec hwf hs htg.bound
  rw [ht] at ht'; cases ht'
  obtain ⟨hc1, hc2, _⟩ := Chart.commonCtx_spec hwf hs htg.bound
  have hpath := Chart.pathBelow_path hwf htg.bound hc2
  have hcq : P.commonCtx s d.st = some q := CommonCtx.unique hwf hs (commonCtx_common hwf hs htg.bound) hq
  rw [hcq] at htp
  have hRt : K.R t = false := by
    cases h : K.R t with
    | false => rfl
    | true => rw [R_below hI htb h] at hr; cases hr
  have hoff : ∀ u, P.parent u = some q → P.pos u = P.pos t → Off K P.toChart u := by
    intro u hu1 hu2
    have hRu : K.R u = false := by rw [← key_parent hI hu1, hu2, key_parent hI htp]; exact hRt
    refine ⟨⟨q, hu1⟩, fun v hv hb => ?_⟩
    obtain ⟨c0, h1, h2, h3⟩ := (hI.states v).1 hv
    have hc0 : K.R c0 = true := (hI.states c0).2 ⟨c0, h1, h2, .refl⟩
    rcases hb.linear h3 with h4 | h4
    · cases h4 with
      | refl => rw [hc0] at hRu; cases hRu
      | step hp' h4 => rw [h1] at hp'; cases hp'; exact hp t u htp htb hu1 hu2 h4
    · rw [R_below hI h4 hc0] at hRu; cases hRu
  unfold Calm.transit
  simp only [ht]
  refine other_comp (f := leaveAndAct P s t (P.commonCtx s d.st) a)
    (g := fun st => ((), Calm.build P (Ref.depth P) (.chain (P.pathBelow (P.commonCtx s d.st) d.st) d) st)) ?_ ?_
  · exact other_leaveAndAct hI hwf hs hc1 (by rw [hcq]; exact htp) htb (fun hrel => by rw [Chart.ctxOf_eq]; exact Chart.transitOK_ctx hok hrel) (hoff t htp rfl) ha
  · refine other_build hI hwf _ _ ⟨htg.bound, _, hpath, fun u hu1 hu2 => ?_⟩
    rw [hcq] at hu1
    exact hoff u hu1 (hu2.trans hpos.symm)

variable (hok : Contract P)
include hok

theorem own_custom {s : Sid} {id : Nat} {e : Event} {r : Reaction} (hr : K.R s = true) (h1 : r ∈ P.reactions s) (h2 : r.ev = none ∨ r.ev = some e.ty)
    (h3 : r.kind = .custom id) : Own K P.toChart x y (custom P s id e) := by
  have hu : Own1 K P.toChart x y (user (fun v w => (P.react s id e v w).1) (.react s id)) :=
    fun a b hp => ⟨rfl, pair_user (o := .react s id) (hI.reactIn s id e hr).1 (fun t ht => by cases ht; exact hr) hp⟩
  refine own_of (α := Ref.Answer) (fun st => (P.react s id e st.view st.world).2) (g := fun d st =>
    match d with
    | .discard => (.discard, user (fun v w => (P.react s id e v w).1) (.react s id) st)
    | .forward => (.forward, user (fun v w => (P.react s id e v w).1) (.react s id) st)
    | .defer => (.defer, defer s (user (fun v w => (P.react s id e v w).1) (.react s id) st))
    | .transit d a => (.discard, Calm.transit P s d a (user (fun v w => (P.react s id e v w).1) (.react s id) st))
    | .terminate => (.discard, Calm.terminateState P s (user (fun v w => (P.react s id e v w).1) (.react s id) st)))
    (fun a b hp => (hI.reactIn s id e hr).2 _ _ _ _ hp.view hp.agree.world) ?_
  intro a b _
  have hd : Does P s e (P.react s id e a.view a.world).2 := Does.custom h1 h2 h3
  have ht := hok.react s id e a.view a.world
  generalize (P.react s id e a.view a.world).2 = d at hd ht
  cases d with
  | discard => exact own_ans hu _
  | forward => exact own_ans hu _
  | defer => exact absurd hd (hI.prompt s e hr)
  | terminate => exact absurd hd (hI.live s e)
  | transit d act =>
    obtain ⟨k1, k2⟩ := hI.inner s e d act hr hd
    exact own_comp (f := user (fun v w => (P.react s id e v w).1) (.react s id)) (g := fun st => (Ref.Answer.discard, Calm.transit P s d act st)) hu
      (own_ans (own_transit hI hwf (ht d act rfl) hr k1 k2) _)

theorem own_local {s : Sid} {e : Event} (hs : s < P.n) (he : K.own e = true) : Own K P.toChart x y (local' P s e) := by
  unfold local'
  cases hf : (P.reactions s).find? (fun r => decide (r.ev = none ∨ r.ev = some e.ty)) with
  | none => exact own_pure _
  | some r =>
    have h1 := List.mem_of_find?_eq_some hf
    have h2 : r.ev = none ∨ r.ev = some e.ty := by
      have := List.find?_some hf
      exact of_decide_eq_true this
    have hr : K.R s = true := by rw [← hI.events e s ⟨r, h1, h2⟩]; exact he
    simp only []
    cases hk : r.kind with
    | transition d act =>
      obtain ⟨k1, k2⟩ := hI.inner s e d act hr (.transition h1 h2 hk)
      exact own_ans (own_transit hI hwf (hwf.trans_ok hs h1 hk) hr k1 k2) _
    | inState act => exact own_ans (own_action hI fun b hb => by subst hb; rw [hI.act s r b h1 hk]; exact hr) _
    | termination => exact absurd (.termination h1 h2 hk) (hI.live s e)
    | deferral => exact absurd (.deferral h1 h2 hk) (hI.prompt s e hr)
    | custom id => exact own_custom hI hwf hok hr h1 h2 hk

omit hI hwf hok in
theorem own_next {g k : St W → Ref.Answer × St W} (hg : Own K P.toChart x y g) (hk : Own K P.toChart x y k) :
    Own K P.toChart x y fun st => if (g st).1 = .forward then k (g st).2 else g st :=
  own_bind (k := fun r st => if r = .forward then k st else (r, st)) hg fun r => by
    by_cases h : r = .forward
    · simp only [h, ↓reduceIte]; exact hk
    · simp only [h, ↓reduceIte]; exact own_pure r

theorem own_offer {e : Event} (he : K.own e = true) (l : List Sid) : (∀ s ∈ l, s < P.n) → Own K P.toChart x y (offer P e l) := by
  induction l with
  | nil => intro _; exact own_pure _
  | cons s l ih => intro h; exact own_next (own_local hI hwf hok (h s (by simp)) he) (ih fun t ht => h t (by simp [ht]))

omit hI hok in
theorem chain_bound {s : Sid} (hs : s < P.n) : ∀ t ∈ s :: P.ancestors s, t < P.n := by
  intro t ht
  rcases List.mem_cons.1 ht with rfl | ht
  · exact hs
  · exact Nat.lt_trans (((Chart.mem_ancestors hwf hs).1 ht).lt hwf hs) hs

theorem own_ask {e : Event} (he : K.own e = true) (l : List Sid) : (∀ s ∈ l, s < P.n) → Own K P.toChart x y (ask P e l) := by
  induction l with
  | nil => intro _; exact own_pure _
  | cons s l ih => intro h; exact own_next (own_offer hI hwf hok he _ (chain_bound hwf (h s (by simp)))) (ih fun t ht => h t (by simp [ht]))

/-! Other events. -/

omit hI hwf hok in
theorem lone_defer {z a : St W} {s : Sid} (hr : K.R s = false) (h : Lone K P.toChart x y z a) : Lone K P.toChart x y z (defer s a) := by
  obtain ⟨e, he, hown⟩ := h.theirs
  have ht : Tame K P.toChart y ({ a with defers := fun x => if x = s then true else a.defers x } : St W) := ⟨h.right.dq, h.right.sh, h.right.dh, h.right.scope⟩
  refine ⟨h.agree.trans ((show Agree K a ({ a with defers := fun x => if x = s then true else a.defers x } : St W) from { Agree.refl (K := K) a with }).trans (apart_log _ _)),
    tame_log ht ?_, same_apart (a := { a with defers := fun x => if x = s then true else a.defers x }) h.trace ht he hown _, e, he, hown⟩
  intro t hts
  cases hts
  exact ⟨e, he, by rw [hown, hr]⟩

theorem other_custom {s : Sid} {id : Nat} {e : Event} {r : Reaction} (hr : K.R s = false) (h1 : r ∈ P.reactions s) (h2 : r.ev = none ∨ r.ev = some e.ty)
    (h3 : r.kind = .custom id) : Other K P.toChart x y (custom P s id e) := by
  intro z a h
  have hu := lone_user (o := .react s id) (hI.reactOut s id e hr) (fun t ht => by cases ht; exact hr) h
  have hd : Does P s e (P.react s id e a.view a.world).2 := Does.custom h1 h2 h3
  have ht := hok.react s id e a.view a.world
  unfold custom
  simp only []
  generalize (P.react s id e a.view a.world).2 = d at hd ht
  cases d with
  | discard => exact hu
  | forward => exact hu
  | defer => exact lone_defer hr hu
  | terminate => exact absurd hd (hI.live s e)
  | transit d act => exact other_transit hI hwf (ht d act rfl) hr hd z _ hu

theorem other_local {s : Sid} {e : Event} (hs : s < P.n) (he : K.own e = false) : Other K P.toChart x y (local' P s e) := by
  unfold local'
  cases hf : (P.reactions s).find? (fun r => decide (r.ev = none ∨ r.ev = some e.ty)) with
  | none => exact other_pure _
  | some r =>
    have h1 := List.mem_of_find?_eq_some hf
    have h2 : r.ev = none ∨ r.ev = some e.ty := by
      have := List.find?_some hf
      exact of_decide_eq_true this
    have hr : K.R s = false := by rw [← hI.events e s ⟨r, h1, h2⟩]; exact he
    simp only []
    cases hk : r.kind with
    | transition d act => exact other_ans (other_transit hI hwf (hwf.trans_ok hs h1 hk) hr (.transition h1 h2 hk)) _
    | inState act => exact other_ans (other_action hI fun b hb => by subst hb; rw [hI.act s r b h1 hk]; exact hr) _
    | termination => exact absurd (.termination h1 h2 hk) (hI.live s e)
    | deferral => exact fun z a h => lone_defer hr h
    | custom id => exact other_custom hI hwf hok hr h1 h2 hk

omit hI hwf hok in
theorem other_next {g k : St W → Ref.Answer × St W} (hg : Other K P.toChart x y g) (hk : Other K P.toChart x y k) :
    Other K P.toChart x y fun st => if (g st).1 = .forward then k (g st).2 else g st := by
  intro z a h
  simp only []
  split
  · exact hk z _ (hg z a h)
  · exact hg z a h

theorem other_offer {e : Event} (he : K.own e = false) (l : List Sid) : (∀ s ∈ l, s < P.n) → Other K P.toChart x y (offer P e l) := by
  induction l with
  | nil => intro _; exact other_pure _
  | cons s l ih => intro h; exact other_next (other_local hI hwf hok (h s (by simp)) he) (ih fun t ht => h t (by simp [ht]))

theorem other_ask {e : Event} (he : K.own e = false) (l : List Sid) : (∀ s ∈ l, s < P.n) → Other K P.toChart x y (ask P e l) := by
  induction l with
  | nil => intro _; exact other_pure _
  | cons s l ih => intro h; exact other_next (other_offer hI hwf hok he _ (chain_bound hwf (h s (by simp)))) (ih fun t ht => h t (by simp [ht]))

/-! ## Events of the region are not deferred -/

omit hwf hok in
theorem prompt_local {e : Event} (he : K.own e = true) (s : Sid) (st : St W) : (local' P s e st).1 ≠ .defer := by
  unfold local'
  cases hf : (P.reactions s).find? (fun r => decide (r.ev = none ∨ r.ev = some e.ty)) with
  | none => exact nofun
  | some r =>
    have h1 := List.mem_of_find?_eq_some hf
    have h2 : r.ev = none ∨ r.ev = some e.ty := by
      have := List.find?_some hf
      exact of_decide_eq_true this
    have hr : K.R s = true := by rw [← hI.events e s ⟨r, h1, h2⟩]; exact he
    simp only []
    cases hk : r.kind with
    | transition d act => exact nofun
    | inState act => exact nofun
    | termination => exact nofun
    | deferral => exact absurd (.deferral h1 h2 hk) (hI.prompt s e hr)
    | custom id =>
      have hd : Does P s e (P.react s id e st.view st.world).2 := Does.custom h1 h2 hk
      simp only [Calm.react, custom]
      generalize (P.react s id e st.view st.world).2 = d at hd
      cases d with
      | defer => exact absurd hd (hI.prompt s e hr)
      | _ => exact nofun

omit hwf hok in
theorem prompt_offer {e : Event} (he : K.own e = true) (l : List Sid) : ∀ st : St W, (offer P e l st).1 ≠ .defer := by
  induction l with
  | nil => intro st; exact nofun
  | cons s l ih =>
    intro st
    unfold offer
    simp only []
    split
    · exact ih _
    · exact prompt_local hI he s st

omit hwf hok in
theorem prompt_ask {e : Event} (he : K.own e = true) (l : List Sid) : ∀ st : St W, (ask P e l st).1 ≠ .defer := by
  induction l with
  | nil => intro st; exact nofun
  | cons s l ih =>
    intro st
    unfold ask
    simp only []
    split
    · exact ih _
    · exact prompt_offer hI he _ st

/-! ## Innermost states outside of the region are not concerned -/

omit hok in
theorem ask_filter {e : Event} (he : K.own e = true) (l : List Sid) : (∀ s ∈ l, s < P.n) → ∀ st : St W, ask P e l st = ask P e (l.filter K.R) st := by
  induction l with
  | nil => intro _ st; rfl
  | cons s l ih =>
    intro h st
    have ih := ih fun t ht => h t (by simp [ht])
    cases hr : K.R s with
    | true =>
      rw [List.filter_cons_of_pos hr]
      unfold ask
      simp only [ih]
    | false =>
      rw [List.filter_cons_of_neg (by rw [hr]; nofun)]
      have hn := AnyOrder.offer_none (e := e) hwf s (h s (by simp)) (fun u hu hre => by
        have hu' : K.R u = true := by rw [← hI.events e u hre]; exact he
        rw [R_below hI hu hu'] at hr; cases hr) st
      conv => lhs; unfold ask
      rw [hn]
      exact ih st

omit hok in
theorem agree_own {e : Event} (he : K.own e = true) {act : Sid → Bool} (hf : Forest P.toChart act) {l : List Sid}
    (hl : ∀ s ∈ l, act s = true ∧ P.isLeaf s = true) : AnyOrder.Agree P e l := by
  refine ⟨fun x hx => hf.bound x (hl x hx).1, ?_⟩
  intro a ha b hb s t hs ht
  by_cases hne : a = b
  · subst hne
    rcases hs.outer.linear ht.outer with h | h
    · rcases h.eq_or_outer with h | h
      · exact h
      · exact absurd ht.reacts (hs.inside t ht.outer h)
    · rcases h.eq_or_outer with h | h
      · exact h.symm
      · exact absurd hs.reacts (ht.inside s hs.outer h)
  · exact hI.unambiguous e he a b s t (hf.bound a (hl a ha).1) (hf.bound b (hl b hb).1)
      (AnyOrder.leaves_separate hwf hf (hl a ha).1 (hl b hb).1 (hl a ha).2 (hl b hb).2 hne) hs ht

/-! ## Dispatch -/

/-- The innermost states in the list are those that exist. -/
structure Sound (C : Chart) (a : St W) : Prop where
  forest : Forest C a.act
  nodup : a.leaves.Nodup
  mem : ∀ s, s ∈ a.leaves ↔ a.act s = true ∧ C.isLeaf s = true

omit hI hwf hok in
theorem Sound.bound {C : Chart} {a : St W} (h : Sound C a) : ∀ s ∈ a.leaves, s < C.n := fun s hs => h.forest.bound s ((h.mem s).1 hs).1

theorem rel_dispatch {a b : St W} {e : Event} (he : K.own e = true) (ha : Sound P.toChart a) (hb : Sound P.toChart b) (h : Rel K P.toChart x y a b) :
    Rel K P.toChart x y (Calm.dispatch P e a) (Calm.dispatch P e b) := by
  have hp : Pair K P.toChart x y ({ a with trig := some e } : St W) ({ b with trig := some e } : St W) :=
    ⟨⟨{ h.agree with }, ⟨h.left.dq, h.left.sh, h.left.dh, h.left.scope⟩, ⟨h.right.dq, h.right.sh, h.right.dh, h.right.scope⟩, h.trace⟩, rfl, e, rfl, he⟩
  have hperm : (b.leaves.filter K.R).Perm (a.leaves.filter K.R) := by
    refine (List.perm_ext_iff_of_nodup (hb.nodup.sublist List.filter_sublist) (ha.nodup.sublist List.filter_sublist)).2 fun s => ?_
    simp only [List.mem_filter, ha.mem, hb.mem]
    constructor
    · rintro ⟨⟨h1, h2⟩, h3⟩; exact ⟨⟨by rw [h.agree.act s h3]; exact h1, h2⟩, h3⟩
    · rintro ⟨⟨h1, h2⟩, h3⟩; exact ⟨⟨by rw [← h.agree.act s h3]; exact h1, h2⟩, h3⟩
  have hask : ask P e b.leaves { b with trig := some e } = ask P e a.leaves { b with trig := some e } := by
    rw [ask_filter hI hwf he _ hb.bound, ask_filter hI hwf he _ ha.bound]
    exact AnyOrder.ask_perm hwf hperm (agree_own hI hwf he hb.forest fun s hs => (hb.mem s).1 (List.mem_filter.1 hs).1) _
  obtain ⟨h1, h2⟩ := own_ask hI hwf hok he a.leaves ha.bound _ _ hp
  have hnd := prompt_ask hI he a.leaves ({ a with trig := some e } : St W)
  unfold Calm.dispatch
  simp only [hask, ← h1]
  generalize (ask P e a.leaves ({ a with trig := some e } : St W)).2 = a' at h2
  generalize (ask P e a.leaves ({ b with trig := some e } : St W)).2 = b' at h2
  generalize (ask P e a.leaves ({ a with trig := some e } : St W)).1 = r at hnd
  have done : ∀ {u v : St W} (t t' : Option Event), Pair K P.toChart x y u v → Rel K P.toChart x y ({ u with trig := t } : St W) ({ v with trig := t' } : St W) :=
    fun t t' k => ⟨{ k.agree with }, ⟨k.left.dq, k.left.sh, k.left.dh, k.left.scope⟩, ⟨k.right.dq, k.right.sh, k.right.dh, k.right.scope⟩, k.trace⟩
  cases r with
  | forward => exact done _ _ (pair_user (o := .unconsumed) (hI.restIn e he) (fun _ => nofun) h2)
  | defer => exact absurd rfl hnd
  | _ => exact done _ _ h2

theorem rel_other {z a : St W} {e : Event} (he : K.own e = false) (ha : Sound P.toChart a) (h : Rel K P.toChart x y z a) : Rel K P.toChart x y z (Calm.dispatch P e a) := by
  have hl : Lone K P.toChart x y z ({ a with trig := some e } : St W) :=
    ⟨h.agree.trans { Agree.refl (K := K) a with }, ⟨h.right.dq, h.right.sh, h.right.dh, h.right.scope⟩, h.trace, e, rfl, he⟩
  have h2 := other_ask hI hwf hok he a.leaves ha.bound _ _ hl
  unfold Calm.dispatch
  simp only []
  generalize (ask P e a.leaves ({ a with trig := some e } : St W)).2 = a' at h2
  generalize (ask P e a.leaves ({ a with trig := some e } : St W)).1 = r
  have done : ∀ {u : St W} (t : Option Event), Lone K P.toChart x y z u → Rel K P.toChart x y z ({ u with trig := t } : St W) :=
    fun t k => ⟨k.agree.trans { Agree.refl (K := K) _ with }, h.left, ⟨k.right.dq, k.right.sh, k.right.dh, k.right.scope⟩, k.trace⟩
  cases r with
  | forward => exact done _ (lone_user (o := .unconsumed) (hI.restOut e he) (fun _ => nofun) h2)
  | defer =>
    have h3 := done a.trig h2
    exact ⟨h3.agree.trans { Agree.refl (K := K) _ with }, h.left, ⟨by
      show (a'.dq ++ [e]).filter K.own = []
      rw [List.filter_append, h2.right.dq]; simp [he], h3.right.sh, h3.right.dh, h3.right.scope⟩, h3.trace⟩
  | _ => exact done _ h2

omit hI hwf hok in
theorem Same.symm {x y a b : List (Option Event × Obs)} (h : Same K x y a b) : Same K y x b a := fun t u h1 h2 => (h u t h2 h1).symm

omit hI hwf hok in
theorem Rel.symm {C : Chart} {a b : St W} (h : Rel K C x y a b) : Rel K C y x b a := ⟨h.agree.symm, h.right, h.left, h.trace.symm⟩

end

end Regions
end SC
