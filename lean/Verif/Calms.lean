import Verif.Calm
/-!
# The reference machine computes the functions of `Calm.lean`
-/

namespace SC
open Spec
variable {W α β : Type}

/-- User code does not throw and memory does not run out. -/
structure Smooth (P : Prog W) : Prop where
  ctor : ∀ s v w, (P.ctor s v w).throws = none
  exit : ∀ s v w, (P.exit s v w).throws = none
  action : ∀ a v w, (P.action a v w).throws = none
  react : ∀ s id e v w, (P.react s id e v w).1.throws = none
  unconsumed : ∀ e v w, (P.unconsumed e v w).throws = none
  alloc : ∀ s w, P.alloc s w = (w, none)

namespace Calm

def strip (st : Ref.St W) : St W :=
  ⟨st.act, st.defers, st.leaves, st.root, st.sh, st.dh, st.evq, st.dq, st.trig, st.world, st.trace⟩

/-- `x` returns and computes `g`. -/
def Does (x : Ref.R W α) (g : St W → α × St W) : Prop :=
  ∀ st, st.full = true → ∃ st', x st = .ok (g (strip st)).1 st' ∧ st'.full = true ∧ strip st' = (g (strip st)).2

/-- The same for operations without result. -/
abbrev Acts (x : Ref.R W Unit) (g : St W → St W) : Prop := Does x fun st => ((), g st)

theorem does_pure (a : α) : Does (pure a : Ref.R W α) fun st => (a, st) := fun st h => ⟨st, rfl, h, rfl⟩

theorem does_bind {x : Ref.R W α} {f : α → Ref.R W β} {g : St W → α × St W} {k : α → St W → β × St W} (hx : Does x g) (hf : ∀ a, Does (f a) (k a)) :
    Does (x >>= f) fun st => k (g st).1 (g st).2 := by
  intro st h
  obtain ⟨st1, h1, h2, h3⟩ := hx st h
  obtain ⟨st2, k1, k2, k3⟩ := hf _ st1 h2
  rw [h3] at k1 k3
  refine ⟨st2, ?_, k2, k3⟩
  show Ref.R.bnd x f st = _
  unfold Ref.R.bnd
  rw [h1]
  exact k1

theorem does_then {x : Ref.R W Unit} {y : Ref.R W β} {g : St W → St W} {k : St W → β × St W} (hx : Acts x g) (hy : Does y k) :
    Does (x >>= fun _ => y) fun st => k (g st) := does_bind hx (k := fun _ => k) fun _ => hy

theorem does_ret {x : Ref.R W Unit} {g : St W → St W} (hx : Acts x g) (b : β) : Does (x >>= fun _ => pure b) fun st => (b, g st) :=
  does_then hx (does_pure b)

theorem does_modify {f : Ref.St W → Ref.St W} {g : St W → St W} (h : ∀ st, strip (f st) = g (strip st)) (hf : ∀ st, st.full = true → (f st).full = true) :
    Acts (Ref.R.modify f) g := fun st h1 => ⟨_, rfl, hf st h1, h st⟩

theorem does_onThrow {x : Ref.R W α} {g : St W → α × St W} {k : Ref.St W → Ref.St W} (h : Does x g) : Does (Ref.R.onThrow x k) g := by
  intro st h1
  obtain ⟨st1, k1, k2, k3⟩ := h st h1
  refine ⟨st1, ?_, k2, k3⟩
  unfold Ref.R.onThrow
  rw [k1]

theorem does_get {F : Ref.St W → Ref.R W α} {g : St W → α × St W}
    (h : ∀ st, st.full = true → ∃ st', F st st = .ok (g (strip st)).1 st' ∧ st'.full = true ∧ strip st' = (g (strip st)).2) :
    Does (Ref.R.get >>= F) g := fun st h1 => h st h1

theorem strip_cmds (cs : List Cmd) : ∀ st : Ref.St W, strip (cs.foldl Ref.St.cmd st) = cs.foldl St.cmd (strip st) ∧
    (cs.foldl Ref.St.cmd st).full = st.full := by
  induction cs with
  | nil => intro st; exact ⟨rfl, rfl⟩
  | cons c cs ih =>
    intro st
    obtain ⟨h1, h2⟩ := ih (st.cmd c)
    refine ⟨?_, ?_⟩
    · show strip (cs.foldl Ref.St.cmd (st.cmd c)) = cs.foldl St.cmd ((strip st).cmd c)
      rw [h1]; cases c <;> rfl
    · show (cs.foldl Ref.St.cmd (st.cmd c)).full = _
      rw [h2]; cases c <;> rfl

theorem acts_user {f : View → W → UOut W} (o o' : Obs) (h : ∀ v w, (f v w).throws = none) : Acts (Ref.user f [o] [o']) (user f o) := by
  intro st hf
  obtain ⟨h1, h2⟩ := strip_cmds (f st.view st.world).cmds { st with world := (f st.view st.world).world }
  refine ⟨((f st.view st.world).cmds.foldl Ref.St.cmd { st with world := (f st.view st.world).world }).log o, ?_, ?_, ?_⟩
  · unfold Ref.user
    simp only [h, List.foldl]
  · exact h2.trans hf
  · show (strip _).log o = _
    rw [h1]; rfl

variable {P : Prog W} (hq : Smooth P)

include hq in
theorem acts_alloc (s : Site) : Acts (Ref.alloc P s) id := by
  intro st h
  refine ⟨st, ?_, h, rfl⟩
  unfold Ref.alloc
  rw [hq.alloc]

include hq in
theorem acts_entry (has : Ref.St W → Bool) (s : Site) : Acts (Ref.entry P has s) id := by
  intro st h
  unfold Ref.entry
  cases has st with
  | true => exact ⟨st, rfl, h, rfl⟩
  | false => exact acts_alloc hq s st h

theorem strip_destroy (s : Sid) (st : Ref.St W) : strip (Ref.destroy P s st) = destroy P s (strip st) ∧ (Ref.destroy P s st).full = st.full := by
  obtain ⟨h1, h2⟩ := strip_cmds (P.dtor s st.view st.world).2 { st with world := (P.dtor s st.view st.world).1 }
  have h3 : strip (((P.dtor s st.view st.world).2.foldl Ref.St.cmd { st with world := (P.dtor s st.view st.world).1 }).log (.destroy s)) =
      ((P.dtor s (strip st).view (strip st).world).2.foldl St.cmd { (strip st) with world := (P.dtor s (strip st).view (strip st).world).1 }).log
        (.destroy s) := by
    show (strip _).log _ = _
    rw [h1]; rfl
  have h4 : (((P.dtor s st.view st.world).2.foldl Ref.St.cmd { st with world := (P.dtor s st.view st.world).1 }).log (.destroy s)).full = st.full := h2
  unfold Ref.destroy destroy
  simp only []
  rw [← h3]
  generalize ((P.dtor s st.view st.world).2.foldl Ref.St.cmd { st with world := (P.dtor s st.view st.world).1 }).log (.destroy s) = x at h4
  rw [show (strip x).defers = x.defers from rfl]
  cases x.defers s with
  | true => exact ⟨rfl, h4⟩
  | false => exact ⟨rfl, h4⟩

theorem acts_destroy (s : Sid) : Acts (Ref.R.modify (Ref.destroy P s)) (destroy P s) :=
  does_modify (fun st => (strip_destroy s st).1) (fun st h => (strip_destroy s st).2.trans h)

include hq

theorem acts_shallow (s : Sid) : Acts (Ref.rememberShallow P s) fun st => { st with sh := shallow P s st.sh } := by
  unfold Ref.rememberShallow shallow
  cases P.parent s with
  | none => exact does_pure ()
  | some p =>
    by_cases h : P.shallowH p
    · simp only [if_pos h]
      exact does_bind (acts_entry hq _ _) (k := fun _ st => ((), { st with sh := fun x => if x = (p, P.pos s) then some s else st.sh x })) fun _ =>
        (by exact does_modify (fun _ => rfl) (fun _ h => h))
    · simp only [if_neg h]
      exact does_pure ()

theorem acts_deep (leaf : Sid) (f : Nat) : ∀ cur, Acts (Ref.rememberDeep P leaf f cur) fun st => { st with dh := deep P leaf f cur st.dh } := by
  induction f with
  | zero => intro cur; exact does_pure ()
  | succ f ih =>
    intro cur
    unfold Ref.rememberDeep deep
    cases P.parent cur with
    | none => exact does_pure ()
    | some p =>
      by_cases h : P.deepH p
      · simp only [if_pos h]
        exact does_bind (g := fun st => ((), { st with dh := fun x => if x = (p, P.pos cur) then some leaf else st.dh x }))
          (does_bind (acts_entry hq _ _) (k := fun _ st => ((), { st with dh := fun x => if x = (p, P.pos cur) then some leaf else st.dh x }))
            fun _ => (by exact does_modify (fun _ => rfl) (fun _ h => h)))
          (k := fun _ st => ((), _)) fun _ => ih p
      · simp only [if_neg h]
        exact does_bind (does_pure ()) (k := fun _ st => ((), _)) fun _ => ih p

theorem acts_exitOne (keep : Sid → Bool) (s : Sid) : Acts (Ref.exitOne P keep true s) (exitOne P s) := by
  unfold Ref.exitOne
  refine does_bind (g := fun st => ((), { st with leaves := Ref.leave st.leaves s })) ((by exact does_modify (fun _ => rfl) (fun _ h => h)))
    (k := fun _ st => ((), destroy P s { user (P.exit s) (.exit s) st with
      sh := shallow P s (user (P.exit s) (.exit s) st).sh
      dh := if P.isLeaf s then deep P s P.n s (user (P.exit s) (.exit s) st).dh else (user (P.exit s) (.exit s) st).dh })) fun _ => ?_
  rw [if_pos rfl]
  refine does_bind (g := fun st => ((), { user (P.exit s) (.exit s) st with
      sh := shallow P s (user (P.exit s) (.exit s) st).sh
      dh := if P.isLeaf s then deep P s P.n s (user (P.exit s) (.exit s) st).dh else (user (P.exit s) (.exit s) st).dh }))
    (does_onThrow ?_) (k := fun _ st => ((), destroy P s st)) fun _ => acts_destroy s
  refine does_bind (acts_user _ _ (hq.exit s)) (k := fun _ st => ((), { st with
      sh := shallow P s st.sh, dh := if P.isLeaf s then deep P s P.n s st.dh else st.dh })) fun _ => ?_
  refine does_bind (acts_shallow hq s) (k := fun _ st => ((), { st with dh := if P.isLeaf s then deep P s P.n s st.dh else st.dh })) fun _ => ?_
  by_cases h : P.isLeaf s
  · simp only [if_pos h]; exact acts_deep hq s _ s
  · simp only [if_neg h]; exact does_pure ()

theorem acts_exitAll (keep : Sid → Bool) (l : List Sid) : Acts (Ref.exitAll P keep true l) (exitAll P l) := by
  induction l with
  | nil => exact does_pure ()
  | cons s l ih =>
    unfold Ref.exitAll
    exact does_bind (acts_exitOne hq keep s) (k := fun _ st => ((), exitAll P l st)) fun _ => ih

theorem acts_exits (keep : Sid → Bool) (l : (Sid → Bool) → List Sid) : Acts (Ref.exits P keep true l) fun st => exitAll P (l st.act) st := by
  unfold Ref.exits
  refine does_bind (g := fun st => ((), st)) ((by exact does_modify (fun _ => rfl) (fun _ h => h))) (k := fun _ st => ((), exitAll P (l st.act) st)) fun _ => ?_
  exact does_get fun st h => acts_exitAll hq keep _ st h

theorem acts_leaveFor (keep : Sid → Bool) (l : (Sid → Bool) → List Sid) : Acts (Ref.leaveFor P keep l) fun st => exitAll P (l st.act) st := by
  unfold Ref.leaveFor
  refine does_get fun st h => ?_
  rw [h]
  exact does_bind (acts_exits hq keep l) (k := fun _ st => ((), st)) (fun _ => (by exact does_modify (fun _ => rfl) (fun _ h => h))) st h

theorem acts_leaveAll : Acts (Ref.leaveAll P true) (leaveAll P) := by
  unfold Ref.leaveAll
  refine does_bind (g := fun st => ((), st)) (does_modify (fun _ => rfl) (fun _ _ => rfl)) (k := fun _ st => ((), leaveAll P st)) fun _ => ?_
  refine does_get fun st h => ?_
  unfold leaveAll
  rw [show (strip st).root = st.root from rfl]
  have hm : Acts (W := W) (Ref.R.modify fun st =>
      { st with evq := [], dq := [], sh := fun _ => none, dh := fun _ => none, shKeys := fun _ => false, dhKeys := fun _ => false })
      fun st => { st with evq := [], dq := [], sh := fun _ => none, dh := fun _ => none } := does_modify (fun _ => rfl) (fun _ h => h)
  cases st.root with
  | none => exact (does_bind (does_pure ()) fun _ => hm) st h
  | some s => exact (does_bind (acts_exits hq _ _) fun _ => hm) st h

theorem acts_register (s : Sid) : Acts (Ref.register P s) fun st => { st with leaves := if P.isLeaf s then st.leaves ++ [s] else st.leaves } := by
  unfold Ref.register
  refine does_bind (g := fun st => ((), { st with leaves := if P.isLeaf s then st.leaves ++ [s] else st.leaves })) ?_ (k := fun _ st => ((), st))
    fun _ => does_modify (fun st => ?_) (fun st h => ?_)
  · by_cases h : P.isLeaf s
    · simp only [if_pos h]
      refine does_get fun st hf => ?_
      refine does_bind (g := fun st => ((), st)) ?_ (k := fun _ st => ((), { st with leaves := st.leaves ++ [s] }))
        (fun _ => (by exact does_modify (fun _ => rfl) (fun _ h => h))) st hf
      split
      · exact does_bind (acts_alloc hq _) (k := fun _ st => ((), st)) fun _ => (by exact does_modify (fun _ => rfl) (fun _ h => h))
      · exact does_pure ()
    · simp only [if_neg h]; exact does_pure ()
  · show strip (if _ then _ else _) = _
    split <;> rfl
  · show Ref.St.full (if _ then _ else _) = _
    split <;> exact h

theorem acts_enter (s : Sid) : Acts (Ref.enter P s) (enter P s) := by
  unfold Ref.enter
  refine does_bind (acts_alloc hq _) (k := fun _ st => ((), enter P s st)) fun _ => ?_
  unfold enter
  have h0 : Acts (W := W) (Ref.R.modify (Ref.appear s)) fun st => { st with
      act := fun x => if x = s then true else st.act x, defers := fun x => if x = s then false else st.defers x } := by
    exact does_modify (fun _ => rfl) (fun _ h => h)
  refine does_then h0 (k := fun st => ((), { (if P.isSimple s then attach P s (user (P.ctor s) (.enter s) st)
    else user (P.ctor s) (.enter s) (attach P s st)) with
      leaves := if P.isLeaf s then
        (if P.isSimple s then attach P s (user (P.ctor s) (.enter s) st) else user (P.ctor s) (.enter s) (attach P s st)).leaves ++ [s]
        else (if P.isSimple s then attach P s (user (P.ctor s) (.enter s) st) else user (P.ctor s) (.enter s) (attach P s st)).leaves })) ?_
  have ha : Acts (Ref.R.modify (Ref.attach P s)) (attach P s) := (by exact does_modify (fun _ => rfl) (fun _ h => h))
  have hr : Acts (Ref.R.onThrow (Ref.register P s) (Ref.destroy P s))
      fun st => { st with leaves := if P.isLeaf s then st.leaves ++ [s] else st.leaves } := does_onThrow (acts_register hq s)
  have hu : Acts (Ref.R.onThrow (Ref.user (P.ctor s) [.enter s] [.enterFail s]) (Ref.vanish P s)) (user (P.ctor s) (.enter s)) :=
    does_onThrow (acts_user _ _ (hq.ctor s))
  by_cases h : P.isSimple s
  · simp only [if_pos h]
    have h1 := does_then (does_pure ()) (does_then hu (does_then ha hr))
    exact h1
  · simp only [if_neg h]
    have h1 := does_then ha (does_then hu (does_then (does_pure ()) hr))
    exact h1

theorem acts_build (f : Nat) : ∀ j, Acts (Ref.build P f j) (build P f j) := by
  induction f with
  | zero => intro j; exact does_pure ()
  | succ f ih =>
    intro j
    cases j with
    | deep s =>
      unfold Ref.build build
      exact does_bind (acts_enter hq s) (k := fun _ st => ((), _)) fun _ => does_onThrow (ih _)
    | target t =>
      unfold Ref.build build
      exact does_get fun st h => ih _ st h
    | inners l =>
      cases l with
      | nil => unfold Ref.build build; exact does_pure ()
      | cons t l =>
        unfold Ref.build build
        exact does_bind (ih _) (k := fun _ st => ((), _)) fun _ => ih _
    | chain l d =>
      cases l with
      | nil => unfold Ref.build build; exact ih _
      | cons x l =>
        unfold Ref.build build
        exact does_bind (acts_enter hq x) (k := fun _ st => ((), _)) fun _ => does_onThrow
          (does_bind (ih _) (k := fun _ st => ((), _)) fun _ => does_bind (ih _) (k := fun _ st => ((), _)) fun _ => ih _)

theorem acts_action (a : Option Nat) : Acts (Ref.action P a) (action P a) := by
  cases a with
  | none => exact does_pure ()
  | some a => exact acts_user _ _ (hq.action a)

omit hq in
theorem idx_zero {l : List (Option Sid)} {x y : Option Sid} (h : (x :: l).idxOf y = 0) : y = x := by
  rw [List.idxOf_cons] at h
  by_cases hx : x = y
  · exact hx.symm
  · rw [show (x == y) = false from beq_false_of_ne hx] at h
    cases h

omit hq in
theorem leaveInside_leaf {s : Sid} (h : P.isLeaf s = true) (st : St W) : leaveInside P s st = st := by
  have h0 : (P.init s).length = 0 := by
    unfold Chart.isLeaf at h
    cases hi : P.init s with
    | nil => rfl
    | cons => rw [hi] at h; cases h
  have h1 : (exitOrder P.toChart st.act s).dropLast = [] := by
    show (exitOrderF P.toChart st.act (P.n - s) s).dropLast = []
    cases P.n - s with
    | zero => rfl
    | succ f =>
      unfold exitOrderF
      rw [show P.regions (some s) = 0 from h0]
      rfl
  unfold leaveInside
  rw [h1]
  rfl

theorem acts_leaveAndAct (s t : Sid) (c : Option Sid) (a : Option Nat) : Acts (Ref.leaveAndAct P s t c a) (leaveAndAct P s t c a) := by
  have hw : ∀ keep, Acts (Ref.leaveFor P keep fun a => exitOrder P.toChart a t) (leaveTree P t) := fun keep => acts_leaveFor hq keep _
  unfold Ref.leaveAndAct leaveAndAct
  by_cases hr : P.relaxed
  · simp only [hr, if_true, true_and]
    by_cases h0 : (P.actionCtxs s).idxOf (P.ctxOf a) = 0 ∧ P.isLeaf s
    · simp only [if_pos h0, if_pos (show (P.actionCtxs s).idxOf (P.ctxOf a) ≤ (P.ctxList s).idxOf c by rw [h0.1]; exact Nat.zero_le _)]
      rw [show P.ctxOf a = some s from idx_zero h0.1]
      simp only [leaveInside_leaf h0.2]
      exact does_bind (acts_action hq a) (k := fun _ st => ((), _)) fun _ => hw _
    · simp only [if_neg h0]
      by_cases h1 : (P.actionCtxs s).idxOf (P.ctxOf a) ≤ (P.ctxList s).idxOf c
      · simp only [if_pos h1, if_neg (show ¬ (P.ctxList s).idxOf c + 1 ≤ (P.actionCtxs s).idxOf (P.ctxOf a) by omega)]
        cases P.ctxOf a with
        | none => exact does_pure ()
        | some r =>
          exact does_bind (g := fun st => ((), action P a (leaveInside P r st)))
            (does_onThrow (does_bind (acts_leaveFor hq _ _) (k := fun _ st => ((), _)) fun _ => acts_action hq a))
            (k := fun _ st => ((), _)) fun _ => hw _
      · simp only [if_neg h1, if_pos (show (P.ctxList s).idxOf c + 1 ≤ (P.actionCtxs s).idxOf (P.ctxOf a) by omega)]
        exact does_bind (hw _) (k := fun _ st => ((), _)) fun _ => acts_action hq a
  · simp only [if_neg hr, hr, false_and, if_false]
    exact does_bind (hw _) (k := fun _ st => ((), _)) fun _ => acts_action hq a

theorem acts_transit (s : Sid) (d : Target) (a : Option Nat) : Acts (Ref.transit P s d a) (transit P s d a) := by
  unfold Ref.transit transit
  cases P.termState s d.st with
  | none => exact does_pure ()
  | some t => exact does_onThrow (does_bind (acts_leaveAndAct hq s t _ a) (k := fun _ st => ((), _)) fun _ => acts_build hq _ _)

theorem acts_terminateState (s : Sid) : Acts (Ref.terminateState P s) (terminateState P s) := by
  unfold Ref.terminateState
  refine does_get fun st h => ?_
  rw [h]
  exact does_bind (acts_exits hq _ _) (k := fun _ st => ((), st)) (fun _ => (by exact does_modify (fun _ => rfl) (fun _ h => h))) st h

omit hq in
theorem acts_defer (s : Sid) : Acts (W := W) (Ref.defer s) (defer s) := (by exact does_modify (fun _ => rfl) (fun _ h => h))

theorem does_custom (s : Sid) (id : Nat) (e : Event) : Does (Ref.custom P s id e) (custom P s id e) := by
  unfold Ref.custom
  refine does_get fun st h => ?_
  unfold custom
  rw [show (P.react s id e (strip st).view (strip st).world).2 = (P.react s id e st.view st.world).2 from rfl]
  have hu : Acts (Ref.user (fun v w => (P.react s id e v w).1) [.react s id] [.react s id]) (user (fun v w => (P.react s id e v w).1) (.react s id)) :=
    acts_user _ _ (hq.react s id e)
  cases (P.react s id e st.view st.world).2 with
  | discard => exact does_bind hu (k := fun _ st => _) (fun _ => does_pure _) st h
  | forward => exact does_bind hu (k := fun _ st => _) (fun _ => does_pure _) st h
  | defer => exact does_bind hu (k := fun _ st => _) (fun _ => does_bind (acts_defer s) (k := fun _ st => _) (fun _ => does_pure _)) st h
  | transit d a => exact does_bind hu (k := fun _ st => _) (fun _ => does_bind (acts_transit hq s d a) (k := fun _ st => _) (fun _ => does_pure _)) st h
  | terminate => exact does_bind hu (k := fun _ st => _) (fun _ => does_bind (acts_terminateState hq s) (k := fun _ st => _) (fun _ => does_pure _)) st h

theorem does_react (s : Sid) (e : Event) (r : RKind) : Does (Ref.react P s e r) fun st => react P s e st r := by
  cases r with
  | transition d a => exact does_bind (acts_transit hq s d a) (k := fun _ st => _) (fun _ => does_pure _)
  | inState a => exact does_bind (acts_action hq a) (k := fun _ st => _) (fun _ => does_pure _)
  | termination => exact does_bind (acts_terminateState hq s) (k := fun _ st => _) (fun _ => does_pure _)
  | deferral => exact does_bind (acts_defer s) (k := fun _ st => _) (fun _ => does_pure _)
  | custom id => exact does_custom hq s id e

theorem does_local (s : Sid) (e : Event) : Does (Ref.local' P s e) (local' P s e) := by
  unfold Ref.local' local'
  cases (P.reactions s).find? fun r => r.ev = none ∨ r.ev = some e.ty with
  | none => exact does_pure _
  | some r => exact does_react hq s e r.kind

omit hq in
theorem does_next {x y : Ref.R W Ref.Answer} {g k : St W → Ref.Answer × St W} (hx : Does x g) (hy : Does y k) :
    Does (do
      let r ← x
      if r = .forward then y else pure r) fun st => if (g st).1 = .forward then k (g st).2 else g st := by
  have h := does_bind hx (f := fun r => if r = .forward then y else pure r) (k := fun r st => if r = .forward then k st else (r, st)) fun r => by
    by_cases h : r = .forward
    · simp only [if_pos h]; exact hy
    · simp only [if_neg h]; exact does_pure _
  exact h

theorem does_offer (e : Event) (l : List Sid) : Does (Ref.offer P e l) (offer P e l) := by
  induction l with
  | nil => exact does_pure _
  | cons s l ih => exact does_next (does_local hq s e) ih

omit hq in
theorem does_translated {x : Ref.R W Ref.Answer} {g : St W → Ref.Answer × St W} (cur : Option Sid) (h : Does x g) : Does (Ref.translated P cur x) g := by
  intro st hf
  obtain ⟨st1, h1, h2, h3⟩ := h st hf
  refine ⟨st1, ?_, h2, h3⟩
  unfold Ref.translated Ref.R.tryCatch
  rw [h1]

omit hq in
theorem does_guarded {x : Ref.R W α} {g : St W → α × St W} (h : Does x g) : Does (Ref.guarded P x) g := by
  intro st hf
  obtain ⟨st1, h1, h2, h3⟩ := h st hf
  refine ⟨st1, ?_, h2, h3⟩
  unfold Ref.guarded
  rw [h1]

omit hq in
theorem does_during {x : Ref.R W α} {g : St W → α × St W} (ev : Option Event) (h : Does x g) :
    Does (Ref.during ev x) fun st => ((g { st with trig := ev }).1, { (g { st with trig := ev }).2 with trig := st.trig }) := by
  intro st hf
  obtain ⟨st1, h1, h2, h3⟩ := h { st with trig := ev } hf
  refine ⟨{ st1 with trig := st.trig }, ?_, h2, ?_⟩
  · unfold Ref.during
    rw [h1]; rfl
  · show ({ strip st1 with trig := st.trig } : St W) = _
    rw [h3]; rfl

theorem does_ask (e : Event) (l : List Sid) : Does (Ref.ask P e l) (ask P e l) := by
  induction l with
  | nil => exact does_pure _
  | cons s l ih => exact does_next (does_translated _ (does_offer hq e _)) ih

theorem acts_dispatch (e : Event) : Acts (Ref.dispatch P e) (dispatch P e) := by
  unfold Ref.dispatch
  have h1 : Does (Ref.guarded P (do
      let st ← Ref.R.get
      Ref.ask P e st.leaves)) fun st => ask P e st.leaves st := does_guarded (does_get fun st h => does_ask hq e _ st h)
  have h2 : Does (do
      let r ← Ref.guarded P (do
        let st ← Ref.R.get
        Ref.ask P e st.leaves)
      (if r = .forward then Ref.user (P.unconsumed e) [.unconsumed] [.unconsumed] else pure ())
      pure r) fun st => ((ask P e st.leaves st).1,
        if (ask P e st.leaves st).1 = .forward then user (P.unconsumed e) .unconsumed (ask P e st.leaves st).2 else (ask P e st.leaves st).2) := by
    refine does_bind h1 (k := fun r st => (r, if r = .forward then user (P.unconsumed e) .unconsumed st else st)) fun r => ?_
    refine does_bind (g := fun st => ((), if r = .forward then user (P.unconsumed e) .unconsumed st else st)) ?_
      (k := fun _ st => (r, st)) fun _ => does_pure r
    by_cases h : r = .forward
    · simp only [if_pos h]; exact acts_user _ _ (hq.unconsumed e)
    · simp only [if_neg h]; exact does_pure ()
  have h3 := does_bind (does_during (some e) h2) (f := fun r => if r = .defer then do
      Ref.alloc P (.deferNode e)
      Ref.R.modify fun st => { st with dq := st.dq ++ [e] }
    else pure ()) (k := fun r st => ((), if r = .defer then { st with dq := st.dq ++ [e] } else st)) fun r => by
      by_cases h : r = .defer
      · simp only [if_pos h]
        exact does_then (acts_alloc hq _) (k := fun st => ((), { st with dq := st.dq ++ [e] })) (by exact does_modify (fun _ => rfl) (fun _ h => h))
      · simp only [if_neg h]; exact does_pure ()
  intro st hf
  obtain ⟨st1, k1, k2, k3⟩ := h3 st hf
  refine ⟨st1, k1, k2, k3.trans ?_⟩
  unfold dispatch
  simp only []
  cases (ask P e (strip st).leaves { strip st with trig := some e }).1 <;> simp

theorem does_drain (k : Nat) : Does (Ref.drain P k) (drain P k) := by
  induction k with
  | zero => exact fun st h => ⟨st, rfl, h, rfl⟩
  | succ k ih =>
    unfold Ref.drain
    refine does_get fun st h => ?_
    unfold drain
    rw [show (strip st).evq = st.evq from rfl]
    cases st.evq with
    | nil => exact ⟨st, rfl, h, rfl⟩
    | cons e q =>
      exact does_bind (g := fun st => ((), { st with evq := q })) ((by exact does_modify (fun _ => rfl) (fun _ h => h))) (k := fun _ st => _)
        (fun _ => does_bind (acts_dispatch hq e) (k := fun _ st => _) fun _ => ih) st h

theorem acts_stop : Acts (Ref.stop P) (stop P) := by
  have h := does_bind (does_during none (does_guarded (P := P) (does_translated (P := P) none (does_ret (acts_leaveAll hq) Ref.Answer.discard))))
    (k := fun _ st => ((), st)) fun _ => does_pure ()
  exact h

omit hq in
theorem acts_cmd (c : Cmd) : Acts (W := W) (Ref.R.modify fun st => st.cmd c) fun st => st.cmd c :=
  does_modify (fun st => by cases c <;> rfl) (fun st h => by cases c <;> exact h)

/-- Every call of a client. -/
theorem does_run (c : Ref.Op) : Does (Ref.run P c) (run P c) := by
  cases c with
  | initiate k =>
    have h1 := does_bind (does_during none (does_guarded (P := P) (does_translated (P := P) none
      (does_ret (acts_build hq (Ref.depth P) (.deep P.initial)) Ref.Answer.discard)))) (k := fun _ st => drain P k st) fun _ => does_drain hq k
    have h2 := does_then (acts_stop hq) h1
    exact h2
  | terminate => exact does_ret (acts_stop hq) true
  | process e k =>
    have h := does_then (acts_dispatch hq e) (does_drain hq k)
    exact h
  | post e =>
    have h := does_then (acts_alloc hq (.postNode e)) (does_ret (acts_cmd (.post e)) true)
    exact h
  | clearShallow k =>
    have h := does_then (acts_entry hq (fun st => st.shKeys k) (.shallowNode k)) (does_ret (acts_cmd (.clearShallow k)) true)
    exact h
  | clearDeep k =>
    have h := does_then (acts_entry hq (fun st => st.dhKeys k) (.deepNode k)) (does_ret (acts_cmd (.clearDeep k)) true)
    exact h

end Calm
end SC
