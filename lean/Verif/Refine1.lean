import Verif.Ref
import Verif.Relax
/-!
# The library and the reference machine: states, leaving states

`abs` forgets pointers, counts and list nodes. `Sim x F m`: the reference operation `F` does in `abs m` what the library function `x` does in `m`.
-/

namespace SC
open Spec
variable {W α β γ δ : Type}

/-- The state a stored construct function leads to. -/
def HFn.last : HFn → Sid
  | .deep s => s
  | .chain _ l => l

/-- State of the reference machine that corresponds to `m`. -/
def abs (m : Mach W) : Ref.St W where
  act := m.act
  defers s := match m.heap s with
    | none => false
    | some o => o.deferred
  leaves := m.leaves
  nodes := m.len
  root := m.outermost
  unstable := m.pOU
  first := m.ico
  full := m.fullExit
  sh k := (m.sh k).map HFn.last
  dh k := (m.dh k).map HFn.last
  shKeys := m.shKeys
  dhKeys := m.dhKeys
  evq := m.evq
  dq := m.dq
  trig := m.trig
  world := m.world
  trace := m.trace

/-- The same states, leaves, event. -/
structure View.Same (v v' : View) : Prop where
  slots : v.slots = v'.slots
  objs : ∀ s, (v.objs s).isSome = (v'.objs s).isSome
  terminated : v.terminated = v'.terminated
  trig : v.trig = v'.trig

/-- User code does not look at the library's bookkeeping inside state objects (private members in C++). -/
structure Plain (P : Prog W) : Prop where
  ctor : ∀ {v v' : View} s w, v.Same v' → P.ctor s v w = P.ctor s v' w
  exit : ∀ {v v' : View} s w, v.Same v' → P.exit s v w = P.exit s v' w
  dtor : ∀ {v v' : View} s w, v.Same v' → P.dtor s v w = P.dtor s v' w
  action : ∀ {v v' : View} a w, v.Same v' → P.action a v w = P.action a v' w
  react : ∀ {v v' : View} s i e w, v.Same v' → P.react s i e v w = P.react s i e v' w
  unconsumed : ∀ {v v' : View} e w, v.Same v' → P.unconsumed e v w = P.unconsumed e v' w

/-- The nodes before the end of the list are not empty. -/
def Filled (m : Mach W) : Prop := ∀ i, i < m.endIx → (m.slot i).isSome

theorem Inv.filled {C : Chart} {L : Sid → Nat} {pend : Option Sid} {m : Mach W} (h : Inv C L pend m) : Filled m := by
  intro i hi
  obtain ⟨s, o, h1, _⟩ := h.slot_in hi
  simp [h1]

theorem filterMap_somes {f : Nat → Option Sid} : ∀ l : List Nat, (∀ i ∈ l, (f i).isSome) → (l.filterMap f).map some = l.map f := by
  intro l
  induction l with
  | nil => intro _; rfl
  | cons i l ih =>
    intro h
    obtain ⟨x, hx⟩ := Option.isSome_iff_exists.1 (h i (by simp))
    rw [List.filterMap_cons, hx]
    simp [hx, ih (fun j hj => h j (by simp [hj]))]

theorem view_same {m : Mach W} (h : Filled m) : m.view.Same (abs m).view := by
  constructor
  · show (List.range m.endIx).map m.slot = m.leaves.map some
    exact (filterMap_somes _ (fun i hi => h i (List.mem_range.1 hi))).symm
  · intro s
    show (m.heap s).isSome = _
    simp only [Ref.St.view, abs, Mach.act]
    by_cases hs : (m.heap s).isSome = true <;> simp [hs]
  · rfl
  · rfl

/-! ## Simulation -/

/-- `F` does in `abs m` what `x` does in `m`; results are related by `r`. -/
def Sim (r : α → β) (x : M W α) (F : Ref.R W β) (m : Mach W) : Prop :=
  match x m with
  | .ok a m' => F (abs m) = .ok (r a) (abs m')
  | .thrown e m' => F (abs m) = .thrown e (abs m')
  | .fault _ => True

theorem wp_okAt {x : M W α} {Q : α → Mach W → Prop} {E : Exc → Mach W → Prop} {m m' : Mach W} {a : α} (h : wp x Q E m)
    (hx : x m = .ok a m') : Q a m' := by
  unfold wp at h; rw [hx] at h; exact h

theorem wp_thrownAt {x : M W α} {Q : α → Mach W → Prop} {E : Exc → Mach W → Prop} {m m' : Mach W} {e : Exc} (h : wp x Q E m)
    (hx : x m = .thrown e m') : E e m' := by
  unfold wp at h; rw [hx] at h; exact h

variable {m : Mach W}

theorem Sim.ok {r : α → β} {x : M W α} {F : Ref.R W β} (h : Sim r x F m) {a : α} {m' : Mach W} (hx : x m = .ok a m') :
    F (abs m) = .ok (r a) (abs m') := by
  unfold Sim at h; rw [hx] at h; exact h

theorem Sim.thrown {r : α → β} {x : M W α} {F : Ref.R W β} (h : Sim r x F m) {e : Exc} {m' : Mach W} (hx : x m = .thrown e m') :
    F (abs m) = .thrown e (abs m') := by
  unfold Sim at h; rw [hx] at h; exact h

theorem Sim.of_ok {r : α → β} {x : M W α} {F : Ref.R W β} {a : α} {m' : Mach W} (hx : x m = .ok a m') (h : F (abs m) = .ok (r a) (abs m')) :
    Sim r x F m := by
  unfold Sim; rw [hx]; exact h

theorem Sim.of_thrown {r : α → β} {x : M W α} {F : Ref.R W β} {e : Exc} {m' : Mach W} (hx : x m = .thrown e m') (h : F (abs m) = .thrown e (abs m')) :
    Sim r x F m := by
  unfold Sim; rw [hx]; exact h

theorem Sim.congr {r : α → β} {x : M W α} {F F' : Ref.R W β} (h : Sim r x F m) (e : F' (abs m) = F (abs m)) : Sim r x F' m := by
  unfold Sim at *; rw [e]; exact h

theorem sim_pure (r : α → β) (a : α) : Sim r (pure a : M W α) (pure (r a)) m := rfl

theorem sim_bind {r : α → β} {r' : γ → δ} {x : M W α} {F : Ref.R W β} {f : α → M W γ} {G : β → Ref.R W δ} (h : Sim r x F m)
    (h' : ∀ a m', x m = .ok a m' → Sim r' (f a) (G (r a)) m') : Sim r' (x >>= f) (F >>= G) m := by
  show Sim r' (M.bnd x f) (Ref.R.bnd F G) m
  unfold Sim M.bnd Ref.R.bnd
  cases hx : x m with
  | ok a m' => rw [h.ok hx]; exact h' a m' hx
  | thrown e m' => rw [h.thrown hx]
  | fault g => trivial

/-- A step of the library that the reference machine does not have. -/
theorem sim_skip {r' : γ → δ} {x : M W α} {f : α → M W γ} {G : Ref.R W δ} (h : Sim (fun _ => ()) x (pure ()) m)
    (h' : ∀ a m', x m = .ok a m' → Sim r' (f a) G m') : Sim r' (x >>= f) G m := by
  have := sim_bind (G := fun _ => G) h h'
  exact this

/-- ... at the end. -/
theorem sim_end {r : α → β} {x : M W α} {F : Ref.R W β} (h : Sim r (x >>= pure) F m) : Sim r x F m := by
  have e : (x >>= pure) m = x m := by
    show M.bnd x pure m = x m
    unfold M.bnd
    cases x m <;> rfl
  unfold Sim at h ⊢
  rw [e] at h; exact h

theorem sim_get {r' : γ → δ} {f : Mach W → M W γ} {G : Ref.R W δ} (h : Sim r' (f m) G m) : Sim r' (M.get >>= f) G m := h

/-- Both look at their state. -/
theorem sim_get2 {r' : γ → δ} {f : Mach W → M W γ} {G : Ref.St W → Ref.R W δ} (h : Sim r' (f m) (G (abs m)) m) :
    Sim r' (M.get >>= f) (Ref.R.get >>= G) m := h

theorem sim_getR {r : α → β} {x : M W α} {G : Ref.St W → Ref.R W β} (h : Sim r x (G (abs m)) m) :
    Sim r x (Ref.R.get >>= G) m := h

theorem sim_modify {g : Mach W → Mach W} {g' : Ref.St W → Ref.St W} (h : g' (abs m) = abs (g m)) :
    Sim id (M.modify g) (Ref.R.modify g') m := by
  show Ref.Out.ok () (g' (abs m)) = .ok () (abs (g m))
  rw [h]

theorem sim_silent {g : Mach W → Mach W} (h : abs (g m) = abs m) : Sim (fun _ => ()) (M.modify g) (pure ()) m := by
  show Ref.Out.ok () (abs m) = .ok () (abs (g m))
  rw [h]

theorem sim_throw (r : α → β) (e : Exc) : Sim r (M.throw e : M W α) (Ref.R.throw e) m := rfl
theorem sim_fault (r : α → β) (g : Fault) (F : Ref.R W β) : Sim r (M.fault g : M W α) F m := trivial

theorem sim_onThrow {r : α → β} {x : M W α} {F : Ref.R W β} {fin : M W Unit} {g : Ref.St W → Ref.St W} (h : Sim r x F m)
    (hf : ∀ e m', x m = .thrown e m' → Sim id fin (Ref.R.modify g) m') : Sim r (M.onThrow x fin) (Ref.R.onThrow F g) m := by
  unfold Sim M.onThrow Ref.R.onThrow
  cases hx : x m with
  | ok a m' => rw [h.ok hx]
  | fault f => trivial
  | thrown e m' =>
    rw [h.thrown hx]
    simp only
    cases hfin : fin m' with
    | ok u m'' =>
      have := (hf e m' hx).ok hfin
      have h2 : g (abs m') = abs m'' := by
        have h3 : Ref.Out.ok () (g (abs m')) = Ref.Out.ok (id u) (abs m'') := this
        injection h3
      simp only [h2]
    | thrown e' m'' => trivial
    | fault f => trivial

/-- A destructor at the end of a scope that does nothing visible unless an exception is passing. -/
theorem sim_finally {r : α → β} {x : M W α} {F : Ref.R W β} {fin : M W Unit} {g : Ref.St W → Ref.St W} (h : Sim r x F m)
    (ho : ∀ a m', x m = .ok a m' → Sim (fun _ => ()) fin (pure ()) m')
    (hnt : ∀ a m' e m'', x m = .ok a m' → fin m' ≠ .thrown e m'')
    (hf : ∀ e m', x m = .thrown e m' → Sim id fin (Ref.R.modify g) m') : Sim r (M.finally' x fin) (Ref.R.onThrow F g) m := by
  unfold Sim M.finally' Ref.R.onThrow
  cases hx : x m with
  | ok a m' =>
    rw [h.ok hx]
    simp only
    cases hfin : fin m' with
    | ok u m'' =>
      have h3 : Ref.Out.ok () (abs m') = Ref.Out.ok () (abs m'') := (ho a m' hx).ok hfin
      injection h3 with _ h4
      simp only [h4]
    | thrown e' m'' => exact absurd hfin (hnt a m' e' m'' hx)
    | fault f => trivial
  | fault f => trivial
  | thrown e m' =>
    rw [h.thrown hx]
    simp only
    cases hfin : fin m' with
    | ok u m'' =>
      have h3 : Ref.Out.ok () (g (abs m')) = Ref.Out.ok (id u) (abs m'') := (hf e m' hx).ok hfin
      injection h3 with _ h4
      simp only [h4]
    | thrown e' m'' => trivial
    | fault f => trivial

theorem sim_tryCatch {r : α → β} {x : M W α} {F : Ref.R W β} {h : Exc → M W α} {H : Exc → Ref.R W β} (hx : Sim r x F m)
    (hh : ∀ e m', x m = .thrown e m' → Sim r (h e) (H e) m') : Sim r (M.tryCatch x h) (Ref.R.tryCatch F H) m := by
  unfold Sim M.tryCatch Ref.R.tryCatch
  cases he : x m with
  | ok a m' => rw [hx.ok he]
  | thrown e m' => rw [hx.thrown he]; exact hh e m' he
  | fault f => trivial

/-! ## User code, allocations, counts -/

theorem map_upd (g : HKey → Option HFn) (k : HKey) (b : Option HFn) :
    (fun x => (upd g k b x).map HFn.last) = fun x => if x = k then b.map HFn.last else (g x).map HFn.last := by
  funext x
  simp only [upd]
  split <;> rfl

theorem abs_cmd (m : Mach W) (c : Cmd) : abs (m.cmd c) = (abs m).cmd c := by
  cases c with
  | post e => rfl
  | clearShallow k => simp only [Mach.cmd, Ref.St.cmd, abs, map_upd]; rfl
  | clearDeep k => simp only [Mach.cmd, Ref.St.cmd, abs, map_upd]; rfl

theorem abs_cmds (l : List Cmd) (m : Mach W) : abs (l.foldl Mach.cmd m) = l.foldl Ref.St.cmd (abs m) := by
  induction l generalizing m with
  | nil => rfl
  | cons c l ih => rw [List.foldl_cons, List.foldl_cons, ih, abs_cmd]

theorem abs_log (m : Mach W) (o : Obs) : abs (m.log o) = (abs m).log o := rfl

theorem abs_logs (l : List Obs) (m : Mach W) : abs (l.foldl Mach.log m) = l.foldl Ref.St.log (abs m) := by
  induction l generalizing m with
  | nil => rfl
  | cons c l ih => rw [List.foldl_cons, List.foldl_cons, ih, abs_log]

theorem abs_raise (m : Mach W) (x : Exc) : abs (m.raise x) = abs m := rfl
theorem abs_cut (m : Mach W) (s : Sid) (k : Option Sid) : abs (m.cutExit s k) = abs m := rfl

theorem sim_user {f : View → W → UOut W} (hf : ∀ {v v' : View} w, v.Same v' → f v w = f v' w) (a b : List Obs) (h : Filled m) :
    Sim id (runUser f a b) (Ref.user f a b) m := by
  have e : f (abs m).view (abs m).world = f m.view m.world := (hf _ (view_same h)).symm
  have ew : (f m.view m.world).cmds.foldl Ref.St.cmd { abs m with world := (f m.view m.world).world } =
      abs ((f m.view m.world).cmds.foldl Mach.cmd { m with world := (f m.view m.world).world }) := by
    rw [abs_cmds]; rfl
  cases ht : (f m.view m.world).throws with
  | none =>
    refine .of_ok (a := ()) (m' := a.foldl Mach.log ((f m.view m.world).cmds.foldl Mach.cmd { m with world := (f m.view m.world).world })) ?_ ?_
    · unfold runUser; simp only [ht]
    · unfold Ref.user; simp only [e, ht]; rw [ew, ← abs_logs]; try rfl
  | some x =>
    refine .of_thrown (e := x) (m' := (b.foldl Mach.log ((f m.view m.world).cmds.foldl Mach.cmd { m with world := (f m.view m.world).world })).raise x) ?_ ?_
    · unfold runUser; simp only [ht]
    · unfold Ref.user; simp only [e, ht]; rw [ew, ← abs_logs]; try rfl

variable {P : Prog W}

theorem sim_alloc (s : Site) : Sim id (allocate P s) (Ref.alloc P s) m := by
  have e : P.alloc s (abs m).world = P.alloc s m.world := rfl
  cases ha : P.alloc s m.world with
  | mk w x =>
    cases x with
    | none =>
      refine .of_ok (a := ()) (m' := { m with world := w }) ?_ ?_
      · unfold allocate; rw [ha]
      · unfold Ref.alloc; rw [e, ha]; rfl
    | some x =>
      refine .of_thrown (e := x) (m' := ({ m with world := w } : Mach W).raise x) ?_ ?_
      · unfold allocate; rw [ha]
      · unfold Ref.alloc; rw [e, ha]; rfl

theorem sim_node (has : Mach W → Bool) (has' : Ref.St W → Bool) (he : has' (abs m) = has m) (s : Site) :
    Sim id (allocNode P has s) (Ref.entry P has' s) m := by
  unfold Sim allocNode Ref.entry
  rw [he]
  cases has m with
  | true => rfl
  | false => exact sim_alloc s

theorem sim_histNode (has : Mach W → Bool) (has' : Ref.St W → Bool) (he : has' (abs m) = has m) (s : Site) (x : Sid) (k : Option Sid) :
    Sim id (histNode P has s x k) (Ref.entry P has' s) m := by
  have h := sim_node (P := P) has has' he s
  unfold histNode
  unfold Sim M.onThrow M.modify
  cases hx : allocNode P has s m with
  | ok a m' => exact h.ok hx
  | thrown e m' =>
    have := h.thrown hx
    exact this
  | fault g => trivial

/-- A change of counts, links or positions. -/
theorem abs_obj {s : Sid} {o o' : Obj} (ho : m.heap s = some o) (hd : o'.deferred = o.deferred) :
    abs { m with heap := upd m.heap s (some o') } = abs m := by
  have h1 : (Mach.act { m with heap := upd m.heap s (some o') }) = m.act := by
    funext x; simp only [Mach.act, upd]; split
    · next hx => subst hx; simp [ho]
    · rfl
  have h2 : (fun x => match (upd m.heap s (some o')) x with | none => false | some o => o.deferred) =
      fun x => match m.heap x with | none => false | some o => o.deferred := by
    funext x; simp only [upd]
    by_cases hx : x = s
    · subst hx; simp [ho, hd]
    · simp [hx]
  unfold abs
  rw [h1]
  simp only [h2]
  rfl

theorem sim_getObj {r' : γ → δ} {s : Sid} {f : Obj → M W γ} {G : Ref.R W δ} (h : ∀ o, m.heap s = some o → Sim r' (f o) G m) :
    Sim r' (getObj s >>= f) G m := by
  have e : (getObj s >>= f) m = M.bnd (getObj s) f m := rfl
  unfold Sim
  rw [e]
  unfold M.bnd getObj
  cases ho : m.heap s with
  | none => trivial
  | some o => exact h o ho

theorem sim_setObj {s : Sid} {o o' : Obj} (ho : m.heap s = some o) (hd : o'.deferred = o.deferred) :
    Sim (fun _ => ()) (setObj s o') (pure ()) m := by
  show Ref.Out.ok () (abs m) = .ok () (abs { m with heap := upd m.heap s (some o') })
  rw [abs_obj ho hd]

theorem sim_addRef (s : Sid) : Sim (fun _ => ()) (addRef s) (pure ()) m := by
  unfold addRef
  exact sim_getObj fun o ho => sim_setObj ho rfl

theorem sim_releaseBase (s : Sid) : Sim (fun _ => ()) (releaseBase s) (pure ()) m := by
  unfold releaseBase
  refine sim_getObj fun o ho => ?_
  split
  · trivial
  · exact sim_setObj ho rfl

theorem sim_setOU (new : Option Sid) : Sim id (setOU new) (Ref.R.modify fun st => { st with unstable := new }) m := by
  unfold setOU
  have h1 : Sim (fun _ => ()) (match new with | none => (pure () : M W Unit) | some t => addRef t) (pure ()) m := by
    cases new with
    | none => rfl
    | some t => exact sim_addRef t
  refine sim_skip h1 fun _ m1 _ => sim_get ?_
  have h2 : Sim id (M.modify fun m => { m with pOU := new }) (Ref.R.modify fun st => { st with unstable := new }) m1 := rfl
  have h3 : ∀ m2 : Mach W, Sim id (match m1.pOU with | none => (pure () : M W Unit) | some t => releaseBase t) (pure ()) m2 := by
    intro m2
    cases m1.pOU with
    | none => rfl
    | some t => exact sim_releaseBase t
  exact sim_bind (G := fun _ => pure ()) h2 fun _ m2 _ => h3 m2

end SC
