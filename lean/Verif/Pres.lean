import Verif.Inv
/-!
# Relations kept by every library function (proof infrastructure)

`Keeps K x`: running `x` from any machine state relates the states before and after by
`K.R` (normal return) or `K.E` (exception). Once a relation is kept by the primitive
steps (`Prims`), it is kept by all functions of the library.
-/

namespace SC
variable {W α β : Type}

/-- A pair of relations closed under sequencing. -/
structure KRel (W : Type) where
  R : Mach W → Mach W → Prop
  E : Exc → Mach W → Mach W → Prop
  refl : ∀ m, R m m
  trans : ∀ {a b c}, R a b → R b c → R a c
  re : ∀ {x a b c}, R a b → E x b c → E x a c
  er : ∀ {x a b c}, E x a b → R b c → E x a c

def KeepsAt (K : KRel W) (x : M W α) (m : Mach W) : Prop :=
  match x m with
  | .ok _ m' => K.R m m'
  | .thrown x m' => K.E x m m'
  | .fault _ => True

def Keeps (K : KRel W) (x : M W α) : Prop := ∀ m, KeepsAt K x m

variable {K : KRel W}

theorem KeepsAt.bind {x : M W β} {f : β → M W α} {m : Mach W} (hx : KeepsAt K x m)
    (hf : ∀ b m', x m = .ok b m' → KeepsAt K (f b) m') : KeepsAt K (x >>= f) m := by
  unfold KeepsAt at *
  show match M.bnd x f m with | .ok _ m' => K.R m m' | .thrown x m' => K.E x m m' | .fault _ => True
  unfold M.bnd
  cases h : x m with
  | ok b m' =>
    have h1 := hf b m' h
    rw [h] at hx
    simp only at hx ⊢
    cases hb : f b m' with
    | ok a m'' => rw [hb] at h1; exact K.trans hx h1
    | thrown e m'' => rw [hb] at h1; exact K.re hx h1
    | fault g => trivial
  | thrown e m' => rw [h] at hx; exact hx
  | fault g => trivial

theorem Keeps.bind {x : M W β} {f : β → M W α} (hx : Keeps K x) (hf : ∀ b, Keeps K (f b)) : Keeps K (x >>= f) :=
  fun m => (hx m).bind fun b m' _ => hf b m'

theorem Keeps.pure (a : α) : Keeps K (pure a : M W α) := fun m => K.refl m
theorem Keeps.get : Keeps K (M.get : M W (Mach W)) := fun m => K.refl m
theorem Keeps.fault (g : Fault) : Keeps K (M.fault g : M W α) := fun _ => trivial
theorem Keeps.modify {f : Mach W → Mach W} (h : ∀ m, K.R m (f m)) : Keeps K (M.modify f) := h

theorem KeepsAt.onThrow {x : M W α} {fin : M W Unit} {m : Mach W} (hx : KeepsAt K x m) (hf : Keeps K fin) :
    KeepsAt K (M.onThrow x fin) m := by
  unfold KeepsAt at *
  unfold M.onThrow
  cases h : x m with
  | ok a m' => rw [h] at hx; exact hx
  | fault g => trivial
  | thrown e m' =>
    rw [h] at hx
    have := hf m'
    unfold KeepsAt at this
    simp only at hx ⊢
    cases hb : fin m' with
    | ok a m'' => rw [hb] at this; exact K.er hx this
    | thrown e m'' => trivial
    | fault g => trivial

theorem Keeps.onThrow {x : M W α} {fin : M W Unit} (hx : Keeps K x) (hf : Keeps K fin) : Keeps K (M.onThrow x fin) :=
  fun m => (hx m).onThrow hf

theorem KeepsAt.finally' {x : M W α} {fin : M W Unit} {m : Mach W} (hx : KeepsAt K x m) (hf : Keeps K fin) :
    KeepsAt K (M.finally' x fin) m := by
  unfold KeepsAt at *
  unfold M.finally'
  cases h : x m with
  | ok a m' =>
    rw [h] at hx
    have := hf m'
    unfold KeepsAt at this
    simp only at hx ⊢
    cases hb : fin m' with
    | ok a m'' => rw [hb] at this; exact K.trans hx this
    | thrown e m'' => rw [hb] at this; exact K.re hx this
    | fault g => trivial
  | fault g => trivial
  | thrown e m' =>
    rw [h] at hx
    have := hf m'
    unfold KeepsAt at this
    simp only at hx ⊢
    cases hb : fin m' with
    | ok a m'' => rw [hb] at this; exact K.er hx this
    | thrown e m'' => trivial
    | fault g => trivial

theorem Keeps.finally' {x : M W α} {fin : M W Unit} (hx : Keeps K x) (hf : Keeps K fin) : Keeps K (M.finally' x fin) :=
  fun m => (hx m).finally' hf

theorem KeepsAt.tryCatch {x : M W α} {h : Exc → M W α} {m : Mach W} (hx : KeepsAt K x m)
    (hER : ∀ {x a b}, K.E x a b → K.R a b)
    (hh : ∀ e m', x m = .thrown e m' → KeepsAt K (h e) m') : KeepsAt K (M.tryCatch x h) m := by
  unfold KeepsAt at *
  unfold M.tryCatch
  cases hxm : x m with
  | ok a m' => rw [hxm] at hx; exact hx
  | fault g => trivial
  | thrown e m' =>
    rw [hxm] at hx
    have := hh e m' hxm
    simp only at hx ⊢
    cases hb : h e m' with
    | ok a m'' => rw [hb] at this; exact K.trans (hER hx) this
    | thrown e m'' => rw [hb] at this; exact K.re (hER hx) this
    | fault g => trivial

theorem Keeps.ite {c : Prop} [Decidable c] {x y : M W α} (hx : c → Keeps K x) (hy : ¬ c → Keeps K y) :
    Keeps K (if c then x else y) := by
  split
  · next h => exact hx h
  · next h => exact hy h

/-- From a normal result of a function that keeps `K`. -/
theorem Keeps.ok {x : M W α} (h : Keeps K x) {m m' : Mach W} {a : α} (hx : x m = .ok a m') : K.R m m' := by
  have := h m; unfold KeepsAt at this; rw [hx] at this; exact this

theorem KeepsAt.ok {x : M W α} {m : Mach W} (h : KeepsAt K x m) {m' : Mach W} {a : α} (hx : x m = .ok a m') : K.R m m' := by
  unfold KeepsAt at h; rw [hx] at h; exact h

theorem Keeps.thrown {x : M W α} (h : Keeps K x) {m m' : Mach W} {e : Exc} (hx : x m = .thrown e m') : K.E e m m' := by
  have := h m; unfold KeepsAt at this; rw [hx] at this; exact this

/-- `wp` together with a kept relation. -/
theorem wp_and {x : M W α} {Q Q' : α → Mach W → Prop} {E E' : Exc → Mach W → Prop} {m : Mach W}
    (h : wp x Q E m) (h' : wp x Q' E' m) : wp x (fun a m' => Q a m' ∧ Q' a m') (fun e m' => E e m' ∧ E' e m') m := by
  unfold wp at *
  cases hx : x m <;> rw [hx] at h h' <;> simp_all

theorem wp_keeps {x : M W α} {Q : α → Mach W → Prop} {E : Exc → Mach W → Prop} {m : Mach W}
    (h : wp x Q E m) (hk : KeepsAt K x m) :
    wp x (fun a m' => Q a m' ∧ K.R m m') (fun e m' => E e m' ∧ K.E e m m') m := by
  unfold wp KeepsAt at *
  cases hx : x m <;> rw [hx] at h hk <;> simp_all

/-! ## Primitive steps -/

/-- Logs, queues, histories, `performFullExit_` and the triggering event are equal. -/
structure SameLog (m m' : Mach W) : Prop where
  trace : m'.trace = m.trace
  qlog : m'.qlog = m.qlog
  hlog : m'.hlog = m.hlog
  xlog : m'.xlog = m.xlog
  evq : m'.evq = m.evq
  dq : m'.dq = m.dq
  sh : m'.sh = m.sh
  dh : m'.dh = m.dh
  shKeys : m'.shKeys = m.shKeys
  dhKeys : m'.dhKeys = m.dhKeys
  fullExit : m'.fullExit = m.fullExit
  trig : m'.trig = m.trig

/-- The object `o'` may replace `o`. -/
structure ObjStep (o o' : Obj) : Prop where
  deferred : o'.deferred = o.deferred
  ctxSet : o.ctxSet = true → o'.ctxSet = true

/-- Relations kept by the primitive steps. -/
structure Prims (K : KRel W) (P : Prog W) : Prop where
  core : ∀ {m m' : Mach W}, SameLog m m' → m'.heap = m.heap → K.R m m'
  setObj : ∀ {m : Mach W} {s : Sid} {o o' : Obj}, m.heap s = some o → ObjStep o o' → K.R m { m with heap := upd m.heap s (some o') }
  newObj : ∀ {m : Mach W} {s : Sid}, m.heap s = none → K.R m { m with heap := upd m.heap s (some newObj) }
  destroy : ∀ {rel : Sid → M W Unit}, (∀ s, Keeps K (rel s)) → ∀ s, Keeps K (do
    userDtor P s
    baseDtor P rel s)
  construct : ∀ {rel : Sid → M W Unit}, (∀ s, Keeps K (rel s)) → ∀ {s : Sid} {m : Mach W} {o : Obj}, m.heap s = some o → o.deferred = false →
    KeepsAt K (M.onThrow (runCtor P s) (baseDtor P rel s)) m
  raise : ∀ m x, K.E x m (m.raise x)
  action : ∀ a, Keeps K (runAction P a)
  react : ∀ s id e, Keeps K (runUser (fun v w => (P.react s id e v w).1) [.react s id] [.react s id])

/-- Relations kept by smaller steps. -/
structure PartPrims (K : KRel W) (P : Prog W) : Prop where
  core : ∀ {m m' : Mach W}, SameLog m m' → m'.heap = m.heap → K.R m m'
  setObj : ∀ {m : Mach W} {s : Sid} {o o' : Obj}, m.heap s = some o → ObjStep o o' → K.R m { m with heap := upd m.heap s (some o') }
  newObj : ∀ {m : Mach W} {s : Sid}, m.heap s = none → K.R m { m with heap := upd m.heap s (some newObj) }
  baseDtor : ∀ {rel : Sid → M W Unit}, (∀ s, Keeps K (rel s)) → ∀ s, Keeps K (baseDtor P rel s)
  ctor : ∀ s, Keeps K (runCtor P s)
  dtor : ∀ s, Keeps K (userDtor P s)
  raise : ∀ m x, K.E x m (m.raise x)
  action : ∀ a, Keeps K (runAction P a)
  react : ∀ s id e, Keeps K (runUser (fun v w => (P.react s id e v w).1) [.react s id] [.react s id])

theorem PartPrims.prims {K : KRel W} {P : Prog W} (h : PartPrims K P) : Prims K P where
  core := h.core
  setObj := h.setObj
  newObj := h.newObj
  destroy hr s := Keeps.bind (h.dtor s) fun _ => h.baseDtor hr s
  construct hr _ _ _ _ _ := KeepsAt.onThrow (h.ctor _ _) (h.baseDtor hr _)
  raise := h.raise
  action := h.action
  react := h.react

/-- Relations that do not depend on the state objects. -/
structure StepPrims (K : KRel W) (P : Prog W) : Prop where
  core : ∀ {m m' : Mach W}, SameLog m m' → K.R m m'
  ctor : ∀ s, Keeps K (runCtor P s)
  dtor : ∀ s, Keeps K (userDtor P s)
  raise : ∀ m x, K.E x m (m.raise x)
  action : ∀ a, Keeps K (runAction P a)
  react : ∀ s id e, Keeps K (runUser (fun v w => (P.react s id e v w).1) [.react s id] [.react s id])
  relEv : ∀ s, Keeps K (releaseEvents s : M W Unit)

/-- Relations kept by the deferral of an event as well. -/
structure CorePrims (K : KRel W) (P : Prog W) : Prop extends StepPrims K P where
  hold : ∀ s, Keeps K (M.modify fun m : Mach W => (m.qop (.hold s)).log (.defer s))

variable {P : Prog W}

theorem keeps_getObj (s : Sid) : Keeps K (getObj s : M W Obj) := by
  intro m
  unfold KeepsAt getObj
  cases h : m.heap s with
  | none => trivial
  | some o => exact K.refl m

theorem keeps_getObj_bind {s : Sid} {f : Obj → M W α} (h : ∀ o m, m.heap s = some o → KeepsAt K (f o) m) : Keeps K (getObj s >>= f) := by
  intro m
  refine KeepsAt.bind (keeps_getObj s m) ?_
  intro o m' hm
  unfold getObj at hm
  cases ho : m.heap s with
  | none => rw [ho] at hm; cases hm
  | some o' => rw [ho] at hm; cases hm; exact h _ _ ho

section
variable (hK : Prims K P)
include hK

theorem Prims.core' {f : Mach W → Mach W} (h : ∀ m, SameLog m (f m) ∧ (f m).heap = m.heap) : Keeps K (M.modify f) :=
  Keeps.modify fun m => hK.core (h m).1 (h m).2

theorem Prims.allocNode (has : Mach W → Bool) (s : Site) : Keeps K (allocNode P has s) := by
  intro m
  rcases allocNode_cases P has s m with ⟨w, h⟩ | ⟨x, _, _, h⟩
  · unfold KeepsAt; rw [h]; exact hK.core (by constructor <;> rfl) rfl
  · unfold KeepsAt; rw [h]; exact K.re (b := { m with world := (P.alloc s m.world).1 }) (hK.core (by constructor <;> rfl) rfl) (hK.raise _ x)

theorem Prims.alloc (s : Site) : Keeps K (allocate P s) := by
  intro m
  unfold KeepsAt allocate
  cases h : P.alloc s m.world with
  | mk w x =>
    have : K.R m { m with world := w } := hK.core (by constructor <;> rfl) rfl
    cases x with
    | none => exact this
    | some x => exact K.re this (hK.raise _ x)

theorem Prims.setObjAt {m : Mach W} {s : Sid} {o o' : Obj} (h : m.heap s = some o) (ho : ObjStep o o') :
    KeepsAt K (SC.setObj s o' : M W Unit) m := hK.setObj h ho

/-- Tactic: decompose a function into its steps. -/
macro "keep" : tactic => `(tactic| repeat' (first
  | assumption
  | with_reducible exact Keeps.pure _
  | with_reducible exact Keeps.get
  | with_reducible exact Keeps.fault _
  | with_reducible exact keeps_getObj _
  | (with_reducible apply Prims.alloc; assumption)
  | (with_reducible apply Prims.allocNode; assumption)
  | (with_reducible apply Prims.core' (by assumption); intro m; refine And.intro ?_ rfl; constructor <;> rfl)
  | with_reducible apply Keeps.bind
  | with_reducible apply Keeps.onThrow
  | with_reducible apply Keeps.finally'
  | with_reducible apply Keeps.ite
  | with_reducible intro _
  | split))

theorem Prims.addRef (s : Sid) : Keeps K (addRef s : M W Unit) := by
  unfold SC.addRef
  exact keeps_getObj_bind fun o m ho => hK.setObjAt ho ⟨rfl, id⟩

theorem Prims.removeInner (c : Option Sid) (i : Nat) : Keeps K (removeInner P c i) := by
  unfold SC.removeInner
  split
  · keep
  · refine keeps_getObj_bind fun o m ho => ?_
    split
    · exact hK.setObjAt ho ⟨rfl, id⟩
    · trivial

theorem Prims.addInner (c : Option Sid) (i : Nat) (s : Sid) : Keeps K (addInner P c i s) := by
  unfold SC.addInner
  split
  · keep
  · refine keeps_getObj_bind fun o m ho => ?_
    split
    · exact hK.setObjAt ho ⟨rfl, id⟩
    · trivial

end

theorem StepPrims.core' (hK : StepPrims K P) {f : Mach W → Mach W} (h : ∀ m, SameLog m (f m)) : Keeps K (M.modify f) :=
  Keeps.modify fun m => hK.core (h m)

theorem StepPrims.parts (hK : StepPrims K P) : PartPrims K P where
  core h _ := hK.core h
  setObj _ _ := hK.core (by constructor <;> rfl)
  newObj _ := hK.core (by constructor <;> rfl)
  ctor := hK.ctor
  dtor := hK.dtor
  raise := hK.raise
  action := hK.action
  react := hK.react
  baseDtor := by
    intro rel hr s
    have h1 := hK.relEv s
    have h2 : ∀ c i, Keeps K (removeInner P c i) := by
      intro c i
      unfold SC.removeInner
      split
      · refine Keeps.ite (fun _ => hK.core' fun m => (by constructor <;> rfl)) (fun _ => Keeps.fault _)
      · refine Keeps.bind (keeps_getObj _) fun o => Keeps.ite (fun _ => hK.core' fun m => (by constructor <;> rfl)) (fun _ => Keeps.fault _)
    have h3 : Keeps K (M.modify fun m : Mach W => { m with heap := upd m.heap s none }) := hK.core' fun m => (by constructor <;> rfl)
    unfold SC.baseDtor
    keep
    all_goals first | exact h2 _ _ | exact hr _

theorem StepPrims.prims (hK : StepPrims K P) : Prims K P := hK.parts.prims

section
variable (hK : Prims K P)
include hK

theorem Prims.releaseF (f : Nat) : ∀ s, Keeps K (releaseF P f s) := by
  induction f with
  | zero => intro s; exact Keeps.fault _
  | succ f ih =>
    intro s
    have h2 := hK.destroy ih
    unfold SC.releaseF
    refine keeps_getObj_bind fun o m ho => ?_
    split
    · trivial
    · split
      · refine KeepsAt.bind (hK.setObjAt ho ⟨rfl, id⟩) fun _ m' _ => ?_
        exact h2 _ m'
      · exact hK.setObjAt ho ⟨rfl, id⟩

theorem Prims.release (s : Sid) : Keeps K (release P s) := hK.releaseF _ s

theorem Prims.releaseBase (s : Sid) : Keeps K (releaseBase s : M W Unit) := by
  unfold SC.releaseBase
  refine keeps_getObj_bind fun o m ho => ?_
  split
  · trivial
  · exact hK.setObjAt ho ⟨rfl, id⟩

theorem Prims.setOU (n : Option Sid) : Keeps K (setOU n : M W Unit) := by
  have h1 := hK.addRef
  have h2 := hK.releaseBase
  unfold SC.setOU
  keep
  · exact h1 _
  · exact h2 _

theorem Prims.setCtxOU (s : Sid) : Keeps K (setCtxOU P s) := by
  have h2 := hK.setOU
  unfold SC.setCtxOU
  keep
  · exact h2 _

theorem Prims.exitF {full : Bool} (hfull : full = true → ∀ s, Keeps K (fullExitPart P s)) (f : Nat) :
    ∀ s, Keeps K (exitF P f s full) := by
  induction f with
  | zero => intro s; exact Keeps.fault _
  | succ f ih =>
    intro s
    have h1 := hK.setCtxOU
    have h2 := hK.release
    have h3 := hK.addRef
    unfold SC.exitF
    keep
    all_goals first | exact h1 _ | exact h2 _ | exact h3 _ | exact ih _ | skip
    exact hfull (by assumption) _

theorem Prims.takeSlot (i : Nat) : Keeps K (takeSlot i : M W Sid) := by
  unfold SC.takeSlot; keep

theorem Prims.leafRemove {full : Bool} (hfull : full = true → ∀ s, Keeps K (fullExitPart P s)) (s : Sid) :
    Keeps K (leafRemove P s full) := by
  have h1 := hK.takeSlot
  have h2 := hK.exitF hfull
  have h3 : ∀ (t : Sid) (l : Nat) (k : M W Unit), Keeps K k → Keeps K (getObj t >>= fun ot => SC.setObj t { ot with lpos := l } >>= fun _ => k) := by
    intro t l k hk
    refine keeps_getObj_bind fun o m ho => ?_
    exact KeepsAt.bind (hK.setObjAt ho ⟨rfl, id⟩) fun _ m' _ => hk m'
  unfold SC.leafRemove
  refine Keeps.bind Keeps.get fun mm => Keeps.ite (fun _ => Keeps.fault _) fun _ => ?_
  refine Keeps.bind (by keep) fun _ => Keeps.bind (keeps_getObj _) fun o => Keeps.ite (fun _ => ?_) fun _ => Keeps.fault _
  refine Keeps.bind (by keep) fun _ => Keeps.bind Keeps.get fun m1 => ?_
  split
  · exact Keeps.fault _
  · exact h3 _ _ _ (Keeps.bind (h1 _) fun _ => h2 _ _)

omit hK in
theorem keeps_removeLoop {rec : Sid → M W Unit} (hr : ∀ c, Keeps K (rec c)) (s : Sid) :
    ∀ l, Keeps K (removeLoop rec s l) := by
  intro l
  induction l with
  | nil => exact Keeps.pure _
  | cons i is ih =>
    unfold removeLoop
    keep
    exact hr _

theorem Prims.removeF {full : Bool} (hfull : full = true → ∀ s, Keeps K (fullExitPart P s)) (f : Nat) :
    ∀ s, Keeps K (removeF P f s full) := by
  induction f with
  | zero => intro s; exact Keeps.fault _
  | succ f ih =>
    intro s
    have h1 := hK.leafRemove hfull
    have h2 := hK.exitF hfull
    have h3 := hK.addRef
    unfold SC.removeF
    keep
    all_goals first | exact h1 _ | exact h2 _ _ | exact h3 _ | exact keeps_removeLoop ih _ _

theorem Prims.terminateState {full : Bool} (hfull : full = true → ∀ s, Keeps K (fullExitPart P s)) (s : Sid) :
    Keeps K (terminateState P s full) := by
  have h1 := hK.removeF hfull
  have h2 := hK.exitF hfull
  have h3 := hK.takeSlot
  unfold SC.terminateState
  keep
  all_goals first | exact h1 _ _ | exact h2 _ _ | exact h3 _

theorem Prims.setContext (s : Sid) : Keeps K (setContext P s) := by
  have h1 := hK.addRef
  have h2 := hK.addInner
  have h3 : Keeps K (getObj s >>= fun o => SC.setObj s { o with ctxSet := true } >>= fun _ => SC.addInner P (P.parent s) (P.pos s) s) := by
    refine keeps_getObj_bind fun o m ho => ?_
    exact KeepsAt.bind (hK.setObjAt ho ⟨rfl, fun _ => rfl⟩) fun _ m' _ => h2 _ _ _ m'
  unfold SC.setContext
  refine Keeps.bind ?_ (fun _ => h3)
  split
  · exact Keeps.pure _
  · exact h1 _

theorem Prims.addToMachine (s : Sid) : Keeps K (addToMachine P s) := by
  have h1 := hK.addRef
  have h2 := hK.releaseBase
  have h3 := hK.setOU
  have h4 : ∀ (l : Nat) (k : M W Unit), Keeps K k → Keeps K (getObj s >>= fun ot => SC.setObj s { ot with lpos := l } >>= fun _ => k) := by
    intro l k hk
    refine keeps_getObj_bind fun o m ho => ?_
    exact KeepsAt.bind (hK.setObjAt ho ⟨rfl, id⟩) fun _ m' _ => hk m'
  have h5 : Keeps K (SC.addLeaf P s) := by
    unfold SC.addLeaf
    refine Keeps.bind Keeps.get fun mm => ?_
    refine Keeps.bind ?_ fun _ => Keeps.bind ?_ fun _ => Keeps.bind (h1 _) fun _ => h4 _ _ ?_
    · keep
    · split
      · exact Keeps.pure _
      · exact h2 _
    · keep
  unfold SC.addToMachine
  keep
  all_goals first | exact h3 _ | exact Keeps.pure _ | skip

omit hK in
/-- `s` has not deferred an event. -/
theorem setObj_plain {s x : Sid} {m : Mach W} {o o' : Obj} (hx : m.heap x = some o) (hd : o'.deferred = o.deferred)
    (h : ∃ o, m.heap s = some o ∧ o.deferred = false) : ∃ o, upd m.heap x (some o') s = some o ∧ o.deferred = false := by
  obtain ⟨os, h1, h2⟩ := h
  unfold upd
  split
  · next he => subst he; rw [hx] at h1; cases h1; exact ⟨_, rfl, by rw [hd, h2]⟩
  · exact ⟨os, h1, h2⟩

omit hK in
theorem setContext_plain {s : Sid} {m m' : Mach W} (h : SC.setContext P s m = .ok () m') (hs : ∃ o, m.heap s = some o ∧ o.deferred = false) :
    ∃ o, m'.heap s = some o ∧ o.deferred = false := by
  have h3 : ∀ m1 : Mach W, (∃ o, m1.heap s = some o ∧ o.deferred = false) →
      (getObj s >>= fun o => SC.setObj s { o with ctxSet := true } >>= fun _ => SC.addInner P (P.parent s) (P.pos s) s : M W Unit) m1 = .ok () m' →
      ∃ o, m'.heap s = some o ∧ o.deferred = false := by
    rintro m1 ⟨o, h1, h2⟩ h
    change M.bnd (getObj s) _ m1 = _ at h
    unfold M.bnd getObj at h
    rw [h1] at h
    simp only at h
    change SC.addInner P (P.parent s) (P.pos s) s { m1 with heap := upd m1.heap s (some { o with ctxSet := true }) } = _ at h
    have hq := setObj_plain (o' := { o with ctxSet := true }) h1 rfl ⟨o, h1, h2⟩
    unfold SC.addInner at h
    cases hp : P.parent s with
    | none =>
      rw [hp] at h
      simp only at h
      split at h
      · cases h; exact hq
      · cases h
    | some p =>
      rw [hp] at h
      simp only at h
      change M.bnd (getObj p) _ _ = _ at h
      unfold M.bnd getObj at h
      simp only at h
      cases hop : upd m1.heap s (some { o with ctxSet := true }) p with
      | none => rw [hop] at h; cases h
      | some op =>
        rw [hop] at h
        simp only at h
        split at h
        · cases h
          exact setObj_plain (m := { m1 with heap := upd m1.heap s (some { o with ctxSet := true }) }) hop rfl hq
        · cases h
  unfold SC.setContext at h
  cases hp : P.parent s with
  | none =>
    rw [hp] at h h3
    exact h3 m hs h
  | some p =>
    rw [hp] at h h3
    change M.bnd (SC.addRef p) _ m = _ at h
    unfold M.bnd SC.addRef at h
    cases hop : m.heap p with
    | none =>
      have : (getObj p >>= fun o => SC.setObj p { o with rc := o.rc + 1 } : M W Unit) m = .fault .useAfterFree := by
        change M.bnd (getObj p) _ m = _
        unfold M.bnd getObj
        rw [hop]
      rw [this] at h; cases h
    | some op =>
      have : (getObj p >>= fun o => SC.setObj p { o with rc := o.rc + 1 } : M W Unit) m = .ok () { m with heap := upd m.heap p (some { op with rc := op.rc + 1 }) } := by
        change M.bnd (getObj p) _ m = _
        unfold M.bnd getObj
        rw [hop]; rfl
      rw [this] at h
      exact h3 _ (setObj_plain (o' := { op with rc := op.rc + 1 }) hop rfl hs) h

theorem Prims.shallowConstruct (s : Sid) : Keeps K (shallowConstruct P s) := by
  have h1 := hK.addRef
  have h3 := fun {m : Mach W} {o : Obj} => hK.construct hK.release (s := s) (m := m) (o := o)
  have h4 := hK.setContext
  have h5 := hK.addToMachine
  have h6 := hK.release
  have hend : Keeps K (M.onThrow (SC.addToMachine P s) (SC.release P s)) := Keeps.onThrow (h5 _) (h6 _)
  unfold SC.shallowConstruct
  refine Keeps.bind (hK.alloc _) fun _ => ?_
  intro m
  refine KeepsAt.bind (Keeps.get m) ?_
  intro mm m' hm
  cases hm
  split
  · trivial
  · next hn =>
    refine KeepsAt.bind (hK.newObj ?_) ?_
    · cases h : m.heap s with
      | none => rfl
      | some o => rw [h] at hn; exact absurd rfl hn
    · intro _ m' hm'
      have hs : m'.heap s = some SC.newObj := by cases hm'; simp [upd]
      refine KeepsAt.bind ?_ fun _ m2 _ => hend m2
      by_cases hsim : P.isSimple s = true
      · rw [if_pos hsim]
        refine KeepsAt.bind (h3 hs rfl) fun _ m2 _ => ?_
        exact Keeps.bind (h1 _) (fun _ => h4 _) m2
      · rw [if_neg hsim]
        refine KeepsAt.bind (h4 _ m') fun _ m2 h2 => ?_
        obtain ⟨o, g1, g2⟩ := setContext_plain h2 ⟨_, hs, rfl⟩
        refine KeepsAt.bind (h3 g1 g2) fun _ m3 _ => ?_
        exact h1 _ m3

omit hK in
theorem keeps_lookupHist (k : TKind) (d : Sid) : Keeps K (lookupHist P k d) := by
  intro m
  unfold KeepsAt lookupHist
  cases P.parent d with
  | none => exact K.refl m
  | some p => cases k <;> exact K.refl m

theorem Prims.build (f : Nat) : ∀ t, Keeps K (build P f t) := by
  induction f with
  | zero => intro t; exact Keeps.fault _
  | succ f ih =>
    intro t
    have h1 := hK.shallowConstruct
    have h2 := hK.release
    have h3 := @keeps_lookupHist W K P
    cases t with
    | deep s =>
      rw [SC.build]; keep
      all_goals first | exact h1 _ | exact h2 _ | exact ih _
    | inners l =>
      cases l with
      | nil => exact Keeps.pure _
      | cons t ts =>
        rw [SC.build]; keep
        all_goals exact ih _
    | target t =>
      obtain ⟨k, d⟩ := t
      rw [SC.build]; keep
      all_goals first | exact h3 _ _ | exact ih _
    | chain cs d =>
      cases cs with
      | nil => rw [SC.build]; exact ih _
      | cons x cs =>
        rw [SC.build]; keep
        all_goals first | exact h1 _ | exact h2 _ | exact ih _

omit hK in
theorem keeps_checkCtx (c : Option Sid) : Keeps K (checkCtx c : M W Unit) := by
  unfold checkCtx; keep

/-- Full exits keep `K` if they can happen in `m`. -/
def FullOK (K : KRel W) (P : Prog W) (m : Mach W) : Prop := m.fullExit = true → ∀ s, Keeps K (fullExitPart P s)

omit hK in
/-- Relations that do not depend on the history maps are kept by full exits. -/
theorem Prims.storeDeepF (hP : Prims K P) (hl : ∀ (m : Mach W) l, K.R m { m with hlog := l }) (hd : ∀ (m : Mach W) f g, K.R m { m with dh := f, dhKeys := g }) (f : Nat) :
    ∀ (cur leaf : Sid), Keeps K (storeDeepF P f cur leaf) := by
  induction f with
  | zero => intro cur leaf; exact Keeps.fault _
  | succ f ih =>
    intro cur leaf
    rw [SC.storeDeepF]
    keep
    all_goals first
      | exact ih _ _
      | exact Keeps.onThrow (hP.allocNode _ _) (Keeps.modify fun m => hl m _)
      | exact Keeps.modify fun m => hd m _ _

omit hK in
theorem Prims.fullExit (hP : Prims K P) (hl : ∀ (m : Mach W) l, K.R m { m with hlog := l }) (hs : ∀ (m : Mach W) f g, K.R m { m with sh := f, shKeys := g }) (hd : ∀ (m : Mach W) f g, K.R m { m with dh := f, dhKeys := g })
    (he : ∀ s, Keeps K (runUser (P.exit s) [.exit s] [.exitFail s])) (s : Sid) : Keeps K (fullExitPart P s) := by
  unfold fullExitPart storeShallow storeDeep
  keep
  all_goals first
    | exact he _
    | exact hP.storeDeepF hl hd _ _ _
    | exact Keeps.onThrow (hP.allocNode _ _) (Keeps.modify fun m => hl m _)
    | exact Keeps.modify fun m => hs m _ _

/-- `performFullExit_` is not changed. -/
def feK : KRel W where
  R m m' := m'.fullExit = m.fullExit
  E _ m m' := m'.fullExit = m.fullExit
  refl _ := rfl
  trans h1 h2 := h2.trans h1
  re h1 h2 := h2.trans h1
  er h1 h2 := h2.trans h1

omit hK in
theorem keeps_runUser_fe {f : View → W → UOut W} {a b : List Obs} : Keeps feK (runUser f a b) := by
  intro m
  have : wp (runUser f a b) (fun _ m' => m'.fullExit = m.fullExit) (fun _ m' => m'.fullExit = m.fullExit) m :=
    wp_runUser (fun _ h => h.core.fullExit) (fun _ _ h => h.core.fullExit)
  unfold wp at this
  unfold KeepsAt
  cases hx : runUser f a b m <;> rw [hx] at this
  · exact this
  · exact this
  · trivial

omit hK in
theorem fePrims (P : Prog W) : Prims feK P := StepPrims.prims {
  core := fun h => h.fullExit
  raise := fun _ _ => rfl
  ctor := fun s m => by
    have := keeps_runUser_fe (f := P.ctor s) (a := [.enter s]) (b := [.enterFail s]) m
    unfold KeepsAt runCtor
    by_cases hc : P.isSimple s = true ∧ (P.ctor s m.view m.world).cmds ≠ []
    · simp [hc]
    · rw [if_neg hc]; exact this
  dtor := fun s m => by
    show (Mach.log _ _).fullExit = _
    exact (cmds_step _ _).core.fullExit
  action := fun a => by
    cases a with
    | none => exact Keeps.pure _
    | some a => exact keeps_runUser_fe
  react := fun s id e => keeps_runUser_fe
  relEv := fun _ _ => rfl }

omit hK in
theorem keeps_fullExit_fe (s : Sid) : Keeps feK (fullExitPart P s) :=
  (fePrims P).fullExit (fun _ _ => rfl) (fun _ _ _ => rfl) (fun _ _ _ => rfl) (fun _ => keeps_runUser_fe) s

/-- Code after the exits of a transition. -/
theorem Prims.transitDefaultAt {m : Mach W} (hfull : m.fullExit = true → ∀ s, Keeps K (fullExitPart P s)) (s : Sid) (d : Target) (a : Option Nat) :
    KeepsAt K (transitDefault P s d a) m := by
  have h1 := hK.addRef
  have h2 := hK.release
  have h3 := hK.action
  have h4 := hK.build
  unfold SC.transitDefault
  split
  · trivial
  · next t _ =>
    refine KeepsAt.bind (keeps_getObj t m) ?_
    intro o m1 ho
    have hm1 : m1 = m := by
      unfold getObj at ho; split at ho
      · cases ho
      · cases ho; rfl
    subst hm1
    refine KeepsAt.bind ?_ ?_
    · split
      · exact Keeps.pure _ _
      · exact h1 _ _
    · intro _ m2 hm2
      have hfe : m2.fullExit = m1.fullExit := by
        cases hc : P.commonCtx s d.st with
        | none => rw [hc] at hm2; cases hm2; rfl
        | some p =>
          rw [hc] at hm2
          have : SC.addRef p m1 = Res.ok () m2 := hm2
          unfold SC.addRef at this
          change M.bnd (getObj p) _ m1 = _ at this
          unfold M.bnd getObj at this
          cases hp : m1.heap p with
          | none => rw [hp] at this; cases this
          | some o => rw [hp] at this; cases this; rfl
      refine KeepsAt.finally' ?_ ?_
      · refine KeepsAt.bind (Keeps.get m2) ?_
        intro mm m3 hmm
        cases hmm
        have h5 := hK.terminateState (full := m2.fullExit) (by rw [hfe]; exact hfull)
        refine KeepsAt.bind (h5 _ _) ?_
        intro _ m4 _
        refine Keeps.bind ?_ ?_ m4
        · apply hK.core'; intro m; exact ⟨by constructor <;> rfl, rfl⟩
        · intro _
          refine Keeps.bind (keeps_checkCtx _) ?_
          intro _
          refine Keeps.bind (h3 _) ?_
          intro _
          exact h4 _ _
      · split
        · exact Keeps.pure _
        · exact h2 _

theorem Prims.terminateInTransitAt {m : Mach W} (hfull : FullOK K P m) (t : Sid) : KeepsAt K (terminateInTransit P t) m := by
  unfold SC.terminateInTransit
  refine KeepsAt.bind (Keeps.get m) ?_
  intro mm m1 hmm
  cases hmm
  refine Keeps.bind (hK.terminateState hfull t) (fun _ => ?_) m
  apply hK.core'; intro m; exact ⟨by constructor <;> rfl, rfl⟩

omit hK in
theorem keeps_terminateInTransit_fe (t : Sid) : Keeps feK (terminateInTransit P t) := fun _ =>
  (fePrims P).terminateInTransitAt (fun _ => keeps_fullExit_fe) t

omit hK in
theorem KeepsAt.bindFull {α β : Type} {x : M W β} {f : β → M W α} {m : Mach W} (hm : FullOK K P m) (hx : KeepsAt K x m) (hfe : Keeps feK x)
    (hf : ∀ b m', FullOK K P m' → KeepsAt K (f b) m') : KeepsAt K (x >>= f) m :=
  KeepsAt.bind hx fun b m' h => hf b m' fun h' => hm (by rw [← (hfe.ok h : m'.fullExit = m.fullExit)]; exact h')

theorem Prims.relaxedExitAt {m : Mach W} (hm : FullOK K P m) (s t : Sid) (c q : Option Sid) (a : Option Nat) : KeepsAt K (relaxedExit P s t c q a) m := by
  have h1 := hK.addRef
  have h2 := hK.release
  have h3 := hK.action
  have hF := fePrims P
  unfold relaxedExit
  dsimp only
  split
  · refine KeepsAt.bindFull hm (keeps_checkCtx _ _) (keeps_checkCtx _) fun _ m1 hm1 => ?_
    exact KeepsAt.bindFull hm1 (h3 _ _) (hF.action _) fun _ m2 hm2 => hK.terminateInTransitAt hm2 _
  · split
    · exact KeepsAt.bind (hK.terminateInTransitAt hm _) fun _ m1 _ => Keeps.bind (keeps_checkCtx _) (fun _ => h3 _) m1
    · split
      · trivial
      · refine KeepsAt.bindFull hm (h1 _ _) (hF.addRef _) fun _ m1 hm1 => ?_
        refine KeepsAt.bindFull hm1 (KeepsAt.finally' ?_ (h2 _)) (Keeps.finally' ?_ (hF.release _)) fun _ m2 hm2 => hK.terminateInTransitAt hm2 _
        · exact KeepsAt.bind (hK.terminateInTransitAt hm1 _) fun _ m1 _ => Keeps.bind (keeps_checkCtx _) (fun _ => h3 _) m1
        · exact Keeps.bind (keeps_terminateInTransit_fe _) fun _ => Keeps.bind (keeps_checkCtx _) fun _ => hF.action _

theorem Prims.transitRelaxedAt {m : Mach W} (hm : FullOK K P m) (s : Sid) (d : Target) (q : Option Sid) (a : Option Nat) :
    KeepsAt K (transitRelaxed P s d q a) m := by
  have h1 := hK.addRef
  have h2 := hK.release
  have h4 := hK.build
  have hF := fePrims P
  unfold SC.transitRelaxed
  split
  · trivial
  · refine KeepsAt.bindFull hm (keeps_getObj _ _) (keeps_getObj _) fun _ m1 hm1 => ?_
    dsimp only
    split
    · refine KeepsAt.bindFull hm1 (Keeps.pure _ _) (Keeps.pure _) fun _ m2 hm2 => KeepsAt.finally' ?_ (Keeps.pure _)
      exact KeepsAt.bind (hK.relaxedExitAt hm2 _ _ _ _ _) fun _ m3 _ => h4 _ _ m3
    · refine KeepsAt.bindFull hm1 (h1 _ _) (hF.addRef _) fun _ m2 hm2 => KeepsAt.finally' ?_ (h2 _)
      exact KeepsAt.bind (hK.relaxedExitAt hm2 _ _ _ _ _) fun _ m3 _ => h4 _ _ m3

theorem Prims.transitAt {m : Mach W} (hfull : FullOK K P m) (s : Sid) (d : Target) (a : Option Nat) :
    KeepsAt K (transit P s d a) m := by
  unfold SC.transit
  split
  · exact hK.transitRelaxedAt hfull _ _ _ _
  · exact hK.transitDefaultAt hfull _ _ _

theorem Prims.terminateReactionAt {m : Mach W} (hfull : m.fullExit = true → ∀ s, Keeps K (fullExitPart P s)) (s : Sid) :
    KeepsAt K (terminateReaction P s) m := by
  unfold SC.terminateReaction
  refine KeepsAt.bind (Keeps.get m) ?_
  intro mm m3 hmm
  cases hmm
  exact Keeps.bind (hK.terminateState hfull s) (fun _ => hK.setOU _) m

end

/-! ## Reactions -/

/-- Also kept by deferral. -/
structure RPrims (K : KRel W) (P : Prog W) : Prop extends Prims K P where
  deferEvent : ∀ s, Keeps K (deferEvent s : M W Unit)

theorem CorePrims.rprims (hK : CorePrims K P) : RPrims K P where
  toPrims := hK.toStepPrims.prims
  deferEvent s := by
    unfold SC.deferEvent
    refine Keeps.bind (keeps_getObj s) fun o => Keeps.ite (fun _ m => ?_) fun _ => Keeps.fault _
    have h1 : K.R m { m with heap := upd m.heap s (some { o with deferred := true }) } := hK.core (by constructor <;> rfl)
    exact K.trans h1 (hK.hold s _)

section
variable (hK : RPrims K P)
include hK

theorem RPrims.customReactAt (hR : ∀ {a b}, K.R a b → FullOK K P a → FullOK K P b) {m : Mach W} (hm : FullOK K P m)
    (s : Sid) (id : Nat) (e : Event) : KeepsAt K (customReact P s id e) m := by
  unfold SC.customReact
  refine KeepsAt.bind (Keeps.get m) ?_
  intro mm m1 hmm
  cases hmm
  refine KeepsAt.bind (hK.react s id e m) ?_
  intro _ m2 h2
  have hm2 := hR ((hK.react s id e).ok h2) hm
  split
  · exact Keeps.pure _ _
  · exact Keeps.pure _ _
  · exact Keeps.bind (hK.deferEvent s) (fun _ => Keeps.pure _) m2
  · exact KeepsAt.bind (hK.transitAt hm2 _ _ _) (fun _ _ _ => Keeps.pure _ _)
  · exact KeepsAt.bind (hK.terminateReactionAt hm2 _) (fun _ _ _ => Keeps.pure _ _)

theorem RPrims.reactOneAt (hR : ∀ {a b}, K.R a b → FullOK K P a → FullOK K P b) {m : Mach W} (hm : FullOK K P m)
    (s : Sid) (e : Event) (r : Reaction) : KeepsAt K (reactOne P s e r) m := by
  unfold SC.reactOne
  split
  · split
    · exact KeepsAt.bind (hK.transitAt hm _ _ _) (fun _ _ _ => Keeps.pure _ _)
    · exact Keeps.bind (hK.action _) (fun _ => Keeps.pure _) m
    · exact KeepsAt.bind (hK.terminateReactionAt hm _) (fun _ _ _ => Keeps.pure _ _)
    · exact Keeps.bind (hK.deferEvent s) (fun _ => Keeps.pure _) m
    · exact hK.customReactAt hR hm s _ e
  · exact Keeps.pure _ _

theorem RPrims.localReactAt (hR : ∀ {a b}, K.R a b → FullOK K P a → FullOK K P b)
    (s : Sid) (e : Event) : ∀ (l : List Reaction) {m : Mach W}, FullOK K P m → KeepsAt K (localReact P s e l) m := by
  intro l
  induction l with
  | nil => intro m _; exact Keeps.pure _ _
  | cons r rs ih =>
    intro m hm
    unfold SC.localReact
    refine KeepsAt.bind (hK.reactOneAt hR hm s e r) ?_
    intro x m1 h1
    have hm1 := hR ((hK.reactOneAt hR hm s e r).ok h1) hm
    split
    · exact ih hm1
    · exact Keeps.pure _ _

theorem RPrims.reactFAt (hR : ∀ {a b}, K.R a b → FullOK K P a → FullOK K P b) (e : Event) (f : Nat) :
    ∀ (s : Sid) {m : Mach W}, FullOK K P m → KeepsAt K (reactF P f s e) m := by
  induction f with
  | zero => intro s m _; trivial
  | succ f ih =>
    intro s m hm
    unfold SC.reactF
    refine KeepsAt.bind (keeps_getObj s m) ?_
    intro _ m1 h1
    have hm1 := hR ((keeps_getObj s).ok h1) hm
    refine KeepsAt.bind (hK.localReactAt hR s e _ hm1) ?_
    intro x m2 h2
    have hm2 := hR ((hK.localReactAt hR s e _ hm1).ok h2) hm1
    split
    · refine KeepsAt.bind (keeps_getObj s m2) ?_
      intro o m3 h3
      have hm3 := hR ((keeps_getObj s).ok h3) hm2
      split
      · split
        · exact Keeps.pure _ _
        · exact ih _ hm3
      · trivial
    · exact Keeps.pure _ _

end

end SC
