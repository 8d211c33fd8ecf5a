import Verif.Dispatch
/-!
# The logs do not influence execution

`Par P i b1 b2 m1 m2`: two machines that differ only in their logs, to which the same was added since `b1` and `b2`
(and, if `i`, in `isInnermostCommonOuter_`). `Blind P i f`: run on two such machines `f` has the same outcome.
-/

namespace SC
variable {W α β : Type}

/-- The allocation of nodes of the list and the maps succeeds and has no effect. -/
def NodeAlloc (P : Prog W) : Prop :=
  ∀ w, (∀ s, P.alloc (.leafNode s) w = (w, none)) ∧ (∀ k, P.alloc (.shallowNode k) w = (w, none)) ∧ ∀ k, P.alloc (.deepNode k) w = (w, none)

structure Par (P : Prog W) (i : Bool) (b1 b2 m1 m2 : Mach W) : Prop where
  heap : m1.heap = m2.heap
  slot : m1.slot = m2.slot
  endIx : m1.endIx = m2.endIx
  outermost : m1.outermost = m2.outermost
  ico : i = false → m1.ico = m2.ico
  pOU : m1.pOU = m2.pOU
  fullExit : m1.fullExit = m2.fullExit
  sh : m1.sh = m2.sh
  dh : m1.dh = m2.dh
  nodes : (m1.len = m2.len ∧ m1.shKeys = m2.shKeys ∧ m1.dhKeys = m2.dhKeys) ∨ (NodeAlloc P ∧ m1.len ≤ m2.len ∧
    (∀ k, m1.shKeys k = true → m2.shKeys k = true) ∧ ∀ k, m1.dhKeys k = true → m2.dhKeys k = true)
  evq : m1.evq = m2.evq
  dq : m1.dq = m2.dq
  trig : m1.trig = m2.trig
  world : m1.world = m2.world
  trace : ∃ l, m1.trace = b1.trace ++ l ∧ m2.trace = b2.trace ++ l
  qlog : ∃ l, m1.qlog = b1.qlog ++ l ∧ m2.qlog = b2.qlog ++ l
  xlog : ∃ l, m1.xlog = b1.xlog ++ l ∧ m2.xlog = b2.xlog ++ l
  lp : ∀ {s o}, m2.heap s = some o → P.isLeaf s = false → o.lpos = 0
  sl : ∀ {k s}, m2.slot k = some s → P.isLeaf s = true
  ou : i = true → m2.pOU = none

def ParR (P : Prog W) (i : Bool) (b1 b2 : Mach W) : Res W α → Res W α → Prop
  | .ok a m1, .ok a' m2 => a = a' ∧ Par P i b1 b2 m1 m2
  | .thrown x m1, .thrown x' m2 => x = x' ∧ Par P i b1 b2 m1 m2
  | .fault _, _ => True
  | _, _ => False

def Blind (P : Prog W) (i : Bool) (f : M W α) : Prop := ∀ b1 b2 m1 m2, Par P i b1 b2 m1 m2 → ParR P i b1 b2 (f m1) (f m2)

theorem snoc_ex {γ : Type} {a b c d : List γ} (h : ∃ l, a = c ++ l ∧ b = d ++ l) (x : List γ) : ∃ l, a ++ x = c ++ l ∧ b ++ x = d ++ l := by
  obtain ⟨l, rfl, rfl⟩ := h
  exact ⟨l ++ x, by simp, by simp⟩

section
variable {P : Prog W} {i : Bool} {b1 b2 m1 m2 : Mach W}

theorem Par.terminated (h : Par P i b1 b2 m1 m2) : m1.terminated = m2.terminated := by unfold Mach.terminated; rw [h.outermost]

theorem Par.view (h : Par P i b1 b2 m1 m2) : m1.view = m2.view := by
  unfold Mach.view; rw [h.endIx, h.slot, h.heap, h.terminated, h.trig]

theorem Par.log (h : Par P i b1 b2 m1 m2) (o : Obs) : Par P i b1 b2 (m1.log o) (m2.log o) :=
  { h with trace := by
            show ∃ l, m1.trace ++ [(m1.trig, o)] = _ ∧ m2.trace ++ [(m2.trig, o)] = _
            rw [h.trig]; exact snoc_ex h.trace _ }

theorem Par.raise (h : Par P i b1 b2 m1 m2) (x : Exc) : Par P i b1 b2 (m1.raise x) (m2.raise x) :=
  { h with xlog := snoc_ex h.xlog _ }

theorem Par.logs (l : List Obs) : ∀ {m1 m2 : Mach W}, Par P i b1 b2 m1 m2 → Par P i b1 b2 (l.foldl Mach.log m1) (l.foldl Mach.log m2) := by
  induction l with
  | nil => exact fun h => h
  | cons o l ih => exact fun h => ih (h.log o)

theorem keys_upd {K : Type} [DecidableEq K] {f g : K → Bool} (h : ∀ k, f k = true → g k = true) (j k : K) (hk : upd f j true k = true) : upd g j true k = true := by
  unfold upd at *
  split
  · rfl
  · next e => rw [if_neg e] at hk; exact h k hk

theorem Par.shNode (h : Par P i b1 b2 m1 m2) (k : HKey) (v : Option HFn) : Par P i b1 b2 { m1 with sh := upd m1.sh k v, shKeys := upd m1.shKeys k true }
    { m2 with sh := upd m2.sh k v, shKeys := upd m2.shKeys k true } :=
  { h with
    sh := by show upd m1.sh k _ = upd m2.sh k _; rw [h.sh]
    nodes := h.nodes.imp (fun ⟨a, b, c⟩ => ⟨a, by show upd m1.shKeys k true = upd m2.shKeys k true; rw [b], c⟩) (fun ⟨a, b, c, d⟩ => ⟨a, b, keys_upd c k, d⟩) }

theorem Par.dhNode (h : Par P i b1 b2 m1 m2) (k : HKey) (v : Option HFn) : Par P i b1 b2 { m1 with dh := upd m1.dh k v, dhKeys := upd m1.dhKeys k true }
    { m2 with dh := upd m2.dh k v, dhKeys := upd m2.dhKeys k true } :=
  { h with
    dh := by show upd m1.dh k _ = upd m2.dh k _; rw [h.dh]
    nodes := h.nodes.imp (fun ⟨a, b, c⟩ => ⟨a, b, by show upd m1.dhKeys k true = upd m2.dhKeys k true; rw [c]⟩) (fun ⟨a, b, c, d⟩ => ⟨a, b, c, keys_upd d k⟩) }

theorem Par.cmd (h : Par P i b1 b2 m1 m2) (c : Cmd) : Par P i b1 b2 (m1.cmd c) (m2.cmd c) := by
  cases c with
  | post e => exact { h with
      evq := by show m1.evq ++ [e] = m2.evq ++ [e]; rw [h.evq]
      qlog := snoc_ex h.qlog _ }
  | clearShallow k => exact { h.shNode k none with }
  | clearDeep k => exact { h.dhNode k none with }

theorem Par.cmds (l : List Cmd) : ∀ {m1 m2 : Mach W}, Par P i b1 b2 m1 m2 → Par P i b1 b2 (l.foldl Mach.cmd m1) (l.foldl Mach.cmd m2) := by
  induction l with
  | nil => exact fun h => h
  | cons o l ih => exact fun h => ih (h.cmd o)

theorem Par.setWorld (h : Par P i b1 b2 m1 m2) (w : W) : Par P i b1 b2 { m1 with world := w } { m2 with world := w } :=
  { h with world := rfl }

end

namespace Blind
variable {P : Prog W} {i : Bool}

theorem pure (a : α) : Blind P i (Pure.pure a : M W α) := fun _ _ _ _ h => ⟨rfl, h⟩
theorem throw (x : Exc) : Blind P i (M.throw x : M W α) := fun _ _ _ _ h => ⟨rfl, h⟩
theorem fault (f : Fault) : Blind P i (M.fault f : M W α) := fun _ _ _ _ _ => trivial

theorem bind {x : M W α} {f : α → M W β} (hx : Blind P i x) (hf : ∀ a, Blind P i (f a)) : Blind P i (x >>= f) := by
  intro b1 b2 m1 m2 h
  have h1 := hx b1 b2 m1 m2 h
  show ParR P i b1 b2 (match x m1 with | .ok a m' => f a m' | .thrown e m' => .thrown e m' | .fault g => .fault g)
    (match x m2 with | .ok a m' => f a m' | .thrown e m' => .thrown e m' | .fault g => .fault g)
  revert h1
  cases x m1 <;> cases x m2 <;> intro h1
  · obtain ⟨rfl, h1⟩ := h1; exact hf _ _ _ _ _ h1
  all_goals first | exact h1 | exact h1.elim | trivial

theorem _root_.SC.ParR.bind {b1 b2 m1 m2 : Mach W} {x y : M W α} {f g : α → M W β} (h1 : ParR P i b1 b2 (x m1) (y m2))
    (hf : ∀ a n1 n2, Par P i b1 b2 n1 n2 → ParR P i b1 b2 (f a n1) (g a n2)) : ParR P i b1 b2 ((x >>= f) m1) ((y >>= g) m2) := by
  show ParR P i b1 b2 (match x m1 with | .ok a m' => f a m' | .thrown e m' => .thrown e m' | .fault g => .fault g)
    (match y m2 with | .ok a m' => g a m' | .thrown e m' => .thrown e m' | .fault g => .fault g)
  revert h1
  cases x m1 <;> cases y m2 <;> intro h1
  · obtain ⟨rfl, h1⟩ := h1; exact hf _ _ _ h1
  all_goals first | exact h1 | exact h1.elim | trivial

theorem modify {f : Mach W → Mach W} (h : ∀ {b1 b2 m1 m2}, Par P i b1 b2 m1 m2 → Par P i b1 b2 (f m1) (f m2)) : Blind P i (M.modify f) :=
  fun _ _ _ _ h1 => ⟨rfl, h h1⟩

/-- Reading something of the machine that does not depend on the logs. -/
theorem get {f : Mach W → M W α} (h : ∀ {b1 b2 m1 m2}, Par P i b1 b2 m1 m2 → f m1 = f m2) (hf : ∀ m, Blind P i (f m)) : Blind P i (M.get >>= f) := by
  intro b1 b2 m1 m2 h1
  show ParR P i b1 b2 (f m1 m1) (f m2 m2)
  rw [h h1]
  exact hf m2 _ _ _ _ h1

theorem getS {f : Mach W → M W α} (h : ∀ {b1 b2 m1 m2}, Par P i b1 b2 m1 m2 → f m1 = f m2)
    (hf : ∀ m : Mach W, (∀ {k s}, m.slot k = some s → P.isLeaf s = true) → Blind P i (f m)) : Blind P i (M.get >>= f) := by
  intro b1 b2 m1 m2 h1
  show ParR P i b1 b2 (f m1 m1) (f m2 m2)
  rw [h h1]
  exact hf m2 h1.sl _ _ _ _ h1

theorem ite' {c : Prop} [Decidable c] {x y : M W α} (hx : c → Blind P i x) (hy : Blind P i y) : Blind P i (if c then x else y) := by
  split
  · next h => exact hx h
  · exact hy

theorem ite {c : Prop} [Decidable c] {x y : M W α} (hx : Blind P i x) (hy : Blind P i y) : Blind P i (if c then x else y) := by
  split
  · exact hx
  · exact hy

theorem tryCatch {x : M W α} {f : Exc → M W α} (hx : Blind P i x) (hf : ∀ a, Blind P i (f a)) : Blind P i (M.tryCatch x f) := by
  intro b1 b2 m1 m2 h
  have h1 := hx b1 b2 m1 m2 h
  unfold M.tryCatch
  revert h1
  cases x m1 <;> cases x m2 <;> intro h1
  case thrown.thrown => obtain ⟨rfl, h1⟩ := h1; exact hf _ _ _ _ _ h1
  all_goals first | exact h1 | exact h1.elim | trivial

theorem finally' {x : M W α} {f : M W Unit} (hx : Blind P i x) (hf : Blind P i f) : Blind P i (M.finally' x f) := by
  intro b1 b2 m1 m2 h
  have h1 := hx b1 b2 m1 m2 h
  unfold M.finally'
  revert h1
  cases x m1 <;> cases x m2 <;> intro h1
  case ok.ok m1 _ m2 =>
    obtain ⟨rfl, h1⟩ := h1
    have h2 := hf b1 b2 _ _ h1
    simp only
    revert h2
    cases f m1 <;> cases f m2 <;> intro h2
    case ok.ok => exact ⟨rfl, h2.2⟩
    all_goals first | exact h2 | exact h2.elim | trivial
  case thrown.thrown m1 _ m2 =>
    obtain ⟨rfl, h1⟩ := h1
    have h2 := hf b1 b2 _ _ h1
    simp only
    revert h2
    cases f m1 <;> cases f m2 <;> intro h2
    case ok.ok => exact ⟨rfl, h2.2⟩
    case thrown.thrown => trivial
    all_goals first | exact h2 | exact h2.elim | trivial
  all_goals first | exact h1 | exact h1.elim | trivial

theorem onThrow {x : M W α} {f : M W Unit} (hx : Blind P i x) (hf : Blind P i f) : Blind P i (M.onThrow x f) := by
  intro b1 b2 m1 m2 h
  have h1 := hx b1 b2 m1 m2 h
  unfold M.onThrow
  revert h1
  cases x m1 <;> cases x m2 <;> intro h1
  case thrown.thrown m1 _ m2 =>
    obtain ⟨rfl, h1⟩ := h1
    have h2 := hf b1 b2 _ _ h1
    simp only
    revert h2
    cases f m1 <;> cases f m2 <;> intro h2
    case ok.ok => exact ⟨rfl, h2.2⟩
    case thrown.thrown => trivial
    all_goals first | exact h2 | exact h2.elim | trivial
  all_goals first | exact h1 | exact h1.elim | trivial

theorem withTrig {x : M W α} (hx : Blind P i x) (e : Option Event) : Blind P i (withTrig e x) := by
  intro b1 b2 m1 m2 h
  have h1 := hx b1 b2 { m1 with trig := e } { m2 with trig := e } { h with trig := rfl }
  unfold SC.withTrig
  revert h1
  cases x { m1 with trig := e } <;> cases x { m2 with trig := e } <;> intro h1
  all_goals first
    | exact ⟨h1.1, { h1.2 with trig := h.trig }⟩
    | exact h1.elim
    | trivial

variable (P)

variable {P} in
theorem runUser (f : View → W → UOut W) (a b : List Obs) : Blind P i (runUser f a b) := by
  intro b1 b2 m1 m2 h
  unfold SC.runUser
  rw [h.view, h.world]
  have h1 := Par.cmds (f m2.view m2.world).cmds (h.setWorld (f m2.view m2.world).world)
  simp only
  cases (f m2.view m2.world).throws with
  | none => exact ⟨rfl, h1.logs a⟩
  | some x => exact ⟨rfl, (h1.logs b).raise x⟩

theorem allocate (s : Site) : Blind P i (allocate P s) := by
  intro b1 b2 m1 m2 h
  unfold SC.allocate
  rw [h.world]
  rcases P.alloc s m2.world with ⟨w, _ | x⟩
  · exact ⟨rfl, h.setWorld w⟩
  · exact ⟨rfl, (h.setWorld w).raise x⟩

theorem allocNode {has : Mach W → Bool} {s : Site} (hh : ∀ {b1 b2 m1 m2}, Par P i b1 b2 m1 m2 → has m1 = has m2 ∨ ∀ w, P.alloc s w = (w, none)) :
    Blind P i (allocNode P has s) := by
  intro b1 b2 m1 m2 h
  unfold SC.allocNode
  rcases hh h with hh | hh
  · rw [hh]
    split
    · exact ⟨rfl, h⟩
    · exact allocate P s b1 b2 m1 m2 h
  · have e : ∀ m : Mach W, (if has m then .ok () m else SC.allocate P s m) = .ok () m := by
      intro m
      split
      · rfl
      · unfold SC.allocate; rw [hh]
    rw [e, e]
    exact ⟨rfl, h⟩

variable {P} in
theorem shKey {k : HKey} {b1 b2 m1 m2 : Mach W} (h : Par P i b1 b2 m1 m2) : m1.shKeys k = m2.shKeys k ∨ ∀ w, P.alloc (.shallowNode k) w = (w, none) :=
  h.nodes.imp (fun h => by rw [h.2.1]) fun h w => (h.1 w).2.1 k

variable {P} in
theorem dhKey {k : HKey} {b1 b2 m1 m2 : Mach W} (h : Par P i b1 b2 m1 m2) : m1.dhKeys k = m2.dhKeys k ∨ ∀ w, P.alloc (.deepNode k) w = (w, none) :=
  h.nodes.imp (fun h => by rw [h.2.2]) fun h w => (h.1 w).2.2 k

variable {P} in
theorem getObj (s : Sid) : Blind P i (getObj s : M W Obj) := by
  intro b1 b2 m1 m2 h
  unfold SC.getObj
  rw [h.heap]
  cases m2.heap s with
  | none => trivial
  | some o => exact ⟨rfl, h⟩

variable {P} in
/-- Reading a state object. -/
theorem obj {s : Sid} {f : Obj → M W α} (hf : ∀ o, (P.isLeaf s = false → o.lpos = 0) → Blind P i (f o)) : Blind P i (SC.getObj s >>= f) := by
  intro b1 b2 m1 m2 h
  show ParR P i b1 b2 (M.bnd (SC.getObj s) f m1) (M.bnd (SC.getObj s) f m2)
  unfold M.bnd SC.getObj
  rw [h.heap]
  cases ho : m2.heap s with
  | none => trivial
  | some o => exact hf o (h.lp ho) _ _ _ _ h

variable {P} in
theorem lp_upd {hp : Sid → Option Obj} (h : ∀ {s o}, hp s = some o → P.isLeaf s = false → o.lpos = 0) {s : Sid} {o : Option Obj}
    (ho : ∀ x ∈ o, P.isLeaf s = false → x.lpos = 0) {t : Sid} {x : Obj} (hx : upd hp s o t = some x) : P.isLeaf t = false → x.lpos = 0 := by
  unfold upd at hx
  split at hx
  · next e => subst e; exact ho x hx
  · exact h hx

variable {P} in
theorem sl_upd {sl : Nat → Option Sid} (h : ∀ {k s}, sl k = some s → P.isLeaf s = true) {j : Nat} {o : Option Sid} (ho : ∀ x ∈ o, P.isLeaf x = true) {k : Nat} {x : Sid}
    (hx : upd sl j o k = some x) : P.isLeaf x = true := by
  unfold upd at hx
  split at hx
  · exact ho x hx
  · exact h hx

variable {P} in
theorem setObj (s : Sid) (o : Obj) (ho : P.isLeaf s = false → o.lpos = 0) : Blind P i (setObj s o : M W Unit) :=
  modify fun {_ _ m1 m2} h => { h with
    heap := by show upd m1.heap s _ = upd m2.heap s _; rw [h.heap]
    lp := lp_upd h.lp (by rintro x ⟨⟩; exact ho) }

variable {P} in
theorem addRef (s : Sid) : Blind P i (addRef s : M W Unit) := obj fun o ho => setObj _ _ ho

theorem removeInner (c : Option Sid) (k : Nat) : Blind P i (removeInner P c k) := by
  unfold SC.removeInner
  cases c with
  | none => exact ite (modify fun h => { h with outermost := rfl }) (fault _)
  | some p => exact obj fun o ho => ite (setObj _ _ ho) (fault _)

theorem addInner (c : Option Sid) (k : Nat) (s : Sid) : Blind P i (addInner P c k s) := by
  unfold SC.addInner
  cases c with
  | none => exact ite (modify fun h => { h with outermost := rfl }) (fault _)
  | some p => exact obj fun o ho => ite (setObj _ _ ho) (fault _)

variable {P} in
theorem releaseEvents (s : Sid) : Blind P i (releaseEvents s : M W Unit) :=
  modify fun {_ _ m1 m2} h => { h with
    evq := by show m1.dq ++ m1.evq = m2.dq ++ m2.evq; rw [h.dq, h.evq]
    dq := rfl
    qlog := snoc_ex h.qlog _ }

theorem userDtor (s : Sid) : Blind P i (userDtor P s) := by
  refine modify fun {b1 b2 m1 m2} h => ?_
  rw [h.view, h.world]
  exact (Par.cmds (P.dtor s m2.view m2.world).2 (h.setWorld (P.dtor s m2.view m2.world).1)).log (.destroy s)

variable {P} in
theorem forget (s : Sid) : Blind P i (M.modify fun m : Mach W => { m with heap := upd m.heap s none }) :=
  modify fun {_ _ m1 m2} h => { h with
    heap := by show upd m1.heap s _ = upd m2.heap s _; rw [h.heap]
    lp := lp_upd h.lp (by rintro x ⟨⟩) }

theorem baseDtor {rel : Sid → M W Unit} (hr : ∀ s, Blind P i (rel s)) (s : Sid) : Blind P i (baseDtor P rel s) := by
  have hp : Blind P i (SC.removeInner P (P.parent s) (P.pos s) >>= fun _ => (M.modify fun m => { m with heap := upd m.heap s none }) >>= fun _ =>
      match P.parent s with | none => Pure.pure () | some p => rel p) := by
    refine bind (removeInner P _ _) fun _ => bind (forget s) fun _ => ?_
    cases P.parent s with
    | none => exact pure _
    | some p => exact hr p
  exact obj fun o ho => ite (ite (bind (releaseEvents s) fun _ => hp) hp) (forget s)

theorem releaseF : ∀ (f : Nat) (s : Sid), Blind P i (releaseF P f s)
  | 0, _ => fault _
  | f + 1, s => obj fun o ho => ite (fault _) (ite (bind (setObj _ _ ho) fun _ => bind (userDtor P s) fun _ => baseDtor P (releaseF f) s) (setObj _ _ ho))

theorem release (s : Sid) : Blind P i (release P s) := releaseF P _ s

variable {P} in
theorem releaseBase (s : Sid) : Blind P i (releaseBase s : M W Unit) := obj fun o ho => ite (fault _) (setObj _ _ ho)

variable {P} in
theorem setOU (n : Option Sid) : Blind P false (setOU n : M W Unit) := by
  refine bind ?_ fun _ => get (fun h => by rw [h.pOU]) fun m => bind (modify fun h => { h with pOU := rfl, ou := fun h => by cases h }) fun _ => ?_
  · cases n with
    | none => exact pure _
    | some t => exact addRef t
  · cases m.pOU with
    | none => exact pure _
    | some t => exact releaseBase t

theorem setCtxOU (s : Sid) : Blind P false (setCtxOU P s) := obj fun o ho => ite (setOU _) (fault _)

theorem histNode {has : Mach W → Bool} {site : Site} (hh : ∀ {b1 b2 m1 m2}, Par P i b1 b2 m1 m2 → has m1 = has m2 ∨ ∀ w, P.alloc site w = (w, none)) (s : Sid) (k : Option Sid) :
    Blind P i (histNode P has site s k) := onThrow (allocNode P hh) (modify fun h => { h with })

theorem storeShallow (s : Sid) : Blind P i (storeShallow P s) := by
  unfold SC.storeShallow
  refine ite ?_ (pure _)
  cases P.parent s with
  | none => exact pure _
  | some p =>
    refine bind (histNode P shKey _ _) fun _ => modify fun {_ _ m1 m2} h => ?_
    exact { h.shNode _ _ with }

theorem storeDeepF : ∀ (f : Nat) (c l : Sid), Blind P i (storeDeepF P f c l)
  | 0, _, _ => fault _
  | f + 1, c, l => by
    unfold SC.storeDeepF
    cases P.parent c with
    | none => exact pure _
    | some p =>
      refine ite (obj fun o ho => bind (ite (bind (histNode P dhKey _ _) fun _ => modify fun {_ _ m1 m2} h => ?_) (pure _)) fun _ =>
        storeDeepF f p l) (pure _)
      exact { h.dhNode _ _ with }

theorem storeDeep (s : Sid) : Blind P i (storeDeep P s) := ite (storeDeepF P _ _ _) (pure _)

theorem fullExitPart (s : Sid) : Blind P i (fullExitPart P s) :=
  bind (runUser _ _ _) fun _ => bind (storeShallow P s) fun _ => storeDeep P s

theorem exitF : ∀ (f : Nat) (s : Sid) (full : Bool), Blind P false (exitF P f s full)
  | 0, _, _ => fault _
  | f + 1, s, full => by
    refine obj fun o ho => get (fun h => by rw [h.pOU]) fun m => ite (bind (ite (setCtxOU P s) (pure _)) fun _ =>
      get (fun h => by rw [h.pOU]) fun m => bind (ite (setCtxOU P s) (pure _)) fun _ => bind (onThrow (ite (fullExitPart P s) (pure _)) (release P s)) fun _ => ?_)
      (release P s)
    cases P.parent s with
    | none => exact release P s
    | some p => exact bind (addRef p) fun _ => bind (release P s) fun _ => exitF f p full

theorem exitImpl (s : Sid) (full : Bool) : Blind P false (exitImpl P s full) := exitF P _ s full

variable {P} in
theorem takeSlot (k : Nat) : Blind P i (takeSlot k : M W Sid) := by
  refine get (fun h => by rw [h.slot]) fun m => ?_
  cases m.slot k with
  | none => exact fault _
  | some t => exact bind (modify fun {_ _ m1 m2} h => { h with
      slot := by show upd m1.slot _ _ = upd m2.slot _ _; rw [h.slot]
      sl := sl_upd h.sl (by rintro x ⟨⟩) }) fun _ => pure _

theorem leafRemove (s : Sid) (full : Bool) : Blind P false (leafRemove P s full) := by
  intro b1 b2 m1 m2 h
  unfold SC.leafRemove
  show ParR P false b1 b2 ((if m1.endIx = 0 then M.fault .badIterator else _ : M W Unit) m1) ((if m2.endIx = 0 then M.fault .badIterator else _ : M W Unit) m2)
  rw [h.endIx]
  split
  · trivial
  · refine ParR.bind (x := M.modify fun m => { m with endIx := m2.endIx - 1 }) ⟨rfl, { h with endIx := rfl }⟩ fun _ n1 n2 hn => ?_
    have hl : m1.len ≤ m2.len := h.nodes.elim (fun h => Nat.le_of_eq h.1) fun h => h.2.1
    show ParR P false b1 b2 (M.bnd (SC.getObj s) _ n1) (M.bnd (SC.getObj s) _ n2)
    unfold M.bnd SC.getObj
    rw [hn.heap]
    cases n2.heap s with
    | none => trivial
    | some o =>
      show ParR P false b1 b2 ((if o.lpos < m1.len then _ else M.fault .badIterator : M W Unit) n1) ((if o.lpos < m2.len then _ else M.fault .badIterator : M W Unit) n2)
      by_cases h1 : o.lpos < m1.len
      · rw [if_pos h1, if_pos (Nat.lt_of_lt_of_le h1 hl)]
        refine bind (modify fun {_ _ m1 m2} h => ?_) (fun _ => getS (fun h => by rw [h.slot]) fun m hm => ?_) b1 b2 n1 n2 hn
        · exact { h with
            slot := by show upd (upd m1.slot _ _) _ _ = upd (upd m2.slot _ _) _ _; rw [h.slot]
            sl := sl_upd (sl_upd h.sl (fun x hx => h.sl hx)) (fun x hx => h.sl hx) }
        · cases ht : m.slot o.lpos with
          | none => exact fault _
          | some t => exact obj fun ot _ => bind (setObj _ _ fun hl => (by rw [hm ht] at hl; cases hl)) fun _ => bind (takeSlot _) fun u => exitImpl P u full
      · rw [if_neg h1]; trivial

variable {P} in
theorem removeLoop {rec : Sid → M W Unit} (hr : ∀ s, Blind P i (rec s)) (s : Sid) : ∀ l, Blind P i (removeLoop rec s l)
  | [] => pure _
  | k :: l => by
    refine obj fun o ho => bind ?_ fun _ => removeLoop hr s l
    cases o.inner k with
    | none => exact pure _
    | some c => exact hr c

theorem removeF : ∀ (f : Nat) (s : Sid) (full : Bool), Blind P false (removeF P f s full)
  | 0, _, _ => fault _
  | f + 1, s, full => by
    refine obj fun o ho => ite (leafRemove P s full) ?_
    cases (List.range (P.regions (some s))).find? (fun i => (o.inner i).isSome) with
    | none => exact get (fun h => by rw [h.pOU]) fun m => ite (bind (addRef s) fun _ => exitImpl P s full) (fault _)
    | some k => exact removeLoop (fun c => removeF f c full) s _

theorem remove (s : Sid) (full : Bool) : Blind P false (remove P s full) := removeF P _ s full

theorem terminateState (s : Sid) (full : Bool) : Blind P false (terminateState P s full) := by
  refine bind (modify fun h => { h with ico := fun _ => rfl }) fun _ => ?_
  intro b1 b2 m1 m2 h
  have hl : m1.len ≤ m2.len := h.nodes.elim (fun h => Nat.le_of_eq h.1) fun h => h.2.1
  have e : ∀ m : Mach W, (M.get >>= fun m => if m.pOU ≠ none then SC.remove P s full
      else if m.endIx = 0 then M.fault .badIterator
      else if m.endIx = 1 then (M.modify fun m => { m with endIx := 0 }) >>= fun _ => SC.takeSlot 0 >>= fun t => SC.exitImpl P t full
      else if m.len > 1 then SC.remove P s full
      else M.fault .assertFail : M W Unit) m = (if m.pOU ≠ none then SC.remove P s full
      else if m.endIx = 0 then M.fault .badIterator
      else if m.endIx = 1 then (M.modify fun m => { m with endIx := 0 }) >>= fun _ => SC.takeSlot 0 >>= fun t => SC.exitImpl P t full
      else if m.len > 1 then SC.remove P s full
      else M.fault .assertFail : M W Unit) m := fun _ => rfl
  refine (e m1).symm ▸ (e m2).symm ▸ ?_
  rw [h.pOU, h.endIx]
  by_cases c1 : m2.pOU ≠ none
  · rw [if_pos c1, if_pos c1]; exact remove P s full _ _ _ _ h
  · rw [if_neg c1, if_neg c1]
    by_cases c2 : m2.endIx = 0
    · rw [if_pos c2, if_pos c2]; trivial
    · rw [if_neg c2, if_neg c2]
      by_cases c3 : m2.endIx = 1
      · rw [if_pos c3, if_pos c3]
        exact ParR.bind (x := M.modify fun m => { m with endIx := 0 }) ⟨rfl, { h with endIx := rfl }⟩ fun _ n1 n2 hn =>
          bind (takeSlot 0) (fun t => exitImpl P t full) _ _ _ _ hn
      · rw [if_neg c3, if_neg c3]
        by_cases c4 : m1.len > 1
        · rw [if_pos c4, if_pos (Nat.lt_of_lt_of_le c4 hl)]; exact remove P s full _ _ _ _ h
        · rw [if_neg c4]; trivial

variable {P} in
theorem clearAll : Blind P i (clearAll : M W Unit) := modify fun h => { h with
  evq := rfl, dq := rfl, sh := rfl, dh := rfl, nodes := h.nodes.imp (fun h => ⟨h.1, rfl, rfl⟩) (fun h => ⟨h.1, h.2.1, fun _ h => h, fun _ h => h⟩), qlog := snoc_ex h.qlog _ }

theorem terminateMachine (full : Bool) : Blind P false (terminateMachine P full) := by
  refine bind (modify fun h => { h with fullExit := rfl }) fun _ => get (fun h => by rw [h.outermost]) fun m => bind ?_ fun _ => clearAll
  cases m.outermost with
  | none => exact pure _
  | some s => exact terminateState P s full

theorem setContext (s : Sid) : Blind P i (setContext P s) := by
  refine bind ?_ fun _ => obj fun o ho => bind (setObj _ _ ho) fun _ => addInner P _ _ _
  cases P.parent s with
  | none => exact pure _
  | some p => exact addRef p

theorem runCtor (s : Sid) : Blind P i (runCtor P s) := by
  intro b1 b2 m1 m2 h
  unfold SC.runCtor
  rw [h.view, h.world]
  split
  · trivial
  · exact runUser (P.ctor s) _ _ b1 b2 m1 m2 h

theorem addLeaf {s : Sid} (hs : P.isLeaf s = true) : Blind P i (addLeaf P s) := by
  intro b1 b2 m1 m2 h
  have e : ∀ m : Mach W, SC.addLeaf P s m = ((if m.endIx = m.len then (SC.allocate P (.leafNode s) >>= fun _ => M.modify fun m => { m with len := m.len + 1 }) else Pure.pure ()) >>=
      fun _ => (match m.slot m.endIx with | none => Pure.pure () | some t => SC.releaseBase t) >>= fun _ => SC.addRef s >>= fun _ => SC.getObj s >>= fun o =>
      SC.setObj s { o with lpos := m.endIx } >>= fun _ => M.modify fun m => { m with slot := upd m.slot m.endIx (some s), endIx := m.endIx + 1 } : M W Unit) m := fun _ => rfl
  rw [e, e]
  refine ParR.bind ?_ fun _ n1 n2 hn => ?_
  · rcases h.nodes with hd | ⟨ha, hd⟩
    · rw [hd.1, h.endIx]
      split
      · refine ParR.bind (allocate P _ _ _ _ _ h) fun _ n1 n2 h => ⟨rfl, { h with nodes := ?_ }⟩
        exact h.nodes.imp (fun h => ⟨by show n1.len + 1 = n2.len + 1; rw [h.1], h.2⟩) (fun h => ⟨h.1, Nat.succ_le_succ h.2.1, h.2.2⟩)
      · exact ⟨rfl, h⟩
    · have e1 : ∀ m : Mach W, (SC.allocate P (.leafNode s) >>= fun _ => M.modify fun m => { m with len := m.len + 1 } : M W Unit) m = .ok () { m with len := m.len + 1 } := by
        intro m
        show M.bnd (SC.allocate P (.leafNode s)) _ m = _
        unfold M.bnd SC.allocate
        rw [(ha m.world).1 s]
        rfl
      rw [h.endIx]
      by_cases c1 : m2.endIx = m1.len
      · rw [if_pos c1]
        by_cases c2 : m2.endIx = m2.len
        · rw [if_pos c2, e1, e1]
          exact ⟨rfl, { h with nodes := .inr ⟨ha, Nat.succ_le_succ hd.1, hd.2⟩ }⟩
        · rw [if_neg c2, e1]
          exact ⟨rfl, { h with nodes := .inr ⟨ha, (by show m1.len + 1 ≤ m2.len; have := hd.1; omega), hd.2⟩ }⟩
      · rw [if_neg c1]
        by_cases c2 : m2.endIx = m2.len
        · rw [if_pos c2, e1]
          exact ⟨rfl, { h with nodes := .inr ⟨ha, (by show m1.len ≤ m2.len + 1; have := hd.1; omega), hd.2⟩ }⟩
        · rw [if_neg c2]
          exact ⟨rfl, h⟩
  · rw [h.slot, h.endIx]
    refine bind ?_ (fun _ => bind (addRef s) fun _ => obj fun o ho => bind (setObj _ _ fun hl => (by rw [hs] at hl; cases hl)) fun _ => modify fun {_ _ m1 m2} h => ?_) _ _ _ _ hn
    · cases m2.slot m2.endIx with
      | none => exact pure _
      | some t => exact releaseBase t
    · exact { h with
        slot := by show upd m1.slot m1.endIx _ = upd m2.slot m2.endIx _; rw [h.slot, h.endIx]
        sl := sl_upd h.sl (by rintro x ⟨⟩; exact hs)
        endIx := by show m1.endIx + 1 = m2.endIx + 1; rw [h.endIx] }

theorem addToMachine (s : Sid) : Blind P false (addToMachine P s) :=
  bind (ite' (addLeaf P) (pure _)) fun _ => get (fun h => by rw [h.ico rfl, h.pOU]) fun m =>
    ite (bind (modify fun h => { h with ico := fun _ => rfl }) fun _ => setOU _) (pure _)

theorem shallowConstruct (s : Sid) : Blind P false (shallowConstruct P s) :=
  bind (allocate P _) fun _ => get (fun h => by rw [h.heap]) fun m => ite (fault _) (bind (setObj _ _ fun _ => rfl) fun _ => bind (ite
    (bind (onThrow (runCtor P s) (baseDtor P (release P) s)) fun _ => bind (addRef s) fun _ => setContext P s)
    (bind (setContext P s) fun _ => bind (onThrow (runCtor P s) (baseDtor P (release P) s)) fun _ => addRef s)) fun _ =>
    onThrow (addToMachine P s) (release P s))

theorem lookupHist (k : TKind) (d : Sid) : Blind P i (lookupHist P k d) := by
  intro b1 b2 m1 m2 h
  unfold SC.lookupHist
  rw [h.sh, h.dh]
  cases P.parent d with
  | none => exact ⟨rfl, h⟩
  | some p => cases k <;> exact ⟨rfl, h⟩

theorem build : ∀ (f : Nat) (t : Task), Blind P false (build P f t)
  | 0, _ => fault _
  | f + 1, .deep s => bind (shallowConstruct P s) fun _ => finally' (build f _) (release P s)
  | _ + 1, .inners [] => pure _
  | f + 1, .inners (t :: ts) => bind (build f _) fun _ => build f _
  | f + 1, .target ⟨k, d⟩ => by
    refine bind (lookupHist P k d) fun h => ?_
    cases h with
    | none => exact build f _
    | some h =>
      show Blind _ _ (match hfnTask P d h with | none => M.fault .badCast | some t => SC.build P f t)
      cases hfnTask P d h with
      | none => exact fault _
      | some t => exact build f t
  | f + 1, .chain [] d => build f _
  | f + 1, .chain (x :: cs) d => bind (shallowConstruct P x) fun _ =>
    finally' (bind (build f _) fun _ => bind (build f _) fun _ => build f _) (release P x)

theorem initialConstruct : Blind P false (initialConstruct P) := build P _ _

theorem runAction (a : Option Nat) : Blind P i (runAction P a) := by
  cases a with
  | none => exact pure _
  | some a => exact runUser _ _ _

variable {P} in
theorem checkCtx (c : Option Sid) : Blind P i (checkCtx c : M W Unit) := by
  cases c with
  | none => exact pure _
  | some p => exact bind (getObj p) fun _ => pure _

theorem terminateInTransit (t : Sid) : Blind P false (terminateInTransit P t) :=
  get (fun h => by rw [h.fullExit]) fun m => bind (terminateState P t _) fun _ => modify fun h => { h with ico := fun _ => rfl }

variable {P} in
theorem addRefO (c : Option Sid) : Blind P i (match c with | none => Pure.pure () | some p => SC.addRef p : M W Unit) := by
  cases c with
  | none => exact pure _
  | some p => exact addRef p

theorem releaseO (c : Option Sid) : Blind P i (match c with | none => Pure.pure () | some p => SC.release P p : M W Unit) := by
  cases c with
  | none => exact pure _
  | some p => exact release P p

theorem transitDefault (s : Sid) (d : Target) (a : Option Nat) : Blind P false (transitDefault P s d a) := by
  unfold SC.transitDefault
  cases P.termState s d.st with
  | none => exact fault _
  | some t =>
    exact bind (getObj t) fun _ => bind (addRefO _) fun _ => finally' (get (fun h => by rw [h.fullExit]) fun m => bind (terminateState P t _) fun _ =>
      bind (modify fun h => { h with ico := fun _ => rfl }) fun _ => bind (checkCtx _) fun _ => bind (runAction P a) fun _ => build P _ _) (releaseO P _)

theorem relaxedExit (s t : Sid) (c q : Option Sid) (a : Option Nat) : Blind P false (relaxedExit P s t c q a) := by
  refine ite (bind (checkCtx _) fun _ => bind (runAction P a) fun _ => terminateInTransit P t) (ite (bind (terminateInTransit P t) fun _ => bind (checkCtx _) fun _ =>
    runAction P a) ?_)
  cases (P.actionCtxs s).getD (min ((P.actionCtxs s).idxOf q) ((P.ctxList s).idxOf c + 1)) none with
  | none => exact fault _
  | some r => exact bind (addRef r) fun _ => bind (finally' (bind (terminateInTransit P r) fun _ => bind (checkCtx _) fun _ => runAction P a) (release P r)) fun _ =>
    terminateInTransit P t

theorem transitRelaxed (s : Sid) (d : Target) (q : Option Sid) (a : Option Nat) : Blind P false (transitRelaxed P s d q a) := by
  unfold SC.transitRelaxed
  cases P.termState s d.st with
  | none => exact fault _
  | some t =>
    exact bind (getObj t) fun _ => bind (addRefO _) fun _ => finally' (bind (relaxedExit P s t _ q a) fun _ => build P _ _) (releaseO P _)

theorem transit (s : Sid) (d : Target) (a : Option Nat) : Blind P false (transit P s d a) :=
  ite (transitRelaxed P s d _ a) (transitDefault P s d a)

theorem terminateReaction (s : Sid) : Blind P false (terminateReaction P s) :=
  get (fun h => by rw [h.fullExit]) fun m => bind (terminateState P s _) fun _ => setOU none

variable {P} in
theorem deferEvent (s : Sid) : Blind P i (deferEvent s : M W Unit) := by
  refine obj fun o ho => ite (modify fun {b1 b2 m1 m2} h => ?_) (fault _)
  refine Par.log (m1 := { m1 with heap := _, qlog := _ }) (m2 := { m2 with heap := _, qlog := _ }) ?_ _
  exact { h with
    heap := by show upd m1.heap s _ = upd m2.heap s _; rw [h.heap]
    qlog := snoc_ex h.qlog _
    lp := lp_upd h.lp (by rintro x ⟨⟩; exact ho) }

theorem customReact (s : Sid) (id : Nat) (e : Event) : Blind P false (customReact P s id e) := by
  refine get (fun h => by rw [h.view, h.world]) fun m => bind (runUser _ _ _) fun _ => ?_
  cases (P.react s id e m.view m.world).2 with
  | discard => exact pure _
  | forward => exact pure _
  | defer => exact bind (deferEvent s) fun _ => pure _
  | transit d a => exact bind (transit P s d a) fun _ => pure _
  | terminate => exact bind (terminateReaction P s) fun _ => pure _

theorem reactOne (s : Sid) (e : Event) (r : Reaction) : Blind P false (reactOne P s e r) := by
  refine ite ?_ (pure _)
  cases r.kind with
  | transition d a => exact bind (transit P s d a) fun _ => pure _
  | inState a => exact bind (runAction P a) fun _ => pure _
  | termination => exact bind (terminateReaction P s) fun _ => pure _
  | deferral => exact bind (deferEvent s) fun _ => pure _
  | custom id => exact customReact P s id e

theorem localReact (s : Sid) (e : Event) : ∀ l, Blind P false (localReact P s e l)
  | [] => pure _
  | r :: l => bind (reactOne P s e r) fun _ => ite (localReact s e l) (pure _)

theorem reactF : ∀ (f : Nat) (s : Sid) (e : Event), Blind P false (reactF P f s e)
  | 0, _, _ => fault _
  | f + 1, s, e => by
    refine bind (getObj s) fun _ => bind (localReact P s e _) fun x => ite (bind (getObj s) fun o => ite ?_ (fault _)) (pure _)
    cases P.parent s with
    | none => exact pure _
    | some p => exact reactF f p e

theorem reactImpl (s : Sid) (e : Event) : Blind P false (reactImpl P s e) := reactF P _ s e

theorem guardTerm {x : M W α} (hx : Blind P false x) : Blind P false (guardTerm P x) := by
  intro b1 b2 m1 m2 h
  have h1 := hx b1 b2 m1 m2 h
  unfold SC.guardTerm
  revert h1
  cases x m1 <;> cases x m2 <;> intro h1
  case thrown.thrown m1 _ m2 =>
    obtain ⟨rfl, h1⟩ := h1
    have h2 := terminateMachine P false b1 b2 _ _ h1
    simp only
    revert h2
    cases SC.terminateMachine P false m1 <;> cases SC.terminateMachine P false m2 <;> intro h2
    case ok.ok => exact ⟨rfl, h2.2⟩
    case thrown.thrown => trivial
    all_goals first | exact h2 | exact h2.elim | trivial
  all_goals first | exact h1 | exact h1.elim | trivial

theorem handleException (c : Option Sid) (e : Event) (x : Exc) : Blind P false (handleException P c e x) := by
  refine get (fun h => by rw [h.terminated]; unfold Mach.handler; rw [h.pOU]) fun m => ite (throw x) ?_
  cases m.handler c with
  | none => exact fault _
  | some u =>
    refine withTrig (bind ?_ fun _ => bind (reactImpl P u e) fun r => bind ?_ fun _ => ?_) _
    · exact modify fun h => { h with fullExit := rfl }
    · exact modify fun h => { h with fullExit := rfl }
    · exact get (fun h => by rw [h.pOU]) fun m => ite (throw x) (pure _)

theorem translated (c : Option Sid) {x : M W RR} (hx : Blind P false x) : Blind P false (translated P c x) := by
  refine tryCatch hx fun e => ?_
  show Blind _ _ (match P.translate e with | none => M.throw e | some ev => SC.handleException P c ev e)
  cases P.translate e with
  | none => exact throw e
  | some ev => exact handleException P c ev e

theorem sendLoop (e : Event) : ∀ f k, Blind P false (sendLoop P e f k)
  | 0, _ => fault _
  | f + 1, k => by
    refine get (fun h => by rw [h.endIx, h.slot]) fun m => ite (pure _) ?_
    cases m.slot k with
    | none => exact fault _
    | some s => exact bind (translated P _ (reactImpl P s e)) fun _ => ite (sendLoop e f _) (pure _)

theorem sendEvent (e : Event) : Blind P false (sendEvent P e) :=
  withTrig (bind (guardTerm P (get (fun h => by rw [h.pOU, h.endIx]) fun m => ite (fault _) (sendLoop P e _ _))) fun r =>
    bind (ite (runUser _ _ _) (pure _)) fun _ => pure _) _

variable {P} in
theorem qop (o : QOp) : Blind P i (qop o : M W Unit) := modify fun h => { h with qlog := snoc_ex h.qlog _ }

/-- What `dispatch` does after `send_event`. -/
theorem dispatch' (e : Event) {x : M W RR} (hx : Blind P i x) : Blind P i (M.onThrow x (SC.qop (.done e)) >>= fun r =>
    if r = .defer then do
      M.onThrow (SC.allocate P (.deferNode e)) (SC.qop (.lost e))
      M.modify fun m => { m with dq := m.dq ++ [e], qlog := m.qlog ++ [.defer e] }
    else SC.qop (.done e)) :=
  bind (onThrow hx (qop _)) fun r => ite (bind (onThrow (allocate P _) (qop _)) fun _ => modify fun {_ _ m1 m2} h => { h with
    dq := by show m1.dq ++ [e] = m2.dq ++ [e]; rw [h.dq]
    qlog := snoc_ex h.qlog _ }) (qop _)

theorem dispatch (e : Event) : Blind P false (dispatch P e) := dispatch' P e (sendEvent P e)

theorem processQueued : ∀ k, Blind P false (processQueued P k)
  | 0 => get (fun h => by rw [h.evq]) fun m => pure _
  | k + 1 => by
    refine get (fun h => by rw [h.evq]) fun m => ?_
    cases m.evq with
    | nil => exact pure _
    | cons e q => exact bind (modify fun h => { h with evq := rfl, qlog := snoc_ex h.qlog _ }) fun _ => bind (dispatch P e) fun _ => processQueued k

theorem terminate : Blind P false (terminate P) :=
  bind (withTrig (guardTerm P (translated P none (bind (terminateMachine P true) fun _ => pure _))) none) fun _ => pure _

theorem construct (k : Nat) : Blind P false (construct P k) :=
  bind (withTrig (guardTerm P (translated P none (bind (initialConstruct P) fun _ => pure _))) none) fun _ => processQueued P k

theorem initiate (k : Nat) : Blind P false (initiate P k) := bind (terminate P) fun _ => construct P k

theorem processEvent (e : Event) (k : Nat) : Blind P false (processEvent P e k) :=
  bind (qop _) fun _ => bind (dispatch P e) fun _ => processQueued P k

theorem postEvent (e : Event) : Blind P i (postEvent P e) := bind (allocate P _) fun _ => modify fun h => h.cmd _

theorem clearShallowHistory (k : HKey) : Blind P i (clearShallowHistory P k) :=
  bind (allocNode P shKey) fun _ => modify fun h => h.cmd _

theorem clearDeepHistory (k : HKey) : Blind P i (clearDeepHistory P k) :=
  bind (allocNode P dhKey) fun _ => modify fun h => h.cmd _

theorem destruct : Blind P false (destruct P) := terminateMachine P false

end Blind
end SC
