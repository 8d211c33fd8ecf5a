import Verif.Dispatch
/-!
# Programs with the same code of some states

Programs that differ only in the code of states outside a set `A` do the same as long as all states that exist and all states in the histories are in `A`, if `A` is closed: states of `A`
lead only to states of `A`.
-/

namespace SC
variable {W α β : Type}

/-- The code of states. -/
structure Code (W : Type) where
  isSimple : Sid → Bool
  reactions : Sid → List Reaction
  ctor : Sid → View → W → UOut W
  exit : Sid → View → W → UOut W
  dtor : Sid → View → W → W × List Cmd
  react : Sid → Nat → Event → View → W → UOut W × Decision

/-- `P` with other code of states. -/
def Prog.withCode (P : Prog W) (K : Code W) : Prog W :=
  { P with isSimple := K.isSimple, reactions := K.reactions, ctor := K.ctor, exit := K.exit, dtor := K.dtor, react := K.react }

namespace Spec

/-- The initial state is in `A`, and states of `A` lead only to states of `A`: to outer states, to inner initial states, and by transitions. -/
structure Sealed (P : Prog W) (A : Sid → Prop) : Prop where
  initial : A P.initial
  outer : ∀ {s p}, A s → P.parent s = some p → A p
  inner : ∀ {s t}, A s → t ∈ P.init s → A t.st
  transition : ∀ {s r d a}, A s → r ∈ P.reactions s → r.kind = .transition d a → A d.st
  custom : ∀ {s id e v w d a}, A s → (P.react s id e v w).2 = .transit d a → A d.st

/-- The code of the states of `A` is the same. -/
structure SameCode (P : Prog W) (K : Code W) (A : Sid → Prop) : Prop where
  isSimple : ∀ {s}, A s → K.isSimple s = P.isSimple s
  reactions : ∀ {s}, A s → K.reactions s = P.reactions s
  ctor : ∀ {s}, A s → K.ctor s = P.ctor s
  exit : ∀ {s}, A s → K.exit s = P.exit s
  dtor : ∀ {s}, A s → K.dtor s = P.dtor s
  react : ∀ {s}, A s → K.react s = P.react s

end Spec

open Spec

/-- The states of a stored construct function are in `A`. -/
def HFn.In (A : Sid → Prop) : HFn → Prop
  | .deep s => A s
  | .chain l t => (∀ s ∈ l, A s) ∧ A t

/-- The states of a construction are in `A`. -/
def Task.In (A : Sid → Prop) : Task → Prop
  | .deep s => A s
  | .target t => A t.st
  | .chain l t => (∀ s ∈ l, A s) ∧ A t.st
  | .inners l => ∀ t ∈ l, A t.st

/-- No constructor of a state outside `A` is called. -/
def Obs.In (A : Sid → Prop) : Obs → Prop
  | .enter s | .enterFail s => A s
  | _ => True

/-- All states that exist, that were entered and that are in the histories are in `A`. -/
structure Within (A : Sid → Prop) (m : Mach W) : Prop where
  heap : ∀ s o, m.heap s = some o → A s
  sh : ∀ k f, m.sh k = some f → f.In A
  dh : ∀ k f, m.dh k = some f → f.In A
  trace : ∀ p ∈ m.trace, p.2.In A

/-- `x` and `y` do the same in all machines within `A`, and stay within `A`. -/
def Eqv (A : Sid → Prop) (Q : α → Prop) (x y : M W α) : Prop := ∀ m, Within A m → x m = y m ∧
  match x m with
  | .ok a n => Within A n ∧ Q a
  | .thrown _ n => Within A n
  | .fault _ => True

/-- No condition on the result. -/
abbrev Eqv0 (A : Sid → Prop) (x y : M W α) : Prop := Eqv A (fun _ => True) x y

namespace Eqv
variable {A : Sid → Prop} {Q : α → Prop} {Q' : β → Prop}

theorem pure {a : α} (h : Q a) : Eqv A Q (Pure.pure a : M W α) (Pure.pure a) := fun _ hm => ⟨rfl, hm, h⟩
theorem pure0 (a : α) : Eqv0 A (Pure.pure a : M W α) (Pure.pure a) := fun _ hm => ⟨rfl, hm, trivial⟩
theorem fault (g : Fault) : Eqv A Q (M.fault g : M W α) (M.fault g) := fun _ _ => ⟨rfl, trivial⟩
theorem throw (x : Exc) : Eqv A Q (M.throw x : M W α) (M.throw x) := fun _ hm => ⟨rfl, hm⟩
theorem get : Eqv A (Within A) (M.get : M W (Mach W)) M.get := fun _ hm => ⟨rfl, hm, hm⟩

theorem modify {f : Mach W → Mach W} (h : ∀ m, Within A m → Within A (f m)) : Eqv0 A (M.modify f) (M.modify f) := fun m hm => ⟨rfl, h m hm, trivial⟩

/-- The objects and histories are not changed. -/
theorem same {f : Mach W → Mach W} (h : ∀ m, (f m).heap = m.heap ∧ (f m).sh = m.sh ∧ (f m).dh = m.dh ∧ (f m).trace = m.trace) : Eqv0 A (M.modify f) (M.modify f) :=
  modify fun m hm => ⟨by rw [(h m).1]; exact hm.heap, by rw [(h m).2.1]; exact hm.sh, by rw [(h m).2.2.1]; exact hm.dh, by rw [(h m).2.2.2]; exact hm.trace⟩

theorem mono {Q' : α → Prop} {x y : M W α} (h : Eqv A Q x y) (hq : ∀ a, Q a → Q' a) : Eqv A Q' x y := by
  intro m hm
  obtain ⟨h1, h2⟩ := h m hm
  refine ⟨h1, ?_⟩
  revert h2
  cases x m with
  | ok a n => exact fun h => ⟨h.1, hq _ h.2⟩
  | thrown e n => exact fun h => h
  | fault g => exact fun h => h

theorem any {x y : M W α} (h : Eqv A Q x y) : Eqv0 A x y := h.mono fun _ _ => trivial

theorem bind {x y : M W α} {f k : α → M W β} (h : Eqv A Q x y) (hf : ∀ a, Q a → Eqv A Q' (f a) (k a)) : Eqv A Q' (x >>= f) (y >>= k) := by
  intro m hm
  obtain ⟨h1, h2⟩ := h m hm
  show M.bnd x f m = M.bnd y k m ∧ match M.bnd x f m with | .ok a n => Within A n ∧ Q' a | .thrown _ n => Within A n | .fault _ => True
  unfold M.bnd
  rw [← h1]
  revert h2
  cases x m with
  | ok a n => exact fun h => hf a h.2 n h.1
  | thrown e n => exact fun h => ⟨rfl, h⟩
  | fault g => exact fun h => ⟨rfl, h⟩

theorem tryCatch {x y : M W α} {f k : Exc → M W α} (h : Eqv A Q x y) (hf : ∀ e, Eqv A Q (f e) (k e)) : Eqv A Q (M.tryCatch x f) (M.tryCatch y k) := by
  intro m hm
  obtain ⟨h1, h2⟩ := h m hm
  unfold M.tryCatch
  rw [← h1]
  revert h2
  cases x m with
  | ok a n => exact fun h => ⟨rfl, h⟩
  | thrown e n => exact fun h => hf e n h
  | fault g => exact fun h => ⟨rfl, h⟩

theorem onThrow {x y : M W α} {u v : M W Unit} (h : Eqv A Q x y) (hu : Eqv0 A u v) : Eqv A Q (M.onThrow x u) (M.onThrow y v) := by
  intro m hm
  obtain ⟨h1, h2⟩ := h m hm
  unfold M.onThrow
  rw [← h1]
  revert h2
  cases x m with
  | ok a n => exact fun h => ⟨rfl, h⟩
  | fault g => exact fun h => ⟨rfl, h⟩
  | thrown e n =>
    intro h
    obtain ⟨h3, h4⟩ := hu n h
    simp only
    rw [← h3]
    revert h4
    cases u n with
    | ok a n' => exact fun h => ⟨rfl, h.1⟩
    | thrown e' n' => exact fun _ => ⟨rfl, trivial⟩
    | fault g => exact fun _ => ⟨rfl, trivial⟩

theorem finally' {x y : M W α} {u v : M W Unit} (h : Eqv A Q x y) (hu : Eqv0 A u v) : Eqv A Q (M.finally' x u) (M.finally' y v) := by
  intro m hm
  obtain ⟨h1, h2⟩ := h m hm
  unfold M.finally'
  rw [← h1]
  revert h2
  cases x m with
  | fault g => exact fun h => ⟨rfl, h⟩
  | ok a n =>
    intro h
    obtain ⟨h3, h4⟩ := hu n h.1
    simp only
    rw [← h3]
    revert h4
    cases u n with
    | ok b n' => exact fun h' => ⟨rfl, h'.1, h.2⟩
    | thrown e' n' => exact fun h' => ⟨rfl, h'⟩
    | fault g => exact fun _ => ⟨rfl, trivial⟩
  | thrown e n =>
    intro h
    obtain ⟨h3, h4⟩ := hu n h
    simp only
    rw [← h3]
    revert h4
    cases u n with
    | ok a n' => exact fun h => ⟨rfl, h.1⟩
    | thrown e' n' => exact fun _ => ⟨rfl, trivial⟩
    | fault g => exact fun _ => ⟨rfl, trivial⟩

theorem withTrig {x y : M W α} (ev : Option Event) (h : Eqv A Q x y) : Eqv A Q (withTrig ev x) (withTrig ev y) := by
  intro m hm
  obtain ⟨h1, h2⟩ := h { m with trig := ev } ⟨hm.heap, hm.sh, hm.dh, hm.trace⟩
  unfold SC.withTrig
  rw [← h1]
  revert h2
  cases x { m with trig := ev } with
  | ok a n => exact fun h => ⟨rfl, ⟨h.1.heap, h.1.sh, h.1.dh, h.1.trace⟩, h.2⟩
  | thrown e n => exact fun h => ⟨rfl, ⟨h.heap, h.sh, h.dh, h.trace⟩⟩
  | fault g => exact fun _ => ⟨rfl, trivial⟩

theorem getObj (s : Sid) : Eqv A (fun _ => A s) (getObj s : M W Obj) (SC.getObj s) := by
  intro m hm
  refine ⟨rfl, ?_⟩
  unfold SC.getObj
  cases h : m.heap s with
  | none => trivial
  | some o => exact ⟨hm, hm.heap s o h⟩

theorem within_upd {s : Sid} (hs : A s) (o : Option Obj) {m : Mach W} (hm : Within A m) : Within A { m with heap := upd m.heap s o } := by
  refine ⟨fun t o' h => ?_, hm.sh, hm.dh, hm.trace⟩
  by_cases ht : t = s
  · rw [ht]; exact hs
  · refine hm.heap t o' ?_
    have h : (if t = s then o else m.heap t) = some o' := h
    rwa [if_neg ht] at h

theorem setObj {s : Sid} (hs : A s) (o : Obj) : Eqv0 A (setObj s o : M W Unit) (SC.setObj s o) := modify fun _ hm => within_upd hs _ hm

theorem within_cmds (l : List Cmd) : ∀ {m : Mach W}, Within A m → Within A (l.foldl Mach.cmd m) := by
  induction l with
  | nil => exact fun h => h
  | cons c l ih =>
    intro m hm
    refine ih ?_
    cases c with
    | post e => exact ⟨hm.heap, hm.sh, hm.dh, hm.trace⟩
    | clearShallow k =>
      refine ⟨hm.heap, fun k' f h => ?_, hm.dh, hm.trace⟩
      have h : (if k' = k then none else m.sh k') = some f := h
      split at h
      · cases h
      · exact hm.sh _ _ h
    | clearDeep k =>
      refine ⟨hm.heap, hm.sh, fun k' f h => ?_, hm.trace⟩
      have h : (if k' = k then none else m.dh k') = some f := h
      split at h
      · cases h
      · exact hm.dh _ _ h

theorem within_log {o : Obs} (ho : o.In A) {m : Mach W} (hm : Within A m) : Within A (m.log o) := by
  refine ⟨hm.heap, hm.sh, hm.dh, fun p hp => ?_⟩
  rcases List.mem_append.1 hp with hp | hp
  · exact hm.trace p hp
  · rw [List.mem_singleton.1 hp]; exact ho

theorem runUser (f : View → W → UOut W) {a b : Obs} (ha : a.In A) (hb : b.In A) : Eqv0 A (runUser f [a] [b]) (SC.runUser f [a] [b]) := by
  intro m hm
  refine ⟨rfl, ?_⟩
  unfold SC.runUser
  have h : Within A ((f m.view m.world).cmds.foldl Mach.cmd { m with world := (f m.view m.world).world }) := within_cmds _ ⟨hm.heap, hm.sh, hm.dh, hm.trace⟩
  cases h1 : (f m.view m.world).throws with
  | none => simp only [h1]; exact ⟨within_log ha h, trivial⟩
  | some x => simp only [h1]; have := within_log hb h; exact ⟨this.heap, this.sh, this.dh, this.trace⟩

macro "eqv_step" : tactic => `(tactic| first
  | with_reducible exact Eqv.pure0 _ | with_reducible exact Eqv.fault _ | with_reducible exact Eqv.throw _ | with_reducible exact Eqv.get | with_reducible exact Eqv.any (Eqv.getObj _)
  | with_reducible exact Eqv.setObj (by assumption) _
  | with_reducible refine Eqv.same ?_; exact fun _ => ⟨rfl, rfl, rfl, rfl⟩
  | with_reducible refine Eqv.bind (Eqv.getObj _) fun _ _ => ?_
  | with_reducible refine Eqv.bind Eqv.get fun _ _ => ?_
  | with_reducible refine Eqv.bind (Q := fun _ => True) ?_ fun _ _ => ?_
  | with_reducible refine Eqv.onThrow ?_ ?_
  | with_reducible refine Eqv.finally' ?_ ?_
  | split)

theorem addRef (s : Sid) : Eqv0 A (addRef s : M W Unit) (SC.addRef s) := by unfold SC.addRef; repeat' eqv_step
theorem releaseBase (s : Sid) : Eqv0 A (releaseBase s : M W Unit) (SC.releaseBase s) := by unfold SC.releaseBase; repeat' eqv_step
theorem setOU (o : Option Sid) : Eqv0 A (setOU o : M W Unit) (SC.setOU o) := by
  unfold SC.setOU
  repeat' first | with_reducible exact addRef _ | with_reducible exact releaseBase _ | eqv_step
theorem releaseEvents (s : Sid) : Eqv0 A (releaseEvents s : M W Unit) (SC.releaseEvents s) := same fun _ => ⟨rfl, rfl, rfl, rfl⟩
theorem takeSlot (i : Nat) : Eqv0 A (takeSlot i : M W Sid) (SC.takeSlot i) := by unfold SC.takeSlot; repeat' eqv_step
theorem checkCtx (c : Option Sid) : Eqv0 A (checkCtx c : M W Unit) (SC.checkCtx c) := by unfold SC.checkCtx; repeat' eqv_step
theorem deferEvent (s : Sid) : Eqv0 A (deferEvent s : M W Unit) (SC.deferEvent s) := by
  unfold SC.deferEvent
  refine bind (getObj s) fun o hs => ?_
  split
  · exact modify fun m hm => by
      have := within_upd hs (some { o with deferred := true }) hm
      exact within_log (o := .defer s) trivial ⟨this.heap, this.sh, this.dh, this.trace⟩
  · exact fault _

theorem allocate (P : Prog W) (i : Site) : Eqv0 A (allocate P i) (SC.allocate P i) := by
  intro m hm
  refine ⟨rfl, ?_⟩
  unfold SC.allocate
  rcases P.alloc i m.world with ⟨w, _ | x⟩
  · exact ⟨⟨hm.heap, hm.sh, hm.dh, hm.trace⟩, trivial⟩
  · exact ⟨hm.heap, hm.sh, hm.dh, hm.trace⟩

theorem allocNode (P : Prog W) (has : Mach W → Bool) (i : Site) : Eqv0 A (allocNode P has i) (SC.allocNode P has i) := by
  intro m hm
  refine ⟨rfl, ?_⟩
  unfold SC.allocNode
  cases has m with
  | true => exact ⟨hm, trivial⟩
  | false => exact (allocate P i m hm).2

theorem histNode (P : Prog W) (has : Mach W → Bool) (i : Site) (s : Sid) (k : Option Sid) : Eqv0 A (histNode P has i s k) (SC.histNode P has i s k) :=
  onThrow (allocNode P has i) (same fun _ => ⟨rfl, rfl, rfl, rfl⟩)

end Eqv

/-! ## The chart -/

namespace Recode
variable (P : Prog W) (K : Code W)

theorem ancF : ∀ k s, (P.withCode K).ancF k s = P.ancF k s
  | 0, _ => rfl
  | k + 1, s => by
    unfold Chart.ancF
    show (match P.parent s with | none => [] | some p => p :: (P.withCode K).ancF k p) = _
    cases P.parent s with
    | none => rfl
    | some p => simp only [ancF k p]

theorem ancestors (s : Sid) : (P.withCode K).ancestors s = P.ancestors s := ancF P K s s
theorem ctxList (s : Sid) : (P.withCode K).ctxList s = P.ctxList s := by unfold Chart.ctxList; rw [ancestors]
theorem inhDeep (s : Sid) : (P.withCode K).inhDeep s = P.inhDeep s := by unfold Chart.inhDeep; rw [ancestors]; rfl
theorem storesShallow (s : Sid) : (P.withCode K).storesShallow s = P.storesShallow s := rfl
theorem storesDeep (s : Sid) : (P.withCode K).storesDeep s = P.storesDeep s := by unfold Chart.storesDeep; rw [inhDeep]; rfl
theorem commonCtx (s d : Sid) : (P.withCode K).commonCtx s d = P.commonCtx s d := by unfold Chart.commonCtx; rw [ctxList, ctxList]
theorem termState (s d : Sid) : (P.withCode K).termState s d = P.termState s d := by unfold Chart.termState; rw [ctxList, commonCtx]
theorem pathBelow (c : Option Sid) (d : Sid) : (P.withCode K).pathBelow c d = P.pathBelow c d := by unfold Chart.pathBelow; rw [ctxList]
theorem actionCtxs (s : Sid) : (P.withCode K).actionCtxs s = P.actionCtxs s := by unfold Chart.actionCtxs; rw [ctxList]
theorem ctxOf (c : Option Nat) : (P.withCode K).ctxOf c = P.ctxOf c := by cases c <;> rfl
theorem regions (c : Option Sid) : (P.withCode K).regions c = P.regions c := by cases c <;> rfl
theorem isLeaf (s : Sid) : (P.withCode K).isLeaf s = P.isLeaf s := rfl
theorem removeInner (c : Option Sid) (k : Nat) : removeInner (P.withCode K) c k = removeInner P c k := by cases c <;> rfl
theorem addInner (c : Option Sid) (k : Nat) (s : Sid) : addInner (P.withCode K) c k s = addInner P c k s := by cases c <;> rfl
theorem hfnTask (d : Sid) (h : HFn) : hfnTask (P.withCode K) d h = hfnTask P d h := by cases h <;> rfl
theorem lookupHist (k : TKind) (d : Sid) : lookupHist (P.withCode K) k d = lookupHist P k d := rfl
theorem runAction (a : Option Nat) : runAction (P.withCode K) a = runAction P a := by cases a <;> rfl

end Recode

/-! ## The library -/

namespace Eqv
variable {A : Sid → Prop} {P : Prog W} {K : Code W}

theorem removeInner (c : Option Sid) (k : Nat) : Eqv0 A (removeInner P c k) (SC.removeInner (P.withCode K) c k) := by
  rw [Recode.removeInner]
  unfold SC.removeInner
  repeat' eqv_step

theorem addInner (c : Option Sid) (k : Nat) (s : Sid) : Eqv0 A (addInner P c k s) (SC.addInner (P.withCode K) c k s) := by
  rw [Recode.addInner]
  unfold SC.addInner
  repeat' eqv_step

theorem runAction (a : Option Nat) : Eqv0 A (runAction P a) (SC.runAction (P.withCode K) a) := by
  cases a with
  | none => exact pure0 _
  | some a => exact runUser _ trivial trivial

variable (hA : Sealed P A) (hK : SameCode P K A)

theorem setCtxOU (s : Sid) : Eqv0 A (setCtxOU P s) (SC.setCtxOU (P.withCode K) s) := by
  unfold SC.setCtxOU
  refine bind (getObj s) fun o _ => ?_
  split
  · exact setOU (P.parent s)
  · exact fault _

include hA in
theorem anc {s : Sid} (hs : A s) : ∀ k, ∀ p ∈ P.ancF k s, A p := by
  intro k
  induction k generalizing s with
  | zero => intro p hp; cases hp
  | succ k ih =>
    intro p hp
    unfold Chart.ancF at hp
    cases h : P.parent s with
    | none => rw [h] at hp; cases hp
    | some q =>
      rw [h] at hp
      have hq := hA.outer hs h
      rcases List.mem_cons.1 hp with rfl | hp
      · exact hq
      · exact ih hq p hp

include hA in
theorem path {d : Sid} (hd : A d) (c : Option Sid) : ∀ s ∈ P.pathBelow c d, A s := by
  intro s hs
  unfold Chart.pathBelow at hs
  rw [List.mem_reverse, List.mem_filterMap] at hs
  obtain ⟨o, ho, rfl⟩ := hs
  have := (List.takeWhile_sublist _).subset ho
  unfold Chart.ctxList at this
  rcases List.mem_append.1 this with h | h
  · obtain ⟨p, hp, he⟩ := List.mem_map.1 h
    cases he
    exact anc hA hd _ _ hp
  · rw [List.mem_singleton] at h; cases h

theorem storeShallow {s : Sid} (hs : A s) : Eqv0 A (storeShallow P s) (SC.storeShallow (P.withCode K) s) := by
  show Eqv0 A (SC.storeShallow P s) (SC.storeShallow P s)
  unfold SC.storeShallow
  split
  · cases P.parent s with
    | none => exact pure0 _
    | some p =>
      refine bind (histNode P _ _ s none) fun _ _ => modify fun m hm => ⟨hm.heap, fun k f h => ?_, hm.dh, hm.trace⟩
      have h : (if k = (p, P.pos s) then some (HFn.deep s) else m.sh k) = some f := h
      split at h
      · cases h; exact hs
      · exact hm.sh _ _ h
  · exact pure0 _

include hA in
theorem storeDeepF {t : Sid} (ht : A t) : ∀ k s, Eqv0 A (storeDeepF P k s t) (SC.storeDeepF (P.withCode K) k s t)
  | 0, _ => fault _
  | k + 1, s => by
    have ih := storeDeepF ht k
    unfold SC.storeDeepF
    show Eqv0 A _ (match P.parent s with | none => _ | some p => _)
    cases P.parent s with
    | none => exact pure0 _
    | some p =>
      simp only [Recode.inhDeep, Recode.pathBelow]
      split
      · refine bind (getObj p) fun _ _ => bind (Q := fun _ => True) ?_ fun _ _ => ih p
        show Eqv0 A (if P.deepH p = true then _ else _) (if P.deepH p = true then _ else _)
        split
        · refine bind (histNode P _ _ t (some p)) fun _ _ => modify fun m hm => ⟨hm.heap, hm.sh, fun k f h => ?_, hm.trace⟩
          have h : (if k = (p, P.pos s) then some (HFn.chain (P.pathBelow (some p) t) t) else m.dh k) = some f := h
          split at h
          · cases h; exact ⟨path hA ht _, ht⟩
          · exact hm.dh _ _ h
        · exact pure0 _
      · exact pure0 _

include hA in
theorem storeDeep {s : Sid} (hs : A s) : Eqv0 A (storeDeep P s) (SC.storeDeep (P.withCode K) s) := by
  unfold SC.storeDeep
  rw [Recode.storesDeep]
  split
  · exact storeDeepF hA hs _ _
  · exact pure0 _

include hK

theorem userDtor {s : Sid} (hs : A s) : Eqv0 A (userDtor P s) (SC.userDtor (P.withCode K) s) := by
  unfold SC.userDtor
  show Eqv0 A (M.modify fun m => ((P.dtor s m.view m.world).2.foldl Mach.cmd { m with world := (P.dtor s m.view m.world).1 }).log (.destroy s))
    (M.modify fun m => ((K.dtor s m.view m.world).2.foldl Mach.cmd { m with world := (K.dtor s m.view m.world).1 }).log (.destroy s))
  rw [hK.dtor hs]
  refine modify fun m hm => ?_
  have : Within A ((P.dtor s m.view m.world).2.foldl Mach.cmd { m with world := (P.dtor s m.view m.world).1 }) := within_cmds _ ⟨hm.heap, hm.sh, hm.dh, hm.trace⟩
  exact within_log (o := .destroy s) trivial this

omit hK in
theorem baseDtor {rel rel' : Sid → M W Unit} (h : ∀ p, Eqv0 A (rel p) (rel' p)) (s : Sid) : Eqv0 A (baseDtor P rel s) (SC.baseDtor (P.withCode K) rel' s) := by
  unfold SC.baseDtor
  refine bind (getObj s) fun o hs => ?_
  split
  · have h1 : Eqv0 A (match P.parent s with | none => Pure.pure () | some p => rel p) (match P.parent s with | none => Pure.pure () | some p => rel' p) := by
      cases P.parent s with
      | none => exact pure0 _
      | some p => exact h p
    have h2 : Eqv0 A (SC.removeInner P (P.parent s) (P.pos s) >>= fun _ => M.modify (fun m => { m with heap := upd m.heap s none }) >>= fun _ =>
          match P.parent s with | none => Pure.pure () | some p => rel p)
        (SC.removeInner (P.withCode K) (P.parent s) (P.pos s) >>= fun _ => M.modify (fun m => { m with heap := upd m.heap s none }) >>= fun _ =>
          match P.parent s with | none => Pure.pure () | some p => rel' p) :=
      bind (removeInner _ _) fun _ _ => bind (modify fun m hm => within_upd hs none hm) fun _ _ => h1
    cases o.deferred with
    | true => exact bind (releaseEvents s) fun _ _ => h2
    | false => exact h2
  · exact modify fun m hm => within_upd hs none hm

theorem releaseF : ∀ k s, Eqv0 A (releaseF P k s) (SC.releaseF (P.withCode K) k s)
  | 0, _ => fault _
  | k + 1, s => by
    have ih := releaseF k
    unfold SC.releaseF
    refine bind (getObj s) fun o hs => ?_
    split
    · exact fault _
    · split
      · exact bind (setObj hs _) fun _ _ => bind (userDtor hK hs) fun _ _ => baseDtor ih s
      · exact setObj hs _

theorem release (s : Sid) : Eqv0 A (release P s) (SC.release (P.withCode K) s) := releaseF hK _ s

include hA

theorem fullExitPart {s : Sid} (hs : A s) : Eqv0 A (fullExitPart P s) (SC.fullExitPart (P.withCode K) s) := by
  unfold SC.fullExitPart
  rw [show (P.withCode K).exit s = P.exit s from hK.exit hs]
  exact bind (runUser _ trivial trivial) fun _ _ => bind (storeShallow hs) fun _ _ => storeDeep hA hs

theorem exitF : ∀ k s b, Eqv0 A (exitF P k s b) (SC.exitF (P.withCode K) k s b)
  | 0, _, _ => fault _
  | k + 1, s, b => by
    have ih := exitF k
    unfold SC.exitF
    refine bind (getObj s) fun o hs => bind get fun m _ => ?_
    split
    · refine bind (Q := fun _ => True) ?_ fun _ _ => bind get fun m' _ => bind (Q := fun _ => True) ?_ fun _ _ => bind (onThrow (Q := fun _ => True) ?_ (release hK s)) fun _ _ => ?_
      · split
        · exact setCtxOU s
        · exact pure0 _
      · split
        · exact setCtxOU s
        · exact pure0 _
      · split
        · exact fullExitPart hA hK hs
        · exact pure0 _
      · show Eqv0 A (match P.parent s with | none => SC.release P s | some p => _) (match P.parent s with | none => SC.release (P.withCode K) s | some p => _)
        cases P.parent s with
        | none => exact release hK s
        | some p => exact bind (addRef p) fun _ _ => bind (release hK s) fun _ _ => ih p b
    · exact release hK s

theorem exitImpl (s : Sid) (b : Bool) : Eqv0 A (exitImpl P s b) (SC.exitImpl (P.withCode K) s b) := exitF hA hK _ s b

theorem leafRemove (s : Sid) (b : Bool) : Eqv0 A (leafRemove P s b) (SC.leafRemove (P.withCode K) s b) := by
  unfold SC.leafRemove
  repeat' first | with_reducible exact exitImpl hA hK _ _ | with_reducible exact takeSlot _ | eqv_step

omit hA hK in
theorem removeLoop {rec rec' : Sid → M W Unit} (h : ∀ c, Eqv0 A (rec c) (rec' c)) (s : Sid) : ∀ l, Eqv0 A (removeLoop rec s l) (SC.removeLoop rec' s l)
  | [] => pure0 _
  | i :: l => by
    unfold SC.removeLoop
    refine bind (getObj s) fun o _ => bind (Q := fun _ => True) ?_ fun _ _ => removeLoop h s l
    cases o.inner i with
    | none => exact pure0 _
    | some c => exact h c

theorem removeF : ∀ k s b, Eqv0 A (removeF P k s b) (SC.removeF (P.withCode K) k s b)
  | 0, _, _ => fault _
  | k + 1, s, b => by
    have ih := removeF k
    unfold SC.removeF
    refine bind (getObj s) fun o hs => ?_
    show Eqv0 A (if P.isLeaf s = true then _ else _) (if P.isLeaf s = true then _ else _)
    split
    · exact leafRemove hA hK s b
    · simp only [Recode.regions]
      split
      · refine bind get fun m _ => ?_
        split
        · exact bind (addRef s) fun _ _ => exitImpl hA hK s b
        · exact fault _
      · exact removeLoop (fun c => ih c b) s _

theorem remove (s : Sid) (b : Bool) : Eqv0 A (remove P s b) (SC.remove (P.withCode K) s b) := removeF hA hK _ s b

theorem terminateState (s : Sid) (b : Bool) : Eqv0 A (terminateState P s b) (SC.terminateState (P.withCode K) s b) := by
  unfold SC.terminateState
  repeat' first | with_reducible exact exitImpl hA hK _ _ | with_reducible exact remove hA hK _ _ | with_reducible exact takeSlot _ | eqv_step

theorem terminateMachine (b : Bool) : Eqv0 A (terminateMachine P b) (SC.terminateMachine (P.withCode K) b) := by
  unfold SC.terminateMachine
  refine bind (same fun _ => ⟨rfl, rfl, rfl, rfl⟩) fun _ _ => bind get fun m _ => bind (Q := fun _ => True) ?_ fun _ _ =>
    modify fun m hm => ⟨hm.heap, fun _ _ h => (by cases h), fun _ _ h => (by cases h), hm.trace⟩
  cases m.outermost with
  | none => exact pure0 _
  | some s => exact terminateState hA hK s b

omit hA in
theorem runCtor {s : Sid} (hs : A s) : Eqv0 A (runCtor P s) (SC.runCtor (P.withCode K) s) := by
  intro m hm
  unfold SC.runCtor
  rw [show (P.withCode K).ctor s = P.ctor s from hK.ctor hs, show (P.withCode K).isSimple s = P.isSimple s from hK.isSimple hs]
  refine ⟨rfl, ?_⟩
  by_cases h : P.isSimple s = true ∧ (P.ctor s m.view m.world).cmds ≠ []
  · rw [if_pos h]; trivial
  · rw [if_neg h]; exact (runUser (P.ctor s) (a := .enter s) (b := .enterFail s) hs hs m hm).2

omit hA hK in
theorem setContext (s : Sid) : Eqv0 A (setContext P s) (SC.setContext (P.withCode K) s) := by
  unfold SC.setContext
  refine bind (Q := fun _ => True) ?_ fun _ _ => bind (getObj s) fun o hs => bind (setObj hs _) fun _ _ => addInner _ _ _
  show Eqv0 A (match P.parent s with | none => Pure.pure () | some p => SC.addRef p) (match P.parent s with | none => Pure.pure () | some p => SC.addRef p)
  cases P.parent s with
  | none => exact pure0 _
  | some p => exact addRef p

omit hA hK in
theorem addToMachine (s : Sid) : Eqv0 A (addToMachine P s) (SC.addToMachine (P.withCode K) s) := by
  have : SC.addToMachine (P.withCode K) s = SC.addToMachine P s := by
    unfold SC.addToMachine SC.isHighest
    simp only [Recode.regions]
    rfl
  rw [this]
  unfold SC.addToMachine SC.addLeaf
  repeat' first | with_reducible exact allocate P _ | with_reducible exact addRef _ | with_reducible exact releaseBase _ | with_reducible exact setOU _ | eqv_step

omit hA in
theorem shallowConstruct {s : Sid} (hs : A s) : Eqv0 A (shallowConstruct P s) (SC.shallowConstruct (P.withCode K) s) := by
  unfold SC.shallowConstruct
  rw [show (P.withCode K).isSimple s = P.isSimple s from hK.isSimple hs]
  refine bind (allocate P _) fun _ _ => bind get fun m _ => ?_
  split
  · exact fault _
  · refine bind (setObj hs _) fun _ _ => bind (Q := fun _ => True) ?_ fun _ _ => onThrow (addToMachine s) (release hK s)
    split
    · exact bind (onThrow (runCtor hK hs) (baseDtor (release hK) s)) fun _ _ => bind (addRef s) fun _ _ => setContext s
    · exact bind (setContext s) fun _ _ => bind (onThrow (runCtor hK hs) (baseDtor (release hK) s)) fun _ _ => addRef s

theorem build : ∀ k {t : Task}, t.In A → Eqv0 A (build P k t) (SC.build (P.withCode K) k t)
  | 0, _, _ => fault _
  | k + 1, t, ht => by
    have ih := @build k
    cases t with
    | deep s =>
      unfold SC.build
      exact bind (shallowConstruct hK ht) fun _ _ => finally' (ih (t := .inners (P.init s)) fun t h => hA.inner ht h) (release hK s)
    | target t =>
      obtain ⟨j, d⟩ := t
      unfold SC.build
      refine bind (Q := fun o => ∀ h, o = some h → h.In A) ?_ fun o ho => ?_
      · intro m hm
        refine ⟨rfl, ?_⟩
        unfold SC.lookupHist
        cases P.parent d with
        | none => exact ⟨hm, fun _ h => by cases h⟩
        | some p =>
          cases j with
          | plain => exact ⟨hm, fun _ h => by cases h⟩
          | shallow => exact ⟨hm, fun h he => hm.sh _ h he⟩
          | deep => exact ⟨hm, fun h he => hm.dh _ h he⟩
      · cases o with
        | none => exact ih (t := .deep d) ht
        | some h =>
          have hh := ho h rfl
          simp only [Recode.hfnTask]
          cases hf : SC.hfnTask P d h with
          | none => exact fault _
          | some t =>
            refine ih ?_
            cases h with
            | deep s =>
              have hf : (if P.parent s = P.parent d then some (Task.deep s) else none) = some t := hf
              split at hf
              · cases hf; exact hh
              · cases hf
            | chain cs l =>
              have hf : (if P.parent (cs.headD l) = P.parent d then some (Task.chain cs ⟨.plain, l⟩) else none) = some t := hf
              split at hf
              · cases hf; exact hh
              · cases hf
    | chain a t =>
      cases a with
      | nil => unfold SC.build; exact ih (t := .target t) ht.2
      | cons x cs =>
        have hx : A x := ht.1 x List.mem_cons_self
        unfold SC.build
        exact bind (shallowConstruct hK hx) fun _ _ => finally' (bind (ih (t := .inners _) fun t h => hA.inner hx (List.mem_of_mem_take h)) fun _ _ =>
          bind (ih (t := .chain cs t) ⟨fun s h => ht.1 s (List.mem_cons_of_mem _ h), ht.2⟩) fun _ _ => ih (t := .inners _) fun t h => hA.inner hx (List.mem_of_mem_drop h)) (release hK x)
    | inners l =>
      cases l with
      | nil => unfold SC.build; exact pure0 _
      | cons t l =>
        unfold SC.build
        exact bind (ih (t := .target t) (ht t List.mem_cons_self)) fun _ _ => ih (t := .inners l) fun t h => ht t (List.mem_cons_of_mem _ h)

theorem initialConstruct : Eqv0 A (initialConstruct P) (SC.initialConstruct (P.withCode K)) := build hA hK _ (t := .deep P.initial) hA.initial

theorem terminateInTransit (t : Sid) : Eqv0 A (terminateInTransit P t) (SC.terminateInTransit (P.withCode K) t) := by
  unfold SC.terminateInTransit
  exact bind get fun m _ => bind (terminateState hA hK t _) fun _ _ => same fun _ => ⟨rfl, rfl, rfl, rfl⟩

theorem relaxedExit (s t : Sid) (c q : Option Sid) (a : Option Nat) : Eqv0 A (relaxedExit P s t c q a) (SC.relaxedExit (P.withCode K) s t c q a) := by
  unfold SC.relaxedExit
  simp only [Recode.actionCtxs, Recode.ctxList, Recode.isLeaf]
  split
  · exact bind (checkCtx _) fun _ _ => bind (runAction a) fun _ _ => terminateInTransit hA hK t
  · split
    · exact bind (terminateInTransit hA hK t) fun _ _ => bind (checkCtx _) fun _ _ => runAction a
    · split
      · exact fault _
      · exact bind (addRef _) fun _ _ => bind (finally' (bind (terminateInTransit hA hK _) fun _ _ => bind (checkCtx _) fun _ _ => runAction a) (release hK _)) fun _ _ =>
          terminateInTransit hA hK t

theorem transit (s : Sid) {d : Target} (hd : A d.st) (a : Option Nat) : Eqv0 A (transit P s d a) (SC.transit (P.withCode K) s d a) := by
  have hb : ∀ c, Eqv0 A (SC.build P (SC.buildFuel P) (.chain (P.pathBelow c d.st) d)) (SC.build (P.withCode K) (SC.buildFuel P) (.chain (P.pathBelow c d.st) d)) :=
    fun c => build hA hK _ (t := .chain _ d) ⟨path hA hd c, hd⟩
  have h1 : ∀ c : Option Sid, Eqv0 A (match c with | none => (Pure.pure () : M W Unit) | some p => SC.addRef p) (match c with | none => (Pure.pure () : M W Unit) | some p => SC.addRef p) := by
    intro c; cases c with
    | none => exact pure0 _
    | some p => exact addRef p
  have h2 : ∀ c : Option Sid, Eqv0 A (match c with | none => (Pure.pure () : M W Unit) | some p => SC.release P p)
      (match c with | none => (Pure.pure () : M W Unit) | some p => SC.release (P.withCode K) p) := by
    intro c; cases c with
    | none => exact pure0 _
    | some p => exact release hK p
  unfold SC.transit
  show Eqv0 A (if P.relaxed = true then _ else _) (if P.relaxed = true then _ else _)
  split
  · unfold SC.transitRelaxed
    simp only [Recode.termState, Recode.commonCtx, Recode.pathBelow, Recode.ctxOf]
    cases P.termState s d.st with
    | none => exact fault _
    | some t => exact bind (getObj t) fun _ _ => bind (h1 _) fun _ _ => finally' (bind (relaxedExit hA hK s t _ _ a) fun _ _ => hb _) (h2 _)
  · unfold SC.transitDefault
    simp only [Recode.termState, Recode.commonCtx, Recode.pathBelow]
    cases P.termState s d.st with
    | none => exact fault _
    | some t =>
      exact bind (getObj t) fun _ _ => bind (h1 _) fun _ _ => finally' (bind get fun m _ => bind (terminateState hA hK t _) fun _ _ =>
        bind (same fun _ => ⟨rfl, rfl, rfl, rfl⟩) fun _ _ => bind (checkCtx _) fun _ _ => bind (runAction a) fun _ _ => hb _) (h2 _)

theorem terminateReaction (s : Sid) : Eqv0 A (terminateReaction P s) (SC.terminateReaction (P.withCode K) s) := by
  unfold SC.terminateReaction
  exact bind get fun m _ => bind (terminateState hA hK s _) fun _ _ => setOU none

theorem customReact {s : Sid} (hs : A s) (id : Nat) (e : Event) : Eqv0 A (customReact P s id e) (SC.customReact (P.withCode K) s id e) := by
  unfold SC.customReact
  rw [show (P.withCode K).react s = P.react s from hK.react hs]
  refine bind get fun m _ => bind (runUser _ trivial trivial) fun _ _ => ?_
  cases hd : (P.react s id e m.view m.world).2 with
  | discard => exact pure0 _
  | forward => exact pure0 _
  | defer => exact bind (deferEvent s) fun _ _ => pure0 _
  | transit d a => exact bind (transit hA hK s (hA.custom hs hd) a) fun _ _ => pure0 _
  | terminate => exact bind (terminateReaction hA hK s) fun _ _ => pure0 _

theorem reactOne {s : Sid} (hs : A s) (e : Event) {r : Reaction} (hr : r ∈ P.reactions s) : Eqv0 A (reactOne P s e r) (SC.reactOne (P.withCode K) s e r) := by
  unfold SC.reactOne
  split
  · cases hk : r.kind with
    | transition d a => exact bind (transit hA hK s (hA.transition hs hr hk) a) fun _ _ => pure0 _
    | inState a => exact bind (runAction a) fun _ _ => pure0 _
    | termination => exact bind (terminateReaction hA hK s) fun _ _ => pure0 _
    | deferral => exact bind (deferEvent s) fun _ _ => pure0 _
    | custom id => exact customReact hA hK hs id e
  · exact pure0 _

theorem localReact {s : Sid} (hs : A s) (e : Event) : ∀ l, (∀ r ∈ l, r ∈ P.reactions s) → Eqv0 A (localReact P s e l) (SC.localReact (P.withCode K) s e l)
  | [], _ => pure0 _
  | r :: l, h => by
    unfold SC.localReact
    refine bind (reactOne hA hK hs e (h r List.mem_cons_self)) fun x _ => ?_
    split
    · exact localReact hs e l fun r hr => h r (List.mem_cons_of_mem _ hr)
    · exact pure0 _

theorem reactF (e : Event) : ∀ k s, Eqv0 A (reactF P k s e) (SC.reactF (P.withCode K) k s e)
  | 0, _ => fault _
  | k + 1, s => by
    have ih := reactF e k
    unfold SC.reactF
    refine bind (getObj s) fun o hs => ?_
    rw [show (P.withCode K).reactions s = P.reactions s from hK.reactions hs]
    refine bind (localReact hA hK hs e _ fun _ h => h) fun x _ => ?_
    split
    · refine bind (getObj s) fun o _ => ?_
      split
      · show Eqv0 A (match P.parent s with | none => _ | some p => _) (match P.parent s with | none => _ | some p => _)
        cases P.parent s with
        | none => exact pure0 _
        | some p => exact ih p
      · exact fault _
    · exact pure0 _

theorem reactImpl (s : Sid) (e : Event) : Eqv0 A (reactImpl P s e) (SC.reactImpl (P.withCode K) s e) := reactF hA hK e _ s

theorem guardTerm {x y : M W α} {Q : α → Prop} (h : Eqv A Q x y) : Eqv A Q (guardTerm P x) (SC.guardTerm (P.withCode K) y) := by
  intro m hm
  obtain ⟨h1, h2⟩ := h m hm
  unfold SC.guardTerm
  rw [← h1]
  revert h2
  cases x m with
  | ok a n => exact fun h => ⟨rfl, h⟩
  | fault g => exact fun h => ⟨rfl, h⟩
  | thrown e n =>
    intro h
    obtain ⟨h3, h4⟩ := terminateMachine hA hK false n h
    simp only
    rw [← h3]
    revert h4
    cases SC.terminateMachine P false n with
    | ok a n' => exact fun h => ⟨rfl, h.1⟩
    | thrown e' n' => exact fun _ => ⟨rfl, trivial⟩
    | fault g => exact fun _ => ⟨rfl, trivial⟩

theorem handleException (c : Option Sid) (ev : Event) (x : Exc) : Eqv0 A (handleException P c ev x) (SC.handleException (P.withCode K) c ev x) := by
  unfold SC.handleException
  refine bind get fun m _ => ?_
  split
  · exact throw _
  · cases m.handler c with
    | none => exact fault _
    | some h =>
      refine withTrig _ (bind (same fun _ => ⟨rfl, rfl, rfl, rfl⟩) fun _ _ => bind (reactImpl hA hK h ev) fun r _ => bind (same fun _ => ⟨rfl, rfl, rfl, rfl⟩) fun _ _ =>
        bind get fun m _ => ?_)
      split
      · exact throw _
      · exact pure0 _

theorem translated (c : Option Sid) {x y : M W RR} (h : Eqv0 A x y) : Eqv0 A (translated P c x) (SC.translated (P.withCode K) c y) := by
  unfold SC.translated
  refine tryCatch h fun e => ?_
  show Eqv0 A (match P.translate e with | none => M.throw e | some ev => _) (match P.translate e with | none => M.throw e | some ev => _)
  cases P.translate e with
  | none => exact throw _
  | some ev => exact handleException hA hK c ev e

theorem sendLoop (e : Event) : ∀ k i, Eqv0 A (sendLoop P e k i) (SC.sendLoop (P.withCode K) e k i)
  | 0, _ => fault _
  | k + 1, i => by
    unfold SC.sendLoop
    refine bind get fun m _ => ?_
    split
    · exact pure0 _
    · cases m.slot i with
      | none => exact fault _
      | some s =>
        refine bind (translated hA hK (some s) (reactImpl hA hK s e)) fun r _ => ?_
        split
        · exact sendLoop e k (i + 1)
        · exact pure0 _

theorem sendEvent (e : Event) : Eqv0 A (sendEvent P e) (SC.sendEvent (P.withCode K) e) := by
  unfold SC.sendEvent
  refine withTrig _ (bind (guardTerm hA hK (Q := fun _ => True) (bind get fun m _ => ?_)) fun r _ => bind (Q := fun _ => True) ?_ fun _ _ => pure0 _)
  · split
    · exact fault _
    · exact sendLoop hA hK e _ 0
  · split
    · exact runUser _ trivial trivial
    · exact pure0 _

theorem dispatch (e : Event) : Eqv0 A (dispatch P e) (SC.dispatch (P.withCode K) e) := by
  unfold SC.dispatch SC.qop
  refine bind (onThrow (sendEvent hA hK e) (same fun _ => ⟨rfl, rfl, rfl, rfl⟩)) fun r _ => ?_
  split
  · exact bind (onThrow (allocate P _) (same fun _ => ⟨rfl, rfl, rfl, rfl⟩)) fun _ _ => same fun _ => ⟨rfl, rfl, rfl, rfl⟩
  · exact same fun _ => ⟨rfl, rfl, rfl, rfl⟩

theorem processQueued : ∀ k, Eqv0 A (processQueued P k) (SC.processQueued (P.withCode K) k)
  | 0 => bind get fun m _ => pure0 _
  | k + 1 => by
    unfold SC.processQueued
    refine bind get fun m _ => ?_
    cases m.evq with
    | nil => exact pure0 _
    | cons e q => exact bind (same fun _ => ⟨rfl, rfl, rfl, rfl⟩) fun _ _ => bind (dispatch hA hK e) fun _ _ => processQueued k

theorem terminate : Eqv0 A (terminate P) (SC.terminate (P.withCode K)) :=
  bind (withTrig _ (guardTerm hA hK (translated hA hK none (bind (terminateMachine hA hK true) fun _ _ => pure0 _)))) fun _ _ => pure0 _

theorem construct (k : Nat) : Eqv0 A (construct P k) (SC.construct (P.withCode K) k) :=
  bind (withTrig _ (guardTerm hA hK (translated hA hK none (bind (initialConstruct hA hK) fun _ _ => pure0 _)))) fun _ _ => processQueued hA hK k

theorem processEvent (e : Event) (k : Nat) : Eqv0 A (processEvent P e k) (SC.processEvent (P.withCode K) e k) :=
  bind (same fun _ => ⟨rfl, rfl, rfl, rfl⟩) fun _ _ => bind (dispatch hA hK e) fun _ _ => processQueued hA hK k

end Eqv
end SC
