import Verif.Dispatch
/-!
# Programs that differ only in their reactions, in the configuration and in the exception translator

Functions of the library that do not react to events do not depend on the reactions, only transitions depend on
BOOST_STATECHART_RELAX_TRANSITION_CONTEXT, and the exception translator is called only by event dispatch, `initiate` and `terminate`.
-/

namespace SC
variable {W : Type}

/-- `P` with other reactions and functions `react`, with BOOST_STATECHART_RELAX_TRANSITION_CONTEXT defined (`rx`) or not, and with another exception translator. -/
def Prog.recast (P : Prog W) (r : Sid → List Reaction) (f : Sid → Nat → Event → View → W → UOut W × Decision) (rx : Bool) (tr : Exc → Option Event) : Prog W :=
  { P with reactions := r, react := f, relaxed := rx, translate := tr }

namespace Recast
variable (P : Prog W) (r : Sid → List Reaction) (f : Sid → Nat → Event → View → W → UOut W × Decision) (rx : Bool) (tr : Exc → Option Event)

theorem n : (P.recast r f rx tr).n = P.n := rfl
theorem parent : (P.recast r f rx tr).parent = P.parent := rfl
theorem pos : (P.recast r f rx tr).pos = P.pos := rfl
theorem init : (P.recast r f rx tr).init = P.init := rfl
theorem deepH : (P.recast r f rx tr).deepH = P.deepH := rfl
theorem shallowH : (P.recast r f rx tr).shallowH = P.shallowH := rfl
theorem isSimple : (P.recast r f rx tr).isSimple = P.isSimple := rfl
theorem initial : (P.recast r f rx tr).initial = P.initial := rfl
theorem relaxed : (P.recast r f rx tr).relaxed = rx := rfl
theorem actCtx : (P.recast r f rx tr).actCtx = P.actCtx := rfl
theorem ctor : (P.recast r f rx tr).ctor = P.ctor := rfl
theorem exit : (P.recast r f rx tr).exit = P.exit := rfl
theorem isLeaf : (P.recast r f rx tr).isLeaf = P.isLeaf := rfl
theorem regions (c : Option Sid) : (P.recast r f rx tr).regions c = P.regions c := by cases c <;> rfl
theorem ctxOf (c : Option Nat) : (P.recast r f rx tr).ctxOf c = P.ctxOf c := by cases c <;> rfl

theorem ancF : ∀ k s, (P.recast r f rx tr).ancF k s = P.ancF k s
  | 0, _ => rfl
  | k + 1, s => by
    unfold Chart.ancF
    rw [parent]
    cases P.parent s with
    | none => rfl
    | some p => simp only [ancF k p]

theorem ancestors (s : Sid) : (P.recast r f rx tr).ancestors s = P.ancestors s := ancF P r f rx tr s s

theorem ctxList (s : Sid) : (P.recast r f rx tr).ctxList s = P.ctxList s := by
  unfold Chart.ctxList; rw [ancestors]

theorem inhDeep (s : Sid) : (P.recast r f rx tr).inhDeep s = P.inhDeep s := by
  unfold Chart.inhDeep; rw [ancestors, deepH]

theorem storesShallow (s : Sid) : (P.recast r f rx tr).storesShallow s = P.storesShallow s := rfl

theorem storesDeep (s : Sid) : (P.recast r f rx tr).storesDeep s = P.storesDeep s := by
  unfold Chart.storesDeep; rw [inhDeep, isLeaf]

theorem commonCtx (s d : Sid) : (P.recast r f rx tr).commonCtx s d = P.commonCtx s d := by
  unfold Chart.commonCtx; rw [ctxList, ctxList]

theorem termState (s d : Sid) : (P.recast r f rx tr).termState s d = P.termState s d := by
  unfold Chart.termState; rw [ctxList, commonCtx]

theorem pathBelow (c : Option Sid) (d : Sid) : (P.recast r f rx tr).pathBelow c d = P.pathBelow c d := by
  unfold Chart.pathBelow; rw [ctxList]

theorem actionCtxs (s : Sid) : (P.recast r f rx tr).actionCtxs s = P.actionCtxs s := by
  unfold Chart.actionCtxs; rw [ctxList]

theorem removeInner (c : Option Sid) (k : Nat) : removeInner (P.recast r f rx tr) c k = removeInner P c k := by
  cases c <;> rfl

theorem addInner (c : Option Sid) (k : Nat) (s : Sid) : addInner (P.recast r f rx tr) c k s = addInner P c k s := by
  cases c <;> rfl

theorem userDtor (s : Sid) : userDtor (P.recast r f rx tr) s = userDtor P s := rfl
theorem allocate (s : Site) : allocate (P.recast r f rx tr) s = allocate P s := rfl
theorem allocNode (h : Mach W → Bool) (s : Site) : allocNode (P.recast r f rx tr) h s = allocNode P h s := rfl

theorem baseDtor (rel : Sid → M W Unit) (s : Sid) : baseDtor (P.recast r f rx tr) rel s = baseDtor P rel s := by
  unfold SC.baseDtor
  simp only [removeInner, parent, pos]

theorem releaseF : ∀ k s, releaseF (P.recast r f rx tr) k s = releaseF P k s
  | 0, _ => rfl
  | k + 1, s => by
    have : SC.releaseF (P.recast r f rx tr) k = SC.releaseF P k := funext fun s => releaseF k s
    unfold SC.releaseF
    simp only [baseDtor, userDtor, this]

theorem release : release (P.recast r f rx tr) = release P := funext fun s => releaseF P r f rx tr _ s

theorem setCtxOU (s : Sid) : setCtxOU (P.recast r f rx tr) s = setCtxOU P s := rfl

theorem histNode (h : Mach W → Bool) (a : Site) (s : Sid) (k : Option Sid) : histNode (P.recast r f rx tr) h a s k = histNode P h a s k := rfl

theorem storeShallow (s : Sid) : storeShallow (P.recast r f rx tr) s = storeShallow P s := rfl

theorem storeDeepF : ∀ k s t, storeDeepF (P.recast r f rx tr) k s t = storeDeepF P k s t
  | 0, _, _ => rfl
  | k + 1, s, t => by
    have ih := storeDeepF k
    unfold SC.storeDeepF
    simp only [parent, inhDeep, deepH, pos, histNode, pathBelow, ih]

theorem storeDeep (s : Sid) : storeDeep (P.recast r f rx tr) s = storeDeep P s := by
  unfold SC.storeDeep
  rw [storesDeep, storeDeepF]

theorem fullExitPart (s : Sid) : fullExitPart (P.recast r f rx tr) s = fullExitPart P s := by
  unfold SC.fullExitPart
  rw [storeDeep]; rfl

theorem exitF : ∀ k s b, exitF (P.recast r f rx tr) k s b = exitF P k s b
  | 0, _, _ => rfl
  | k + 1, s, b => by
    have ih := exitF k
    unfold SC.exitF
    simp only [setCtxOU, fullExitPart, release, parent, ih]

theorem exitImpl (s : Sid) (b : Bool) : exitImpl (P.recast r f rx tr) s b = exitImpl P s b := exitF P r f rx tr _ s b

theorem leafRemove (s : Sid) (b : Bool) : leafRemove (P.recast r f rx tr) s b = leafRemove P s b := by
  unfold SC.leafRemove
  simp only [exitImpl]

theorem removeF : ∀ k s b, removeF (P.recast r f rx tr) k s b = removeF P k s b
  | 0, _, _ => rfl
  | k + 1, s, b => by
    have ih := removeF k
    unfold SC.removeF
    simp only [isLeaf, leafRemove, regions, exitImpl, ih]

theorem remove (s : Sid) (b : Bool) : remove (P.recast r f rx tr) s b = remove P s b := removeF P r f rx tr _ s b

theorem terminateState (s : Sid) (b : Bool) : terminateState (P.recast r f rx tr) s b = terminateState P s b := by
  unfold SC.terminateState
  simp only [remove, exitImpl]

theorem terminateMachine (b : Bool) : terminateMachine (P.recast r f rx tr) b = terminateMachine P b := by
  unfold SC.terminateMachine
  simp only [terminateState]

theorem setContext (s : Sid) : setContext (P.recast r f rx tr) s = setContext P s := by
  unfold SC.setContext
  simp only [addInner, parent, pos]

theorem runCtor (s : Sid) : runCtor (P.recast r f rx tr) s = runCtor P s := rfl

theorem addToMachine (s : Sid) : addToMachine (P.recast r f rx tr) s = addToMachine P s := rfl

theorem shallowConstruct (s : Sid) : shallowConstruct (P.recast r f rx tr) s = shallowConstruct P s := by
  unfold SC.shallowConstruct
  simp only [allocate, isSimple, runCtor, baseDtor, release, setContext, addToMachine]

theorem lookupHist (k : TKind) (d : Sid) : lookupHist (P.recast r f rx tr) k d = lookupHist P k d := rfl
theorem hfnTask (d : Sid) (h : HFn) : hfnTask (P.recast r f rx tr) d h = hfnTask P d h := by cases h <;> rfl

theorem build : ∀ k t, build (P.recast r f rx tr) k t = build P k t
  | 0, _ => rfl
  | k + 1, t => by
    have ih := build k
    cases t with
    | deep s => unfold SC.build; simp only [shallowConstruct, release, init, ih]
    | target t => obtain ⟨j, d⟩ := t; unfold SC.build; simp only [lookupHist, hfnTask, ih]
    | chain a t =>
      cases a with
      | nil => unfold SC.build; simp only [ih]
      | cons x cs => unfold SC.build; simp only [shallowConstruct, release, init, pos, ih]
    | inners l =>
      cases l with
      | nil => unfold SC.build; rfl
      | cons t l => unfold SC.build; simp only [ih]

theorem initialConstruct : initialConstruct (P.recast r f rx tr) = initialConstruct P := build P r f rx tr _ _

theorem runAction (a : Option Nat) : runAction (P.recast r f rx tr) a = runAction P a := by cases a <;> rfl

theorem terminateInTransit (t : Sid) : terminateInTransit (P.recast r f rx tr) t = terminateInTransit P t := by
  unfold SC.terminateInTransit
  simp only [terminateState]

theorem buildFuel : buildFuel (P.recast r f rx tr) = buildFuel P := rfl

theorem transitDefault (s : Sid) (d : Target) (a : Option Nat) : transitDefault (P.recast r f rx tr) s d a = transitDefault P s d a := by
  unfold SC.transitDefault
  simp only [termState, commonCtx, terminateState, runAction, buildFuel, build, pathBelow, release]

theorem relaxedExit (s t : Sid) (c q : Option Sid) (a : Option Nat) : relaxedExit (P.recast r f rx tr) s t c q a = relaxedExit P s t c q a := by
  unfold SC.relaxedExit
  simp only [actionCtxs, ctxList, isLeaf, terminateInTransit, runAction, release]

theorem transitRelaxed (s : Sid) (d : Target) (q : Option Sid) (a : Option Nat) : transitRelaxed (P.recast r f rx tr) s d q a = transitRelaxed P s d q a := by
  unfold SC.transitRelaxed
  simp only [termState, commonCtx, relaxedExit, buildFuel, build, pathBelow, release]

theorem transit' (s : Sid) (d : Target) (a : Option Nat) :
    transit (P.recast r f rx tr) s d a = if rx = true then SC.transitRelaxed P s d (P.ctxOf a) a else SC.transitDefault P s d a := by
  unfold SC.transit
  simp only [relaxed, transitRelaxed, ctxOf, transitDefault]

theorem transit (s : Sid) (d : Target) (a : Option Nat) : transit (P.recast r f P.relaxed tr) s d a = transit P s d a := transit' P r f P.relaxed tr s d a

theorem terminateReaction (s : Sid) : terminateReaction (P.recast r f rx tr) s = terminateReaction P s := by
  unfold SC.terminateReaction
  simp only [terminateState]

theorem guardTerm {α : Type} (x : M W α) : guardTerm (P.recast r f rx tr) x = guardTerm P x := by
  unfold SC.guardTerm
  simp only [terminateMachine]
  rfl

end Recast
end SC
