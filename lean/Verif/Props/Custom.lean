import Verif.Blind
import Verif.Recast
import Verif.Props.Config
import Verif.Props.Reference
/-!
# C69, C70: the list of reactions

C69: of the reactions of a state only the first one that fits an event counts. C70: the built-in reactions are abbreviations for custom reactions.
-/

namespace SC
variable {W α β : Type}

/-! ## C69 -/

namespace Spec

/-- The first reaction of the list that is for events of type `ty` (or for any event). -/
def firstFor (ty : Nat) : List Reaction → Option Reaction
  | [] => none
  | r :: l => if r.ev = none ∨ r.ev = some ty then some r else firstFor ty l

end Spec
open Spec

/-- Does not happen when a reaction fits. -/
def Reacted (x : M W RR) : Prop := ∀ m r m', x m = .ok r m' → r ≠ .noReaction

theorem reacted_pure {r : RR} (h : r ≠ .noReaction) : Reacted (pure r : M W RR) := by
  rintro m r' m' ⟨⟩; exact h

theorem reacted_bind {x : M W α} {f : α → M W RR} (h : ∀ a, Reacted (f a)) : Reacted (x >>= f) := by
  intro m r m' hx
  have hx : M.bnd x f m = .ok r m' := hx
  unfold M.bnd at hx
  cases h1 : x m with
  | ok a m1 => rw [h1] at hx; exact h a m1 r m' hx
  | thrown e m1 => rw [h1] at hx; cases hx
  | fault g => rw [h1] at hx; cases hx

theorem customReact_reacted (P : Prog W) (s : Sid) (id : Nat) (e : Event) : Reacted (customReact P s id e) := by
  refine reacted_bind fun m => reacted_bind fun _ => ?_
  cases (P.react s id e m.view m.world).2
  · exact reacted_pure (by decide)
  · exact reacted_pure (by decide)
  · exact reacted_bind fun _ => reacted_pure (by decide)
  · exact reacted_bind fun _ => reacted_pure (by decide)
  · exact reacted_bind fun _ => reacted_pure (by decide)

theorem reactOne_reacted (P : Prog W) (s : Sid) (e : Event) {r : Reaction} (h : r.ev = none ∨ r.ev = some e.ty) : Reacted (reactOne P s e r) := by
  unfold reactOne
  rw [if_pos h]
  cases r.kind with
  | transition d a => exact reacted_bind fun _ => reacted_pure (by decide)
  | inState a => exact reacted_bind fun _ => reacted_pure (by decide)
  | termination => exact reacted_bind fun _ => reacted_pure (by decide)
  | deferral => exact reacted_bind fun _ => reacted_pure (by decide)
  | custom id => exact customReact_reacted P s id e

theorem localReact_first (P : Prog W) (s : Sid) (e : Event) : ∀ l, localReact P s e l = match firstFor e.ty l with
    | none => pure .forward
    | some r => reactOne P s e r
  | [] => rfl
  | r :: l => by
    have ih := localReact_first P s e l
    unfold firstFor
    by_cases h : r.ev = none ∨ r.ev = some e.ty
    · simp only [if_pos h]
      funext m
      show M.bnd (reactOne P s e r) (fun x => if x = .noReaction then localReact P s e l else pure x) m = _
      unfold M.bnd
      cases h1 : reactOne P s e r m with
      | ok x m1 => simp only; rw [if_neg (reactOne_reacted P s e h m x m1 h1)]; rfl
      | thrown x m1 => rfl
      | fault g => rfl
    · simp only [if_neg h]
      rw [← ih]
      funext m
      show M.bnd (reactOne P s e r) (fun x => if x = .noReaction then localReact P s e l else pure x) m = _
      unfold M.bnd reactOne
      rw [if_neg h]
      rfl

/-- `P` with other reactions. -/
def Prog.relist (P : Prog W) (r : Sid → List Reaction) : Prog W := P.recast r P.react P.relaxed P.translate

section
variable (P : Prog W) (r : Sid → List Reaction) (h : ∀ s ty, firstFor ty (r s) = firstFor ty (P.reactions s))
include h

theorem relist_local (s : Sid) (e : Event) : localReact (P.relist r) s e (r s) = localReact P s e (P.reactions s) := by
  rw [localReact_first, localReact_first, h]
  cases firstFor e.ty (P.reactions s) with
  | none => rfl
  | some x =>
    show reactOne (P.recast r P.react P.relaxed P.translate) s e x = reactOne P s e x
    unfold reactOne customReact
    simp only [Recast.transit, Recast.runAction, Recast.terminateReaction]
    rfl

theorem relist_reactF : ∀ f s e, reactF (P.relist r) f s e = reactF P f s e
  | 0, _, _ => rfl
  | f + 1, s, e => by
    have ih := relist_reactF f
    unfold reactF
    have h1 := relist_local P r h s e
    show (getObj s >>= fun _ => localReact (P.relist r) s e (r s) >>= fun x => _) = _
    rw [h1]
    simp only [ih]
    rfl

theorem relist_reactImpl (s : Sid) (e : Event) : reactImpl (P.relist r) s e = reactImpl P s e := relist_reactF P r h _ s e

theorem relist_handle (c : Option Sid) (ev : Event) (x : Exc) : handleException (P.relist r) c ev x = handleException P c ev x := by
  unfold handleException
  simp only [relist_reactImpl P r h]

theorem relist_translated (c : Option Sid) (x : M W RR) : translated (P.relist r) c x = translated P c x := by
  unfold translated
  simp only [relist_handle P r h]
  rfl

theorem relist_sendLoop (e : Event) : ∀ f k, sendLoop (P.relist r) e f k = sendLoop P e f k
  | 0, _ => rfl
  | f + 1, k => by
    have ih := relist_sendLoop e f
    unfold sendLoop
    simp only [relist_reactImpl P r h, relist_translated P r h, ih]

theorem relist_send (e : Event) : sendEvent (P.relist r) e = sendEvent P e := by
  unfold sendEvent
  simp only [relist_sendLoop P r h]
  show withTrig _ (guardTerm (P.recast r P.react P.relaxed P.translate) _ >>= _) = _
  rw [Recast.guardTerm]
  rfl

theorem relist_dispatch (e : Event) : dispatch (P.relist r) e = dispatch P e := by
  unfold dispatch
  simp only [relist_send P r h]
  rfl

theorem relist_queued : ∀ k, processQueued (P.relist r) k = processQueued P k
  | 0 => rfl
  | k + 1 => by
    have ih := relist_queued k
    unfold processQueued
    simp only [relist_dispatch P r h, ih]

theorem relist_terminate : terminate (P.relist r) = terminate P := by
  unfold terminate
  simp only [relist_translated P r h]
  unfold Prog.relist
  simp only [Recast.guardTerm, Recast.terminateMachine]

/-- Every call is the same function. -/
theorem relist_run (c : Call) : c.run (P.relist r) = c.run P := by
  cases c with
  | initiate k =>
    show initiate (P.relist r) k = initiate P k
    unfold initiate construct
    simp only [relist_terminate P r h, relist_translated P r h, relist_queued P r h]
    unfold Prog.relist
    simp only [Recast.guardTerm, Recast.initialConstruct]
  | terminate =>
    show (terminate (P.relist r) >>= fun _ => _) = _
    rw [relist_terminate P r h]; rfl
  | process e k =>
    show processEvent (P.relist r) e k = processEvent P e k
    unfold processEvent
    simp only [relist_dispatch P r h, relist_queued P r h]
  | post e => rfl
  | clearShallow k => rfl
  | clearDeep k => rfl

theorem relist_legal (m : Mach W) (c : Call) : c.legal (P.relist r) m ↔ c.legal P m := by
  cases c with
  | initiate k => unfold Call.legal; rw [relist_terminate P r h]
  | terminate => exact Iff.rfl
  | process e k => exact Iff.rfl
  | post e => exact Iff.rfl
  | clearShallow k => exact Iff.rfl
  | clearDeep k => exact Iff.rfl

/-- **C69.** If for every state and every type of event the first fitting reaction is the same in two machines, then the machines are
indistinguishable: every call has the same outcome (result, exception, machine afterwards, user code called) in any state of the machine. -/
theorem C69_first : (∀ (c : Call) (m : Mach W), (c.legal (P.relist r) m ↔ c.legal P m) ∧ c.run (P.relist r) m = c.run P m) ∧ destruct (P.relist r) = destruct P :=
  ⟨fun c m => ⟨relist_legal P r h m c, by rw [relist_run P r h]⟩, Recast.terminateMachine P r P.react P.relaxed P.translate false⟩

theorem C69_sessions (w : W) (l : List (ClientStep W)) (m : Mach W) : Session (P.relist r) w l m ↔ Session P w l m := by
  constructor
  · intro h1
    induction h1 with
    | new => exact .new
    | returns _ hl hr ih => exact .returns ih ((relist_legal P r h _ _).1 hl) (by rwa [relist_run P r h] at hr)
    | throws _ hl hr ih => exact .throws ih ((relist_legal P r h _ _).1 hl) (by rwa [relist_run P r h] at hr)
  · intro h1
    induction h1 with
    | new => exact .new
    | returns _ hl hr ih => exact .returns ih ((relist_legal P r h _ _).2 hl) (by rwa [relist_run P r h])
    | throws _ hl hr ih => exact .throws ih ((relist_legal P r h _ _).2 hl) (by rwa [relist_run P r h])

end

theorem firstFor_append (ty : Nat) : ∀ a b : List Reaction, firstFor ty (a ++ b) = (firstFor ty a).or (firstFor ty b)
  | [], _ => by simp [firstFor]
  | r :: a, b => by
    show (if r.ev = none ∨ r.ev = some ty then some r else firstFor ty (a ++ b)) = _
    rw [firstFor_append ty a b]
    show _ = (if r.ev = none ∨ r.ev = some ty then some r else firstFor ty a).or _
    by_cases h : r.ev = none ∨ r.ev = some ty
    · rw [if_pos h, if_pos h]; rfl
    · rw [if_neg h, if_neg h]

/-- Two neighbours can be exchanged unless both fit some event. -/
theorem firstFor_swap (ty : Nat) (a b : List Reaction) {x y : Reaction} (hx : x.ev ≠ none) (hy : y.ev ≠ none) (hxy : x.ev ≠ y.ev) :
    firstFor ty (a ++ x :: y :: b) = firstFor ty (a ++ y :: x :: b) := by
  rw [firstFor_append, firstFor_append]
  congr 1
  unfold firstFor
  by_cases h1 : x.ev = none ∨ x.ev = some ty
  · have h2 : ¬ (y.ev = none ∨ y.ev = some ty) := by
      rintro (h2 | h2)
      · exact hy h2
      · rcases h1 with h1 | h1
        · exact hx h1
        · exact hxy (h1.trans h2.symm)
    rw [if_pos h1, if_neg h2]
    unfold firstFor
    rw [if_pos h1]
  · rw [if_neg h1]
    unfold firstFor
    rw [if_neg h1]

/-- Lists that arise from each other by exchanging neighbours for different events. -/
inductive Shuffled : List Reaction → List Reaction → Prop
  | refl (l) : Shuffled l l
  | swap (a b) {x y l} : x.ev ≠ none → y.ev ≠ none → x.ev ≠ y.ev → Shuffled (a ++ y :: x :: b) l → Shuffled (a ++ x :: y :: b) l

theorem Shuffled.first {a b : List Reaction} (h : Shuffled a b) (ty : Nat) : firstFor ty a = firstFor ty b := by
  induction h with
  | refl => rfl
  | swap a b hx hy hxy _ ih => rw [firstFor_swap ty a b hx hy hxy, ih]

/-- **C69.** The order of reactions for different events does not matter. -/
theorem C69_order (P : Prog W) (r : Sid → List Reaction) (h : ∀ s, Shuffled (r s) (P.reactions s)) (c : Call) (m : Mach W) :
    c.run (P.relist r) m = c.run P m := ((C69_first P r fun s ty => (h s).first ty).1 c m).2

/-- Lists that arise by removing a reaction behind one for the same event or for any event, repeatedly. -/
inductive Trimmed : List Reaction → List Reaction → Prop
  | refl (l) : Trimmed l l
  | drop (a b) {x y l} : x ∈ a → x.ev = none ∨ x.ev = y.ev → Trimmed (a ++ b) l → Trimmed (a ++ y :: b) l

theorem firstFor_some {ty : Nat} {x : Reaction} (hx : x.ev = none ∨ x.ev = some ty) : ∀ {l : List Reaction}, x ∈ l → ∃ r, firstFor ty l = some r
  | r :: l, h => by
    show ∃ q, (if r.ev = none ∨ r.ev = some ty then some r else firstFor ty l) = some q
    by_cases hr : r.ev = none ∨ r.ev = some ty
    · rw [if_pos hr]; exact ⟨r, rfl⟩
    · rw [if_neg hr]
      rcases List.mem_cons.1 h with rfl | h
      · exact absurd hx hr
      · exact firstFor_some hx h

theorem Trimmed.first {a b : List Reaction} (h : Trimmed a b) (ty : Nat) : firstFor ty a = firstFor ty b := by
  induction h with
  | refl => rfl
  | @drop a b x y l hx hxy _ ih =>
    rw [← ih, firstFor_append, firstFor_append]
    show (firstFor ty a).or (if y.ev = none ∨ y.ev = some ty then some y else firstFor ty b) = _
    by_cases hy : y.ev = none ∨ y.ev = some ty
    · have : x.ev = none ∨ x.ev = some ty := by
        rcases hxy with h | h
        · exact .inl h
        · rwa [h]
      obtain ⟨q, hq⟩ := firstFor_some this hx
      rw [hq]; rfl
    · rw [if_neg hy]

/-- **C69.** A reaction behind one for the same event, or behind one for any event, is never executed: it can be removed. -/
theorem C69_dead (P : Prog W) (r : Sid → List Reaction) (h : ∀ s, Trimmed (P.reactions s) (r s)) (c : Call) (m : Mach W) :
    c.run (P.relist r) m = c.run P m := ((C69_first P r fun s ty => ((h s).first ty).symm).1 c m).2

/-! ## C70 -/

namespace Spec

/-- What a function `react` returns that does what the reaction of kind `k` does: `transit<>()`, `discard_event()` after the action, `terminate()`, `defer_event()`. -/
def handwritten (P : Prog W) (s : Sid) (e : Event) (v : View) (w : W) : RKind → UOut W × Decision
  | .transition d a => ({ world := w }, .transit d a)
  | .inState none => ({ world := w }, .discard)
  | .inState (some a) => (P.action a v w, .discard)
  | .termination => ({ world := w }, .terminate)
  | .deferral => ({ world := w }, .defer)
  | .custom id => P.react s id e v w

/-- The reaction `q` of a machine with the functions `f` does what `r` does in `P`: it is the same reaction, or a handwritten one. -/
def StandsFor (P : Prog W) (f : Sid → Nat → Event → View → W → UOut W × Decision) (s : Sid) (r q : Reaction) : Prop :=
  (q.kind = r.kind ∧ ∀ id, r.kind ≠ .custom id) ∨ ∃ id, q.kind = .custom id ∧ ∀ e v w, f s id e v w = handwritten P s e v w r.kind

/-- For each event the first fitting reaction does the same. -/
def Respelled (P : Prog W) (r : Sid → List Reaction) (f : Sid → Nat → Event → View → W → UOut W × Decision) : Prop :=
  ∀ s ty, match firstFor ty (P.reactions s), firstFor ty (r s) with
    | none, none => True
    | some x, some y => StandsFor P f s x y
    | _, _ => False

/-- Calls of user code other than actions and functions `react`. -/
def entries (t : List (Option Event × Obs)) : List (Option Event × Obs) := t.filter fun p => match p.2 with
  | .act _ => false
  | .react _ _ => false
  | _ => true

/-- Machines a client and user code cannot distinguish, and which did the same. -/
structure Interchangeable (m m' : Mach W) : Prop where
  view : m.view = m'.view
  terminated : m.terminated = m'.terminated
  world : m.world = m'.world
  queue : m.evq = m'.evq
  deferred : m.dq = m'.dq
  shallow : m.sh = m'.sh
  deep : m.dh = m'.dh
  events : m.qlog = m'.qlog
  exceptions : m.xlog = m'.xlog
  code : entries m.trace = entries m'.trace

end Spec

/-- As `Par`, but the logs of actions and functions `react` may differ. -/
structure Tw (P : Prog W) (m1 m2 : Mach W) : Prop where
  par : Par P false m1 m2 m1 m2
  qlog : m1.qlog = m2.qlog
  xlog : m1.xlog = m2.xlog
  code : entries m1.trace = entries m2.trace

def TwR (P : Prog W) : Res W α → Res W α → Prop
  | .ok a m1, .ok a' m2 => a = a' ∧ Tw P m1 m2
  | .thrown x m1, .thrown x' m2 => x = x' ∧ Tw P m1 m2
  | .fault _, _ => True
  | _, _ => False

def Same (P : Prog W) (f g : M W α) : Prop := ∀ m1 m2, Tw P m1 m2 → TwR P (f m1) (g m2)

theorem Par.rebase {P : Prog W} {b1 b2 m1 m2 : Mach W} (h : Par P false b1 b2 m1 m2) : Par P false m1 m2 m1 m2 :=
  { h with trace := ⟨[], by simp, by simp⟩, qlog := ⟨[], by simp, by simp⟩, xlog := ⟨[], by simp, by simp⟩ }

theorem Tw.step {P : Prog W} {m1 m2 n1 n2 : Mach W} (h : Tw P m1 m2) (hp : Par P false m1 m2 n1 n2) : Tw P n1 n2 := by
  refine ⟨hp.rebase, ?_, ?_, ?_⟩
  · obtain ⟨l, h1, h2⟩ := hp.qlog; rw [h1, h2, h.qlog]
  · obtain ⟨l, h1, h2⟩ := hp.xlog; rw [h1, h2, h.xlog]
  · obtain ⟨l, h1, h2⟩ := hp.trace
    unfold entries
    rw [h1, h2, List.filter_append, List.filter_append]
    have := h.code
    unfold entries at this
    rw [this]

theorem Tw.alike {P : Prog W} {m1 m2 : Mach W} (h : Tw P m1 m2) : Interchangeable m1 m2 :=
  ⟨h.par.view, h.par.terminated, h.par.world, h.par.evq, h.par.dq, h.par.sh, h.par.dh, h.qlog, h.xlog, h.code⟩

theorem Tw.fresh (P : Prog W) (w : W) : Tw P (Mach.fresh w) (Mach.fresh w) := by
  refine ⟨?_, rfl, rfl, rfl⟩
  constructor
  case nodes => exact .inl ⟨rfl, rfl, rfl⟩
  case trace => exact ⟨[], rfl, rfl⟩
  case qlog => exact ⟨[], rfl, rfl⟩
  case xlog => exact ⟨[], rfl, rfl⟩
  case lp => intro s o h; cases h
  case sl => intro s o h; cases h
  case ou => intro h; cases h
  all_goals first | rfl | exact fun _ => rfl

theorem Tw.setWorld {P : Prog W} {m1 m2 : Mach W} (h : Tw P m1 m2) (w : W) : Tw P { m1 with world := w } { m2 with world := w } :=
  h.step (h.par.setWorld w)

namespace Same
variable {P : Prog W}

theorem of {f : M W α} (h : Blind P false f) : Same P f f := by
  intro m1 m2 ht
  have h1 := h m1 m2 m1 m2 ht.par
  revert h1
  cases f m1 <;> cases f m2 <;> intro h1
  case ok.ok => exact ⟨h1.1, ht.step h1.2⟩
  case thrown.thrown => exact ⟨h1.1, ht.step h1.2⟩
  all_goals first | exact h1.elim | trivial

theorem bind {x y : M W α} {f g : α → M W β} (hx : Same P x y) (hf : ∀ a, Same P (f a) (g a)) : Same P (x >>= f) (y >>= g) := by
  intro m1 m2 h
  have h1 := hx m1 m2 h
  show TwR P (match x m1 with | .ok a m' => f a m' | .thrown e m' => .thrown e m' | .fault g => .fault g)
    (match y m2 with | .ok a m' => g a m' | .thrown e m' => .thrown e m' | .fault g => .fault g)
  revert h1
  cases x m1 <;> cases y m2 <;> intro h1
  · obtain ⟨rfl, h1⟩ := h1; exact hf _ _ _ h1
  all_goals first | exact h1 | exact h1.elim | trivial

theorem get {f g : Mach W → M W α} (h : ∀ {m1 m2}, Tw P m1 m2 → f m1 = f m2) (hf : ∀ m, Same P (f m) (g m)) : Same P (M.get >>= f) (M.get >>= g) := by
  intro m1 m2 h1
  show TwR P (f m1 m1) (g m2 m2)
  rw [h h1]
  exact hf m2 _ _ h1

theorem ite {c : Prop} [Decidable c] {x y x' y' : M W α} (hx : Same P x x') (hy : Same P y y') : Same P (if c then x else y) (if c then x' else y') := by
  split
  · exact hx
  · exact hy

theorem tryCatch {x y : M W α} {f g : Exc → M W α} (hx : Same P x y) (hf : ∀ a, Same P (f a) (g a)) : Same P (M.tryCatch x f) (M.tryCatch y g) := by
  intro m1 m2 h
  have h1 := hx m1 m2 h
  unfold M.tryCatch
  revert h1
  cases x m1 <;> cases y m2 <;> intro h1
  case thrown.thrown => obtain ⟨rfl, h1⟩ := h1; exact hf _ _ _ h1
  all_goals first | exact h1 | exact h1.elim | trivial

theorem onThrow {x y : M W α} {f : M W Unit} (hx : Same P x y) (hf : Same P f f) : Same P (M.onThrow x f) (M.onThrow y f) := by
  intro m1 m2 h
  have h1 := hx m1 m2 h
  unfold M.onThrow
  revert h1
  cases x m1 <;> cases y m2 <;> intro h1
  case thrown.thrown m1 _ m2 =>
    obtain ⟨rfl, h1⟩ := h1
    have h2 := hf _ _ h1
    simp only
    revert h2
    cases f m1 <;> cases f m2 <;> intro h2
    case ok.ok => exact ⟨rfl, h2.2⟩
    case thrown.thrown => trivial
    all_goals first | exact h2 | exact h2.elim | trivial
  all_goals first | exact h1 | exact h1.elim | trivial

theorem withTrig {x y : M W α} (hx : Same P x y) (e : Option Event) : Same P (withTrig e x) (withTrig e y) := by
  intro m1 m2 h
  have h1 := hx { m1 with trig := e } { m2 with trig := e } (h.step { h.par with trig := rfl })
  unfold SC.withTrig
  revert h1
  cases x { m1 with trig := e } <;> cases y { m2 with trig := e } <;> intro h1
  all_goals first
    | exact ⟨h1.1, h1.2.step { h1.2.par with trig := h.par.trig }⟩
    | exact h1.elim
    | trivial

theorem guardTerm {x y : M W α} (hx : Same P x y) : Same P (guardTerm P x) (guardTerm P y) := by
  intro m1 m2 h
  have h1 := hx m1 m2 h
  unfold SC.guardTerm
  revert h1
  cases x m1 <;> cases y m2 <;> intro h1
  case thrown.thrown m1 _ m2 =>
    obtain ⟨rfl, h1⟩ := h1
    have h2 := Same.of (Blind.terminateMachine P false) _ _ h1
    simp only
    revert h2
    cases SC.terminateMachine P false m1 <;> cases SC.terminateMachine P false m2 <;> intro h2
    case ok.ok => exact ⟨rfl, h2.2⟩
    case thrown.thrown => trivial
    all_goals first | exact h2 | exact h2.elim | trivial
  all_goals first | exact h1 | exact h1.elim | trivial

/-- Code that does the same and differs only in the names of the functions. -/
theorem code (f : View → W → UOut W) {a b : Obs} (ha : entries [(none, a)] = []) (hb : entries [(none, b)] = []) : Same P (runUser f [a] [a]) (runUser f [b] [b]) := by
  have he : ∀ {o : Obs}, entries [(none, o)] = [] → ∀ (t : Option Event), entries [(t, o)] = [] := by
    intro o ho t; unfold entries at *; simpa using ho
  have key : ∀ {n1 n2 : Mach W}, Tw P n1 n2 → Tw P (n1.log a) (n2.log b) := by
    intro n1 n2 h
    refine ⟨{ h.par with trace := ⟨[], by simp, by simp⟩ }, h.qlog, h.xlog, ?_⟩
    have h1 := he ha n1.trig
    have h2 := he hb n2.trig
    have h3 := h.code
    unfold entries at *
    show (n1.trace ++ [(n1.trig, a)]).filter _ = (n2.trace ++ [(n2.trig, b)]).filter _
    rw [List.filter_append, List.filter_append, h1, h2, h3]
  intro m1 m2 h
  unfold SC.runUser
  rw [h.par.view, h.par.world]
  have h1 := h.step (Par.cmds (f m2.view m2.world).cmds (h.par.setWorld (f m2.view m2.world).world))
  simp only
  cases (f m2.view m2.world).throws with
  | none => exact ⟨rfl, key h1⟩
  | some x => exact ⟨rfl, (key h1).step ((key h1).par.raise x)⟩

/-- Code that does nothing. -/
theorem idle {b : Obs} (hb : entries [(none, b)] = []) {x y : M W α} (h : Same P x y) : Same P x (runUser (fun _ w => { world := w }) [b] [b] >>= fun _ => y) := by
  intro m1 m2 ht
  refine h m1 (m2.log b) ⟨{ ht.par with trace := ⟨[], by simp, by simp⟩ }, ht.qlog, ht.xlog, ?_⟩
  rw [ht.code]
  unfold entries at *
  show _ = (m2.trace ++ [(m2.trig, b)]).filter _
  rw [List.filter_append]
  have : [(m2.trig, b)].filter (fun p : Option Event × Obs => match p.2 with | .act _ => false | .react _ _ => false | _ => true) = [] := by simpa using hb
  rw [this, List.append_nil]

end Same

section
variable {P : Prog W} {r : Sid → List Reaction} {f : Sid → Nat → Event → View → W → UOut W × Decision}

theorem customReact_stands {s : Sid} {id : Nat} {e : Event} {x : Reaction} (he : x.ev = none ∨ x.ev = some e.ty)
    (h : ∀ e v w, f s id e v w = handwritten P s e v w x.kind) : Same P (reactOne P s e x) (customReact (P.recast r f P.relaxed P.translate) s id e) := by
  have hb : entries [(none, Obs.react s id)] = [] := rfl
  unfold reactOne customReact
  rw [if_pos he]
  simp only [Recast.transit, Recast.terminateReaction]
  simp only [show ∀ v w, (P.recast r f P.relaxed P.translate).react s id e v w = handwritten P s e v w x.kind from h e]
  cases x.kind with
  | transition d a =>
    exact Same.idle hb (Same.of (Blind.bind (Blind.transit P s d a) fun _ => Blind.pure _))
  | inState a =>
    cases a with
    | none => exact Same.idle hb (Same.of (Blind.pure _))
    | some a => exact Same.bind (Same.code (P.action a) rfl rfl) fun _ => Same.of (Blind.pure _)
  | termination => exact Same.idle hb (Same.of (Blind.bind (Blind.terminateReaction P s) fun _ => Blind.pure _))
  | deferral => exact Same.idle hb (Same.of (Blind.bind (Blind.deferEvent s) fun _ => Blind.pure _))
  | custom j =>
    refine Same.get (fun h => by rw [h.par.view, h.par.world]) fun m => Same.bind (Same.code _ rfl rfl) fun _ => ?_
    refine Same.of ?_
    cases (P.react s j e m.view m.world).2 with
    | discard => exact Blind.pure _
    | forward => exact Blind.pure _
    | defer => exact Blind.bind (Blind.deferEvent s) fun _ => Blind.pure _
    | transit d a => exact Blind.bind (Blind.transit P s d a) fun _ => Blind.pure _
    | terminate => exact Blind.bind (Blind.terminateReaction P s) fun _ => Blind.pure _

theorem firstFor_fits {ty : Nat} {x : Reaction} : ∀ {l : List Reaction}, firstFor ty l = some x → x.ev = none ∨ x.ev = some ty
  | r :: l, h => by
    have h : (if r.ev = none ∨ r.ev = some ty then some r else firstFor ty l) = some x := h
    by_cases hr : r.ev = none ∨ r.ev = some ty
    · rw [if_pos hr] at h; cases h; exact hr
    · rw [if_neg hr] at h; exact firstFor_fits h

variable (h : Respelled P r f)
include h

theorem Same.localReact (s : Sid) (e : Event) : Same P (localReact P s e (P.reactions s)) (localReact (P.recast r f P.relaxed P.translate) s e (r s)) := by
  rw [localReact_first, localReact_first]
  have h1 := h s e.ty
  revert h1
  cases hx : firstFor e.ty (P.reactions s) with
  | none =>
    cases firstFor e.ty (r s) with
    | none => exact fun _ => Same.of (Blind.pure _)
    | some y => exact fun h => h.elim
  | some x =>
    cases hy : firstFor e.ty (r s) with
    | none => exact fun h => h.elim
    | some y =>
      intro h1
      show Same P (reactOne P s e x) (reactOne (P.recast r f P.relaxed P.translate) s e y)
      have ex := firstFor_fits hx
      have ey := firstFor_fits hy
      rcases h1 with ⟨h1, h2⟩ | ⟨id, h1, h2⟩
      · have : reactOne (P.recast r f P.relaxed P.translate) s e y = reactOne P s e x := by
          unfold reactOne
          rw [if_pos ex, if_pos ey, h1]
          cases hk : x.kind with
          | custom id => exact absurd hk (h2 id)
          | _ => simp only [Recast.transit, Recast.runAction, Recast.terminateReaction]
        rw [this]
        exact Same.of (Blind.reactOne P s e x)
      · have : reactOne (P.recast r f P.relaxed P.translate) s e y = customReact (P.recast r f P.relaxed P.translate) s id e := by
          unfold reactOne
          rw [if_pos ey, h1]
        rw [this]
        exact customReact_stands ex h2

theorem Same.reactF : ∀ (k : Nat) (s : Sid) (e : Event), Same P (reactF P k s e) (reactF (P.recast r f P.relaxed P.translate) k s e)
  | 0, _, _ => fun _ _ _ => trivial
  | k + 1, s, e => by
    refine Same.bind (Same.of (Blind.getObj s)) fun _ => Same.bind (Same.localReact h s e) fun x =>
      Same.ite (Same.bind (Same.of (Blind.getObj s)) fun o => Same.ite ?_ (Same.of (Blind.fault _))) (Same.of (Blind.pure _))
    show Same P (match P.parent s with | none => Pure.pure .forward | some p => SC.reactF P k p e)
      (match P.parent s with | none => Pure.pure .forward | some p => SC.reactF (P.recast r f P.relaxed P.translate) k p e)
    cases P.parent s with
    | none => exact Same.of (Blind.pure _)
    | some p => exact Same.reactF k p e

theorem Same.reactImpl (s : Sid) (e : Event) : Same P (reactImpl P s e) (reactImpl (P.recast r f P.relaxed P.translate) s e) := Same.reactF h _ s e

theorem Same.handleException (c : Option Sid) (e : Event) (x : Exc) : Same P (handleException P c e x) (handleException (P.recast r f P.relaxed P.translate) c e x) := by
  refine Same.get (fun h => by rw [h.par.terminated]; unfold Mach.handler; rw [h.par.pOU]) fun m => Same.ite (Same.of (Blind.throw x)) ?_
  cases m.handler c with
  | none => exact Same.of (Blind.fault _)
  | some u =>
    refine Same.withTrig (Same.bind (Same.of ?_) fun _ => Same.bind (Same.reactImpl h u e) fun r => Same.of (Blind.bind ?_ fun _ => ?_)) _
    · exact Blind.modify fun h => { h with fullExit := rfl }
    · exact Blind.modify fun h => { h with fullExit := rfl }
    · exact Blind.get (fun h => by rw [h.pOU]) fun m => Blind.ite (Blind.throw x) (Blind.pure _)

theorem Same.translated (c : Option Sid) {x y : M W RR} (hx : Same P x y) : Same P (translated P c x) (translated (P.recast r f P.relaxed P.translate) c y) := by
  refine Same.tryCatch hx fun e => ?_
  show Same P (match P.translate e with | none => M.throw e | some ev => SC.handleException P c ev e)
    (match P.translate e with | none => M.throw e | some ev => SC.handleException (P.recast r f P.relaxed P.translate) c ev e)
  cases P.translate e with
  | none => exact Same.of (Blind.throw e)
  | some ev => exact Same.handleException h c ev e

theorem Same.sendLoop (e : Event) : ∀ k i, Same P (sendLoop P e k i) (sendLoop (P.recast r f P.relaxed P.translate) e k i)
  | 0, _ => fun _ _ _ => trivial
  | k + 1, i => by
    refine Same.get (fun h => by rw [h.par.endIx, h.par.slot]) fun m => Same.ite (Same.of (Blind.pure _)) ?_
    cases m.slot i with
    | none => exact Same.of (Blind.fault _)
    | some s => exact Same.bind (Same.translated h _ (Same.reactImpl h s e)) fun _ => Same.ite (Same.sendLoop e k _) (Same.of (Blind.pure _))

theorem Same.sendEvent (e : Event) : Same P (sendEvent P e) (sendEvent (P.recast r f P.relaxed P.translate) e) := by
  unfold SC.sendEvent
  rw [Recast.guardTerm]
  exact Same.withTrig (Same.bind (Same.guardTerm (Same.get (fun h => by rw [h.par.pOU, h.par.endIx]) fun m => Same.ite (Same.of (Blind.fault _)) (Same.sendLoop h e _ _)))
    fun r => Same.of (Blind.bind (Blind.ite (Blind.runUser _ _ _) (Blind.pure _)) fun _ => Blind.pure _)) _

theorem Same.dispatch (e : Event) : Same P (dispatch P e) (dispatch (P.recast r f P.relaxed P.translate) e) :=
  Same.bind (Same.onThrow (Same.sendEvent h e) (Same.of (Blind.qop _))) fun r => Same.of (Blind.ite (Blind.bind (Blind.onThrow (Blind.allocate P _) (Blind.qop _))
    fun _ => Blind.modify fun {_ _ m1 m2} h => { h with
      dq := by show m1.dq ++ [e] = m2.dq ++ [e]; rw [h.dq]
      qlog := snoc_ex h.qlog _ }) (Blind.qop _))

theorem Same.processQueued : ∀ k, Same P (processQueued P k) (processQueued (P.recast r f P.relaxed P.translate) k)
  | 0 => Same.of (Blind.processQueued P 0)
  | k + 1 => by
    refine Same.get (fun h => by rw [h.par.evq]) fun m => ?_
    cases m.evq with
    | nil => exact Same.of (Blind.pure _)
    | cons e q =>
      exact Same.bind (Same.of (Blind.modify fun h => { h with evq := rfl, qlog := snoc_ex h.qlog _ })) fun _ =>
        Same.bind (Same.dispatch h e) fun _ => Same.processQueued k

theorem Same.terminate : Same P (terminate P) (terminate (P.recast r f P.relaxed P.translate)) := by
  unfold SC.terminate
  rw [Recast.guardTerm, Recast.terminateMachine]
  exact Same.bind (Same.withTrig (Same.guardTerm (Same.translated h none (Same.of (Blind.bind (Blind.terminateMachine P true) fun _ => Blind.pure _)))) none)
    fun _ => Same.of (Blind.pure _)

theorem Same.construct (k : Nat) : Same P (construct P k) (construct (P.recast r f P.relaxed P.translate) k) := by
  unfold SC.construct
  rw [Recast.guardTerm, Recast.initialConstruct]
  exact Same.bind (Same.withTrig (Same.guardTerm (Same.translated h none (Same.of (Blind.bind (Blind.initialConstruct P) fun _ => Blind.pure _)))) none)
    fun _ => Same.processQueued h k

theorem Same.run (c : Call) : Same P (c.run P) (c.run (P.recast r f P.relaxed P.translate)) := by
  cases c with
  | initiate k => exact Same.bind (Same.terminate h) fun _ => Same.construct h k
  | terminate => exact Same.bind (Same.terminate h) fun _ => Same.of (Blind.pure _)
  | process e k => exact Same.bind (Same.of (Blind.qop _)) fun _ => Same.bind (Same.dispatch h e) fun _ => Same.processQueued h k
  | post e => exact Same.of (Blind.bind (Blind.postEvent P e) fun _ => Blind.pure _)
  | clearShallow k => exact Same.of (Blind.bind (Blind.clearShallowHistory P k) fun _ => Blind.pure _)
  | clearDeep k => exact Same.of (Blind.bind (Blind.clearDeepHistory P k) fun _ => Blind.pure _)

end

section
variable {P : Prog W} {r : Sid → List Reaction} {f : Sid → Nat → Event → View → W → UOut W × Decision} (h : Respelled P r f)
  (hwf : P.toChart.WF) (hok : Contract P) {m m' : Mach W}
include h

theorem Tw.legal (ht : Tw P m m') (c : Call) (hl : c.legal (P.recast r f P.relaxed P.translate) m') : c.legal P m := by
  cases c with
  | initiate k =>
    intro m1 h1
    have h2 := Same.terminate h m m' ht
    rw [h1] at h2
    cases h3 : SC.terminate (P.recast r f P.relaxed P.translate) m' with
    | ok a m1' =>
      rw [h3] at h2
      rw [h2.2.par.terminated]
      exact hl m1' h3
    | thrown x m1' => rw [h3] at h2; exact h2.elim
    | fault g => rw [h3] at h2; exact h2.elim
  | _ => trivial

include hwf hok

theorem Tw.legal' (hm : Reach P m) (ht : Tw P m m') (c : Call) (hl : c.legal P m) : c.legal (P.recast r f P.relaxed P.translate) m' := by
  cases c with
  | initiate k =>
    intro m1' h1
    have h2 := Same.terminate h m m' ht
    rw [h1] at h2
    cases h3 : SC.terminate P m with
    | ok a m1 =>
      rw [h3] at h2
      rw [← h2.2.par.terminated]
      exact hl m1 h3
    | thrown x m1 => rw [h3] at h2; exact h2.elim
    | fault g =>
      refine absurd ?_ (C01_call_is_safe hwf hok hm .terminate trivial g)
      show M.bnd (SC.terminate P) _ m = _
      unfold M.bnd
      rw [h3]
  | _ => trivial

/-- One call. -/
theorem Tw.call (hm : Reach P m) (ht : Tw P m m') (c : Call) (hl : c.legal P m) :
    (∃ b n n', c.run P m = .ok b n ∧ c.run (P.recast r f P.relaxed P.translate) m' = .ok b n' ∧ Tw P n n') ∨
    ∃ x n n', c.run P m = .thrown x n ∧ c.run (P.recast r f P.relaxed P.translate) m' = .thrown x n' ∧ Tw P n n' := by
  have h1 := Same.run h c m m' ht
  revert h1
  cases e1 : c.run P m <;> cases e2 : c.run (P.recast r f P.relaxed P.translate) m' <;> intro h1
  case ok.ok b n b' n' => obtain ⟨rfl, h1⟩ := h1; exact .inl ⟨_, n, n', rfl, rfl, h1⟩
  case thrown.thrown x n x' n' => obtain ⟨rfl, h1⟩ := h1; exact .inr ⟨_, n, n', rfl, rfl, h1⟩
  case fault.ok => exact absurd e1 (C01_call_is_safe hwf hok hm c hl _)
  case fault.thrown => exact absurd e1 (C01_call_is_safe hwf hok hm c hl _)
  case fault.fault => exact absurd e1 (C01_call_is_safe hwf hok hm c hl _)
  all_goals exact h1.elim

theorem Tw.session {w : W} {l : List (ClientStep W)} (hs : Session P w l m) : ∃ m', Session (P.recast r f P.relaxed P.translate) w l m' ∧ Tw P m m' := by
  induction hs with
  | new => exact ⟨_, .new, Tw.fresh P w⟩
  | @returns l m n v c hs hl hr ih =>
    obtain ⟨m', h1, h2⟩ := ih
    have h2 := h2.setWorld v
    have hl' := h2.legal' h hwf hok (hs.reach.world v) c hl
    rcases h2.call h hwf hok (hs.reach.world v) c hl with ⟨b, n1, n', e1, e2, e3⟩ | ⟨x, n1, n', e1, e2, e3⟩
    · rw [hr] at e1; cases e1; exact ⟨n', .returns h1 hl' e2, e3⟩
    · rw [hr] at e1; cases e1
  | @throws l m n x v c hs hl hr ih =>
    obtain ⟨m', h1, h2⟩ := ih
    have h2 := h2.setWorld v
    have hl' := h2.legal' h hwf hok (hs.reach.world v) c hl
    rcases h2.call h hwf hok (hs.reach.world v) c hl with ⟨b, n1, n', e1, e2, e3⟩ | ⟨x, n1, n', e1, e2, e3⟩
    · rw [hr] at e1; cases e1
    · rw [hr] at e1; cases e1; exact ⟨n', .throws h1 hl' e2, e3⟩

theorem Tw.session' {w : W} {l : List (ClientStep W)} (hs : Session (P.recast r f P.relaxed P.translate) w l m') : ∃ m, Session P w l m ∧ Tw P m m' := by
  induction hs with
  | new => exact ⟨_, .new, Tw.fresh P w⟩
  | @returns l m' n v c hs hl hr ih =>
    obtain ⟨m, h1, h2⟩ := ih
    have h2 := h2.setWorld v
    have hl' := h2.legal h c hl
    rcases h2.call h hwf hok (h1.reach.world v) c hl' with ⟨b, n1, n', e1, e2, e3⟩ | ⟨x, n1, n', e1, e2, e3⟩
    · rw [hr] at e2; cases e2; exact ⟨n1, .returns h1 hl' e1, e3⟩
    · rw [hr] at e2; cases e2
  | @throws l m' n x v c hs hl hr ih =>
    obtain ⟨m, h1, h2⟩ := ih
    have h2 := h2.setWorld v
    have hl' := h2.legal h c hl
    rcases h2.call h hwf hok (h1.reach.world v) c hl' with ⟨b, n1, n', e1, e2, e3⟩ | ⟨x, n1, n', e1, e2, e3⟩
    · rw [hr] at e2; cases e2
    · rw [hr] at e2; cases e2; exact ⟨n1, .throws h1 hl' e1, e3⟩

/-- **C70.** If reactions are replaced by custom reactions whose functions do by hand what they do (or the other way round), the client can call the same functions with the
same results and exceptions, and afterwards always has a machine that is alike. -/
theorem C70_handwritten (w : W) (l : List (ClientStep W)) :
    (∀ m, Session P w l m → ∃ m', Session (P.recast r f P.relaxed P.translate) w l m' ∧ Interchangeable m m') ∧ ∀ m', Session (P.recast r f P.relaxed P.translate) w l m' → ∃ m, Session P w l m ∧ Interchangeable m m' :=
  ⟨fun _ hs => (Tw.session h hwf hok hs).imp fun _ h => ⟨h.1, h.2.alike⟩, fun _ hs => (Tw.session' h hwf hok hs).imp fun _ h => ⟨h.1, h.2.alike⟩⟩

end

namespace Spec

/-- All reactions of a state as custom reactions; the function `react` number `i` is that of the `i`th reaction. -/
def numbered (i : Nat) : List Reaction → List Reaction
  | [] => []
  | r :: l => ⟨r.ev, .custom i⟩ :: numbered (i + 1) l

/-- The machine `P` written with custom reactions only. -/
def onlyCustom (P : Prog W) : Prog W :=
  P.recast (fun s => numbered 0 (P.reactions s)) (rx := P.relaxed) (tr := P.translate) fun s i e v w => match (P.reactions s)[i]? with
    | none => ({ world := w }, .forward)
    | some r => handwritten P s e v w r.kind

end Spec

theorem numbered_first (ty : Nat) : ∀ (l : List Reaction) (i : Nat), match firstFor ty l, firstFor ty (numbered i l) with
    | none, none => True
    | some x, some y => ∃ j, l[j]? = some x ∧ y.kind = .custom (i + j)
    | _, _ => False
  | [], _ => trivial
  | r :: l, i => by
    have ih := numbered_first ty l (i + 1)
    show match (if r.ev = none ∨ r.ev = some ty then some r else firstFor ty l),
      (if r.ev = none ∨ r.ev = some ty then some ⟨r.ev, .custom i⟩ else firstFor ty (numbered (i + 1) l)) with
      | none, none => True
      | some x, some y => ∃ j, (r :: l)[j]? = some x ∧ y.kind = .custom (i + j)
      | _, _ => False
    by_cases hr : r.ev = none ∨ r.ev = some ty
    · rw [if_pos hr, if_pos hr]; exact ⟨0, rfl, rfl⟩
    · rw [if_neg hr, if_neg hr]
      revert ih
      cases firstFor ty l <;> cases firstFor ty (numbered (i + 1) l) <;> intro ih
      · trivial
      · exact ih
      · exact ih
      · obtain ⟨j, h1, h2⟩ := ih
        refine ⟨j + 1, by simpa using h1, ?_⟩
        rw [h2]; congr 1; omega

theorem respelled_onlyCustom (P : Prog W) : Respelled P (fun s => numbered 0 (P.reactions s)) (onlyCustom P).react := by
  intro s ty
  have h := numbered_first ty (P.reactions s) 0
  revert h
  simp only
  cases firstFor ty (P.reactions s) <;> cases firstFor ty (numbered 0 (P.reactions s)) <;> intro h
  · trivial
  · exact h
  · exact h
  · obtain ⟨j, h1, h2⟩ := h
    refine .inr ⟨_, h2, fun e v w => ?_⟩
    show (match (P.reactions s)[0 + j]? with
      | none => (({ world := w }, .forward) : UOut W × Decision)
      | some r => handwritten P s e v w r.kind) = _
    rw [Nat.zero_add, h1]

/-- **C70.** Every machine can be written with custom reactions only. -/
theorem C70_custom (P : Prog W) (hwf : P.toChart.WF) (hok : Contract P) (w : W) (l : List (ClientStep W)) :
    (∀ m, Session P w l m → ∃ m', Session (onlyCustom P) w l m' ∧ Interchangeable m m') ∧ ∀ m', Session (onlyCustom P) w l m' → ∃ m, Session P w l m ∧ Interchangeable m m' :=
  C70_handwritten (respelled_onlyCustom P) hwf hok w l

end SC

namespace SC.Ex
open Spec

/-- The first two reactions of `I` (8) exchanged. -/
def reordered : Sid → List Reaction
  | 8 => [⟨some 7, .termination⟩, ⟨some 6, .transition ⟨.plain, 0⟩ none⟩, ⟨some 10, .transition ⟨.shallow, 2⟩ none⟩,
      ⟨some 11, .transition ⟨.deep, 5⟩ none⟩, ⟨some 12, .inState (some 3)⟩]
  | s => prog.reactions s

example (c : Call) (m : Mach Nat) : c.run (prog.relist reordered) m = c.run prog m := by
  refine C69_order prog reordered (fun s => ?_) c m
  by_cases h : s = 8
  · subst h
    exact .swap [] _ (by decide) (by decide) (by decide) (.refl _)
  · have : reordered s = prog.reactions s := by unfold reordered; split <;> first | contradiction | rfl
    rw [this]; exact .refl _

/-- `prog` with a second reaction of `C` (2) to event 1. -/
def longer : Prog Nat := prog.relist fun s => if s = 2 then
  [⟨some 1, .transition ⟨.plain, 3⟩ (some 7)⟩, ⟨some 2, .custom 0⟩, ⟨some 1, .termination⟩] else prog.reactions s

example (c : Call) (m : Mach Nat) : c.run (longer.relist prog.reactions) m = c.run longer m := by
  refine C69_dead longer _ (fun s => ?_) c m
  show Trimmed (if s = 2 then _ else prog.reactions s) (prog.reactions s)
  by_cases h : s = 2
  · subst h
    exact .drop [⟨some 1, .transition ⟨.plain, 3⟩ (some 7)⟩, ⟨some 2, .custom 0⟩] [] (x := ⟨some 1, .transition ⟨.plain, 3⟩ (some 7)⟩) (by decide) (.inr rfl) (.refl _)
  · rw [if_neg h]; exact .refl _

/-- Nothing behind a reaction for any event is executed. -/
example : Trimmed [⟨some 8, .termination⟩, ⟨none, .deferral⟩, ⟨some 3, .inState (some 2)⟩] [⟨some 8, .termination⟩, ⟨none, .deferral⟩] :=
  .drop [⟨some 8, .termination⟩, ⟨none, .deferral⟩] [] (x := ⟨none, .deferral⟩) (by decide) (.inl rfl) (.refl _)

/-- The order of two reactions to the same event matters. -/
example : firstFor 1 [⟨some 1, .deferral⟩, ⟨some 1, .termination⟩] ≠ firstFor 1 [⟨some 1, .termination⟩, ⟨some 1, .deferral⟩] := by decide

/-- The calls of Reference.lean: the actions of a transition and of in-state reactions are called, some throw. -/
example : ∃ (l : List (ClientStep Nat)) (m m' : Mach Nat), Session looking 0 l m ∧ Session (onlyCustom looking) 0 l m' ∧ Interchangeable m m' ∧
    l.reverse.map (·.ended) = ends ∧ m.trace.length = 75 := by
  have h : ((play looking calls [] (Mach.fresh 0)).any fun r => decide (r.1.reverse.map (·.ended) = ends ∧ r.2.trace.length = 75)) = true := by
    decide +kernel
  rw [Option.any_eq_true] at h
  obtain ⟨⟨l, m⟩, h1, h2⟩ := h
  obtain ⟨h2, h3⟩ := of_decide_eq_true h2
  have hs := play_session calls Session.new h1
  obtain ⟨m', k1, k2⟩ := (C70_custom looking wf looking_contract 0 l).1 m hs
  exact ⟨l, m, m', hs, k1, k2, h2, h3⟩

/-- The reactions of `onlyCustom`. -/
example : (onlyCustom prog).reactions 2 = [⟨some 1, .custom 0⟩, ⟨some 2, .custom 1⟩] := rfl
example (e : Event) (v : View) : (onlyCustom prog).react 2 0 e v 5 = ({ world := 5 }, .transit ⟨.plain, 3⟩ (some 7)) := rfl

end SC.Ex
