import Verif.Demo.BitMachine
/-!
# example/Performance/Performance.cpp

A bit machine in which events of the lower bits are in-state reactions. It counts both kinds of reactions. Everything is proved for all numbers of bits.
-/

namespace SC.Demo.Performance
open Spec
open BitMachine (flip visit flip_lt visit_le)

/-- Performance.cpp:122-305, with `b` for `NoOfBits` and `f` for `FirstTransitionBit`. State `s` is `BitState< s, b, f >`, event `i` is `EvFlipBit< i >`. Action 0 is `InStateReaction`
(144-192), action 1 is `Transition` (194-242). `front_inserter` reverses the list of reactions. -/
def chart (b f : Nat) : Chart where
  n := 2 ^ b
  parent _ := none
  pos _ := 0
  init _ := []
  shallowH _ := false
  deepH _ := false
  isSimple _ := true
  initial := 0
  reactions s := (List.range b).reverse.map fun i => ⟨some i, if i < f then .inState (some 0) else .transition ⟨.plain, s ^^^ (1 <<< i)⟩ (some 1)⟩

/-- The members of `BitMachine` (254-256). They do not overflow here. -/
structure Env where
  inStateReactions : Nat := 0
  transitions : Nat := 0
deriving DecidableEq

def count (a : Nat) (w : Env) : Env := match a with
  | 0 => { w with inStateReactions := w.inStateReactions + 1 }
  | _ => { w with transitions := w.transitions + 1 }

def prog (b f : Nat) : Prog Env :=
  { quiet (chart b f) with
    action := fun a _ w => { world := count a w } }

theorem ctxList (b f : Nat) (s : Sid) : (chart b f).ctxList s = [none] := by
  unfold Chart.ctxList Chart.ancestors
  cases s <;> rfl

theorem common (b f : Nat) (s d : Sid) : (chart b f).commonCtx s d = none := by
  unfold Chart.commonCtx
  rw [ctxList, ctxList]
  rfl

theorem term (b f : Nat) (s d : Sid) : (chart b f).termState s d = some s := by
  unfold Chart.termState
  rw [ctxList, common]
  rfl

theorem path (b f : Nat) (d : Sid) : (chart b f).pathBelow none d = [] := by
  unfold Chart.pathBelow
  rw [ctxList]
  rfl

theorem wf (b f : Nat) : (chart b f).WF where
  parent_lt _ h := by cases h
  pos_lt _ := Nat.one_pos
  init_ok _ h := by cases h
  init_len _ := Nat.zero_le _
  init_shallow _ h := by cases h
  init_deep _ h := by cases h
  deep_one _ h := by cases h
  initial_ok := ⟨Nat.two_pow_pos b, rfl⟩
  trans_ok := by
    intro s r d a hs hr hk
    simp only [chart, List.mem_map, List.mem_reverse, List.mem_range] at hr
    obtain ⟨i, hi, rfl⟩ := hr
    simp only at hk
    split at hk
    · cases hk
    · cases hk
      unfold Chart.transitOK
      rw [term]
      have h1 : s < (chart b f).n := hs
      have h2 : s ^^^ (1 <<< i) < (chart b f).n := flip_lt hs hi
      simp only [h1, h2, decide_true, Bool.true_and]
      rfl

theorem contract (b f : Nat) : Contract (prog b f) := ⟨fun _ _ _ _ => rfl, fun _ _ _ _ _ _ _ h => by cases h⟩
theorem plain (b f : Nat) : Plain (prog b f) := by constructor <;> (intros; first | rfl | exact fun _ => rfl)
theorem smooth (b f : Nat) : Smooth (prog b f) := by constructor <;> intros <;> rfl

/-! ### What the user expects -/

/-- The bits with transitions that have been flipped an odd number of times. -/
def number (f : Nat) (l : List (Fin b)) : Nat := l.foldl (fun s i => if i.1 < f then s else s ^^^ (1 <<< i.1)) 0

/-! ### Proof -/

def cfg (s : Nat) (w : Env) : Core Env := ⟨fun x => decide (x = s), fun _ => false, [s], some s, [], [], none, w⟩

/-- The number of the state and the counters. -/
def next (f : Nat) (a : Nat × Env) (i : Fin b) : Nat × Env := if i.1 < f then (a.1, count 0 a.2) else (a.1 ^^^ (1 <<< i.1), count 1 a.2)

def R (b : Nat) (a : Nat × Env) (st : Calm.St Env) : Prop := a.1 < 2 ^ b ∧ core st = cfg a.1 a.2

theorem find (b f : Nat) (s : Sid) (i : Fin b) :
    ((chart b f).reactions s).find? (fun r => r.ev = none ∨ r.ev = some (flip i).ty) =
      some ⟨some i.1, if i.1 < f then .inState (some 0) else .transition ⟨.plain, s ^^^ (1 <<< i.1)⟩ (some 1)⟩ := by
  rw [List.find?_eq_some_iff_getElem]
  refine ⟨by simp [BitMachine.flip], b - 1 - i.1, by simp [chart]; omega, ?_, ?_⟩
  · have : b - 1 - (b - 1 - i.1) = i.1 := by omega
    simp [chart, this]
  · intro j hj
    have : ¬ b - 1 - j = i.1 := by omega
    simp [chart, BitMachine.flip, this]

theorem step {b f : Nat} {a : Nat × Env} {st : Calm.St Env} (h : R b a st) (i : Fin b) : R b (next f a i) (Calm.dispatch (prog b f) (flip i) st) := by
  obtain ⟨s, w⟩ := a
  obtain ⟨hs, hc⟩ := h
  replace hs : s < 2 ^ b := hs
  replace hc : core st = cfg s w := hc
  have hl : st.leaves = [s] := congrArg Core.leaves hc
  have hd : st.defers = fun _ => false := congrArg Core.defers hc
  have ht : st.trig = none := congrArg Core.trig hc
  have hfind : ((prog b f).reactions s).find? (fun r => r.ev = none ∨ r.ev = some (flip i).ty) = _ := find b f s i
  unfold next
  by_cases hi : i.1 < f
  · rw [if_pos hi]
    refine ⟨hs, ?_⟩
    rw [if_pos hi] at hfind
    have hloc : Calm.local' (prog b f) s (flip i) { st with trig := some (flip i) } = (.discard, Calm.action (prog b f) (some 0) { st with trig := some (flip i) }) := by
      unfold Calm.local'
      rw [hfind]
      rfl
    rw [dispatch_one hl hloc]
    show { core (Calm.action (prog b f) (some 0) { st with trig := some (flip i) }) with trig := st.trig } = _
    rw [core_action (f := count 0) (fun _ _ => rfl)]
    show { core st with world := count 0 st.world } = _
    have hw : st.world = w := congrArg Core.world hc
    rw [hc, hw]
    rfl
  · rw [if_neg hi]
    refine ⟨flip_lt hs i.2, ?_⟩
    rw [if_neg hi] at hfind
    have hloc : ∀ st, Calm.local' (prog b f) s (flip i) st =
        (.discard, Calm.enter (prog b f) (s ^^^ (1 <<< i.1)) (Calm.action (prog b f) (some 1) (Calm.exitOne (prog b f) s st))) := by
      intro st
      rw [← transit_leaf_action (P := prog b f) hs rfl rfl rfl (term b f _ _) (by rw [show (prog b f).commonCtx s _ = none from common b f _ _]; exact path b f _)]
      unfold Calm.local'
      rw [hfind]
      rfl
    rw [dispatch_one hl (hloc _)]
    show { core (Calm.enter (prog b f) (s ^^^ (1 <<< i.1)) (Calm.action (prog b f) (some 1) (Calm.exitOne (prog b f) s { st with trig := some (flip i) }))) with trig := st.trig } = _
    have he := core_exit (P := prog b f) (s := s) (st := { st with trig := some (flip i) }) (fe := id) (fd := id) (fun _ _ => rfl) (fun _ _ => rfl) (congrFun hd s)
    have hw : (Calm.exitOne (prog b f) s { st with trig := some (flip i) }).world = w :=
      (congrArg Core.world he : _).trans (congrArg Core.world hc)
    rw [core_enter (fc := id) (ps := []) (fun _ _ => rfl), core_action (f := count 1) (fun _ _ => rfl), he, hw]
    show { ({ (core st).exit (chart b f) s id with world := count 1 w } : Core Env).enter (chart b f) (s ^^^ (1 <<< i.1)) id [] with trig := st.trig } = _
    rw [hc, ht]
    have hp : ∀ x, (chart b f).parent x = none := fun _ => rfl
    have hi : ∀ x, (chart b f).isLeaf x = true := fun _ => rfl
    simp [Core.exit, Core.enter, hp, hi, Ref.leave, cfg]

theorem started (b f k : Nat) : ∃ st, Calm.run (prog b f) (.initiate k) (Calm.start {}) = (true, st) ∧ R b (0, {}) st := by
  obtain ⟨g, hg⟩ := depth_eq (prog b f)
  simp only [Calm.run, hg]
  refine ⟨_, drain_nil rfl k, Nat.two_pow_pos b, ?_⟩
  show { core (Calm.enter (prog b f) 0 { Calm.stop (prog b f) (Calm.start {}) with trig := none }) with trig := none } = _
  rw [core_enter (fc := id) (ps := []) (fun _ _ => rfl)]
  simp [Core.enter, core, Calm.stop, Calm.leaveAll, Calm.start, prog, quiet, chart, Chart.isLeaf, cfg]

theorem next_number (f : Nat) (l : List (Fin b)) : ∀ a, (l.foldl (next f) a).1 = l.foldl (fun s i => if i.1 < f then s else s ^^^ (1 <<< i.1)) a.1 := by
  induction l with
  | nil => intro a; rfl
  | cons i l ih =>
    intro a
    rw [List.foldl_cons, List.foldl_cons, ih]
    unfold next
    split <;> rfl

theorem next_counts (f : Nat) (l : List (Fin b)) : ∀ a, (l.foldl (next f) a).2.inStateReactions = a.2.inStateReactions + l.countP (·.1 < f) ∧
    (l.foldl (next f) a).2.transitions = a.2.transitions + l.countP (f ≤ ·.1) := by
  induction l with
  | nil => intro a; simp
  | cons i l ih =>
    intro a
    rw [List.foldl_cons, (ih _).1, (ih _).2, List.countP_cons, List.countP_cons]
    unfold next
    by_cases h : i.1 < f
    · have : ¬ f ≤ i.1 := by omega
      simp [h, this, count]
      omega
    · have : f ≤ i.1 := by omega
      simp [h, this, count]
      omega

/-- **C68.** Any events can be sent. Those of the lower bits are counted as in-state reactions and leave the state as it is, the others are counted as transitions and flip a bit. -/
theorem C68_counts (b f k : Nat) (l : List (Fin b)) :
    (∃ m, Fed (prog b f) k (fun _ w => w) flip {} l m) ∧
    ∀ m, Fed (prog b f) k (fun _ w => w) flip {} l m → Reach (prog b f) m ∧
      m.world.inStateReactions = l.countP (·.1 < f) ∧ m.world.transitions = l.countP (f ≤ ·.1) ∧
      (∀ x, (m.heap x).isSome = true ↔ x = number f l) ∧ (List.range m.endIx).map m.slot = [some (number f l)] := by
  obtain ⟨h1, h2⟩ := fed_follows (setup := fun _ w => w) (ev := flip) (k := k) (wf b f) (contract b f) (plain b f) (smooth b f) (R b) (next f) (0, {}) (started b f k)
    (fun s st i h => ⟨_, drain_nil (congrArg Core.evq (step h i).2) k, step h i⟩) l
  refine ⟨h1, fun m hm => ?_⟩
  obtain ⟨hr, st, ⟨h3, h4⟩, h5⟩ := h2 m hm
  have ha : st.act = _ := congrArg Core.act h4
  have hl : st.leaves = _ := congrArg Core.leaves h4
  have hw : st.world = _ := congrArg Core.world h4
  have hn := next_number f l (0, {})
  have hc := next_counts f l (0, {})
  refine ⟨hr, ?_, ?_, fun x => ?_, ?_⟩
  · rw [h5.world, hw]
    exact hc.1.trans (Nat.zero_add _)
  · rw [h5.world, hw]
    exact hc.2.trans (Nat.zero_add _)
  · rw [h5.states, ha, hn]
    simp [number, cfg]
  · rw [h5.range, hl, hn]
    rfl

/-! ### `PerformanceTester` -/

/-- The events sent by `Test()` for `b + 1` bits (Performance.cpp:372-384, 412-429). -/
def sent (b eventsToSend : Nat) : List Nat := (List.replicate (eventsToSend / (2 ^ (b + 1) - 1)) (visit b)).flatten

theorem visit_length (b : Nat) : (visit b).length = 2 ^ (b + 1) - 1 := by
  induction b with
  | zero => rfl
  | succ b ih =>
    have : 0 < 2 ^ (b + 1) := Nat.two_pow_pos _
    simp [visit, ih, Nat.pow_succ 2 (b + 1)]
    omega

theorem visit_count (b f : Nat) (h : f ≤ b + 1) : (visit b).countP (f ≤ ·) = 2 ^ (b + 1 - f) - 1 := by
  induction b with
  | zero =>
    obtain rfl | rfl : f = 0 ∨ f = 1 := by omega
    · rfl
    · rfl
  | succ b ih =>
    simp only [visit, List.countP_append, List.countP_cons]
    by_cases hf : f ≤ b + 1
    · rw [ih hf, show b + 1 + 1 - f = (b + 1 - f) + 1 by omega, Nat.pow_succ]
      have : 0 < 2 ^ (b + 1 - f) := Nat.two_pow_pos _
      simp [hf]
      omega
    · have hz : (visit b).countP (f ≤ ·) = 0 := by
        rw [List.countP_eq_zero]
        intro i hi
        have := visit_le b i hi
        simp
        omega
      rw [hz, show b + 1 + 1 - f = 0 by omega]
      simp
      omega

theorem lift {b : Nat} : ∀ q : List Nat, (∀ i ∈ q, i < b) → ∃ p : List (Fin b), p.map Fin.val = q
  | [], _ => ⟨[], rfl⟩
  | i :: q, h => by
    obtain ⟨p, rfl⟩ := lift q fun j hj => h j (List.mem_cons_of_mem _ hj)
    exact ⟨⟨i, h i List.mem_cons_self⟩ :: p, rfl⟩

/-- **C68.** In `Test()` with `b + 1` bits and `f` of them with in-state reactions, all calls return. The second assertion (389-391) always holds. The first one (388) holds if and only if
`2 ^ (b + 1) - 1` divides `eventsToSend`. The machine has made a transition for `2 ^ (b + 1 - f) - 1` of the events of each lap. -/
theorem C68_test (b f k eventsToSend : Nat) (hf : f ≤ b + 1) : ∃ l : List (Fin (b + 1)), l.map Fin.val = sent b eventsToSend ∧
    (∃ m, Fed (prog (b + 1) f) k (fun _ w => w) flip {} l m) ∧
    ((sent b eventsToSend).length = eventsToSend ↔ 2 ^ (b + 1) - 1 ∣ eventsToSend) ∧
    ∀ m, Fed (prog (b + 1) f) k (fun _ w => w) flip {} l m →
      m.world.inStateReactions + m.world.transitions = (sent b eventsToSend).length ∧
      m.world.transitions = eventsToSend / (2 ^ (b + 1) - 1) * (2 ^ (b + 1 - f) - 1) := by
  have hlt : ∀ i ∈ sent b eventsToSend, i < b + 1 := by
    intro i hi
    simp only [sent, List.mem_flatten, List.mem_replicate] at hi
    obtain ⟨l, ⟨_, rfl⟩, hi⟩ := hi
    exact visit_le b i hi
  obtain ⟨l, hl⟩ := lift _ hlt
  obtain ⟨h1, h2⟩ := C68_counts (b + 1) f k l
  refine ⟨l, hl, h1, ?_, fun m hm => ?_⟩
  · have : (sent b eventsToSend).length = eventsToSend / (2 ^ (b + 1) - 1) * (2 ^ (b + 1) - 1) := by
      simp [sent, visit_length]
    rw [this, Nat.dvd_iff_div_mul_eq]
  · obtain ⟨-, h3, h4, -⟩ := h2 m hm
    rw [h3, h4]
    constructor
    · rw [← hl, List.length_map, List.length_eq_countP_add_countP (fun i : Fin (b + 1) => decide (i.1 < f))]
      congr 2
      funext i
      simp
    · have : l.countP (f ≤ ·.1) = (l.map Fin.val).countP (f ≤ ·) := by rw [List.countP_map]; rfl
      rw [this, hl, sent, List.countP_flatten, List.map_replicate, List.sum_replicate_nat, visit_count b f hf]

/-- With the constant of the program (433), `Test()` sends `eventsToSend_` events for all numbers of bits from 1 to 8, and for 9 bits it would not. -/
theorem C68_constant : (∀ b, b < 8 → (sent b (3 * 3 * 5 * 7 * 17 * 31 * 127)).length = 3 * 3 * 5 * 7 * 17 * 31 * 127) ∧
    (sent 8 (3 * 3 * 5 * 7 * 17 * 31 * 127)).length ≠ 3 * 3 * 5 * 7 * 17 * 31 * 127 := by
  have h : ∀ b n, (sent b n).length = n / (2 ^ (b + 1) - 1) * (2 ^ (b + 1) - 1) := by
    intro b n
    simp [sent, visit_length]
  simp only [h]
  decide

namespace Ex

/-- Three bits, one of them with in-state reactions (Performance.cpp:319): of the 14 events of two laps, 6 make a transition. -/
example : (sent 2 14).countP (1 ≤ ·) = 6 ∧ (sent 2 14).length = 14 := by decide

/-- The library runs this program. -/
example : (fed (prog 2 1) 9 (fun _ w => w) (flip (b := 2)) {} [0, 1, 0]).map (fun m => (m.world, (List.range m.endIx).map m.slot)) = some (⟨2, 1⟩, [some 2]) := by decide +kernel

end Ex

end SC.Demo.Performance
