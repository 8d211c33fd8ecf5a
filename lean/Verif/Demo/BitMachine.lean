import Verif.Demo.Basic
/-!
# example/BitMachine/BitMachine.cpp

The machine has `2 ^ b` states for `b` bits (`NO_OF_BITS`); everything is proved for all `b`.
-/

namespace SC.Demo.BitMachine
open Spec

/-- BitMachine.cpp:93-157. State `s` is `BitState< s >`, event `i` is `EvFlipBit< i >`. `front_inserter` reverses the list of reactions. -/
def chart (b : Nat) : Chart where
  n := 2 ^ b
  parent _ := none
  pos _ := 0
  init _ := []
  shallowH _ := false
  deepH _ := false
  isSimple _ := true
  initial := 0
  reactions s := (List.range b).reverse.map fun i => ⟨some i, .transition ⟨.plain, s ^^^ (1 <<< i)⟩ none⟩

def prog (b : Nat) : Prog Unit := quiet (chart b)

def flip (i : Fin b) : Event := ⟨i, 0⟩

theorem ctxList (b : Nat) (s : Sid) : (chart b).ctxList s = [none] := by
  unfold Chart.ctxList Chart.ancestors
  cases s <;> rfl

theorem common (b : Nat) (s d : Sid) : (chart b).commonCtx s d = none := by
  unfold Chart.commonCtx
  rw [ctxList, ctxList]
  rfl

theorem term (b : Nat) (s d : Sid) : (chart b).termState s d = some s := by
  unfold Chart.termState
  rw [ctxList, common]
  rfl

theorem path (b : Nat) (d : Sid) : (chart b).pathBelow none d = [] := by
  unfold Chart.pathBelow
  rw [ctxList]
  rfl

theorem flip_lt {b s i : Nat} (hs : s < 2 ^ b) (hi : i < b) : s ^^^ (1 <<< i) < 2 ^ b := by
  refine Nat.xor_lt_two_pow hs ?_
  rw [Nat.one_shiftLeft]
  exact Nat.pow_lt_pow_right (by omega) hi

theorem wf (b : Nat) : (chart b).WF where
  parent_lt _ h := by cases h
  pos_lt _ := Nat.one_pos
  init_ok _ h := by cases h
  init_len _ := Nat.zero_le _
  init_shallow _ h := by cases h
  init_deep _ h := by cases h
  deep_one _ h := by cases h
  initial_ok := ⟨Nat.two_pow_pos b, rfl⟩
  trans_ok := by
    intro s r d a hs hr hk
    simp only [chart, List.mem_map, List.mem_reverse, List.mem_range] at hr
    obtain ⟨i, hi, rfl⟩ := hr
    cases hk
    unfold Chart.transitOK
    rw [term]
    have h1 : s < (chart b).n := hs
    have h2 : s ^^^ (1 <<< i) < (chart b).n := flip_lt hs hi
    simp only [h1, h2, decide_true, Bool.true_and]
    rfl

theorem contract (b : Nat) : Contract (prog b) := ⟨fun _ _ _ _ => rfl, fun _ _ _ _ _ _ _ h => by cases h⟩
theorem plain (b : Nat) : Plain (prog b) := by constructor <;> (intros; first | rfl | exact fun _ => rfl)
theorem smooth (b : Nat) : Smooth (prog b) := by constructor <;> intros <;> rfl

def R (b : Nat) (s : Nat) (st : Calm.St Unit) : Prop :=
  s < 2 ^ b ∧ core st = ⟨fun x => decide (x = s), fun _ => false, [s], some s, [], [], none, ()⟩

theorem find (b : Nat) (s : Sid) (i : Fin b) :
    ((chart b).reactions s).find? (fun r => r.ev = none ∨ r.ev = some (flip i).ty) = some ⟨some i.1, .transition ⟨.plain, s ^^^ (1 <<< i.1)⟩ none⟩ := by
  rw [List.find?_eq_some_iff_getElem]
  refine ⟨by simp [flip], b - 1 - i.1, by simp [chart]; omega, ?_, ?_⟩
  · have : b - 1 - (b - 1 - i.1) = i.1 := by omega
    simp [chart, this]
  · intro j hj
    have : ¬ b - 1 - j = i.1 := by omega
    simp [chart, flip, this]

theorem step {b s : Nat} {st : Calm.St Unit} (h : R b s st) (i : Fin b) : R b (s ^^^ (1 <<< i.1)) (Calm.dispatch (prog b) (flip i) st) := by
  obtain ⟨hs, hc⟩ := h
  refine ⟨flip_lt hs i.2, ?_⟩
  have hl : st.leaves = [s] := congrArg Core.leaves hc
  have ha : st.act = fun x => decide (x = s) := congrArg Core.act hc
  have hd : st.defers = fun _ => false := congrArg Core.defers hc
  have hr : st.root = some s := congrArg Core.root hc
  have hq : st.evq = [] := congrArg Core.evq hc
  have hdq : st.dq = [] := congrArg Core.dq hc
  have ht : st.trig = none := congrArg Core.trig hc
  have hloc : ∀ st, Calm.local' (prog b) s (flip i) st = (.discard, Calm.enter (prog b) (s ^^^ (1 <<< i.1)) (Calm.exitOne (prog b) s st)) := by
    intro st
    rw [← transit_leaf (P := prog b) hs rfl rfl rfl (term b _ _) (by rw [show (prog b).commonCtx s _ = none from common b _ _]; exact path b _)]
    unfold Calm.local'
    have : ((prog b).reactions s).find? (fun r => r.ev = none ∨ r.ev = some (flip i).ty) = _ := find b s i
    rw [this]
    rfl
  rw [dispatch_one hl (hloc _)]
  show { core (Calm.enter (prog b) (s ^^^ (1 <<< i.1)) (Calm.exitOne (prog b) s { st with trig := some (flip i) })) with trig := st.trig } = _
  rw [core_enter (fc := id) (ps := []) (fun _ _ => rfl), core_exit (st := { st with trig := some (flip i) }) (fe := id) (fd := id) (fun _ _ => rfl) (fun _ _ => rfl) (congrFun hd s)]
  show { (((core st).exit (chart b) s id).enter (chart b) (s ^^^ (1 <<< i.1)) id []) with trig := st.trig } = _
  rw [hc, ht]
  have hp : ∀ x, (chart b).parent x = none := fun _ => rfl
  have hi : ∀ x, (chart b).isLeaf x = true := fun _ => rfl
  simp [Core.exit, Core.enter, hp, hi, Ref.leave]

/-- What the user expects: the bits that have been flipped. -/
def number (l : List (Fin b)) : Nat := l.foldl (fun s i => s ^^^ (1 <<< i.1)) 0

theorem started (b k : Nat) : ∃ st, Calm.run (prog b) (.initiate k) (Calm.start ()) = (true, st) ∧ R b 0 st := by
  obtain ⟨f, hf⟩ := depth_eq (prog b)
  simp only [Calm.run, hf]
  refine ⟨_, drain_nil rfl k, Nat.two_pow_pos b, ?_⟩
  show { core (Calm.enter (prog b) 0 { Calm.stop (prog b) (Calm.start ()) with trig := none }) with trig := none } = _
  rw [core_enter (fc := id) (ps := []) (fun _ _ => rfl)]
  simp [Core.enter, core, Calm.stop, Calm.leaveAll, Calm.start, prog, quiet, chart, Chart.isLeaf]

/-- **C63.** Any bits can be flipped. Afterwards the only state is the one with that number. -/
theorem C63_bit_machine (b k : Nat) (l : List (Fin b)) :
    (∃ m, Fed (prog b) k (fun _ w => w) flip () l m) ∧
    ∀ m, Fed (prog b) k (fun _ w => w) flip () l m → Reach (prog b) m ∧ number l < 2 ^ b ∧
      (∀ x, (m.heap x).isSome = true ↔ x = number l) ∧ (List.range m.endIx).map m.slot = [some (number l)] := by
  obtain ⟨h1, h2⟩ := fed_follows (setup := fun _ w => w) (ev := flip) (k := k) (wf b) (contract b) (plain b) (smooth b) (R b) (fun s i => s ^^^ (1 <<< i.1)) 0 (started b k)
    (fun s st i h => ⟨_, drain_nil (congrArg Core.evq (step h i).2) k, step h i⟩) l
  refine ⟨h1, fun m hm => ?_⟩
  obtain ⟨hr, st, ⟨h3, h4⟩, h5⟩ := h2 m hm
  have ha : st.act = _ := congrArg Core.act h4
  have hl : st.leaves = _ := congrArg Core.leaves h4
  refine ⟨hr, h3, fun x => ?_, ?_⟩
  · rw [h5.states, ha]
    simp [number]
  · rw [h5.range, hl]
    rfl

/-- Bit `i` of the number is set if it has been flipped an odd number of times. -/
theorem C63_bits (b : Nat) (l : List (Fin b)) (i : Fin b) : (number l).testBit i = decide (l.count i % 2 = 1) := by
  have gen : ∀ (l : List (Fin b)) (s : Nat), (l.foldl (fun s i => s ^^^ (1 <<< i.1)) s).testBit i = (s.testBit i ^^ decide (l.count i % 2 = 1)) := by
    intro l
    induction l with
    | nil => intro s; simp
    | cons j l ih =>
      intro s
      rw [List.foldl_cons, ih, Nat.testBit_xor, Nat.one_shiftLeft, Nat.testBit_two_pow, List.count_cons]
      by_cases h : j = i
      · subst h
        have : decide ((l.count j + 1) % 2 = 1) = !decide (l.count j % 2 = 1) := by
          rw [Bool.eq_iff_iff]; simp; omega
        simp [this]
      · have : ¬ j.1 = i.1 := fun h' => h (Fin.ext h')
        simp [h, this]
  rw [number, gen]
  simp

/-! ### `VisitAllStates` -/

/-- The bits flipped by `VisitAllStates( bitMachine, msb )` (BitMachine.cpp:185-199). -/
def visit : Nat → List Nat
  | 0 => [0]
  | m + 1 => visit m ++ (m + 1) :: visit m

/-- The states displayed if the bits are flipped, starting with `s`. -/
def shown (s : Nat) : List Nat → List Nat
  | [] => []
  | i :: l => (s ^^^ (1 <<< i)) :: shown (s ^^^ (1 <<< i)) l

/-- The state at the end. -/
def final (s : Nat) (l : List Nat) : Nat := l.foldl (fun s i => s ^^^ (1 <<< i)) s

theorem shown_append (s : Nat) (l l' : List Nat) : shown s (l ++ l') = shown s l ++ shown (final s l) l' := by
  induction l generalizing s with
  | nil => rfl
  | cons i l ih => simp [shown, ih, final]

theorem final_append (s : Nat) (l l' : List Nat) : final s (l ++ l') = final (final s l) l' := List.foldl_append

theorem final_visit (m s : Nat) : final s (visit m) = s ^^^ 2 ^ m := by
  induction m generalizing s with
  | zero => simp [visit, final]
  | succ m ih =>
    rw [visit, final_append, ih, final, List.foldl_cons, ← final, ih, Nat.one_shiftLeft]
    rw [Nat.xor_assoc, Nat.xor_assoc, Nat.xor_comm (2 ^ (m + 1)), ← Nat.xor_assoc (2 ^ m), Nat.xor_self, Nat.zero_xor]

theorem visit_all (m s : Nat) : (s :: shown s (visit m)).Nodup ∧ ∀ x, x ∈ s :: shown s (visit m) ↔ ∀ j, m < j → x.testBit j = s.testBit j := by
  induction m generalizing s with
  | zero =>
    constructor
    · simp [visit, shown]
      intro h
      have := congrArg (fun x => x.testBit 0) h
      simp [Nat.testBit_xor] at this
      omega
    · intro x
      simp only [visit, shown, List.mem_cons, List.not_mem_nil, or_false]
      constructor
      · rintro (rfl | rfl) j hj
        · rfl
        · have : ¬ 0 = j := by omega
          rw [Nat.testBit_xor, Nat.one_shiftLeft, Nat.testBit_two_pow]
          simp [this]
      · intro h
        by_cases h0 : x.testBit 0 = s.testBit 0
        · left
          refine Nat.eq_of_testBit_eq fun j => ?_
          cases j with
          | zero => exact h0
          | succ j => exact h _ (by omega)
        · right
          refine Nat.eq_of_testBit_eq fun j => ?_
          rw [Nat.testBit_xor, Nat.one_shiftLeft, Nat.testBit_two_pow]
          cases j with
          | zero =>
            revert h0
            cases x.testBit 0 <;> cases s.testBit 0 <;> simp
          | succ j => rw [h _ (by omega)]; simp
  | succ m ih =>
    have e : s :: shown s (visit (m + 1)) =
        (s :: shown s (visit m)) ++ ((s ^^^ 2 ^ m ^^^ 2 ^ (m + 1)) :: shown (s ^^^ 2 ^ m ^^^ 2 ^ (m + 1)) (visit m)) := by
      simp only [visit, shown_append, final_visit, shown, Nat.one_shiftLeft, List.cons_append]
    have hb : ∀ j, (s ^^^ 2 ^ m ^^^ 2 ^ (m + 1)).testBit j = (s.testBit j ^^ decide (m = j) ^^ decide (m + 1 = j)) := by
      intro j
      rw [Nat.testBit_xor, Nat.testBit_xor, Nat.testBit_two_pow, Nat.testBit_two_pow]
    obtain ⟨n1, m1⟩ := ih s
    obtain ⟨n2, m2⟩ := ih (s ^^^ 2 ^ m ^^^ 2 ^ (m + 1))
    rw [e]
    constructor
    · refine List.nodup_append.2 ⟨n1, n2, ?_⟩
      rintro x hx y hy rfl
      have a1 := (m1 x).1 hx (m + 1) (by omega)
      have a2 := (m2 x).1 hy (m + 1) (by omega)
      rw [hb, a1] at a2
      simp at a2
    · intro x
      rw [List.mem_append, m1, m2]
      constructor
      · rintro (h | h) j hj
        · exact h j (by omega)
        · rw [h j (by omega), hb]
          have h1 : ¬ m = j := by omega
          have h2 : ¬ m + 1 = j := by omega
          simp [h1, h2]
      · intro h
        by_cases h0 : x.testBit (m + 1) = s.testBit (m + 1)
        · left
          intro j hj
          by_cases hj' : j = m + 1
          · rw [hj', h0]
          · exact h j (by omega)
        · right
          intro j hj
          rw [hb]
          by_cases hj' : j = m + 1
          · subst hj'
            revert h0
            cases x.testBit (m + 1) <;> cases s.testBit (m + 1) <;> simp
          · have h1 : ¬ m = j := by omega
            have h2 : ¬ m + 1 = j := by omega
            rw [h j (by omega)]
            simp [h1, h2]

/-- **C63.** `VisitAllStates` visits every state exactly once, the one it starts with included. -/
theorem C63_visit_all (b s : Nat) (hs : s < 2 ^ (b + 1)) : (s :: shown s (visit b)).Nodup ∧ ∀ x, x ∈ s :: shown s (visit b) ↔ x < 2 ^ (b + 1) := by
  obtain ⟨h1, h2⟩ := visit_all b s
  refine ⟨h1, fun x => ?_⟩
  rw [h2]
  have lt : ∀ j, b < j → s.testBit j = false := fun j hj => Nat.testBit_lt_two_pow (Nat.lt_of_lt_of_le hs (Nat.pow_le_pow_right (by omega) hj))
  constructor
  · intro h
    refine Nat.lt_pow_two_of_testBit _ fun j hj => ?_
    rw [h j hj, lt j hj]
  · intro h j hj
    rw [lt j hj]
    exact Nat.testBit_lt_two_pow (Nat.lt_of_lt_of_le h (Nat.pow_le_pow_right (by omega) hj))

theorem visit_le (b : Nat) : ∀ i ∈ visit b, i < b + 1 := by
  induction b with
  | zero => simp [visit]
  | succ b ih =>
    intro i hi
    simp only [visit, List.mem_append, List.mem_cons] at hi
    rcases hi with hi | rfl | hi
    · exact Nat.lt_succ_of_lt (ih i hi)
    · omega
    · exact Nat.lt_succ_of_lt (ih i hi)

theorem mem_shown {x : Nat} : ∀ {l : List Nat} {s : Nat}, x ∈ s :: shown s l → ∃ q, q <+: l ∧ final s q = x := by
  intro l
  induction l with
  | nil => intro s h; exact ⟨[], List.prefix_rfl, (List.mem_singleton.1 h).symm⟩
  | cons i l ih =>
    intro s h
    rcases List.mem_cons.1 h with rfl | h
    · exact ⟨[], List.nil_prefix, rfl⟩
    · obtain ⟨q, h1, h2⟩ := ih h
      exact ⟨i :: q, List.cons_prefix_cons.2 ⟨rfl, h1⟩, h2⟩

/-- `VisitAllStates` takes the machine to every state, whatever has been done before. -/
theorem C63_visits (b k : Nat) (l : List (Fin (b + 1))) (x : Nat) (hx : x < 2 ^ (b + 1)) :
    ∃ p : List (Fin (b + 1)), p.map Fin.val <+: visit b ∧
      (∃ m, Fed (prog (b + 1)) k (fun _ w => w) flip () (l ++ p) m) ∧
      ∀ m, Fed (prog (b + 1)) k (fun _ w => w) flip () (l ++ p) m → (List.range m.endIx).map m.slot = [some x] := by
  obtain ⟨⟨m, hm⟩, h0⟩ := C63_bit_machine (b + 1) k l
  obtain ⟨q, h1, h2⟩ := mem_shown (((C63_visit_all b (number l) (h0 m hm).2.1).2 x).2 hx)
  have lift : ∀ q : List Nat, (∀ i ∈ q, i < b + 1) → ∃ p : List (Fin (b + 1)), p.map Fin.val = q := by
    intro q
    induction q with
    | nil => exact fun _ => ⟨[], rfl⟩
    | cons i q ih =>
      intro h
      obtain ⟨p, rfl⟩ := ih fun j hj => h j (List.mem_cons_of_mem _ hj)
      exact ⟨⟨i, h i List.mem_cons_self⟩ :: p, rfl⟩
  obtain ⟨p, rfl⟩ := lift q fun i hi => visit_le b i (h1.subset hi)
  obtain ⟨h3, h4⟩ := C63_bit_machine (b + 1) k (l ++ p)
  have h5 : number (l ++ p) = x := by
    rw [← h2, number, List.foldl_append, final, List.foldl_map]
    rfl
  exact ⟨p, h1, h3, fun m hm => by rw [(h4 m hm).2.2.2, h5]⟩

namespace Ex

/-- Three bits (BitMachine.cpp:10); state 5 with bit 2 flipped is state 1 (BitMachine.cpp:20-21). -/
example : number (b := 3) [0, 2, 2] = 1 ∧ number (b := 3) [0, 2] = 5 := by decide
example : 0 :: shown 0 (visit 2) = [0, 1, 3, 2, 6, 7, 5, 4] := by decide

end Ex

end SC.Demo.BitMachine
