import Verif.EntrySpec
/-!
# Specification of what is remembered

History as a function of the past: of all completed `exit()` calls and all clearing so far, the
last one that concerns a region decides what this region remembers.
-/

namespace SC.Spec
open SC

/-- What an operation says about the shallow history of region `i` of `p`. An exit is recorded in the shallow history first. -/
def shallowSays (C : Chart) (p i : Nat) : HOp → Option (Option Sid)
  | .exit s => if C.parent s = some p ∧ C.shallowH p = true ∧ C.pos s = i then some (some s) else none
  | .cut s k => if k ≠ none ∧ C.parent s = some p ∧ C.shallowH p = true ∧ C.pos s = i then some (some s) else none
  | .clearShallow k => if k = (p, i) then some none else none
  | .clearDeep _ => none
  | .clear => some none

/-- `s` lies in region `i` of `p` (at any depth). -/
def inRegion (C : Chart) (p i : Nat) (s : Sid) : Bool :=
  (s :: C.ancestors s).any fun c => C.parent c == some p && C.pos c == i

/-- What an operation says about the deep history of region `i` of `p`. An exit is recorded in the deep histories of the
contexts from the inside to the outside; if this ends at `q`, in those inside `q`. -/
def deepSays (C : Chart) (p i : Nat) : HOp → Option (Option Sid)
  | .exit s => if C.isLeaf s = true ∧ C.deepH p = true ∧ inRegion C p i s = true then some (some s) else none
  | .cut s k => if (∃ q, k = some q ∧ q ∈ C.ancestors p) ∧ C.isLeaf s = true ∧ C.deepH p = true ∧ inRegion C p i s = true then some (some s) else none
  | .clearShallow _ => none
  | .clearDeep k => if k = (p, i) then some none else none
  | .clear => some none

/-- The last operation that says something decides. -/
def lastSaid (says : HOp → Option (Option Sid)) (l : List HOp) : Option Sid := (l.reverse.findSome? says).join

/-- What is remembered after the operations `l`. -/
def recall (C : Chart) (l : List HOp) : Memory where
  sh p i := lastSaid (shallowSays C p i) l
  dh p i := lastSaid (deepSays C p i) l
  log := l

theorem lastSaid_snoc (says : HOp → Option (Option Sid)) (l : List HOp) (o : HOp) :
    lastSaid says (l ++ [o]) = match says o with
      | some v => v
      | none => lastSaid says l := by
  unfold lastSaid
  rw [List.reverse_append]
  simp only [List.reverse_cons, List.reverse_nil, List.nil_append, List.singleton_append, List.findSome?_cons]
  cases says o <;> simp

/-- Nothing is remembered if nothing was ever said but "cleared". -/
theorem lastSaid_none (says : HOp → Option (Option Sid)) (l : List HOp) (h : ∀ o ∈ l, says o = none ∨ says o = some none) : lastSaid says l = none := by
  unfold lastSaid
  cases hf : l.reverse.findSome? says with
  | none => rfl
  | some v =>
    obtain ⟨o, ho, hv⟩ := List.exists_of_findSome?_eq_some hf
    rcases h o (by simpa using ho) with h | h
    · rw [h] at hv; cases hv
    · rw [h] at hv; cases hv; rfl

/-- There is an entry: since everything was cleared, an operation concerned it. -/
def entered (says : HOp → Option (Option Sid)) (l : List HOp) : Bool := match l.reverse.find? fun o => (says o).isSome with
  | none | some .clear => false
  | some _ => true

theorem entered_snoc (says : HOp → Option (Option Sid)) (l : List HOp) {o : HOp} (ho : o ≠ .clear) :
    entered says (l ++ [o]) = ((says o).isSome || entered says l) := by
  unfold entered
  rw [List.reverse_append]
  simp only [List.reverse_cons, List.reverse_nil, List.nil_append, List.singleton_append, List.find?_cons]
  cases says o with
  | none => rfl
  | some v => cases o <;> first | rfl | exact absurd rfl ho

theorem entered_clear {says : HOp → Option (Option Sid)} (hs : (says .clear).isSome = true) (l : List HOp) : entered says (l ++ [.clear]) = false := by
  unfold entered
  rw [List.reverse_append]
  simp [hs]

/-- What is remembered has an entry. -/
theorem entered_of_said {says : HOp → Option (Option Sid)} (hs : says .clear = some none) {l : List HOp} {s : Sid} (h : lastSaid says l = some s) : entered says l = true := by
  unfold lastSaid at h
  unfold entered
  rw [Option.join_eq_some_iff] at h
  generalize l.reverse = r at h
  induction r with
  | nil => cases h
  | cons o r ih =>
    rw [List.findSome?_cons] at h
    rw [List.find?_cons]
    cases ho : says o with
    | none => rw [ho] at h; exact ih h
    | some v =>
      rw [ho] at h
      simp only [Option.some.injEq] at h
      subst h
      cases o <;> first | rfl | (rw [hs] at ho; cases ho)

/-- The state whose `exit()` completed. -/
def _root_.SC.HOp.exit? : HOp → Option Sid
  | .exit s | .cut s _ => some s
  | _ => none

def _root_.SC.Obs.exit? : Obs → Option Sid
  | .exit s => some s
  | _ => none

/-- The exit was not recorded completely. -/
def _root_.SC.HOp.isCut : HOp → Bool
  | .cut _ _ => true
  | _ => false

/-- Between the logs `l` and `l'` exactly the exits seen in `obs` completed, all but at most `n` of them were recorded completely, and single entries
may have been cleared. -/
def LogsBut (n : Nat) (l : List HOp) (obs : List Obs) (l' : List HOp) : Prop :=
  ∃ ops, l' = l ++ ops ∧ HOp.clear ∉ ops ∧ ops.filterMap HOp.exit? = obs.filterMap Obs.exit? ∧ ops.countP HOp.isCut ≤ n

/-- All of them were recorded completely. -/
abbrev Logs := LogsBut 0

/-- All exited states are states of the chart. -/
def Bounded (C : Chart) (log : List HOp) : Prop := ∀ o ∈ log, ∀ s, o.exit? = some s → s < C.n

theorem Bounded.append {C : Chart} {a b : List HOp} : Bounded C (a ++ b) ↔ Bounded C a ∧ Bounded C b := by
  unfold Bounded
  simp only [List.mem_append]
  exact ⟨fun h => ⟨fun o ho => h o (.inl ho), fun o ho => h o (.inr ho)⟩, fun h o ho => ho.elim (h.1 o) (h.2 o)⟩

/-- Recording the exit of `s` ended at `k`, after `l`: there is such a history, it has no entry, and memory for it may be unavailable (`F`). -/
def CutOK (C : Chart) (F : Site → Bool → Prop) (l : List HOp) (s : Sid) : Option Sid → Prop
  | none => ∃ p, C.parent s = some p ∧ C.shallowH p = true ∧ entered (shallowSays C p (C.pos s)) l = false ∧ F (.shallowNode (p, C.pos s)) false
  | some q => C.isLeaf s = true ∧ C.deepH q = true ∧ ∃ i, inRegion C q i s = true ∧ entered (deepSays C q i) l = false ∧ F (.deepNode (q, i)) false

/-- `o` is recorded, after `l`, only where there is an entry or memory for it may be available. -/
def FedOK (C : Chart) (F : Site → Bool → Prop) (l : List HOp) (o : HOp) : Prop := ∀ p i s,
  (shallowSays C p i o = some (some s) → entered (shallowSays C p i) l = true ∨ F (.shallowNode (p, i)) true) ∧
  (deepSays C p i o = some (some s) → entered (deepSays C p i) l = true ∨ F (.deepNode (p, i)) true)

/-- Recording of exits only ended where there was no entry, and took place only where there was one or memory was available. -/
def Lawful (C : Chart) (F : Site → Bool → Prop) (log : List HOp) : Prop :=
  ∀ l1 o l2, log = l1 ++ o :: l2 → (∀ s k, o = .cut s k → CutOK C F l1 s k) ∧ FedOK C F l1 o

theorem Lawful.snoc {C : Chart} {F : Site → Bool → Prop} {l : List HOp} {o : HOp} (h : Lawful C F l) (ho : ∀ s k, o = .cut s k → CutOK C F l s k)
    (hf : FedOK C F l o) : Lawful C F (l ++ [o]) := by
  intro l1 o1 l2 he
  rcases List.eq_nil_or_concat l2 with rfl | ⟨l3, o', rfl⟩
  · have h1 := List.append_inj' he rfl
    simp only [List.cons.injEq, and_true] at h1
    rw [← h1.1, ← h1.2]; exact ⟨ho, hf⟩
  · rw [List.concat_eq_append, ← List.cons_append, ← List.append_assoc] at he
    exact h l1 o1 l3 (List.append_inj' he rfl).1

/-- `h` is what the past recorded in it says. -/
def Exact (C : Chart) (h : Memory) : Prop := h = recall C h.log

/-- Exact memories between which single entries were cleared. -/
def Clears (C : Chart) (h h' : Memory) : Prop := Exact C h ∧ Exact C h' ∧ Logs h.log [] h'.log

end SC.Spec
