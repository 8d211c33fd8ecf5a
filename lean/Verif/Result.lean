/-!
# C34: reaction results are single use

Model of `safe_reaction_result` (`/repo/include/boost/statechart/result.hpp` lines 36-81), the type
of results in builds without `NDEBUG`, and of `result_utility` (lines 98-112).

The members of `reaction_result` other than `consumed` are values of an arbitrary type `α`; that the
theorems hold for every `α` means that they hold, too, if each result carries a mark that tells it
from all others.
-/

namespace SC.Result

variable {α : Type}

/-- What is stored in `reactionResult_`. -/
inductive Val (α : Type) where
  | val (a : α)
  | consumed
deriving DecidableEq, Repr

/-- What code can do with results.  Objects are numbered in the order of their construction. -/
inductive Op (α : Type) where
  /-- `make_result` (lines 100-103). -/
  | make (a : α)
  /-- The copy constructor (lines 40-48). -/
  | copy (i : Nat)
  /-- `get_result` (lines 105-108): the parameter is copied, converted and destroyed. -/
  | get (i : Nat)
  /-- The destructor (lines 50-58). -/
  | destroy (i : Nat)
deriving DecidableEq, Repr

/-- The objects that exist, and what has been read, in order. -/
structure St (α : Type) where
  objs : List (Nat × Val α) := []
  next : Nat := 0
  read : List α := []

/-- Outcome of an operation. -/
inductive Out (α : Type) where
  | ok (s : St α)
  /-- A `BOOST_ASSERT` failed. -/
  | assert
  /-- The object does not exist; C++ code cannot get here. -/
  | noObject

/-- The value of an object. -/
def look (i : Nat) : List (Nat × Val α) → Option (Val α)
  | [] => none
  | (j, v) :: l => if j = i then some v else look i l

/-- Changes the value of an object. -/
def set (i : Nat) (v : Val α) : List (Nat × Val α) → List (Nat × Val α)
  | [] => []
  | (j, w) :: l => if j = i then (j, v) :: l else (j, w) :: set i v l

/-- Removes an object. -/
def del (i : Nat) : List (Nat × Val α) → List (Nat × Val α)
  | [] => []
  | (j, w) :: l => if j = i then l else (j, w) :: del i l

/-- Copy construction: the value is taken over and the source is marked. -/
def copyFrom (i : Nat) (s : St α) : Out α :=
  match look i s.objs with
  | none => .noObject
  | some .consumed => .assert
  | some (.val a) =>
    .ok { s with objs := set i .consumed s.objs ++ [(s.next, .val a)], next := s.next + 1 }

/-- The conversion to `reaction_result` (lines 67-72); it is private and only used by
`get_result`. -/
def convert (i : Nat) (s : St α) : Option (Val α) × St α :=
  (look i s.objs, { s with objs := set i .consumed s.objs })

/-- The destructor. -/
def destroy (i : Nat) (s : St α) : Out α :=
  match look i s.objs with
  | none => .noObject
  | some .consumed => .ok { s with objs := del i s.objs }
  | some (.val _) => .assert

/-- One operation. -/
def step (s : St α) : Op α → Out α
  | .make a => .ok { s with objs := s.objs ++ [(s.next, .val a)], next := s.next + 1 }
  | .copy i => copyFrom i s
  | .get i =>
    match copyFrom i s with
    | .ok s =>
      let p := s.next - 1
      match convert p s with
      | (some (.val a), s) => destroy p { s with read := s.read ++ [a] }
      | (_, s) => destroy p s
    | r => r
  | .destroy i => destroy i s

/-- A sequence of operations. -/
def run (s : St α) : List (Op α) → Out α
  | [] => .ok s
  | o :: l => match step s o with
    | .ok s => run s l
    | r => r

namespace Spec

/-- The results that were made. -/
def made : List (Op α) → List α
  | [] => []
  | .make a :: l => a :: made l
  | _ :: l => made l

end Spec

open Spec

/-- The results that are held by some object. -/
def held (l : List (Nat × Val α)) : List α :=
  l.filterMap fun p => match p.2 with
    | .val a => some a
    | .consumed => none

/-- All objects have different numbers, smaller than the next one. -/
structure Inv (s : St α) : Prop where
  nodup : (s.objs.map (·.1)).Nodup
  lt : ∀ p ∈ s.objs, p.1 < s.next

theorem look_mem {i : Nat} {v : Val α} {l : List (Nat × Val α)} (h : look i l = some v) :
    (i, v) ∈ l := by
  induction l with
  | nil => cases h
  | cons p l ih =>
    obtain ⟨j, w⟩ := p
    unfold look at h
    split at h
    · rename_i hj; subst hj; cases h; exact List.mem_cons_self
    · exact List.mem_cons_of_mem _ (ih h)

theorem map_set (i : Nat) (v : Val α) (l : List (Nat × Val α)) :
    (set i v l).map (·.1) = l.map (·.1) := by
  induction l with
  | nil => rfl
  | cons p l ih => obtain ⟨j, w⟩ := p; unfold set; split <;> simp [ih]

theorem held_set {i : Nat} {a : α} {l : List (Nat × Val α)} (h : look i l = some (.val a)) :
    (held l).Perm (a :: held (set i .consumed l)) := by
  induction l with
  | nil => cases h
  | cons p l ih =>
    obtain ⟨j, w⟩ := p
    unfold look at h
    unfold set
    split at h
    · rename_i hj
      cases h
      rw [if_pos hj]
      exact .refl _
    · rename_i hj
      rw [if_neg hj]
      cases w with
      | consumed => exact ih h
      | val b => exact ((ih h).cons b).trans (.swap a b _)

theorem held_del {i : Nat} {l : List (Nat × Val α)} (h : look i l = some .consumed) :
    held (del i l) = held l := by
  induction l with
  | nil => cases h
  | cons p l ih =>
    obtain ⟨j, w⟩ := p
    unfold look at h
    unfold del
    split at h
    · rename_i hj; cases h; rw [if_pos hj]; rfl
    · rename_i hj
      rw [if_neg hj]
      show held ([(j, w)] ++ del i l) = held ([(j, w)] ++ l)
      unfold held at ih ⊢
      rw [List.filterMap_append, List.filterMap_append, ih h]

theorem del_sub {i : Nat} {l : List (Nat × Val α)} : (del i l).Sublist l := by
  induction l with
  | nil => exact .refl _
  | cons p l ih =>
    obtain ⟨j, w⟩ := p
    unfold del
    split
    · exact List.sublist_cons_self _ _
    · exact ih.cons_cons _

theorem look_append_ne {i : Nat} {l l' : List (Nat × Val α)} (h : ∀ p ∈ l, p.1 ≠ i) :
    look i (l ++ l') = look i l' := by
  induction l with
  | nil => rfl
  | cons p l ih =>
    obtain ⟨j, w⟩ := p
    have := h (j, w) List.mem_cons_self
    show (if j = i then some w else look i (l ++ l')) = _
    rw [if_neg this]
    exact ih fun p hp => h p (List.mem_cons_of_mem _ hp)

theorem set_append_ne {i : Nat} {v : Val α} {l l' : List (Nat × Val α)} (h : ∀ p ∈ l, p.1 ≠ i) :
    set i v (l ++ l') = l ++ set i v l' := by
  induction l with
  | nil => rfl
  | cons p l ih =>
    obtain ⟨j, w⟩ := p
    have := h (j, w) List.mem_cons_self
    show (if j = i then (j, v) :: (l ++ l') else (j, w) :: set i v (l ++ l')) = _
    rw [if_neg this, ih fun p hp => h p (List.mem_cons_of_mem _ hp)]
    rfl

theorem del_append_ne {i : Nat} {l l' : List (Nat × Val α)} (h : ∀ p ∈ l, p.1 ≠ i) :
    del i (l ++ l') = l ++ del i l' := by
  induction l with
  | nil => rfl
  | cons p l ih =>
    obtain ⟨j, w⟩ := p
    have := h (j, w) List.mem_cons_self
    show (if j = i then l ++ l' else (j, w) :: del i (l ++ l')) = _
    rw [if_neg this, ih fun p hp => h p (List.mem_cons_of_mem _ hp)]
    rfl

theorem mem_set {i : Nat} {v : Val α} {l : List (Nat × Val α)} {p : Nat × Val α}
    (h : p ∈ set i v l) : ∃ w, (p.1, w) ∈ l := by
  have : p.1 ∈ (set i v l).map (·.1) := List.mem_map_of_mem h
  rw [map_set] at this
  obtain ⟨q, hq, he⟩ := List.mem_map.1 this
  exact ⟨q.2, by rw [← he]; exact hq⟩

/-- `get_result` on an object: what all the steps amount to. -/
theorem step_get {s : St α} (hi : Inv s) (i : Nat) :
    step s (.get i) = match look i s.objs with
      | none => .noObject
      | some .consumed => .assert
      | some (.val a) => .ok { objs := set i .consumed s.objs, next := s.next + 1,
                               read := s.read ++ [a] } := by
  unfold step copyFrom
  cases hl : look i s.objs with
  | none => simp only [hl]
  | some v =>
    cases v with
    | consumed => simp only [hl]
    | val a =>
      have hne : ∀ p ∈ set i .consumed s.objs, p.1 ≠ s.next := by
        intro p hp
        obtain ⟨w, hw⟩ := mem_set hp
        have := hi.lt _ hw
        simp only at this
        omega
      simp only [hl, Nat.add_sub_cancel, convert]
      rw [look_append_ne hne, set_append_ne hne]
      simp only [look, set, if_pos]
      unfold destroy
      simp only
      rw [look_append_ne hne]
      simp only [look, if_pos]
      rw [del_append_ne hne]
      simp [del]

theorem Inv.step {s s' : St α} (hi : Inv s) {o : Op α} (h : step s o = .ok s') : Inv s' := by
  have hnew : ∀ (l : List (Nat × Val α)) (v : Val α), l.map (·.1) = s.objs.map (·.1) →
      Inv (α := α) { s with objs := l ++ [(s.next, v)], next := s.next + 1 } := by
    intro l v hl
    have hlt : ∀ j ∈ l.map (·.1), j < s.next := by
      intro j hj
      rw [hl] at hj
      obtain ⟨q, hq, rfl⟩ := List.mem_map.1 hj
      exact hi.lt q hq
    refine ⟨?_, ?_⟩
    · simp only [List.map_append, List.map_cons, List.map_nil]
      rw [List.nodup_append]
      refine ⟨by rw [hl]; exact hi.nodup, by simp, ?_⟩
      intro a ha b hb
      simp at hb
      have := hlt a ha
      omega
    · intro p hp
      rcases List.mem_append.1 hp with hp | hp
      · have := hlt p.1 (List.mem_map_of_mem hp)
        show p.1 < s.next + 1
        omega
      · simp at hp; subst hp; exact Nat.lt_succ_self _
  cases o with
  | make a => cases h; exact hnew _ _ rfl
  | copy i =>
    change copyFrom i s = _ at h
    unfold copyFrom at h
    cases hl : look i s.objs with
    | none => rw [hl] at h; cases h
    | some v =>
      cases v with
      | consumed => rw [hl] at h; cases h
      | val a => rw [hl] at h; cases h; exact hnew _ _ (map_set _ _ _)
  | get i =>
    rw [step_get hi] at h
    cases hl : look i s.objs with
    | none => rw [hl] at h; cases h
    | some v =>
      cases v with
      | consumed => rw [hl] at h; cases h
      | val a =>
        rw [hl] at h
        cases h
        refine ⟨by simp only [map_set]; exact hi.nodup, ?_⟩
        intro p hp
        obtain ⟨w, hw⟩ := mem_set hp
        exact Nat.lt_succ_of_lt (hi.lt (p.1, w) hw)
  | destroy i =>
    change Result.destroy i s = _ at h
    unfold Result.destroy at h
    cases hl : look i s.objs with
    | none => rw [hl] at h; cases h
    | some v =>
      cases v with
      | val a => rw [hl] at h; cases h
      | consumed =>
        rw [hl] at h
        cases h
        exact ⟨hi.nodup.sublist (del_sub.map _), fun p hp => hi.lt p (del_sub.subset hp)⟩

theorem step_held {s s' : St α} (hi : Inv s) {o : Op α} (h : step s o = .ok s') :
    (s.read ++ held s.objs ++ made [o]).Perm (s'.read ++ held s'.objs) := by
  have happ : ∀ l l' : List (Nat × Val α), held (l ++ l') = held l ++ held l' :=
    fun l l' => List.filterMap_append ..
  cases o with
  | make a =>
    cases h
    simp only [happ, made]
    rw [← List.append_assoc]
    exact .refl _
  | copy i =>
    change copyFrom i s = _ at h
    unfold copyFrom at h
    cases hl : look i s.objs with
    | none => rw [hl] at h; cases h
    | some v =>
      cases v with
      | consumed => rw [hl] at h; cases h
      | val a =>
        rw [hl] at h
        cases h
        simp only [happ, made, List.append_nil]
        refine List.Perm.append_left _ ((held_set hl).trans ?_)
        exact List.perm_append_singleton a _ |>.symm
  | get i =>
    rw [step_get hi] at h
    cases hl : look i s.objs with
    | none => rw [hl] at h; cases h
    | some v =>
      cases v with
      | consumed => rw [hl] at h; cases h
      | val a =>
        rw [hl] at h
        cases h
        simp only [made, List.append_nil, List.append_assoc]
        exact List.Perm.append_left _ (held_set hl)
  | destroy i =>
    change Result.destroy i s = _ at h
    unfold Result.destroy at h
    cases hl : look i s.objs with
    | none => rw [hl] at h; cases h
    | some v =>
      cases v with
      | val a => rw [hl] at h; cases h
      | consumed =>
        rw [hl] at h
        cases h
        simp only [made, List.append_nil, held_del hl]
        exact .refl _

theorem made_cons (o : Op α) (l : List (Op α)) : made (o :: l) = made [o] ++ made l := by
  cases o <;> rfl

theorem run_held {l : List (Op α)} {s s' : St α} (hi : Inv s) (h : run s l = .ok s') :
    Inv s' ∧ (s.read ++ held s.objs ++ made l).Perm (s'.read ++ held s'.objs) := by
  induction l generalizing s with
  | nil => cases h; exact ⟨hi, by simp [made]⟩
  | cons o l ih =>
    unfold run at h
    cases hs : step s o with
    | ok s1 =>
      rw [hs] at h
      obtain ⟨h1, h2⟩ := ih (hi.step hs) h
      refine ⟨h1, ?_⟩
      rw [made_cons, ← List.append_assoc]
      exact ((step_held hi hs).append_right _).trans h2
    | assert => rw [hs] at h; cases h
    | noObject => rw [hs] at h; cases h

theorem Inv.fresh : Inv ({} : St α) := ⟨List.nodup_nil, by simp⟩

/-! ### The theorems -/

/-- **C34 (nothing is lost or doubled).**  As long as no assert fails, the results that were made are
those that were read and those that some object still holds, each as often as it was made. -/
theorem C34_conserved {l : List (Op α)} {s : St α} (h : run {} l = .ok s) :
    (made l).Perm (s.read ++ held s.objs) := by
  simpa [held] using (run_held .fresh h).2

/-- **C34 (read exactly once).**  If no assert fails and no object is left, every result that was
made was read exactly once. -/
theorem C34_read_once {l : List (Op α)} {s : St α} (h : run {} l = .ok s) (he : s.objs = []) :
    (made l).Perm s.read := by
  have := C34_conserved h
  rw [he] at this
  simpa [held] using this

/-- **C34 (what fails an assert).**  After operations that did not fail an assert, an operation on an
object that exists fails an assert iff it copies or reads a result that has been copied or read
before, or destroys one that has not. -/
theorem C34_asserts {l : List (Op α)} {s : St α} (h : run {} l = .ok s) :
    (∀ a, step s (.make a) ≠ .assert) ∧
    (∀ i v, look i s.objs = some v → (step s (.copy i) = .assert ↔ v = .consumed)) ∧
    (∀ i v, look i s.objs = some v → (step s (.get i) = .assert ↔ v = .consumed)) ∧
    (∀ i v, look i s.objs = some v → (step s (.destroy i) = .assert ↔ v ≠ .consumed)) := by
  have hi := (run_held .fresh h).1
  refine ⟨fun a => by simp [step], ?_, ?_, ?_⟩
  · intro i v hv
    show copyFrom i s = _ ↔ _
    unfold copyFrom
    rw [hv]
    cases v <;> simp
  · intro i v hv
    rw [step_get hi, hv]
    cases v <;> simp
  · intro i v hv
    show destroy i s = _ ↔ _
    unfold destroy
    rw [hv]
    cases v <;> simp

/-- An object is marked as consumed by copying and by reading, and by nothing else. -/
theorem look_set {i j : Nat} {v w : Val α} {l : List (Nat × Val α)} (h : look i l = some v) :
    look j (set i w l) = if j = i then some w else look j l := by
  induction l with
  | nil => cases h
  | cons p l ih =>
    obtain ⟨k, u⟩ := p
    unfold look at h
    by_cases hk : k = i
    · subst hk
      simp only [set, if_pos, look]
      by_cases hj : j = k
      · subst hj; simp
      · simp [hj, Ne.symm hj]
    · rw [if_neg hk] at h
      simp only [set, if_neg hk, look]
      by_cases hkj : k = j
      · subst hkj; simp [hk]
      · rw [if_neg hkj, if_neg hkj]; exact ih h

/-- **C34 (use marks an object).**  Copying or reading an object marks it as consumed and changes no
other object that exists. -/
theorem C34_marks {l : List (Op α)} {s s' : St α} (h : run {} l = .ok s) {i : Nat}
    (hs : step s (.copy i) = .ok s' ∨ step s (.get i) = .ok s') :
    look i s'.objs = some .consumed ∧
    ∀ j v, j ≠ i → look j s.objs = some v → look j s'.objs = some v := by
  have hi := (run_held .fresh h).1
  have app : ∀ (l l' : List (Nat × Val α)) j v, look j l = some v → look j (l ++ l') = some v := by
    intro l l' j v hv
    induction l with
    | nil => cases hv
    | cons p l ih =>
      obtain ⟨k, u⟩ := p
      show look j ((k, u) :: (l ++ l')) = _
      unfold look at hv ⊢
      split
      · rename_i hk; rw [if_pos hk] at hv; exact hv
      · rename_i hk; rw [if_neg hk] at hv; exact ih hv
  rcases hs with hs | hs
  · change copyFrom i s = _ at hs
    unfold copyFrom at hs
    cases hl : look i s.objs with
    | none => rw [hl] at hs; cases hs
    | some v =>
      cases v with
      | consumed => rw [hl] at hs; cases hs
      | val a =>
        rw [hl] at hs
        cases hs
        refine ⟨app _ _ _ _ (by rw [look_set hl]; simp), ?_⟩
        intro j v hj hv
        exact app _ _ _ _ (by rw [look_set hl, if_neg hj]; exact hv)
  · rw [step_get hi] at hs
    cases hl : look i s.objs with
    | none => rw [hl] at hs; cases hs
    | some v =>
      cases v with
      | consumed => rw [hl] at hs; cases hs
      | val a =>
        rw [hl] at hs
        cases hs
        refine ⟨by simp only; rw [look_set hl]; simp, ?_⟩
        intro j v hj hv
        simp only
        rw [look_set hl, if_neg hj]; exact hv

/-! ### Examples -/

/-- A result is made, returned through two copies, read, and all objects are destroyed. -/
example : (match run {} [.make 7, .copy 0, .destroy 0, .copy 1, .get 2, .destroy 1, .destroy 2] with
    | .ok s => (s.read, s.objs.length)
    | _ => ([], 99)) = ([7], 0) := by decide +kernel

/-- Two calls of reaction functions in one `react()`: the first result is dropped. -/
example : (match run {} [.make 7, .destroy 0] with
    | .assert => true
    | _ => false) = true := by decide +kernel

/-- Using a result twice. -/
example : (match run {} [.make 7, .copy 0, .get 0] with
    | .assert => true
    | _ => false) = true := by decide +kernel

end SC.Result
