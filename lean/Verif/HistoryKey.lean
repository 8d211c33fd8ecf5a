import Verif.Machine

/-!
# C28: the keys of the history maps

Model of `history_key` (`/repo/include/boost/statechart/state_machine.hpp` lines 177-222) and of the
use of `std::map` in `store_history_impl` and `construct_with_history_impl` (lines 1017-1052).

`RttiPolicy::id_type` is a pointer or a wrapper of `std::type_info`
(`/repo/include/boost/statechart/detail/rtti_policy.hpp` lines 45-77).  All that is used of it is
`std::less` and `==`; the standard guarantees that the former is a strict total order (for pointers
of any origin and for `type_info::before`) and the latter is equality of types.

`std::map` is modelled by a list that is kept sorted.  Like the tree, it looks at keys only through
the order, and it takes two keys to be the same if neither is less than the other.
-/

namespace SC

variable {Id V : Type}

/-- A `history_key`: `historyContextType_` and `historizedOrthogonalRegion_`. -/
structure Key (Id : Type) where
  ctx : Id
  region : Nat
deriving DecidableEq, Repr

/-- `std::less` on identifiers. -/
class IdOrder (Id : Type) where
  dec : DecidableEq Id
  less : Id → Id → Bool
  irrefl : ∀ a, less a a = false
  trans : ∀ a b c, less a b = true → less b c = true → less a c = true
  total : ∀ a b, less a b = true ∨ a = b ∨ less b a = true

instance [IdOrder Id] : DecidableEq Id := IdOrder.dec

/-- `operator<` (lines 194-203). -/
def Key.lt [IdOrder Id] (l r : Key Id) : Bool :=
  IdOrder.less l.ctx r.ctx || (decide (l.ctx = r.ctx) && decide (l.region < r.region))

/-- A `std::map` with keys of this kind. -/
abbrev KMap (Id V : Type) := List (Key Id × V)

/-- `map[ k ] = v` (lines 1024, 1034 and the clearing functions). -/
def KMap.put [IdOrder Id] (k : Key Id) (v : V) : KMap Id V → KMap Id V
  | [] => [(k, v)]
  | (k', v') :: l =>
    if k.lt k' then (k, v) :: (k', v') :: l
    else if k'.lt k then (k', v') :: put k v l
    else (k', v) :: l

/-- `map.find( k )` (line 1043). -/
def KMap.find [IdOrder Id] (k : Key Id) : KMap Id V → Option V
  | [] => none
  | (k', v') :: l => if k.lt k' then none else if k'.lt k then find k l else some v'

namespace Spec

/-- A strict total order. -/
structure StrictTotal {α : Type} (r : α → α → Bool) : Prop where
  irrefl : ∀ a, r a a = false
  trans : ∀ a b c, r a b = true → r b c = true → r a c = true
  total : ∀ a b, r a b = true ∨ a = b ∨ r b a = true

/-- What a map holds after assignments, if it is a finite function: the value last assigned to the
key itself. -/
def assigned {α : Type} [DecidableEq α] (k : α) : List (α × V) → Option V
  | [] => none
  | (k', v) :: l => if k' = k then some ((assigned k l).getD v) else assigned k l

end Spec

open Spec

/-- **C28 (total order).**  The order of the keys is a strict total order. -/
theorem C28_order [IdOrder Id] : StrictTotal (Key.lt (Id := Id)) := by
  refine ⟨?_, ?_, ?_⟩
  · intro a; simp [Key.lt, IdOrder.irrefl]
  · intro a b c hab hbc
    simp only [Key.lt, Bool.or_eq_true, Bool.and_eq_true, decide_eq_true_eq] at *
    rcases hab with hab | ⟨hab, hab'⟩ <;> rcases hbc with hbc | ⟨hbc, hbc'⟩
    · exact .inl (IdOrder.trans _ _ _ hab hbc)
    · exact .inl (hbc ▸ hab)
    · exact .inl (hab ▸ hbc)
    · exact .inr ⟨hab.trans hbc, by omega⟩
  · intro a b
    simp only [Key.lt, Bool.or_eq_true, Bool.and_eq_true, decide_eq_true_eq]
    rcases IdOrder.total a.ctx b.ctx with h | h | h
    · exact .inl (.inl h)
    · rcases Nat.lt_trichotomy a.region b.region with hr | hr | hr
      · exact .inl (.inr ⟨h, hr⟩)
      · exact .inr (.inl (by cases a; cases b; simp_all))
      · exact .inr (.inr (.inr ⟨h.symm, hr⟩))
    · exact .inr (.inr (.inl h))

/-- **C28 (equivalence).**  Two keys are equivalent for the map iff context and region are equal. -/
theorem C28_equivalent [IdOrder Id] (a b : Key Id) :
    (a.lt b = false ∧ b.lt a = false) ↔ (a.ctx = b.ctx ∧ a.region = b.region) := by
  constructor
  · rintro ⟨h1, h2⟩
    rcases C28_order.total a b with h | h | h
    · rw [h] at h1; cases h1
    · subst h; exact ⟨rfl, rfl⟩
    · rw [h] at h2; cases h2
  · rintro ⟨h1, h2⟩
    have : a = b := by cases a; cases b; simp_all
    subst this
    exact ⟨C28_order.irrefl a, C28_order.irrefl a⟩

/-- The keys are in order. -/
def KMap.Sorted [IdOrder Id] (m : KMap Id V) : Prop := m.Pairwise (fun a b => a.1.lt b.1 = true)

theorem KMap.mem_put [IdOrder Id] {k : Key Id} {v : V} {m : KMap Id V} {e : Key Id × V}
    (h : e ∈ m.put k v) : e.1 = k ∨ ∃ w, (e.1, w) ∈ m := by
  induction m with
  | nil => simp [put] at h; exact .inl (by rw [h])
  | cons a l ih =>
    obtain ⟨k', v'⟩ := a
    unfold put at h
    split at h
    · rcases List.mem_cons.1 h with rfl | h
      · exact .inl rfl
      · exact .inr ⟨e.2, h⟩
    · split at h
      · rcases List.mem_cons.1 h with rfl | h
        · exact .inr ⟨v', by simp⟩
        · rcases ih h with h | ⟨w, h⟩
          · exact .inl h
          · exact .inr ⟨w, List.mem_cons_of_mem _ h⟩
      · rcases List.mem_cons.1 h with rfl | h
        · exact .inr ⟨v', by simp⟩
        · exact .inr ⟨e.2, List.mem_cons_of_mem _ h⟩

theorem KMap.Sorted.put [IdOrder Id] {m : KMap Id V} (h : m.Sorted) (k : Key Id) (v : V) :
    (m.put k v).Sorted := by
  have ho := C28_order (Id := Id)
  induction m with
  | nil => exact List.pairwise_singleton _ _
  | cons a l ih =>
    obtain ⟨k', v'⟩ := a
    obtain ⟨h1, h2⟩ := List.pairwise_cons.1 h
    unfold KMap.put
    split
    · rename_i hk
      refine List.pairwise_cons.2 ⟨?_, h⟩
      intro e he
      rcases List.mem_cons.1 he with rfl | he
      · exact hk
      · exact ho.trans _ _ _ hk (h1 e he)
    · split
      · rename_i hk
        refine List.pairwise_cons.2 ⟨?_, ih h2⟩
        intro e he
        rcases KMap.mem_put he with he | ⟨w, he⟩
        · rw [he]; exact hk
        · exact h1 (e.1, w) he
      · exact List.pairwise_cons.2 ⟨fun e he => h1 e he, h2⟩

theorem KMap.find_put [IdOrder Id] {m : KMap Id V} (k k0 : Key Id) (v : V) :
    (m.put k v).find k0 = if k = k0 then some v else m.find k0 := by
  have ho := C28_order (Id := Id)
  have heq : ∀ a b : Key Id, ¬ a.lt b = true → ¬ b.lt a = true → a = b := by
    intro a b h1 h2
    rcases ho.total a b with h | h | h
    · exact absurd h h1
    · exact h
    · exact absurd h h2
  induction m with
  | nil =>
    unfold put find find
    by_cases hk : k = k0
    · subst hk; simp [ho.irrefl]
    · rw [if_neg hk]
      split
      · rfl
      · split
        · rfl
        · rename_i h1 h2; exact absurd (heq _ _ h1 h2).symm hk
  | cons a l ih =>
    obtain ⟨k', v'⟩ := a
    unfold put
    split
    · rename_i hkk
      by_cases hk : k = k0
      · subst hk; rw [if_pos rfl]; unfold find; simp [ho.irrefl]
      · rw [if_neg hk]
        conv => lhs; unfold find
        split
        · rename_i h0
          unfold find
          rw [if_pos (ho.trans _ _ _ h0 hkk)]
        · split
          · rfl
          · rename_i h1 h2; exact absurd (heq _ _ h1 h2).symm hk
    · split
      · rename_i hkk
        unfold find
        split
        · rename_i h0
          rw [if_neg]
          rintro rfl
          have := ho.trans _ _ _ h0 hkk
          rw [ho.irrefl] at this; cases this
        · split
          · exact ih
          · rename_i h1 h2
            rw [if_neg]
            rintro rfl
            exact h2 hkk
      · rename_i h1 h2
        have := heq _ _ h1 h2
        subst this
        unfold find
        split
        · rename_i h0
          rw [if_neg]
          rintro rfl
          rw [ho.irrefl] at h0; cases h0
        · split
          · rename_i h0
            rw [if_neg]
            rintro rfl
            rw [ho.irrefl] at h0; cases h0
          · rename_i h3 h4
            rw [if_pos (heq _ _ h3 h4).symm]

/-- **C28 (finite function).**  After any sequence of assignments a lookup yields the value last
assigned to a key with the same context and region, and nothing if there was none.  The map stays
sorted. -/
theorem C28_map [IdOrder Id] (l : List (Key Id × V)) (k : Key Id) :
    (l.foldl (fun (m : KMap Id V) e => m.put e.1 e.2) []).find k = assigned k l ∧
    KMap.Sorted (l.foldl (fun (m : KMap Id V) e => m.put e.1 e.2) []) := by
  have key : ∀ (l : List (Key Id × V)) (m : KMap Id V), m.Sorted →
      (l.foldl (fun (m : KMap Id V) e => m.put e.1 e.2) m).find k =
        (assigned k l).orElse (fun _ => m.find k) ∧
      KMap.Sorted (l.foldl (fun (m : KMap Id V) e => m.put e.1 e.2) m) := by
    intro l
    induction l with
    | nil => intro m h; exact ⟨by simp [assigned], h⟩
    | cons e l ih =>
      intro m h
      obtain ⟨h1, h2⟩ := ih (m.put e.1 e.2) (h.put _ _)
      refine ⟨?_, h2⟩
      rw [List.foldl_cons, h1, KMap.find_put]
      obtain ⟨k', v⟩ := e
      have ha : assigned k ((k', v) :: l) =
          if k' = k then some ((assigned k l).getD v) else assigned k l := rfl
      rw [ha]
      by_cases hk : k' = k
      · rw [if_pos hk, if_pos hk]; cases assigned k l <;> rfl
      · rw [if_neg hk, if_neg hk]
  have h := key l [] List.Pairwise.nil
  refine ⟨?_, h.2⟩
  rw [h.1]
  cases assigned k l <;> rfl

/-- **C28 (the machine model).**  The model of the state machine has a function in place of the map
(`Mach.shallow`, `Mach.deep` with keys `HKey`).  A map and a function that agree still agree after an
assignment to both; so the function is a faithful stand-in for the map. -/
theorem C28_machine [IdOrder Id] (name : Sid → Id) (hname : ∀ a b, name a = name b → a = b)
    (m : KMap Id V) (f : HKey → Option V)
    (h : ∀ k : HKey, m.find ⟨name k.1, k.2⟩ = f k) (k0 : HKey) (v : V) (k : HKey) :
    (m.put ⟨name k0.1, k0.2⟩ v).find ⟨name k.1, k.2⟩ = upd f k0 (some v) k := by
  rw [KMap.find_put]
  unfold upd
  by_cases hk : k = k0
  · subst hk; simp
  · rw [if_neg hk, if_neg, h]
    intro he
    injection he with h1 h2
    exact hk (Prod.ext (hname _ _ h1).symm h2.symm)

/-! ### Example -/

instance : IdOrder Nat where
  dec := inferInstance
  less a b := decide (a < b)
  irrefl a := by simp
  trans a b c h1 h2 := by simp at *; omega
  total a b := by simp; omega

example : (Key.lt (Id := Nat) ⟨1, 5⟩ ⟨2, 0⟩, Key.lt (Id := Nat) ⟨2, 0⟩ ⟨2, 1⟩,
    Key.lt (Id := Nat) ⟨2, 0⟩ ⟨1, 5⟩) = (true, true, false) := by decide +kernel

example : (([(⟨2, 1⟩, 10), (⟨1, 3⟩, 20), (⟨2, 1⟩, 30)] : List (Key Nat × Nat)).foldl
    (fun (m : KMap Nat Nat) e => m.put e.1 e.2) []) = [(⟨1, 3⟩, 20), (⟨2, 1⟩, 30)] := by
  decide +kernel

end SC
