import Verif.Dispatch
/-!
# Weakest preconditions for the execution monad (proof infrastructure)
-/

namespace SC
variable {W α β : Type}

/-- `wp x Q E m`: running `x` from `m` does not fault, a normal result
satisfies `Q`, an exceptional one `E`. -/
def wp (x : M W α) (Q : α → Mach W → Prop) (E : Exc → Mach W → Prop) (m : Mach W) : Prop :=
  match x m with
  | .ok a m' => Q a m'
  | .thrown e m' => E e m'
  | .fault _ => False

variable {Q : α → Mach W → Prop} {E : Exc → Mach W → Prop} {m : Mach W}

theorem wp_mono {x : M W α} {Q Q' : α → Mach W → Prop} {E E' : Exc → Mach W → Prop} {m : Mach W}
    (h : wp x Q E m) (hQ : ∀ a m', Q a m' → Q' a m') (hE : ∀ e m', E e m' → E' e m') :
    wp x Q' E' m := by
  unfold wp at *
  split <;> simp_all

/-- `wp` together with the equation of the run. -/
theorem wp_eq {x : M W α} {Q : α → Mach W → Prop} {E : Exc → Mach W → Prop} {m : Mach W} (h : wp x Q E m) :
    wp x (fun a m' => Q a m' ∧ x m = .ok a m') (fun e m' => E e m' ∧ x m = .thrown e m') m := by
  unfold wp at *
  cases hx : x m <;> rw [hx] at h <;> simp_all

@[simp] theorem wp_pure (a : α) : wp (pure a : M W α) Q E m ↔ Q a m := Iff.rfl

@[simp] theorem wp_bind (x : M W β) (f : β → M W α) :
    wp (x >>= f) Q E m ↔ wp x (fun b m' => wp (f b) Q E m') E m := by
  show wp (M.bnd x f) Q E m ↔ _
  unfold wp M.bnd
  cases x m <;> simp

@[simp] theorem wp_get {Q : Mach W → Mach W → Prop} : wp (M.get : M W (Mach W)) Q E m ↔ Q m m := Iff.rfl

@[simp] theorem wp_modify {Q : Unit → Mach W → Prop} (f : Mach W → Mach W) :
    wp (M.modify f) Q E m ↔ Q () (f m) := Iff.rfl

@[simp] theorem wp_throw (x : Exc) : wp (M.throw x : M W α) Q E m ↔ E x m := Iff.rfl

@[simp] theorem wp_fault (f : Fault) : wp (M.fault f : M W α) Q E m ↔ False := Iff.rfl

@[simp] theorem wp_onThrow (x : M W α) (fin : M W Unit) :
    wp (M.onThrow x fin) Q E m ↔ wp x Q (fun e m' => wp fin (fun _ m'' => E e m'') (fun _ _ => False) m') m := by
  unfold wp M.onThrow
  cases x m with
  | ok a m' => simp
  | fault g => simp
  | thrown e m' =>
    simp only
    cases fin m' <;> simp

@[simp] theorem wp_finally (x : M W α) (fin : M W Unit) :
    wp (M.finally' x fin) Q E m ↔
      wp x (fun a m' => wp fin (fun _ m'' => Q a m'') E m')
        (fun e m' => wp fin (fun _ m'' => E e m'') (fun _ _ => False) m') m := by
  unfold wp M.finally'
  cases x m with
  | ok a m' => simp only; cases fin m' <;> simp
  | fault g => simp
  | thrown e m' => simp only; cases fin m' <;> simp

@[simp] theorem wp_tryCatch (x : M W α) (h : Exc → M W α) :
    wp (M.tryCatch x h) Q E m ↔ wp x Q (fun e m' => wp (h e) Q E m') m := by
  unfold wp M.tryCatch
  cases x m <;> simp

theorem wp_ite {c : Prop} [Decidable c] (x y : M W α) :
    wp (if c then x else y) Q E m ↔ (if c then wp x Q E m else wp y Q E m) := by
  split <;> rfl

@[simp] theorem wp_withTrig (ev : Option Event) (x : M W α) :
    wp (withTrig ev x) Q E m ↔
      wp x (fun a m' => Q a { m' with trig := m.trig }) (fun e m' => E e { m' with trig := m.trig })
        { m with trig := ev } := by
  unfold wp withTrig
  cases x { m with trig := ev } <;> simp

theorem wp_guardTerm (P : Prog W) (x : M W α) (Q : α → Mach W → Prop) (E : Exc → Mach W → Prop) :
    wp (guardTerm P x) Q E m ↔
      wp x Q (fun e m' => wp (terminateMachine P false) (fun _ m'' => E e m'') (fun _ _ => False) m') m := by
  unfold wp guardTerm
  cases x m with
  | ok a m' => simp
  | fault g => simp
  | thrown e m' =>
    simp only
    cases terminateMachine P false m' <;> simp

theorem wp_getObj {Q : Obj → Mach W → Prop} (s : Sid) :
    wp (getObj s) Q E m ↔ ∃ o, m.heap s = some o ∧ Q o m := by
  unfold wp getObj
  cases h : m.heap s <;> simp

@[simp] theorem wp_setObj {Q : Unit → Mach W → Prop} (s : Sid) (o : Obj) :
    wp (setObj s o) Q E m ↔ Q () { m with heap := upd m.heap s (some o) } := Iff.rfl

theorem wp_allocate {Q : Unit → Mach W → Prop} (P : Prog W) (s : Site) :
    (∀ w, Q () { m with world := w }) → (∀ x w, E x (({ m with world := w } : Mach W).raise x)) →
      wp (allocate P s) Q E m := by
  intro h1 h2
  unfold wp allocate
  cases h : P.alloc s m.world with
  | mk w x => cases x <;> simp [h1, h2]

theorem wp_allocNode {Q : Unit → Mach W → Prop} (P : Prog W) (has : Mach W → Bool) (s : Site) :
    (∀ w, Q () { m with world := w }) → (∀ x w, E x (({ m with world := w } : Mach W).raise x)) →
      wp (allocNode P has s) Q E m := by
  intro h1 h2
  have h3 := wp_allocate P s h1 h2
  unfold wp allocNode at *
  cases h : has m with
  | true => exact h1 m.world
  | false => exact h3

/-- A node is there afterwards unless its allocation throws. -/
theorem allocNode_cases (P : Prog W) (has : Mach W → Bool) (s : Site) (m : Mach W) :
    (∃ w, allocNode P has s m = .ok () { m with world := w }) ∨
    ∃ x, has m = false ∧ (P.alloc s m.world).2 = some x ∧
      allocNode P has s m = .thrown x (({ m with world := (P.alloc s m.world).1 } : Mach W).raise x) := by
  unfold allocNode allocate
  cases h : has m with
  | true => exact .inl ⟨m.world, rfl⟩
  | false =>
    cases ha : P.alloc s m.world with
    | mk w x =>
      cases x with
      | none => exact .inl ⟨w, by simp⟩
      | some x => exact .inr ⟨x, by simp⟩

theorem wp_histNode {Q : Unit → Mach W → Prop} (P : Prog W) (has : Mach W → Bool) (site : Site) (s : Sid) (k : Option Sid) :
    (∀ w, Q () { m with world := w }) → (∀ x w, E x ((({ m with world := w } : Mach W).raise x).cutExit s k)) →
      wp (histNode P has site s k) Q E m := by
  intro h1 h2
  have h3 := wp_allocNode (E := fun x m' => E x (m'.cutExit s k)) P has site h1 h2
  unfold wp histNode M.onThrow M.modify at *
  cases h : allocNode P has site m <;> rw [h] at h3 <;> exact h3

theorem histNode_cases (P : Prog W) (has : Mach W → Bool) (site : Site) (s : Sid) (k : Option Sid) (m : Mach W) :
    (∃ w, histNode P has site s k m = .ok () { m with world := w }) ∨
    ∃ x, has m = false ∧ (P.alloc site m.world).2 = some x ∧
      histNode P has site s k m = .thrown x ((({ m with world := (P.alloc site m.world).1 } : Mach W).raise x).cutExit s k) := by
  unfold histNode M.onThrow M.modify
  rcases allocNode_cases P has site m with ⟨w, h⟩ | ⟨x, h1, h2, h⟩
  · exact .inl ⟨w, by rw [h]⟩
  · exact .inr ⟨x, h1, h2, by rw [h]⟩

@[simp] theorem upd_same {α β : Type} [DecidableEq α] (f : α → β) (a : α) (b : β) : upd f a b a = b := by
  simp [upd]

@[simp] theorem upd_other {α β : Type} [DecidableEq α] (f : α → β) {a x : α} (b : β) (h : x ≠ a) :
    upd f a b x = f x := by
  simp [upd, h]

theorem upd_apply {α β : Type} [DecidableEq α] (f : α → β) (a x : α) (b : β) :
    upd f a b x = if x = a then b else f x := rfl

@[simp] theorem upd_upd {α β : Type} [DecidableEq α] (f : α → β) (a : α) (b c : β) :
    upd (upd f a b) a c = upd f a c := by
  funext x; simp only [upd]; split <;> rfl

theorem upd_self {α β : Type} [DecidableEq α] (f : α → β) (a : α) : upd f a (f a) = f := by
  funext x; simp only [upd]; split <;> simp_all

/-! ## Number of children -/

/-- Number of non-null entries among the first `k`. -/
def nch (k : Nat) (inner : Nat → Option Sid) : Nat :=
  (List.range k).countP (fun i => (inner i).isSome)

theorem nch_succ (k : Nat) (g : Nat → Option Sid) :
    nch (k + 1) g = nch k g + (if (g k).isSome then 1 else 0) := by
  simp [nch, List.range_succ, List.countP_append, List.countP_cons]

theorem nch_zero_iff (k : Nat) (g : Nat → Option Sid) : nch k g = 0 ↔ ∀ i, i < k → g i = none := by
  simp [nch, List.countP_eq_zero]

theorem nch_congr {k : Nat} {g g' : Nat → Option Sid} (h : ∀ i, i < k → (g i).isSome = (g' i).isSome) :
    nch k g = nch k g' := by
  induction k with
  | zero => rfl
  | succ k ih =>
    rw [nch_succ, nch_succ, ih (fun i hi => h i (by omega)), h k (by omega)]

theorem nch_upd_some {k i : Nat} {g : Nat → Option Sid} (hi : i < k) (hg : g i = none) (c : Sid) :
    nch k (upd g i (some c)) = nch k g + 1 := by
  induction k with
  | zero => omega
  | succ k ih =>
    rw [nch_succ, nch_succ]
    by_cases h : i = k
    · subst h
      have : nch i (upd g i (some c)) = nch i g :=
        nch_congr (fun j hj => by rw [upd_other _ _ (by omega)])
      simp [this, hg]
    · rw [ih (by omega), upd_other _ _ (fun h' => h h'.symm)]; omega

theorem nch_upd_none {k i : Nat} {g : Nat → Option Sid} (hi : i < k) {c : Sid} (hg : g i = some c) :
    nch k (upd g i none) + 1 = nch k g := by
  have h1 := nch_upd_some (k := k) (i := i) (g := upd g i none) hi (by simp) c
  rw [upd_upd, ← hg, upd_self] at h1
  omega

theorem nch_pos {k i : Nat} {g : Nat → Option Sid} (hi : i < k) {c : Sid} (hg : g i = some c) : 0 < nch k g := by
  rcases Nat.eq_zero_or_pos (nch k g) with h | h
  · rw [nch_zero_iff] at h; rw [h i hi] at hg; cases hg
  · exact h

theorem nch_exists {k : Nat} {g : Nat → Option Sid} (h : nch k g ≠ 0) : ∃ i c, i < k ∧ g i = some c := by
  rw [ne_eq, nch_zero_iff] at h
  simp only [Classical.not_forall] at h
  obtain ⟨i, hi, hg⟩ := h
  cases h' : g i with
  | none => exact absurd h' hg
  | some c => exact ⟨i, c, hi, h'⟩

end SC
