import Verif.Props.Order
/-!
# Interrupted reactions

A transition, termination or search that is interrupted by an exception is related to the uninterrupted one.
-/

namespace SC.Spec
open SC Chart
variable {C : Chart}

/-! ## Every entry can be completed -/

/-- Contexts further inside have smaller rank. -/
def rank (C : Chart) : Option Sid → Nat
  | none => C.n + 1
  | some p => C.n - p

theorem rank_lt (hwf : C.WF) {x : Sid} (hx : x < C.n) : rank C (some x) < rank C (C.parent x) := by
  cases hp : C.parent x with
  | none => simp only [rank]; omega
  | some p => have := hwf.parent_lt hx hp; simp only [rank]; omega

theorem memOK_forget : ∀ a b, Forget a b → MemOK C a → MemOK C b := fun _ _ h1 h2 => h2.forget h1

/-- The histories named by the goal are those of a state. -/
def Goal.Inside (C : Chart) : Goal → Prop
  | .tree _ => True
  | .target t => t.kind = .plain ∨ ∃ p, C.parent t.st = some p
  | .down _ t => t.kind = .plain ∨ ∃ p, C.parent t.st = some p
  | .regions l => ∀ t ∈ l, t.kind = .plain ∨ ∃ p, C.parent t.st = some p

theorem regions_inside {x : Sid} {lo hi : Nat} {l : List Target} (h : Goal.At C (some x) lo hi (.regions l)) : (Goal.regions l).Inside C := by
  intro t ht
  obtain ⟨j, hj⟩ := List.getElem?_of_mem ht
  exact .inr ⟨x, (h.2 j t hj).2.1⟩

/-- Every entry can be completed. -/
theorem Enters.total (hwf : C.WF) : ∀ (r : Nat) {ctx : Option Sid}, rank C ctx ≤ r → ∀ {lo hi : Nat} {g : Goal}, g.At C ctx lo hi → g.Inside C →
    ∀ {h : Memory}, MemOK C h → ∃ l h', Enters C Forget h g l h' := by
  intro r
  induction r with
  | zero =>
    intro ctx hr lo hi g hg _
    cases ctx with
    | none => simp [rank] at hr
    | some p =>
      simp only [rank] at hr
      intro h hm
      cases g with
      | tree s => obtain ⟨h1, h2, _⟩ := hg; have := hwf.parent_lt h1 h2; omega
      | target t => obtain ⟨h1, h2, _⟩ := hg; have := hwf.parent_lt h1 h2; omega
      | down c d =>
        obtain ⟨h1, rfl, y, h3, h4, _⟩ := hg
        have h5 := h4.bound hwf h1
        have := hwf.parent_lt h5 h3; omega
      | regions l =>
        cases l with
        | nil => exact ⟨_, _, .rnil⟩
        | cons t ts =>
          obtain ⟨_, h2⟩ := hg
          obtain ⟨h1, h2, _⟩ := h2 0 t rfl
          have := hwf.parent_lt h1 h2; omega
  | succ r ih =>
    intro ctx hr
    have inner : ∀ {x : Sid}, x < C.n → C.parent x = ctx → rank C (some x) ≤ r := by
      intro x hx hp
      have := rank_lt hwf hx
      rw [hp] at this
      omega
    have refl : ∀ {h : Memory}, Forget h h := Forget.preord.refl _
    have htree : ∀ {s : Sid} {h : Memory}, s < C.n → C.parent s = ctx → MemOK C h → ∃ l h', Enters C Forget h (.tree s) l h' := by
      intro s h hs hp hm
      obtain ⟨l, h', he⟩ := ih (inner hs hp) (regions_all hwf hs) (regions_inside (regions_all hwf hs)) hm
      exact ⟨_, _, .tree refl he⟩
    have hdown : ∀ {d : Target} {h : Memory}, (∀ h, MemOK C h → C.parent d.st = ctx → ∃ l h', Enters C Forget h (.target d) l h') →
        d.st < C.n → (Goal.down ctx d).Inside C → (∃ y, C.parent y = ctx ∧ Below C y d.st) → MemOK C h → ∃ l h', Enters C Forget h (.down ctx d) l h' := by
      rintro d h ht hd hin ⟨x, hx, hb⟩ hm
      have hxn := hb.bound hwf hd
      rcases hb.eq_or_outer with rfl | ho
      · obtain ⟨l, h', he⟩ := ht h hm hx
        exact ⟨_, _, .here hx he⟩
      · obtain ⟨y, hy, hby⟩ : ∃ y, C.parent y = some x ∧ Below C y d.st := by
          rcases ho.below.child with h1 | h1
          · rw [h1] at ho; exact (Outer.irrefl hwf hxn ho).elim
          · exact h1
        have hyn := hby.bound hwf hd
        have hyp := pos_lt_some hwf hyn hy
        have g1 := regions_take hwf hxn (k := C.pos y) (Nat.le_of_lt hyp)
        have g3 := regions_drop hwf hxn (k := C.pos y + 1) hyp
        obtain ⟨l1, h1, e1⟩ := ih (inner hxn hx) g1 (regions_inside g1) hm
        have m1 := (e1.fills hwf memOK_forget g1 hm).2
        have g2 : Goal.At C (some x) (C.pos y) (C.pos y + 1) (.down (some x) d) := ⟨hd, rfl, y, hy, hby, rfl, rfl⟩
        obtain ⟨l2, h2, e2⟩ := ih (inner hxn hx) g2 hin m1
        have m2 := (e2.fills hwf memOK_forget g2 m1).2
        obtain ⟨l3, h3, e3⟩ := ih (inner hxn hx) g3 (regions_inside g3) m2
        exact ⟨_, _, .via hx hy hby refl e1 e2 e3⟩
    have htarget : ∀ {t : Target} {h : Memory}, t.st < C.n → (Goal.target t).Inside C → C.parent t.st = ctx → MemOK C h → ∃ l h', Enters C Forget h (.target t) l h' := by
      rintro ⟨k, d⟩ h hd hin hp hm
      simp only at hd hp
      have hplain : ∀ {d : Sid} {h : Memory}, d < C.n → C.parent d = ctx → MemOK C h → ∃ l h', Enters C Forget h (.target ⟨.plain, d⟩) l h' := by
        intro d h hd hp hm
        obtain ⟨l, h', he⟩ := htree hd hp hm
        exact ⟨_, _, .plain he⟩
      cases k with
      | plain => exact hplain hd hp hm
      | shallow =>
        rcases hin with h1 | ⟨p, h1⟩
        · cases h1
        cases hs : h.sh p (C.pos d) with
        | none =>
          obtain ⟨l, h', he⟩ := htree hd hp hm
          exact ⟨_, _, .shallowDefault h1 hs he⟩
        | some c =>
          obtain ⟨k1, k2, _⟩ := hm.sh _ _ _ hs
          obtain ⟨l, h', he⟩ := htree k1 (by rw [k2, ← h1]; exact hp) hm
          exact ⟨_, _, .shallow h1 hs he⟩
      | deep =>
        rcases hin with h1 | ⟨p, h1⟩
        · cases h1
        simp only at h1
        cases hs : h.dh p (C.pos d) with
        | none =>
          obtain ⟨l, h', he⟩ := htree hd hp hm
          exact ⟨_, _, .deepDefault h1 hs he⟩
        | some c =>
          obtain ⟨k1, y, k2, _, k4⟩ := hm.dh _ _ _ hs
          have hpc : some p = ctx := by rw [← h1]; exact hp
          obtain ⟨l, h', he⟩ := hdown (d := ⟨.plain, c⟩) (fun h hm hp => hplain k1 hp hm) k1 (.inl rfl) ⟨y, by rw [k2, hpc], k4⟩ hm
          rw [← hpc] at he
          exact ⟨_, _, .deep h1 hs he⟩
    have hregions : ∀ {l : List Target} {lo hi : Nat} {h : Memory}, Goal.At C ctx lo hi (.regions l) → (Goal.regions l).Inside C → MemOK C h → ∃ l' h', Enters C Forget h (.regions l) l' h' := by
      intro l
      induction l with
      | nil => intro lo hi h _ _ _; exact ⟨_, _, .rnil⟩
      | cons t ts ihl =>
        rintro lo hi h ⟨h1, h2⟩ hin hm
        have ht := h2 0 t rfl
        simp only [List.length_cons] at h1
        obtain ⟨l, h', he⟩ := htarget ht.1 (hin t (by simp)) ht.2.1 hm
        have hm' := (he.fills hwf memOK_forget (ctx := ctx) (lo := lo) (hi := lo + 1) ⟨ht.1, ht.2.1, by omega, rfl⟩ hm).2
        obtain ⟨l', h'', he'⟩ := ihl (lo := lo + 1) (hi := hi) ⟨by omega, fun j t hj => by have := h2 (j + 1) t hj; exact ⟨this.1, this.2.1, by omega⟩⟩ (fun t ht => hin t (by simp [ht])) hm'
        exact ⟨_, _, .rcons he he'⟩
    intro lo hi g hg hin h hm
    cases g with
    | tree s => exact htree hg.1 hg.2.1 hm
    | target t => exact htarget hg.1 hin hg.2.1 hm
    | down c d =>
      obtain ⟨h1, rfl, y, h3, h4, _⟩ := hg
      exact hdown (fun h hm hp => htarget h1 hin hp hm) h1 hin ⟨y, h3, h4⟩ hm
    | regions l => exact hregions hg hin hm

/-- What an interrupted entry entered is the beginning of a completed entry, which continues with the state whose entry failed. -/
theorem Begins.completes (hwf : C.WF) {h : Memory} {g : Goal} {l : List Sid} {y : Sid} (hb : Begins C Forget h g l y) :
    ∀ {ctx : Option Sid} {lo hi : Nat}, g.At C ctx lo hi → g.Inside C → MemOK C h → ∃ l2 h', Enters C Forget h g (l ++ y :: l2) h' := by
  have total : ∀ {ctx : Option Sid} {lo hi : Nat} {g : Goal} {h : Memory}, g.At C ctx lo hi → g.Inside C → MemOK C h → ∃ l h', Enters C Forget h g l h' :=
    fun hg hi hm => Enters.total hwf _ (Nat.le_refl _) hg hi hm
  have refl : ∀ {h : Memory}, Forget h h := Forget.preord.refl _
  induction hb with
  | @root h s =>
    rintro ctx lo hi ⟨hs, _⟩ _ hm
    obtain ⟨l, h', he⟩ := total (regions_all hwf hs) (regions_inside (regions_all hwf hs)) hm
    exact ⟨_, _, .tree refl he⟩
  | @tree h h1 s l y hf _ ih =>
    rintro ctx lo hi ⟨hs, _⟩ _ hm
    obtain ⟨l2, h', he⟩ := ih (regions_all hwf hs) (regions_inside (regions_all hwf hs)) (hm.forget hf)
    exact ⟨_, _, .tree hf he⟩
  | @first h t ts l y _ ih =>
    rintro ctx lo hi ⟨h1, h2⟩ hin hm
    have ht := h2 0 t rfl
    simp only [List.length_cons] at h1
    have hg : (Goal.target t).At C ctx lo (lo + 1) := ⟨ht.1, ht.2.1, by omega, rfl⟩
    obtain ⟨l2, h', he⟩ := ih hg (hin t (by simp)) hm
    obtain ⟨l3, h'', he'⟩ := total (g := .regions ts) (lo := lo + 1) (hi := hi) ⟨by omega, fun j t hj => by have := h2 (j + 1) t hj; exact ⟨this.1, this.2.1, by omega⟩⟩
      (fun t ht => hin t (by simp [ht])) (he.fills hwf memOK_forget hg hm).2
    exact ⟨l2 ++ l3, h'', by have := Enters.rcons he he'; simpa using this⟩
  | @later h h1 t ts l l' y he _ ih =>
    rintro ctx lo hi ⟨h1, h2⟩ hin hm
    have ht := h2 0 t rfl
    simp only [List.length_cons] at h1
    have hg : (Goal.target t).At C ctx lo (lo + 1) := ⟨ht.1, ht.2.1, by omega, rfl⟩
    obtain ⟨l3, h'', he'⟩ := ih (lo := lo + 1) (hi := hi) ⟨by omega, fun j t hj => by have := h2 (j + 1) t hj; exact ⟨this.1, this.2.1, by omega⟩⟩
      (fun t ht => hin t (by simp [ht])) (he.fills hwf memOK_forget hg hm).2
    exact ⟨l3, h'', by have := Enters.rcons he he'; simpa using this⟩
  | plain _ ih => exact fun hg _ hm => (ih hg trivial hm).imp fun _ h => h.imp fun _ h => .plain h
  | @shallow h d p c l y hp hs _ ih =>
    rintro ctx lo hi ⟨h1, h2, h3, h4⟩ _ hm
    obtain ⟨k1, k2, k3⟩ := hm.sh _ _ _ hs
    simp only at h1 h2 h3
    exact (ih ⟨k1, by rw [k2, ← hp, h2], by rw [k3]; exact h3, h4⟩ trivial hm).imp fun _ h => h.imp fun _ h => .shallow hp hs h
  | shallowDefault hp hs _ ih => exact fun hg _ hm => (ih hg trivial hm).imp fun _ h => h.imp fun _ h => .shallowDefault hp hs h
  | @deep h d p c l y hp hs _ ih =>
    rintro ctx lo hi ⟨h1, h2, h3, h4⟩ _ hm
    obtain ⟨k1, z, k2, k3, k4⟩ := hm.dh _ _ _ hs
    simp only at h1 h2 h3
    exact (ih ⟨k1, by rw [← hp, h2], z, k2, k4, by rw [k3]; exact h3, h4⟩ (.inl rfl) hm).imp fun _ h => h.imp fun _ h => .deep hp hs h
  | deepDefault hp hs _ ih => exact fun hg _ hm => (ih hg trivial hm).imp fun _ h => h.imp fun _ h => .deepDefault hp hs h
  | @here h c d l y hp _ ih =>
    rintro ctx lo hi ⟨h1, rfl, z, h3, h4, h5, h6⟩ hin hm
    have : z = d.st := Below.sibling hwf h1 h4 .refl (by rw [h3, hp])
    subst this
    exact (ih ⟨h1, h3, h5, h6⟩ hin hm).imp fun _ h => h.imp fun _ h => .here hp h
  | @outer h c d x y hx hy hb =>
    rintro ctx lo hi ⟨g1, rfl, z, g3, g4, g5, g6⟩ hin hm
    have hyn := hb.bound hwf g1
    have hxn := parent_bound hwf hyn hy
    have hyp := pos_lt_some hwf hyn hy
    have a1 := regions_take hwf hxn (k := C.pos y) (Nat.le_of_lt hyp)
    have a2 : Goal.At C (some x) (C.pos y) (C.pos y + 1) (.down (some x) d) := ⟨g1, rfl, y, hy, hb, rfl, rfl⟩
    have a3 := regions_drop hwf hxn (k := C.pos y + 1) hyp
    obtain ⟨l1, h1, e1⟩ := total a1 (regions_inside a1) hm
    have m1 := (e1.fills hwf memOK_forget a1 hm).2
    obtain ⟨l2, h2, e2⟩ := total a2 hin m1
    have m2 := (e2.fills hwf memOK_forget a2 m1).2
    obtain ⟨l3, h3, e3⟩ := total a3 (regions_inside a3) m2
    exact ⟨_, _, .via hx hy hb refl e1 e2 e3⟩
  | @before h h0 c d x y l w hx hy hb hf _ ih =>
    rintro ctx lo hi ⟨g1, rfl, z, g3, g4, g5, g6⟩ hin hm
    have hyn := hb.bound hwf g1
    have hxn := parent_bound hwf hyn hy
    have hyp := pos_lt_some hwf hyn hy
    have a1 := regions_take hwf hxn (k := C.pos y) (Nat.le_of_lt hyp)
    have a2 : Goal.At C (some x) (C.pos y) (C.pos y + 1) (.down (some x) d) := ⟨g1, rfl, y, hy, hb, rfl, rfl⟩
    have a3 := regions_drop hwf hxn (k := C.pos y + 1) hyp
    obtain ⟨l1, h1, e1⟩ := ih a1 (regions_inside a1) (hm.forget hf)
    have m1 := (e1.fills hwf memOK_forget a1 (hm.forget hf)).2
    obtain ⟨l2, h2, e2⟩ := total a2 hin m1
    have m2 := (e2.fills hwf memOK_forget a2 m1).2
    obtain ⟨l3, h3, e3⟩ := total a3 (regions_inside a3) m2
    exact ⟨l1 ++ (l2 ++ l3), h3, by have := Enters.via hx hy hb hf e1 e2 e3; simpa using this⟩
  | @down h h0 h1 c d x y l1 l2 w hx hy hb hf e1 _ ih =>
    rintro ctx lo hi ⟨g1, rfl, z, g3, g4, g5, g6⟩ hin hm
    have hyn := hb.bound hwf g1
    have hxn := parent_bound hwf hyn hy
    have hyp := pos_lt_some hwf hyn hy
    have a1 := regions_take hwf hxn (k := C.pos y) (Nat.le_of_lt hyp)
    have a2 : Goal.At C (some x) (C.pos y) (C.pos y + 1) (.down (some x) d) := ⟨g1, rfl, y, hy, hb, rfl, rfl⟩
    have a3 := regions_drop hwf hxn (k := C.pos y + 1) hyp
    have m1 := (e1.fills hwf memOK_forget a1 (hm.forget hf)).2
    obtain ⟨l2', h2, e2⟩ := ih a2 hin m1
    have m2 := (e2.fills hwf memOK_forget a2 m1).2
    obtain ⟨l3, h3, e3⟩ := total a3 (regions_inside a3) m2
    exact ⟨l2' ++ l3, h3, by have := Enters.via hx hy hb hf e1 e2 e3; simpa using this⟩
  | @after h h0 h1 h2 c d x y l1 l2 l3 w hx hy hb hf e1 e2 _ ih =>
    rintro ctx lo hi ⟨g1, rfl, z, g3, g4, g5, g6⟩ hin hm
    have hyn := hb.bound hwf g1
    have hxn := parent_bound hwf hyn hy
    have hyp := pos_lt_some hwf hyn hy
    have a1 := regions_take hwf hxn (k := C.pos y) (Nat.le_of_lt hyp)
    have a2 : Goal.At C (some x) (C.pos y) (C.pos y + 1) (.down (some x) d) := ⟨g1, rfl, y, hy, hb, rfl, rfl⟩
    have a3 := regions_drop hwf hxn (k := C.pos y + 1) hyp
    have m1 := (e1.fills hwf memOK_forget a1 (hm.forget hf)).2
    have m2 := (e2.fills hwf memOK_forget a2 m1).2
    obtain ⟨l3', h3, e3⟩ := ih a3 (regions_inside a3) m2
    exact ⟨l3', h3, by have := Enters.via hx hy hb hf e1 e2 e3; simpa using this⟩

theorem Stored.total (s : Sid) (h : Memory) : ∃ h', Stored C s h h' := by
  classical
  refine ⟨⟨fun p i => if C.parent s = some p ∧ C.shallowH p = true ∧ C.pos s = i then some s else h.sh p i,
    fun p i => if C.isLeaf s = true ∧ C.deepH p = true ∧ ∃ c, C.parent c = some p ∧ Below C c s ∧ C.pos c = i then some s else h.dh p i,
    h.log ++ [.exit s]⟩, fun _ _ => rfl, ?_, ?_, rfl⟩
  · intro p c h1 h2 h3 h4
    exact if_pos ⟨h1, h2, c, h3, h4, rfl⟩
  · intro p i hn
    exact if_neg hn

theorem MemRun.total (obs : List Obs) : ∀ h : Memory, ∃ h', MemRun C Forget h obs h' := by
  have refl : ∀ {h : Memory}, Forget h h := Forget.preord.refl _
  induction obs with
  | nil => exact fun h => ⟨h, .nil refl⟩
  | cons o os ih =>
    intro h
    by_cases ho : ∃ s, o = .exit s
    · obtain ⟨s, rfl⟩ := ho
      obtain ⟨h1, g1⟩ := Stored.total (C := C) s h
      obtain ⟨h2, g2⟩ := ih h1
      exact ⟨h2, .exit refl (fun _ => g1) g2⟩
    · obtain ⟨h2, g2⟩ := ih h
      exact ⟨h2, .other (fun s hs => ho ⟨s, hs⟩) g2⟩

/-! ## Interrupted transitions and terminations -/

/-- A transition that exits the states `xs`, runs action `a`, exits the states `ys` (none, unless the transition context is relaxed) and enters
the states `l` is interrupted. -/
inductive TransitionUntil (C : Chart) (full : Bool) (a : Option Nat) (xs ys l : List Sid) : List Obs → Prop
  /-- during the exit of one of the states `xs` (only if `exit()` is called) -/
  | exit {obs} : full = true → ExitsUntil C xs obs → TransitionUntil C full a xs ys l obs
  /-- by the action -/
  | action : a ≠ none → TransitionUntil C full a xs ys l (exitObs full xs ++ acts a)
  /-- during the exit of one of the states `ys` -/
  | late {obs} : full = true → ExitsUntil C ys obs → TransitionUntil C full a xs ys l (exitObs full xs ++ acts a ++ obs)
  /-- during the entry of state `y`; some of the states entered before, which are outside `y`, may be destroyed again (`l3`) -/
  | entry {l1 : List Sid} {y : Sid} {l2 : List Sid} {tail : List Obs} {l3 : List Sid} : l = l1 ++ y :: l2 → NotEntered y tail → (∀ x ∈ l3, x ∈ l1 ∧ Below C x y) →
      TransitionUntil C full a xs ys l (exitObs full xs ++ acts a ++ exitObs full ys ++ (enterObs l1 ++ (tail ++ l3.map .destroy)))

/-- What interrupted transitions and terminations do: they make the calls of an uninterrupted one up to the failing one. -/
def Breaks.meant (C : Chart) (full : Bool) : Breaks where
  trans s d a c obs := ∃ k t xs ys l o c', Transition C full s d a k t xs ys l c o c' ∧ TransitionUntil C full a xs ys l obs
  term s c obs := ∃ xs o c', Termination C full s xs c o c' ∧ full = true ∧ ExitsUntil C xs obs

theorem ExitList.filter {p q : Sid → Prop} {l : List Sid} (h : ExitList C p l) [DecidablePred q] : ExitList C (fun x => p x ∧ q x) (l.filter fun x => decide (q x)) :=
  ⟨fun x => by rw [List.mem_filter, h.mem x]; simp, h.nodup.filter _, h.order.filter _⟩

theorem transit_region (hwf : C.WF) {s t : Sid} {d : Target} {a : Option Nat} {k : Option Sid} (h : C.transitOK s d a = true) (hc : CommonCtx C s d.st k) (hp : C.parent t = k)
    (hb : Below C t s) : ∃ y, C.parent y = k ∧ C.pos y = C.pos t ∧ Below C y d.st := by
  obtain ⟨hs, hd, t', k0, hpos⟩ := transitOK_spec h
  obtain ⟨t'', g1, g2, g3⟩ := termState_spec hwf hs hd.bound
  rw [k0] at g1; cases g1
  have hk := hc.unique hwf hs (commonCtx_common hwf hs hd.bound)
  subst hk
  have htt : t = t' := Below.sibling hwf hs hb g3 (by rw [hp, g2])
  have hpath := pathBelow_path hwf hd.bound (commonCtx_spec hwf hs hd.bound).2.1
  exact ⟨_, hpath.head, by rw [htt]; exact hpos.symm, hpath.head_below⟩

theorem TransitsUntil.meaning (hwf : C.WF) {full : Bool} {s : Sid} {d : Target} {a : Option Nat} {c : Conf} {obs : List Obs} (hf : Forest C c.act)
    (hm : MemOK C c.mem) (hs : c.act s = true) (hd : C.transitOK s d a = true) (h : TransitsUntil C Forget full s d a c obs) :
    (Breaks.meant C full).trans s d a c obs := by
  classical
  obtain ⟨_, hdn, _⟩ := transitOK_spec hd
  have mem1 : ∀ {t l1 l2 h1}, Leaves C c.act t (Before C a) l1 l2 → MemRun C Forget c.mem (exitObs full l1 ++ acts a ++ exitObs full l2) h1 → MemOK C h1 := by
    intro t l1 l2 h1 hl hr
    refine hr.memOK hm fun x hx => ?_
    rcases List.mem_append.1 hx with hx | hx
    · rcases List.mem_append.1 hx with hx | hx
      · exact hf.bound x ((hl.first.mem x).1 (mem_exitObs hx)).1.1
      · cases a <;> simp [acts] at hx
    · exact hf.bound x ((hl.rest.mem x).1 (mem_exitObs hx)).1.1
  have whole : ∀ {k t l1 l2}, CommonCtx C s d.st k → C.parent t = k → Below C t s → Leaves C c.act t (Before C a) l1 l2 →
      ∀ {h1 l h2}, MemRun C Forget c.mem (exitObs full l1 ++ acts a ++ exitObs full l2) h1 →
      Enters C Forget h1 (.down k d) l h2 → ∃ o c', Transition C full s d a k t l1 l2 l c o c' := by
    intro k t l1 l2 hk hp hb hl h1 l h2 hr he
    obtain ⟨y, y1, y2, y3⟩ := transit_region hwf hd hk hp hb
    obtain ⟨k1, k2⟩ := he.fills hwf memOK_forget (ctx := k) (lo := C.pos t) (hi := C.pos t + 1) ⟨hdn.bound, rfl, y, y1, y3, y2.symm, rfl⟩ (mem1 hl hr)
    exact ⟨_, ⟨fun x => decide ((c.act x = true ∧ ¬ Below C t x) ∨ x ∈ l), h2⟩, hk, ⟨hp, hb⟩, rfl, hl, k1, fun x h1 h2 h3 => he.path hwf rfl hdn.bound x h1 h2 h3,
      fun x => by simp, h1, hr, he⟩
  have some' : ∀ {k t l1 l2}, CommonCtx C s d.st k → C.parent t = k → Below C t s → Leaves C c.act t (Before C a) l1 l2 →
      ∃ l o c', Transition C full s d a k t l1 l2 l c o c' := by
    intro k t l1 l2 hk hp hb hl
    obtain ⟨y, y1, y2, y3⟩ := transit_region hwf hd hk hp hb
    obtain ⟨h1, hr⟩ := MemRun.total (C := C) (exitObs full l1 ++ acts a ++ exitObs full l2) c.mem
    obtain ⟨l, h2, he⟩ := Enters.total hwf _ (Nat.le_refl _) (ctx := k) (lo := C.pos y) (hi := C.pos y + 1) (g := .down k d) ⟨hdn.bound, rfl, y, y1, y3, rfl, rfl⟩ hdn.hist (mem1 hl hr)
    obtain ⟨o, c', h⟩ := whole hk hp hb hl hr he
    exact ⟨l, o, c', h⟩
  have later : ∀ {t l1}, Below C t s → ExitList C (fun x => (c.act x = true ∧ Below C t x) ∧ Before C a x) l1 → ∃ l2, Leaves C c.act t (Before C a) l1 l2 :=
    fun hb h1 => ⟨_, h1, (hf.exitList hwf (hf.below hb hs)).filter⟩
  cases h with
  | leave hk hp hb hl =>
    cases hl with
    | first hfull hx hu =>
      obtain ⟨l2, hl⟩ := later hb hx
      obtain ⟨l, o, c', h⟩ := some' hk hp hb hl
      exact ⟨_, _, _, _, l, o, c', h, .exit hfull hu⟩
    | action ha hx =>
      obtain ⟨l2, hl⟩ := later hb hx
      obtain ⟨l, o, c', h⟩ := some' hk hp hb hl
      exact ⟨_, _, _, _, l, o, c', h, .action ha⟩
    | rest hfull hl hu =>
      obtain ⟨l, o, c', h⟩ := some' hk hp hb hl
      exact ⟨_, _, _, _, l, o, c', h, .late hfull hu⟩
  | entry hk hp hb hl hr he =>
    obtain ⟨l1, y, tail, l3, hbg, hn, rfl, h3⟩ := he
    obtain ⟨z, y1, y2, y3⟩ := transit_region hwf hd hk hp hb
    obtain ⟨l2, h2, he⟩ := hbg.completes hwf ⟨hdn.bound, rfl, z, y1, y3, rfl, rfl⟩ hdn.hist (mem1 hl hr)
    obtain ⟨o, c', h⟩ := whole hk hp hb hl hr he
    exact ⟨_, _, _, _, _, o, c', h, .entry rfl hn h3⟩

theorem TerminatesUntil.meaning (hwf : C.WF) {full : Bool} {s : Sid} {c : Conf} {obs : List Obs} (hf : Forest C c.act)
    (hm : MemOK C c.mem) (hs : c.act s = true) (h : TerminatesUntil C full s c obs) : (Breaks.meant C full).term s c obs := by
  obtain ⟨h', hr⟩ := MemRun.total (C := C) (exitObs full (terminated C c.act s)) c.mem
  have hxl := hf.terminated hwf hs
  refine ⟨_, _, ⟨without c.act (terminated C c.act s), h'⟩, ⟨rfl, hxl, ?_, hr⟩, h.1, h.2⟩
  intro x
  simp only [without, Bool.and_eq_true, Bool.not_eq_true', List.contains_eq_mem, decide_eq_false_iff_not, hxl.mem]

section
variable (hwf : C.WF) {full : Bool} {D : Sid → Nat → Event → Decision → Prop} (hD : ValidD C D) {e : Event}
include hwf hD

theorem FiresUntil.meant {s : Sid} {r : Reaction} (hr : r ∈ C.reactions s) {c : Conf} {obs : List Obs} (hf : Forest C c.act) (hm : MemOK C c.mem)
    (hs : c.act s = true) (h : FiresUntil Forget (.code C Forget full) D s e c r.kind obs) : FiresUntil Forget (.meant C full) D s e c r.kind obs := by
  generalize hk : r.kind = kind at h
  cases h with
  | transition h => exact .transition (TransitsUntil.meaning hwf hf hm hs (hwf.trans_ok (hf.bound s hs) hr hk) h)
  | inState => exact .inState
  | termination h => exact .termination (TerminatesUntil.meaning hwf hf hm hs h)
  | react => exact .react
  | @transit g id d a obs hF hDd h => exact .transit hF hDd (TransitsUntil.meaning (c := ⟨c.act, g⟩) hwf hf (hm.forget hF) hs (hD _ _ _ _ _ hDd) h)
  | @terminate g id obs hF hDd h => exact .terminate hF hDd (TerminatesUntil.meaning (c := ⟨c.act, g⟩) hwf hf (hm.forget hF) hs h)

theorem LocalUntil.meant {s : Sid} {c : Conf} {obs : List Obs} (hf : Forest C c.act) (hm : MemOK C c.mem)
    (hs : c.act s = true) (h : LocalUntil Forget (.code C Forget full) D s e (C.reactions s) c obs) : LocalUntil Forget (.meant C full) D s e (C.reactions s) c obs := by
  obtain ⟨l1, r, l2, h1, h2, h3, h4⟩ := h
  exact ⟨l1, r, l2, h1, h2, h3, FiresUntil.meant hwf hD (by rw [h1]; simp) hf hm hs h4⟩

theorem SearchUntil.meant {s : Sid} {c : Conf} {obs : List Obs} (h : SearchUntil C Forget (.code C Forget full) (.code C Forget full) D e s c obs)
    (hf : Forest C c.act) (hm : MemOK C c.mem) (hs : c.act s = true) : SearchUntil C Forget (.meant C full) (.meant C full) D e s c obs := by
  obtain ⟨o1, k, c1, o2, h1, h2, h3⟩ := h
  obtain ⟨k1, k2, k3, _, _, k6⟩ := Passes.meant hwf hD h2 hf hm hs
  exact ⟨o1, k, c1, o2, h1, k1, LocalUntil.meant hwf hD (by rw [k2]; exact hf) k3 (by rw [k2]; exact k6) h3⟩

end

end SC.Spec
