import Verif.Relax
import Verif.Props.Transitions
/-!
# Property C37: transitions with relaxed transition context
-/

namespace SC.Spec
open SC Chart
variable {C : Chart} {F : Memory → Memory → Prop}

/-! ## Vocabulary -/

/-- A completed transition from `s` to `d` with relaxed transition context `q`, seen from outside: with `k` the innermost common context and `t` the
direct inner state of `k` that contains `s`, first the active states at or below `t` strictly inside `q` are exited (`l1`), then the action runs, then
the other active states at or below `t` are exited (`l2`), then the states `l` are entered. The machine as context contains all states. -/
structure RelaxedTransition (C : Chart) (F : Memory → Memory → Prop) (s : Sid) (d : Target) (q : Option Sid) (a : Option Nat) (k : Option Sid) (t : Sid)
    (l1 l2 l : List Sid) (c : Conf) (obs : List Obs) (c' : Conf) : Prop where
  common : CommonCtx C s d.st k
  top : C.parent t = k ∧ Below C t s
  seen : obs = exitObs true l1 ++ acts a ++ exitObs true l2 ++ enterObs l
  first : ExitList C (fun x => (c.act x = true ∧ Below C t x) ∧ ∀ y, q = some y → Outer C y x) l1
  second : ExitList C (fun x => (c.act x = true ∧ Below C t x) ∧ ¬ ∀ y, q = some y → Outer C y x) l2
  entered : Fills C k (C.pos t) (C.pos t + 1) l
  path : ∀ x, Below C x d.st → (d.kind = .plain ∨ x ≠ d.st) → (∀ p, k = some p → Outer C p x) → x ∈ l
  after : ∀ x, c'.act x = true ↔ (c.act x = true ∧ ¬ Below C t x) ∨ x ∈ l
  mem : ∃ h, MemRun C F c.mem (exitObs true l1 ++ acts a ++ exitObs true l2) h ∧ Enters C F h (.down k d) l c'.mem

/-- The same remembered states (the logs may differ in order). -/
def SameHist (h h' : Memory) : Prop := h.sh = h'.sh ∧ h.dh = h'.dh

/-! ## What is remembered does not depend on the exit order -/

/-- The exit of `x` stores a shallow history for region `i` of `p`. -/
def SaysSh (C : Chart) (x p : Sid) (i : Nat) : Prop := C.parent x = some p ∧ C.shallowH p = true ∧ C.pos x = i

/-- The exit of `x` stores a deep history for region `i` of `p`. -/
def SaysDh (C : Chart) (x p : Sid) (i : Nat) : Prop := C.isLeaf x = true ∧ C.deepH p = true ∧ ∃ c, C.parent c = some p ∧ Below C c x ∧ C.pos c = i

theorem MemRun.sh_last {h h' : Memory} {obs : List Obs} (hr : MemRun C (fun a b => a = b) h obs h') (p : Sid) (i : Nat) :
    (∀ x, .exit x ∈ obs → x < C.n) →
    (∃ x, .exit x ∈ obs ∧ SaysSh C x p i ∧ h'.sh p i = some x) ∨ ((∀ x, .exit x ∈ obs → ¬ SaysSh C x p i) ∧ h'.sh p i = h.sh p i) := by
  induction hr with
  | nil hf => intro _; subst hf; exact .inr ⟨by simp, rfl⟩
  | @exit h h1 h2 h' s os hf hst _ ih =>
    intro hb
    subst hf
    have hst := hst (hb s (by simp))
    rcases ih fun x hx => hb x (by simp [hx]) with ⟨x, k1, k2, k3⟩ | ⟨k1, k2⟩
    · exact .inl ⟨x, by simp [k1], k2, k3⟩
    · rw [hst.sh] at k2
      by_cases hc : C.parent s = some p ∧ C.shallowH p = true ∧ C.pos s = i
      · rw [if_pos hc] at k2
        exact .inl ⟨s, by simp, hc, k2⟩
      · rw [if_neg hc] at k2
        refine .inr ⟨?_, k2⟩
        intro x hx
        simp only [List.mem_cons, Obs.exit.injEq] at hx
        rcases hx with rfl | hx
        · exact hc
        · exact k1 x hx
  | @other h h' o os ho _ ih =>
    intro hb
    rcases ih fun x hx => hb x (by simp [hx]) with ⟨x, k1, k2, k3⟩ | ⟨k1, k2⟩
    · exact .inl ⟨x, by simp [k1], k2, k3⟩
    · refine .inr ⟨fun x hx => ?_, k2⟩
      rcases List.mem_cons.1 hx with hx | hx
      · exact absurd hx.symm (ho x)
      · exact k1 x hx

theorem MemRun.dh_last {h h' : Memory} {obs : List Obs} (hr : MemRun C (fun a b => a = b) h obs h') (p : Sid) (i : Nat) :
    (∀ x, .exit x ∈ obs → x < C.n) →
    (∃ x, .exit x ∈ obs ∧ SaysDh C x p i ∧ h'.dh p i = some x) ∨ ((∀ x, .exit x ∈ obs → ¬ SaysDh C x p i) ∧ h'.dh p i = h.dh p i) := by
  induction hr with
  | nil hf => intro _; subst hf; exact .inr ⟨by simp, rfl⟩
  | @exit h h1 h2 h' s os hf hst _ ih =>
    intro hb
    subst hf
    have hst := hst (hb s (by simp))
    rcases ih fun x hx => hb x (by simp [hx]) with ⟨x, k1, k2, k3⟩ | ⟨k1, k2⟩
    · exact .inl ⟨x, by simp [k1], k2, k3⟩
    · by_cases hc : SaysDh C s p i
      · obtain ⟨g1, g2, c, g3, g4, g5⟩ := hc
        have := hst.deep p c g1 g2 g3 g4
        rw [g5] at this
        exact .inl ⟨s, by simp, ⟨g1, g2, c, g3, g4, g5⟩, by rw [k2, this]⟩
      · rw [hst.other p i hc] at k2
        refine .inr ⟨?_, k2⟩
        intro x hx
        simp only [List.mem_cons, Obs.exit.injEq] at hx
        rcases hx with rfl | hx
        · exact hc
        · exact k1 x hx
  | @other h h' o os ho _ ih =>
    intro hb
    rcases ih fun x hx => hb x (by simp [hx]) with ⟨x, k1, k2, k3⟩ | ⟨k1, k2⟩
    · exact .inl ⟨x, by simp [k1], k2, k3⟩
    · refine .inr ⟨fun x hx => ?_, k2⟩
      rcases List.mem_cons.1 hx with hx | hx
      · exact absurd hx.symm (ho x)
      · exact k1 x hx

theorem inhDeep_step (hwf : C.WF) {x p : Sid} (hx : x < C.n) (hp : C.parent x = some p) (h : C.inhDeep p = true) : C.inhDeep x = true := by
  unfold inhDeep at h ⊢
  have : C.ancestors x = p :: C.ancestors p := ancestors_some hwf hx hp
  rw [this, List.any_cons, h]
  simp

/-- Inside a region of a state with deep history at most one innermost state is active. -/
theorem deep_unique (hwf : C.WF) {act : Sid → Bool} (hf : Forest C act) : ∀ (k : Nat) {c : Sid} {x y : Sid}, C.n - c ≤ k → c < C.n → C.inhDeepCtx (C.parent c) = true → act x = true → act y = true →
    C.isLeaf x = true → C.isLeaf y = true → Below C c x → Below C c y → x = y := by
  intro k
  induction k with
  | zero => intro c x y hk hc; omega
  | succ k ih =>
    intro c x y hk hc hd hx hy lx ly bx by'
    have leaf : ∀ {z w : Sid}, C.isLeaf z = true → act w = true → C.parent w = some z → False := by
      intro z w hz hw hp
      have := hwf.pos_lt (hf.bound w hw)
      rw [hp] at this
      simp [isLeaf] at hz
      simp [regions, hz] at this
    rcases bx.child with rfl | ⟨w, h1, h2⟩
    · rcases by'.child with rfl | ⟨w', k1, k2⟩
      · rfl
      · exact (leaf lx (hf.below k2 hy) k1).elim
    · rcases by'.child with rfl | ⟨w', k1, k2⟩
      · exact (leaf ly (hf.below h2 hx) h1).elim
      · have hw := hf.below h2 hx
        have hw' := hf.below k2 hy
        have hone := hwf.deep_one hc hd
        have p1 := hwf.pos_lt (hf.bound w hw)
        have p2 := hwf.pos_lt (hf.bound w' hw')
        rw [h1] at p1
        rw [k1] at p2
        simp only [regions] at p1 p2
        have : w = w' := hf.region w w' hw hw' (by rw [h1, k1]) (by omega)
        subst this
        have hlt := hwf.parent_lt (hf.bound w hw) h1
        refine ih (c := w) (by omega) (hf.bound w hw) ?_ hx hy lx ly h2 k2
        rw [h1]
        cases hp : C.parent c with
        | none => rw [hp] at hd; cases hd
        | some p => rw [hp] at hd; exact inhDeep_step hwf hc hp hd

theorem inhDeep_self {p : Sid} (h : C.deepH p = true) : C.inhDeep p = true := by
  unfold inhDeep; simp [h]

/-- If user code clears no history, what is remembered after some states were exited does not depend on the order of the exits. -/
theorem MemRun.same (hwf : C.WF) {act : Sid → Bool} (hf : Forest C act) {h h1 h2 : Memory} {obs1 obs2 : List Obs}
    (r1 : MemRun C (fun a b => a = b) h obs1 h1) (r2 : MemRun C (fun a b => a = b) h obs2 h2)
    (ha : ∀ x, .exit x ∈ obs1 → act x = true) (hs : ∀ x, .exit x ∈ obs1 ↔ .exit x ∈ obs2) : SameHist h1 h2 := by
  have hb1 : ∀ x, .exit x ∈ obs1 → x < C.n := fun x hx => hf.bound x (ha x hx)
  have hb2 : ∀ x, .exit x ∈ obs2 → x < C.n := fun x hx => hb1 x ((hs x).2 hx)
  constructor
  · funext p i
    rcases r1.sh_last p i hb1 with ⟨x, k1, k2, k3⟩ | ⟨k1, k2⟩
    · rcases r2.sh_last p i hb2 with ⟨y, g1, g2, g3⟩ | ⟨g1, g2⟩
      · have : x = y := hf.region x y (ha x k1) (ha y ((hs y).2 g1)) (by rw [k2.1, g2.1]) (by rw [k2.2.2, g2.2.2])
        rw [k3, g3, this]
      · exact absurd k2 (g1 x ((hs x).1 k1))
    · rcases r2.sh_last p i hb2 with ⟨y, g1, g2, g3⟩ | ⟨g1, g2⟩
      · exact absurd g2 (k1 y ((hs y).2 g1))
      · rw [k2, g2]
  · funext p i
    rcases r1.dh_last p i hb1 with ⟨x, k1, k2, k3⟩ | ⟨k1, k2⟩
    · rcases r2.dh_last p i hb2 with ⟨y, g1, g2, g3⟩ | ⟨g1, g2⟩
      · obtain ⟨u1, u2, c, u3, u4, u5⟩ := k2
        obtain ⟨v1, _, c', v3, v4, v5⟩ := g2
        have hx := ha x k1
        have hy := ha y ((hs y).2 g1)
        have : c = c' := hf.region c c' (hf.below u4 hx) (hf.below v4 hy) (by rw [u3, v3]) (by rw [u5, v5])
        subst this
        have : x = y := deep_unique hwf hf _ (Nat.le_refl _) (hf.bound c (hf.below u4 hx)) (by rw [u3]; exact inhDeep_self u2) hx hy u1 v1 u4 v4
        rw [k3, g3, this]
      · exact absurd k2 (g1 x ((hs x).1 k1))
    · rcases r2.dh_last p i hb2 with ⟨y, g1, g2, g3⟩ | ⟨g1, g2⟩
      · exact absurd g2 (k1 y ((hs y).2 g1))
      · rw [k2, g2]

/-! ## What is entered is determined by what is remembered -/

theorem Enters.eq_mem {h h' : Memory} {g : Goal} {l : List Sid} (he : Enters C (fun a b => a = b) h g l h') : h' = h := by
  induction he with
  | tree hf _ ih => rw [ih, hf]
  | rnil => rfl
  | rcons _ _ ih1 ih2 => rw [ih2, ih1]
  | plain _ ih => exact ih
  | shallow _ _ _ ih => exact ih
  | shallowDefault _ _ _ ih => exact ih
  | deep _ _ _ ih => exact ih
  | deepDefault _ _ _ ih => exact ih
  | here _ _ ih => exact ih
  | via _ _ _ hf _ _ _ ih1 ih2 ih3 => rw [ih3, ih2, ih1, hf]

/-- The goal is about states of the chart. -/
def Goal.InChart (C : Chart) : Goal → Prop
  | .tree s => s < C.n
  | .target t => t.st < C.n
  | .down _ t => t.st < C.n
  | .regions ts => ∀ t ∈ ts, t.st < C.n

theorem init_inChart (hwf : C.WF) {s : Sid} (hs : s < C.n) {t : Target} (ht : t ∈ C.init s) : t.st < C.n := by
  obtain ⟨i, hi⟩ := List.getElem?_of_mem ht
  exact (hwf.init_ok hs hi).1

theorem Enters.det (hwf : C.WF) {h g' : Memory} {g : Goal} {l : List Sid} (he : Enters C (fun a b => a = b) h g l g') :
    ∀ {h2 g2 : Memory} {l2 : List Sid}, SameHist h h2 → MemOK C h → g.InChart C → Enters C (fun a b => a = b) h2 g l2 g2 → l = l2 := by
  induction he with
  | @tree h h1 h2 s l hf _ ih =>
    intro k k' l2 hs hm hg hk
    cases hk with
    | tree hf' hk' => subst hf; subst hf'; rw [ih hs hm (fun t ht => init_inChart hwf hg ht) hk']
  | rnil => intro k k' l2 hs hm hg hk; cases hk; rfl
  | @rcons h h1 h2 t ts l l' e1 _ ih1 ih2 =>
    intro k k' l2 hs hm hg hk
    cases hk with
    | rcons k1 k2 =>
      have a1 := e1.eq_mem
      have a2 := k1.eq_mem
      subst a1; subst a2
      rw [ih1 hs hm (hg t (by simp)) k1, ih2 hs hm (fun t ht => hg t (by simp [ht])) k2]
  | plain _ ih =>
    intro k k' l2 hs hm hg hk
    cases hk with
    | plain hk => exact ih hs hm hg hk
  | @shallow h h1 d p c l hp hc _ ih =>
    intro k k' l2 hs hm hg hk
    cases hk with
    | shallow hp' hc' hk =>
      rw [hp] at hp'; cases hp'
      rw [← hs.1, hc] at hc'; cases hc'
      exact ih hs hm (hm.sh _ _ _ hc).1 hk
    | shallowDefault hp' hc' _ =>
      rw [hp] at hp'; cases hp'
      rw [← hs.1, hc] at hc'; cases hc'
  | @shallowDefault h h1 d p l hp hc _ ih =>
    intro k k' l2 hs hm hg hk
    cases hk with
    | shallow hp' hc' hk =>
      rw [hp] at hp'; cases hp'
      rw [← hs.1, hc] at hc'; cases hc'
    | shallowDefault hp' hc' hk => exact ih hs hm hg hk
  | @deep h h1 d p c l hp hc _ ih =>
    intro k k' l2 hs hm hg hk
    cases hk with
    | deep hp' hc' hk =>
      rw [hp] at hp'; cases hp'
      rw [← hs.2, hc] at hc'; cases hc'
      exact ih hs hm (hm.dh _ _ _ hc).1 hk
    | deepDefault hp' hc' _ =>
      rw [hp] at hp'; cases hp'
      rw [← hs.2, hc] at hc'; cases hc'
  | @deepDefault h h1 d p l hp hc _ ih =>
    intro k k' l2 hs hm hg hk
    cases hk with
    | deep hp' hc' hk =>
      rw [hp] at hp'; cases hp'
      rw [← hs.2, hc] at hc'; cases hc'
    | deepDefault hp' hc' hk => exact ih hs hm hg hk
  | @here h h1 c d l hp _ ih =>
    intro k k' l2 hs hm hg hk
    cases hk with
    | here _ hk => exact ih hs hm hg hk
    | @via _ _ _ _ _ _ _ x y _ _ _ k1 k2 k3 _ _ _ _ =>
      exfalso
      have ho : Outer C x d.st := Outer.trans_below ⟨x, k2, .refl⟩ k3
      have : x = d.st := Below.sibling hwf hg ho.below .refl (by rw [k1, hp])
      rw [this] at ho
      exact Outer.irrefl hwf hg ho
  | @via h h1 h2 h3 h4 c d x y l1 l2 l3 j1 j2 j3 hf e1 e2 _ ih1 ih2 ih3 =>
    intro k k' l2' hs hm hg hk
    have ho : Outer C x d.st := Outer.trans_below ⟨x, j2, .refl⟩ j3
    cases hk with
    | here hp _ =>
      exfalso
      have : x = d.st := Below.sibling hwf hg ho.below .refl (by rw [j1, hp])
      rw [this] at ho
      exact Outer.irrefl hwf hg ho
    | @via _ _ _ _ _ _ _ x' y' _ _ _ k1 k2 k3 kf f1 f2 f3 =>
      have ho' : Outer C x' d.st := Outer.trans_below ⟨x', k2, .refl⟩ k3
      have : x = x' := Below.sibling hwf hg ho.below ho'.below (by rw [j1, k1])
      subst this
      have : y = y' := Below.sibling hwf hg j3 k3 (by rw [j2, k2])
      subst this
      have hx : x < C.n := ho.below.bound hwf hg
      subst hf; subst kf
      have a1 := e1.eq_mem
      have a2 := f1.eq_mem
      have a3 := e2.eq_mem
      have a4 := f2.eq_mem
      subst a1; subst a2; subst a3; subst a4
      rw [ih1 hs hm (fun t ht => init_inChart hwf hx (List.mem_of_mem_take ht)) f1, ih2 hs hm hg f2,
        ih3 hs hm (fun t ht => init_inChart hwf hx (List.mem_of_mem_drop ht)) f3]

theorem MemRun.mono {F G : Memory → Memory → Prop} (hFG : ∀ a b, F a b → G a b) {h h' : Memory} {obs : List Obs} (hr : MemRun C F h obs h') : MemRun C G h obs h' := by
  induction hr with
  | nil hf => exact .nil (hFG _ _ hf)
  | exit hf h1 _ ih => exact .exit (hFG _ _ hf) h1 ih
  | other ho _ ih => exact .other ho ih

theorem Enters.mono {F G : Memory → Memory → Prop} (hFG : ∀ a b, F a b → G a b) {h h' : Memory} {g : Goal} {l : List Sid} (he : Enters C F h g l h') : Enters C G h g l h' := by
  induction he with
  | tree hf _ ih => exact .tree (hFG _ _ hf) ih
  | rnil => exact .rnil
  | rcons _ _ ih1 ih2 => exact .rcons ih1 ih2
  | plain _ ih => exact .plain ih
  | shallow h1 h2 _ ih => exact .shallow h1 h2 ih
  | shallowDefault h1 h2 _ ih => exact .shallowDefault h1 h2 ih
  | deep h1 h2 _ ih => exact .deep h1 h2 ih
  | deepDefault h1 h2 _ ih => exact .deepDefault h1 h2 ih
  | here h1 _ ih => exact .here h1 ih
  | via h1 h2 h3 hf _ _ _ ih1 ih2 ih3 => exact .via h1 h2 h3 (hFG _ _ hf) ih1 ih2 ih3

theorem eq_forget (a b : Memory) (h : a = b) : Forget a b := h ▸ Forget.preord.refl _

theorem exit_mem_exitObs {xs : List Sid} {x : Sid} : .exit x ∈ exitObs true xs ↔ x ∈ xs := by
  unfold exitObs
  simp only [List.mem_flatMap]
  constructor
  · rintro ⟨y, h1, h2⟩; simp at h2; rw [h2]; exact h1
  · intro h; exact ⟨x, h, by simp⟩

theorem exit_mem_acts {a : Option Nat} {x : Sid} : .exit x ∉ acts a := by cases a <;> simp [acts]

/-! ## What follows from the description of a relaxed transition -/

section
variable {s t : Sid} {d : Target} {q : Option Sid} {a : Option Nat} {k : Option Sid} {l1 l2 l : List Sid} {c c' : Conf} {obs : List Obs}

/-- Exactly the active states at or below `t` are exited, each once. -/
theorem RelaxedTransition.exits (h : RelaxedTransition C F s d q a k t l1 l2 l c obs c') :
    (∀ x, x ∈ l1 ++ l2 ↔ c.act x = true ∧ Below C t x) ∧ (l1 ++ l2).Nodup := by
  constructor
  · intro x
    rw [List.mem_append, h.first.mem, h.second.mem]
    constructor
    · rintro (⟨h1, _⟩ | ⟨h1, _⟩) <;> exact h1
    · intro h1
      by_cases hq : ∀ y, q = some y → Outer C y x
      · exact .inl ⟨h1, hq⟩
      · exact .inr ⟨h1, hq⟩
  · rw [List.nodup_append]
    refine ⟨h.first.nodup, h.second.nodup, ?_⟩
    rintro x hx y hy rfl
    exact ((h.second.mem x).1 hy).2 ((h.first.mem x).1 hx).2

/-- Inner states are exited before outer ones also when the action runs in between. -/
theorem RelaxedTransition.inner_first (hwf : C.WF) (hf : Forest C c.act) (h : RelaxedTransition C F s d q a k t l1 l2 l c obs c') :
    (l1 ++ l2).Pairwise fun x y => ¬ Outer C x y := by
  have key : ∀ {x y : Sid}, x < C.n → y < C.n → ExitsBefore C x y → ¬ Outer C x y := by
    intro x y hx hy hb ho
    rcases hb with hb | ⟨u, v, g1, g2, g3, g4⟩
    · exact Outer.irrefl hwf hx (ho.trans_below hb.below)
    · exact region_disjoint hwf hy g1 (by omega) (g3.trans ho.below) g4
  have hb1 : ∀ x ∈ l1, x < C.n := fun x hx => hf.bound x ((h.first.mem x).1 hx).1.1
  have hb2 : ∀ x ∈ l2, x < C.n := fun x hx => hf.bound x ((h.second.mem x).1 hx).1.1
  rw [List.pairwise_append]
  refine ⟨h.first.order.imp_of_mem fun hx hy => key (hb1 _ hx) (hb1 _ hy), h.second.order.imp_of_mem fun hx hy => key (hb2 _ hx) (hb2 _ hy), ?_⟩
  intro x hx y hy ho
  refine ((h.second.mem y).1 hy).2 fun z hz => ?_
  exact (((h.first.mem x).1 hx).2 z hz).trans_below ho.below

/-- The action runs while its context is alive and its inner states are gone. -/
theorem RelaxedTransition.action (hwf : C.WF) (hf : Forest C c.act) (hs : c.act s = true) {i : Nat} (ha : a = some i) (hq : ∀ y, q = some y → Below C y s)
    (h : RelaxedTransition C F s d q a k t l1 l2 l c obs c') :
    ∃ before after, obs = before ++ .act i :: after ∧ (∀ b, .act b ∉ before ∧ .act b ∉ after) ∧ (∀ x, .enter x ∉ before) ∧
      (∀ y, q = some y → before.foldl aliveStep c.act y = true) ∧
      (∀ x, before.foldl aliveStep c.act x = true ↔ c.act x = true ∧ ¬ (Below C t x ∧ ∀ y, q = some y → Outer C y x)) := by
  subst ha
  have hal : ∀ x, (exitObs true l1).foldl aliveStep c.act x = true ↔ c.act x = true ∧ ¬ (Below C t x ∧ ∀ y, q = some y → Outer C y x) := by
    intro x
    rw [alive_exitObs]
    simp only [Bool.and_eq_true, Bool.not_eq_true', List.contains_eq_mem, decide_eq_false_iff_not, h.first.mem]
    constructor
    · rintro ⟨h1, h2⟩; exact ⟨h1, fun hb => h2 ⟨⟨h1, hb.1⟩, hb.2⟩⟩
    · rintro ⟨h1, h2⟩; exact ⟨h1, fun hb => h2 ⟨hb.1.2, hb.2⟩⟩
  have hno : ∀ (xs : List Sid) (b : Nat), .act b ∉ exitObs true xs := by
    intro xs b
    unfold exitObs
    simp only [List.mem_flatMap]
    rintro ⟨y, _, h2⟩; simp at h2
  have hno' : ∀ (xs : List Sid) (b : Sid), .enter b ∉ exitObs true xs := by
    intro xs b
    unfold exitObs
    simp only [List.mem_flatMap]
    rintro ⟨y, _, h2⟩; simp at h2
  refine ⟨exitObs true l1, exitObs true l2 ++ enterObs l, by rw [h.seen]; simp [acts], ?_, ?_, ?_, hal⟩
  · intro b
    refine ⟨hno l1 b, fun hb => ?_⟩
    rcases List.mem_append.1 hb with hb | hb
    · exact hno l2 b hb
    · simp [enterObs] at hb
  · exact hno' l1
  · intro y hy
    have hyb := hq y hy
    refine (hal y).2 ⟨hf.below hyb hs, fun hn => ?_⟩
    exact Outer.irrefl hwf (hf.bound y (hf.below hyb hs)) (hn.2 y hy)

end
end SC.Spec

namespace SC
open Spec Chart
variable {W : Type} {P : Prog W} {m m' : Mach W} {K : KRel W}

theorem keeps_transitRelaxed_flag (s : Sid) (d : Target) (q : Option Sid) (a : Option Nat) : Keeps flagK (transitRelaxed P s d q a) :=
  fun _ => (flagPrims P).transitRelaxedAt (fun _ => keeps_fullExit_flag) s d q a

end SC

namespace SC
open Spec Chart
variable {W : Type} {P : Prog W} {m m' : Mach W}

/-- No user code clears history. -/
structure NeverClears (P : Prog W) : Prop where
  ctor : ∀ s v w c, c ∈ (P.ctor s v w).cmds → ∃ e, c = .post e
  exit : ∀ s v w c, c ∈ (P.exit s v w).cmds → ∃ e, c = .post e
  dtor : ∀ s v w c, c ∈ (P.dtor s v w).2 → ∃ e, c = .post e
  action : ∀ a v w c, c ∈ (P.action a v w).cmds → ∃ e, c = .post e
  react : ∀ s r e v w c, c ∈ (P.react s r e v w).1.cmds → ∃ e, c = .post e
  unconsumed : ∀ e v w c, c ∈ (P.unconsumed e v w).cmds → ∃ e, c = .post e

theorem posts_mem : ∀ (cs : List Cmd) (m : Mach W), (∀ c ∈ cs, ∃ e, c = .post e) → m.mem = (cs.foldl Mach.cmd m).mem := by
  intro cs
  induction cs with
  | nil => exact fun _ _ => rfl
  | cons c cs ih =>
    intro m h
    obtain ⟨e, rfl⟩ := h c (by simp)
    rw [List.foldl_cons, ← ih _ fun c hc => h c (by simp [hc])]
    rfl

theorem NeverClears.userMem (h : NeverClears P) : UserMem P (fun a b => a = b) :=
  ⟨eq_preord, fun _ _ _ _ => posts_mem _ _ (h.ctor _ _ _), fun _ _ _ _ => posts_mem _ _ (h.exit _ _ _), fun _ _ _ _ => posts_mem _ _ (h.dtor _ _ _),
    fun _ _ _ _ => posts_mem _ _ (h.action _ _ _), fun _ _ _ _ _ _ => posts_mem _ _ (h.react _ _ _ _ _), fun _ _ _ _ => posts_mem _ _ (h.unconsumed _ _ _)⟩

theorem mem_actionCtxs {C : Chart} (hwf : C.WF) {s : Sid} (hs : s < C.n) {q : Option Sid} (hq : ∀ y, q = some y → Below C y s) : q ∈ C.actionCtxs s := by
  unfold Chart.actionCtxs
  cases q with
  | none => simp [ctxList]
  | some y =>
    rcases (hq y rfl).eq_or_outer with rfl | ho
    · simp
    · refine List.mem_cons_of_mem _ ?_
      simp only [ctxList, List.mem_append, List.mem_map]
      exact .inl ⟨y, (mem_ancestors hwf hs).2 ho, rfl⟩

section
variable (hwf : P.toChart.WF) (hok : Contract P) {s : Sid} {d : Target} {q : Option Sid} {a : Option Nat} (hm : Stable P.toChart m) (hs : m.act s = true)
  (htr : P.transitOK s d a = true) (hq : ∀ y, q = some y → Below P.toChart y s)
include hwf hok hm hs htr hq

theorem relaxed_is_transition {F : Memory → Memory → Prop} (hF : UserMem P F) (hG : ∀ a b, F a b → Forget a b) (hr : transitRelaxed P s d q a m = .ok () m') :
    Stable P.toChart m' ∧ ∃ k t l1 l2 l obs, m'.trace = m.trace ++ tag m.trig obs ∧ RelaxedTransition P.toChart F s d q a k t l1 l2 l m.conf obs m'.conf := by
  have hou : OUBelow P.toChart s m := by intro u hu; rw [hm.pOU] at hu; cases hu
  obtain ⟨hsn, hdn, t, ht, hpos⟩ := transitOK_spec htr
  obtain ⟨⟨t', l1, l2, l, h1⟩, hk⟩ := wp_ok (wp_keeps (transitRelaxed_wp hwf hok hF (a := a) htr (mem_actionCtxs hwf hsn hq) hm.inv hs hou) (keeps_transitRelaxed_flag s d q a m)) hr
  have := h1.term
  rw [ht] at this; cases this
  obtain ⟨t'', g1, g2, g3⟩ := termState_spec hwf hsn hdn.bound
  rw [ht] at g1; cases g1
  have hpath := pathBelow_path hwf hdn.bound (commonCtx_spec hwf hsn hdn.bound).2.1
  obtain ⟨h2, k1, k2⟩ := h1.mem
  have htr' := h1.trace
  have hfst := h1.leaves.first
  have hsnd := h1.leaves.rest
  rw [hm.fullExit] at k1 htr'
  have hm2 : MemOK P.toChart h2 := by
    refine (k1.mono hG).memOK (hm.inv.memOK hwf) fun x hx => ?_
    rcases List.mem_append.1 hx with hx | hx
    · rcases List.mem_append.1 hx with hx | hx
      · exact hm.inv.forest.bound x ((hfst.mem x).1 (exit_mem_exitObs.1 hx)).1.1
      · exact absurd hx exit_mem_acts
    · exact hm.inv.forest.bound x ((hsnd.mem x).1 (exit_mem_exitObs.1 hx)).1.1
  obtain ⟨j1, _⟩ := k2.fills hwf (fun a b hab hma => hma.forget (hG a b hab)) (ctx := P.commonCtx s d.st) (lo := P.pos t) (hi := P.pos t + 1)
    ⟨hdn.bound, rfl, _, hpath.head, hpath.head_below, hpos, rfl⟩ hm2
  refine ⟨⟨h1.inv, h1.pOU, ?_, by rw [h1.fullExit, hm.fullExit], hk.flags hm.inv hm.flags⟩, _, t, l1, l2, l, _, htr',
    ⟨commonCtx_common hwf hsn hdn.bound, ⟨g2, g3⟩, rfl, hfst, hsnd, j1, fun x h1 h2 h3 => k2.path hwf rfl hdn.bound x h1 h2 h3, h1.act, h2, k1, k2⟩⟩
  intro h; rw [h1.ico] at h; cases h

/-- C37: a transition whose action is a member of the source state or of one of its contexts `q` (the machine: `none`) and that ends normally: with `k` the
innermost common context of source and destination and `t` the direct inner state of `k` that contains the source,
* the states exited are exactly the active states at or below `t`, each once, inner states before outer ones; they are destroyed, the other active states stay;
* the action runs exactly once, after the states strictly inside `q` that are exited at all, before the others, and before all entries; `q` is alive then, and
  the states alive are exactly the active ones that are not both at or below `t` and strictly inside `q`;
* the entries come last and are as in the default configuration (`C08_transit`); the machine is stable afterwards. -/
theorem C37_relaxed_transition (hr : transitRelaxed P s d q a m = .ok () m') :
    ∃ (k : Option Sid) (t : Sid) (l1 l2 l : List Sid), CommonCtx P.toChart s d.st k ∧ P.parent t = k ∧ Below P.toChart t s ∧
    m'.trace = m.trace ++ tag m.trig ((l1.flatMap fun x => [.exit x, .destroy x]) ++ acts a ++ (l2.flatMap fun x => [.exit x, .destroy x]) ++ l.map .enter) ∧
    (∀ x, x ∈ l1 ++ l2 ↔ m.act x = true ∧ Below P.toChart t x) ∧ (l1 ++ l2).Nodup ∧ ((l1 ++ l2).Pairwise fun x y => ¬ Outer P.toChart x y) ∧
    l1.Pairwise (ExitsBefore P.toChart) ∧ l2.Pairwise (ExitsBefore P.toChart) ∧
    (∀ x ∈ l1, ∀ y, q = some y → Outer P.toChart y x) ∧ (∀ x ∈ l2, ∃ y, q = some y ∧ ¬ Outer P.toChart y x) ∧
    (∀ i, a = some i → ∃ before after : List Obs, m'.trace = m.trace ++ tag m.trig (before ++ .act i :: after) ∧ (∀ b, .act b ∉ before ∧ .act b ∉ after) ∧ (∀ x, .enter x ∉ before) ∧
      (∀ y, q = some y → before.foldl aliveStep m.act y = true) ∧
      (∀ x, before.foldl aliveStep m.act x = true ↔ m.act x = true ∧ ¬ (Below P.toChart t x ∧ ∀ y, q = some y → Outer P.toChart y x))) ∧
    l.Pairwise (EntersBefore P.toChart) ∧ l.Nodup ∧
    (∀ x, Below P.toChart x d.st → (d.kind = .plain ∨ x ≠ d.st) → (∀ p, k = some p → Outer P.toChart p x) → x ∈ l) ∧
    (∀ x ∈ l, ∃ y ∈ l, P.parent y = k ∧ P.pos y = P.pos t ∧ Below P.toChart y x) ∧
    (∀ x ∈ l, ∀ i, i < P.regions (some x) → ∃ y ∈ l, P.parent y = some x ∧ P.pos y = i) ∧
    (∀ x ∈ l, ∀ y ∈ l, P.parent x = P.parent y → P.pos x = P.pos y → x = y) ∧
    (∀ x, m'.act x = true ↔ (m.act x = true ∧ ¬ Below P.toChart t x) ∨ x ∈ l) ∧
    (PlainInit P.toChart → d.kind = .plain → ∃ p, DownPath P.toChart k d.st p ∧ l = pathTree P.toChart p) ∧
    Stable P.toChart m' := by
  obtain ⟨h1, k, t, l1, l2, l, obs, h2, h3⟩ := relaxed_is_transition hwf hok hm hs htr hq (userMem_forget P) (fun _ _ h => h) hr
  have hf := hm.inv.forest
  refine ⟨k, t, l1, l2, l, h3.common, h3.top.1, h3.top.2, ?_, h3.exits.1, h3.exits.2, h3.inner_first hwf hf, h3.first.order, h3.second.order, ?_, ?_, ?_, h3.entered.order,
    h3.entered.nodup hwf, h3.path, ?_, h3.entered.filled, h3.entered.uniq, h3.after, ?_, h1⟩
  · rw [h2, h3.seen]; rfl
  · exact fun x hx => ((h3.first.mem x).1 hx).2
  · intro x hx
    have := ((h3.second.mem x).1 hx).2
    apply Classical.byContradiction
    intro hno
    refine this fun y hy => Classical.byContradiction fun ho => hno ⟨y, hy, ho⟩
  · intro i hi
    obtain ⟨b, af, g1, g2, g3, g4, g5⟩ := h3.action hwf hf hs hi hq
    exact ⟨b, af, by rw [h2, g1], g2, g3, g4, g5⟩
  · intro x hx
    obtain ⟨y, g1, g2, g3, g4, g5⟩ := h3.entered.under x hx
    exact ⟨y, g1, g2, by omega, g5⟩
  · intro hp hk
    obtain ⟨g, _, g2⟩ := h3.mem
    have hdl : d.st ∈ l := h3.path d.st .refl (.inl hk) fun p hp => (h3.common.outer p hp).2
    obtain ⟨y, _, k1, k2, k3, k4⟩ := h3.entered.under d.st hdl
    exact g2.plain_default hwf hp hk (ctx := k) (lo := P.pos t) (hi := P.pos t + 1) ⟨(transitOK_spec htr).2.1.bound, rfl, y, k1, k4, by omega, rfl⟩

/-- C37: such a transition never goes wrong: it ends normally or throws; if it throws, an exception event can be dispatched or the machine is
terminated, or (the action of an innermost state threw before any exit) nothing was exited. -/
theorem C37_relaxed_throw : (∃ m', transitRelaxed P s d q a m = .ok () m') ∨
    ∃ x m', transitRelaxed P s d q a m = .thrown x m' ∧ Inv P.toChart noL none m' ∧
      ((m'.pOU ≠ none ∨ ∀ y, m'.act y = false) ∨ (m'.act = m.act ∧ m'.leaves = m.leaves ∧ m'.pOU = none)) := by
  have hou : OUBelow P.toChart s m := by intro u hu; rw [hm.pOU] at hu; cases hu
  obtain ⟨hsn, _⟩ := transitOK_spec htr
  have h := transitRelaxed_wp hwf hok (userMem_forget P) (a := a) htr (mem_actionCtxs hwf hsn hq) hm.inv hs hou
  cases hr : transitRelaxed P s d q a m with
  | ok u m1 => exact .inl ⟨m1, rfl⟩
  | fault f => unfold wp at h; rw [hr] at h; exact h.elim
  | thrown x m1 =>
    have h1 : RelaxFailed P.toChart q a m m1 := by unfold wp at h; rw [hr] at h; exact h.1
    refine .inr ⟨x, m1, rfl, h1.inv, ?_⟩
    rcases h1.kind with hk | hk
    · exact .inl hk
    · exact .inr ⟨hk.act, by unfold Mach.leaves; rw [hk.slot, hk.endIx], by rw [hk.pOU, hm.pOU]⟩

/-- C37: the exited states are those of the default configuration. Without histories, or if user code clears no history, the entered states
and hence the states active afterwards are the same too, and in the latter case the same states are remembered. -/
theorem C37_same_as_default {m1 m2 : Mach W} (h1 : transitDefault P s d a m = .ok () m1) (h2 : transitRelaxed P s d q a m = .ok () m2) :
    ∃ (xs l1 l2 l l' : List Sid),
      m1.trace = m.trace ++ tag m.trig ((xs.flatMap fun x => [.exit x, .destroy x]) ++ acts a ++ l.map .enter) ∧
      m2.trace = m.trace ++ tag m.trig ((l1.flatMap fun x => [.exit x, .destroy x]) ++ acts a ++ (l2.flatMap fun x => [.exit x, .destroy x]) ++ l'.map .enter) ∧
      (l1 ++ l2).Perm xs ∧
      ((PlainInit P.toChart ∧ d.kind = .plain) ∨ NeverClears P → l' = l ∧ m2.act = m1.act) ∧
      (NeverClears P → SameHist m1.mem m2.mem) := by
  have hf := hm.inv.forest
  have hsn := hf.bound s hs
  have hdn := (transitOK_spec htr).2.1.bound
  -- the descriptions of both transitions, for every bound on what user code does to the memory
  have key : ∀ (F : Memory → Memory → Prop), UserMem P F → (∀ a b, F a b → Forget a b) → ∃ k t xs l l1 l2 l',
      m1.trace = m.trace ++ tag m.trig (exitObs true xs ++ acts a ++ enterObs l) ∧
      m2.trace = m.trace ++ tag m.trig (exitObs true l1 ++ acts a ++ exitObs true l2 ++ enterObs l') ∧
      CommonCtx P.toChart s d.st k ∧ P.parent t = k ∧ Below P.toChart t s ∧
      ExitList P.toChart (fun x => m.act x = true ∧ Below P.toChart t x) xs ∧
      (∀ x, x ∈ l1 ++ l2 ↔ m.act x = true ∧ Below P.toChart t x) ∧ (l1 ++ l2).Nodup ∧
      (∀ x, m1.act x = true ↔ (m.act x = true ∧ ¬ Below P.toChart t x) ∨ x ∈ l) ∧
      (∀ x, m2.act x = true ↔ (m.act x = true ∧ ¬ Below P.toChart t x) ∨ x ∈ l') ∧
      (∃ h, MemRun P.toChart F m.mem (exitObs true xs ++ acts a) h ∧ Enters P.toChart F h (.down k d) l m1.mem) ∧
      (∃ h, MemRun P.toChart F m.mem (exitObs true l1 ++ acts a ++ exitObs true l2) h ∧ Enters P.toChart F h (.down k d) l' m2.mem) := by
    intro F hF hG
    have hou : OUBelow P.toChart s m := by intro u hu; rw [hm.pOU] at hu; cases hu
    obtain ⟨t, l, g1⟩ := wp_ok (transitDefault_wp hwf hok hF (a := a) htr hm.inv hs hou) h1
    obtain ⟨t', g2, k2, k3⟩ := termState_spec hwf hsn hdn
    rw [g1.term] at g2; cases g2
    have k1 := commonCtx_common hwf hsn hdn
    have hxl := hf.exitList hwf (hf.below k3 hs)
    obtain ⟨hh, k5, k6⟩ := g1.mem
    have g2 := g1.trace
    rw [exits_eq, enters_eq, hm.fullExit] at g2
    rw [exits_eq, map_snd, hm.fullExit] at k5
    generalize P.commonCtx s d.st = k at *
    obtain ⟨_, k', t', l1, l2, l', obs', j1, j2⟩ := relaxed_is_transition hwf hok hm hs htr hq hF hG h2
    have hkk := k1.unique hwf hsn j2.common
    subst hkk
    have htt : t = t' := Below.sibling hwf hsn k3 j2.top.2 (by rw [k2, j2.top.1])
    subst htt
    obtain ⟨e1, e2⟩ := j2.exits
    exact ⟨k, t, _, l, l1, l2, l', by rw [g2]; simp [tag], by rw [j1, j2.seen], k1, k2, k3, hxl, e1, e2, g1.act, j2.after, ⟨hh, k5, k6⟩, j2.mem⟩
  have hperm : ∀ {t : Sid} {xs l1 l2 : List Sid}, ExitList P.toChart (fun x => m.act x = true ∧ Below P.toChart t x) xs →
      (∀ x, x ∈ l1 ++ l2 ↔ m.act x = true ∧ Below P.toChart t x) → (l1 ++ l2).Nodup → (l1 ++ l2).Perm xs := by
    intro t xs l1 l2 hx hy hn
    exact (List.perm_ext_iff_of_nodup hn hx.nodup).2 fun x => by rw [hy, hx.mem]
  have hact : ∀ {t : Sid} {l l' : List Sid}, l' = l → (∀ x, m1.act x = true ↔ (m.act x = true ∧ ¬ Below P.toChart t x) ∨ x ∈ l) →
      (∀ x, m2.act x = true ↔ (m.act x = true ∧ ¬ Below P.toChart t x) ∨ x ∈ l') → m2.act = m1.act := by
    intro t l l' hl u1 u2
    funext x
    rw [Bool.eq_iff_iff, u1, u2, hl]
  by_cases hnc : NeverClears P
  · obtain ⟨k, t, xs, l, l1, l2, l', a1, a2, a3, a4, a5, a6, a7, a8, a9, a10, ⟨g, a11, a12⟩, ⟨g', a13, a14⟩⟩ := key _ hnc.userMem eq_forget
    have hsame : SameHist g g' := by
      refine MemRun.same hwf hf a11 a13 ?_ ?_
      · intro x hx
        rcases List.mem_append.1 hx with hx | hx
        · exact ((a6.mem x).1 (exit_mem_exitObs.1 hx)).1
        · exact absurd hx exit_mem_acts
      · intro x
        have := a7 x
        simp only [List.mem_append, exit_mem_exitObs, exit_mem_acts, or_false] at this ⊢
        rw [this, a6.mem]
    have hmg : MemOK P.toChart g := by
      refine (a11.mono eq_forget).memOK (hm.inv.memOK hwf) fun x hx => ?_
      rcases List.mem_append.1 hx with hx | hx
      · exact hf.bound x ((a6.mem x).1 (exit_mem_exitObs.1 hx)).1
      · exact absurd hx exit_mem_acts
    have hll : l' = l := (a12.det hwf hsame hmg hdn a14).symm
    have e1 := a12.eq_mem
    have e2 := a14.eq_mem
    exact ⟨xs, l1, l2, l, l', a1, a2, hperm a6 a7 a8, fun _ => ⟨hll, hact hll a9 a10⟩, fun _ => by rw [e1, e2]; exact hsame⟩
  · obtain ⟨k, t, xs, l, l1, l2, l', a1, a2, a3, a4, a5, a6, a7, a8, a9, a10, ⟨g, a11, a12⟩, ⟨g', a13, a14⟩⟩ := key _ (userMem_forget P) fun _ _ h => h
    refine ⟨xs, l1, l2, l, l', a1, a2, hperm a6 a7 a8, ?_, fun h => absurd h hnc⟩
    rintro (⟨hp, hk⟩ | h)
    · have e1 := a12.plainMem hp noMemory hk
      have e2 := a14.plainMem hp noMemory hk
      have hll : l' = l := (e1.det hwf ⟨rfl, rfl⟩ ⟨fun _ _ _ h => absurd h (by simp [noMemory]), fun _ _ _ h => absurd h (by simp [noMemory])⟩ hdn e2).symm
      exact ⟨hll, hact hll a9 a10⟩
    · exact absurd h hnc

end
end SC

/-! ## The hypotheses can be met -/

namespace SC.Ex
open Spec Chart

theorem neverClears : NeverClears prog := by
  refine ⟨?_, ?_, ?_, ?_, ?_, ?_⟩
  · intro s v w c hc; simp [prog] at hc
  · intro s v w c hc; simp [prog] at hc
  · intro s v w c hc
    have : c ∈ (if s = 7 then [Cmd.post ⟨20, 0⟩] else []) := hc
    split at this
    · simp only [List.mem_singleton] at this; exact ⟨_, this⟩
    · simp at this
  · intro s v w c hc; simp [prog] at hc
  · intro s r e v w c hc
    have : c ∈ (if w = 5 then [Cmd.post ⟨1, 0⟩, .post ⟨4, 0⟩] else []) := hc
    split at this
    · simp only [List.mem_cons, List.not_mem_nil, or_false] at this
      rcases this with h | h <;> exact ⟨_, h⟩
    · simp at this
  · intro e v w c hc; simp [prog] at hc

/-- The observations after the first `k`. -/
def obsAfter {W α : Type} (m : Mach W) : Res W α → List Obs
  | .ok _ m' => (m'.trace.drop m.trace.length).map (·.2)
  | _ => []

/-- A transition from D (3) to A (0), which leaves A and both of its regions, with the action in D, B, A and the machine; the default
configuration exits the same states, in another order. -/
example : ∃ m : Mach Nat, Stable prog.toChart m ∧ m.act 3 = true ∧ prog.transitOK 3 ⟨.plain, 0⟩ (some 7) = true ∧
    (∀ y : Sid, y = 3 ∨ y = 1 ∨ y = 0 → Below prog.toChart y 3) ∧
    (∀ q ∈ [some 3, some 1, some 0, none], ∃ m', transitRelaxed prog 3 ⟨.plain, 0⟩ q (some 7) m = .ok () m') ∧
    obsAfter m (transitRelaxed prog 3 ⟨.plain, 0⟩ (some 1) (some 7) m) =
      [.exit 3, .destroy 3, .act 7, .exit 6, .destroy 6, .exit 5, .destroy 5, .exit 4, .destroy 4, .exit 1, .destroy 1, .exit 0, .destroy 0,
        .enter 0, .enter 1, .enter 3, .enter 4, .enter 5, .enter 6] ∧
    obsAfter m (transitDefault prog 3 ⟨.plain, 0⟩ (some 7) m) =
      [.exit 6, .destroy 6, .exit 5, .destroy 5, .exit 4, .destroy 4, .exit 3, .destroy 3, .exit 1, .destroy 1, .exit 0, .destroy 0, .act 7,
        .enter 0, .enter 1, .enter 3, .enter 4, .enter 5, .enter 6] := by
  obtain ⟨m, h1, h2⟩ := scenario_ex (P := prog) [(0, .initiate 0), (0, .process ⟨1, 0⟩ 0)] 0
    (fun m => m.act 3 && ([some 3, some 1, some 0, none].all fun q => isOk (transitRelaxed prog 3 ⟨.plain, 0⟩ q (some 7) m)) &&
      (obsAfter m (transitRelaxed prog 3 ⟨.plain, 0⟩ (some 1) (some 7) m) ==
      [.exit 3, .destroy 3, .act 7, .exit 6, .destroy 6, .exit 5, .destroy 5, .exit 4, .destroy 4, .exit 1, .destroy 1, .exit 0, .destroy 0,
        .enter 0, .enter 1, .enter 3, .enter 4, .enter 5, .enter 6]) && (obsAfter m (transitDefault prog 3 ⟨.plain, 0⟩ (some 7) m) ==
      [.exit 6, .destroy 6, .exit 5, .destroy 5, .exit 4, .destroy 4, .exit 3, .destroy 3, .exit 1, .destroy 1, .exit 0, .destroy 0, .act 7,
        .enter 0, .enter 1, .enter 3, .enter 4, .enter 5, .enter 6])) (by decide +kernel)
  simp only [Bool.and_eq_true, List.all_eq_true, beq_iff_eq] at h2
  refine ⟨m, (h1.stable wf contract).1, h2.1.1.1, by decide, ?_, ?_, h2.1.2, h2.2⟩
  · have b1 : Below prog.toChart 1 3 := .step (show prog.parent 3 = some 1 from rfl) .refl
    have b0 : Below prog.toChart 0 3 := .step (show prog.parent 3 = some 1 from rfl) (.step (show prog.parent 1 = some 0 from rfl) .refl)
    rintro y (rfl | rfl | rfl)
    · exact .refl
    · exact b1
    · exact b0
  · intro q hq
    obtain ⟨_, m', h⟩ := of_isOk (h2.1.1.2 q hq)
    exact ⟨m', h⟩

/-- A throwing action: as a member of the innermost source state it runs before the exits. -/
example : ∃ m m' : Mach Nat, Stable prog.toChart m ∧ m.act 3 = true ∧ (∃ x, transitRelaxed prog 3 ⟨.plain, 0⟩ (some 3) (some 7) m = .thrown x m') ∧ m'.act 3 = true ∧ m'.act 6 = true ∧ m'.pOU = none := by
  obtain ⟨m, h1, h2⟩ := scenario_ex (P := prog) [(0, .initiate 0), (0, .process ⟨1, 0⟩ 0)] 3
    (fun m => m.act 3 && (match transitRelaxed prog 3 ⟨.plain, 0⟩ (some 3) (some 7) m with
      | .thrown _ m' => m'.act 3 && m'.act 6 && m'.pOU.isNone
      | _ => false)) (by decide +kernel)
  simp only [Bool.and_eq_true] at h2
  have hst := (h1.stable wf contract).1
  cases h3 : transitRelaxed prog 3 ⟨.plain, 0⟩ (some 3) (some 7) m with
  | ok a m' => rw [h3] at h2; cases h2.2
  | thrown x m' =>
    rw [h3] at h2
    simp only [Bool.and_eq_true, Option.isNone_iff_eq_none] at h2
    exact ⟨m, m', hst, h2.1, ⟨x, h3⟩, h2.2.1.1, h2.2.1.2, h2.2.2⟩
  | fault _ => rw [h3] at h2; cases h2.2

/-- The example program with an action that clears the shallow history of B. -/
def clearing : Prog Nat := { prog with
  action := fun _ _ w => { world := w, cmds := [.clearShallow (1, 0)] } }

/-- If an action clears history, the two configurations can enter different states: the default one forgets D after it was exited, the relaxed one before. -/
theorem C37_clearing_matters : ∃ m m1 m2 : Mach Nat, Stable clearing.toChart m ∧ m.act 3 = true ∧ transitDefault clearing 3 ⟨.plain, 0⟩ (some 0) m = .ok () m1 ∧
    transitRelaxed clearing 3 ⟨.plain, 0⟩ (some 3) (some 0) m = .ok () m2 ∧ m1.act 2 = true ∧ m2.act 2 = false := by
  obtain ⟨m, h1, h2⟩ := scenario_ex (P := clearing) [(0, .initiate 0), (0, .process ⟨1, 0⟩ 0)] 0
    (fun m => m.act 3 && (match transitDefault clearing 3 ⟨.plain, 0⟩ (some 0) m with
      | .ok _ m' => m'.act 2
      | _ => false) && (match transitRelaxed clearing 3 ⟨.plain, 0⟩ (some 3) (some 0) m with
      | .ok _ m' => !m'.act 2
      | _ => false)) (by decide +kernel)
  simp only [Bool.and_eq_true] at h2
  have hst := (h1.stable (P := clearing) wf ⟨contract.1, contract.2⟩).1
  obtain ⟨⟨h2, h4⟩, h5⟩ := h2
  cases h3 : transitDefault clearing 3 ⟨.plain, 0⟩ (some 0) m with
  | ok a m1 =>
    rw [h3] at h4
    cases h6 : transitRelaxed clearing 3 ⟨.plain, 0⟩ (some 3) (some 0) m with
    | ok b m2 =>
      rw [h6] at h5
      exact ⟨m, m1, m2, hst, h2, h3, h6, h4, by simpa using h5⟩
    | thrown _ _ => rw [h6] at h5; cases h5
    | fault _ => rw [h6] at h5; cases h5
  | thrown _ _ => rw [h3] at h4; cases h4
  | fault _ => rw [h3] at h4; cases h4

end SC.Ex
