import Verif.Construct
/-!
# Construction of state trees (`deep_construct`, `constructor<>`, history)
-/

namespace SC
open Spec Chart
variable {W : Type} {P : Prog W} {L : Sid → Nat} {m : Mach W} {F : Memory → Memory → Prop}

/-- Observations "entered", in order, under the triggering event `t`. -/
def enters (t : Option Event) (l : List Sid) : List (Option Event × Obs) := l.map fun s => (t, .enter s)

/-- Filling the regions `poss` of `ctx` settles `ctx`. -/
def critB (C : Chart) (ctx : Option Sid) (poss : List Nat) (m : Mach W) : Prop :=
  m.ico = true ∨ ((∃ i ∈ poss, i + 1 = C.regions ctx) ∧ m.pOU = ctx)

structure BPre (C : Chart) (L : Sid → Nat) (ctx : Option Sid) (poss : List Nat) (m : Mach W) : Prop where
  inv : Inv C L none m
  lock : ∀ p, ctx = some p → L p ≠ 0
  empty : ∀ c, (m.heap c).isSome → C.parent c = ctx → C.pos c ∉ poss
  ico : m.ico = true → m.pOU = ctx

/-- Region `i` of the state `x` is empty. -/
def EmptyAt (C : Chart) (act : Sid → Bool) (x : Sid) (i : Nat) : Prop :=
  i < C.regions (some x) ∧ ∀ c, C.parent c = some x → C.pos c = i → act c = false

structure BPost (C : Chart) (L : Sid → Nat) (ctx : Option Sid) (poss : List Nat)
    (R : Memory → List Sid → Memory → Prop) (m m' : Mach W) (l : List Sid) : Prop where
  inv : Inv C L none m'
  act : ∀ x, m'.act x = true ↔ m.act x = true ∨ x ∈ l
  trace : m'.trace = m.trace ++ enters m.trig l
  crit : critB C ctx poss m → m'.pOU = none
  ncrit : ¬ critB C ctx poss m → m'.pOU = m.pOU
  ico : m'.ico = false
  fullExit : m'.fullExit = m.fullExit
  trig : m'.trig = m.trig
  region : ∀ x ∈ l, ∃ c, C.parent c = ctx ∧ C.pos c ∈ poss ∧ Below C c x
  filled : ∀ i ∈ poss, ∃ c, m'.act c = true ∧ C.parent c = ctx ∧ C.pos c = i
  complete : ∀ x ∈ l, ∀ i, ¬ EmptyAt C m'.act x i
  mem : R m.mem l m'.mem

structure BThrow (C : Chart) (L : Sid → Nat) (ctx : Option Sid) (poss : List Nat) (m m' : Mach W) : Prop where
  inv : Inv C L none m'
  sub : ∀ x, m.act x = true → m'.act x = true
  crit : critB C ctx poss m → m'.pOU ≠ none ∨ ∀ x, m'.act x = false
  ncrit : ¬ critB C ctx poss m → m'.pOU = m.pOU
  fullExit : m'.fullExit = m.fullExit
  trig : m'.trig = m.trig
  ne : poss ≠ []
  fresh : FreshObs m m'
  region : ∀ x, m'.act x = true → m.act x = false → ∃ c, C.parent c = ctx ∧ C.pos c ∈ poss ∧ Below C c x
  cover : critB C ctx poss m → ∀ x i, m'.act x = true → m.act x = false → EmptyAt C m'.act x i →
    ∃ u, m'.pOU = some u ∧ Below C u x
  src : critB C ctx poss m → ∀ u, m'.pOU = some u →
    ∃ i, EmptyAt C m'.act u i ∧ (m.act u = false ∨ (ctx = some u ∧ i ∈ poss))
  inner : critB C ctx poss m → ∀ p i, ctx = some p → i ∈ poss → EmptyAt C m'.act p i → m'.pOU = some p

/-- What was built did not exist before. -/
theorem BPost.fresh {C : Chart} {ctx : Option Sid} {poss : List Nat} {R : Memory → List Sid → Memory → Prop} {m m' : Mach W} {l : List Sid}
    (hm : BPre C L ctx poss m) (h : BPost C L ctx poss R m m' l) : ∀ x ∈ l, m.act x = false := by
  intro x hx
  obtain ⟨c, h1, h2, h3⟩ := h.region x hx
  cases ha : m.act x with
  | false => rfl
  | true => exact absurd h2 (hm.empty c (hm.inv.live_of_below h3 ha) h1)

theorem BPost.freshObs {C : Chart} {ctx : Option Sid} {poss : List Nat} {R : Memory → List Sid → Memory → Prop} {m m' : Mach W} {l : List Sid}
    (hm : BPre C L ctx poss m) (h : BPost C L ctx poss R m m' l) : FreshObs m m' := by
  refine ⟨_, h.trace, ?_⟩
  intro e he x hx
  simp only [enters, List.mem_map] at he
  obtain ⟨s, hs, rfl⟩ := he
  cases hx
  exact h.fresh hm x hs

theorem FreshObs.trans {m m1 m2 : Mach W} (hs : ∀ x, m.act x = true → m1.act x = true) (h1 : FreshObs m m1) (h2 : FreshObs m1 m2) : FreshObs m m2 := by
  obtain ⟨o1, e1, g1⟩ := h1
  obtain ⟨o2, e2, g2⟩ := h2
  refine ⟨o1 ++ o2, by rw [e2, e1, List.append_assoc], ?_⟩
  intro e he x hx
  rcases List.mem_append.1 he with he | he
  · exact g1 e he x hx
  · have := g2 e he x hx
    cases ha : m.act x with
    | false => rfl
    | true => rw [hs x ha] at this; cases this

theorem EmptyAt.mono {C : Chart} {a a' : Sid → Bool} {x : Sid} {i : Nat} (h : EmptyAt C a x i) (hs : ∀ y, a' y = true → a y = true) : EmptyAt C a' x i := by
  refine ⟨h.1, fun c h1 h2 => ?_⟩
  cases ha : a' c with
  | false => rfl
  | true =>
    have := h.2 c h1 h2
    rw [hs c ha] at this; cases this

/-- The calls of an interrupted construction: the states `l` were entered, then the entry of `y` failed. Entered states outside
`y` may be destroyed again. `T` relates memory, `l` and `y`. -/
def BCut (C : Chart) (ctx : Option Sid) (poss : List Nat) (T : Memory → List Sid → Sid → Prop) (m m' : Mach W) : Prop :=
  ∃ l y tail l3, T m.mem l y ∧ NotEntered y tail ∧
    m'.trace = m.trace ++ (enters m.trig l ++ ((tail.map fun o => (m.trig, o)) ++ destroys m.trig l3)) ∧
    (∀ x ∈ l3, x ∈ l ∧ Below C x y) ∧ ∃ c, C.parent c = ctx ∧ C.pos c ∈ poss ∧ Below C c y

theorem BCut.weaken {C : Chart} {ctx : Option Sid} {poss poss' : List Nat} {T T' : Memory → List Sid → Sid → Prop} {m m' : Mach W}
    (h : BCut C ctx poss T m m') (hT : ∀ l y, T m.mem l y → T' m.mem l y) (hp : ∀ i ∈ poss, i ∈ poss') : BCut C ctx poss' T' m m' := by
  obtain ⟨l, y, tail, l3, h1, h2, h3, h4, c, h5, h6, h7⟩ := h
  exact ⟨l, y, tail, l3, hT l y h1, h2, h3, h4, c, h5, hp _ h6, h7⟩

/-- `x` fills the regions `poss` of `ctx`. -/
def Builds (C : Chart) (L : Sid → Nat) (ctx : Option Sid) (poss : List Nat)
    (R : Memory → List Sid → Memory → Prop) (T : Memory → List Sid → Sid → Prop) (x : M W Unit) : Prop :=
  ∀ m, BPre C L ctx poss m →
    wp x (fun _ m' => ∃ l, BPost C L ctx poss R m m' l) (fun _ m' => BThrow C L ctx poss m m' ∧ BCut C ctx poss T m m') m

/-- The same when the context was not the innermost common outer state of a transition. -/
def BuildsI (C : Chart) (L : Sid → Nat) (ctx : Option Sid) (poss : List Nat)
    (R : Memory → List Sid → Memory → Prop) (T : Memory → List Sid → Sid → Prop) (x : M W Unit) : Prop :=
  ∀ m, BPre C L ctx poss m → m.ico = false →
    wp x (fun _ m' => ∃ l, BPost C L ctx poss R m m' l) (fun _ m' => BThrow C L ctx poss m m' ∧ BCut C ctx poss T m m') m

theorem Builds.toI {C : Chart} {ctx : Option Sid} {poss : List Nat} {R : Memory → List Sid → Memory → Prop} {T : Memory → List Sid → Sid → Prop}
    {x : M W Unit} (h : Builds C L ctx poss R T x) : BuildsI C L ctx poss R T x := fun m hm _ => h m hm

theorem Builds.weaken {C : Chart} {ctx : Option Sid} {poss : List Nat} {R R' : Memory → List Sid → Memory → Prop}
    {T T' : Memory → List Sid → Sid → Prop} {x : M W Unit} (h : Builds C L ctx poss R T x) (hR : ∀ a l b, R a l b → R' a l b)
    (hT : ∀ a l y, T a l y → T' a l y) : Builds C L ctx poss R' T' x := by
  intro m hm
  refine wp_mono (h m hm) ?_ (fun _ _ h => ⟨h.1, h.2.weaken (hT _) fun _ h => h⟩)
  rintro _ m' ⟨l, hl⟩
  exact ⟨l, { hl with mem := hR _ _ _ hl.mem }⟩

theorem BuildsI.weaken {C : Chart} {ctx : Option Sid} {poss : List Nat} {R R' : Memory → List Sid → Memory → Prop}
    {T T' : Memory → List Sid → Sid → Prop} {x : M W Unit} (h : BuildsI C L ctx poss R T x) (hR : ∀ a l b, R a l b → R' a l b)
    (hT : ∀ a l y, T a l y → T' a l y) : BuildsI C L ctx poss R' T' x := by
  intro m hm hi
  refine wp_mono (h m hm hi) ?_ (fun _ _ h => ⟨h.1, h.2.weaken (hT _) fun _ h => h⟩)
  rintro _ m' ⟨l, hl⟩
  exact ⟨l, { hl with mem := hR _ _ _ hl.mem }⟩

theorem builds_nil {C : Chart} {ctx : Option Sid} : BuildsI C L ctx [] (fun a l b => l = [] ∧ a = b) (fun _ _ _ => False) (pure () : M W Unit) := by
  intro m hm hi
  simp only [wp_pure]
  refine ⟨[], hm.inv, by simp, by simp [enters], ?_, fun _ => rfl, hi, rfl, rfl, by simp, by simp, by simp, rfl, rfl⟩
  rintro (h | ⟨⟨i, h, _⟩, _⟩)
  · rw [hi] at h; cases h
  · simp at h

/-- Filling some regions, then higher ones. -/
theorem builds_seq {C : Chart} (hwf : C.WF) {p : Sid} {a b : List Nat} {RA RB : Memory → List Sid → Memory → Prop}
    {TA TB : Memory → List Sid → Sid → Prop} {x y : M W Unit} (hx : BuildsI C L (some p) a RA TA x) (hy : BuildsI C L (some p) b RB TB y)
    (hab : ∀ i ∈ a, ∀ j ∈ b, i < j) (hb : ∀ j ∈ b, j < C.regions (some p)) :
    BuildsI C L (some p) (a ++ b) (fun h l h' => ∃ l1 h1 l2, RA h l1 h1 ∧ RB h1 l2 h' ∧ l = l1 ++ l2)
      (fun h l z => TA h l z ∨ ∃ l1 h1 l2, RA h l1 h1 ∧ TB h1 l2 z ∧ l = l1 ++ l2) (do x; y) := by
  intro m hm hi
  have hca : critB C (some p) a m → b = [] := by
    rintro (h | ⟨⟨i, h1, h2⟩, _⟩)
    · rw [hi] at h; cases h
    · cases b with
      | nil => rfl
      | cons j js =>
        have h3 := hab i h1 j (by simp)
        have h4 := hb j (by simp)
        omega
  have hcab : critB C (some p) a m → critB C (some p) (a ++ b) m := by
    rintro (h | ⟨⟨i, h1, h2⟩, h3⟩)
    · exact .inl h
    · exact .inr ⟨⟨i, List.mem_append_left _ h1, h2⟩, h3⟩
  simp only [wp_bind]
  refine wp_mono (hx m ⟨hm.inv, hm.lock, fun c h1 h2 h3 => hm.empty c h1 h2 (List.mem_append_left _ h3), hm.ico⟩ hi) ?_ ?_
  · rintro _ m1 ⟨l1, h1⟩
    have hpre : BPre C L (some p) b m1 := by
      refine ⟨h1.inv, hm.lock, ?_, fun h => by rw [h1.ico] at h; cases h⟩
      intro c hc hp hcb
      rcases (h1.act c).1 hc with hc' | hc'
      · exact hm.empty c hc' hp (List.mem_append_right _ hcb)
      · obtain ⟨c', g1, g2, g3⟩ := h1.region c hc'
        have := g3.sibling hwf (h1.inv.live_bound hc) .refl (by rw [g1, hp])
        subst this
        have := hab _ g2 _ hcb
        omega
    have hcrit : ¬ critB C (some p) a m → (critB C (some p) b m1 ↔ critB C (some p) (a ++ b) m) := by
      intro hn
      have hou := h1.ncrit hn
      constructor
      · rintro (h | ⟨⟨i, g1, g2⟩, g3⟩)
        · rw [h1.ico] at h; cases h
        · exact .inr ⟨⟨i, List.mem_append_right _ g1, g2⟩, by rw [← hou]; exact g3⟩
      · rintro (h | ⟨⟨i, g1, g2⟩, g3⟩)
        · rw [hi] at h; cases h
        · rcases List.mem_append.1 g1 with g1 | g1
          · exact absurd (.inr ⟨⟨i, g1, g2⟩, g3⟩) hn
          · exact .inr ⟨⟨i, g1, g2⟩, by rw [hou]; exact g3⟩
    refine wp_mono (hy m1 hpre h1.ico) ?_ ?_
    · rintro _ m2 ⟨l2, h2⟩
      refine ⟨l1 ++ l2, h2.inv, ?_, ?_, ?_, ?_, h2.ico, by rw [h2.fullExit, h1.fullExit],
        by rw [h2.trig, h1.trig], ?_, ?_, ?_, ⟨l1, _, l2, h1.mem, h2.mem, rfl⟩⟩
      · intro z; rw [h2.act, h1.act, List.mem_append]; grind
      · rw [h2.trace, h1.trace, h1.trig]; simp [enters]
      · intro hc
        by_cases hn : critB C (some p) a m
        · have hb0 := hca hn
          rw [h2.ncrit, h1.crit hn]
          rintro (h | ⟨⟨i, g1, _⟩, _⟩)
          · rw [h1.ico] at h; cases h
          · rw [hb0] at g1; cases g1
        · exact h2.crit ((hcrit hn).2 hc)
      · intro hc
        have hn : ¬ critB C (some p) a m := fun h => hc (hcab h)
        rw [h2.ncrit (fun h => hc ((hcrit hn).1 h)), h1.ncrit hn]
      · intro z hz
        rcases List.mem_append.1 hz with hz | hz
        · obtain ⟨c, g1, g2, g3⟩ := h1.region z hz
          exact ⟨c, g1, List.mem_append_left _ g2, g3⟩
        · obtain ⟨c, g1, g2, g3⟩ := h2.region z hz
          exact ⟨c, g1, List.mem_append_right _ g2, g3⟩
      · intro i hi
        rcases List.mem_append.1 hi with hi | hi
        · obtain ⟨c, g1, g2, g3⟩ := h1.filled i hi
          exact ⟨c, (h2.act c).2 (.inl g1), g2, g3⟩
        · exact h2.filled i hi
      · intro x hx i he
        rcases List.mem_append.1 hx with hx | hx
        · exact h1.complete x hx i (he.mono fun y hy => (h2.act y).2 (.inl hy))
        · exact h2.complete x hx i he
    · rintro _ m2 ⟨h2, l, z, tail, l3, q1, q2, q3, q4, c, q5, q6, q7⟩
      refine ⟨?_, l1 ++ l, z, tail, l3, .inr ⟨l1, _, l, h1.mem, q1, rfl⟩, q2, by rw [q3, h1.trace, h1.trig]; simp [enters],
        fun x hx => ⟨List.mem_append_right _ (q4 x hx).1, (q4 x hx).2⟩, c, q5, List.mem_append_right _ q6, q7⟩
      have hn : ¬ critB C (some p) a m := fun h => h2.ne (hca h)
      have hs01 : ∀ z, m.act z = true → m1.act z = true := fun z hz => (h1.act z).2 (.inl hz)
      have hpreA : BPre C L (some p) a m := ⟨hm.inv, hm.lock, fun c h1 h2 h3 => hm.empty c h1 h2 (List.mem_append_left _ h3), hm.ico⟩
      have hnew : ∀ z, m1.act z = true → m.act z = false → z ∈ l1 := by
        intro z h3 h4
        rcases (h1.act z).1 h3 with h | h
        · rw [h] at h4; cases h4
        · exact h
      have hnew' : ∀ z, m1.act z = false → m.act z = false := by
        intro z hz
        cases ha : m.act z with
        | false => rfl
        | true => rw [hs01 z ha] at hz; cases hz
      refine ⟨h2.inv, fun z hz => h2.sub z ((h1.act z).2 (.inl hz)), fun hc => h2.crit ((hcrit hn).2 hc), ?_,
        by rw [h2.fullExit, h1.fullExit], by rw [h2.trig, h1.trig], ?_, (h1.freshObs hpreA).trans hs01 h2.fresh, ?_, ?_, ?_, ?_⟩
      rotate_left 2
      · intro x hx hx0
        cases hx1 : m1.act x with
        | true =>
          obtain ⟨c, g1, g2, g3⟩ := h1.region x (hnew x hx1 hx0)
          exact ⟨c, g1, List.mem_append_left _ g2, g3⟩
        | false =>
          obtain ⟨c, g1, g2, g3⟩ := h2.region x hx hx1
          exact ⟨c, g1, List.mem_append_right _ g2, g3⟩
      · intro hc x i hx hx0 he
        cases hx1 : m1.act x with
        | true => exact absurd (he.mono h2.sub) (h1.complete x (hnew x hx1 hx0) i)
        | false => exact h2.cover ((hcrit hn).2 hc) x i hx hx1 he
      · intro hc u hu
        obtain ⟨i, he, h⟩ := h2.src ((hcrit hn).2 hc) u hu
        exact ⟨i, he, h.imp (hnew' u) (fun h => ⟨h.1, List.mem_append_right _ h.2⟩)⟩
      · intro hc q i hq hi' he
        rcases List.mem_append.1 hi' with hi' | hi'
        · obtain ⟨c, g1, g2, g3⟩ := h1.filled i hi'
          have := he.2 c (by rw [g2, hq]) g3
          rw [h2.sub c g1] at this; cases this
        · exact h2.inner ((hcrit hn).2 hc) q i hq hi' he
      · intro hc
        rw [h2.ncrit (fun h => hc ((hcrit hn).1 h)), h1.ncrit hn]
      · intro h; exact h2.ne (List.append_eq_nil_iff.1 h).2
  · rintro _ m1 ⟨h1, hcut⟩
    refine ⟨?_, hcut.weaken (fun _ _ h => .inl h) fun _ h => List.mem_append_left _ h⟩
    have hempty : ∀ j ∈ b, EmptyAt C m1.act p j := by
      intro j hj
      refine ⟨hb j hj, ?_⟩
      intro c hcp hcj
      cases hc : m1.act c with
      | false => rfl
      | true =>
        cases hc0 : m.act c with
        | true => exact absurd (List.mem_append_right _ (hcj ▸ hj)) (hm.empty c hc0 hcp)
        | false =>
          obtain ⟨c', g1, g2, g3⟩ := h1.region c hc hc0
          have := g3.sibling hwf (h1.inv.live_bound hc) .refl (by rw [g1, hcp])
          subst this
          have := hab _ g2 _ (hcj ▸ hj)
          omega
    have hpOU : ¬ critB C (some p) a m → critB C (some p) (a ++ b) m → m1.pOU = some p ∧ ∃ i ∈ b, i + 1 = C.regions (some p) := by
      rintro hn (h | ⟨⟨i, h2, h3⟩, h⟩)
      · rw [hi] at h; cases h
      · refine ⟨by rw [h1.ncrit hn, h], i, ?_, h3⟩
        rcases List.mem_append.1 h2 with h2 | h2
        · exact absurd (.inr ⟨⟨i, h2, h3⟩, h⟩) hn
        · exact h2
    refine ⟨h1.inv, h1.sub, ?_, fun hc => h1.ncrit (fun h => hc (hcab h)), h1.fullExit, h1.trig, ?_, h1.fresh, ?_, ?_, ?_, ?_⟩
    rotate_left 2
    · intro x hx hx0
      obtain ⟨c, g1, g2, g3⟩ := h1.region x hx hx0
      exact ⟨c, g1, List.mem_append_left _ g2, g3⟩
    · intro hc x i hx hx0 he
      by_cases hn : critB C (some p) a m
      · exact h1.cover hn x i hx hx0 he
      · obtain ⟨c, g1, _, g3⟩ := h1.region x hx hx0
        exact ⟨p, (hpOU hn hc).1, Below.trans (.step g1 .refl) g3⟩
    · intro hc u hu
      by_cases hn : critB C (some p) a m
      · obtain ⟨i, he, h⟩ := h1.src hn u hu
        exact ⟨i, he, h.imp id fun h => ⟨h.1, List.mem_append_left _ h.2⟩⟩
      · obtain ⟨h3, i, h4, _⟩ := hpOU hn hc
        rw [h3] at hu; cases hu
        exact ⟨i, hempty i h4, .inr ⟨rfl, List.mem_append_right _ h4⟩⟩
    · intro hc q i hq hi' he
      by_cases hn : critB C (some p) a m
      · rw [hca hn, List.append_nil] at hi'
        exact h1.inner hn q i hq hi' he
      · rw [(hpOU hn hc).1]; exact hq
    · intro hc
      by_cases hn : critB C (some p) a m
      · exact h1.crit hn
      · left
        rw [h1.ncrit hn]
        rcases hc with h | ⟨_, h⟩
        · rw [hi] at h; cases h
        · rw [h]; simp
    · intro h; exact h1.ne (List.append_eq_nil_iff.1 h).1

/-- Dropping a reference that is not the last. -/
theorem release_keep {s : Sid} {o : Obj} (ho : m.heap s = some o) (hrc : 2 ≤ o.rc)
    {Q : Unit → Mach W → Prop} {E : Exc → Mach W → Prop}
    (hq : Q () { m with heap := upd m.heap s (some { o with rc := o.rc - 1 }) }) : wp (release P s) Q E m := by
  unfold release releaseF
  simp only [wp_bind, wp_getObj]
  refine ⟨o, ho, ?_⟩
  rw [if_neg (by omega), if_neg (by omega)]
  exact hq

/-- Entering one state and then filling its regions. -/
theorem builds_enter (hwf : P.toChart.WF) (hok : Contract P) (hF : CtorMem P F) {s : Sid} (hs : s < P.n)
    {poss : List Nat} {R : Memory → List Sid → Memory → Prop} {T : Memory → List Sid → Sid → Prop} {x : M W Unit}
    (hx : (P.isLeaf s = true ∧ x = pure () ∧ ∀ a, R a [] a) ∨
      ((0 < P.regions (some s) ∧ ∀ i, i < P.regions (some s) → i ∈ poss) ∧ BuildsI P.toChart (inc L s) (some s) poss R T x)) :
    Builds P.toChart L (P.parent s) [P.pos s] (fun h l h' => ∃ h1 l', F h h1 ∧ R h1 l' h' ∧ l = s :: l')
      (fun h l y => (l = [] ∧ y = s) ∨ ∃ h1 l', F h h1 ∧ T h1 l' y ∧ l = s :: l')
      (do shallowConstruct P s; M.finally' x (release P s)) := by
  intro m hm
  have hdead : m.heap s = none := by
    cases hh : m.heap s with
    | none => rfl
    | some o => exact absurd (List.mem_singleton.2 rfl) (hm.empty s (by simp [hh]) rfl)
  have hns : P.parent s ≠ some s := fun hp => Nat.lt_irrefl _ (hwf.parent_lt hs hp)
  have hcrit : critAt P.toChart s m ↔ critB P.toChart (P.parent s) [P.pos s] m := by
    unfold critAt critB; simp
  have hpou : m.pOU ≠ some s := by
    intro h
    have := (hm.inv.ou_live h).1
    rw [hdead] at this; cases this
  have hcou : critAt P.toChart s m → m.pOU = P.parent s := by
    rintro (h | h)
    · exact hm.ico h
    · exact h.2
  simp only [wp_bind]
  refine wp_mono (shallowConstruct_wp (F := F) hwf hok hF hm.inv hs
    (fun c h1 h2 h3 => hm.empty c h1 h2 (by rw [h3]; simp)) hm.lock hm.ico) ?_ ?_
  · intro _ m1 h1
    have hlive : (m1.heap s).isSome := h1.inv.L_live (s := s) (by simp)
    obtain ⟨o1, ho1⟩ := Option.isSome_iff_exists.1 hlive
    simp only [wp_finally]
    rcases hx with ⟨hleaf, rfl, hR⟩ | ⟨⟨hpos, hall⟩, hx⟩
    · simp only [wp_pure]
      obtain ⟨o, ho, hsl⟩ := h1.leaf hleaf
      have hr := h1.inv.rc ho
      rw [if_pos hsl] at hr
      simp only [inc_same] at hr
      refine release_keep ho (by omega) ?_
      have hi := h1.inv.dropRef ho (by simp) (by omega)
      rw [dec_inc] at hi
      have ha : ∀ z, Mach.act { m1 with heap := upd m1.heap s (some { o with rc := o.rc - 1 }) } z = m1.act z := by
        intro z; simp only [Mach.act, upd]; split
        · next hz => subst hz; simp [ho]
        · rfl
      refine ⟨[s], hi, ?_, ?_, ?_, ?_, h1.ico, h1.fullExit, h1.trig, ?_, ?_, ?_, ⟨_, [], h1.mem, hR _, rfl⟩⟩
      · intro z; rw [ha, h1.act]; by_cases hz : z = s <;> simp [hz]
      · exact h1.trace
      · intro hc
        have := h1.crit (hcrit.2 hc)
        rw [if_pos hleaf] at this; exact this
      · intro hc; exact h1.ncrit (fun h => hc (hcrit.1 h))
      · intro z hz
        rw [List.mem_singleton] at hz; subst hz
        exact ⟨z, rfl, by simp, .refl⟩
      · intro i hi
        rw [List.mem_singleton] at hi; subst hi
        exact ⟨s, by rw [ha, h1.act]; simp, rfl, rfl⟩
      · intro x hx i he
        rw [List.mem_singleton] at hx; subst hx
        have := he.1
        rw [Chart.leaf_regions hleaf] at this; omega
    · have hlast : ∃ i ∈ poss, i + 1 = P.regions (some s) := ⟨P.regions (some s) - 1, hall _ (by omega), by omega⟩
      have hnl : P.isLeaf s = false := by
        exact Chart.not_leaf_of_regions (by omega)
      have hpre : BPre P.toChart (inc L s) (some s) poss m1 := by
        refine ⟨h1.inv, ?_, ?_, fun h => by rw [h1.ico] at h; cases h⟩
        · intro p hp; cases hp; simp
        · intro c hc hp _
          have hcs : c ≠ s := fun h => hns (h ▸ hp)
          have : m1.act c = true := hc
          rw [h1.act] at this
          simp only [if_neg hcs] at this
          have := hm.inv.par_live this hp
          rw [hdead] at this; cases this
      have hin : critB P.toChart (some s) poss m1 ↔ critAt P.toChart s m := by
        constructor
        · rintro (h | ⟨_, h⟩)
          · rw [h1.ico] at h; cases h
          · by_cases hc : critAt P.toChart s m
            · exact hc
            · rw [h1.ncrit hc] at h; exact absurd h hpou
        · intro hc
          have := h1.crit hc
          rw [hnl] at this
          exact .inr ⟨hlast, by simpa using this⟩
      refine wp_mono (hx m1 hpre h1.ico) ?_ ?_
      · rintro _ m2 ⟨l, h2⟩
        have hlive2 : (m2.heap s).isSome := h2.inv.L_live (s := s) (by simp)
        obtain ⟨o, ho⟩ := Option.isSome_iff_exists.1 hlive2
        have hrc : 2 ≤ o.rc := by
          have hr := h2.inv.rc ho
          obtain ⟨i, hi, _⟩ := hlast
          obtain ⟨c, g1, g2, _⟩ := h2.filled i hi
          have := nch_pos (Chart.pos_lt_some hwf (h2.inv.live_bound g1) g2) ((h2.inv.inner_iff ho).2 ⟨g1, g2, rfl⟩)
          simp only [inc_same] at hr
          omega
        refine release_keep ho hrc ?_
        have hi := h2.inv.dropRef ho (by simp) hrc
        rw [dec_inc] at hi
        have ha : ∀ z, Mach.act { m2 with heap := upd m2.heap s (some { o with rc := o.rc - 1 }) } z = m2.act z := by
          intro z; simp only [Mach.act, upd]; split
          · next hz => subst hz; simp [ho]
          · rfl
        refine ⟨s :: l, hi, ?_, ?_, ?_, ?_, h2.ico, h2.fullExit.trans h1.fullExit, h2.trig.trans h1.trig, ?_, ?_, ?_,
          ⟨_, l, h1.mem, h2.mem, rfl⟩⟩
        · intro z; rw [ha, h2.act, h1.act]; by_cases hz : z = s <;> simp [hz]
        · simp only; rw [h2.trace, h1.trace, h1.trig]; simp [enters]
        · intro hc; exact h2.crit (hin.2 (hcrit.2 hc))
        · intro hc
          have hn : ¬ critAt P.toChart s m := fun h => hc (hcrit.1 h)
          exact (h2.ncrit (fun h => hn (hin.1 h))).trans (h1.ncrit hn)
        · intro z hz
          refine ⟨s, rfl, by simp, ?_⟩
          rcases List.mem_cons.1 hz with rfl | hz
          · exact .refl
          · obtain ⟨c, g1, _, g3⟩ := h2.region z hz
            exact Below.trans (.step g1 .refl) g3
        · intro i hi
          rw [List.mem_singleton] at hi; subst hi
          exact ⟨s, by rw [ha, h2.act, h1.act]; simp, rfl, rfl⟩
        · intro z hz i he
          replace he : EmptyAt P.toChart m2.act z i := he.mono fun y hy => by rw [ha]; exact hy
          rcases List.mem_cons.1 hz with rfl | hz
          · obtain ⟨c, g1, g2, g3⟩ := h2.filled i (hall i he.1)
            have := he.2 c g2 g3
            rw [g1] at this; cases this
          · exact h2.complete z hz i he
      · rintro _ m2 ⟨h2, lc, yc, tail, l3, q1, q2, q3, q4, cc, q5, q6, q7⟩
        have hlive2 : (m2.heap s).isSome := h2.inv.L_live (s := s) (by simp)
        refine wp_mono (release_wp hwf h2.inv (by simp) (.inl rfl)) ?_ (fun _ _ h => h.elim)
        rintro _ m3 ⟨l, hr⟩
        have hi := hr.inv
        rw [dec_inc] at hi
        have hl : ∀ z ∈ l, z = s := by
          obtain ⟨o, ho⟩ := Option.isSome_iff_exists.1 hlive2
          have hrc := h2.inv.rc ho
          simp only [inc_same] at hrc
          by_cases h2' : 2 ≤ o.rc
          · rw [hr.keep o ho h2']; simp
          · obtain ⟨l', g1, g2⟩ := hr.last o ho (by omega)
            have := g2 (fun p hp => by
              have hps : p ≠ s := fun he => hns (he ▸ hp)
              rw [inc_other _ hps]; exact hm.lock p hp)
            subst this; subst g1; simp
        refine ⟨?_, s :: lc, yc, tail, l3 ++ l, .inr ⟨_, lc, h1.mem, q1, rfl⟩, q2, ?_, ?_, s, rfl, by simp, Below.trans (.step q5 .refl) q7⟩
        rotate_left
        · rw [hr.trace, q3, h2.trig, h1.trace, h1.trig]; simp [enters, destroys]
        · intro x hx
          rcases List.mem_append.1 hx with hx | hx
          · exact ⟨List.mem_cons_of_mem _ (q4 x hx).1, (q4 x hx).2⟩
          · rw [hl x hx]; exact ⟨by simp, Below.trans (.step q5 .refl) q7⟩
        have hs12 : ∀ z, m1.act z = true → m2.act z = true := h2.sub
        have hout : ∀ z, z ≠ s → m3.act z = m2.act z := by
          intro z hzs
          rw [hr.act]
          cases hz : m2.act z with
          | false => simp [without, hz]
          | true =>
            simp only [without, hz, Bool.true_and, Bool.not_eq_true', List.contains_eq_mem, decide_eq_false_iff_not]
            exact fun hzl => hzs (hl z hzl)
        have hact1 : ∀ z, z ≠ s → m1.act z = m.act z := by
          intro z hzs; rw [h1.act]; simp [hzs]
        -- in the critical case `s` stays
        have hstay : critB P.toChart (P.parent s) [P.pos s] m → m3.act = m2.act := by
          intro hc
          obtain ⟨u, hu⟩ : ∃ u, m2.pOU = some u := by
            cases hu : m2.pOU with
            | some u => exact ⟨u, rfl⟩
            | none =>
              rcases h2.crit (hin.2 (hcrit.2 hc)) with h | h
              · exact absurd hu h
              · have := h s; unfold Mach.act at this; rw [this] at hlive2; cases hlive2
          have hus : Below P.toChart s u := by
            obtain ⟨i, _, h | h⟩ := h2.src (hin.2 (hcrit.2 hc)) u hu
            · obtain ⟨c, g1, _, g3⟩ := h2.region u (h2.inv.ou_live hu).1 h
              exact Below.trans (.step g1 .refl) g3
            · obtain ⟨h, _⟩ := h; cases h; exact .refl
          have hu3 : (m3.heap u).isSome := (hi.ou_live (by rw [hr.frame.pOU, hu])).1
          have hs3 := hi.live_of_below hus hu3
          funext z
          by_cases hzs : z = s
          · subst hzs; rw [show m3.act z = true from hs3]; exact hlive2.symm
          · exact hout z hzs
        refine ⟨hi, ?_, ?_, ?_, by rw [hr.frame.fullExit, h2.fullExit, h1.fullExit],
          by rw [hr.frame.trig, h2.trig, h1.trig], by simp, ?_, ?_, ?_, ?_, ?_⟩
        rotate_left 3
        · have hf1 : FreshObs m m1 := by
            refine ⟨_, h1.trace, ?_⟩
            intro e he x hx
            rw [List.mem_singleton] at he; subst he; cases hx
            unfold Mach.act; rw [hdead]; rfl
          refine (hf1.trans ?_ h2.fresh).trans ?_ ⟨_, hr.trace, ?_⟩
          · intro z hz; rw [h1.act]; by_cases hzs : z = s <;> simp [hzs, hz]
          · intro z hz; apply h2.sub; rw [h1.act]; by_cases hzs : z = s <;> simp [hzs, hz]
          · intro e he x hx
            simp only [destroys, List.mem_map] at he
            obtain ⟨y, _, rfl⟩ := he
            cases hx
        · intro x hx hx0
          refine ⟨s, rfl, by simp, ?_⟩
          by_cases hxs : x = s
          · subst hxs; exact .refl
          · rw [hout x hxs] at hx
            obtain ⟨c, g1, _, g3⟩ := h2.region x hx (by rw [hact1 x hxs]; exact hx0)
            exact Below.trans (.step g1 .refl) g3
        · intro hc x i hx hx0 he
          rw [hstay hc] at hx he
          rw [hr.frame.pOU]
          by_cases hxs : x = s
          · subst hxs
            exact ⟨x, h2.inner (hin.2 (hcrit.2 hc)) x i rfl (hall i he.1) he, .refl⟩
          · exact h2.cover (hin.2 (hcrit.2 hc)) x i hx (by rw [hact1 x hxs]; exact hx0) he
        · intro hc u hu
          rw [hr.frame.pOU] at hu
          obtain ⟨i, he, h⟩ := h2.src (hin.2 (hcrit.2 hc)) u hu
          refine ⟨i, by rw [hstay hc]; exact he, .inl ?_⟩
          rcases h with h | ⟨h, _⟩
          · have hus : u ≠ s := by intro h'; subst h'; rw [h1.act] at h; simp at h
            rw [← hact1 u hus]; exact h
          · cases h; unfold Mach.act; rw [hdead]; rfl
        · intro hc p i hp hi' he
          rw [List.mem_singleton] at hi'; subst hi'
          have := he.2 s hp rfl
          rw [hstay hc] at this
          unfold Mach.act at this; rw [this] at hlive2; cases hlive2
        · intro z hz
          have hzs : z ≠ s := by
            intro h; subst h; unfold Mach.act at hz; rw [hdead] at hz; cases hz
          rw [hr.act]
          have : m2.act z = true := h2.sub z (by rw [h1.act]; simp [hzs, hz])
          simp only [without, this, Bool.true_and]
          simp only [Bool.not_eq_true', List.contains_eq_mem, decide_eq_false_iff_not]
          intro hzl; exact hzs (hl z hzl)
        · intro hc
          left
          rw [hr.frame.pOU]
          rcases h2.crit (hin.2 (hcrit.2 hc)) with h | h
          · exact h
          · have := h s; unfold Mach.act at this; rw [this] at hlive2; cases hlive2
        · intro hc
          have hn : ¬ critAt P.toChart s m := fun h => hc (hcrit.1 h)
          rw [hr.frame.pOU, h2.ncrit (fun h => hn (hin.1 h)), h1.ncrit hn]
  · intro _ m1 h1
    obtain ⟨tail, q1, q2⟩ := h1.cut
    refine ⟨?_, [], s, tail, [], .inl ⟨rfl, rfl⟩, q1, by rw [q2]; simp [enters, destroys], by simp, s, rfl, by simp, .refl⟩
    refine ⟨h1.inv, fun z hz => by rw [h1.act]; exact hz, ?_, fun _ => h1.pOU, h1.fullExit, h1.trig, by simp, h1.fresh, ?_, ?_, ?_, ?_⟩
    rotate_left
    · intro x hx hx0; rw [h1.act, hx0] at hx; cases hx
    · intro _ x i hx hx0; rw [h1.act, hx0] at hx; cases hx
    · intro hc u hu
      rw [h1.pOU, hcou (hcrit.2 hc)] at hu
      refine ⟨P.pos s, ⟨?_, ?_⟩, .inr ⟨hu, by simp⟩⟩
      · exact Chart.pos_lt_some hwf hs hu
      · intro c hcp hcs
        rw [h1.act]
        cases hc : m.act c with
        | false => rfl
        | true => exact absurd (by rw [hcs]; simp) (hm.empty c hc (by rw [hcp, hu]))
    · intro hc p i hp _ _
      rw [h1.pOU, hcou (hcrit.2 hc)]; exact hp
    intro hc
    rw [h1.pOU, hcou (hcrit.2 hc)]
    cases hp : P.parent s with
    | some p => left; simp
    | none =>
      right
      intro z
      cases hz : m1.act z with
      | false => rfl
      | true =>
        obtain ⟨r, _, g2, g3⟩ := h1.inv.root_of hwf hz
        have g2' : m.act r = true := by rw [← h1.act]; exact g2
        have h0 := Chart.pos_root hwf (h1.inv.live_bound g2) g3
        have h0' := Chart.pos_root hwf hs hp
        exact absurd (by rw [h0, h0']; simp) (hm.empty r g2' (by rw [g3, hp]))

/-! ## All construction functions -/

/-- The task is meaningful below `ctx`. -/
def Task.OK (C : Chart) (ctx : Option Sid) : Task → Prop
  | .deep s => s < C.n ∧ C.parent s = ctx
  | .target t => t.st < C.n ∧ C.parent t.st = ctx ∧ (t.kind = .plain ∨ ∃ p, ctx = some p)
  | .chain cs t => TargetOK C t ∧ Path C ctx cs t.st
  | .inners l => (∃ p, ctx = some p ∧ p < C.n) ∧ (∀ t ∈ l, t.st < C.n ∧ C.parent t.st = ctx) ∧
      l.Pairwise (fun a b => C.pos a.st < C.pos b.st)

/-- The regions the task fills. -/
def Task.poss (C : Chart) : Task → List Nat
  | .deep s => [C.pos s]
  | .target t => [C.pos t.st]
  | .chain cs t => [C.pos (cs.headD t.st)]
  | .inners l => l.map fun t => C.pos t.st

/-- What the specification says the task enters. -/
def Task.goal (ctx : Option Sid) : Task → Goal
  | .deep s => .tree s
  | .target t => .target t
  | .chain _ d => .down ctx d
  | .inners l => .regions l

/-- Fuel that is enough for a state below `ctx`. -/
def ctxNeed (C : Chart) : Option Sid → Nat
  | none => C.n * 300
  | some p => (C.n - p - 1) * 300

theorem ctxNeed_le {C : Chart} (hwf : C.WF) {s : Sid} (hs : s < C.n) : (C.n - s) * 300 ≤ ctxNeed C (C.parent s) := by
  cases hp : C.parent s with
  | none => simp only [ctxNeed]; omega
  | some p =>
    have := hwf.parent_lt hs hp
    simp only [ctxNeed]; omega

/-- Fuel that is enough for the task. -/
def Task.need (C : Chart) (ctx : Option Sid) : Task → Nat
  | .deep s => (C.n - s) * 300
  | .target t => ctxNeed C ctx + if t.kind = .plain then 1 else 4
  | .chain _ t => ctxNeed C ctx + if t.kind = .plain then 2 else 5
  | .inners l => ctxNeed C ctx + 6 + l.length

theorem init_pairwise {C : Chart} (hwf : C.WF) {s : Sid} (hs : s < C.n) :
    (C.init s).Pairwise (fun a b => C.pos a.st < C.pos b.st) := by
  rw [List.pairwise_iff_getElem]
  intro i j hi hj hij
  have h1 := hwf.init_ok hs (List.getElem?_eq_getElem hi)
  have h2 := hwf.init_ok hs (List.getElem?_eq_getElem hj)
  rw [h1.2.2, h2.2.2]; exact hij

theorem init_mem {C : Chart} (hwf : C.WF) {s : Sid} (hs : s < C.n) :
    ∀ t ∈ C.init s, t.st < C.n ∧ C.parent t.st = some s := by
  intro t ht
  obtain ⟨i, hi⟩ := List.mem_iff_getElem?.1 ht
  have := hwf.init_ok hs hi
  exact ⟨this.1, this.2.1⟩

theorem init_poss {C : Chart} (hwf : C.WF) {s : Sid} (hs : s < C.n) :
    (C.init s).map (fun t => C.pos t.st) = List.range (C.regions (some s)) := by
  apply List.ext_getElem?
  intro i
  simp only [List.getElem?_map]
  cases h : (C.init s)[i]? with
  | none =>
    simp only [Option.map_none]
    rw [List.getElem?_eq_none_iff] at h
    rw [eq_comm, List.getElem?_eq_none_iff]; simpa [Chart.regions] using h
  | some t =>
    have h1 := hwf.init_ok hs h
    have h2 : i < (C.init s).length := by
      rw [List.getElem?_eq_some_iff] at h; exact h.1
    simp [h1.2.2, Chart.regions, h2]

theorem taskInners_ok {C : Chart} (hwf : C.WF) {s : Sid} (hs : s < C.n) {l : List Target} (hl : l.Sublist (C.init s)) :
    (Task.inners l).OK C (some s) :=
  ⟨⟨s, rfl, hs⟩, fun t ht => init_mem hwf hs t (hl.subset ht), (init_pairwise hwf hs).sublist hl⟩

theorem mul300 {a b : Nat} (h : a < b) : a * 300 + 300 ≤ b * 300 := by omega

theorem wp_of_ok {α : Type} {x : M W α} {a : α} {m m' : Mach W} {Q : α → Mach W → Prop} {E : Exc → Mach W → Prop}
    (h : x m = .ok a m') : wp x Q E m ↔ Q a m' := by
  unfold wp; rw [h]

/-- The claim about a task. -/
def TaskBuilds (P : Prog W) (F : Memory → Memory → Prop) (L : Sid → Nat) (ctx : Option Sid) (t : Task) (x : M W Unit) : Prop :=
  match t with
  | .inners l => BuildsI P.toChart L ctx ((Task.inners l).poss P.toChart) (fun h l' h' => Enters P.toChart F h (.regions l) l' h') (fun h l' y => Begins P.toChart F h (.regions l) l' y) x
  | t => Builds P.toChart L ctx (t.poss P.toChart) (fun h l' h' => Enters P.toChart F h (t.goal ctx) l' h') (fun h l' y => Begins P.toChart F h (t.goal ctx) l' y) x

set_option maxRecDepth 4096 in
theorem build_wp (hwf : P.toChart.WF) (hok : Contract P) (hF : CtorMem P F) :
    ∀ (f : Nat) (t : Task) (ctx : Option Sid) (L : Sid → Nat), t.OK P.toChart ctx → t.need P.toChart ctx ≤ f →
      TaskBuilds P F L ctx t (build P f t) := by
  intro f
  induction f with
  | zero =>
    intro t ctx L hok hf
    exfalso
    cases t with
    | deep s => obtain ⟨h1, _⟩ := hok; unfold Task.need at hf; simp only at hf; omega
    | target t => unfold Task.need at hf; simp only at hf; split at hf <;> omega
    | chain cs d => unfold Task.need at hf; simp only at hf; split at hf <;> omega
    | inners l => unfold Task.need at hf; simp only at hf; omega
  | succ f ih =>
    intro t ctx L hT hf
    cases t with
    | deep s =>
      obtain ⟨hs, rfl⟩ := hT
      have hlen := hwf.init_len hs
      simp only [Task.need] at hf
      rw [build]
      refine Builds.weaken (builds_enter (F := F) (poss := (Task.inners (P.init s)).poss P.toChart)
        (R := fun h l' h' => Enters P.toChart F h (.regions (P.init s)) l' h')
        (T := fun h l' y => Begins P.toChart F h (.regions (P.init s)) l' y) hwf hok hF hs ?_) ?_ ?_
      · by_cases hl : P.isLeaf s = true
        · left
          have h0 := Chart.isLeaf_iff.1 hl
          refine ⟨hl, ?_, ?_⟩
          · rw [h0]
            cases f with
            | zero => omega
            | succ f => rfl
          · intro a; rw [h0]; exact .rnil
        · right
          refine ⟨?_, ih (.inners (P.init s)) (some s) (inc L s) (taskInners_ok hwf hs (List.Sublist.refl _)) ?_⟩
          · simp only [Task.poss, init_poss hwf hs]
            have : P.regions (some s) ≠ 0 := by
              intro h
              apply hl
              rw [Chart.isLeaf_iff]
              exact List.length_eq_zero_iff.1 h
            exact ⟨by omega, fun i hi => by simpa using hi⟩
          · simp only [Task.need, ctxNeed]; omega
      · rintro a l b ⟨h1, l', g1, g2, rfl⟩
        exact .tree g1 g2
      · rintro a l y (⟨rfl, rfl⟩ | ⟨h1, l', g1, g2, rfl⟩)
        · exact .root
        · exact .tree g1 g2
    | target t =>
      obtain ⟨hs, rfl, hh⟩ := hT
      obtain ⟨k, d⟩ := t
      have hn0 := ctxNeed_le hwf hs
      simp only [Task.need] at hf
      simp only at hs hn0 hh
      cases hpar : P.parent d with
      | none =>
        rcases hh with rfl | ⟨p, hp⟩
        · rw [if_pos rfl] at hf
          intro m hm
          rw [build]
          simp only [wp_bind]
          have : lookupHist P .plain d m = .ok none m := by simp only [lookupHist, hpar]
          rw [wp_of_ok this]
          refine wp_mono (ih (.deep d) none L ⟨hs, hpar⟩ (by simp only [Task.need]; omega) m hm) ?_ (fun _ _ h => ⟨h.1, h.2.weaken (fun _ _ h => .plain h) fun _ h => h⟩)
          rintro _ m' ⟨l, hl⟩
          exact ⟨l, { hl with mem := .plain hl.mem }⟩
        · rw [hpar] at hp; cases hp
      | some p =>
      have hp := hpar
      have hpn := hwf.parent_lt hs hp
      simp only [hp, ctxNeed] at hf
      intro m hm
      rw [build]
      simp only [wp_bind, Task.poss, Task.goal]
      simp only [Task.poss] at hm
      have dflt : (∀ l h', Enters P.toChart F m.mem (.tree d) l h' → Enters P.toChart F m.mem (.target ⟨k, d⟩) l h') →
          (∀ l y, Begins P.toChart F m.mem (.tree d) l y → Begins P.toChart F m.mem (.target ⟨k, d⟩) l y) →
          wp (build P f (.deep d))
            (fun _ m' => ∃ l, BPost P.toChart L (some p) [P.pos d] (fun h l' h' => Enters P.toChart F h (.target ⟨k, d⟩) l' h') m m' l)
            (fun _ m' => BThrow P.toChart L (some p) [P.pos d] m m' ∧
              BCut P.toChart (some p) [P.pos d] (fun h l' y => Begins P.toChart F h (.target ⟨k, d⟩) l' y) m m') m := by
        intro himp himp'
        refine wp_mono (ih (.deep d) (some p) L ⟨hs, hp⟩ (by simp only [Task.need]; split at hf <;> omega) m hm) ?_ (fun _ _ h => ⟨h.1, h.2.weaken himp' fun _ h => h⟩)
        rintro _ m' ⟨l, hl⟩
        exact ⟨l, { hl with mem := himp _ _ hl.mem }⟩
      cases k with
      | plain =>
        have : lookupHist P .plain d m = .ok none m := by simp only [lookupHist, hp]
        rw [wp_of_ok this]; exact dflt (fun l h' => .plain) (fun l y => .plain)
      | shallow =>
        have : lookupHist P .shallow d m = .ok (m.sh (p, P.pos d)) m := by simp only [lookupHist, hp]
        rw [wp_of_ok this]
        cases hh : m.sh (p, P.pos d) with
        | none =>
          exact dflt (fun l h' => .shallowDefault hp (by simp [Mach.mem, hh])) (fun l y => .shallowDefault hp (by simp [Mach.mem, hh]))
        | some h =>
          obtain ⟨c, rfl, g1, g2, g3⟩ := hm.inv.hist.sh hh
          simp only [hfnTask, g2, hp, if_true]
          have hm' : BPre P.toChart L (some p) [P.pos c] m := by
            have := hm; rw [g3]; exact this
          have hpc := hwf.parent_lt g1 g2
          refine wp_mono (ih (.deep c) (some p) L ⟨g1, g2⟩ (by simp only [Task.need]; split at hf <;> omega) m hm') ?_ ?_
          · rintro _ m' ⟨l, hl⟩
            have hl2 : BPost P.toChart L (some p) [P.pos d] (fun h l' h' => Enters P.toChart F h (.tree c) l' h') m m' l := by
              rw [← g3]; exact hl
            refine ⟨l, { hl2 with mem := ?_ }⟩
            exact .shallow hp (by simp [Mach.mem, hh]) hl2.mem
          · rintro _ m' ⟨h', hcut⟩
            refine ⟨?_, hcut.weaken (fun _ _ h => .shallow hp (by simp [Mach.mem, hh]) h) ?_⟩
            · simp only [Task.poss] at h' ⊢
              rw [← g3]; exact h'
            · simp only [Task.poss, g3]; exact fun _ h => h
      | deep =>
        have : lookupHist P .deep d m = .ok (m.dh (p, P.pos d)) m := by simp only [lookupHist, hp]
        rw [wp_of_ok this]
        cases hh : m.dh (p, P.pos d) with
        | none =>
          exact dflt (fun l h' => .deepDefault hp (by simp [Mach.mem, hh])) (fun l y => .deepDefault hp (by simp [Mach.mem, hh]))
        | some h =>
          obtain ⟨c, rfl, g1, g2, _, _, g3⟩ := hm.inv.hist.dh hh
          have hpath := Chart.pathBelow_path hwf g1 (c := some p) ((Chart.mem_ctxList hwf g1).2 (.inr ⟨p, rfl, g2⟩))
          have hhead := hpath.head
          simp only [hfnTask, hhead, hp, if_true]
          have hm' : BPre P.toChart L (some p) ((Task.chain (P.pathBelow (some p) c) ⟨.plain, c⟩).poss P.toChart) m := by
            have := hm; simp only [Task.poss, g3]; exact this
          have hpc := hwf.parent_lt (hpath.head_below.bound hwf g1) hhead
          refine wp_mono (ih (.chain (P.pathBelow (some p) c) ⟨.plain, c⟩) (some p) L ⟨.plain g1, hpath⟩ (by simp only [Task.need, ctxNeed]; simp at hf ⊢; omega) m hm') ?_ ?_
          · rintro _ m' ⟨l, hl⟩
            have hl2 : BPost P.toChart L (some p) [P.pos d] (fun h l' h' => Enters P.toChart F h (.down (some p) ⟨.plain, c⟩) l' h') m m' l := by
              rw [← g3]; exact hl
            refine ⟨l, { hl2 with mem := ?_ }⟩
            exact .deep hp (by simp [Mach.mem, hh]) hl2.mem
          · rintro _ m' ⟨h', hcut⟩
            refine ⟨?_, hcut.weaken (fun _ _ h => .deep hp (by simp [Mach.mem, hh]) h) ?_⟩
            · simp only [Task.poss] at h' ⊢
              rw [← g3]; exact h'
            · simp only [Task.poss, g3]; exact fun _ h => h
    | chain cs d =>
      obtain ⟨hd, hpath⟩ := hT
      cases hpath with
      | nil hp =>
        simp only [Task.need] at hf
        rw [build]
        refine Builds.weaken (ih (.target d) ctx L ⟨hd.bound, hp, hd.hist.imp id fun ⟨p, h⟩ => ⟨p, by rw [← hp, h]⟩⟩ (by
          simp only [Task.need]
          split
          · next h => rw [if_pos h] at hf; omega
          · next h => rw [if_neg h] at hf; omega)) ?_ ?_
        · intro a l b hab
          exact .here hp hab
        · intro a l y hab
          exact .here hp hab
      | @cons _ x cs _ hp hpath =>
        have hbx : Below P.toChart x d.st := by
          have h1 : P.parent (cs.headD d.st) = some x := hpath.head
          exact Below.trans (.step h1 .refl) hpath.head_below
        have hxn := hbx.bound hwf hd.bound
        have hlen := hwf.init_len hxn
        have hn0 := ctxNeed_le hwf hxn
        simp only [Task.need] at hf
        rw [hp] at hn0
        have hhead := hpath.head
        have hheadn := hpath.head_below.bound hwf hd.bound
        have hxh := hwf.parent_lt hheadn hhead
        have hposlt := Chart.pos_lt_some hwf hheadn hhead
        rw [build]
        subst hp
        have hposs := init_poss hwf hxn
        have htake : (Task.inners ((P.init x).take (P.pos (cs.headD d.st)))).poss P.toChart = List.range (P.pos (cs.headD d.st)) := by
          unfold Task.poss
          simp only
          rw [List.map_take, hposs, List.take_range, Nat.min_eq_left (by omega)]
        have hdrop : ∀ j, j ∈ (Task.inners ((P.init x).drop (P.pos (cs.headD d.st) + 1))).poss P.toChart ↔
            P.pos (cs.headD d.st) + 1 ≤ j ∧ j < P.regions (some x) := by
          intro j
          unfold Task.poss
          simp only
          rw [List.map_drop, hposs, List.mem_drop_iff_getElem]
          constructor
          · rintro ⟨i, h1, h2⟩
            simp only [List.getElem_range, List.length_range] at h1 h2
            omega
          · rintro ⟨h1, h2⟩
            exact ⟨j - (P.pos (cs.headD d.st) + 1), by simp only [List.length_range]; omega,
              by simp only [List.getElem_range]; omega⟩
        have e1 := ih (.inners ((P.init x).take (P.pos (cs.headD d.st)))) (some x) (inc L x)
          (taskInners_ok hwf hxn (List.take_sublist _ _))
          (by simp only [Task.need, ctxNeed, List.length_take]; split at hf <;> omega)
        have e2 := (ih (.chain cs d) (some x) (inc L x) ⟨hd, hpath⟩ (by simp only [Task.need, ctxNeed]; split <;> split at hf <;> omega)).toI
        have e3 := ih (.inners ((P.init x).drop (P.pos (cs.headD d.st) + 1))) (some x) (inc L x)
          (taskInners_ok hwf hxn (List.drop_sublist _ _))
          (by simp only [Task.need, ctxNeed, List.length_drop]; split at hf <;> omega)
        simp only [TaskBuilds] at e1 e3
        have e23 := builds_seq hwf e2 e3 ?_ ?_
        have e123 := builds_seq hwf e1 e23 ?_ ?_
        · refine Builds.weaken (builds_enter (F := F) hwf hok hF hxn (.inr ⟨?_, e123⟩)) ?_ ?_
          · refine ⟨by omega, fun i hi => ?_⟩
            rw [List.mem_append, List.mem_append, htake, hdrop, List.mem_range]
            simp only [Task.poss, List.mem_singleton]
            omega
          · rintro a l b ⟨h1, l', g1, ⟨l1, h2, l23, g2, ⟨l2, h3, l3, g3, g4, rfl⟩, rfl⟩, rfl⟩
            exact .via rfl hhead hpath.head_below g1 g2 g3 g4
          · rintro a l y (⟨rfl, rfl⟩ | ⟨h1, l', g1, g2 | ⟨l1, h2, l23, g2, g3 | ⟨l2, h3, l3, g3, g4, rfl⟩, rfl⟩, rfl⟩)
            · exact .outer rfl hhead hpath.head_below
            · exact .before rfl hhead hpath.head_below g1 g2
            · exact .down rfl hhead hpath.head_below g1 g2 g3
            · exact .after rfl hhead hpath.head_below g1 g2 g3 g4
        · intro i hi j hj
          rw [htake, List.mem_range] at hi
          rcases List.mem_append.1 hj with hj | hj
          · simp only [Task.poss, List.mem_singleton] at hj
            omega
          · rw [hdrop] at hj; omega
        · intro j hj
          rcases List.mem_append.1 hj with hj | hj
          · simp only [Task.poss, List.mem_singleton] at hj
            omega
          · rw [hdrop] at hj; omega
        · intro i hi j hj
          simp only [Task.poss, List.mem_singleton] at hi
          rw [hdrop] at hj; omega
        · intro j hj
          rw [hdrop] at hj; omega
    | inners l =>
      obtain ⟨⟨p, rfl, hp⟩, h1, h2⟩ := hT
      simp only [Task.need] at hf
      cases l with
      | nil =>
        refine BuildsI.weaken (builds_nil (C := P.toChart)) ?_ (fun _ _ _ h => h.elim)
        rintro a l b ⟨rfl, rfl⟩
        exact .rnil
      | cons t ts =>
        simp only [List.length_cons] at hf
        rw [build]
        have ht := h1 t (by simp)
        have e1 := (ih (.target t) (some p) L ⟨ht.1, ht.2, .inr ⟨p, rfl⟩⟩ (by simp only [Task.need]; split <;> omega)).toI
        have e2 := ih (.inners ts) (some p) L ⟨⟨p, rfl, hp⟩, fun t' ht' => h1 t' (by simp [ht']), (List.pairwise_cons.1 h2).2⟩
          (by simp only [Task.need]; omega)
        simp only [TaskBuilds] at e2
        have e12 := builds_seq hwf e1 e2 ?_ ?_
        · refine BuildsI.weaken e12 ?_ ?_
          · rintro a l b ⟨l1, h, l2, g1, g2, rfl⟩
            exact .rcons g1 g2
          · rintro a l y (g1 | ⟨l1, h, l2, g1, g2, rfl⟩)
            · exact .first g1
            · exact .later g1 g2
        · intro i hi j hj
          simp only [Task.poss, List.mem_singleton, List.mem_map] at hi hj
          obtain ⟨t', ht', rfl⟩ := hj
          subst hi
          exact (List.pairwise_cons.1 h2).1 t' ht'
        · intro j hj
          simp only [Task.poss, List.mem_map] at hj
          obtain ⟨t', ht', rfl⟩ := hj
          have := h1 t' (by simp [ht'])
          exact Chart.pos_lt_some hwf this.1 this.2

theorem initialConstruct_wp (hwf : P.toChart.WF) (hok : Contract P) (hF : CtorMem P F) :
    Builds P.toChart L none [0] (fun h l h' => Enters P.toChart F h (.tree P.initial) l h')
      (fun h l y => Begins P.toChart F h (.tree P.initial) l y) (initialConstruct P) := by
  have h0 := Chart.pos_root hwf hwf.initial_ok.1 hwf.initial_ok.2
  have := build_wp hwf hok hF (buildFuel P) (.deep P.initial) none L hwf.initial_ok (by
    simp only [Task.need, buildFuel]
    calc (P.n - P.initial) * 300 ≤ (P.n + 1) * 300 := Nat.mul_le_mul_right _ (by omega)
      _ ≤ (P.n + 1) * (P.n + 300) := Nat.mul_le_mul_left _ (by omega))
  simp only [TaskBuilds, Task.poss, Task.goal, h0] at this
  exact this

end SC
