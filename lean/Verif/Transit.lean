import Verif.History
import Verif.ReactSpec
/-!
# Transitions and termination reactions
-/

namespace SC
open Spec Chart
variable {W : Type} {P : Prog W} {L : Sid → Nat} {m : Mach W} {F : Memory → Memory → Prop}

/-- No stack references. -/
abbrev noL : Sid → Nat := fun _ => 0

/-- Observations that change nothing for the life-cycle checker. -/
theorem Inv.user {C : Chart} (h : Inv C L none m) {m' : Mach W} {obs : List Obs} (hu : UserStep m m' obs)
    (ho : ∀ o ∈ obs, lifeStep C ⟨m.act, none⟩ o = some ⟨m.act, none⟩) : Inv C L none m' := by
  refine h.congr hu.core hu.trace ?_ (hu.hist C h.hist)
  rw [hu.trace, hu.core.act, List.map_append, List.map_map]
  have : ∀ (l : List Obs), (∀ o ∈ l, lifeStep C ⟨m.act, none⟩ o = some ⟨m.act, none⟩) →
      ∀ pre, life C pre = some ⟨m.act, none⟩ → life C (pre ++ l) = some ⟨m.act, none⟩ := by
    intro l
    induction l with
    | nil => intro _ pre hp; simpa using hp
    | cons o os ih =>
      intro hl pre hp
      rw [show pre ++ o :: os = (pre ++ [o]) ++ os by simp]
      apply ih (fun o ho => hl o (by simp [ho]))
      rw [life_snoc, hp]
      simpa using hl o (by simp)
  have h2 : obs.map ((fun x : Option Event × Obs => x.2) ∘ fun o => (m.trig, o)) = obs := by
    rw [show ((fun x : Option Event × Obs => x.2) ∘ fun o => (m.trig, o)) = id from rfl, List.map_id]
  rw [h2]
  exact this obs ho _ h.tr

/-- The abstract configuration of a machine. -/
def Mach.conf (m : Mach W) : Conf := ⟨m.act, m.mem⟩

theorem exits_eq (full : Bool) (t : Option Event) (l : List Sid) : exits full t l = (exitObs full l).map (fun o => (t, o)) := by
  unfold exits exitObs
  rw [List.map_flatMap]
  congr 1
  funext s
  cases full <;> rfl

theorem enters_eq (t : Option Event) (l : List Sid) : enters t l = (enterObs l).map (fun o => (t, o)) := by
  unfold enters enterObs
  rw [List.map_map]; rfl

theorem map_snd (t : Option Event) (l : List Obs) : (l.map (fun o => (t, o))).map (·.2) = l := by
  rw [List.map_map, show ((fun x : Option Event × Obs => x.2) ∘ fun o => (t, o)) = id from rfl, List.map_id]

theorem find_inner {C : Chart} (hwf : C.WF) {q : Option Sid → Bool} {c : Option Sid} : ∀ (s : Sid), s < C.n →
    (C.ctxList s).find? q = some c → ∀ x, Outer C x s → q (some x) = true → ∃ p, c = some p ∧ Below C x p := by
  intro s
  induction s using Nat.strongRecOn with
  | _ s ih =>
    intro hs hf x hx hq
    cases hp : C.parent s with
    | none => obtain ⟨p, hp', _⟩ := hx; rw [hp] at hp'; cases hp'
    | some p =>
      rw [ctxList_some hwf hs hp, List.find?_cons] at hf
      obtain ⟨p', hp', hb⟩ := hx
      rw [hp] at hp'; cases hp'
      cases hqp : q (some p) with
      | true => rw [hqp] at hf; cases hf; exact ⟨p, rfl, hb⟩
      | false =>
        rw [hqp] at hf
        rcases hb.eq_or_outer with rfl | ho
        · rw [hqp] at hq; cases hq
        · exact ih p (hwf.parent_lt hs hp) (parent_bound hwf hs hp) hf x ho hq

/-- The library computes the innermost common context. -/
theorem commonCtx_common {C : Chart} (hwf : C.WF) {s d : Sid} (hs : s < C.n) (hd : d < C.n) :
    CommonCtx C s d (C.commonCtx s d) := by
  obtain ⟨h1, h2, h3⟩ := commonCtx_spec hwf hs hd
  constructor
  · intro p hp
    rw [hp] at h1 h2
    constructor
    · rcases (mem_ctxList hwf hs).1 h1 with h | ⟨t, ht, ho⟩
      · cases h
      · cases ht; exact ho
    · rcases (mem_ctxList hwf hd).1 h2 with h | ⟨t, ht, ho⟩
      · cases h
      · cases ht; exact ho
  · intro x hxs hxd
    refine find_inner hwf s hs h3 x hxs ?_
    simp only [List.contains_eq_mem, decide_eq_true_eq]
    exact (mem_ctxList hwf hd).2 (.inr ⟨x, rfl, hxd⟩)

theorem destroys_eq (t : Option Event) (l : List Sid) : destroys t l = (l.map Obs.destroy).map (fun o => (t, o)) := by
  unfold destroys
  rw [List.map_map]; rfl

/-- The observations `obs` were made; `B` relates them to the configuration before. -/
def RCut (B : Conf → List Obs → Prop) (m m' : Mach W) : Prop :=
  ∃ obs, m'.trace = m.trace ++ obs.map (fun o => (m.trig, o)) ∧ B m.conf obs

theorem RCut.imp {B B' : Conf → List Obs → Prop} {m m' : Mach W} (h : RCut B m m') (hb : ∀ obs, B m.conf obs → B' m.conf obs) : RCut B' m m' := by
  obtain ⟨obs, h1, h2⟩ := h
  exact ⟨obs, h1, hb obs h2⟩

theorem ExitCut.until {C : Chart} {t : Option Event} {l : List Sid} {tr : List (Option Event × Obs)} (h : ExitCut C t l tr) :
    ∃ obs, tr = obs.map (fun o => (t, o)) ∧ ExitsUntil C l obs := by
  obtain ⟨x1, y, x2, ob, l', h1, h2, h3, h4⟩ := h
  refine ⟨_, ?_, x1, y, x2, ob, l', h1, h2, rfl, h4⟩
  rw [h3, exits_eq, destroys_eq]; simp

theorem BCut.until {C : Chart} {c : Option Sid} {poss : List Nat} {g : Goal} {m m' : Mach W}
    (h : BCut C c poss (fun h l y => Begins C F h g l y) m m') : RCut (fun c obs => EntersUntil C F c.mem g obs) m m' := by
  obtain ⟨l, y, tail, l3, h1, h2, h3, h4, _⟩ := h
  refine ⟨_, ?_, l, y, tail, l3, h1, h2, rfl, h4⟩
  rw [h3, enters_eq, destroys_eq]; simp

/-- Another value of `isInnermostCommonOuter_` and `performFullExit_`. -/
theorem Inv.setFlags {C : Chart} {pend : Option Sid} (h : Inv C L pend m) (i f : Bool) (t : Option Event) :
    Inv C L pend { m with ico := i, fullExit := f, trig := t } :=
  h.congr' (m' := { m with ico := i, fullExit := f, trig := t }) rfl rfl h.end_le rfl rfl rfl h.tr ⟨h.hist.sh, h.hist.dh⟩

/-- Dropping a stack reference after a failure keeps the machine unstable or empty. -/
structure Failed (C : Chart) (L : Sid → Nat) (m m' : Mach W) : Prop where
  inv : Inv C L none m'
  unstable : m'.pOU ≠ none ∨ ∀ x, m'.act x = false
  fullExit : m'.fullExit = m.fullExit
  trig : m'.trig = m.trig

/-- The pointer to the outermost unstable state is right, if there was no unstable state in `m`. -/
def Torn (C : Chart) (m m' : Mach W) : Prop :=
  ∃ obs, m'.trace = m.trace ++ obs ∧
    (∀ x, Unstable C m.act (obs.map (·.2)) m'.act x → ∃ u, m'.pOU = some u ∧ Below C u x) ∧
    ∀ u, m'.pOU = some u → Unstable C m.act (obs.map (·.2)) m'.act u

/-- As `Torn`, but after an interrupted late exit the pointer may point to any unstable state. -/
def Shaken (C : Chart) (m m' : Mach W) : Prop :=
  ∃ obs, m'.trace = m.trace ++ obs ∧
    (∀ x, Unstable C m.act (obs.map (·.2)) m'.act x → ∃ u, m'.pOU = some u ∧ (C.relaxed = false ∨ ¬ LateExit (obs.map (·.2)) → Below C u x)) ∧
    ∀ u, m'.pOU = some u → Unstable C m.act (obs.map (·.2)) m'.act u

theorem Torn.shaken {C : Chart} {m m' : Mach W} (h : Torn C m m') : Shaken C m m' := by
  obtain ⟨obs, h1, h2, h3⟩ := h
  refine ⟨obs, h1, fun x hx => ?_, h3⟩
  obtain ⟨u, h4, h5⟩ := h2 x hx
  exact ⟨u, h4, fun _ => h5⟩

theorem Spec.LateExit.after {o2 : List Obs} (h : LateExit o2) (o1 : List Obs) : LateExit (o1 ++ o2) := by
  obtain ⟨p, q, a, rfl, ⟨y, h1⟩, h2⟩ := h
  exact ⟨o1 ++ p, q, a, by simp, ⟨y, List.mem_append_right _ h1⟩, h2⟩

theorem Spec.LateExit.destroys {o : List Obs} (h : LateExit o) (l : List Sid) : LateExit (o ++ l.map .destroy) := by
  obtain ⟨p, q, a, rfl, h1, ⟨z, h2⟩, h3⟩ := h
  refine ⟨p, q ++ l.map .destroy, a, by simp, h1, ⟨z, h2.imp (List.mem_append_left _) (List.mem_append_left _)⟩, ?_⟩
  intro o ho
  rcases List.mem_append.1 ho with ho | ho
  · exact h3 o ho
  · obtain ⟨x, _, rfl⟩ := List.mem_map.1 ho
    exact ⟨x, .inr (.inr rfl)⟩

/-- After quiet steps. -/
theorem Shaken.after {C : Chart} {m m1 m2 : Mach W} (ha : m1.act = m.act) (hn : NoEnter m m1) (h : Shaken C m1 m2) : Shaken C m m2 := by
  obtain ⟨o1, e1, g1⟩ := hn
  obtain ⟨o2, e2, g2, g3⟩ := h
  have key : ∀ x, Unstable C m.act ((o1 ++ o2).map (·.2)) m2.act x ↔ Unstable C m1.act (o2.map (·.2)) m2.act x := by
    intro x
    have : Obs.enter x ∈ (o1 ++ o2).map (·.2) ↔ Obs.enter x ∈ o2.map (·.2) := by
      simp only [List.map_append, List.mem_append]
      refine ⟨fun h => h.elim (fun h => ?_) id, .inr⟩
      obtain ⟨e, he, hx⟩ := List.mem_map.1 h
      exact absurd hx (g1 e he x)
    unfold Unstable
    rw [this, ha]
  refine ⟨o1 ++ o2, by rw [e2, e1, List.append_assoc], fun x hx => ?_, fun u hu => (key u).2 (g3 u hu)⟩
  obtain ⟨u, h1, h2⟩ := g2 x ((key x).1 hx)
  refine ⟨u, h1, fun h => h2 (h.imp id fun h hl => h ?_)⟩
  rw [List.map_append]; exact hl.after _

theorem Torn.refl {C : Chart} {m m' : Mach W} (hn : NoEnter m m') (ha : m'.act = m.act) (hp : m'.pOU = none) : Torn C m m' := by
  obtain ⟨o, e, g⟩ := hn
  refine ⟨o, e, ?_, fun u hu => by rw [hp] at hu; cases hu⟩
  rintro x ⟨_, i, _, h1, h2 | ⟨y, h2, h3, h4⟩⟩
  · obtain ⟨e, he, hx⟩ := List.mem_map.1 h2
    exact absurd hx (g e he x)
  · have := h1 y h2 h3
    rw [ha, h4] at this; cases this

theorem Torn.dead {C : Chart} {m m' : Mach W} (hi : Inv C L none m') (ht : ∃ obs, m'.trace = m.trace ++ obs) (hd : ∀ x, m'.act x = false) : Torn C m m' := by
  obtain ⟨o, e⟩ := ht
  refine ⟨o, e, ?_, ?_⟩
  · rintro x ⟨h, _⟩; rw [hd] at h; cases h
  · intro u hu
    have := (hi.ou_live hu).1
    rw [show (m'.heap u).isSome = m'.act u from rfl, hd] at this; cases this

/-- Live states of the same region are equal. -/
theorem Inv.same_region {C : Chart} {pend : Option Sid} (h : Inv C L pend m) {a b : Sid} (ha : (m.heap a).isSome)
    (hb : (m.heap b).isSome) (hp : C.parent a = C.parent b) (hpos : C.pos a = C.pos b) : a = b := by
  cases hpa : C.parent a with
  | none => exact h.root_unique ha hb hpa (by rw [← hp, hpa])
  | some p =>
    obtain ⟨o, ho⟩ := Option.isSome_iff_exists.1 (h.par_live ha hpa)
    have h1 := (h.inner_iff ho).2 ⟨ha, hpa, rfl⟩
    have h2 := (h.inner_iff ho).2 ⟨hb, by rw [← hp, hpa], rfl⟩
    rw [hpos] at h1
    rw [h1] at h2; exact Option.some.inj h2

/-- A region that lost its state is empty. -/
theorem Lost.unstable {C : Chart} (hwf : C.WF) {m m' : Mach W} (hi : Inv C L none m) (hs : ∀ x, m'.act x = true → m.act x = true) {u : Sid}
    (h : Lost C m.act m'.act u) (obs : List Obs) : Unstable C m.act obs m'.act u := by
  obtain ⟨h1, y, h2, h3, h4⟩ := h
  refine ⟨h1, C.pos y, Chart.pos_lt_some hwf (hi.live_bound h3) h2, ?_, .inr ⟨y, h2, rfl, h3⟩⟩
  intro z hz1 hz2
  cases hz : m'.act z with
  | false => rfl
  | true =>
    have := hi.same_region (hs z hz) h3 (by rw [hz1, h2]) hz2
    subst this; rw [h4] at hz; cases hz

/-- Exits only. -/
theorem Gap.torn {C : Chart} (hwf : C.WF) {m m' : Mach W} (hi : Inv C L none m) (h : Gap C m m') (hs : ∀ x, m'.act x = true → m.act x = true)
    (hn : NoEnter m m') (hp : m.pOU = none) : Torn C m m' := by
  obtain ⟨o, e, g⟩ := hn
  refine ⟨o, e, ?_, ?_⟩
  · rintro x ⟨hx, i, _, h1, h2 | ⟨y, h2, h3, h4⟩⟩
    · obtain ⟨e, he, hx⟩ := List.mem_map.1 h2
      exact absurd hx (g e he x)
    · exact h.cover x ⟨hx, y, h2, h4, h1 y h2 h3⟩
  · intro u hu
    rcases h.src u hu with h' | h'
    · rw [hp] at h'; cases h'
    · exact h'.unstable hwf hi hs _

/-- Dropping the reference to the context `p` of a state that existed. -/
theorem Gap.release (hwf : P.toChart.WF) {m m1 m' : Mach W} {l : List Sid} {p t : Sid} (hm1 : Inv P.toChart (inc L p) none m1)
    (hr : RelPost P (inc L p) p m1 m' l) (h : Gap P.toChart m m1) (hs : ∀ x, m1.act x = true → m.act x = true)
    (ht : m.act t = true) (htp : P.parent t = some p) (htn : t < P.n) : Gap P.toChart m m' := by
  have hi := hr.inv
  rw [dec_inc] at hi
  have hmem : ∀ y, m1.act y = true → m'.act y = false → y ∈ l := by
    intro y h1 h2
    rw [hr.act] at h2
    simpa [without, h1] using h2
  have hsub : ∀ y, m'.act y = true → m1.act y = true := by
    intro y hy
    rw [hr.act] at hy
    simp [without] at hy; exact hy.1
  have hpl : m1.act p = true := hm1.L_live (s := p) (by simp)
  refine ⟨?_, ?_, fun u hu ha => by rw [hr.frame.pOU]; exact h.keep u hu (hsub u ha)⟩
  · rintro x ⟨hx, y, hyp, hy, hy'⟩
    rw [hr.frame.pOU]
    cases hy1 : m1.act y with
    | false => exact h.cover x ⟨hsub x hx, y, hyp, hy, hy1⟩
    | true =>
      have hyb := hr.below y (hmem y hy1 hy')
      -- `p` is gone, so it lost `t`
      have hp' : m'.act p = false := by
        cases hp' : m'.act p with
        | false => rfl
        | true =>
          have := hi.live_of_below hyb hp'
          rw [show (m'.heap y).isSome = m'.act y from rfl, hy'] at this; cases this
      have ht1 : m1.act t = false := by
        cases ht1 : m1.act t with
        | false => rfl
        | true =>
          cases ht' : m'.act t with
          | true =>
            have := hi.par_live ht' htp
            rw [show (m'.heap p).isSome = m'.act p from rfl, hp'] at this; cases this
          | false =>
            have := (hr.below t (hmem t ht1 ht')).le hwf (parent_bound hwf htn htp)
            have := hwf.parent_lt htn htp
            omega
      obtain ⟨u, hu, hb⟩ := h.cover p ⟨hpl, t, htp, ht, ht1⟩
      refine ⟨u, hu, ?_⟩
      have hul : m'.act u = true := (hi.ou_live (by rw [hr.frame.pOU]; exact hu)).1
      rcases hb.linear hyb with hb' | hb'
      · cases hb' with
        | refl => rw [hul] at hy'; cases hy'
        | step hp'' hb'' => rw [hyp] at hp''; cases hp''; exact hb''
      · have := hi.live_of_below hb' hul
        rw [show (m'.heap y).isSome = m'.act y from rfl, hy'] at this; cases this
  · intro u hu
    have hul : m'.act u = true := (hi.ou_live hu).1
    rw [hr.frame.pOU] at hu
    rcases h.src u hu with h' | ⟨h1, y, h2, h3, h4⟩
    · exact .inl h'
    · refine .inr ⟨hul, y, h2, h3, ?_⟩
      cases hy : m'.act y with
      | false => rfl
      | true => rw [hsub y hy] at h4; cases h4

/-- No state was entered or exited, the list of innermost states is unchanged and no queued
event was removed. -/
structure Quiet (m m' : Mach W) : Prop where
  act : m'.act = m.act
  slot : m'.slot = m.slot
  endIx : m'.endIx = m.endIx
  pOU : m'.pOU = m.pOU
  ico : m'.ico = m.ico
  evq : m.evq <+: m'.evq
  dq : m'.dq = m.dq

theorem Quiet.refl (m : Mach W) : Quiet m m := ⟨rfl, rfl, rfl, rfl, rfl, List.prefix_refl _, rfl⟩
theorem Quiet.trans {a b c : Mach W} (h1 : Quiet a b) (h2 : Quiet b c) : Quiet a c :=
  ⟨by rw [h2.act, h1.act], by rw [h2.slot, h1.slot], by rw [h2.endIx, h1.endIx], by rw [h2.pOU, h1.pOU], by rw [h2.ico, h1.ico],
   h1.evq.trans h2.evq, by rw [h2.dq, h1.dq]⟩

theorem UserStep.quiet {m m' : Mach W} {obs : List Obs} (h : UserStep m m' obs) : Quiet m m' :=
  ⟨h.core.act, h.core.slot, h.core.endIx, h.core.pOU, h.core.ico, h.queue.1, h.queue.2⟩

/-- Failure of a reaction. -/
structure Fails (C : Chart) (m m' : Mach W) : Prop extends Failed C noL m m' where
  torn : m.pOU = none → Torn C m m'

theorem Failed.release (hwf : P.toChart.WF) {p : Sid} {m1 : Mach W} (h : Failed P.toChart (inc L p) m m1) :
    wp (release P p) (fun _ m' => Failed P.toChart L m m') (fun _ _ => False) m1 := by
  refine wp_mono (release_wp hwf h.inv (by simp) (.inl rfl)) ?_ (fun _ _ h => h)
  rintro _ m' ⟨l, hr⟩
  have hi := hr.inv
  rw [dec_inc] at hi
  refine ⟨hi, ?_, by rw [hr.frame.fullExit, h.fullExit], by rw [hr.frame.trig, h.trig]⟩
  rcases h.unstable with h1 | h1
  · left; rw [hr.frame.pOU]; exact h1
  · right; intro x; rw [hr.act]; simp [without, h1]

/-- The subtree of `s` in exit order has every member below `s` exactly. -/
theorem Inv.mem_exitOrder {C : Chart} {pend : Option Sid} (hwf : C.WF) (h : Inv C L pend m) {s x : Sid} (hs : (m.heap s).isSome) :
    x ∈ exitOrder C m.act s ↔ (m.act x = true ∧ Below C s x) := by
  constructor
  · intro hx
    have hb := exitOrderF_below _ _ _ hx
    refine ⟨?_, hb.1⟩
    rcases hb.2 with rfl | h2
    · exact hs
    · exact h2
  · rintro ⟨h1, h2⟩
    exact h.mem_exitOrderF hwf _ _ _ (Nat.le_refl _) h1 h2

/-- Where the unstable state may be when a reaction of `s` runs. -/
def OUBelow (C : Chart) (s : Sid) (m : Mach W) : Prop := ∀ u, m.pOU = some u → Below C s u

theorem OUBelow.up {C : Chart} {s t : Sid} (h : OUBelow C s m) (hb : Below C t s) : OUBelow C t m :=
  fun u hu => Below.trans hb (h u hu)

/-- Exit of the subtree of `t` whose context is kept alive. -/
theorem exitSubtree_wp (hwf : P.toChart.WF) (full : Bool) {t : Sid} (h : Inv P.toChart L none m) (ht : (m.heap t).isSome)
    (hL : ∀ x, Below P.toChart t x → L x = 0) (hc : ∀ p, P.parent t = some p → L p ≠ 0) (hou : OUBelow P.toChart t m) :
    wp (terminateState P t full)
      (fun _ m' => ExitPost P.toChart L full { m with ico := false } m' (exitOrder P.toChart m.act t) ∧ m'.pOU = P.parent t)
      (fun _ m' => ExitFail P.toChart L full t { m with ico := false } m' (exitOrder P.toChart m.act t)) m := by
  have htn := h.live_bound ht
  have hrem : removalF P.toChart L m.act (P.n - t) t = exitOrder P.toChart m.act t := by
    unfold removalF exitOrder
    have : upward P.toChart (lockOf L) (without m.act (exitOrderF P.toChart m.act (P.n - t) t)) (P.parent t) = [] := by
      cases hpt : P.parent t with
      | none => rfl
      | some p =>
        rw [upward_some hwf _ _ (parent_bound hwf htn hpt), if_pos]
        simp [lockOf, hc p hpt]
    rw [this, List.append_nil]
  refine wp_mono (terminateState_wp hwf full h ht hL) ?_ (fun _ _ h => hrem ▸ h)
  intro _ m' hp
  rw [hrem] at hp
  refine ⟨hp, ?_⟩
  rw [hp.pOU]
  unfold ouAfter
  have hlast : (exitOrder P.toChart m.act t).getLast? = some t := by
    unfold exitOrder
    obtain ⟨k, hk⟩ : ∃ k, P.n - t = k + 1 := ⟨P.n - t - 1, by omega⟩
    rw [hk]; exact exitOrderF_last k t
  rw [hlast]
  cases hu : m.pOU with
  | none => rfl
  | some u =>
    simp only
    rw [if_pos]
    exact (h.mem_exitOrder hwf ht).2 ⟨(h.ou_live hu).1, hou u hu⟩

theorem wp_runAction (h : Inv P.toChart L none m) (a : Option Nat) {Q : Unit → Mach W → Prop} {E : Exc → Mach W → Prop}
    (hq : ∀ m', UserStep m m' (acts a) → Inv P.toChart L none m' → Q () m')
    (he : ∀ x m', UserStep m m' (acts a) → Inv P.toChart L none m' → a ≠ none → E x m') : wp (runAction P a) Q E m := by
  cases a with
  | none => exact hq m ⟨.refl _, by simp [acts], fun _ h => h, List.prefix_refl _, rfl⟩ h
  | some a =>
    refine wp_runUser ?_ ?_
    · intro m' hu; exact hq m' hu (h.user hu (by simp [lifeStep]))
    · intro x m' hu; exact he x m' hu (h.user hu (by simp [lifeStep])) (by simp)

/-- Result of a completed transition of `s` to `d`: the subtree of `t` was
exited, the action ran, the states `l` were entered. -/
structure TransitPost (C : Chart) (F : Memory → Memory → Prop) (s : Sid) (d : Target) (a : Option Nat) (t : Sid) (m m' : Mach W)
    (l : List Sid) : Prop where
  term : C.termState s d.st = some t
  inv : Inv C noL none m'
  pOU : m'.pOU = none
  ico : m'.ico = false
  fullExit : m'.fullExit = m.fullExit
  trig : m'.trig = m.trig
  trace : m'.trace = m.trace ++ exits m.fullExit m.trig (exitOrder C m.act t) ++ (acts a).map (fun o => (m.trig, o)) ++ enters m.trig l
  act : ∀ x, m'.act x = true ↔ (m.act x = true ∧ ¬ Below C t x) ∨ x ∈ l
  entered : ∀ x ∈ l, ∃ c, C.parent c = C.commonCtx s d.st ∧ C.pos c = C.pos t ∧ Below C c x
  mem : ∃ h1, MemRun C F m.mem (((exits m.fullExit m.trig (exitOrder C m.act t)).map (·.2)) ++ acts a) h1 ∧
    Enters C F h1 (.down (C.commonCtx s d.st) d) l m'.mem

set_option maxRecDepth 4096 in
theorem buildFuel_chain {C : Chart} {c : Option Sid} {d : Target} :
    (Task.chain (C.pathBelow c d.st) d).need C c ≤ (C.n + 1) * (C.n + 300) := by
  simp only [Task.need]
  have h1 : ctxNeed C c ≤ C.n * 300 := by
    cases c with
    | none => exact Nat.le_refl _
    | some p => exact Nat.mul_le_mul_right _ (by omega)
  have h2 : (C.n + 1) * 300 ≤ (C.n + 1) * (C.n + 300) := Nat.mul_le_mul_left _ (by omega)
  split <;> omega

/-- What became active was entered. -/
theorem life_entered {C : Chart} {x : Sid} : ∀ (obs pre : List Obs) (st st' : Life), life C pre = some st → life C (pre ++ obs) = some st' →
    st'.act x = true → st.act x = false → Obs.enter x ∈ obs := by
  intro obs
  induction obs with
  | nil => intro pre st st' h1 h2 h3 h4; rw [List.append_nil, h1] at h2; cases h2; rw [h4] at h3; cases h3
  | cons o os ih =>
    intro pre st st' h1 h2 h3 h4
    have h5 : pre ++ o :: os = (pre ++ [o]) ++ os := by simp
    rw [h5] at h2
    cases h6 : life C (pre ++ [o]) with
    | none =>
      exfalso
      have : ∀ l : List Obs, l.foldl (fun st o => st.bind fun l => lifeStep C l o) none = none := by
        intro l
        induction l with
        | nil => rfl
        | cons b l ih' => exact ih'
      unfold life at h2 h6
      rw [List.foldl_append, h6, this] at h2; cases h2
    | some st1 =>
      cases h7 : st1.act x with
      | false => exact List.mem_cons_of_mem _ (ih _ _ _ h6 h2 h3 h7)
      | true =>
        rw [life_snoc, h1] at h6
        replace h6 : lifeStep C st o = some st1 := h6
        have : o = .enter x := by
          cases o <;> simp only [lifeStep] at h6 <;> split at h6 <;> cases h6
          case enter y _ =>
            simp only at h7
            split at h7
            · next he => rw [he]
            · rw [h4] at h7; cases h7
          case destroy y _ =>
            simp only at h7
            split at h7
            · cases h7
            · rw [h4] at h7; cases h7
          all_goals (rw [h4] at h7; cases h7)
        rw [this]; simp

/-- Failure of the entry part of a transition after the subtree of `t` was exited. -/
theorem torn_entry {C : Chart} (hwf : C.WF) {L' : Sid → Nat} {c : Option Sid} {t : Sid} {m m3 m4 : Mach W} (hi : Inv C L none m) (hi3 : Inv C L' none m3)
    (hn : NoEnter m m3) (ht : m.act t = true) (htp : C.parent t = c) (hact : ∀ x, m3.act x = true ↔ m.act x = true ∧ ¬ Below C t x)
    (h : BThrow C L' c [C.pos t] m3 m4) (hc : critB C c [C.pos t] m3) : Torn C m m4 := by
  obtain ⟨o1, e1, g1⟩ := hn
  obtain ⟨o2, e2, g2⟩ := h.fresh
  have hno1 : ∀ x, Obs.enter x ∉ o1.map (·.2) := by
    intro x hx
    obtain ⟨e, he, hx⟩ := List.mem_map.1 hx
    exact g1 e he x hx
  have hgone : ∀ x, Below C t x → m3.act x = false := by
    intro x hx
    cases hx3 : m3.act x with
    | false => rfl
    | true => exact absurd hx ((hact x).1 hx3).2
  refine ⟨o1 ++ o2, by rw [e2, e1, List.append_assoc], ?_, ?_⟩
  · rintro x ⟨hx, i, hi1, hi2, hor⟩
    have he : EmptyAt C m4.act x i := ⟨hi1, hi2⟩
    rcases hor with hor | ⟨y, hy1, hy2, hy3⟩
    · rw [List.map_append, List.mem_append] at hor
      obtain ⟨e, he', hx'⟩ := List.mem_map.1 (hor.resolve_left (hno1 x))
      exact h.cover hc x i hx (g2 e he' x hx') he
    · have hy4 := hi2 y hy1 hy2
      have hyb : Below C t y := by
        refine Classical.byContradiction fun hn => ?_
        rw [h.sub y ((hact y).2 ⟨hy3, hn⟩)] at hy4; cases hy4
      cases hyb with
      | refl =>
        have hcx : c = some x := by rw [← htp, hy1]
        exact ⟨x, h.inner hc x i hcx (by simp [← hy2]) he, .refl⟩
      | step hp hb =>
        rw [hy1] at hp; cases hp
        exact h.cover hc x i hx (hgone x hb) he
  · intro u hu
    have hul : m4.act u = true := (h.inv.ou_live hu).1
    obtain ⟨i, he, hor⟩ := h.src hc u hu
    refine ⟨hul, i, he.1, he.2, ?_⟩
    rcases hor with hor | ⟨h1, h2⟩
    · left
      rw [List.map_append, List.mem_append]
      right
      refine life_entered _ _ _ ⟨m4.act, none⟩ hi3.tr ?_ hul hor
      rw [← List.map_append, ← e2]; exact h.inv.tr
    · right
      rw [List.mem_singleton] at h2
      exact ⟨t, by rw [htp, h1], h2.symm, ht⟩

/-- Failure of the initial entry. -/
theorem torn_init {C : Chart} {m m' : Mach W} (hi : Inv C L none m) (hd : ∀ x, m.act x = false) (h : BThrow C L none [0] m m')
    (hc : critB C none [0] m) : Torn C m m' := by
  obtain ⟨o, e, g⟩ := h.fresh
  refine ⟨o, e, ?_, ?_⟩
  · rintro x ⟨hx, i, hi1, hi2, _⟩
    exact h.cover hc x i hx (hd x) ⟨hi1, hi2⟩
  · intro u hu
    have hul : m'.act u = true := (h.inv.ou_live hu).1
    obtain ⟨i, he, _⟩ := h.src hc u hu
    refine ⟨hul, i, he.1, he.2, .inl (life_entered _ _ _ ⟨m'.act, none⟩ hi.tr ?_ hul (hd u))⟩
    rw [← List.map_append, ← e]; exact h.inv.tr

theorem Torn.congr {C : Chart} {m m1 m2 : Mach W} (h : Torn C m m1) (ha : m2.act = m1.act) (hp : m2.pOU = m1.pOU) (ht : m2.trace = m1.trace) : Torn C m m2 := by
  unfold Torn at *
  rw [ha, hp, ht]; exact h

/-- The entry part of a transition. -/
theorem transitBuild_wp (hwf : P.toChart.WF) (hok : Contract P) (hF : CtorMem P F) {c : Option Sid} {d : Target} (hd : TargetOK P.toChart d)
    (hc : c ∈ P.ctxList d.st) : Builds P.toChart L c [P.pos (P.firstEntered c d.st)]
      (fun h l h' => Enters P.toChart F h (.down c d) l h') (fun h l y => Begins P.toChart F h (.down c d) l y) (build P (buildFuel P) (.chain (P.pathBelow c d.st) d)) :=
  build_wp hwf hok hF (buildFuel P) (.chain (P.pathBelow c d.st) d) c L ⟨hd, pathBelow_path hwf hd.bound hc⟩ buildFuel_chain

/-- States at or outside the outermost unstable state are kept. -/
theorem RelPost.keep_ou {p u : Sid} {m' : Mach W} {l : List Sid} (hr : RelPost P L p m m' l) (hu : m.pOU = some u) (hpu : Below P.toChart p u) : l = [] := by
  have hp' : (m'.heap p).isSome := hr.inv.live_of_below hpu (hr.inv.ou_live (by rw [hr.frame.pOU]; exact hu)).1
  cases l with
  | nil => rfl
  | cons y l =>
    exfalso
    have hy := hr.inv.live_of_below (hr.below y (by simp)) hp'
    rw [show (m'.heap y).isSome = m'.act y from rfl, hr.act] at hy
    simp [without] at hy

/-- Entering the destination and dropping the reference to the common context. -/
theorem transitEnter_wp (hwf : P.toChart.WF) (hok : Contract P) (hF : CtorMem P F) {c : Option Sid} {d : Target} (hd : TargetOK P.toChart d)
    (hc : c ∈ P.ctxList d.st) (h : Inv P.toChart (incCtx noL c) none m) (hico : m.ico = true) (hou : m.pOU = c)
    (hempty : ∀ x, (m.heap x).isSome → P.parent x = c → P.pos x ≠ P.pos (P.firstEntered c d.st)) :
    wp (M.finally' (build P (buildFuel P) (.chain (P.pathBelow c d.st) d)) (match (generalizing := false) c with
        | none => pure ()
        | some p => release P p))
      (fun _ m' => ∃ l, BPost P.toChart noL c [P.pos (P.firstEntered c d.st)]
        (fun h l h' => Enters P.toChart F h (.down c d) l h') m m' l)
      (fun _ m' => Failed P.toChart noL m m' ∧ ∃ m1, BThrow P.toChart (incCtx noL c) c [P.pos (P.firstEntered c d.st)] m m1 ∧
        m'.act = m1.act ∧ m'.pOU = m1.pOU ∧ m'.trace = m1.trace ∧ RCut (fun h obs => EntersUntil P.toChart F h.mem (.down c d) obs) m m1) m := by
  have hpre : BPre P.toChart (incCtx noL c) c [P.pos (P.firstEntered c d.st)] m := by
    refine ⟨h, ?_, ?_, fun _ => hou⟩
    · rintro p rfl; simp [incCtx]
    · intro x h1 h2 h3
      simp only [List.mem_singleton] at h3
      exact hempty x h1 h2 h3
  simp only [wp_finally]
  refine wp_mono (transitBuild_wp hwf hok hF hd hc m hpre) ?_ ?_
  · rintro _ m1 ⟨l, hl⟩
    cases c with
    | none => exact ⟨l, hl⟩
    | some p =>
      have hil := hl.inv
      have hplive := hil.L_live (s := p) (by simp [incCtx])
      obtain ⟨o, ho⟩ := Option.isSome_iff_exists.1 hplive
      obtain ⟨x, hx1, hx2, hx3⟩ := hl.filled _ (List.mem_singleton.2 rfl)
      have hin := (hil.inner_iff ho).2 ⟨hx1, hx2, rfl⟩
      have hn := nch_pos (Chart.pos_lt_some hwf (hil.live_bound hx1) hx2) hin
      have hrc := hil.rc ho
      simp only [incCtx, inc_same] at hrc
      have h2 : 2 ≤ o.rc := by omega
      refine release_keep ho h2 ?_
      have hd := hil.dropRef ho (by simp [incCtx]) h2
      simp only [incCtx, dec_inc] at hd
      have hact : ∀ x, Mach.act { m1 with heap := upd m1.heap p (some { o with rc := o.rc - 1 }) } x = m1.act x := by
        intro x
        simp only [Mach.act, upd]
        split
        · next hxp => subst hxp; simp [ho]
        · rfl
      refine ⟨l, hd, ?_, hl.trace, hl.crit, hl.ncrit, hl.ico, hl.fullExit, hl.trig, hl.region, ?_, ?_, hl.mem⟩
      · intro x; rw [hact]; exact hl.act x
      · intro i hi
        obtain ⟨c, g1, g2, g3⟩ := hl.filled i hi
        exact ⟨c, by rw [hact]; exact g1, g2, g3⟩
      · intro x hx i he
        exact hl.complete x hx i (he.mono fun y hy => by rw [hact]; exact hy)
  · rintro x m1 ⟨h1, hcut⟩
    have hcut := hcut.until
    have hf : Failed P.toChart (incCtx noL c) m m1 := ⟨h1.inv, h1.crit (.inl hico), h1.fullExit, h1.trig⟩
    cases c with
    | none => exact ⟨hf, m1, h1, rfl, rfl, rfl, hcut⟩
    | some p =>
      have hrw := wp_and (hf.release hwf) (release_wp hwf h1.inv (by simp [incCtx]) (.inl rfl))
      refine wp_mono hrw ?_ (fun _ _ h => h.1.elim)
      rintro _ m' ⟨hf', l, hr⟩
      have hpl : m1.act p = true := h1.inv.L_live (s := p) (by simp [incCtx])
      obtain ⟨u, hu⟩ : ∃ u, m1.pOU = some u := by
        cases hu : m1.pOU with
        | some u => exact ⟨u, rfl⟩
        | none =>
          rcases h1.crit (.inl hico) with h' | h'
          · exact absurd hu h'
          · rw [h' p] at hpl; cases hpl
      have hpu : Below P.toChart p u := by
        obtain ⟨i, _, h' | h'⟩ := h1.src (.inl hico) u hu
        · obtain ⟨c, k1, _, k3⟩ := h1.region u (h1.inv.ou_live hu).1 h'
          exact Below.trans (.step k1 .refl) k3
        · cases h'.1; exact .refl
      obtain rfl := hr.keep_ou hu hpu
      exact ⟨hf', m1, h1, by rw [hr.act, without_nil], hr.frame.pOU, by rw [hr.trace]; simp [destroys], hcut⟩

theorem UserMem.ctorMem (hF : UserMem P F) : CtorMem P F := hF.ctor

theorem memK_obs {C : Chart} (hF : PreOrd F) {m m' : Mach W} {obs : List (Option Event × Obs)} (h : (memK C hF).R m m')
    (ht : m'.trace = m.trace ++ obs) : MemRun C F m.mem (obs.map (·.2)) m'.mem := by
  obtain ⟨o, h1, h2⟩ := h
  rw [ht] at h1
  rw [List.append_cancel_left h1]; exact h2

theorem Inv.exitList {C : Chart} {pend : Option Sid} (hwf : C.WF) (h : Inv C L pend m) {s : Sid} (hs : (m.heap s).isSome) :
    ExitList C (fun x => m.act x = true ∧ Below C s x) (exitOrder C m.act s) := by
  have hp : (exitOrder C m.act s).Pairwise (ExitsBefore C) := exitOrderF_pairwise _ _ _
  exact ⟨fun x => h.mem_exitOrder hwf hs, nodup_of_pairwise hp fun x hx => ExitsBefore.irrefl hwf (h.live_bound ((h.mem_exitOrder hwf hs).1 hx).1), hp⟩

/-- Without relaxed transition context all states are left before the action. -/
theorem Inv.leaves {C : Chart} {pend : Option Sid} (hwf : C.WF) (h : Inv C L pend m) {t : Sid} (ht : (m.heap t).isSome) (hr : C.relaxed = false) (a : Option Nat) :
    Leaves C m.act t (Before C a) (exitOrder C m.act t) [] := by
  have he := h.exitList hwf ht
  have hb := before_default hr a
  exact ⟨⟨fun x => ⟨fun hx => ⟨(he.mem x).1 hx, hb x⟩, fun hx => (he.mem x).2 hx.1⟩, he.nodup, he.order⟩,
    ⟨fun x => ⟨fun hx => absurd hx List.not_mem_nil, fun hx => absurd (hb x) hx.2⟩, .nil, .nil⟩⟩

/-- A transition without relaxed transition context. -/
theorem transitDefault_wp (hwf : P.toChart.WF) (hok : Contract P) (hF : UserMem P F) {s : Sid} {d : Target} {a : Option Nat}
    (htr : P.transitOK s d a = true) (h : Inv P.toChart noL none m) (hs : (m.heap s).isSome) (hou : OUBelow P.toChart s m) :
    wp (transitDefault P s d a)
      (fun _ m' => ∃ t l, TransitPost P.toChart F s d a t m m' l)
      (fun _ m' => Fails P.toChart m m' ∧ (P.relaxed = false → RCut (TransitsUntil P.toChart F m.fullExit s d a) m m')) m := by
  obtain ⟨hsn, hdn, t, ht, hpos⟩ := transitOK_spec htr
  obtain ⟨t', ht', htp, htb⟩ := termState_spec hwf hsn hdn.bound
  rw [ht] at ht'; cases ht'
  obtain ⟨_, hcd, _⟩ := commonCtx_spec hwf hsn hdn.bound
  have hcommon := commonCtx_common hwf hsn hdn.bound
  have htl := h.live_of_below htb hs
  have htn := h.live_bound htl
  obtain ⟨ot, hot⟩ := Option.isSome_iff_exists.1 htl
  unfold transitDefault
  rw [ht]
  simp only [wp_bind, wp_getObj]
  refine ⟨ot, hot, ?_⟩
  generalize hc : P.commonCtx s d.st = c at *
  -- taking the reference
  have hlock : ∀ (Q : Unit → Mach W → Prop) (E : Exc → Mach W → Prop),
      (∀ m1, Inv P.toChart (incCtx noL c) none m1 → m1.act = m.act → m1.trace = m.trace → m1.mem = m.mem → m1.pOU = m.pOU →
        m1.fullExit = m.fullExit → m1.trig = m.trig → Q () m1) →
      wp (match c with
        | none => pure ()
        | some p => addRef p) Q E m := by
    intro Q E hq
    cases c with
    | none => exact hq m h rfl rfl rfl rfl rfl rfl
    | some p =>
      obtain ⟨op, hop⟩ := Option.isSome_iff_exists.1 (h.par_live htl htp)
      simp only [addRef, wp_bind, wp_getObj]
      refine ⟨op, hop, ?_⟩
      simp only [wp_setObj]
      refine hq _ (h.addRef hop) ?_ rfl rfl rfl rfl rfl
      funext x
      simp only [Mach.act, upd]
      split
      · next hx => subst hx; simp [hop]
      · rfl
  apply hlock
  intro m1 h1 hact1 htr1 hmem1 hou1 hfe1 htg1
  -- all failures
  have hfail : ∀ (m' : Mach W), Failed P.toChart (incCtx noL c) m m' → (∀ x, m'.act x = true → m.act x = true) → NoEnter m m' →
      (m.pOU = none → Gap P.toChart m m') →
      (∃ obs, m'.trace = m.trace ++ obs.map (fun o => (m.trig, o)) ∧ ∀ l : List Sid, (∀ x ∈ l, Outer P.toChart x t) →
        (∀ p, c = some p → m'.pOU = some p → l = []) → (c = none → l = []) →
        P.relaxed = false → TransitsUntil P.toChart F m.fullExit s d a m.conf (obs ++ l.map .destroy)) →
      wp (match (generalizing := false) c with
        | none => pure ()
        | some p => release P p) (fun _ m'' => Fails P.toChart m m'' ∧ (P.relaxed = false → RCut (TransitsUntil P.toChart F m.fullExit s d a) m m'')) (fun _ _ => False) m' := by
    rintro m' hf hsub hne hg ⟨obs, hcut, hbr⟩
    cases c with
    | none =>
      exact ⟨⟨hf, fun hn => (hg hn).torn hwf h hsub hne hn⟩, fun hrl => ⟨obs, hcut, by simpa using hbr [] (by simp) (fun _ _ _ => rfl) (fun _ => rfl) hrl⟩⟩
    | some p =>
      refine wp_mono (wp_and (hf.release hwf) (release_wp hwf hf.inv (by simp [incCtx]) (.inl rfl))) ?_ (fun _ _ h => h.1.elim)
      rintro _ m'' ⟨hf', l, hr⟩
      refine ⟨⟨hf', fun hn => ?_⟩, fun hrl => ⟨_, ?_, hbr l (fun x hx => ⟨p, htp, hr.below x hx⟩) (fun q hq hu => by cases hq; exact hr.keep_ou hu .refl) (fun h => by cases h) hrl⟩⟩
      rotate_left
      · rw [hr.trace, hcut, destroys_eq, hf.trig]; simp
      refine ((hg hn).release hwf hf.inv hr hsub htl htp htn).torn hwf h ?_ ?_ hn
      · intro x hx
        rw [hr.act] at hx
        simp [without] at hx; exact hsub x hx.1
      · exact hne.trans ⟨_, hr.trace, destroys_noEnter _ _⟩
  have htl1 : (m1.heap t).isSome := by
    have : m1.act t = true := by rw [hact1]; exact htl
    exact this
  have hLt : ∀ x, Below P.toChart t x → incCtx noL c x = 0 := by
    intro x hx
    cases c with
    | none => rfl
    | some p =>
      by_cases hxp : x = p
      · subst hxp
        exfalso
        have hxn := parent_bound hwf htn htp
        have := hx.le hwf hxn
        have := hwf.parent_lt htn htp
        omega
      · simp [incCtx, inc_other _ hxp]
  have hLc : ∀ p, P.parent t = some p → incCtx noL c p ≠ 0 := by
    intro p hp
    rw [htp] at hp; subst hp; simp [incCtx]
  have hou1' : OUBelow P.toChart t m1 := by
    intro u hu; rw [hou1] at hu
    exact Below.trans htb (hou u hu)
  -- regroup so that the entry part comes with its cleanup
  have hx := exitSubtree_wp hwf m1.fullExit h1 htl1 hLt hLc hou1'
  have hk := (memPrims hF).terminateState (full := m1.fullExit) (fun _ => keeps_fullExit_mem hwf hF) t m1
  simp only [wp_finally, wp_bind, wp_get]
  refine wp_mono (wp_keeps hx hk) ?_ ?_
  · rintro _ m2 ⟨⟨h2, hou2⟩, hk2⟩
    simp only [wp_modify]
    have hi2 := h2.inv.setFlags true m2.fullExit m2.trig
    have hcc : wp (checkCtx c) (fun _ m' => m' = { m2 with ico := true }) (fun _ _ => False) { m2 with ico := true } := by
      cases c with
      | none => rfl
      | some p =>
        obtain ⟨op, hop⟩ := Option.isSome_iff_exists.1 (hi2.L_live (s := p) (by simp [incCtx]))
        simp only [checkCtx, wp_bind, wp_getObj, wp_pure]
        exact ⟨op, hop, trivial⟩
    refine wp_mono hcc ?_ (fun _ _ h => h.elim)
    rintro _ _ rfl
    have hra : wp (runAction P a)
        (fun _ m' => (UserStep { m2 with ico := true } m' (acts a) ∧ Inv P.toChart (incCtx noL c) none m') ∧
          (memK P.toChart hF.pre).R { m2 with ico := true } m')
        (fun _ m' => (UserStep { m2 with ico := true } m' (acts a) ∧ Inv P.toChart (incCtx noL c) none m' ∧ a ≠ none) ∧ True)
        { m2 with ico := true } :=
      wp_keeps (K := memK P.toChart hF.pre) (wp_runAction hi2 a (fun _ a b => ⟨a, b⟩) (fun _ _ a b c => ⟨a, b, c⟩))
        ((memPrims hF).action a _)
    refine wp_mono hra ?_ ?_
    · rintro _ m3 ⟨⟨hu, h3⟩, hk3⟩
      have hact3 : m3.act = without m.act (exitOrder P.toChart m.act t) := by
        rw [hu.core.act]
        show m2.act = _
        rw [h2.act]
        show without m1.act (exitOrder P.toChart m1.act t) = _
        rw [hact1]
      have htr3 : m3.trace = m.trace ++ (exits m.fullExit m.trig (exitOrder P.toChart m.act t) ++ (acts a).map (fun o => (m.trig, o))) := by
        rw [hu.trace]
        show m2.trace ++ (acts a).map (fun o => (m2.trig, o)) = _
        rw [h2.trace, h2.trig]
        show m1.trace ++ exits m1.fullExit m1.trig (exitOrder P.toChart m1.act t) ++ (acts a).map (fun o => (m1.trig, o)) = _
        rw [htr1, hfe1, htg1, hact1, List.append_assoc]
      have hfe3 : m3.fullExit = m.fullExit := by
        rw [hu.core.fullExit]; show m2.fullExit = _; rw [h2.fullExit]; exact hfe1
      have htg3 : m3.trig = m.trig := by
        rw [hu.core.trig]; show m2.trig = _; rw [h2.trig]; exact htg1
      have hin : ∀ x, m3.act x = true ↔ m.act x = true ∧ ¬ Below P.toChart t x := by
        intro x
        rw [hact3]
        simp only [without, Bool.and_eq_true, Bool.not_eq_true', List.contains_eq_mem, decide_eq_false_iff_not]
        rw [h.mem_exitOrder hwf htl]
        constructor
        · rintro ⟨g1, g2⟩; exact ⟨g1, fun hb => g2 ⟨g1, hb⟩⟩
        · rintro ⟨g1, g2⟩; exact ⟨g1, fun hb => g2 hb.2⟩
      have hquiet3 : ∀ m3 : Mach W, m3.trace = m.trace ++ (exits m.fullExit m.trig (exitOrder P.toChart m.act t) ++ (acts a).map (fun o => (m.trig, o))) →
          NoEnter m m3 := by
        intro m3 h'
        refine ⟨_, h', ?_⟩
        intro e he x
        rcases List.mem_append.1 he with he | he
        · exact exits_noEnter _ _ _ e he x
        · obtain ⟨o, ho, rfl⟩ := List.mem_map.1 he
          cases a <;> simp [acts] at ho
          subst ho; simp
      have hempty : ∀ x, (m3.heap x).isSome → P.parent x = c → P.pos x ≠ P.pos (P.firstEntered c d.st) := by
        intro x hx hxp hxpos
        obtain ⟨g1, g2⟩ := (hin x).1 hx
        have := h.same_region g1 htl (by rw [hxp, htp]) (by rw [hxpos, ← hpos])
        subst this
        exact g2 .refl
      have hent := transitEnter_wp hwf hok hF.ctorMem hdn hcd h3 (by rw [hu.core.ico])
        (by rw [hu.core.pOU]; show m2.pOU = c; rw [hou2, htp]) hempty
      simp only [wp_finally] at hent
      have hmem : MemRun P.toChart F m.mem (((exits m.fullExit m.trig (exitOrder P.toChart m.act t)).map (·.2)) ++ acts a) m3.mem := by
        have hR : (memK P.toChart hF.pre).R m1 m3 := by
          refine (memK P.toChart hF.pre).trans hk2 ?_
          obtain ⟨o, g1, g2⟩ := hk3
          exact ⟨o, g1, g2⟩
        have := memK_obs hF.pre hR (by rw [htr3, ← htr1])
        rw [hmem1, List.map_append, List.map_map] at this
        rw [show ((fun x : Option Event × Obs => x.2) ∘ fun o => (m.trig, o)) = id from rfl, List.map_id] at this
        exact this
      have hentf : ∀ m5, Failed P.toChart noL m3 m5 → ∀ m6, BThrow P.toChart (incCtx noL c) c [P.pos (P.firstEntered c d.st)] m3 m6 ∧
          m5.act = m6.act ∧ m5.pOU = m6.pOU ∧ m5.trace = m6.trace ∧ RCut (fun h obs => EntersUntil P.toChart F h.mem (.down c d) obs) m3 m6 →
          Fails P.toChart m m5 ∧ (P.relaxed = false → RCut (TransitsUntil P.toChart F m.fullExit s d a) m m5) := by
        rintro m5 h5 m6 ⟨h6, k1, k2, k3, ob, k4, k5⟩
        rw [exits_eq, map_snd] at hmem
        refine ⟨⟨⟨h5.inv, h5.unstable, by rw [h5.fullExit, hfe3], by rw [h5.trig, htg3]⟩, fun hn => ?_⟩, fun hrl => ⟨_, ?_, .entry (l2 := []) hcommon htp htb (h.leaves hwf htl hrl a) (by rw [show exitObs m.fullExit [] = [] from rfl, List.append_nil]; exact hmem) k5⟩⟩
        rotate_left
        · rw [k3, k4, htr3, htg3, exits_eq]; simp [exitObs]
        rw [← hpos] at h6
        exact (torn_entry hwf h h3 (hquiet3 m3 htr3) htl htp hin h6 (.inl (by rw [hu.core.ico]))).congr k1 k2 k3
      refine wp_mono hent ?_ ?_
      · intro _ m4 h4
        refine wp_mono h4 ?_ ?_
        · rintro _ m5 ⟨l, h5⟩
          refine ⟨t, l, ?_⟩
          have hico3 : m3.ico = true := by rw [hu.core.ico]
          refine ⟨ht, h5.inv, h5.crit (.inl hico3), h5.ico, by rw [h5.fullExit, hfe3], by rw [h5.trig, htg3], ?_, ?_, ?_, ?_⟩
          · rw [h5.trace, htr3, htg3]; simp only [List.append_assoc]
          · intro x; rw [h5.act, hin]
          · intro x hx
            obtain ⟨c', g1, g2, g3⟩ := h5.region x hx
            simp only [List.mem_singleton] at g2
            exact ⟨c', by rw [hc]; exact g1, by rw [g2, hpos], g3⟩
          · exact ⟨m3.mem, hmem, by rw [hc]; exact h5.mem⟩
        · rintro x m5 ⟨h5, m6, h6⟩
          exact hentf m5 h5 m6 h6
      · intro x m4 h4
        refine wp_mono h4 ?_ (fun _ _ h => h)
        · rintro _ m5 ⟨h5, m6, h6⟩
          exact hentf m5 h5 m6 h6
    · rintro x m3 ⟨⟨hu, h3, hane⟩, _⟩
      have hact3 : m3.act = without m.act (exitOrder P.toChart m.act t) := by
        rw [hu.core.act]
        show m2.act = _
        rw [h2.act]
        show without m1.act (exitOrder P.toChart m1.act t) = _
        rw [hact1]
      apply hfail
      rotate_left
      · intro x hx
        rw [hact3] at hx
        simp [without] at hx; exact hx.1
      · have hq2 : NoEnter m m2 := ⟨exits m1.fullExit m1.trig (exitOrder P.toChart m1.act t), by rw [← htr1]; exact h2.trace, exits_noEnter _ _ _⟩
        refine hq2.trans ⟨_, hu.trace, ?_⟩
        intro e he x
        obtain ⟨o, ho, rfl⟩ := List.mem_map.1 he
        cases a <;> simp [acts] at ho
        subst ho; simp
      · intro hn
        have hg : Gap P.toChart m m2 := by
          cases c with
          | none =>
            have hd : ∀ x, m2.act x = false := by
              intro x
              cases hx : m2.act x with
              | false => rfl
              | true =>
                exfalso
                rw [h2.act] at hx
                change without m1.act (exitOrder P.toChart m1.act t) x = true at hx
                simp only [without, Bool.and_eq_true, Bool.not_eq_true', List.contains_eq_mem, decide_eq_false_iff_not] at hx
                apply hx.2
                rw [h1.mem_exitOrder hwf htl1]
                exact ⟨hx.1, h1.below_root hwf htl1 htp hx.1⟩
            refine ⟨?_, ?_, ?_⟩
            · rintro x ⟨hx, _⟩; rw [hd] at hx; cases hx
            · intro u hu; rw [hou2, htp] at hu; cases hu
            · intro u hu; rw [hn] at hu; cases hu
          | some p =>
            refine (Gap.subtree hwf (h1.setFlags false m1.fullExit m1.trig) h2 ?_ htl1 htp ?_ ?_ ?_).1.congr hact1.symm hou1.symm
            · unfold exitOrder
              obtain ⟨k, hk⟩ : ∃ k, P.n - t = k + 1 := ⟨P.n - t - 1, by omega⟩
              rw [hk]; exact exitOrderF_last k t
            · intro x hx; exact ((h1.mem_exitOrder hwf htl1).1 hx).2
            · intro x hx hb; exact (h1.mem_exitOrder hwf htl1).2 ⟨hx, hb⟩
            · intro u hu
              rw [show m1.pOU = some u from hu] at hou1
              rw [hn] at hou1; cases hou1
        refine ⟨?_, ?_, ?_⟩
        · rw [hu.core.act, hu.core.pOU]; exact hg.cover
        · rw [hu.core.act, hu.core.pOU]; exact hg.src
        · rw [hu.core.act, hu.core.pOU]; exact hg.keep
      · refine ⟨exitObs m.fullExit (exitOrder P.toChart m.act t) ++ acts a, ?_, ?_⟩
        · rw [hu.trace]
          show m2.trace ++ (acts a).map (fun o => (m2.trig, o)) = _
          rw [h2.trace, h2.trig]
          show m1.trace ++ exits m1.fullExit m1.trig (exitOrder P.toChart m1.act t) ++ (acts a).map (fun o => (m1.trig, o)) = _
          rw [htr1, hfe1, htg1, hact1, exits_eq]; simp
        · intro l _ hl1 hl2 hrl
          have : l = [] := by
            cases c with
            | none => exact hl2 rfl
            | some p => exact hl1 p rfl (by rw [hu.core.pOU]; show m2.pOU = _; rw [hou2, htp])
          subst this
          rw [List.map_nil, List.append_nil]
          exact .leave hcommon htp htb (.action hane (h.leaves hwf htl hrl a).first)
      · refine ⟨h3, ?_, ?_, ?_⟩
        · cases c with
          | none =>
            right
            intro x
            cases hx : m3.act x with
            | false => rfl
            | true =>
              exfalso
              rw [hu.core.act] at hx
              change m2.act x = true at hx
              rw [h2.act] at hx
              change without m1.act (exitOrder P.toChart m1.act t) x = true at hx
              simp only [without, Bool.and_eq_true, Bool.not_eq_true', List.contains_eq_mem, decide_eq_false_iff_not] at hx
              apply hx.2
              rw [h1.mem_exitOrder hwf htl1]
              exact ⟨hx.1, h1.below_root hwf htl1 htp hx.1⟩
          | some p =>
            left
            rw [hu.core.pOU]
            show m2.pOU ≠ none
            rw [hou2, htp]; simp
        · rw [hu.core.fullExit]; show m2.fullExit = _; rw [h2.fullExit]; exact hfe1
        · rw [hu.core.trig]; show m2.trig = _; rw [h2.trig]; exact htg1
  · rintro x m2 ⟨h2, _⟩
    apply hfail
    rotate_left
    · intro x hx
      rw [← hact1]; exact h2.sub x hx
    · have := h2.quiet
      unfold NoEnter at *
      rw [← htr1]; exact this
    · intro hn
      refine (h2.gap ?_).congr hact1.symm hou1.symm
      intro u hu
      rw [show m1.pOU = some u from hu] at hou1
      rw [hn] at hou1; cases hou1
    · obtain ⟨tr, k1, k2⟩ := h2.cut
      obtain ⟨obs, k3, k4⟩ := k2.until
      refine ⟨obs, by rw [k1, k3]; show m1.trace ++ obs.map (fun o => (m1.trig, o)) = _; rw [htr1, htg1], fun l hl _ _ hrl => ?_⟩
      refine .leave hcommon htp htb (.first (by rw [← hfe1]; exact h2.full) (h.leaves hwf htl hrl a).first ?_)
      have k5 : ExitsUntil P.toChart (exitOrder P.toChart m.act t) obs := by rw [← hact1]; exact k4
      refine k5.more fun y hy x hx => ?_
      exact (hl x hx).below.trans ((h.mem_exitOrder hwf htl).1 hy).2
    · exact ⟨h2.inv, h2.unstable, by rw [h2.fullExit]; exact hfe1, by rw [h2.trig]; exact htg1⟩

/-! ## Termination as a reaction -/

theorem lockOf_noL : lockOf noL = fun _ => false := by funext x; simp [lockOf]

theorem removalF_noL (C : Chart) (act : Sid → Bool) (s : Sid) :
    removalF C noL act (C.n - s) s = terminated C act s := by
  unfold removalF terminated exitOrder; rw [lockOf_noL]

/-- The outer state at which upward termination stops has an active inner state. -/
theorem upwardF_end {C : Chart} (hwf : C.WF) : ∀ (f : Nat) (act : Sid → Bool) (z p : Sid), z < C.n →
    (∀ q, C.parent z = some q → q < f) →
    (z :: upwardF C (fun _ => false) f act (C.parent z)).getLast?.bind C.parent = some p →
    childless C (without act (upwardF C (fun _ => false) f act (C.parent z))) p = false := by
  intro f
  induction f with
  | zero =>
    intro act z p hz hq hp
    cases hpz : C.parent z with
    | none =>
      rw [hpz] at hp
      simp only [upwardF, List.getLast?_singleton, Option.bind_some] at hp
      rw [hpz] at hp; cases hp
    | some q => have := hq q hpz; omega
  | succ f ih =>
    intro act z p hz hq hp
    cases hpz : C.parent z with
    | none =>
      rw [hpz] at hp
      simp only [upwardF, List.getLast?_singleton, Option.bind_some] at hp
      rw [hpz] at hp; cases hp
    | some q =>
      rw [hpz] at hp
      simp only [upwardF, Bool.false_or, Bool.not_eq_true'] at hp ⊢
      by_cases hc : childless C act q = false
      · rw [if_pos hc] at hp ⊢
        simp only [List.getLast?_singleton, Option.bind_some] at hp
        rw [hpz] at hp; cases hp
        rw [without_nil]; exact hc
      · rw [if_neg hc] at hp ⊢
        rw [without_cons]
        have hqn := parent_bound hwf hz hpz
        rw [List.getLast?_cons_cons] at hp
        apply ih (without act [q]) q p hqn ?_ hp
        intro r hr
        have h1 := hwf.parent_lt hqn hr
        have h2 := hq q hpz
        omega

theorem terminated_end {C : Chart} (hwf : C.WF) {act : Sid → Bool} {s p : Sid} (hs : s < C.n)
    (hp : (terminated C act s).getLast?.bind C.parent = some p) :
    childless C (without act (terminated C act s)) p = false := by
  unfold terminated at *
  rw [without_append]
  have hlast : (exitOrder C act s).getLast? = some s := by
    unfold exitOrder
    obtain ⟨k, hk⟩ : ∃ k, C.n - s = k + 1 := ⟨C.n - s - 1, by omega⟩
    rw [hk]; exact exitOrderF_last k s
  apply upwardF_end hwf (C.n + 1) _ s p hs
  · intro q hq; have := parent_bound hwf hs hq; omega
  · rw [List.getLast?_append, hlast] at hp
    rw [List.getLast?_cons]
    unfold upward at hp
    rw [← hp]
    cases h : (upwardF C (fun _ => false) (C.n + 1) (without act (exitOrder C act s)) (C.parent s)).getLast? <;> simp

/-- Result of a completed termination of `s`. -/
structure TerminatePost (C : Chart) (F : Memory → Memory → Prop) (s : Sid) (m m' : Mach W) : Prop where
  inv : Inv C noL none m'
  pOU : m'.pOU = none
  ico : m'.ico = false
  fullExit : m'.fullExit = m.fullExit
  trig : m'.trig = m.trig
  trace : m'.trace = m.trace ++ exits m.fullExit m.trig (terminated C m.act s)
  act : m'.act = without m.act (terminated C m.act s)
  mem : MemRun C F m.mem ((exits m.fullExit m.trig (terminated C m.act s)).map (·.2)) m'.mem

theorem terminateReaction_wp (hwf : P.toChart.WF) (hF : UserMem P F) {s : Sid}
    (h : Inv P.toChart noL none m) (hs : (m.heap s).isSome) (hou : OUBelow P.toChart s m) :
    wp (terminateReaction P s)
      (fun _ m' => TerminatePost P.toChart F s m m')
      (fun _ m' => Fails P.toChart m m' ∧ RCut (TerminatesUntil P.toChart m.fullExit s) m m') m := by
  have hsn := h.live_bound hs
  unfold terminateReaction
  simp only [wp_bind, wp_get]
  have hx := terminateState_wp hwf m.fullExit h hs (fun _ _ => rfl)
  have hk := (memPrims hF).terminateState (full := m.fullExit) (fun _ => keeps_fullExit_mem hwf hF) s m
  refine wp_mono (wp_keeps hx hk) ?_ ?_
  · rintro _ m1 ⟨h1, hk1⟩
    rw [removalF_noL] at h1
    have hpou : ∀ u, m1.pOU = some u → (terminated P.toChart m.act s).getLast?.bind P.parent = some u := by
      intro u hu
      rw [h1.pOU] at hu
      unfold ouAfter at hu
      have hne : ∃ z, (terminated P.toChart m.act s).getLast? = some z := by
        cases hz : (terminated P.toChart m.act s).getLast? with
        | some z => exact ⟨z, rfl⟩
        | none =>
          rw [List.getLast?_eq_none_iff] at hz
          have : s ∈ terminated P.toChart m.act s := List.mem_append_left _ ((h.mem_exitOrder hwf hs).2 ⟨hs, .refl⟩)
          rw [hz] at this; cases this
      obtain ⟨z, hz⟩ := hne
      rw [hz] at hu ⊢
      simp only at hu
      cases hmu : m.pOU with
      | none => rw [hmu] at hu; exact hu
      | some v =>
        rw [hmu] at hu
        simp only at hu
        rw [if_pos] at hu
        · exact hu
        · exact List.mem_append_left _ ((h.mem_exitOrder hwf hs).2 ⟨(h.ou_live hmu).1, hou v hmu⟩)
    refine setOU_wp h1.inv none (fun t ht => by cases ht) ?_ ?_
    · intro u hu _
      obtain ⟨o, ho⟩ := Option.isSome_iff_exists.1 (h1.inv.ou_live hu).1
      refine ⟨o, ho, .inr ?_⟩
      intro hn
      have hcl := (h1.inv.childless_iff hwf ho).2 hn
      rw [h1.act] at hcl
      have := terminated_end hwf hsn (hpou u hu)
      change childless P.toChart (without m.act (terminated P.toChart m.act s)) u = true at hcl
      rw [this] at hcl; cases hcl
    · intro m' g1 g2 g3 g4 _ _ _ g8 g9 g10 _ _ g13
      have hmem : m'.mem = m1.mem := by unfold Mach.mem; rw [g13.1, g13.2.1, g13.2.2]
      refine ⟨g1, g2, by rw [g8, h1.ico], by rw [g9, h1.fullExit], by rw [g10, h1.trig], by rw [g4, h1.trace], by rw [g3, h1.act]; rfl, ?_⟩
      rw [hmem]
      exact memK_obs hF.pre hk1 h1.trace
  · rintro x m1 ⟨h1, _⟩
    refine ⟨⟨⟨h1.inv, h1.unstable, by rw [h1.fullExit], by rw [h1.trig]⟩, fun hn => ?_⟩, ?_⟩
    rotate_left
    · obtain ⟨tr, k1, k2⟩ := h1.cut
      rw [removalF_noL] at k2
      obtain ⟨obs, k3, k4⟩ := k2.until
      exact ⟨obs, by rw [k1, k3], h1.full, k4⟩
    refine Gap.torn hwf h ((h1.gap ?_).congr rfl rfl) h1.sub h1.quiet hn
    intro u hu
    rw [show m.pOU = some u from hu] at hn; cases hn

end SC
