import Verif.Release2
/-!
# Exit of states (`exit_impl`)
-/

namespace SC
open Spec
variable {W : Type} {P : Prog W} {L : Sid → Nat} {pend : Option Sid} {m : Mach W}

/-! ## Live states and the tree -/

theorem Inv.live_of_below {C : Chart} (h : Inv C L pend m) {t s : Sid} (hb : Below C t s)
    (hs : (m.heap s).isSome) : (m.heap t).isSome := by
  induction hb with
  | refl => exact hs
  | step hp _ ih => exact ih (h.par_live hs hp)

theorem Inv.root_of {C : Chart} (hwf : C.WF) (h : Inv C L pend m) {s : Sid} (hs : (m.heap s).isSome) :
    ∃ r, Below C r s ∧ (m.heap r).isSome ∧ C.parent r = none := by
  induction s using Nat.strongRecOn with
  | _ s ih =>
    cases hp : C.parent s with
    | none => exact ⟨s, .refl, hs, hp⟩
    | some p =>
      obtain ⟨r, h1, h2, h3⟩ := ih p (hwf.parent_lt (h.live_bound hs) hp) (h.par_live hs hp)
      exact ⟨r, .step hp h1, h2, h3⟩

theorem Inv.root_unique {C : Chart} (h : Inv C L pend m) {a b : Sid} (ha : (m.heap a).isSome)
    (hb : (m.heap b).isSome) (hpa : C.parent a = none) (hpb : C.parent b = none) : a = b := by
  have h1 := h.outer.2 ⟨ha, hpa⟩
  have h2 := h.outer.2 ⟨hb, hpb⟩
  rw [h1] at h2; exact Option.some.inj h2

/-- Everything alive is below a live outermost state. -/
theorem Inv.below_root {C : Chart} (hwf : C.WF) (h : Inv C L pend m) {r s : Sid} (hr : (m.heap r).isSome)
    (hpr : C.parent r = none) (hs : (m.heap s).isSome) : Below C r s := by
  obtain ⟨r', h1, h2, h3⟩ := h.root_of hwf hs
  rw [h.root_unique hr h2 hpr h3]; exact h1

theorem Inv.only_root {C : Chart} (hwf : C.WF) (h : Inv C L pend m) {r : Sid} (hr : (m.heap r).isSome)
    (hpr : C.parent r = none) (hc : childless C m.act r = true) {s : Sid} (hs : (m.heap s).isSome) : s = r := by
  rcases (h.below_root hwf hr hpr hs).child with rfl | ⟨c, hc1, hc2⟩
  · rfl
  · have hl := h.live_of_below hc2 hs
    exact absurd hc1 ((SC.childless_iff.1 hc) c (h.live_bound hl) hl)

/-! ## Storing history -/

/-- Steps that only touch world, history maps (keeping them sound). -/
structure HStep (C : Chart) (m m' : Mach W) : Prop where
  core : SameCore m m'
  trace : m'.trace = m.trace
  hist : HistOK C m → HistOK C m'

theorem HStep.refl (C : Chart) (m : Mach W) : HStep C m m := ⟨.refl _, rfl, id⟩
theorem HStep.trans {C : Chart} {a b c : Mach W} (h1 : HStep C a b) (h2 : HStep C b c) : HStep C a c :=
  ⟨h1.core.trans h2.core, by rw [h2.trace, h1.trace], fun h => h2.hist (h1.hist h)⟩

theorem HStep.inv {C : Chart} {m m' : Mach W} (h : HStep C m m') (hi : Inv C L pend m) : Inv C L pend m' :=
  hi.congrT h.core h.trace (h.hist hi.hist)

theorem storeShallow_wp {s : Sid} (hsn : s < P.n) {Q : Unit → Mach W → Prop} {E : Exc → Mach W → Prop}
    (hq : ∀ m', HStep P.toChart m m' → Q () m') (he : ∀ x m', HStep P.toChart m m' → E x m') :
    wp (storeShallow P s) Q E m := by
  unfold storeShallow
  split
  · cases hp : P.parent s with
    | none => exact hq _ (.refl _ _)
    | some p =>
      simp only [wp_bind]
      refine wp_histNode P _ _ _ _ ?_ ?_
      · intro w
        simp only [wp_modify]
        refine hq _ ⟨by constructor <;> rfl, rfl, fun h => ⟨?_, h.dh⟩⟩
        intro q i g hg
        simp only [upd] at hg
        split at hg
        · next hk =>
          cases hg; cases hk
          exact ⟨s, rfl, hsn, hp, rfl⟩
        · exact h.sh hg
      · intro x w
        exact he _ _ ⟨by constructor <;> rfl, rfl, fun h => ⟨h.sh, h.dh⟩⟩
  · exact hq _ (.refl _ _)

theorem storeDeepF_wp (hwf : P.toChart.WF) {leaf : Sid} (hln : leaf < P.n) (hleaf : P.isLeaf leaf = true)
    {Q : Unit → Mach W → Prop} {E : Exc → Mach W → Prop} :
    ∀ (f : Nat) (cur : Sid) (m : Mach W), cur < f → Below P.toChart cur leaf →
      (∀ x, Below P.toChart x leaf → (m.heap x).isSome) →
      (∀ m', HStep P.toChart m m' → Q () m') → (∀ x m', HStep P.toChart m m' → E x m') →
      wp (storeDeepF P f cur leaf) Q E m := by
  intro f
  induction f with
  | zero => intro cur m hf; omega
  | succ f ih =>
    intro cur m hf hb hlive hq he
    unfold storeDeepF
    have hcn := hb.bound hwf hln
    cases hp : P.parent cur with
    | none => exact hq _ (.refl _ _)
    | some p =>
      have hpl := hwf.parent_lt hcn hp
      have hpb : Below P.toChart p leaf := Below.trans (.step hp .refl) hb
      obtain ⟨op, hop⟩ := Option.isSome_iff_exists.1 (hlive p hpb)
      simp only
      split
      · simp only [wp_bind, wp_getObj]
        refine ⟨op, hop, ?_⟩
        by_cases hd : P.deepH p = true
        · rw [if_pos hd]
          simp only [wp_bind]
          refine wp_histNode P _ _ _ _ ?_ ?_
          · intro w
            simp only [wp_modify]
            have hs1 : HStep P.toChart m { m with
                world := w
                dh := upd m.dh (p, P.pos cur) (some (.chain (P.pathBelow (some p) leaf) leaf))
                dhKeys := upd m.dhKeys (p, P.pos cur) true } := by
              refine ⟨by constructor <;> rfl, rfl, fun h => ⟨h.sh, ?_⟩⟩
              intro q i g hg
              simp only [upd] at hg
              split at hg
              · next hk =>
                cases hg; cases hk
                have ho : Outer P.toChart p leaf := by
                  rcases hpb.eq_or_outer with h' | h'
                  · exfalso
                    have := hb.le hwf hln
                    omega
                  · exact h'
                have hpath := Chart.pathBelow_path hwf hln (c := some p)
                  ((Chart.mem_ctxList hwf hln).2 (.inr ⟨p, rfl, ho⟩))
                refine ⟨leaf, rfl, hln, ho, hd, hleaf, ?_⟩
                have := hpath.head_below.sibling hwf hln hb (by rw [hpath.head, hp])
                rw [this]
              · exact h.dh hg
            refine ih p _ (by omega) hpb ?_ ?_ ?_
            · exact hlive
            · intro m' hm'; exact hq _ (hs1.trans hm')
            · intro x m' hm'; exact he _ _ (hs1.trans hm')
          · intro x w
            exact he _ _ ⟨by constructor <;> rfl, rfl, fun h => ⟨h.sh, h.dh⟩⟩
        · rw [if_neg hd]
          simp only [wp_pure]
          exact ih p _ (by omega) hpb hlive hq he
      · exact hq _ (.refl _ _)

theorem storeDeep_wp (hwf : P.toChart.WF) {s : Sid} (hi : Inv P.toChart L pend m) (hs : (m.heap s).isSome)
    {Q : Unit → Mach W → Prop} {E : Exc → Mach W → Prop}
    (hq : ∀ m', HStep P.toChart m m' → Q () m') (he : ∀ x m', HStep P.toChart m m' → E x m') :
    wp (storeDeep P s) Q E m := by
  unfold storeDeep
  split
  · next hsd =>
    have hleaf : P.isLeaf s = true := by
      simp [Chart.storesDeep] at hsd; exact hsd.2
    exact storeDeepF_wp hwf (hi.live_bound hs) hleaf _ _ _ (Nat.lt_succ_self _) .refl
      (fun x hx => hi.live_of_below hx hs) hq he
  · exact hq _ (.refl _ _)

/-- Observation of exit() (returned or threw). -/
def IsExitObs (s : Sid) (o : Obs) : Prop := o = .exit s ∨ o = .exitFail s

theorem Inv.afterExit (h : Inv P.toChart L none m) {s : Sid} (hs : (m.heap s).isSome)
    (hcl : childless P.toChart m.act s = true) {m' : Mach W} {o : Obs} (ho : IsExitObs s o)
    (hu : UserStep m m' [o]) : Inv P.toChart L (some s) m' := by
  refine h.congr hu.core hu.trace ?_ (hu.hist _ h.hist)
  rw [hu.trace]
  simp only [List.map_append, List.map_cons, List.map_nil]
  rw [life_snoc, h.tr, hu.core.act]
  rcases ho with rfl | rfl
  · simp only [Option.bind_some, lifeStep]; rw [if_pos ⟨trivial, hs, hcl⟩]
  · simp only [Option.bind_some, lifeStep]; rw [if_pos ⟨trivial, hs, hcl⟩]

theorem fullExitPart_wp (hwf : P.toChart.WF) {s : Sid} (h : Inv P.toChart L none m) (hs : (m.heap s).isSome)
    (hcl : childless P.toChart m.act s = true)
    {Q : Unit → Mach W → Prop} {E : Exc → Mach W → Prop}
    (hq : ∀ m', Inv P.toChart L (some s) m' → SameCore m m' →
      m'.trace = m.trace ++ [(m.trig, .exit s)] → Q () m')
    (he : ∀ x m' o, Inv P.toChart L (some s) m' → SameCore m m' → IsExitObs s o →
      m'.trace = m.trace ++ [(m.trig, o)] → E x m') :
    wp (fullExitPart P s) Q E m := by
  unfold fullExitPart
  simp only [wp_bind]
  refine wp_runUser ?_ ?_
  · intro m1 hu
    have hi1 := h.afterExit hs hcl (.inl rfl) hu
    refine storeShallow_wp (h.live_bound hs) ?_ ?_
    · intro m2 h2
      have hi2 := h2.inv hi1
      have hs2 : (m2.heap s).isSome := by rw [h2.core.heap, hu.core.heap]; exact hs
      refine storeDeep_wp hwf hi2 hs2 ?_ ?_
      · intro m3 h3
        refine hq _ (h3.inv hi2) (hu.core.trans (h2.core.trans h3.core)) ?_
        rw [h3.trace, h2.trace, hu.trace]; simp
      · intro x m3 h3
        refine he x _ _ (h3.inv hi2) (hu.core.trans (h2.core.trans h3.core)) (.inl rfl) ?_
        rw [h3.trace, h2.trace, hu.trace]; simp
    · intro x m2 h2
      refine he x _ _ (h2.inv hi1) (hu.core.trans h2.core) (.inl rfl) ?_
      rw [h2.trace, hu.trace]; simp
  · intro x m1 hu
    exact he x _ _ (h.afterExit hs hcl (.inr rfl) hu) hu.core (.inr rfl) (by rw [hu.trace]; simp)

/-! ## The exit chain -/

/-- Observations of the exit of the states `l`, in order. -/
def exits (full : Bool) (t : Option Event) (l : List Sid) : List (Option Event × Obs) :=
  l.flatMap fun s => if full then [(t, .exit s), (t, .destroy s)] else [(t, .destroy s)]

/-- The outermost unstable state after exit of `l` (in exit order). -/
def ouAfter (C : Chart) (u : Option Sid) (l : List Sid) : Option Sid :=
  match l.getLast? with
  | none => u
  | some t => match u with
    | none => C.parent t
    | some v => if v ∈ l then C.parent t else some v

def lockOf (L : Sid → Nat) : Sid → Bool := fun s => decide (L s ≠ 0)

structure ExitPost (C : Chart) (L : Sid → Nat) (full : Bool) (m m' : Mach W) (l : List Sid) : Prop where
  inv : Inv C L none m'
  act : m'.act = without m.act l
  trace : m'.trace = m.trace ++ exits full m.trig l
  pOU : m'.pOU = ouAfter C m.pOU l
  ico : m'.ico = m.ico
  fullExit : m'.fullExit = m.fullExit
  trig : m'.trig = m.trig

structure ExitThrow (C : Chart) (L : Sid → Nat) (full : Bool) (m m' : Mach W) : Prop where
  full : full = true
  inv : Inv C L none m'
  sub : ∀ x, m'.act x = true → m.act x = true
  unstable : m'.pOU ≠ none ∨ ∀ x, m'.act x = false
  ico : m'.ico = m.ico
  fullExit : m'.fullExit = m.fullExit
  trig : m'.trig = m.trig

/-- `x` is alive in `a'` and lost an inner state since `a`. -/
def Lost (C : Chart) (a a' : Sid → Bool) (x : Sid) : Prop :=
  a' x = true ∧ ∃ y, C.parent y = some x ∧ a y = true ∧ a' y = false

/-- How exits between `m` and `m'` change the pointer to the outermost unstable state. -/
structure Gap (C : Chart) (m m' : Mach W) : Prop where
  cover : ∀ x, Lost C m.act m'.act x → ∃ u, m'.pOU = some u ∧ Below C u x
  src : ∀ u, m'.pOU = some u → m.pOU = some u ∨ Lost C m.act m'.act u
  keep : ∀ u, m.pOU = some u → m'.act u = true → m'.pOU = some u

/-- How exits change the pointer, even if it did not point to the outermost unstable state. -/
def Drift (C : Chart) (m m' : Mach W) : Prop := ∀ u, m'.pOU = some u → m.pOU = some u ∨ Lost C m.act m'.act u

theorem Drift.congr {C : Chart} {m m' m0 : Mach W} (h : Drift C m m') (ha : m0.act = m.act) (hp : m0.pOU = m.pOU) : Drift C m0 m' := by
  unfold Drift; rw [ha, hp]; exact h

theorem Drift.trans {C : Chart} {m m1 m2 : Mach W} (hi : Inv C L pend m2) (s1 : ∀ x, m1.act x = true → m.act x = true)
    (s2 : ∀ x, m2.act x = true → m1.act x = true) (h1 : Drift C m m1) (h2 : Drift C m1 m2) : Drift C m m2 := by
  intro u hu
  rcases h2 u hu with h | ⟨h, y, hp, hy, hy2⟩
  · rcases h1 u h with h | ⟨_, y, hp, hy, hy1⟩
    · exact .inl h
    · refine .inr ⟨(hi.ou_live hu).1, y, hp, hy, ?_⟩
      cases h : m2.act y with
      | false => rfl
      | true => rw [s2 y h] at hy1; cases hy1
  · exact .inr ⟨h, y, hp, s1 y hy, hy2⟩

theorem Drift.step {C : Chart} {m m' : Mach W} {s : Sid} (hi : Inv C L pend m') (hs : m.act s = true) (hs' : m'.act s = false)
    (hou : m'.pOU = if m.pOU = none ∨ m.pOU = some s then C.parent s else m.pOU) : Drift C m m' := by
  intro u hu
  rw [hou] at hu
  split at hu
  · next hc =>
    refine .inr ⟨(hi.ou_live (s := u) ?_).1, s, hu, hs, hs'⟩
    rw [hou, if_pos hc, hu]
  · exact .inl hu

theorem Gap.refl (C : Chart) {m m' : Mach W} (ha : m'.act = m.act) (hp : m'.pOU = m.pOU) : Gap C m m' := by
  refine ⟨?_, fun u hu => .inl (by rw [← hp]; exact hu), fun u hu _ => by rw [hp]; exact hu⟩
  rintro x ⟨_, y, _, h1, h2⟩
  rw [ha, h1] at h2; cases h2

theorem Gap.congr {C : Chart} {m m' m0 : Mach W} (h : Gap C m m') (ha : m0.act = m.act) (hp : m0.pOU = m.pOU) : Gap C m0 m' :=
  ⟨by rw [ha]; exact h.cover, by rw [ha, hp]; exact h.src, by rw [hp]; exact h.keep⟩

theorem Gap.trans {C : Chart} {m m1 m2 : Mach W} (hi : Inv C L pend m2) (s1 : ∀ x, m1.act x = true → m.act x = true)
    (s2 : ∀ x, m2.act x = true → m1.act x = true) (h1 : Gap C m m1) (h2 : Gap C m1 m2) : Gap C m m2 := by
  have hgone : ∀ y, m1.act y = false → m2.act y = false := by
    intro y hy
    cases h : m2.act y with
    | false => rfl
    | true => rw [s2 y h] at hy; cases hy
  refine ⟨?_, ?_, fun u hu ha => h2.keep u (h1.keep u hu (s2 u ha)) ha⟩
  · rintro x ⟨hx, y, hp, hy, hy2⟩
    cases hy1 : m1.act y with
    | true => exact h2.cover x ⟨hx, y, hp, hy1, hy2⟩
    | false =>
      obtain ⟨u, hu, hb⟩ := h1.cover x ⟨s2 x hx, y, hp, hy, hy1⟩
      exact ⟨u, h2.keep u hu (hi.live_of_below hb hx), hb⟩
  · intro u hu
    rcases h2.src u hu with h | ⟨h, y, hp, hy, hy2⟩
    · rcases h1.src u h with h | ⟨_, y, hp, hy, hy1⟩
      · exact .inl h
      · exact .inr ⟨(hi.ou_live hu).1, y, hp, hy, hgone y hy1⟩
    · exact .inr ⟨h, y, hp, s1 y hy, hy2⟩

/-- The exit of one state `s` without inner states, possibly together with outer states. -/
theorem Gap.step {C : Chart} {m m' : Mach W} {s : Sid} (hi : Inv C L pend m') (hs : m.act s = true) (hs' : m'.act s = false)
    (hrem : ∀ y, m.act y = true → m'.act y = false → Below C y s)
    (hou : m'.pOU = if m.pOU = none ∨ m.pOU = some s then C.parent s else m.pOU)
    (hb : ∀ u, m.pOU = some u → Below C u s) : Gap C m m' := by
  by_cases hc : m.pOU = none ∨ m.pOU = some s
  · rw [if_pos hc] at hou
    refine ⟨?_, ?_, ?_⟩
    · rintro x ⟨hx, y, hp, hy, hy'⟩
      have hys := hrem y hy hy'
      cases hys with
      | refl => exact ⟨x, by rw [hou, hp], .refl⟩
      | @step _ p hps hyp =>
        rw [hps] at hou
        have := hi.live_of_below hyp (hi.ou_live hou).1
        unfold Mach.act at hy'
        rw [this] at hy'; cases hy'
    · intro u hu
      right
      exact ⟨(hi.ou_live hu).1, s, by rw [← hou, hu], hs, hs'⟩
    · intro u hu ha
      rcases hc with hc | hc
      · rw [hc] at hu; cases hu
      · rw [hc] at hu; cases hu; rw [hs'] at ha; cases ha
  · rw [if_neg hc] at hou
    refine ⟨?_, fun u hu => .inl (by rw [← hou, hu]), fun u hu _ => by rw [hou, hu]⟩
    rintro x ⟨hx, y, hp, hy, hy'⟩
    have hys := hrem y hy hy'
    cases hu : m.pOU with
    | none => exact absurd (.inl hu) hc
    | some u =>
      refine ⟨u, by rw [hou, hu], ?_⟩
      have hul : (m'.heap u).isSome := (hi.ou_live (by rw [hou, hu])).1
      rcases (hb u hu).linear hys with h | h
      · cases h with
        | refl =>
          unfold Mach.act at hy'
          rw [hul] at hy'; cases hy'
        | step hp' h => rw [hp] at hp'; cases hp'; exact h
      · have := hi.live_of_below h hul
        unfold Mach.act at hy'
        rw [this] at hy'; cases hy'

/-- No state was entered between `m` and `m'`. -/
def NoEnter (m m' : Mach W) : Prop :=
  ∃ obs, m'.trace = m.trace ++ obs ∧ ∀ e ∈ obs, ∀ x, e.2 ≠ Obs.enter x

theorem NoEnter.trans {a b c : Mach W} (h1 : NoEnter a b) (h2 : NoEnter b c) : NoEnter a c := by
  obtain ⟨o1, e1, g1⟩ := h1
  obtain ⟨o2, e2, g2⟩ := h2
  refine ⟨o1 ++ o2, by rw [e2, e1, List.append_assoc], ?_⟩
  intro e he
  rcases List.mem_append.1 he with he | he
  · exact g1 e he
  · exact g2 e he

theorem noEnter_of {m m' : Mach W} {t : Option Event} {obs : List Obs} (ht : m'.trace = m.trace ++ obs.map (fun o => (t, o)))
    (h : ∀ o ∈ obs, ∀ x, o ≠ Obs.enter x) : NoEnter m m' := by
  refine ⟨_, ht, ?_⟩
  intro e he x
  obtain ⟨o, ho, rfl⟩ := List.mem_map.1 he
  exact h o ho x

theorem exits_noEnter (full : Bool) (t : Option Event) (l : List Sid) : ∀ e ∈ exits full t l, ∀ x, e.2 ≠ Obs.enter x := by
  intro e he x
  simp only [exits, List.mem_flatMap] at he
  obtain ⟨s, _, he⟩ := he
  cases full <;> simp at he
  · subst he; simp
  · rcases he with rfl | rfl <;> simp

theorem destroys_noEnter (t : Option Event) (l : List Sid) : ∀ e ∈ destroys t l, ∀ x, e.2 ≠ Obs.enter x := by
  intro e he x
  simp only [destroys, List.mem_map] at he
  obtain ⟨s, _, rfl⟩ := he
  simp

/-- The exit of the states `l` was interrupted: `exit()` of `y` or the storing of its history threw. The states before `y` were exited; `y` was destroyed and with it
those of its outer states that nothing else referred to. -/
def ExitCut (C : Chart) (t : Option Event) (l : List Sid) (tr : List (Option Event × Obs)) : Prop :=
  ∃ x1 y x2 ob l', l = x1 ++ y :: x2 ∧ (ob = .exit y ∨ ob = .exitFail y) ∧ tr = exits true t x1 ++ (t, ob) :: destroys t (y :: l') ∧ ∀ x ∈ l', Below C x y

/-- Exceptional end of an exit that starts in `s`. -/
structure ExitFail (C : Chart) (L : Sid → Nat) (full : Bool) (s : Sid) (m m' : Mach W) (l : List Sid) : Prop extends ExitThrow C L full m m' where
  gap : (∀ u, m.pOU = some u → Below C u s) → Gap C m m'
  drift : Drift C m m'
  quiet : NoEnter m m'
  cut : ∃ tr, m'.trace = m.trace ++ tr ∧ ExitCut C m.trig l tr

theorem exits_append (full : Bool) (t : Option Event) (l l' : List Sid) :
    exits full t (l ++ l') = exits full t l ++ exits full t l' := by simp [exits]

theorem exits_cons (full : Bool) (t : Option Event) (s : Sid) (l : List Sid) :
    exits full t (s :: l) = (if full then [(t, .exit s), (t, .destroy s)] else [(t, .destroy s)]) ++ exits full t l := by
  simp [exits]

theorem ouAfter_nil (C : Chart) (u : Option Sid) : ouAfter C u [] = u := rfl

theorem ouAfter_cons (C : Chart) (u : Option Sid) (s : Sid) (l : List Sid)
    (hl : ∀ t, l.head? = some t → C.parent s = some t) :
    ouAfter C (if u = none ∨ u = some s then C.parent s else u) l = ouAfter C u (s :: l) := by
  cases l with
  | nil =>
    cases u with
    | none => simp [ouAfter]
    | some v =>
      by_cases hv : v = s
      · simp [ouAfter, hv]
      · simp [ouAfter, hv]
  | cons t l =>
    have hp := hl t rfl
    obtain ⟨z, hz⟩ : ∃ z, (t :: l).getLast? = some z := by
      cases h : (t :: l).getLast? with
      | none => simp at h
      | some z => exact ⟨z, rfl⟩
    have hlast : (s :: t :: l).getLast? = some z := by rw [List.getLast?_cons_cons, hz]
    cases u with
    | none => unfold ouAfter; rw [hlast, hz]; simp [hp]
    | some v =>
      unfold ouAfter
      rw [hlast, hz]
      by_cases hv : v = s
      · subst hv
        simp [hp]
      · simp [hv]

theorem upwardF_head {C : Chart} {lock : Sid → Bool} {f : Nat} {act : Sid → Bool} {c : Option Sid} {t : Sid}
    (h : (upwardF C lock f act c).head? = some t) : c = some t := by
  cases f with
  | zero => simp [upwardF] at h
  | succ f =>
    cases c with
    | none => simp [upwardF] at h
    | some s =>
      unfold upwardF at h
      split at h
      · simp at h
      · simp at h; rw [h]

theorem exitF_wp (hwf : P.toChart.WF) (full : Bool) : ∀ (f : Nat) (s : Sid) (L : Sid → Nat) (m : Mach W),
    s < f → Inv P.toChart L none m → L s ≠ 0 → (∀ o, m.heap s = some o → m.slot o.lpos ≠ some s) →
    wp (exitF P f s full)
      (fun _ m' => ExitPost P.toChart (dec L s) full m m'
        (upwardF P.toChart (lockOf (dec L s)) f m.act (some s)))
      (fun _ m' => ExitFail P.toChart (dec L s) full s m m' (upwardF P.toChart (lockOf (dec L s)) f m.act (some s))) m := by
  intro f
  induction f with
  | zero => intro s L m hf; omega
  | succ f ih =>
    intro s L m hf h hL hslot
    obtain ⟨o, ho⟩ := Option.isSome_iff_exists.1 (h.L_live hL)
    have hlive : (m.heap s).isSome := by simp [ho]
    have hsn := h.bound ho
    have hsl := hslot o ho
    have hrc := h.rc ho
    rw [if_neg hsl] at hrc
    have hcl := h.childless_iff hwf ho
    unfold exitF
    simp only [wp_bind, wp_getObj]
    refine ⟨o, ho, ?_⟩
    simp only [wp_get]
    by_cases hgo : L s = 1 ∧ nch (P.regions (some s)) o.inner = 0
    · -- the state is exited
      obtain ⟨hL1, hn⟩ := hgo
      have hch := hcl.2 hn
      have hif : o.rc = 1 ∨ (o.rc = 2 ∧ m.pOU = some s) := by
        by_cases hou : m.pOU = some s
        · right; rw [if_pos hou] at hrc; exact ⟨by omega, hou⟩
        · left; rw [if_neg hou] at hrc; omega
      rw [if_pos hif]
      have hup : upwardF P.toChart (lockOf (dec L s)) (f + 1) m.act (some s) =
          s :: upwardF P.toChart (lockOf (dec L s)) f (without m.act [s]) (P.parent s) := by
        rw [upwardF, if_neg]
        simp [lockOf, hL1, hch]
      rw [hup]
      -- after adjusting the unstable-state pointer
      have key : ∀ m1 : Mach W, Inv P.toChart L none m1 →
          m1.pOU = (if m.pOU = none ∨ m.pOU = some s then P.parent s else m.pOU) →
          m1.act = m.act → m1.trace = m.trace → m1.slot = m.slot → m1.len = m.len → m1.endIx = m.endIx → m1.ico = m.ico →
          m1.fullExit = m.fullExit → m1.trig = m.trig →
          (∃ o1, m1.heap s = some o1 ∧ o1.rc = 1) →
          wp (do M.onThrow (if full = true then fullExitPart P s else pure ()) (release P s)
                 match P.parent s with
                 | none => release P s
                 | some p => do
                   addRef p
                   release P s
                   exitF P f p full)
            (fun _ m' => ExitPost P.toChart (dec L s) full m m'
              (s :: upwardF P.toChart (lockOf (dec L s)) f (without m.act [s]) (P.parent s)))
            (fun _ m' => ExitFail P.toChart (dec L s) full s m m'
              (s :: upwardF P.toChart (lockOf (dec L s)) f (without m.act [s]) (P.parent s))) m1 := by
        intro m1 hi1 hou1 hact1 htr1 hslot1 hlen1 hend1 hico1 hfe1 htrig1 hrc1
        obtain ⟨o1, ho1, hrc1⟩ := hrc1
        have hns : m1.pOU ≠ some s := by
          rw [hou1]; split
          · intro hp; exact Nat.lt_irrefl _ (hwf.parent_lt hsn hp)
          · next h' => intro h''; exact h' (.inr h'')
        have hch1 : childless P.toChart m1.act s = true := by rw [hact1]; exact hch
        have hlive1 : (m1.heap s).isSome := by simp [ho1]
        -- after exit() (if called)
        have after : ∀ (m2 : Mach W) (pd : Option Sid) (pre : List (Option Event × Obs)), Inv P.toChart L pd m2 →
            (pd = none ∨ pd = some s) → SameCore m1 m2 → m2.trace = m.trace ++ pre →
            pre ++ [(m.trig, Obs.destroy s)] = exits full m.trig [s] →
            wp (match P.parent s with
                 | none => release P s
                 | some p => do
                   addRef p
                   release P s
                   exitF P f p full)
            (fun _ m' => ExitPost P.toChart (dec L s) full m m'
              (s :: upwardF P.toChart (lockOf (dec L s)) f (without m.act [s]) (P.parent s)))
            (fun _ m' => ExitFail P.toChart (dec L s) full s m m'
              (s :: upwardF P.toChart (lockOf (dec L s)) f (without m.act [s]) (P.parent s))) m2 := by
          intro m2 pd pre hi2 hpd hcore htr2 hpre
          have ho2 : m2.heap s = some o1 := by rw [hcore.heap]; exact ho1
          cases hp : P.parent s with
          | none =>
            simp only
            refine wp_mono (release_wp hwf hi2 hL ?_) ?_ (fun _ _ h => h.elim)
            · rcases hpd with hp | hp
              · exact .inl hp
              · exact .inr ⟨hp, fun o' ho' => by rw [ho2] at ho'; cases ho'; exact hrc1⟩
            · rintro _ m3 ⟨l, hr⟩
              obtain ⟨l', hl, hlock⟩ := hr.last o1 ho2 hrc1
              have hl' : l' = [] := hlock (fun p hp' => by rw [hp] at hp'; cases hp')
              subst hl'; subst hl
              have hnil : upwardF P.toChart (lockOf (dec L s)) f (without m.act [s]) none = [] := by
                cases f <;> rfl
              rw [hnil]
              refine ⟨hr.inv, ?_, ?_, ?_, ?_, ?_, ?_⟩
              · rw [hr.act, hcore.act, hact1]
              · rw [hr.trace, htr2, ← hpre, hcore.trig, htrig1]; simp [destroys]
              · rw [hr.frame.pOU, hcore.pOU, hou1, ← ouAfter_cons _ _ _ _ (by simp)]; rfl
              · rw [hr.frame.ico, hcore.ico, hico1]
              · rw [hr.frame.fullExit, hcore.fullExit, hfe1]
              · rw [hr.frame.trig, hcore.trig, htrig1]
          | some p =>
            have hplt := hwf.parent_lt hsn hp
            have hps : p ≠ s := by omega
            have hsp : s ≠ p := by omega
            obtain ⟨op, hop⟩ := Option.isSome_iff_exists.1 (hi2.par_live (s := s) (by simp [ho2]) hp)
            simp only [wp_bind, addRef, wp_getObj]
            refine ⟨op, hop, ?_⟩
            simp only [wp_setObj]
            have hi2' := hi2.addRef hop
            refine wp_mono (release_wp hwf hi2' (by simp [hsp, hL]) ?_) ?_ (fun _ _ h => h.elim)
            · rcases hpd with hp | hp
              · exact .inl hp
              · refine .inr ⟨hp, fun o' ho' => ?_⟩
                simp [hsp, ho2] at ho'; subst ho'; exact hrc1
            · rintro _ m3 ⟨l, hr⟩
              obtain ⟨l', hl, hlock⟩ := hr.last o1 (by simp [hsp, ho2]) hrc1
              have hl' : l' = [] := hlock (fun q hq => by rw [hp] at hq; cases hq; simp)
              subst hl'; subst hl
              have hLe : dec (inc L p) s = inc (dec L s) p := by
                funext x; simp only [dec, inc, upd]; split
                · next hx => subst hx; simp [hsp]
                · split
                  · next hx => subst hx; simp
                  · rfl
              have hi3 := hr.inv
              rw [hLe] at hi3
              have hact3 : m3.act = without m.act [s] := by
                rw [hr.act, ← hact1, ← hcore.act]
                congr 1
                funext x; simp only [Mach.act, upd]; split
                · next hx => subst hx; simp [hop]
                · rfl
              have htr3 : m3.trace = m.trace ++ exits full m.trig [s] := by
                rw [hr.trace, ← hpre]
                show m2.trace ++ destroys m2.trig [s] = _
                rw [htr2, hcore.trig, htrig1]; simp [destroys]
              have hico3 : m3.ico = m.ico := by
                rw [hr.frame.ico]; show m2.ico = _; rw [hcore.ico, hico1]
              have hfe3 : m3.fullExit = m.fullExit := by
                rw [hr.frame.fullExit]; show m2.fullExit = _; rw [hcore.fullExit, hfe1]
              have htg3 : m3.trig = m.trig := by
                rw [hr.frame.trig]; show m2.trig = _; rw [hcore.trig, htrig1]
              have hou3 : m3.pOU = (if m.pOU = none ∨ m.pOU = some s then P.parent s else m.pOU) := by
                rw [hr.frame.pOU]; show m2.pOU = _; rw [hcore.pOU, hou1]
              have hnl := Chart.parent_not_leaf hwf hsn hp
              have := ih p (inc (dec L s) p) m3 (by omega) hi3 (by simp) (fun o' ho' => hi3.not_slot ho' hnl)
              rw [dec_inc] at this
              rw [← hact3]
              refine wp_mono this ?_ ?_
              · intro _ m4 hp4
                refine ⟨hp4.inv, ?_, ?_, ?_, ?_, ?_, ?_⟩
                · rw [hp4.act, hact3, ← without_cons]
                · rw [hp4.trace, htr3, htg3, exits_cons, exits_cons]; simp [exits]
                · rw [hp4.pOU, hou3]
                  refine ouAfter_cons _ _ _ _ ?_
                  intro t ht
                  rw [hp]; exact upwardF_head ht
                · rw [hp4.ico, hico3]
                · rw [hp4.fullExit, hfe3]
                · rw [hp4.trig, htg3]
              · intro _ m4 hp4
                have hsub3 : ∀ x, m3.act x = true → m.act x = true := by
                  intro x hx
                  rw [hact3] at hx
                  simp [without] at hx; exact hx.1
                refine ⟨⟨hp4.full, hp4.inv, fun x hx => hsub3 x (hp4.sub x hx), hp4.unstable, ?_, ?_, ?_⟩, ?_, .trans hp4.inv hsub3 hp4.sub (.step hi3 hlive (by rw [hact3]; simp [without]) hou3) hp4.drift, .trans ⟨_, htr3, exits_noEnter _ _ _⟩ hp4.quiet, ?_⟩
                · rw [hp4.ico, hico3]
                · rw [hp4.fullExit, hfe3]
                · rw [hp4.trig, htg3]
                · intro hb
                  have hs3 : Gap P.toChart m m3 := by
                    refine .step hi3 hlive (by rw [hact3]; simp [without]) ?_ hou3 hb
                    intro y hy hy'
                    rw [hact3] at hy'
                    simp [without, hy] at hy'
                    subst hy'; exact .refl
                  refine hs3.trans hp4.inv hsub3 hp4.sub (hp4.gap ?_)
                  intro u hu
                  rw [hou3] at hu
                  split at hu
                  · rw [hp] at hu; cases hu; exact .refl
                  · next hne =>
                    cases hb u hu with
                    | refl => exact absurd (.inr hu) hne
                    | step hp' h => rw [hp] at hp'; cases hp'; exact h
                · obtain ⟨tr, g1, x1, y, x2, ob, l', g2, g3, g4, g5⟩ := hp4.cut
                  have hft := hp4.full
                  subst hft
                  refine ⟨exits true m.trig [s] ++ tr, by rw [g1, htr3, List.append_assoc], s :: x1, y, x2, ob, l', by rw [g2]; rfl, g3, ?_, g5⟩
                  rw [g4, htg3, show s :: x1 = [s] ++ x1 from rfl, exits_append, List.append_assoc]
        simp only [wp_bind, wp_onThrow]
        cases full with
        | false =>
          simp only [Bool.false_eq_true, if_false, wp_pure]
          exact after m1 none [] hi1 (.inl rfl) (.refl _) (by simp [htr1]) (by simp [exits])
        | true =>
          simp only [if_true]
          refine fullExitPart_wp hwf hi1 hlive1 hch1 ?_ ?_
          · intro m2 hi2 hcore htr2
            refine after m2 (some s) [(m.trig, .exit s)] hi2 (.inr rfl) hcore ?_ (by simp [exits])
            rw [htr2, htr1, htrig1]
          · intro x m2 ob hi2 hcore hob htr2
            have ho2 : m2.heap s = some o1 := by rw [hcore.heap]; exact ho1
            refine wp_mono (release_wp hwf hi2 hL (.inr ⟨rfl, fun o' ho' => by rw [ho2] at ho'; cases ho'; exact hrc1⟩)) ?_ (fun _ _ h => h.elim)
            rintro _ m3 ⟨l, hr⟩
            obtain ⟨l', hl, _⟩ := hr.last o1 ho2 hrc1
            subst hl
            have hsub : ∀ x, m3.act x = true → x ≠ s ∧ m.act x = true := by
              intro x hx
              rw [hr.act, hcore.act, hact1] at hx
              simp [without] at hx; exact ⟨hx.2.1, hx.1⟩
            have hq : NoEnter m m3 := by
              refine .trans (b := m2) ⟨_, by rw [htr2, htr1], ?_⟩ ⟨_, hr.trace, destroys_noEnter _ _⟩
              intro e he y
              rw [List.mem_singleton] at he; subst he
              rcases hob with h | h <;> rw [h] <;> simp
            refine ⟨⟨rfl, hr.inv, fun x hx => (hsub x hx).2, ?_, ?_, ?_, ?_⟩, ?_, .step hr.inv hlive (by rw [hr.act]; simp [without]) (by rw [hr.frame.pOU, hcore.pOU, hou1]), hq, ?_⟩
            rotate_left 4
            · intro hb
              refine .step hr.inv hlive (by rw [hr.act]; simp [without]) ?_ (by rw [hr.frame.pOU, hcore.pOU, hou1]) hb
              intro y hy hy'
              rw [hr.act, hcore.act, hact1] at hy'
              simp only [without, hy, Bool.true_and, Bool.not_eq_false', List.contains_eq_mem, decide_eq_true_eq] at hy'
              exact hr.below y hy'
            · refine ⟨_, ?_, [], s, _, ob, l', rfl, hob, rfl, fun x hx => hr.below x (by simp [hx])⟩
              rw [hr.trace, htr2, htr1, hcore.trig, htrig1]
              simp [exits]
            · cases hou : m1.pOU with
              | some u => left; rw [hr.frame.pOU, hcore.pOU, hou]; simp
              | none =>
                right
                have hpn : P.parent s = none := by
                  rw [hou1] at hou
                  split at hou
                  · exact hou
                  · next h' => exact absurd (.inl hou) h'
                intro x
                cases hx : m3.act x with
                | false => rfl
                | true =>
                  obtain ⟨h1, h2⟩ := hsub x hx
                  exact absurd (h.only_root hwf hlive hpn hch h2) h1
            · rw [hr.frame.ico, hcore.ico, hico1]
            · rw [hr.frame.fullExit, hcore.fullExit, hfe1]
            · rw [hr.frame.trig, hcore.trig, htrig1]
      -- the pointer updates
      have hpl : ∀ t, P.parent s = some t → (m.heap t).isSome ∧ P.isLeaf t = false := fun t hp =>
        ⟨h.par_live hlive hp, Chart.parent_not_leaf hwf hsn hp⟩
      have hinner : ∀ {m1 : Mach W}, Inv P.toChart L none m1 →
          (∀ x o, m.heap x = some o → ∃ o', m1.heap x = some o' ∧ o'.inner = o.inner ∧ o'.lpos = o.lpos) →
          m1.slot = m.slot → m1.pOU ≠ some s → ∃ o1, m1.heap s = some o1 ∧ o1.rc = 1 := by
        intro m1 hi1 hheap1 hslot1 hne
        obtain ⟨o1, ho1, hin1, hlp1⟩ := hheap1 s o ho
        refine ⟨o1, ho1, ?_⟩
        have := hi1.rc ho1
        rw [if_neg hne, hin1, hlp1, hslot1, if_neg hsl, hn, hL1] at this
        omega
      have hpself : P.parent s ≠ some s := fun hp => Nat.lt_irrefl _ (hwf.parent_lt hsn hp)
      by_cases hou : m.pOU = some s
      · have hrc2 : o.rc = 2 := by rw [if_pos hou] at hrc; omega
        rw [if_pos hrc2]
        unfold setCtxOU
        simp only [wp_bind, wp_getObj]
        refine ⟨o, ho, ?_⟩
        rw [if_pos (h.ctx ho)]
        refine setOU_wp h _ hpl ?_ ?_
        · intro t ht _
          rw [hou] at ht; cases ht
          exact ⟨o, ho, .inl hL⟩
        · intro m1 hi1 hou1 hact1 htr1 hslot1 hlen1 hend1 hico1 hfe1 htrig1 _ hheap1 _
          simp only [wp_get]
          have hou1' : m1.pOU = (if m.pOU = none ∨ m.pOU = some s then P.parent s else m.pOU) := by
            rw [hou1, if_pos (.inr hou)]
          by_cases hp : m1.pOU = none
          · rw [if_pos hp]
            simp only [wp_bind, wp_getObj]
            obtain ⟨o1, ho1, _⟩ := hheap1 s o ho
            refine ⟨o1, ho1, ?_⟩
            rw [if_pos (hi1.ctx ho1)]
            have hpn : P.parent s = none := by rw [← hou1]; exact hp
            refine setOU_wp hi1 _ (fun t ht => by rw [hpn] at ht; cases ht) (fun t ht => by rw [hp] at ht; cases ht) ?_
            intro m2 hi2 hou2 hact2 htr2 hslot2 hlen2 hend2 hico2 hfe2 htrig2 _ hheap2 _
            have := key m2 hi2 ?_ (by rw [hact2, hact1]) (by rw [htr2, htr1]) (by rw [hslot2, hslot1]) (by rw [hlen2, hlen1])
              (by rw [hend2, hend1]) (by rw [hico2, hico1]) (by rw [hfe2, hfe1]) (by rw [htrig2, htrig1]) ?_
            · simp only [wp_bind] at this; exact this
            · rw [hou2, if_pos (.inr hou)]
            · refine hinner hi2 ?_ (by rw [hslot2, hslot1]) (by rw [hou2]; exact hpself)
              intro x ox hx
              obtain ⟨o3, h3, h4, h5⟩ := hheap1 x ox hx
              obtain ⟨o4, h6, h7, h8⟩ := hheap2 x o3 h3
              exact ⟨o4, h6, by rw [h7, h4], by rw [h8, h5]⟩
          · rw [if_neg hp]
            simp only [wp_pure]
            have := key m1 hi1 hou1' hact1 htr1 hslot1 hlen1 hend1 hico1 hfe1 htrig1
              (hinner hi1 hheap1 hslot1 (by rw [hou1]; exact hpself))
            simp only [wp_bind] at this; exact this
      · have hrc1 : o.rc = 1 := by rw [if_neg hou] at hrc; omega
        rw [if_neg (by omega)]
        simp only [wp_bind, wp_pure, wp_get]
        by_cases hp : m.pOU = none
        · rw [if_pos hp]
          unfold setCtxOU
          simp only [wp_bind, wp_getObj]
          refine ⟨o, ho, ?_⟩
          rw [if_pos (h.ctx ho)]
          refine setOU_wp h _ hpl (fun t ht => by rw [hp] at ht; cases ht) ?_
          intro m1 hi1 hou1 hact1 htr1 hslot1 hlen1 hend1 hico1 hfe1 htrig1 _ hheap1 _
          have := key m1 hi1 (by rw [hou1, if_pos (.inl hp)]) hact1 htr1 hslot1 hlen1 hend1 hico1 hfe1 htrig1
              (hinner hi1 hheap1 hslot1 (by rw [hou1]; exact hpself))
          simp only [wp_bind] at this; exact this
        · rw [if_neg hp]
          simp only [wp_pure]
          have := key m h (by rw [if_neg]; rintro (h' | h') <;> contradiction) rfl rfl rfl rfl rfl rfl rfl rfl ⟨o, ho, hrc1⟩
          simp only [wp_bind] at this; exact this
    · -- the state stays
      have hif : ¬ (o.rc = 1 ∨ (o.rc = 2 ∧ m.pOU = some s)) := by
        rintro (h1 | ⟨h1, h2⟩)
        · apply hgo; constructor <;> omega
        · rw [if_pos h2] at hrc; apply hgo; constructor <;> omega
      rw [if_neg hif]
      have hup : upwardF P.toChart (lockOf (dec L s)) (f + 1) m.act (some s) = [] := by
        unfold upwardF
        rw [if_pos]
        simp only [lockOf, dec_same, Bool.or_eq_true, decide_eq_true_eq, Bool.not_eq_true']
        by_cases hL1 : L s = 1
        · right
          cases hc : childless P.toChart m.act s with
          | false => rfl
          | true => exact absurd ⟨hL1, hcl.1 hc⟩ hgo
        · left; omega
      rw [hup]
      refine wp_mono (release_wp hwf h hL (.inl rfl)) ?_ (fun _ _ h => h.elim)
      rintro _ m' ⟨l, hr⟩
      have hl : l = [] := by
        refine hr.keep o ho ?_
        by_cases hL1 : L s = 1
        · have : nch (P.regions (some s)) o.inner ≠ 0 := fun hn => hgo ⟨hL1, hn⟩
          omega
        · omega
      subst hl
      refine ⟨hr.inv, by rw [hr.act], by rw [hr.trace]; simp [destroys, exits], ?_, hr.frame.ico,
        hr.frame.fullExit, hr.frame.trig⟩
      rw [hr.frame.pOU]; rfl

/-- `exit_impl` with its fuel. -/
theorem exitImpl_wp (hwf : P.toChart.WF) (full : Bool) {s : Sid} (h : Inv P.toChart L none m) (hL : L s ≠ 0)
    (hslot : ∀ o, m.heap s = some o → m.slot o.lpos ≠ some s) :
    wp (exitImpl P s full)
      (fun _ m' => ExitPost P.toChart (dec L s) full m m'
        (upwardF P.toChart (lockOf (dec L s)) (s + 1) m.act (some s)))
      (fun _ m' => ExitFail P.toChart (dec L s) full s m m' (upwardF P.toChart (lockOf (dec L s)) (s + 1) m.act (some s))) m :=
  exitF_wp hwf full _ _ _ _ (Nat.lt_succ_self s) h hL hslot

end SC
