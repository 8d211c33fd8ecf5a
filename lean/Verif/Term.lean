import Verif.Remove
/-!
# Termination of states and of the machine
-/

namespace SC
open Spec
variable {W : Type} {P : Prog W} {L : Sid → Nat} {pend : Option Sid} {m : Mach W}

/-- With nothing unstable or locked below `s`, there is an innermost state in the list. -/
theorem Inv.leaf_below {C : Chart} (hwf : C.WF) (h : Inv C L pend m) (hou : m.pOU = none) : ∀ (k : Nat) (s : Sid),
    C.n - s ≤ k → (m.heap s).isSome → (∀ x, Below C s x → L x = 0) →
    ∃ t, Below C s t ∧ (m.heap t).isSome ∧ C.isLeaf t = true := by
  intro k
  induction k with
  | zero => intro s hk hs _; have := h.live_bound hs; omega
  | succ k ih =>
    intro s hk hs hL
    by_cases hl : C.isLeaf s = true
    · exact ⟨s, .refl, hs, hl⟩
    · obtain ⟨o, ho⟩ := Option.isSome_iff_exists.1 hs
      have hn : nch (C.regions (some s)) o.inner ≠ 0 := by
        intro hn
        rcases h.noOrphan ho (by simpa using hl) hn with h' | h'
        · rw [hou] at h'; cases h'
        · exact h' (hL s .refl)
      obtain ⟨i, c, hi, hc⟩ := nch_exists hn
      obtain ⟨h1, h2, h3⟩ := (h.inner_iff ho).1 hc
      have hlt := hwf.parent_lt (h.live_bound h1) h2
      obtain ⟨t, ht1, ht2, ht3⟩ := ih c (by omega) h1 (fun x hx => hL x (Below.trans (.step h2 .refl) hx))
      exact ⟨t, Below.trans (.step h2 .refl) ht1, ht2, ht3⟩

/-- If `t` is the only live leaf below `s`, the subtree of `s` is the chain from `t` up to `s`. -/
theorem Inv.single_leaf {C : Chart} (hwf : C.WF) (h : Inv C L pend m) (hou : m.pOU = none) {t : Sid}
    (ht : (m.heap t).isSome) (htl : C.isLeaf t = true)
    (huniq : ∀ x, (m.heap x).isSome → C.isLeaf x = true → L x = 0 → x = t) : ∀ (f : Nat) (s : Sid),
    C.n - s ≤ f → (m.heap s).isSome → (∀ x, Below C s x → L x = 0) →
    upward C (lockOf L) m.act (some t) = removalF C L m.act f s := by
  intro f
  induction f with
  | zero => intro s hf hs _; have := h.live_bound hs; omega
  | succ f ih =>
    intro s hf hs hL
    have hsn := h.live_bound hs
    by_cases hl : C.isLeaf s = true
    · have hst := huniq s hs hl (hL s .refl)
      subst hst
      unfold removalF
      rw [exitOrderF_leaf hl, upward_go hwf hsn (hL s .refl) (childless_leaf hwf hl)]
      rfl
    · obtain ⟨o, ho⟩ := Option.isSome_iff_exists.1 hs
      have hn : nch (C.regions (some s)) o.inner ≠ 0 := by
        intro hn
        rcases h.noOrphan ho (by simpa using hl) hn with h' | h'
        · rw [hou] at h'; cases h'
        · exact h' (hL s .refl)
      obtain ⟨i, c, hi, hc⟩ := nch_exists hn
      obtain ⟨h1, h2, h3⟩ := (h.inner_iff ho).1 hc
      have hcn := h.live_bound h1
      have hlt := hwf.parent_lt hcn h2
      have hLc : ∀ x, Below C c x → L x = 0 := fun x hx => hL x (Below.trans (.step h2 .refl) hx)
      have htc : ∀ c', (m.heap c').isSome → C.parent c' = some s → Below C c' t := by
        intro c' h1' h2'
        obtain ⟨t', g1, g2, g3⟩ := h.leaf_below hwf hou _ c' (Nat.le_refl _) h1'
          (fun x hx => hL x (Below.trans (.step h2' .refl) hx))
        have := huniq t' g2 g3 (hL t' (Below.trans (.step h2' .refl) g1))
        rw [← this]; exact g1
      have honly : ∀ c', (m.heap c').isSome → C.parent c' = some s → c' = c := by
        intro c' h1' h2'
        exact (htc c' h1' h2').sibling hwf (h.live_bound ht) (htc c h1 h2) (by rw [h2', h2])
      have hord : exitOrderF C m.act (f + 1) s = exitOrderF C m.act f c ++ [s] := by
        rw [exitOrderF_succ]
        congr 1
        have hreg : ∀ j, regionOrder C m.act f s j = if j = i then exitOrderF C m.act f c else [] := by
          intro j
          unfold regionOrder
          rw [h.childAt hwf ho]
          by_cases hj : j = i
          · rw [if_pos hj, hj, hc]
          · rw [if_neg hj]
            cases hoj : o.inner j with
            | none => rfl
            | some c' =>
              obtain ⟨g1, g2, g3⟩ := (h.inner_iff ho).1 hoj
              have := honly c' g1 g2
              subst this
              omega
        have hfun : regionOrder C m.act f s = fun j => if j = i then exitOrderF C m.act f c else [] := funext hreg
        rw [hfun]
        have : ∀ r, i < r → (List.range r).reverse.flatMap (fun j => if j = i then exitOrderF C m.act f c else []) =
            exitOrderF C m.act f c := by
          intro r
          induction r with
          | zero => intro h; omega
          | succ r ihr =>
            intro hir
            rw [List.range_succ, List.reverse_append]
            simp only [List.reverse_singleton, List.singleton_append, List.flatMap_cons]
            by_cases hri : r = i
            · rw [if_pos hri]
              have : (List.range r).reverse.flatMap (fun j => if j = i then exitOrderF C m.act f c else []) = [] := by
                rw [List.flatMap_eq_nil_iff]
                intro j hj
                simp at hj
                rw [if_neg (by omega)]
              rw [this, List.append_nil]
            · rw [if_neg hri, ihr (by omega)]; rfl
        exact this _ hi
      have hcl : childless C (without m.act (exitOrderF C m.act f c)) s = true := by
        rw [SC.childless_iff]
        intro c' hc' ha hp'
        simp only [without, Bool.and_eq_true, Bool.not_eq_true', List.contains_eq_mem, decide_eq_false_iff_not] at ha
        have := honly c' ha.1 hp'
        subst this
        exact ha.2 (h.mem_exitOrderF hwf f c' c' (by omega) h1 .refl)
      rw [ih c (by omega) h1 hLc]
      unfold removalF
      rw [hord, h2, upward_go hwf hsn (hL s .refl) hcl, ← without_append]
      simp

theorem ExitPost.setIco {C : Chart} {full : Bool} {m m' m0 : Mach W} {l : List Sid}
    (h : ExitPost C L full m m' l) (h1 : m.act = m0.act) (h2 : m.trace = m0.trace) (h3 : m.pOU = m0.pOU)
    (h4 : m.ico = m0.ico) (h5 : m.fullExit = m0.fullExit) (h6 : m.trig = m0.trig) : ExitPost C L full m0 m' l :=
  ⟨h.inv, by rw [h.act, h1], by rw [h.trace, h2, h6], by rw [h.pOU, h3], by rw [h.ico, h4],
   by rw [h.fullExit, h5], by rw [h.trig, h6]⟩

theorem ExitThrow.setIco {C : Chart} {full : Bool} {m m' m0 : Mach W}
    (h : ExitThrow C L full m m') (h1 : m.act = m0.act)
    (h4 : m.ico = m0.ico) (h5 : m.fullExit = m0.fullExit) (h6 : m.trig = m0.trig) : ExitThrow C L full m0 m' :=
  ⟨h.full, h.inv, by rw [← h1]; exact h.sub, h.unstable, by rw [h.ico, h4], by rw [h.fullExit, h5], by rw [h.trig, h6]⟩

theorem ExitFail.setIco {C : Chart} {full : Bool} {s : Sid} {m m' m0 : Mach W} {l : List Sid}
    (h : ExitFail C L full s m m' l) (h1 : m.act = m0.act) (h2 : m.trace = m0.trace) (h3 : m.pOU = m0.pOU)
    (h4 : m.ico = m0.ico) (h5 : m.fullExit = m0.fullExit) (h6 : m.trig = m0.trig) : ExitFail C L full s m0 m' l :=
  ⟨h.toExitThrow.setIco h1 h4 h5 h6, fun hb => (h.gap (by rw [h3]; exact hb)).congr h1.symm h3.symm, h.drift.congr h1.symm h3.symm, by have := h.quiet; unfold NoEnter at *; rw [← h2]; exact this, by have := h.cut; rw [h2, h6] at this; exact this⟩

/-- `terminate_impl(state, full)` exits the subtree of `s` and then outer
states left without inner states. -/
theorem terminateState_wp (hwf : P.toChart.WF) (full : Bool) {s : Sid}
    (h : Inv P.toChart L none m) (hs : (m.heap s).isSome) (hL : ∀ x, Below P.toChart s x → L x = 0) :
    wp (terminateState P s full)
      (fun _ m' => ExitPost P.toChart L full { m with ico := false } m' (removalF P.toChart L m.act (P.n - s) s))
      (fun _ m' => ExitFail P.toChart L full s { m with ico := false } m' (removalF P.toChart L m.act (P.n - s) s)) m := by
  have h0 : Inv P.toChart L none { m with ico := false } :=
    h.congr' (m' := { m with ico := false }) rfl rfl h.end_le rfl rfl rfl h.tr ⟨h.hist.sh, h.hist.dh⟩
  unfold terminateState
  simp only [wp_bind, wp_modify, wp_get]
  by_cases hou : m.pOU ≠ none
  · rw [if_pos hou]
    exact remove_wp hwf full h0 hs hL
  · have hou : m.pOU = none := by simpa using hou
    rw [if_neg (by simpa using hou)]
    obtain ⟨t, ht1, ht2, ht3⟩ := h.leaf_below hwf hou _ s (Nat.le_refl _) hs hL
    obtain ⟨ot, hot⟩ := Option.isSome_iff_exists.1 ht2
    have htL := hL t ht1
    have htslot := h.leaf_in hot ht3 htL
    obtain ⟨_, htlt, _⟩ := h.slot_pos htslot hot
    rw [if_neg (by omega)]
    by_cases he : m.endIx = 1
    · rw [if_pos he]
      have hl0 : ot.lpos = 0 := by omega
      rw [hl0] at htslot
      simp only [wp_bind, wp_modify, takeSlot, wp_get, htslot, wp_pure]
      obtain ⟨hi, hact, hns⟩ := h.takeLeaf hot (by rw [hl0]; exact htslot)
        (m' := { m with ico := false, endIx := 0, slot := upd m.slot 0 none })
        (by
          intro x ox hx
          rw [he]
          simp only [Nat.sub_self, htslot]
          split
          · next hxt => cases hxt; rw [hx] at hot; cases hot; exact hx
          · exact hx)
        (fun x hx => hx) (by simp [he, hl0]) (by show 0 = m.endIx - 1; omega) rfl rfl rfl rfl ⟨h.hist.sh, h.hist.dh⟩
      have := exitImpl_wp hwf full hi (s := t) (by simp) hns
      rw [dec_inc, upwardF_upward hwf _ _ (h.bound hot) (Nat.lt_succ_self t), hact,
        h.single_leaf hwf hou ht2 ht3 ?_ (P.n - s) s (Nat.le_refl _) hs hL] at this
      · refine wp_mono this ?_ ?_
        · intro _ m' hp; exact hp.setIco hact rfl rfl rfl rfl rfl
        · intro _ m' hp; exact (hp.outer ht1).setIco hact rfl rfl rfl rfl rfl
      · intro x hx hxl hxL
        obtain ⟨ox, hox⟩ := Option.isSome_iff_exists.1 hx
        have hxs := h.leaf_in hox hxl hxL
        obtain ⟨_, hxlt, _⟩ := h.slot_pos hxs hox
        have : ox.lpos = 0 := by omega
        rw [this, htslot] at hxs; cases hxs; rfl
    · rw [if_neg he, if_pos (by have := h.end_le; omega)]
      exact remove_wp hwf full h0 hs hL

/-! ## Machine termination -/

/-- The states in the order in which termination of the machine exits them. -/
def allExits (C : Chart) (act : Sid → Bool) : Option Sid → List Sid
  | none => []
  | some s => exitOrder C act s

structure TermPost (C : Chart) (full : Bool) (m m' : Mach W) : Prop where
  inv : Inv C (fun _ => 0) none m'
  dead : ∀ x, m'.act x = false
  trace : m'.trace = m.trace ++ exits full m.trig (allExits C m.act m.outermost)
  ico : m'.ico = true → m.ico = true
  fullExit : m'.fullExit = true
  trig : m'.trig = m.trig
  evq : m'.evq = []
  dq : m'.dq = []
  sh : ∀ k, m'.sh k = none
  dh : ∀ k, m'.dh k = none

theorem Inv.pOU_dead {C : Chart} (h : Inv C L pend m) (hd : ∀ x, m.act x = false) : m.pOU = none := by
  cases hou : m.pOU with
  | none => rfl
  | some u =>
    have := (h.ou_live hou).1
    have hd := hd u
    unfold Mach.act at hd
    rw [hd] at this; cases this

theorem Inv.end_dead {C : Chart} (h : Inv C L pend m) (hd : ∀ x, m.act x = false) : m.endIx = 0 := by
  cases he : m.endIx with
  | zero => rfl
  | succ e =>
    obtain ⟨s, o, _, h2, _⟩ := h.slot_in (i := 0) (by omega)
    have hd := hd s
    unfold Mach.act at hd
    rw [h2] at hd; cases hd

theorem Inv.outer_dead {C : Chart} (h : Inv C L pend m) (hd : ∀ x, m.act x = false) : m.outermost = none := by
  cases he : m.outermost with
  | none => rfl
  | some s =>
    have := (h.outer.1 he).1
    have hd := hd s
    unfold Mach.act at hd
    rw [hd] at this; cases this

theorem Inv.dead_of_outer {C : Chart} (hwf : C.WF) (h : Inv C L pend m) (hd : m.outermost = none) : ∀ x, m.act x = false := by
  intro x
  cases hx : m.act x with
  | false => rfl
  | true =>
    obtain ⟨r, _, h2, h3⟩ := h.root_of hwf hx
    rw [h.outer.2 ⟨h2, h3⟩] at hd; cases hd

theorem removalF_root {C : Chart} {act : Sid → Bool} {f : Nat} {s : Sid} (hp : C.parent s = none) :
    removalF C L act f s = exitOrderF C act f s := by
  unfold removalF; rw [hp, upward_none, List.append_nil]

theorem terminateMachine_wp (hwf : P.toChart.WF) (full : Bool) (h : Inv P.toChart (fun _ => 0) none m) :
    wp (terminateMachine P full)
      (fun _ m' => TermPost P.toChart full m m')
      (fun _ m' => ExitThrow P.toChart (fun _ => 0) full { m with fullExit := true, ico := false } m' ∧ NoEnter m m' ∧ (m.pOU = none → Gap P.toChart m m') ∧
        ∃ tr, m'.trace = m.trace ++ tr ∧ ExitCut P.toChart m.trig (allExits P.toChart m.act m.outermost) tr) m := by
  have h0 : Inv P.toChart (fun _ => 0) none { m with fullExit := true } :=
    h.congr' (m' := { m with fullExit := true }) rfl rfl h.end_le rfl rfl rfl h.tr ⟨h.hist.sh, h.hist.dh⟩
  have key : ∀ c, m.outermost = c → wp (do
      (match c with
        | none => pure ()
        | some s => terminateState P s full)
      clearAll)
      (fun _ m' => TermPost P.toChart full m m')
      (fun _ m' => ExitThrow P.toChart (fun _ => 0) full { m with fullExit := true, ico := false } m' ∧ NoEnter m m' ∧ (m.pOU = none → Gap P.toChart m m') ∧
        ∃ tr, m'.trace = m.trace ++ tr ∧ ExitCut P.toChart m.trig (allExits P.toChart m.act m.outermost) tr)
      { m with fullExit := true } := by
   intro c hout
   cases c with
   | none =>
    simp only [wp_bind, wp_pure, clearAll, wp_modify]
    refine ⟨?_, fun x => h.dead_of_outer hwf hout x, ?_, id, rfl, rfl, rfl, rfl, fun _ => rfl, fun _ => rfl⟩
    · exact h.congr' (m' := { m with fullExit := true, evq := [], dq := [], sh := fun _ => none, dh := fun _ => none, shKeys := fun _ => false, dhKeys := fun _ => false, qlog := m.qlog ++ [.clear], hlog := m.hlog ++ [.clear] }) rfl rfl h.end_le rfl rfl rfl h.tr ⟨(by intro p i g hg; cases hg), (by intro p i g hg; cases hg)⟩
    · rw [hout]; simp [allExits, exits]
   | some s =>
    obtain ⟨hs, hp⟩ := h.outer.1 hout
    simp only [wp_bind]
    refine wp_mono (terminateState_wp hwf full h0 hs (fun _ _ => rfl)) ?_ ?_
    · intro _ m1 hp1
      rw [removalF_root hp] at hp1
      simp only [clearAll, wp_modify]
      have hd : ∀ x, m1.act x = false := by
        intro x
        rw [hp1.act]
        cases hx : m.act x with
        | false =>
          have : Mach.act { m with fullExit := true, ico := false } x = false := hx
          simp [without, this]
        | true =>
          have := h.mem_exitOrderF hwf (P.n - s) s x (Nat.le_refl _) hx (h.below_root hwf hs hp hx)
          have he : Mach.act { m with fullExit := true } = m.act := rfl
          simp [without, he, this]
      have hi := hp1.inv
      refine ⟨?_, hd, ?_, ?_, ?_, ?_, rfl, rfl, fun _ => rfl, fun _ => rfl⟩
      · exact hi.congr' (m' := { m1 with evq := [], dq := [], sh := fun _ => none, dh := fun _ => none, shKeys := fun _ => false, dhKeys := fun _ => false, qlog := m1.qlog ++ [.clear], hlog := m1.hlog ++ [.clear] }) rfl rfl hi.end_le rfl rfl rfl hi.tr ⟨(by intro p i g hg; cases hg), (by intro p i g hg; cases hg)⟩
      · show m1.trace = _
        rw [hp1.trace, hout]; rfl
      · intro hic
        have : m1.ico = true := hic
        rw [hp1.ico] at this; cases this
      · show m1.fullExit = true
        rw [hp1.fullExit]
      · show m1.trig = m.trig
        rw [hp1.trig]
    · intro _ m1 hp1
      have hcut := hp1.cut
      rw [removalF_root hp] at hcut
      exact ⟨hp1.toExitThrow, hp1.quiet, fun hn => (hp1.gap fun u hu => by rw [show m.pOU = some u from hu] at hn; cases hn).congr rfl rfl, by rw [hout]; exact hcut⟩
  have := key _ rfl
  unfold terminateMachine
  simp only [wp_bind, wp_modify, wp_get] at this ⊢
  exact this

/-- Termination without `exit()` never throws. -/
theorem terminateMachine_false_wp (hwf : P.toChart.WF) (h : Inv P.toChart (fun _ => 0) none m)
    {Q : Unit → Mach W → Prop} {E : Exc → Mach W → Prop} (hq : ∀ m', TermPost P.toChart false m m' → Q () m') :
    wp (terminateMachine P false) Q E m :=
  wp_mono (terminateMachine_wp hwf false h) (fun _ m' hp => hq m' hp) (fun _ _ hp => by cases hp.1.full)

end SC
