import Verif.Transit
import Verif.Props.Vocab
/-!
# Transitions with relaxed transition context

`transit_impl` as compiled with BOOST_STATECHART_RELAX_TRANSITION_CONTEXT
(simple_state.hpp:698-803): the action is a member of the source state or of
one of its contexts, and it runs as soon as the inner states of that context were exited.
-/

namespace SC
open Spec Chart
variable {W : Type} {P : Prog W} {L : Sid → Nat} {m : Mach W} {F : Memory → Memory → Prop}

/-! ## Positions of transition contexts -/

/-- The contexts before the common one are the states from the source up to the termination state. -/
theorem ctx_inside {C : Chart} (hwf : C.WF) {c : Option Sid} : ∀ (s : Sid), s < C.n → c ∈ C.ctxList s → ∀ i, i ≤ (C.ctxList s).idxOf c →
    ∃ q t, (C.actionCtxs s)[i]? = some (some q) ∧ Below C q s ∧ C.parent t = c ∧ Below C t q := by
  intro s
  induction s using Nat.strongRecOn with
  | _ s ih =>
    intro hs hc i hi
    cases i with
    | zero =>
      obtain ⟨t, _, h1, h2⟩ := at_idx hwf s hs _ hc
      exact ⟨s, t, rfl, .refl, h1, h2⟩
    | succ i =>
      cases hp : C.parent s with
      | none =>
        exfalso
        rw [ctxList_none hp] at hc hi
        simp only [List.mem_singleton] at hc
        subst hc
        simp at hi
      | some p =>
        have hl := ctxList_some hwf hs hp
        rw [hl] at hc hi
        rw [List.idxOf_cons] at hi
        by_cases hcp : (some p : Option Sid) = c
        · rw [hcp] at hi; simp at hi
        · have hcp' : ((some p : Option Sid) == c) = false := by simpa using hcp
          rw [hcp'] at hi
          simp only [Bool.false_eq_true, cond_false, Nat.add_le_add_iff_right] at hi
          have hcm : c ∈ C.ctxList p := by
            rcases List.mem_cons.1 hc with h | h
            · exact absurd h.symm hcp
            · exact h
          obtain ⟨q, t, h1, h2, h3, h4⟩ := ih p (hwf.parent_lt hs hp) (parent_bound hwf hs hp) hcm i hi
          refine ⟨q, t, ?_, .step hp h2, h3, h4⟩
          unfold Chart.actionCtxs at h1 ⊢
          rw [hl, List.getElem?_cons_succ]
          exact h1

/-- Contexts at or after the common one contain it. -/
theorem ctx_outside {C : Chart} (hwf : C.WF) {c q : Option Sid} : ∀ (s : Sid), s < C.n → c ∈ C.ctxList s → q ∈ C.actionCtxs s →
    (C.ctxList s).idxOf c + 1 ≤ (C.actionCtxs s).idxOf q → ∀ y, q = some y → ∃ p, c = some p ∧ Below C y p := by
  intro s
  induction s using Nat.strongRecOn with
  | _ s ih =>
    intro hs hc hq hi y hy
    subst hy
    unfold Chart.actionCtxs at hq hi
    by_cases hys : s = y
    · subst hys; simp at hi
    · have hne : ((some s : Option Sid) == some y) = false := by simpa using hys
      rw [List.idxOf_cons, hne] at hi
      simp only [cond_false, Nat.add_le_add_iff_right] at hi
      have hq' : some y ∈ C.ctxList s := by
        rcases List.mem_cons.1 hq with h | h
        · cases h; exact absurd rfl hys
        · exact h
      cases hp : C.parent s with
      | none =>
        rw [ctxList_none hp] at hq'; simp at hq'
      | some p =>
        have hl := ctxList_some hwf hs hp
        rw [hl] at hc hi hq'
        by_cases hcp : c = some p
        · subst hcp
          refine ⟨p, rfl, ?_⟩
          rcases List.mem_cons.1 hq' with h | h
          · cases h; exact .refl
          · rcases (mem_ctxList hwf (parent_bound hwf hs hp)).1 h with h | ⟨z, hz, ho⟩
            · cases h
            · cases hz; exact ho.below
        · have hcm : c ∈ C.ctxList p := by
            rcases List.mem_cons.1 hc with h | h
            · exact absurd h hcp
            · exact h
          have hcp' : ((some p : Option Sid) == c) = false := by
            rw [beq_eq_false_iff_ne]; exact fun h => hcp h.symm
          rw [List.idxOf_cons, hcp'] at hi
          simp only [cond_false] at hi
          exact ih p (hwf.parent_lt hs hp) (parent_bound hwf hs hp) hcm hq' hi y rfl

/-! ## Exit of the inner states of a context that is kept alive -/

theorem ouAfter_siblings (C : Chart) (u : Option Sid) {l1 l2 : List Sid} {t p : Sid} (ht : l1.getLast? = some t)
    (hp : C.parent t = some p) (hl : ∀ z, l2.getLast? = some z → C.parent z = some p) (hpl : p ∉ l2) :
    ouAfter C (ouAfter C u l1) l2 = ouAfter C u (l1 ++ l2) := by
  cases hz : l2.getLast? with
  | none =>
    rw [List.getLast?_eq_none_iff] at hz
    subst hz
    rw [List.append_nil]; rfl
  | some z =>
    have hzp := hl z hz
    have hz2 : (l1 ++ l2).getLast? = some z := by
      rw [List.getLast?_append, hz]; rfl
    unfold ouAfter
    rw [hz, hz2, ht]
    cases u with
    | none => simp [hp, hpl, hzp]
    | some v =>
      by_cases hv : v ∈ l1
      · simp [hp, hpl, hv, hzp]
      · simp [hv]

theorem ExitPost.siblings {C : Chart} {full : Bool} {m m1 m2 : Mach W} {l1 l2 : List Sid}
    (h1 : ExitPost C L full m m1 l1) (h2 : ExitPost C L full m1 m2 l2) {t p : Sid}
    (ht : l1.getLast? = some t) (hp : C.parent t = some p) (hl : ∀ z, l2.getLast? = some z → C.parent z = some p) (hpl : p ∉ l2) :
    ExitPost C L full m m2 (l1 ++ l2) := by
  refine ⟨h2.inv, ?_, ?_, ?_, ?_, ?_, ?_⟩
  · rw [h2.act, h1.act, without_append]
  · rw [h2.trace, h1.trace, h1.trig, exits_append]; simp
  · rw [h2.pOU, h1.pOU]; exact ouAfter_siblings C _ ht hp hl hpl
  · rw [h2.ico, h1.ico]
  · rw [h2.fullExit, h1.fullExit]
  · rw [h2.trig, h1.trig]

theorem regionOrder_last {C : Chart} {act : Sid → Bool} {f : Nat} {s : Sid} : ∀ (is : List Nat) (z : Sid),
    (is.flatMap (regionOrder C act (f + 1) s)).getLast? = some z → C.parent z = some s := by
  intro is
  induction is with
  | nil => intro z h; cases h
  | cons i is ih =>
    intro z h
    rw [List.flatMap_cons, List.getLast?_append] at h
    cases hr : (is.flatMap (regionOrder C act (f + 1) s)).getLast? with
    | some y => rw [hr] at h; cases h; exact ih _ hr
    | none =>
      rw [hr] at h
      change (regionOrder C act (f + 1) s i).getLast? = some z at h
      unfold regionOrder at h
      split at h
      · cases h
      · next c hc =>
        rw [exitOrderF_last] at h
        cases h
        exact (childAt_some hc).2.2.1

theorem regionOrder_outer {C : Chart} {act : Sid → Bool} {f : Nat} {s i x : Sid} (hx : x ∈ regionOrder C act f s i) :
    Outer C s x ∧ act x = true := by
  unfold regionOrder at hx
  split at hx
  · cases hx
  · next c hc =>
    obtain ⟨_, h2, h3, _⟩ := childAt_some hc
    obtain ⟨h4, h5⟩ := exitOrderF_below _ _ _ hx
    refine ⟨Outer.trans_below ⟨s, h3, .refl⟩ h4, ?_⟩
    rcases h5 with rfl | h5
    · exact h2
    · exact h5

/-- The loop of `remove_from_state_list` in a state that something else keeps alive. -/
theorem removeLoopLocked_wp (hwf : P.toChart.WF) (full : Bool) (f : Nat) {s : Sid} {rec : Sid → M W Unit} (hLs : L s ≠ 0) (hfuel : P.n - s ≤ f + 2)
    (hrec : ∀ (m : Mach W) (c : Sid), Inv P.toChart L none m → (m.heap c).isSome → P.parent c = some s →
      wp (rec c) (fun _ m' => ExitPost P.toChart L full m m' (removalF P.toChart L m.act (f + 1) c))
        (fun _ m' => ExitFail P.toChart L full c m m' (removalF P.toChart L m.act (f + 1) c)) m) :
    ∀ (is : List Nat) (m : Mach W) (o : Obj), is.Nodup → Inv P.toChart L none m → m.heap s = some o →
      wp (removeLoop rec s is)
        (fun _ m' => ExitPost P.toChart L full m m' (is.flatMap (regionOrder P.toChart m.act (f + 1) s)))
        (fun _ m' => ExitFail P.toChart L full s m m' (is.flatMap (regionOrder P.toChart m.act (f + 1) s))) m := by
  intro is
  induction is with
  | nil =>
    intro m o _ h ho
    simp only [removeLoop, wp_pure]
    exact ⟨h, by simp [without_nil], by simp [exits], rfl, rfl, rfl, rfl⟩
  | cons i is ih =>
    intro m o hnd h ho
    obtain ⟨hni, hnd⟩ := List.nodup_cons.1 hnd
    have hsn := h.bound ho
    simp only [removeLoop, wp_bind, wp_getObj]
    refine ⟨o, ho, ?_⟩
    cases hc : o.inner i with
    | none =>
      simp only [wp_pure]
      have hreg : regionOrder P.toChart m.act (f + 1) s i = [] := by
        unfold regionOrder; rw [h.childAt hwf ho, hc]
      rw [List.flatMap_cons, hreg, List.nil_append]
      exact ih m o hnd h ho
    | some c =>
      simp only
      obtain ⟨hc1, hc2, hc3⟩ := (h.inner_iff ho).1 hc
      have hcn := h.live_bound hc1
      have hreg : regionOrder P.toChart m.act (f + 1) s i = exitOrderF P.toChart m.act (f + 1) c := by
        unfold regionOrder; rw [h.childAt hwf ho, hc]
      have hstop : upward P.toChart (lockOf L) (without m.act (exitOrderF P.toChart m.act (f + 1) c)) (some s) = [] := by
        rw [upward_some hwf _ _ hsn, if_pos]
        simp [lockOf, hLs]
      refine wp_mono (hrec m c h hc1 hc2) ?_ ?_
      rotate_left
      · intro _ m1 hp
        unfold removalF at hp
        rw [hc2, hstop, List.append_nil] at hp
        rw [List.flatMap_cons, hreg]
        exact (hp.outer (.step hc2 .refl)).longer _
      intro _ m1 hp
      unfold removalF at hp
      rw [hc2, hstop, List.append_nil] at hp
      have hi1 := hp.inv
      obtain ⟨o1, ho1⟩ := Option.isSome_iff_exists.1 (hi1.L_live hLs)
      have hsub : ∀ x ∈ exitOrderF P.toChart m.act (f + 1) c, Below P.toChart c x := fun x hx =>
        (exitOrderF_below _ _ _ hx).1
      have hwo : ∀ x c', P.parent c' = some s → c' ≠ c → Below P.toChart c' x →
          without m.act (exitOrderF P.toChart m.act (f + 1) c) x = m.act x := by
        intro x c' hp' hne' hb
        cases hx : m.act x with
        | false => simp [without, hx]
        | true =>
          have hxn := h.live_bound hx
          simp only [without, hx, Bool.true_and, Bool.not_eq_true', List.contains_eq_mem, decide_eq_false_iff_not]
          intro hx'
          exact hne' (hb.sibling hwf hxn (hsub x hx') (by rw [hp', hc2]))
      have hregs : ∀ j ∈ is, regionOrder P.toChart m1.act (f + 1) s j = regionOrder P.toChart m.act (f + 1) s j := by
        intro j hj
        have hji : j ≠ i := fun h' => hni (h' ▸ hj)
        have hch : Spec.childAt P.toChart m1.act s j = Spec.childAt P.toChart m.act s j := by
          rw [hp.act]
          unfold Spec.childAt
          congr 1
          funext c'
          by_cases hp' : P.parent c' = some s
          · by_cases hcc : c' = c
            · subst hcc
              have : (P.pos c' == j) = false := by
                rw [beq_eq_false_iff_ne]; omega
              rw [this]; simp
            · rw [hwo c' c' hp' hcc .refl]
          · have : (P.parent c' == some s) = false := by simpa using hp'
            rw [this]; simp
        unfold regionOrder
        rw [hch]
        cases hoj : Spec.childAt P.toChart m.act s j with
        | none => rfl
        | some c' =>
          simp only
          obtain ⟨_, _, g2, g3⟩ := childAt_some hoj
          apply exitOrderF_congr
          intro x hx
          rw [hp.act]
          exact hwo x c' g2 (by intro h'; subst h'; omega) hx
      have hfm : is.flatMap (regionOrder P.toChart m1.act (f + 1) s) = is.flatMap (regionOrder P.toChart m.act (f + 1) s) := by
        rw [List.flatMap_def, List.flatMap_def, List.map_congr_left hregs]
      have hrec2 := ih m1 o1 hnd hi1 ho1
      rw [hfm] at hrec2
      refine wp_mono hrec2 ?_ ?_
      · intro _ m2 hp2
        rw [List.flatMap_cons, hreg]
        refine hp.siblings hp2 (t := c) (p := s) (exitOrderF_last _ _) hc2 (regionOrder_last is) ?_
        intro hs
        obtain ⟨j, _, hj⟩ := List.mem_flatMap.1 hs
        exact Outer.irrefl hwf hsn (regionOrder_outer hj).1
      · intro _ m2 hp2
        rw [List.flatMap_cons, hreg]
        exact hp2.after hp (Gap.subtree hwf h hp (exitOrderF_last _ _) hc1 hc2 hsub
          (fun x hx hb => h.mem_exitOrderF hwf (f + 1) c x (by have := hwf.parent_lt hcn hc2; omega) hx hb)) (hp.drift (exitOrderF_last _ _) hc1)

/-- The active states strictly inside `q`, in exit order. -/
def innerOrder (C : Chart) (act : Sid → Bool) (q : Sid) : List Sid :=
  (List.range (C.regions (some q))).reverse.flatMap (regionOrder C act (C.n - q - 1) q)

theorem exitOrder_inner {C : Chart} {act : Sid → Bool} {q : Sid} (hq : q < C.n) :
    exitOrder C act q = innerOrder C act q ++ [q] := by
  unfold exitOrder innerOrder
  obtain ⟨k, hk⟩ : ∃ k, C.n - q = k + 1 := ⟨C.n - q - 1, by omega⟩
  rw [hk, exitOrderF_succ]; rfl

/-- `remove_from_state_list` of a non-leaf state that something else keeps alive exits its inner states. -/
theorem removeLocked_wp (hwf : P.toChart.WF) (full : Bool) {q : Sid} (h : Inv P.toChart L none m) (hq : (m.heap q).isSome)
    (hL : ∀ x, Outer P.toChart q x → L x = 0) (hLq : L q ≠ 0) (hnl : P.isLeaf q = false)
    (horph : (∀ x, m.act x = true → P.parent x ≠ some q) → m.pOU = some q) :
    wp (remove P q full)
      (fun _ m' => ExitPost P.toChart L full m m' (innerOrder P.toChart m.act q))
      (fun _ m' => ExitFail P.toChart L full q m m' (innerOrder P.toChart m.act q)) m := by
  obtain ⟨o, ho⟩ := Option.isSome_iff_exists.1 hq
  have hqn := h.bound ho
  obtain ⟨f, hf⟩ : ∃ k, P.n - q = k + 1 := ⟨P.n - q - 1, by omega⟩
  unfold remove innerOrder
  rw [hf]
  unfold removeF
  simp only [wp_bind, wp_getObj, Nat.add_sub_cancel]
  refine ⟨o, ho, ?_⟩
  rw [if_neg (by simp [hnl])]
  cases hfind : (List.range (P.regions (some q))).find? (fun i => (o.inner i).isSome) with
  | none =>
    rw [List.find?_eq_none] at hfind
    have hnone : ∀ i, o.inner i = none := by
      intro i
      cases hoi : o.inner i with
      | none => rfl
      | some c =>
        have := hfind i (List.mem_range.2 (h.inner_lt hwf ho hoi))
        rw [hoi] at this; simp at this
    have hou : m.pOU = some q := by
      apply horph
      intro x hx hp
      have := (h.inner_iff ho (i := P.pos x) (c := x)).2 ⟨hx, hp, rfl⟩
      rw [hnone] at this; cases this
    have hnil : (List.range (P.regions (some q))).reverse.flatMap (regionOrder P.toChart m.act f q) = [] := by
      rw [List.flatMap_eq_nil_iff]
      intro i _
      unfold regionOrder
      rw [h.childAt hwf ho, hnone]
    rw [hnil]
    simp only [wp_bind, wp_get]
    rw [if_pos hou]
    simp only [wp_bind, addRef, wp_getObj]
    refine ⟨o, ho, ?_⟩
    simp only [wp_setObj]
    have hi := h.addRef ho
    have := exitImpl_wp hwf full hi (s := q) (by simp) (fun o' ho' => hi.not_slot ho' hnl)
    have hact : (Mach.act { m with heap := upd m.heap q (some { o with rc := o.rc + 1 }) } : Sid → Bool) = m.act := by
      funext x; simp only [Mach.act, upd]; split
      · next hx => subst hx; simp [ho]
      · rfl
    rw [dec_inc, upwardF_upward hwf _ _ hqn (Nat.lt_succ_self q), hact, upward_some hwf _ _ hqn, if_pos (by simp [lockOf, hLq])] at this
    refine wp_mono this ?_ ?_
    · intro _ m' hp
      exact ⟨hp.inv, by rw [hp.act, hact], hp.trace, hp.pOU, hp.ico, hp.fullExit, hp.trig⟩
    · intro _ m' hp
      exact ⟨⟨hp.full, hp.inv, fun x hx => by have := hp.sub x hx; rw [hact] at this; exact this,
        hp.unstable, hp.ico, hp.fullExit, hp.trig⟩, fun hb => (hp.gap hb).congr hact.symm rfl, hp.drift.congr hact.symm rfl, hp.quiet, hp.cut⟩
  | some k =>
    simp only
    have hk1 := List.find?_some hfind
    have hk2 := List.mem_range.1 (List.mem_of_find?_eq_some hfind)
    have hk3 : ∀ i, i < k → o.inner i = none := by
      intro i hi
      have := (List.find?_range_eq_some.1 hfind).2.2 i hi
      simpa using this
    obtain ⟨c, hc⟩ := Option.isSome_iff_exists.1 hk1
    obtain ⟨hc1, hc2, hc3⟩ := (h.inner_iff ho).1 hc
    have hcn := h.live_bound hc1
    have hlt := hwf.parent_lt hcn hc2
    obtain ⟨f', rfl⟩ : ∃ f', f = f' + 1 := ⟨f - 1, by omega⟩
    have := removeLoopLocked_wp hwf full f' (s := q) (rec := fun c => removeF P (f' + 1) c full) hLq (by omega)
      (fun m c h hcl hp => removeF_wp hwf full (f' + 1) c m h hcl (fun x hx => hL x (Outer.trans_below ⟨q, hp, .refl⟩ hx))
        (by have := hwf.parent_lt (h.live_bound hcl) hp; omega))
      (List.range' k (P.regions (some q) - k)).reverse m o (by rw [List.Nodup, List.pairwise_reverse]; exact List.Pairwise.imp (fun h => Ne.symm h) List.nodup_range') h ho
    rw [flatMap_range_drop (k := k) (by omega) (fun i hi => by
      unfold regionOrder
      rw [h.childAt hwf ho, hk3 i hi])]
    exact this

theorem Inv.mem_innerOrder {C : Chart} {pend : Option Sid} (hwf : C.WF) (h : Inv C L pend m) {q x : Sid} (hq : (m.heap q).isSome) :
    x ∈ innerOrder C m.act q ↔ (m.act x = true ∧ Outer C q x) := by
  have hqn := h.live_bound hq
  have hm := h.mem_exitOrder hwf (s := q) (x := x) hq
  rw [exitOrder_inner hqn, List.mem_append, List.mem_singleton] at hm
  constructor
  · intro hx
    unfold innerOrder at hx
    obtain ⟨j, _, hj⟩ := List.mem_flatMap.1 hx
    exact ⟨(regionOrder_outer hj).2, (regionOrder_outer hj).1⟩
  · rintro ⟨h1, h2⟩
    rcases hm.2 ⟨h1, h2.below⟩ with h3 | h3
    · exact h3
    · subst h3; exact absurd h2 (Outer.irrefl hwf hqn)

theorem flatMap_single {g : Nat → List Sid} {i : Nat} : ∀ r, i < r → (∀ j, j ≠ i → g j = []) →
    (List.range r).reverse.flatMap g = g i := by
  intro r
  induction r with
  | zero => intro h; omega
  | succ r ih =>
    intro hir hg
    rw [List.range_succ, List.reverse_append]
    simp only [List.reverse_singleton, List.singleton_append, List.flatMap_cons]
    by_cases hri : r = i
    · subst hri
      have : (List.range r).reverse.flatMap g = [] := by
        rw [List.flatMap_eq_nil_iff]
        intro j hj
        simp at hj
        exact hg j (by omega)
      rw [this, List.append_nil]
    · rw [hg r hri, ih (by omega) hg]; rfl

/-- `terminate_impl` of a non-leaf state that something else keeps alive exits exactly its inner states. -/
theorem terminateLocked_wp (hwf : P.toChart.WF) (full : Bool) {q : Sid} (h : Inv P.toChart L none m) (hq : (m.heap q).isSome)
    (hL : ∀ x, Outer P.toChart q x → L x = 0) (hLq : L q ≠ 0) (hnl : P.isLeaf q = false)
    (horph : (∀ x, m.act x = true → P.parent x ≠ some q) → m.pOU = some q) (hou : OUBelow P.toChart q m) :
    wp (terminateState P q full)
      (fun _ m' => ExitPost P.toChart L full { m with ico := false } m' (innerOrder P.toChart m.act q) ∧ m'.pOU = some q)
      (fun _ m' => ExitFail P.toChart L full q { m with ico := false } m' (innerOrder P.toChart m.act q)) m := by
  have h0 : Inv P.toChart L none { m with ico := false } := h.setFlags false m.fullExit m.trig
  have hqn := h.live_bound hq
  -- the unstable state
  have hfin : ∀ m', ExitPost P.toChart L full { m with ico := false } m' (innerOrder P.toChart m.act q) →
      ExitPost P.toChart L full { m with ico := false } m' (innerOrder P.toChart m.act q) ∧ m'.pOU = some q := by
    intro m' hp
    refine ⟨hp, ?_⟩
    rw [hp.pOU]
    show ouAfter P.toChart m.pOU (innerOrder P.toChart m.act q) = some q
    unfold ouAfter
    cases hz : (innerOrder P.toChart m.act q).getLast? with
    | none =>
      rw [List.getLast?_eq_none_iff] at hz
      simp only
      apply horph
      intro x hx hp
      have := (h.mem_innerOrder hwf (x := x) hq).2 ⟨hx, q, hp, .refl⟩
      rw [hz] at this; cases this
    | some z =>
      have hzp : P.parent z = some q := by
        have hzm := List.mem_of_getLast? hz
        unfold innerOrder at hz
        cases hk : P.n - q - 1 with
        | zero =>
          exfalso
          obtain ⟨h1, p, h2, h3⟩ := (h.mem_innerOrder hwf (x := z) hq).1 hzm
          have h4 := h.live_bound h1
          have h5 := hwf.parent_lt h4 h2
          have h6 := h3.le hwf (by omega)
          omega
        | succ k =>
          rw [hk] at hz
          exact regionOrder_last _ _ hz
      simp only
      cases hu : m.pOU with
      | none => exact hzp
      | some v =>
        simp only
        by_cases hv : v ∈ innerOrder P.toChart m.act q
        · rw [if_pos hv]; exact hzp
        · rw [if_neg hv]
          rcases (hou v hu).eq_or_outer with rfl | ho
          · rfl
          · exact absurd ((h.mem_innerOrder hwf hq).2 ⟨(h.ou_live hu).1, ho⟩) hv
  unfold terminateState
  simp only [wp_bind, wp_modify, wp_get]
  by_cases hpo : m.pOU ≠ none
  · rw [if_pos hpo]
    exact wp_mono (removeLocked_wp hwf full h0 hq hL hLq hnl horph) (fun _ m' hp => hfin m' hp) (fun _ _ h => h)
  · have hpo : m.pOU = none := by simpa using hpo
    rw [if_neg (by simpa using hpo)]
    obtain ⟨c, hc1, hc2⟩ : ∃ c, m.act c = true ∧ P.parent c = some q := by
      apply Classical.byContradiction
      intro hno
      have := horph fun x hx hp => hno ⟨x, hx, hp⟩
      rw [hpo] at this; cases this
    have hcn := h.live_bound hc1
    have hlt := hwf.parent_lt hcn hc2
    have hLc : ∀ c', P.parent c' = some q → ∀ x, Below P.toChart c' x → L x = 0 := fun c' hc' x hx => hL x (Outer.trans_below ⟨q, hc', .refl⟩ hx)
    obtain ⟨t, ht1, ht2, ht3⟩ := h.leaf_below hwf hpo _ c (Nat.le_refl _) hc1 (hLc c hc2)
    obtain ⟨ot, hot⟩ := Option.isSome_iff_exists.1 ht2
    have htL := hLc c hc2 t ht1
    have htslot := h.leaf_in hot ht3 htL
    obtain ⟨_, htlt, _⟩ := h.slot_pos htslot hot
    rw [if_neg (by omega)]
    by_cases he : m.endIx = 1
    · rw [if_pos he]
      have hl0 : ot.lpos = 0 := by omega
      rw [hl0] at htslot
      simp only [wp_bind, wp_modify, takeSlot, wp_get, htslot, wp_pure]
      obtain ⟨hi, hact, hns⟩ := h.takeLeaf hot (by rw [hl0]; exact htslot)
        (m' := { m with ico := false, endIx := 0, slot := upd m.slot 0 none })
        (by
          intro x ox hx
          rw [he]
          simp only [Nat.sub_self, htslot]
          split
          · next hxt => cases hxt; rw [hx] at hot; cases hot; exact hx
          · exact hx)
        (fun x hx => hx) (by simp [he, hl0]) (by show 0 = m.endIx - 1; omega) rfl rfl rfl rfl ⟨h.hist.sh, h.hist.dh⟩
      have huniq : ∀ x, (m.heap x).isSome → P.isLeaf x = true → L x = 0 → x = t := by
        intro x hx hxl hxL
        obtain ⟨ox, hox⟩ := Option.isSome_iff_exists.1 hx
        have hxs := h.leaf_in hox hxl hxL
        obtain ⟨_, hxlt, _⟩ := h.slot_pos hxs hox
        have : ox.lpos = 0 := by omega
        rw [this, htslot] at hxs; cases hxs; rfl
      have honly : ∀ c', m.act c' = true → P.parent c' = some q → c' = c := by
        intro c' h1' h2'
        obtain ⟨t', g1, g2, g3⟩ := h.leaf_below hwf hpo _ c' (Nat.le_refl _) h1' (hLc c' h2')
        have := huniq t' g2 g3 (hLc c' h2' t' g1)
        subst this
        exact g1.sibling hwf (h.live_bound g2) ht1 (by rw [h2', hc2])
      have hord : upward P.toChart (lockOf L) m.act (some t) = innerOrder P.toChart m.act q := by
        rw [h.single_leaf hwf hpo ht2 ht3 huniq (P.n - q - 1) c (by show P.n - c ≤ P.n - q - 1; omega) hc1 (hLc c hc2)]
        unfold removalF innerOrder
        rw [hc2, upward_some hwf _ _ hqn, if_pos (by simp [lockOf, hLq]), List.append_nil]
        obtain ⟨oq, hoq⟩ := Option.isSome_iff_exists.1 hq
        rw [flatMap_single (i := P.pos c) _ (Chart.pos_lt_some hwf hcn hc2)]
        · unfold regionOrder
          rw [h.childAt hwf hoq, (h.inner_iff hoq).2 ⟨hc1, hc2, rfl⟩]
        · intro j hj
          unfold regionOrder
          rw [h.childAt hwf hoq]
          cases hoj : oq.inner j with
          | none => rfl
          | some c' =>
            obtain ⟨g1, g2, g3⟩ := (h.inner_iff hoq).1 hoj
            have := honly c' g1 g2
            subst this
            omega
      have := exitImpl_wp hwf full hi (s := t) (by simp) hns
      rw [dec_inc, upwardF_upward hwf _ _ (h.bound hot) (Nat.lt_succ_self t), hact, hord] at this
      refine wp_mono this ?_ ?_
      · intro _ m' hp; exact hfin m' (hp.setIco hact rfl rfl rfl rfl rfl)
      · intro _ m' hp; exact ExitFail.outer (hp.setIco (m0 := { m with ico := false }) hact rfl rfl rfl rfl rfl) (Below.trans (.step hc2 .refl) ht1)
    · rw [if_neg he, if_pos (by have := h.end_le; omega)]
      exact wp_mono (removeLocked_wp hwf full h0 hq hL hLq hnl horph) (fun _ m' hp => hfin m' hp) (fun _ _ h => h)

/-! ## The three cases -/

theorem wp_terminateInTransit {t : Sid} {Q : Mach W → Prop} {E : Exc → Mach W → Prop}
    (hx : wp (terminateState P t m.fullExit) (fun _ m' => Q { m' with ico := true }) E m) :
    wp (terminateInTransit P t) (fun _ m' => Q m') E m := by
  unfold terminateInTransit
  simp only [wp_bind, wp_get, wp_modify]
  exact hx

theorem wp_checkCtx {c : Option Sid} {Q : Mach W → Prop} {E : Exc → Mach W → Prop} (hc : ∀ p, c = some p → (m.heap p).isSome) (hq : Q m) :
    wp (checkCtx c) (fun _ m' => Q m') E m := by
  cases c with
  | none => exact hq
  | some p =>
    obtain ⟨op, hop⟩ := Option.isSome_iff_exists.1 (hc p rfl)
    simp only [checkCtx, wp_bind, wp_getObj, wp_pure]
    exact ⟨op, hop, hq⟩

/-- The states at or below `t` were exited: first `l1`, then, after the action, `l2`. -/
structure RelaxExit (C : Chart) (F : Memory → Memory → Prop) (L : Sid → Nat) (t : Sid) (q : Option Sid) (a : Option Nat) (m m' : Mach W)
    (l1 l2 : List Sid) : Prop where
  inv : Inv C L none m'
  ico : m'.ico = true
  pOU : m'.pOU = C.parent t
  fullExit : m'.fullExit = m.fullExit
  trig : m'.trig = m.trig
  act : ∀ x, m'.act x = true ↔ m.act x = true ∧ ¬ Below C t x
  trace : m'.trace = m.trace ++ (exitObs m.fullExit l1 ++ acts a ++ exitObs m.fullExit l2).map (fun o => (m.trig, o))
  mem : MemRun C F m.mem (exitObs m.fullExit l1 ++ acts a ++ exitObs m.fullExit l2) m'.mem
  leaves : Leaves C m.act t (Inside C q) l1 l2

/-- An exception left the exit part of a transition: some state is marked unstable, or no state is left, or nothing happened to the states. States
outside `t` that are destroyed later, because nothing refers to them, belong to the interrupted exit. -/
structure RelaxThrow (C : Chart) (L : Sid → Nat) (t : Sid) (q : Option Sid) (a : Option Nat) (m m' : Mach W) : Prop where
  inv : Inv C L none m'
  sub : ∀ x, m'.act x = true → m.act x = true
  calm : NoEnter m m'
  lost : m.pOU = none → ∀ u, m'.pOU = some u → Lost C m.act m'.act u
  gap : (a = none → q = none) → m.pOU = none → ∀ obs, m'.trace = m.trace ++ obs → ¬ LateExit (obs.map (·.2)) → Gap C m m'
  kind : (m'.pOU ≠ none ∨ ∀ x, m'.act x = false) ∨ Quiet m m'
  fullExit : m'.fullExit = m.fullExit
  trig : m'.trig = m.trig
  cut : ∃ obs, m'.trace = m.trace ++ obs.map (fun o => (m.trig, o)) ∧ ∀ l : List Sid, (∀ x ∈ l, Outer C x t) →
    (m'.act t = true → l = []) → (m'.pOU = C.parent t → l = []) → LeavesUntil C m.fullExit m.act t (Inside C q) a (obs ++ l.map .destroy)

/-- An exception left a transition. -/
structure RelaxFailed (C : Chart) (q : Option Sid) (a : Option Nat) (m m' : Mach W) : Prop where
  inv : Inv C noL none m'
  shaken : C.relaxed = true → (a = none → q = none) → m.pOU = none → Shaken C m m'
  kind : (m'.pOU ≠ none ∨ ∀ x, m'.act x = false) ∨ Quiet m m'
  fullExit : m'.fullExit = m.fullExit
  trig : m'.trig = m.trig

/-- If only exits and actions happened, the pointer to the unstable state is right whenever it points to states that lost inner states. -/
theorem shaken_of_lost {C : Chart} (hwf : C.WF) {m m' : Mach W} (hi : Inv C L none m) (hr : C.relaxed = true) (hp : m.pOU = none)
    (hs : ∀ x, m'.act x = true → m.act x = true) (hn : NoEnter m m') (hk : (m'.pOU ≠ none ∨ ∀ x, m'.act x = false) ∨ Quiet m m')
    (hl : ∀ u, m'.pOU = some u → Lost C m.act m'.act u)
    (hg : ∀ obs, m'.trace = m.trace ++ obs → ¬ LateExit (obs.map (·.2)) → Gap C m m') : Shaken C m m' := by
  obtain ⟨o, e, g⟩ := hn
  refine ⟨o, e, ?_, fun u hu => (hl u hu).unstable hwf hi hs _⟩
  rintro x ⟨hx, i, _, h1, h2 | ⟨y, h2, h3, h4⟩⟩
  · obtain ⟨e, he, hx⟩ := List.mem_map.1 h2
    exact absurd hx (g e he x)
  · rcases hk with (hk | hk) | hk
    · obtain ⟨u, hu⟩ := Option.ne_none_iff_exists'.1 hk
      refine ⟨u, hu, ?_⟩
      rintro (h | h)
      · rw [hr] at h; cases h
      · obtain ⟨v, hv, hb⟩ := (hg o e h).cover x ⟨hx, y, h2, h4, h1 y h2 h3⟩
        rw [hu] at hv; cases hv; exact hb
    · rw [hk] at hx; cases hx
    · have := h1 y h2 h3
      rw [hk.act, h4] at this; cases this

theorem mem_exitObs_destroy (full : Bool) {l : List Sid} {x : Sid} (h : x ∈ l) : Obs.destroy x ∈ exitObs full l := by
  unfold exitObs
  refine List.mem_flatMap.2 ⟨x, h, ?_⟩
  split <;> simp

/-- Dropping references to states that something else keeps alive or not. -/
theorem Lost.release {C : Chart} {a a1 : Sid → Bool} {l : List Sid} {u : Sid} (h : Lost C a a1 u) (hu : without a1 l u = true) :
    Lost C a (without a1 l) u := by
  obtain ⟨_, y, h2, h3, h4⟩ := h
  exact ⟨hu, y, h2, h3, by simp [without, h4]⟩

theorem ExitFail.lost {C : Chart} {full : Bool} {s : Sid} {m m' : Mach W} {l : List Sid} (h : ExitFail C L full s m m' l) (hp : m.pOU = none)
    {u : Sid} (hu : m'.pOU = some u) : Lost C m.act m'.act u := by
  rcases h.drift u hu with h | h
  · rw [hp] at h; cases h
  · exact h

theorem acts_noEnter {m m' : Mach W} {a : Option Nat} (h : UserStep m m' (acts a)) : NoEnter m m' := by
  refine ⟨_, h.trace, ?_⟩
  intro e he x
  obtain ⟨o, ho, rfl⟩ := List.mem_map.1 he
  cases a with
  | none => cases ho
  | some a =>
    simp [acts] at ho; subst ho; simp

theorem Inv.innerList {C : Chart} {pend : Option Sid} (hwf : C.WF) (h : Inv C L pend m) {s : Sid} (hs : (m.heap s).isSome) :
    ExitList C (fun x => m.act x = true ∧ Outer C s x) (innerOrder C m.act s) := by
  have h1 := h.exitList hwf hs
  rw [exitOrder_inner (h.live_bound hs)] at h1
  exact ⟨fun x => h.mem_innerOrder hwf hs, (List.nodup_append.1 h1.nodup).1, (List.pairwise_append.1 h1.order).1⟩

theorem exits_snd (full : Bool) (t : Option Event) (l : List Sid) : (exits full t l).map (·.2) = exitObs full l := by
  rw [exits_eq, map_snd]

theorem relaxedExit_wp (hwf : P.toChart.WF) (hF : UserMem P F) {s t : Sid} {c q : Option Sid} {a : Option Nat}
    (h : Inv P.toChart L none m) (hs : (m.heap s).isSome) (hou : OUBelow P.toChart s m) (hc : c ∈ P.ctxList s) (hq : q ∈ P.actionCtxs s)
    (htp : P.parent t = c) (htb : Below P.toChart t s) (hLt : ∀ x, Below P.toChart t x → L x = 0) (hLc : ∀ p, c = some p → L p ≠ 0) :
    wp (relaxedExit P s t c q a) (fun _ m' => ∃ l1 l2, RelaxExit P.toChart F L t q a m m' l1 l2)
      (fun _ m' => RelaxThrow P.toChart L t q a m m') m := by
  have hsn := h.live_bound hs
  have htl := h.live_of_below htb hs
  have htn := h.live_bound htl
  have hLc' : ∀ p, P.parent t = some p → L p ≠ 0 := fun p hp => hLc p (by rw [← htp, hp])
  have hterm : ∀ {m : Mach W}, Inv P.toChart L none m → (m.heap t).isSome → OUBelow P.toChart t m →
      wp (terminateState P t m.fullExit)
        (fun _ m' => (ExitPost P.toChart L m.fullExit { m with ico := false } m' (exitOrder P.toChart m.act t) ∧ m'.pOU = P.parent t) ∧
          (memK P.toChart hF.pre).R m m')
        (fun _ m' => ExitFail P.toChart L m.fullExit t { m with ico := false } m' (exitOrder P.toChart m.act t) ∧ True) m := by
    intro m h htl hou
    exact wp_keeps (K := memK P.toChart hF.pre) (exitSubtree_wp hwf m.fullExit h htl hLt hLc' hou)
      ((memPrims hF).terminateState (full := m.fullExit) (fun _ => keeps_fullExit_mem hwf hF) t m)
  have hact : ∀ {m : Mach W}, Inv P.toChart L none m → wp (runAction P a)
      (fun _ m' => (UserStep m m' (acts a) ∧ Inv P.toChart L none m') ∧ (memK P.toChart hF.pre).R m m')
      (fun _ m' => (UserStep m m' (acts a) ∧ Inv P.toChart L none m' ∧ a ≠ none) ∧ True) m := by
    intro m h
    exact wp_keeps (K := memK P.toChart hF.pre) (wp_runAction h a (fun _ a b => ⟨a, b⟩) (fun _ _ a b c => ⟨a, b, c⟩))
      ((memPrims hF).action a _)
  have hwo : ∀ {act : Sid → Bool} {l : List Sid} {x : Sid}, without act l x = true ↔ act x = true ∧ x ∉ l := by
    intro act l x
    simp [without]
  unfold relaxedExit
  simp only
  by_cases h1 : (P.actionCtxs s).idxOf q = 0 ∧ P.isLeaf s = true
  · -- the action runs first
    rw [if_pos h1]
    obtain ⟨hi, hleaf⟩ := h1
    have hqs : q = some s := by
      unfold Chart.actionCtxs at hi hq
      by_cases hqs : some s = q
      · exact hqs.symm
      · have : ((some s : Option Sid) == q) = false := by simpa using hqs
        rw [List.idxOf_cons, this] at hi
        simp at hi
    subst hqs
    simp only [wp_bind]
    have hin : ∀ x, m.act x = true → ¬ Inside P.toChart (some s) x := by
      intro x hx hi
      have ho := hi s rfl
      rcases ho.below.child with rfl | ⟨c', h3, h4⟩
      · exact Outer.irrefl hwf hsn ho
      · rw [parent_not_leaf hwf (h4.bound hwf (h.live_bound hx)) h3] at hleaf; cases hleaf
    have hel := h.exitList hwf htl
    have hlv : Leaves P.toChart m.act t (Inside P.toChart (some s)) [] (exitOrder P.toChart m.act t) :=
      ⟨⟨fun x => ⟨fun hx => absurd hx List.not_mem_nil, fun hx => absurd hx.2 (hin x hx.1.1)⟩, .nil, .nil⟩,
        ⟨fun x => ⟨fun hx => ⟨(hel.mem x).1 hx, hin x ((hel.mem x).1 hx).1⟩, fun hx => (hel.mem x).2 hx.1⟩, hel.nodup, hel.order⟩⟩
    refine wp_checkCtx (fun p hp => by cases hp; exact hs) ?_
    refine wp_mono (hact h) ?_ ?_
    · rintro _ m1 ⟨⟨hu, h1⟩, hk1⟩
      have ha1 : m1.act = m.act := hu.core.act
      have hf1 : m1.fullExit = m.fullExit := hu.core.fullExit
      have hg1 : m1.trig = m.trig := hu.core.trig
      refine wp_terminateInTransit (Q := fun m' => ∃ l1 l2, RelaxExit P.toChart F L t (some s) a m m' l1 l2) ?_
      have htl1 : (m1.heap t).isSome := by
        have : m1.act t = true := by rw [ha1]; exact htl
        exact this
      refine wp_mono (hterm h1 htl1 ?_) ?_ ?_
      · intro u hu'; rw [hu.core.pOU] at hu'; exact Below.trans htb (hou u hu')
      · rintro _ m2 ⟨⟨h2, hou2⟩, hk2⟩
        have htr : m2.trace = m.trace ++ (exitObs m.fullExit [] ++ acts a ++ exitObs m.fullExit (exitOrder P.toChart m.act t)).map (fun o => (m.trig, o)) := by
          rw [h2.trace]
          show m1.trace ++ exits m1.fullExit m1.trig (exitOrder P.toChart m1.act t) = _
          rw [hu.trace, exits_eq, ha1, hf1, hg1]
          simp [exitObs]
        refine ⟨[], exitOrder P.toChart m.act t, h2.inv.setFlags true m2.fullExit m2.trig, rfl, hou2, ?_, ?_, ?_, htr, ?_, hlv⟩
        · show m2.fullExit = _; rw [h2.fullExit]; exact hf1
        · show m2.trig = _; rw [h2.trig]; exact hg1
        · intro x
          show m2.act x = true ↔ _
          rw [h2.act]
          show without m1.act (exitOrder P.toChart m1.act t) x = true ↔ _
          rw [ha1, hwo, h.mem_exitOrder hwf htl]
          exact ⟨fun g => ⟨g.1, fun hb => g.2 ⟨g.1, hb⟩⟩, fun g => ⟨g.1, fun hb => g.2 hb.2⟩⟩
        · have := memK_obs hF.pre ((memK P.toChart hF.pre).trans hk1 hk2) htr
          rw [map_snd] at this; exact this
      · rintro x m2 ⟨h2, _⟩
        refine ⟨h2.inv, fun x hx => by rw [← ha1]; exact h2.sub x hx, (acts_noEnter hu).trans h2.quiet,
          fun hp u hu' => by rw [← ha1]; exact h2.lost (by show m1.pOU = none; rw [hu.core.pOU]; exact hp) hu',
          fun _ hp _ _ _ => (h2.gap fun v hv => by
            rw [show (Mach.pOU { m1 with ico := false }) = m.pOU from hu.core.pOU, hp] at hv; cases hv).congr ha1.symm hu.core.pOU.symm,
          .inl h2.unstable, by rw [h2.fullExit]; exact hf1, by rw [h2.trig]; exact hg1, ?_⟩
        obtain ⟨tr, k1, k2⟩ := h2.cut
        obtain ⟨obs, k3, k4⟩ := k2.until
        refine ⟨acts a ++ obs, ?_, fun l hl _ _ => ?_⟩
        · rw [k1, k3]
          show m1.trace ++ obs.map (fun o => (m1.trig, o)) = _
          rw [hu.trace, hg1]; simp
        · have k5 : ExitsUntil P.toChart (exitOrder P.toChart m.act t) obs := by rw [← ha1]; exact k4
          have := LeavesUntil.rest (a := a) (full := m.fullExit) (by rw [← hf1]; exact h2.full) hlv
            (k5.more fun y hy x hx => (hl x hx).below.trans ((h.mem_exitOrder hwf htl).1 hy).2)
          rw [show exitObs m.fullExit [] = [] from rfl, List.nil_append, ← List.append_assoc] at this
          exact this
    · rintro x m1 ⟨⟨hu, h1, hane⟩, _⟩
      refine ⟨h1, fun x hx => by rw [← hu.core.act]; exact hx, acts_noEnter hu, fun hp u hu' => (by rw [hu.core.pOU, hp] at hu'; cases hu'),
        fun _ _ _ _ _ => .refl _ hu.core.act hu.core.pOU, .inr hu.quiet, hu.core.fullExit, hu.core.trig, acts a, hu.trace, fun l _ hl _ => ?_⟩
      have : l = [] := hl (by rw [hu.core.act]; exact htl)
      subst this
      rw [List.map_nil, List.append_nil]
      exact LeavesUntil.action hane hlv.first
  · rw [if_neg h1]
    by_cases h2 : (P.ctxList s).idxOf c + 1 ≤ (P.actionCtxs s).idxOf q
    · -- the action belongs to the common context or a state outside
      rw [if_pos h2]
      have hreal : (P.actionCtxs s).getD (min ((P.actionCtxs s).idxOf q) ((P.ctxList s).idxOf c + 1)) none = c := by
        rw [Nat.min_eq_right h2]
        unfold Chart.actionCtxs
        have hlt := List.idxOf_lt_length_of_mem hc
        rw [List.getD_eq_getElem?_getD, List.getElem?_cons_succ, List.getElem?_eq_getElem hlt, Option.getD_some]
        exact List.getElem_idxOf hlt
      rw [hreal]
      simp only [wp_bind]
      refine wp_terminateInTransit ?_
      have hel := h.exitList hwf htl
      have hin : ∀ x, Below P.toChart t x → Inside P.toChart q x := by
        intro x hx y hy
        obtain ⟨p, hp1, hp2⟩ := ctx_outside hwf s hsn hc hq h2 y hy
        exact Outer.trans_below ⟨p, by rw [htp, hp1], hp2⟩ hx
      have hlv : Leaves P.toChart m.act t (Inside P.toChart q) (exitOrder P.toChart m.act t) [] :=
        ⟨⟨fun x => ⟨fun hx => ⟨(hel.mem x).1 hx, hin x ((hel.mem x).1 hx).2⟩, fun hx => (hel.mem x).2 hx.1⟩, hel.nodup, hel.order⟩,
          ⟨fun x => ⟨fun hx => absurd hx List.not_mem_nil, fun hx => absurd (hin x hx.1.2) hx.2⟩, .nil, .nil⟩⟩
      refine wp_mono (hterm h htl (hou.up htb)) ?_ ?_
      · rintro _ m2 ⟨⟨h2, hou2⟩, hk2⟩
        have hi2 := h2.inv.setFlags true m2.fullExit m2.trig
        refine wp_checkCtx (fun p hp => hi2.L_live (hLc p hp)) ?_
        refine wp_mono (hact hi2) ?_ ?_
        · rintro _ m3 ⟨⟨hu, h3⟩, hk3⟩
          have htr : m3.trace = m.trace ++ (exitObs m.fullExit (exitOrder P.toChart m.act t) ++ acts a ++ exitObs m.fullExit []).map (fun o => (m.trig, o)) := by
            rw [hu.trace]
            show m2.trace ++ (acts a).map (fun o => (m2.trig, o)) = _
            rw [h2.trace, h2.trig, exits_eq]
            simp [exitObs]
          refine ⟨exitOrder P.toChart m.act t, [], h3, hu.core.ico, ?_, ?_, ?_, ?_, htr, ?_, hlv⟩
          · rw [hu.core.pOU]; exact hou2
          · rw [hu.core.fullExit]; show m2.fullExit = _; rw [h2.fullExit]
          · rw [hu.core.trig]; show m2.trig = _; rw [h2.trig]
          · intro x
            rw [hu.core.act]
            show m2.act x = true ↔ _
            rw [h2.act]
            show without m.act (exitOrder P.toChart m.act t) x = true ↔ _
            rw [hwo, h.mem_exitOrder hwf htl]
            exact ⟨fun g => ⟨g.1, fun hb => g.2 ⟨g.1, hb⟩⟩, fun g => ⟨g.1, fun hb => g.2 hb.2⟩⟩
          · have hR : (memK P.toChart hF.pre).R m m3 := by
              refine (memK P.toChart hF.pre).trans hk2 ?_
              obtain ⟨o, g1, g2⟩ := hk3
              exact ⟨o, g1, g2⟩
            have := memK_obs hF.pre hR htr
            rw [map_snd] at this; exact this
        · rintro x m3 ⟨⟨hu, h3, hane⟩, _⟩
          have ha3 : m3.act = without m.act (exitOrder P.toChart m.act t) := by
            rw [hu.core.act]; exact h2.act
          refine ⟨h3, fun x hx => by rw [ha3, hwo] at hx; exact hx.1, .trans (b := { m2 with ico := true }) ⟨_, h2.trace, exits_noEnter _ _ _⟩ (acts_noEnter hu), fun hp u hu' => ?_,
            fun _ hp _ _ _ => ⟨?_, ?_, fun v hv => by rw [hp] at hv; cases hv⟩, .inl ?_, by rw [hu.core.fullExit]; show m2.fullExit = _; rw [h2.fullExit], by rw [hu.core.trig]; show m2.trig = _; rw [h2.trig],
            exitObs m.fullExit (exitOrder P.toChart m.act t) ++ acts a, ?_, fun l _ _ hl => ?_⟩
          · have htu : P.parent t = some u := by rw [← hou2, ← hu']; exact hu.core.pOU.symm
            refine ⟨(h3.ou_live hu').1, t, htu, htl, ?_⟩
            rw [ha3]
            simp [without, (h.mem_exitOrder hwf htl).2 ⟨htl, .refl⟩]
          · rintro x ⟨hx, y, hy1, hy2, hy3⟩
            rw [ha3] at hx hy3
            have hyt : Below P.toChart t y := by
              refine Classical.byContradiction fun hb => ?_
              have := hwo.2 ⟨hy2, fun hm => hb ((h.mem_exitOrder hwf htl).1 hm).2⟩
              rw [this] at hy3; cases hy3
            rw [hwo, h.mem_exitOrder hwf htl] at hx
            refine ⟨x, ?_, .refl⟩
            rw [hu.core.pOU]
            show m2.pOU = _
            rw [hou2]
            cases hyt with
            | refl => exact hy1
            | step hp' hb' => rw [hy1] at hp'; cases hp'; exact absurd ⟨hx.1, hb'⟩ hx.2
          · intro u hu'
            have htu : P.parent t = some u := by rw [← hou2, ← hu']; exact hu.core.pOU.symm
            refine .inr ⟨(h3.ou_live hu').1, t, htu, htl, ?_⟩
            rw [ha3]
            simp [without, (h.mem_exitOrder hwf htl).2 ⟨htl, .refl⟩]
          rotate_left
          · rw [hu.trace]
            show m2.trace ++ (acts a).map (fun o => (m2.trig, o)) = _
            rw [h2.trace, h2.trig, exits_eq]
            simp
          · have : l = [] := hl (by rw [hu.core.pOU]; exact hou2)
            subst this
            rw [List.map_nil, List.append_nil]
            exact LeavesUntil.action hane hlv.first
          cases hct : P.parent t with
          | some p =>
            left
            rw [hu.core.pOU]
            show m2.pOU ≠ none
            rw [hou2, hct]; simp
          | none =>
            right
            intro x
            cases hx : m3.act x with
            | false => rfl
            | true =>
              exfalso
              rw [hu.core.act] at hx
              change m2.act x = true at hx
              rw [h2.act] at hx
              change without m.act (exitOrder P.toChart m.act t) x = true at hx
              rw [hwo, h.mem_exitOrder hwf htl] at hx
              exact hx.2 ⟨hx.1, h.below_root hwf htl hct hx.1⟩
      · rintro x m2 ⟨h2, _⟩
        obtain ⟨tr, k1, k2⟩ := h2.cut
        obtain ⟨obs, k3, k4⟩ := k2.until
        refine ⟨h2.inv, h2.sub, h2.quiet, fun hp u hu' => h2.lost hp hu',
          fun _ hp _ _ _ => (h2.gap fun v hv => by rw [show (Mach.pOU { m with ico := false }) = m.pOU from rfl, hp] at hv; cases hv).congr rfl rfl,
          .inl h2.unstable, by rw [h2.fullExit], by rw [h2.trig], obs, by rw [k1, k3], fun l hl _ _ => ?_⟩
        exact LeavesUntil.first h2.full hlv.first
          (k4.more fun y hy x hx => (hl x hx).below.trans ((h.mem_exitOrder hwf htl).1 hy).2)
    · -- the action belongs to the source or a state between it and the common context
      rw [if_neg h2]
      have h2' : (P.actionCtxs s).idxOf q ≤ (P.ctxList s).idxOf c := by omega
      rw [Nat.min_eq_left (by omega)]
      obtain ⟨r, t', hr1, hr2, hr3, hr4⟩ := ctx_inside hwf s hsn hc _ h2'
      have htt : t' = t := (hr4.trans hr2).sibling hwf hsn htb (by rw [hr3, htp])
      subst htt
      have hql := List.idxOf_lt_length_of_mem hq
      have hqr : q = some r := by
        rw [List.getElem?_eq_getElem hql, List.getElem_idxOf hql] at hr1
        exact Option.some.inj hr1
      have hreal : (P.actionCtxs s).getD ((P.actionCtxs s).idxOf q) none = some r := by
        rw [List.getD_eq_getElem?_getD, hr1]; rfl
      rw [hreal]
      subst hqr
      have hrl := h.live_of_below hr2 hs
      have hrn := h.live_bound hrl
      have hnl : P.isLeaf r = false := by
        rcases hr2.child with hrs | ⟨x, hx1, hx2⟩
        · cases hl : P.isLeaf r with
          | false => rfl
          | true => exact absurd ⟨by simp [Chart.actionCtxs, hrs], by rw [← hl, hrs]⟩ h1
        · exact parent_not_leaf hwf (hx2.bound hwf hsn) hx1
      obtain ⟨o, ho⟩ := Option.isSome_iff_exists.1 hrl
      have horph : (∀ x, m.act x = true → P.parent x ≠ some r) → m.pOU = some r := by
        intro hno
        have hz : nch (P.regions (some r)) o.inner = 0 := by
          rw [nch_zero_iff]
          intro i _
          cases hoi : o.inner i with
          | none => rfl
          | some c' =>
            obtain ⟨g1, g2, _⟩ := (h.inner_iff ho).1 hoi
            exact absurd g2 (hno c' g1)
        rcases h.noOrphan ho hnl hz with h' | h'
        · exact h'
        · exact absurd (hLt r hr4) h'
      have hkid : m.pOU = none → ∃ y, m.act y = true ∧ P.parent y = some r := by
        intro hp
        refine Classical.byContradiction fun hn => ?_
        have := horph (fun x hx hxp => hn ⟨x, hx, hxp⟩)
        rw [hp] at this; cases this
      simp only [wp_bind, addRef, wp_getObj]
      refine ⟨o, ho, ?_⟩
      simp only [wp_setObj]
      have h0 := h.addRef ho
      generalize hm0 : ({ m with heap := upd m.heap r (some { o with rc := o.rc + 1 }) } : Mach W) = m0 at *
      have ha0 : m0.act = m.act := by
        subst hm0
        funext x; simp only [Mach.act, upd]; split
        · next hx => subst hx; simp [ho]
        · rfl
      have hmem0 : m0.mem = m.mem := by subst hm0; rfl
      have htr0 : m0.trace = m.trace := by subst hm0; rfl
      have hou0 : m0.pOU = m.pOU := by subst hm0; rfl
      have hfe0 : m0.fullExit = m.fullExit := by subst hm0; rfl
      have htg0 : m0.trig = m.trig := by subst hm0; rfl
      have hlive : ∀ {x}, (m.heap x).isSome → (m0.heap x).isSome := by
        intro x hx
        have : m0.act x = true := by rw [ha0]; exact hx
        exact this
      have hirr : ¬ Outer P.toChart r r := Outer.irrefl hwf hrn
      have hx := terminateLocked_wp hwf m0.fullExit h0 (hlive hrl)
        (fun x hx => by rw [inc_other _ (by intro h'; subst h'; exact hirr hx)]; exact hLt x (hr4.trans hx.below)) (by simp) hnl
        (by rw [ha0, hou0]; exact horph) (by intro u hu; rw [hou0] at hu; exact hr2.trans (hou u hu))
      have hk := (memPrims hF).terminateState (full := m0.fullExit) (fun _ => keeps_fullExit_mem hwf hF) r m0
      have hil := h.innerList hwf hrl
      have hins : ∀ x, Inside P.toChart (some r) x ↔ Outer P.toChart r x :=
        fun x => ⟨fun g => g r rfl, fun g y hy => by cases hy; exact g⟩
      have hlf : ExitList P.toChart (fun x => (m.act x = true ∧ Below P.toChart t' x) ∧ Inside P.toChart (some r) x) (innerOrder P.toChart m.act r) := by
        refine ⟨fun x => ?_, hil.nodup, hil.order⟩
        rw [hil.mem, hins]
        exact ⟨fun g => ⟨⟨g.1, hr4.trans g.2.below⟩, g.2⟩, fun g => ⟨g.1.1, g.2⟩⟩
      have hfailed : ∀ {m' : Mach W}, Failed P.toChart (inc L r) m m' → (∀ x, m'.act x = true → m.act x = true) → NoEnter m m' →
          (m.pOU = none → ∀ u, m'.pOU = some u → Lost P.toChart m.act m'.act u) → (m.pOU = none → Gap P.toChart m m') →
          (∃ obs, m'.trace = m.trace ++ obs.map (fun o => (m.trig, o)) ∧ ∀ l : List Sid, (∀ x ∈ l, Below P.toChart x r) →
            (m'.pOU = some r → m'.act t' = true → l = []) → LeavesUntil P.toChart m.fullExit m.act t' (Inside P.toChart (some r)) a (obs ++ l.map .destroy)) →
          wp (release P r) (fun _ m'' => RelaxThrow P.toChart L t' (some r) a m m'') (fun _ _ => False) m' := by
        rintro m' hf hsub hcalm hlost hgap ⟨obs, k1, k2⟩
        refine wp_mono (wp_and (hf.release hwf) (release_wp hwf hf.inv (by simp) (.inl rfl))) ?_ (fun _ _ h => h.1.elim)
        rintro _ m'' ⟨g, lr, hrp⟩
        refine ⟨g.inv, fun x hx => hsub x (by rw [hrp.act, hwo] at hx; exact hx.1), hcalm.trans ⟨_, hrp.trace, destroys_noEnter _ _⟩, fun hp u hu => ?_,
          fun _ hp _ _ _ => (hkid hp).elim fun y hy => (hgap hp).release hwf hf.inv hrp hsub hy.1 hy.2 (h.live_bound hy.1), .inl g.unstable, g.fullExit, g.trig, obs ++ lr.map .destroy, ?_, fun l hl hl1 _ => ?_⟩
        · have hul := (g.inv.ou_live hu).1
          rw [show (m''.heap u).isSome = m''.act u from rfl] at hul
          rw [hrp.act] at hul ⊢
          exact (hlost hp u (by rw [← hrp.frame.pOU]; exact hu)).release hul
        · rw [hrp.trace, k1, destroys_eq, hf.trig]; simp
        · rw [List.append_assoc, ← List.map_append]
          apply k2
          · intro x hx
            rcases List.mem_append.1 hx with hx | hx
            · exact hrp.below x hx
            · exact (hl x hx).below.trans hr4
          · intro hu ha
            have h0 := hrp.keep_ou hu .refl
            subst h0
            rw [List.nil_append]
            apply hl1
            rw [hrp.act, without_nil]; exact ha
      simp only [wp_finally, wp_bind]
      refine wp_terminateInTransit ?_
      refine wp_mono (wp_keeps hx hk) ?_ ?_
      · rintro _ m2 ⟨⟨h2, hou2⟩, hk2⟩
        have hi2 := h2.inv.setFlags true m2.fullExit m2.trig
        refine wp_checkCtx (fun p hp => by cases hp; exact hi2.L_live (by simp)) ?_
        have hra : wp (runAction P a)
            (fun _ m' => (UserStep { m2 with ico := true } m' (acts a) ∧ Inv P.toChart (inc L r) none m') ∧
              (memK P.toChart hF.pre).R { m2 with ico := true } m')
            (fun _ m' => (UserStep { m2 with ico := true } m' (acts a) ∧ Inv P.toChart (inc L r) none m' ∧ a ≠ none) ∧ True)
            { m2 with ico := true } :=
          wp_keeps (K := memK P.toChart hF.pre) (wp_runAction hi2 a (fun _ a b => ⟨a, b⟩) (fun _ _ a b c => ⟨a, b, c⟩))
            ((memPrims hF).action a _)
        refine wp_mono hra ?_ ?_
        · rintro _ m3 ⟨⟨hu, h3⟩, hk3⟩
          have hou3 : m3.pOU = some r := by rw [hu.core.pOU]; exact hou2
          have hfe3 : m3.fullExit = m.fullExit := by rw [hu.core.fullExit]; show m2.fullExit = _; rw [h2.fullExit]; exact hfe0
          have htg3 : m3.trig = m.trig := by rw [hu.core.trig]; show m2.trig = _; rw [h2.trig]; exact htg0
          have ha3 : m3.act = without m.act (innerOrder P.toChart m.act r) := by
            rw [hu.core.act]; show m2.act = _; rw [h2.act]
            show without m0.act (innerOrder P.toChart m0.act r) = _
            rw [ha0]
          have htr3 : m3.trace = m.trace ++ (exitObs m.fullExit (innerOrder P.toChart m.act r) ++ acts a).map (fun o => (m.trig, o)) := by
            rw [hu.trace]
            show m2.trace ++ (acts a).map (fun o => (m2.trig, o)) = _
            rw [h2.trace, h2.trig, exits_eq]
            show m0.trace ++ List.map _ (exitObs m0.fullExit (innerOrder P.toChart m0.act r)) ++ _ = _
            rw [htr0, ha0, hfe0]
            show m.trace ++ List.map (fun o => (m0.trig, o)) _ ++ List.map (fun o => (m0.trig, o)) _ = _
            rw [htg0]
            simp
          have hmem3 : MemRun P.toChart F m.mem (exitObs m.fullExit (innerOrder P.toChart m.act r) ++ acts a) m3.mem := by
            have hR : (memK P.toChart hF.pre).R m0 m3 := by
              refine (memK P.toChart hF.pre).trans hk2 ?_
              obtain ⟨o, g1, g2⟩ := hk3
              exact ⟨o, g1, g2⟩
            have := memK_obs hF.pre hR (by rw [htr3, ← htr0])
            rw [map_snd, hmem0] at this; exact this
          obtain ⟨o3, ho3⟩ := Option.isSome_iff_exists.1 (h3.L_live (s := r) (by simp))
          have hrc := h3.rc ho3
          rw [if_pos hou3] at hrc
          simp only [inc_same] at hrc
          have hrc2 : 2 ≤ o3.rc := by omega
          refine release_keep ho3 hrc2 ?_
          have h4 := h3.dropRef ho3 (by simp) hrc2
          rw [dec_inc] at h4
          generalize hm4 : ({ m3 with heap := upd m3.heap r (some { o3 with rc := o3.rc - 1 }) } : Mach W) = m4 at *
          have ha4 : m4.act = m3.act := by
            subst hm4
            funext x; simp only [Mach.act, upd]; split
            · next hx => subst hx; simp [ho3]
            · rfl
          have hmem4 : m4.mem = m3.mem := by subst hm4; rfl
          have htr4 : m4.trace = m3.trace := by subst hm4; rfl
          have hou4 : m4.pOU = some r := by subst hm4; exact hou3
          have hfe4 : m4.fullExit = m.fullExit := by subst hm4; exact hfe3
          have htg4 : m4.trig = m.trig := by subst hm4; exact htg3
          have htl4 : (m4.heap t').isSome := h4.live_of_below hr4 (h4.ou_live hou4).1
          have hact4 : ∀ x, m4.act x = true ↔ m.act x = true ∧ ¬ Outer P.toChart r x := by
            intro x
            rw [ha4, ha3, hwo, h.mem_innerOrder hwf hrl]
            exact ⟨fun g => ⟨g.1, fun hb => g.2 ⟨g.1, hb⟩⟩, fun g => ⟨g.1, fun hb => g.2 hb.2⟩⟩
          have hel := h4.exitList hwf htl4
          have hlv : Leaves P.toChart m.act t' (Inside P.toChart (some r)) (innerOrder P.toChart m.act r) (exitOrder P.toChart m4.act t') := by
            refine ⟨hlf, fun x => ?_, hel.nodup, hel.order⟩
            rw [hel.mem, hins, hact4]
            exact ⟨fun g => ⟨⟨g.1.1, g.2⟩, g.1.2⟩, fun g => ⟨⟨g.1.1, g.2⟩, g.1.2⟩⟩
          refine wp_terminateInTransit (Q := fun m' => ∃ l1 l2, RelaxExit P.toChart F L t' (some r) a m m' l1 l2) ?_
          refine wp_mono (hterm h4 htl4 ?_) ?_ ?_
          · intro u hu'; rw [hou4] at hu'; cases hu'; exact hr4
          · rintro _ m5 ⟨⟨h5, hou5⟩, hk5⟩
            have htr5 : m5.trace = m.trace ++ (exitObs m.fullExit (innerOrder P.toChart m.act r) ++ acts a ++ exitObs m.fullExit (exitOrder P.toChart m4.act t')).map (fun o => (m.trig, o)) := by
              rw [h5.trace]
              show m4.trace ++ exits m4.fullExit m4.trig (exitOrder P.toChart m4.act t') = _
              rw [htr4, htr3, exits_eq, hfe4, htg4]
              simp
            refine ⟨innerOrder P.toChart m.act r, exitOrder P.toChart m4.act t', h5.inv.setFlags true m5.fullExit m5.trig, rfl, hou5, ?_, ?_, ?_, htr5, ?_, hlv⟩
            · show m5.fullExit = _; rw [h5.fullExit]; exact hfe4
            · show m5.trig = _; rw [h5.trig]; exact htg4
            · intro x
              show m5.act x = true ↔ _
              rw [h5.act]
              show without m4.act (exitOrder P.toChart m4.act t') x = true ↔ _
              rw [hwo, h4.mem_exitOrder hwf htl4, hact4]
              constructor
              · rintro ⟨g1, g2⟩
                exact ⟨g1.1, fun hb => g2 ⟨g1, hb⟩⟩
              · rintro ⟨g1, g2⟩
                exact ⟨⟨g1, fun ho => g2 (hr4.trans ho.below)⟩, fun g => g2 g.2⟩
            · have h45 := memK_obs hF.pre hk5 (obs := exits m4.fullExit m4.trig (exitOrder P.toChart m4.act t')) (by rw [h5.trace])
              rw [exits_snd, hmem4, hfe4] at h45
              exact hmem3.append hF.pre h45
          · rintro x m5 ⟨h5, _⟩
            obtain ⟨tr, k1, k2⟩ := h5.cut
            obtain ⟨obs, k3, k4⟩ := k2.until
            have hs5 : ∀ x, m5.act x = true → m.act x = true := fun x hx => ((hact4 x).1 (h5.sub x hx)).1
            refine ⟨h5.inv, hs5, ?_, fun hp u hu' => ?_, fun haq hp o ho hn => absurd ?_ hn, .inl h5.unstable, by rw [h5.fullExit]; exact hfe4, by rw [h5.trig]; exact htg4,
              exitObs m.fullExit (innerOrder P.toChart m.act r) ++ acts a ++ obs, ?_, fun l hl _ _ => ?_⟩
            · refine NoEnter.trans (b := m4) (noEnter_of (by rw [htr4, htr3]) ?_) h5.quiet
              intro o ho x
              rcases List.mem_append.1 ho with ho | ho
              · have := exits_noEnter m.fullExit m.trig (innerOrder P.toChart m.act r)
                rw [exits_eq] at this
                exact this (m.trig, o) (List.mem_map_of_mem ho) x
              · cases a with
                | none => cases ho
                | some a => simp [acts] at ho; subst ho; simp
            · have hul := (h5.inv.ou_live hu').1
              rcases h5.drift u hu' with hd | ⟨g1, y, g2, g3, g4⟩
              · have hur : u = r := by
                  have : m4.pOU = some u := hd
                  rw [hou4] at this; exact (Option.some.inj this).symm
                subst hur
                obtain ⟨y, hy1, hy2⟩ := hkid hp
                refine ⟨hul, y, hy2, hy1, ?_⟩
                cases hy : m5.act y with
                | false => rfl
                | true => exact absurd ⟨u, hy2, .refl⟩ ((hact4 y).1 (h5.sub y hy)).2
              · exact ⟨g1, y, g2, ((hact4 y).1 g3).1, g4⟩
            · obtain ⟨b, rfl⟩ : ∃ b, a = some b := by
                cases a with
                | none => cases haq rfl
                | some b => exact ⟨b, rfl⟩
              have ho' : o.map (·.2) = exitObs m.fullExit (innerOrder P.toChart m.act r) ++ .act b :: obs := by
                rw [k1, k3] at ho
                change m4.trace ++ obs.map (fun o => (m4.trig, o)) = _ at ho
                rw [htr4, htr3, htg4, List.append_assoc] at ho
                rw [← List.append_cancel_left ho, ← List.map_append, map_snd]
                simp [acts]
              obtain ⟨y, hy1, hy2⟩ := hkid hp
              rw [ho']
              obtain ⟨x1, z, x2, ob, l', _, hob, hobs, _⟩ := k4
              have hin : ∀ o ∈ obs, ∃ z, o = .exit z ∨ o = .exitFail z ∨ o = .destroy z := by
                intro o ho
                rw [hobs] at ho
                rcases List.mem_append.1 ho with ho | ho
                · unfold exitObs at ho
                  obtain ⟨x, _, ho⟩ := List.mem_flatMap.1 ho
                  refine ⟨x, ?_⟩
                  split at ho <;> simp at ho
                  · exact ho.imp id .inr
                  · exact .inr (.inr ho)
                · rcases List.mem_cons.1 ho with rfl | ho
                  · exact ⟨z, hob.imp id .inl⟩
                  · obtain ⟨x, _, rfl⟩ := List.mem_map.1 ho
                    exact ⟨x, .inr (.inr rfl)⟩
              refine ⟨_, _, b, rfl, ⟨y, mem_exitObs_destroy _ ((h.mem_innerOrder hwf hrl).2 ⟨hy1, r, hy2, .refl⟩)⟩, ⟨z, ?_⟩, hin⟩
              rw [hobs]
              rcases hob with rfl | rfl <;> simp
            · rw [k1, k3]
              show m4.trace ++ obs.map (fun o => (m4.trig, o)) = _
              rw [htr4, htr3, htg4]; simp
            · rw [List.append_assoc]
              exact LeavesUntil.rest (by rw [← hfe4]; exact h5.full) hlv
                (k4.more fun y hy x hx => (hl x hx).below.trans ((h4.mem_exitOrder hwf htl4).1 hy).2)
        · rintro x m3 ⟨⟨hu, h3, hane⟩, _⟩
          have ha3 : m3.act = without m.act (innerOrder P.toChart m.act r) := by
            rw [hu.core.act]; show m2.act = _; rw [h2.act]
            show without m0.act (innerOrder P.toChart m0.act r) = _
            rw [ha0]
          refine hfailed ⟨h3, .inl ?_, ?_, ?_⟩ (fun x hx => by rw [ha3, hwo] at hx; exact hx.1)
            (.trans (b := { m2 with ico := true }) ⟨_, by rw [h2.trace, ← htr0], exits_noEnter _ _ _⟩ (acts_noEnter hu)) ?_ (fun hp => ⟨?_, ?_, fun v hv => by rw [hp] at hv; cases hv⟩) ⟨exitObs m.fullExit (innerOrder P.toChart m.act r) ++ acts a, ?_, fun l _ hl => ?_⟩
          · rw [hu.core.pOU]; show m2.pOU ≠ none; rw [hou2]; simp
          · rw [hu.core.fullExit]; show m2.fullExit = _; rw [h2.fullExit]; exact hfe0
          · rw [hu.core.trig]; show m2.trig = _; rw [h2.trig]; exact htg0
          · intro hp u hu'
            obtain ⟨y, hy1, hy2⟩ := hkid hp
            have hur : u = r := by
              have h5 : m3.pOU = some r := by rw [hu.core.pOU]; exact hou2
              rw [h5] at hu'; exact (Option.some.inj hu').symm
            subst hur
            refine ⟨(h3.ou_live hu').1, y, hy2, hy1, ?_⟩
            rw [ha3]
            simp [without, (h.mem_innerOrder hwf hrl).2 ⟨hy1, u, hy2, .refl⟩]
          · rintro x ⟨hx, y, hy1, hy2, hy3⟩
            rw [ha3] at hx hy3
            have hyr : Outer P.toChart r y := by
              refine Classical.byContradiction fun hb => ?_
              have := hwo.2 ⟨hy2, fun hm => hb ((h.mem_innerOrder hwf hrl).1 hm).2⟩
              rw [this] at hy3; cases hy3
            rw [hwo, h.mem_innerOrder hwf hrl] at hx
            refine ⟨r, by rw [hu.core.pOU]; exact hou2, ?_⟩
            obtain ⟨z, hz1, hz2⟩ := hyr
            rw [hy1] at hz1; cases hz1
            exact hz2
          · intro u hu'
            obtain ⟨y, hy1, hy2⟩ := hkid hp
            have hur : u = r := by
              have h5 : m3.pOU = some r := by rw [hu.core.pOU]; exact hou2
              rw [h5] at hu'; exact (Option.some.inj hu').symm
            subst hur
            refine .inr ⟨(h3.ou_live hu').1, y, hy2, hy1, ?_⟩
            rw [ha3]
            simp [without, (h.mem_innerOrder hwf hrl).2 ⟨hy1, u, hy2, .refl⟩]
          · rw [hu.trace]
            show m2.trace ++ (acts a).map (fun o => (m2.trig, o)) = _
            rw [h2.trace, h2.trig, exits_eq]
            show m0.trace ++ List.map _ (exitObs m0.fullExit (innerOrder P.toChart m0.act r)) ++ _ = _
            rw [htr0, ha0, hfe0]
            show m.trace ++ List.map (fun o => (m0.trig, o)) _ ++ List.map (fun o => (m0.trig, o)) _ = _
            rw [htg0]
            simp
          · have hou3 : m3.pOU = some r := by rw [hu.core.pOU]; exact hou2
            have : l = [] := hl hou3 (h3.live_of_below hr4 (h3.ou_live hou3).1)
            subst this
            rw [List.map_nil, List.append_nil]
            exact LeavesUntil.action hane hlf
      · rintro x m2 ⟨h2, _⟩
        obtain ⟨tr, k1, k2⟩ := h2.cut
        obtain ⟨obs, k3, k4⟩ := k2.until
        refine hfailed ⟨h2.inv, h2.unstable, by rw [h2.fullExit]; exact hfe0, by rw [h2.trig]; exact htg0⟩ (fun x hx => by rw [← ha0]; exact h2.sub x hx)
          (by obtain ⟨o, e, g⟩ := h2.quiet; exact ⟨o, by rw [e]; show m0.trace ++ o = _; rw [htr0], g⟩)
          (fun hp u hu' => by rw [← ha0]; exact h2.lost (by show m0.pOU = none; rw [hou0]; exact hp) hu')
          (fun hp => (h2.gap fun v hv => by rw [show (Mach.pOU { m0 with ico := false }) = m.pOU from hou0, hp] at hv; cases hv).congr ha0.symm hou0.symm)
          ⟨obs, ?_, fun l hl _ => ?_⟩
        · rw [k1, k3]
          show m0.trace ++ obs.map (fun o => (m0.trig, o)) = _
          rw [htr0, htg0]
        · rw [ha0] at k4
          exact LeavesUntil.first (by rw [← hfe0]; exact h2.full) hlf
            (k4.more fun y hy x hx => (hl x hx).trans ((h.mem_innerOrder hwf hrl).1 hy).2.below)

/-! ## The whole transition -/

/-- Result of a completed transition of `s` to `d` with the action of context `q`. -/
structure RelaxPost (C : Chart) (F : Memory → Memory → Prop) (s : Sid) (d : Target) (q : Option Sid) (a : Option Nat) (t : Sid) (m m' : Mach W)
    (l1 l2 l : List Sid) : Prop where
  term : C.termState s d.st = some t
  inv : Inv C noL none m'
  pOU : m'.pOU = none
  ico : m'.ico = false
  fullExit : m'.fullExit = m.fullExit
  trig : m'.trig = m.trig
  trace : m'.trace = m.trace ++ (exitObs m.fullExit l1 ++ acts a ++ exitObs m.fullExit l2 ++ enterObs l).map (fun o => (m.trig, o))
  leaves : Leaves C m.act t (Inside C q) l1 l2
  act : ∀ x, m'.act x = true ↔ (m.act x = true ∧ ¬ Below C t x) ∨ x ∈ l
  entered : ∀ x ∈ l, ∃ c, C.parent c = C.commonCtx s d.st ∧ C.pos c = C.pos t ∧ Below C c x
  mem : ∃ h1, MemRun C F m.mem (exitObs m.fullExit l1 ++ acts a ++ exitObs m.fullExit l2) h1 ∧
    Enters C F h1 (.down (C.commonCtx s d.st) d) l m'.mem

theorem transitRelaxed_wp (hwf : P.toChart.WF) (hok : Contract P) (hF : UserMem P F) {s : Sid} {d : Target} {q : Option Sid} {a : Option Nat}
    (htr : P.transitOK s d a = true) (hq : q ∈ P.actionCtxs s) (h : Inv P.toChart noL none m) (hs : (m.heap s).isSome) (hou : OUBelow P.toChart s m) :
    wp (transitRelaxed P s d q a)
      (fun _ m' => ∃ t l1 l2 l, RelaxPost P.toChart F s d q a t m m' l1 l2 l)
      (fun _ m' => RelaxFailed P.toChart q a m m' ∧ (Before P.toChart a = Inside P.toChart q → RCut (TransitsUntil P.toChart F m.fullExit s d a) m m')) m := by
  obtain ⟨hsn, hdn, t, ht, hpos⟩ := transitOK_spec htr
  obtain ⟨t', ht', htp, htb⟩ := termState_spec hwf hsn hdn.bound
  rw [ht] at ht'; cases ht'
  obtain ⟨hcs, hcd, _⟩ := commonCtx_spec hwf hsn hdn.bound
  have hcommon := commonCtx_common hwf hsn hdn.bound
  have htl := h.live_of_below htb hs
  have htn := h.live_bound htl
  obtain ⟨ot, hot⟩ := Option.isSome_iff_exists.1 htl
  unfold transitRelaxed
  rw [ht]
  simp only [wp_bind, wp_getObj]
  refine ⟨ot, hot, ?_⟩
  generalize hc : P.commonCtx s d.st = c at *
  have hlock : ∀ (Q : Unit → Mach W → Prop) (E : Exc → Mach W → Prop),
      (∀ m1, Inv P.toChart (incCtx noL c) none m1 → m1.act = m.act → m1.trace = m.trace → m1.mem = m.mem → m1.pOU = m.pOU →
        m1.fullExit = m.fullExit → m1.trig = m.trig → Quiet m m1 → Q () m1) →
      wp (match c with
        | none => pure ()
        | some p => addRef p) Q E m := by
    intro Q E hq
    cases c with
    | none => exact hq m h rfl rfl rfl rfl rfl rfl (.refl m)
    | some p =>
      obtain ⟨op, hop⟩ := Option.isSome_iff_exists.1 (h.par_live htl htp)
      simp only [addRef, wp_bind, wp_getObj]
      refine ⟨op, hop, ?_⟩
      simp only [wp_setObj]
      have ha : Mach.act { m with heap := upd m.heap p (some { op with rc := op.rc + 1 }) } = m.act := by
        funext x
        simp only [Mach.act, upd]
        split
        · next hx => subst hx; simp [hop]
        · rfl
      exact hq _ (h.addRef hop) ha rfl rfl rfl rfl rfl ⟨ha, rfl, rfl, rfl, rfl, List.prefix_refl _, rfl⟩
  apply hlock
  intro m1 h1 hact1 htr1 hmem1 hou1 hfe1 htg1 hq1
  -- failures
  have hfail : ∀ (m' : Mach W), RelaxThrow P.toChart (incCtx noL c) t q a m1 m' →
      wp (match (generalizing := false) c with
        | none => pure ()
        | some p => release P p) (fun _ m'' => RelaxFailed P.toChart q a m m'' ∧ (Before P.toChart a = Inside P.toChart q →
          RCut (TransitsUntil P.toChart F m.fullExit s d a) m m'')) (fun _ _ => False) m' := by
    intro m' hf
    obtain ⟨obs, k1, k2⟩ := hf.cut
    rw [htr1, htg1] at k1
    rw [hact1, hfe1] at k2
    have hkind : (m'.pOU ≠ none ∨ ∀ x, m'.act x = false) ∨ Quiet m m' := hf.kind.imp id hq1.trans
    have hsub : ∀ x, m'.act x = true → m.act x = true := by rw [← hact1]; exact hf.sub
    have hcalm : NoEnter m m' := by
      obtain ⟨o, e, g⟩ := hf.calm
      exact ⟨o, by rw [e, htr1], g⟩
    have hlost : m.pOU = none → ∀ u, m'.pOU = some u → Lost P.toChart m.act m'.act u := by
      rw [← hact1, ← hou1]; exact hf.lost
    have hgap : (a = none → q = none) → m.pOU = none → ∀ obs, m'.trace = m.trace ++ obs → ¬ LateExit (obs.map (·.2)) → Gap P.toChart m m' := by
      rw [← htr1]
      exact fun haq hp o ho hn => (hf.gap haq (by rw [hou1]; exact hp) o ho hn).congr hact1.symm hou1.symm
    cases c with
    | none =>
      refine ⟨⟨hf.inv, fun hr haq hp => shaken_of_lost hwf h hr hp hsub hcalm hkind (hlost hp) (hgap haq hp), hkind, by rw [hf.fullExit, hfe1], by rw [hf.trig, htg1]⟩, fun hB => ⟨obs, k1, ?_⟩⟩
      have := k2 [] (by simp) (fun _ => rfl) (fun _ => rfl)
      rw [List.map_nil, List.append_nil, ← hB] at this
      exact .leave hcommon htp htb this
    | some p =>
      have hplive := hf.inv.L_live (s := p) (by simp [incCtx])
      rcases hkind with hk | hk
      · have hff : Failed P.toChart (inc noL p) m m' := ⟨hf.inv, hk, by rw [hf.fullExit, hfe1], by rw [hf.trig, htg1]⟩
        refine wp_mono (wp_and (hff.release hwf) (release_wp hwf hf.inv (by simp [incCtx]) (.inl rfl))) ?_ (fun _ _ h => h.1.elim)
        rintro _ m'' ⟨g, l, hr⟩
        refine ⟨⟨g.inv, fun hrl haq hp => shaken_of_lost hwf h hrl hp ?_ (hcalm.trans ⟨_, hr.trace, destroys_noEnter _ _⟩) (.inl g.unstable) ?_ ?_,
          .inl g.unstable, g.fullExit, g.trig⟩, fun hB => ⟨obs ++ l.map .destroy, ?_, ?_⟩⟩
        · intro x hx
          rw [hr.act] at hx
          simp [without] at hx; exact hsub x hx.1
        · intro u hu
          have hul := (g.inv.ou_live hu).1
          rw [show (m''.heap u).isSome = m''.act u from rfl] at hul
          rw [hr.act] at hul ⊢
          exact (hlost hp u (by rw [← hr.frame.pOU]; exact hu)).release hul
        · intro o ho hn
          refine (hgap haq hp _ k1 fun hl => hn ?_).release hwf hf.inv hr hsub htl htp htn
          rw [hr.trace, k1, destroys_eq, List.append_assoc] at ho
          rw [← List.append_cancel_left ho, List.map_append, map_snd, map_snd]
          rw [map_snd] at hl
          exact hl.destroys l
        · rw [hr.trace, k1, destroys_eq, hf.trig, htg1]; simp
        · have := k2 l (fun x hx => ⟨p, htp, hr.below x hx⟩) (fun ha => ?_) (fun hu => hr.keep_ou (by rw [hu, htp]) .refl)
          · rw [← hB] at this
            exact .leave hcommon htp htb this
          · -- `t` keeps its context alive
            have hgi := g.inv
            have ha' : m''.act t = true := by
              rw [hr.act]
              simp only [without, ha, Bool.true_and, Bool.not_eq_true', List.contains_eq_mem, decide_eq_false_iff_not]
              intro hx
              have := (hr.below t hx).le hwf (parent_bound hwf htn htp)
              have := hwf.parent_lt htn htp
              omega
            have hp' := hgi.par_live ha' htp
            cases l with
            | nil => rfl
            | cons y l =>
              exfalso
              have hy := hgi.live_of_below (hr.below y (by simp)) hp'
              rw [show (m''.heap y).isSome = m''.act y from rfl, hr.act] at hy
              simp [without] at hy
      · have hil := hf.inv
        obtain ⟨o, ho⟩ := Option.isSome_iff_exists.1 hplive
        have htl' : m'.act t = true := by rw [hk.act]; exact htl
        have hin := (hil.inner_iff ho).2 ⟨htl', htp, rfl⟩
        have hn := nch_pos (Chart.pos_lt_some hwf htn htp) hin
        have hrc := hil.rc ho
        simp only [incCtx, inc_same] at hrc
        have h2 : 2 ≤ o.rc := by omega
        refine release_keep ho h2 ?_
        have hd := hil.dropRef ho (by simp [incCtx]) h2
        simp only [incCtx, dec_inc] at hd
        have hact : Mach.act { m' with heap := upd m'.heap p (some { o with rc := o.rc - 1 }) } = m'.act := by
          funext x
          simp only [Mach.act, upd]
          split
          · next hxp => subst hxp; simp [ho]
          · rfl
        refine ⟨⟨hd, fun hrl haq hp => shaken_of_lost hwf h hrl hp (by rw [hact]; exact hsub) hcalm (.inr (hk.trans ⟨hact, rfl, rfl, rfl, rfl, List.prefix_refl _, rfl⟩))
          (fun u hu => by rw [show (m'.pOU = some u) = (m.pOU = some u) from by rw [hk.pOU], hp] at hu; cases hu)
          (fun _ _ _ => .refl _ (hact.trans hk.act) hk.pOU), .inr (hk.trans ⟨hact, rfl, rfl, rfl, rfl, List.prefix_refl _, rfl⟩), by show m'.fullExit = _; rw [hf.fullExit, hfe1], by show m'.trig = _; rw [hf.trig, htg1]⟩,
          fun hB => ⟨obs, k1, ?_⟩⟩
        have := k2 [] (by simp) (fun _ => rfl) (fun _ => rfl)
        rw [List.map_nil, List.append_nil, ← hB] at this
        exact .leave hcommon htp htb this
  have hLt : ∀ x, Below P.toChart t x → incCtx noL c x = 0 := by
    intro x hx
    cases c with
    | none => rfl
    | some p =>
      by_cases hxp : x = p
      · subst hxp
        exfalso
        have hxn := parent_bound hwf htn htp
        have := hx.le hwf hxn
        have := hwf.parent_lt htn htp
        omega
      · simp [incCtx, inc_other _ hxp]
  have hLc : ∀ p, c = some p → incCtx noL c p ≠ 0 := by
    rintro p rfl; simp [incCtx]
  have hs1 : (m1.heap s).isSome := by
    have : m1.act s = true := by rw [hact1]; exact hs
    exact this
  have hx := relaxedExit_wp hwf hF (a := a) h1 hs1 (by intro u hu; rw [hou1] at hu; exact hou u hu) hcs hq htp htb hLt hLc
  simp only [wp_finally, wp_bind]
  refine wp_mono hx ?_ ?_
  · rintro _ m2 ⟨l1, l2, h2⟩
    have hempty : ∀ x, (m2.heap x).isSome → P.parent x = c → P.pos x ≠ P.pos (P.firstEntered c d.st) := by
      intro x hx hxp hxpos
      obtain ⟨g1, g2⟩ := (h2.act x).1 hx
      rw [hact1] at g1
      have := h.same_region g1 htl (by rw [hxp, htp]) (by rw [hxpos, ← hpos])
      subst this
      exact g2 .refl
    have hent := transitEnter_wp hwf hok hF.ctorMem hdn hcd h2.inv h2.ico (by rw [h2.pOU, htp]) hempty
    simp only [wp_finally] at hent
    have hlv : Leaves P.toChart m.act t (Inside P.toChart q) l1 l2 := by rw [← hact1]; exact h2.leaves
    have hmem : MemRun P.toChart F m.mem (exitObs m.fullExit l1 ++ acts a ++ exitObs m.fullExit l2) m2.mem := by
      have := h2.mem
      rw [hmem1, hfe1] at this; exact this
    have hact2 : ∀ x, m2.act x = true ↔ m.act x = true ∧ ¬ Below P.toChart t x := by rw [← hact1]; exact h2.act
    have hcalm : NoEnter m m2 := by
      refine noEnter_of (by rw [h2.trace, htr1]) ?_
      intro o ho x
      have hex : ∀ l o, o ∈ exitObs m1.fullExit l → o ≠ Obs.enter x := by
        intro l o ho
        have := exits_noEnter m1.fullExit m1.trig l
        rw [exits_eq] at this
        exact this (m1.trig, o) (List.mem_map_of_mem ho) x
      rcases List.mem_append.1 ho with ho | ho
      · rcases List.mem_append.1 ho with ho | ho
        · exact hex _ o ho
        · cases a with
          | none => cases ho
          | some a => simp [acts] at ho; subst ho; simp
      · exact hex _ o ho
    have hentf : ∀ m5, Failed P.toChart noL m2 m5 → ∀ m6, BThrow P.toChart (incCtx noL c) c [P.pos (P.firstEntered c d.st)] m2 m6 ∧
        m5.act = m6.act ∧ m5.pOU = m6.pOU ∧ m5.trace = m6.trace ∧ RCut (fun h obs => EntersUntil P.toChart F h.mem (.down c d) obs) m2 m6 →
        RelaxFailed P.toChart q a m m5 ∧ (Before P.toChart a = Inside P.toChart q → RCut (TransitsUntil P.toChart F m.fullExit s d a) m m5) := by
      rintro m5 h5 m6 ⟨h6, k1, k2, k3, ob, k4, k5⟩
      refine ⟨⟨h5.inv, fun _ _ _ => ((torn_entry hwf h h2.inv hcalm htl htp hact2 (by rw [hpos]; exact h6) (.inl h2.ico)).congr k1 k2 k3).shaken, .inl h5.unstable, by rw [h5.fullExit, h2.fullExit, hfe1], by rw [h5.trig, h2.trig, htg1]⟩, fun hB => ⟨_, ?_,
        .entry hcommon htp htb (by rw [hB]; exact hlv) hmem k5⟩⟩
      rw [k3, k4, h2.trace, h2.trig, htr1, htg1, hfe1]; simp
    refine wp_mono hent ?_ ?_
    · intro _ m4 h4
      refine wp_mono h4 ?_ ?_
      · rintro _ m5 ⟨l, h5⟩
        refine ⟨t, l1, l2, l, ht, h5.inv, h5.crit (.inl h2.ico), h5.ico, by rw [h5.fullExit, h2.fullExit, hfe1], by rw [h5.trig, h2.trig, htg1], ?_, hlv, ?_, ?_, ?_⟩
        · rw [h5.trace, h2.trace, h2.trig, htr1, htg1, hfe1, enters_eq]
          simp
        · intro x; rw [h5.act, h2.act, hact1]
        · intro x hx
          obtain ⟨c', g1, g2, g3⟩ := h5.region x hx
          simp only [List.mem_singleton] at g2
          exact ⟨c', by rw [hc]; exact g1, by rw [g2, hpos], g3⟩
        · exact ⟨m2.mem, hmem, by rw [hc]; exact h5.mem⟩
      · rintro x m5 ⟨h5, m6, h6⟩
        exact hentf m5 h5 m6 h6
    · intro x m4 h4
      refine wp_mono h4 ?_ (fun _ _ h => h)
      rintro _ m5 ⟨h5, m6, h6⟩
      exact hentf m5 h5 m6 h6
  · intro x m2 h2
    exact hfail m2 h2

end SC
