import Verif.Refine3
/-!
# The library and the reference machine: `remove_from_state_list`, `terminate_impl`
-/

namespace SC
open Spec
variable {W : Type} {P : Prog W} {L : Sid → Nat} {m : Mach W}

theorem exitAll_append (keep : Sid → Bool) (full : Bool) (l1 l2 : List Sid) (st : Ref.St W) :
    Ref.exitAll P keep full (l1 ++ l2) st = (Ref.exitAll P keep full l1 >>= fun _ => Ref.exitAll P keep full l2) st := by
  induction l1 generalizing st with
  | nil => rfl
  | cons s l1 ih =>
    show (Ref.exitOne P keep full s >>= fun _ => Ref.exitAll P keep full (l1 ++ l2)) st = ((Ref.exitOne P keep full s >>= fun _ => Ref.exitAll P keep full l1) >>= fun _ => Ref.exitAll P keep full l2) st
    rw [bind_assoc_R]
    show Ref.R.bnd _ _ st = Ref.R.bnd _ _ st
    unfold Ref.R.bnd
    cases Ref.exitOne P keep full s st with
    | ok _ st' => exact ih st'
    | thrown _ _ => rfl

theorem leaves_getD (h : Filled m) : m.leaves = (List.range m.endIx).map fun i => (m.slot i).getD 0 := by
  unfold Mach.leaves
  have : ∀ l : List Nat, (∀ i ∈ l, (m.slot i).isSome) → l.filterMap m.slot = l.map fun i => (m.slot i).getD 0 := by
    intro l
    induction l with
    | nil => intro _; rfl
    | cons i l ih =>
      intro h
      obtain ⟨x, hx⟩ := Option.isSome_iff_exists.1 (h i (by simp))
      rw [List.filterMap_cons, hx]
      simp [hx, ih (fun j hj => h j (by simp [hj]))]
  exact this _ (fun i hi => h i (List.mem_range.1 hi))

/-- Swapping with the last list node. -/
theorem leaves_take (h : Inv P.toChart L none m) {s : Sid} {o : Obj} (ho : m.heap s = some o) (hs : m.slot o.lpos = some s) {m' : Mach W}
    (hend : m'.endIx = m.endIx - 1) (hslot : m'.slot = upd (upd m.slot o.lpos (m.slot (m.endIx - 1))) (m.endIx - 1) none) (hf : Filled m') :
    m'.leaves = Ref.leave m.leaves s := by
  obtain ⟨_, hl, _⟩ := h.slot_pos hs ho
  obtain ⟨k, hk⟩ : ∃ k, m.endIx = k + 1 := ⟨m.endIx - 1, by omega⟩
  have hin : s ∈ m.leaves := (h.mem_leaves ho).2 hs
  have hlast : m.leaves.getLast? = some ((m.slot k).getD 0) := by
    rw [leaves_getD h.filled, hk, List.range_succ, List.map_append]; simp
  unfold Ref.leave
  rw [hlast]
  simp only [hin, if_true]
  rw [leaves_getD hf, leaves_getD h.filled, hend, hk, Nat.add_sub_cancel, List.range_succ]
  simp only [List.map_append, List.map_map, List.map_cons, List.map_nil, List.dropLast_concat]
  apply List.map_congr_left
  intro i hi
  have hi' := List.mem_range.1 hi
  have hik : i ≠ k := by omega
  rw [hslot, hk, Nat.add_sub_cancel]
  simp only [upd, hik, if_false, Function.comp]
  by_cases hil : i = o.lpos
  · subst hil
    rw [hs]; simp
  · rw [if_neg hil]
    obtain ⟨x, ox, hx, hox, _⟩ := h.slot_in (i := i) (by omega)
    rw [hx]
    have : x ≠ s := by
      intro hxs; subst hxs
      exact hil (h.slot_pos hx ho).1.symm
    simp [this]

theorem leafRemove_sim (hwf : P.toChart.WF) (hpl : Plain P) (full : Bool) {s : Sid} (h : Inv P.toChart L none m)
    (hlive : (m.heap s).isSome) (hleaf : P.isLeaf s = true) (hL : L s = 0) :
    Sim id (leafRemove P s full) (Ref.exitAll P (lockOf L) full (upward P.toChart (lockOf L) m.act (some s))) m := by
  obtain ⟨o, ho⟩ := Option.isSome_iff_exists.1 hlive
  have hs := h.leaf_in ho hleaf hL
  obtain ⟨_, hl, _⟩ := h.slot_pos hs ho
  obtain ⟨t, ot, ht, hot, htleaf, htl⟩ := h.slot_in (i := m.endIx - 1) (by omega)
  have hsl : upd (upd m.slot o.lpos (m.slot (m.endIx - 1))) (m.endIx - 1) (m.slot o.lpos) o.lpos = some t := by
    simp only [upd]; split
    · next he => rw [he, ht]
    · rw [if_pos trivial, ht]
  obtain ⟨hi, hact, hns⟩ := h.takeLeaf ho hs
    (m' := { m with
      endIx := m.endIx - 1
      heap := upd m.heap t (some { ot with lpos := o.lpos })
      slot := upd (upd (upd m.slot o.lpos (m.slot (m.endIx - 1))) (m.endIx - 1) (some s)) (m.endIx - 1) none })
    (by
      intro x ox hx
      simp only [upd]
      split
      · next hxt => subst hxt; rw [hx] at hot; cases hot; rw [if_pos ht]
      · next hxt => rw [if_neg (fun h' => by rw [ht] at h'; cases h'; exact hxt rfl)]; exact hx)
    (by
      intro x hx
      have : x ≠ t := by intro h'; subst h'; rw [hx] at hot; cases hot
      simp [this, hx])
    (by simp) rfl rfl rfl rfl rfl ⟨h.hist.sh, h.hist.dh⟩
  have := exitImpl_sim hwf hpl full hi (s := s) (by simp) hns
  rw [dec_inc, hact] at this
  refine this.step ?_ ?_
  · unfold leafRemove
    have h0 : ¬ m.endIx = 0 := by omega
    have h1 : o.lpos < m.len := by have := h.end_le; omega
    rw [hs] at hsl
    simp only [takeSlot, bind, M.bnd, M.get, M.modify, getObj, setObj, pure, M.ret, h0, h1, if_false, if_true, ho, hsl, hot, upd_same, hs]
  · rw [upward_go hwf (h.bound ho) hL (childless_leaf hwf hleaf), exitAll_cons, exitAll_cons]
    have hlv := leaves_take h ho hs (m' := { m with
      endIx := m.endIx - 1
      heap := upd m.heap t (some { ot with lpos := o.lpos })
      slot := upd (upd (upd m.slot o.lpos (m.slot (m.endIx - 1))) (m.endIx - 1) (some s)) (m.endIx - 1) none }) rfl (by simp) hi.filled
    obtain ⟨o', ho'⟩ := Option.isSome_iff_exists.1 (hi.L_live (s := s) (by simp))
    have hnm := fun h' => hns o' ho' ((hi.mem_leaves ho').1 h')
    have hn2 := leave_not_mem hnm
    have e1 := abs_obj (m := { m with
      endIx := m.endIx - 1
      slot := upd (upd (upd m.slot o.lpos (m.slot (m.endIx - 1))) (m.endIx - 1) (some s)) (m.endIx - 1) none }) (o' := { ot with lpos := o.lpos }) hot rfl
    have e2 : abs { m with
      endIx := m.endIx - 1
      heap := upd m.heap t (some { ot with lpos := o.lpos })
      slot := upd (upd (upd m.slot o.lpos (m.slot (m.endIx - 1))) (m.endIx - 1) (some s)) (m.endIx - 1) none } = { abs m with leaves := Ref.leave m.leaves s } := by
      rw [← hlv]; exact e1
    rw [hlv] at hn2
    rw [e2]
    show Ref.exitTail P _ full s _ { abs m with leaves := Ref.leave m.leaves s, unstable := _ } = Ref.exitTail P _ full s _ { abs m with leaves := Ref.leave (Ref.leave m.leaves s) s, unstable := _ }
    rw [hn2]

theorem removeLoop_sim (hwf : P.toChart.WF) (hpl : Plain P) (full : Bool) (f : Nat) {s : Sid} {rec : Sid → M W Unit} (k : Nat)
    (hLs : ∀ x, Below P.toChart s x → L x = 0) (hfuel : P.n - s ≤ f + 2)
    (hrec : ∀ (m : Mach W) (c : Sid), Inv P.toChart L none m → (m.heap c).isSome → P.parent c = some s →
      wp (rec c) (fun _ m' => ExitPost P.toChart L full m m' (removalF P.toChart L m.act (f + 1) c))
        (fun _ m' => ExitFail P.toChart L full c m m' (removalF P.toChart L m.act (f + 1) c)) m)
    (hrecS : ∀ (m : Mach W) (c : Sid), Inv P.toChart L none m → (m.heap c).isSome → P.parent c = some s →
      Sim id (rec c) (Ref.exitAll P (lockOf L) full (removalF P.toChart L m.act (f + 1) c)) m) :
    ∀ (j : Nat) (m : Mach W) (o : Obj), Inv P.toChart L none m → m.heap s = some o →
      (o.inner k).isSome → (∀ i, i < k ∨ k + j < i → o.inner i = none) →
      Sim id (removeLoop rec s (List.range' k (j + 1)).reverse)
        (Ref.exitAll P (lockOf L) full (((List.range' k (j + 1)).reverse.flatMap (regionOrder P.toChart m.act (f + 1) s) ++ [s]) ++
            upward P.toChart (lockOf L)
              (without m.act ((List.range' k (j + 1)).reverse.flatMap (regionOrder P.toChart m.act (f + 1) s) ++ [s]))
              (P.parent s))) m := by
  intro j
  induction j with
  | zero =>
    intro m o h ho hk hout
    obtain ⟨c, hc⟩ := Option.isSome_iff_exists.1 hk
    obtain ⟨hc1, hc2, hc3⟩ := (h.inner_iff ho).1 hc
    have hsn := h.bound ho
    have hcn := h.live_bound hc1
    have hr1 : (List.range' k (0 + 1)).reverse = [k] := rfl
    rw [hr1]
    simp only [removeLoop]
    refine sim_getObj fun o' ho' => ?_
    rw [ho] at ho'; cases ho'
    simp only [hc]
    have hreg : regionOrder P.toChart m.act (f + 1) s k = exitOrderF P.toChart m.act (f + 1) c := by
      unfold regionOrder; rw [h.childAt hwf ho, hc]
    simp only [List.flatMap_cons, List.flatMap_nil, List.append_nil, hreg]
    have hcl : childless P.toChart (without m.act (exitOrderF P.toChart m.act (f + 1) c)) s = true := by
      rw [childless_iff]
      intro c' hc' ha hp'
      simp only [without, Bool.and_eq_true, Bool.not_eq_true', List.contains_eq_mem, decide_eq_false_iff_not] at ha
      have hi := (h.inner_iff ho (i := P.pos c') (c := c')).2 ⟨ha.1, hp', rfl⟩
      by_cases hpk : P.pos c' = k
      · rw [hpk, hc] at hi; cases hi
        apply ha.2
        rw [exitOrderF_succ]; simp
      · rw [hout _ (by omega)] at hi; cases hi
    have := hrecS m c h hc1 hc2
    unfold removalF at this
    rw [hc2, upward_go hwf hsn (hLs s .refl) hcl, ← without_append] at this
    have e : (rec c >>= fun _ => pure ()) m = rec c m := by
      show M.bnd (rec c) pure m = _
      unfold M.bnd; cases rec c m <;> rfl
    refine Sim.step (m1 := m) this e ?_
    simp
  | succ j ih =>
    intro m o h ho hk hout
    obtain ⟨ck, hck⟩ := Option.isSome_iff_exists.1 hk
    obtain ⟨hk1, hk2, hk3⟩ := (h.inner_iff ho).1 hck
    have hsn := h.bound ho
    have hkn := h.live_bound hk1
    have hrange : (List.range' k (j + 1 + 1)).reverse = (k + (j + 1)) :: (List.range' k (j + 1)).reverse := by
      rw [List.range'_concat]; simp
    rw [hrange]
    simp only [removeLoop]
    refine sim_getObj fun o' ho' => ?_
    rw [ho] at ho'; cases ho'
    cases hc : o.inner (k + (j + 1)) with
    | none =>
      have hreg : regionOrder P.toChart m.act (f + 1) s (k + (j + 1)) = [] := by
        unfold regionOrder; rw [h.childAt hwf ho, hc]
      have := ih m o h ho hk (fun i hi => by
        by_cases hij : i = k + (j + 1)
        · rw [hij]; exact hc
        · exact hout i (by omega))
      rw [List.flatMap_cons, hreg]
      exact sim_skip (x := pure ()) rfl fun _ m' hm' => by cases hm'; exact this
    | some c =>
      simp only
      obtain ⟨hc1, hc2, hc3⟩ := (h.inner_iff ho).1 hc
      have hcn := h.live_bound hc1
      have hne : c ≠ ck := by
        intro h'; subst h'; omega
      have hreg : regionOrder P.toChart m.act (f + 1) s (k + (j + 1)) = exitOrderF P.toChart m.act (f + 1) c := by
        unfold regionOrder; rw [h.childAt hwf ho, hc]
      -- members of the order are below c
      have hsub : ∀ x ∈ exitOrderF P.toChart m.act (f + 1) c, Below P.toChart c x := fun x hx =>
        (exitOrderF_below _ _ _ hx).1
      have hnot : ∀ x c', P.parent c' = some s → x < P.n → c' ≠ c → Below P.toChart c' x →
          x ∉ exitOrderF P.toChart m.act (f + 1) c := by
        intro x c' hp' hxn hne' hb hx
        exact hne' (hb.sibling hwf hxn (hsub x hx) (by rw [hp', hc2]))
      have hwo : ∀ x c', P.parent c' = some s → c' ≠ c → Below P.toChart c' x →
          without m.act (exitOrderF P.toChart m.act (f + 1) c) x = m.act x := by
        intro x c' hp' hne' hb
        cases hx : m.act x with
        | false => simp [without, hx]
        | true =>
          have hxn := h.live_bound hx
          simp [without, hx]
          exact hnot x c' hp' hxn hne' hb
      have hstop : upward P.toChart (lockOf L) (without m.act (exitOrderF P.toChart m.act (f + 1) c)) (some s) = [] :=
        upward_stop hwf hsn hkn (by rw [hwo ck ck hk2 (Ne.symm hne) .refl]; exact hk1) hk2
      have hS := hrecS m c h hc1 hc2
      unfold removalF at hS
      rw [hc2, hstop, List.append_nil] at hS
      rw [List.flatMap_cons, hreg]
      rw [show ∀ a b c d : List Sid, (a ++ b ++ c) ++ d = a ++ ((b ++ c) ++ d) from fun a b c d => by simp]
      refine Sim.congr (sim_bind hS ?_) (exitAll_append _ _ _ _ _)
      intro _ m1 hm1
      have hp := wp_okAt (hrec m c h hc1 hc2) hm1
      unfold removalF at hp
      rw [hc2, hstop, List.append_nil] at hp
      have hi1 := hp.inv
      have hlive1 : (m1.heap s).isSome := by
        have : m1.act s = true := by
          rw [hp.act]
          have hs : m.act s = true := by simp [Mach.act, ho]
          simp [without, hs]
          intro hx
          have := (hsub s hx).le hwf hsn
          have := hwf.parent_lt hcn hc2
          omega
        exact this
      obtain ⟨o1, ho1⟩ := Option.isSome_iff_exists.1 hlive1
      have hinner : ∀ i, o1.inner i = if i = k + (j + 1) then none else o.inner i := by
        intro i
        rw [← hi1.childAt hwf ho1, ← h.childAt hwf ho, hp.act]
        by_cases hik : i = k + (j + 1)
        · rw [if_pos hik]
          cases hca : Spec.childAt P.toChart (without m.act (exitOrderF P.toChart m.act (f + 1) c)) s i with
          | none => rfl
          | some c' =>
            exfalso
            obtain ⟨g1, g2, g3, g4⟩ := childAt_some hca
            simp only [without, Bool.and_eq_true, Bool.not_eq_true', List.contains_eq_mem, decide_eq_false_iff_not] at g2
            have := (h.inner_iff ho).2 ⟨g2.1, g3, g4⟩
            rw [hik, hc] at this; cases this
            apply g2.2
            rw [exitOrderF_succ]; simp
        · rw [if_neg hik]
          unfold Spec.childAt
          congr 1
          funext c'
          by_cases hp' : P.parent c' = some s
          · by_cases hcc : c' = c
            · subst hcc
              have : (P.pos c' == i) = false := by
                rw [beq_eq_false_iff_ne]; omega
              rw [this]; simp
            · rw [hwo c' c' hp' hcc .refl]
          · have : (P.parent c' == some s) = false := by simpa using hp'
            rw [this]; simp
      have hrec2 := ih m1 o1 hi1 ho1 (by rw [hinner, if_neg (by omega)]; exact hk) (by
        intro i hi
        rw [hinner]
        split
        · rfl
        · exact hout i (by omega))
      -- region orders of the remaining regions are unchanged
      have hregs : ∀ i ∈ (List.range' k (j + 1)).reverse,
          regionOrder P.toChart m1.act (f + 1) s i = regionOrder P.toChart m.act (f + 1) s i := by
        intro i hi
        have hik : i ≠ k + (j + 1) := by
          simp at hi; omega
        unfold regionOrder
        rw [hi1.childAt hwf ho1, h.childAt hwf ho, hinner, if_neg hik]
        cases hoi : o.inner i with
        | none => rfl
        | some c' =>
          simp only
          obtain ⟨g1, g2, g3⟩ := (h.inner_iff ho).1 hoi
          apply exitOrderF_congr
          intro x hx
          rw [hp.act]
          exact hwo x c' g2 (by intro h'; subst h'; omega) hx
      have hfm : (List.range' k (j + 1)).reverse.flatMap (regionOrder P.toChart m1.act (f + 1) s) =
          (List.range' k (j + 1)).reverse.flatMap (regionOrder P.toChart m.act (f + 1) s) := by
        rw [List.flatMap_def, List.flatMap_def, List.map_congr_left hregs]
      rw [hfm] at hrec2
      rw [hp.act, ← without_append] at hrec2
      simpa using hrec2

theorem removeLoopLocked_sim (hwf : P.toChart.WF) (hpl : Plain P) (full : Bool) (f : Nat) {s : Sid} {rec : Sid → M W Unit} (hLs : L s ≠ 0) (hfuel : P.n - s ≤ f + 2)
    (hrec : ∀ (m : Mach W) (c : Sid), Inv P.toChart L none m → (m.heap c).isSome → P.parent c = some s →
      wp (rec c) (fun _ m' => ExitPost P.toChart L full m m' (removalF P.toChart L m.act (f + 1) c))
        (fun _ m' => ExitFail P.toChart L full c m m' (removalF P.toChart L m.act (f + 1) c)) m)
    (hrecS : ∀ (m : Mach W) (c : Sid), Inv P.toChart L none m → (m.heap c).isSome → P.parent c = some s →
      Sim id (rec c) (Ref.exitAll P (lockOf L) full (removalF P.toChart L m.act (f + 1) c)) m) :
    ∀ (is : List Nat) (m : Mach W) (o : Obj), is.Nodup → Inv P.toChart L none m → m.heap s = some o →
      Sim id (removeLoop rec s is) (Ref.exitAll P (lockOf L) full (is.flatMap (regionOrder P.toChart m.act (f + 1) s))) m := by
  intro is
  induction is with
  | nil =>
    intro m o _ h ho
    rfl
  | cons i is ih =>
    intro m o hnd h ho
    obtain ⟨hni, hnd⟩ := List.nodup_cons.1 hnd
    have hsn := h.bound ho
    simp only [removeLoop]
    refine sim_getObj fun o' ho' => ?_
    rw [ho] at ho'; cases ho'
    cases hc : o.inner i with
    | none =>
      have hreg : regionOrder P.toChart m.act (f + 1) s i = [] := by
        unfold regionOrder; rw [h.childAt hwf ho, hc]
      rw [List.flatMap_cons, hreg, List.nil_append]
      exact sim_skip (x := pure ()) rfl fun _ m' hm' => by cases hm'; exact ih m o hnd h ho
    | some c =>
      simp only
      obtain ⟨hc1, hc2, hc3⟩ := (h.inner_iff ho).1 hc
      have hcn := h.live_bound hc1
      have hreg : regionOrder P.toChart m.act (f + 1) s i = exitOrderF P.toChart m.act (f + 1) c := by
        unfold regionOrder; rw [h.childAt hwf ho, hc]
      have hstop : upward P.toChart (lockOf L) (without m.act (exitOrderF P.toChart m.act (f + 1) c)) (some s) = [] := by
        rw [upward_some hwf _ _ hsn, if_pos]
        simp [lockOf, hLs]
      have hS := hrecS m c h hc1 hc2
      unfold removalF at hS
      rw [hc2, hstop, List.append_nil] at hS
      rw [List.flatMap_cons, hreg]
      refine Sim.congr (sim_bind hS ?_) (exitAll_append _ _ _ _ _)
      intro _ m1 hm1
      have hp := wp_okAt (hrec m c h hc1 hc2) hm1
      unfold removalF at hp
      rw [hc2, hstop, List.append_nil] at hp
      have hi1 := hp.inv
      obtain ⟨o1, ho1⟩ := Option.isSome_iff_exists.1 (hi1.L_live hLs)
      have hsub : ∀ x ∈ exitOrderF P.toChart m.act (f + 1) c, Below P.toChart c x := fun x hx =>
        (exitOrderF_below _ _ _ hx).1
      have hwo : ∀ x c', P.parent c' = some s → c' ≠ c → Below P.toChart c' x →
          without m.act (exitOrderF P.toChart m.act (f + 1) c) x = m.act x := by
        intro x c' hp' hne' hb
        cases hx : m.act x with
        | false => simp [without, hx]
        | true =>
          have hxn := h.live_bound hx
          simp only [without, hx, Bool.true_and, Bool.not_eq_true', List.contains_eq_mem, decide_eq_false_iff_not]
          intro hx'
          exact hne' (hb.sibling hwf hxn (hsub x hx') (by rw [hp', hc2]))
      have hregs : ∀ j ∈ is, regionOrder P.toChart m1.act (f + 1) s j = regionOrder P.toChart m.act (f + 1) s j := by
        intro j hj
        have hji : j ≠ i := fun h' => hni (h' ▸ hj)
        have hch : Spec.childAt P.toChart m1.act s j = Spec.childAt P.toChart m.act s j := by
          rw [hp.act]
          unfold Spec.childAt
          congr 1
          funext c'
          by_cases hp' : P.parent c' = some s
          · by_cases hcc : c' = c
            · subst hcc
              have : (P.pos c' == j) = false := by
                rw [beq_eq_false_iff_ne]; omega
              rw [this]; simp
            · rw [hwo c' c' hp' hcc .refl]
          · have : (P.parent c' == some s) = false := by simpa using hp'
            rw [this]; simp
        unfold regionOrder
        rw [hch]
        cases hoj : Spec.childAt P.toChart m.act s j with
        | none => rfl
        | some c' =>
          simp only
          obtain ⟨_, _, g2, g3⟩ := childAt_some hoj
          apply exitOrderF_congr
          intro x hx
          rw [hp.act]
          exact hwo x c' g2 (by intro h'; subst h'; omega) hx
      have hfm : is.flatMap (regionOrder P.toChart m1.act (f + 1) s) = is.flatMap (regionOrder P.toChart m.act (f + 1) s) := by
        rw [List.flatMap_def, List.flatMap_def, List.map_congr_left hregs]
      have hrec2 := ih m1 o1 hnd hi1 ho1
      rw [hfm] at hrec2
      exact hrec2

theorem removeF_sim (hwf : P.toChart.WF) (hpl : Plain P) (full : Bool) : ∀ (f : Nat) (s : Sid) (m : Mach W),
    Inv P.toChart L none m → (m.heap s).isSome → (∀ x, Below P.toChart s x → L x = 0) → P.n - s ≤ f →
    Sim id (removeF P f s full) (Ref.exitAll P (lockOf L) full (removalF P.toChart L m.act f s)) m := by
  intro f
  induction f with
  | zero => intro s m h hs _ hf; have := h.live_bound hs; omega
  | succ f ih =>
    intro s m h hs hL hf
    obtain ⟨o, ho⟩ := Option.isSome_iff_exists.1 hs
    have hsn := h.bound ho
    have hLs := hL s .refl
    unfold removeF
    refine sim_getObj fun o' ho' => ?_
    rw [ho] at ho'; cases ho'
    by_cases hleaf : P.isLeaf s = true
    · rw [if_pos hleaf]
      have := leafRemove_sim hwf hpl full h hs hleaf hLs
      rw [upward_go hwf hsn hLs (childless_leaf hwf hleaf)] at this
      unfold removalF
      rw [exitOrderF_leaf hleaf]
      exact this
    · rw [if_neg hleaf]
      have hnl : P.isLeaf s = false := by simpa using hleaf
      cases hfind : (List.range (P.regions (some s))).find? (fun i => (o.inner i).isSome) with
      | none =>
        rw [List.find?_eq_none] at hfind
        have hn : nch (P.regions (some s)) o.inner = 0 := by
          rw [nch_zero_iff]
          intro i hi
          have := hfind i (List.mem_range.2 hi)
          simpa using this
        have hou : m.pOU = some s := by
          rcases h.noOrphan ho hnl hn with h' | h'
          · exact h'
          · exact absurd hLs h'
        simp only
        refine sim_get ?_
        rw [if_pos hou]
        refine sim_skip (sim_addRef s) fun _ m1 hm1 => ?_
        have hi := h.addRef ho
        have hm1e : m1 = { m with heap := upd m.heap s (some { o with rc := o.rc + 1 }) } := by
          have : addRef s m = .ok () { m with heap := upd m.heap s (some { o with rc := o.rc + 1 }) } := by
            simp only [addRef, bind, M.bnd, getObj, ho, setObj, M.modify]
          rw [this] at hm1; cases hm1; rfl
        subst hm1e
        have := exitImpl_sim hwf hpl full hi (s := s) (by simp) (fun o' ho' => hi.not_slot ho' hnl)
        have hact : (Mach.act { m with heap := upd m.heap s (some { o with rc := o.rc + 1 }) } : Sid → Bool) = m.act := by
          funext x; simp only [Mach.act, upd]; split
          · next hx => subst hx; simp [ho]
          · rfl
        rw [dec_inc, hact,
          upward_go hwf hsn hLs ((h.childless_iff hwf ho).2 hn)] at this
        have hord : exitOrderF P.toChart m.act (f + 1) s = [s] := by
          rw [exitOrderF_succ]
          have : (List.range (P.regions (some s))).reverse.flatMap (regionOrder P.toChart m.act f s) = [] := by
            rw [List.flatMap_eq_nil_iff]
            intro i hi
            simp at hi
            have := hfind i (List.mem_range.2 hi)
            unfold regionOrder
            rw [h.childAt hwf ho]
            cases hoi : o.inner i with
            | none => rfl
            | some c => rw [hoi] at this; simp at this
          rw [this]; rfl
        unfold removalF
        rw [hord]
        exact this
      | some k =>
        simp only
        have hk1 := List.find?_some hfind
        have hk2 := List.mem_range.1 (List.mem_of_find?_eq_some hfind)
        have hk3 : ∀ i, i < k → o.inner i = none := by
          intro i hi
          have := (List.find?_range_eq_some.1 hfind).2.2 i hi
          simpa using this
        obtain ⟨c, hc⟩ := Option.isSome_iff_exists.1 hk1
        obtain ⟨hc1, hc2, hc3⟩ := (h.inner_iff ho).1 hc
        have hcn := h.live_bound hc1
        have hlt := hwf.parent_lt hcn hc2
        obtain ⟨f', rfl⟩ : ∃ f', f = f' + 1 := ⟨f - 1, by omega⟩
        have hr : P.regions (some s) - k = (P.regions (some s) - k - 1) + 1 := by omega
        have := removeLoop_sim hwf hpl full f' (s := s) (rec := fun c => removeF P (f' + 1) c full) k hL hf
          (fun m c h hcl hp => removeF_wp hwf full _ c m h hcl (fun x hx => hL x (Below.trans (.step hp .refl) hx))
            (by have := hwf.parent_lt (h.live_bound hcl) hp; omega))
          (fun m c h hcl hp => ih c m h hcl (fun x hx => hL x (Below.trans (.step hp .refl) hx))
            (by have := hwf.parent_lt (h.live_bound hcl) hp; omega))
          (P.regions (some s) - k - 1) m o h ho hk1 (fun i hi => by
            rcases hi with hi | hi
            · exact hk3 i hi
            · cases hoi : o.inner i with
              | none => rfl
              | some c =>
                have := h.inner_lt hwf ho hoi
                omega)
        rw [← hr] at this
        unfold removalF
        rw [exitOrderF_succ, flatMap_range_drop (k := k) (by omega) (fun i hi => by
          unfold regionOrder
          rw [h.childAt hwf ho, hk3 i hi])]
        exact this

theorem remove_sim (hwf : P.toChart.WF) (hpl : Plain P) (full : Bool) {s : Sid}
    (h : Inv P.toChart L none m) (hs : (m.heap s).isSome) (hL : ∀ x, Below P.toChart s x → L x = 0) :
    Sim id (remove P s full) (Ref.exitAll P (lockOf L) full (removalF P.toChart L m.act (P.n - s) s)) m :=
  removeF_sim hwf hpl full _ _ _ h hs hL (Nat.le_refl _)

/-- `remove_from_state_list` of a non-leaf state that something else keeps alive exits its inner states. -/
theorem removeLocked_sim (hwf : P.toChart.WF) (hpl : Plain P) (full : Bool) {q : Sid} (h : Inv P.toChart L none m) (hq : (m.heap q).isSome)
    (hL : ∀ x, Outer P.toChart q x → L x = 0) (hLq : L q ≠ 0) (hnl : P.isLeaf q = false)
    (horph : (∀ x, m.act x = true → P.parent x ≠ some q) → m.pOU = some q) :
    Sim id (remove P q full) (Ref.exitAll P (lockOf L) full (innerOrder P.toChart m.act q)) m := by
  obtain ⟨o, ho⟩ := Option.isSome_iff_exists.1 hq
  have hqn := h.bound ho
  obtain ⟨f, hf⟩ : ∃ k, P.n - q = k + 1 := ⟨P.n - q - 1, by omega⟩
  unfold remove innerOrder
  rw [hf]
  unfold removeF
  simp only [Nat.add_sub_cancel]
  refine sim_getObj fun o' ho' => ?_
  rw [ho] at ho'; cases ho'
  rw [if_neg (by simp [hnl])]
  cases hfind : (List.range (P.regions (some q))).find? (fun i => (o.inner i).isSome) with
  | none =>
    rw [List.find?_eq_none] at hfind
    have hnone : ∀ i, o.inner i = none := by
      intro i
      cases hoi : o.inner i with
      | none => rfl
      | some c =>
        have := hfind i (List.mem_range.2 (h.inner_lt hwf ho hoi))
        rw [hoi] at this; simp at this
    have hou : m.pOU = some q := by
      apply horph
      intro x hx hp
      have := (h.inner_iff ho (i := P.pos x) (c := x)).2 ⟨hx, hp, rfl⟩
      rw [hnone] at this; cases this
    have hnil : (List.range (P.regions (some q))).reverse.flatMap (regionOrder P.toChart m.act f q) = [] := by
      rw [List.flatMap_eq_nil_iff]
      intro i _
      unfold regionOrder
      rw [h.childAt hwf ho, hnone]
    rw [hnil]
    simp only
    refine sim_get ?_
    rw [if_pos hou]
    refine sim_skip (sim_addRef q) fun _ m1 hm1 => ?_
    have hi := h.addRef ho
    have hm1e : m1 = { m with heap := upd m.heap q (some { o with rc := o.rc + 1 }) } := by
      have : addRef q m = .ok () { m with heap := upd m.heap q (some { o with rc := o.rc + 1 }) } := by
        simp only [addRef, bind, M.bnd, getObj, ho, setObj, M.modify]
      rw [this] at hm1; cases hm1; rfl
    subst hm1e
    have := exitImpl_sim hwf hpl full hi (s := q) (by simp) (fun o' ho' => hi.not_slot ho' hnl)
    have hact : (Mach.act { m with heap := upd m.heap q (some { o with rc := o.rc + 1 }) } : Sid → Bool) = m.act := by
      funext x; simp only [Mach.act, upd]; split
      · next hx => subst hx; simp [ho]
      · rfl
    rw [dec_inc, hact, upward_some hwf _ _ hqn, if_pos (by simp [lockOf, hLq])] at this
    exact this
  | some k =>
    simp only
    have hk1 := List.find?_some hfind
    have hk2 := List.mem_range.1 (List.mem_of_find?_eq_some hfind)
    have hk3 : ∀ i, i < k → o.inner i = none := by
      intro i hi
      have := (List.find?_range_eq_some.1 hfind).2.2 i hi
      simpa using this
    obtain ⟨c, hc⟩ := Option.isSome_iff_exists.1 hk1
    obtain ⟨hc1, hc2, hc3⟩ := (h.inner_iff ho).1 hc
    have hcn := h.live_bound hc1
    have hlt := hwf.parent_lt hcn hc2
    obtain ⟨f', rfl⟩ : ∃ f', f = f' + 1 := ⟨f - 1, by omega⟩
    have := removeLoopLocked_sim hwf hpl full f' (s := q) (rec := fun c => removeF P (f' + 1) c full) hLq (by omega)
      (fun m c h hcl hp => removeF_wp hwf full (f' + 1) c m h hcl (fun x hx => hL x (Outer.trans_below ⟨q, hp, .refl⟩ hx))
        (by have := hwf.parent_lt (h.live_bound hcl) hp; omega))
      (fun m c h hcl hp => removeF_sim hwf hpl full (f' + 1) c m h hcl (fun x hx => hL x (Outer.trans_below ⟨q, hp, .refl⟩ hx))
        (by have := hwf.parent_lt (h.live_bound hcl) hp; omega))
      (List.range' k (P.regions (some q) - k)).reverse m o (by rw [List.Nodup, List.pairwise_reverse]; exact List.Pairwise.imp (fun h => Ne.symm h) List.nodup_range') h ho
    rw [flatMap_range_drop (k := k) (by omega) (fun i hi => by
      unfold regionOrder
      rw [h.childAt hwf ho, hk3 i hi])]
    exact this

/-! ## `terminate_impl` -/

/-- The only list node is emptied. -/
theorem single_sim (hwf : P.toChart.WF) (hpl : Plain P) (full : Bool) {t : Sid} {ot : Obj} (h : Inv P.toChart L none m) (hot : m.heap t = some ot)
    (hleaf : P.isLeaf t = true) (hL : L t = 0) (he : m.endIx = 1) :
    Sim id (do
      M.modify fun m => { m with endIx := 0 }
      let t ← takeSlot 0
      exitImpl P t full) (Ref.exitAll P (lockOf L) full (upward P.toChart (lockOf L) m.act (some t))) m := by
  have htslot := h.leaf_in hot hleaf hL
  obtain ⟨_, htlt, _⟩ := h.slot_pos htslot hot
  have hl0 : ot.lpos = 0 := by omega
  have hs0 : m.slot 0 = some t := by rw [← hl0]; exact htslot
  obtain ⟨hi, hact, hns⟩ := h.takeLeaf hot htslot
    (m' := { m with endIx := 0, slot := upd m.slot 0 none })
    (by
      intro x ox hx
      rw [he]
      simp only [Nat.sub_self, hs0]
      split
      · next hxt => cases hxt; rw [hx] at hot; cases hot; exact hx
      · exact hx)
    (fun x hx => hx) (by simp [he, hl0]) (by show 0 = m.endIx - 1; omega) rfl rfl rfl rfl ⟨h.hist.sh, h.hist.dh⟩
  have := exitImpl_sim hwf hpl full hi (s := t) (by simp) hns
  rw [dec_inc, hact] at this
  refine this.step ?_ ?_
  · simp only [takeSlot, bind, M.bnd, M.get, M.modify, pure, M.ret, hs0]
  · rw [upward_go hwf (h.bound hot) hL (childless_leaf hwf hleaf), exitAll_cons, exitAll_cons]
    have hlv := leaves_take h hot htslot (m' := { m with endIx := 0, slot := upd m.slot 0 none }) (by show 0 = m.endIx - 1; omega) (by simp [he, hl0]) hi.filled
    have hnil : Mach.leaves { m with endIx := 0, slot := upd m.slot 0 none } = [] := rfl
    show Ref.exitTail P _ full t _ { abs m with leaves := Ref.leave m.leaves t, unstable := _ } =
      Ref.exitTail P _ full t _ { abs m with leaves := Ref.leave (Mach.leaves { m with endIx := 0, slot := upd m.slot 0 none }) t, unstable := _ }
    rw [← hlv, hnil]
    rfl

theorem terminateState_sim (hwf : P.toChart.WF) (hpl : Plain P) (full : Bool) {s : Sid}
    (h : Inv P.toChart L none m) (hs : (m.heap s).isSome) (hL : ∀ x, Below P.toChart s x → L x = 0) :
    Sim id (terminateState P s full) (Ref.exits P (lockOf L) full fun a => removalF P.toChart L a (P.n - s) s) m := by
  have h0 : Inv P.toChart L none { m with ico := false } := h.setFlags false m.fullExit m.trig
  unfold terminateState Ref.exits
  refine sim_bind (sim_modify (m := m) (g := fun m => { m with ico := false }) rfl) fun _ m1 hm1 => ?_
  cases hm1
  refine sim_get2 ?_
  show Sim id _ (Ref.exitAll P (lockOf L) full (removalF P.toChart L (Mach.act { m with ico := false }) (P.n - s) s)) { m with ico := false }
  show Sim id (if m.pOU ≠ none then _ else if m.endIx = 0 then _ else if m.endIx = 1 then _ else if m.len > 1 then _ else _) _ _
  by_cases hou : m.pOU ≠ none
  · rw [if_pos hou]
    exact remove_sim hwf hpl full h0 hs hL
  · have hou : m.pOU = none := by simpa using hou
    rw [if_neg (by simpa using hou)]
    obtain ⟨t, ht1, ht2, ht3⟩ := h.leaf_below hwf hou _ s (Nat.le_refl _) hs hL
    obtain ⟨ot, hot⟩ := Option.isSome_iff_exists.1 ht2
    have htL := hL t ht1
    have htslot := h.leaf_in hot ht3 htL
    obtain ⟨_, htlt, _⟩ := h.slot_pos htslot hot
    rw [if_neg (by omega)]
    by_cases he : m.endIx = 1
    · rw [if_pos he]
      have hl0 : ot.lpos = 0 := by omega
      rw [hl0] at htslot
      rw [← h0.single_leaf hwf hou ht2 ht3 ?_ (P.n - s) s (Nat.le_refl _) hs hL]
      · exact single_sim hwf hpl full h0 hot ht3 htL he
      · intro x hx hxl hxL
        obtain ⟨ox, hox⟩ := Option.isSome_iff_exists.1 hx
        have hxs := h.leaf_in hox hxl hxL
        obtain ⟨_, hxlt, _⟩ := h.slot_pos hxs hox
        have : ox.lpos = 0 := by omega
        rw [this, htslot] at hxs; cases hxs; rfl
    · rw [if_neg he, if_pos (by have := h.end_le; omega)]
      exact remove_sim hwf hpl full h0 hs hL

theorem terminateMachine_sim (hwf : P.toChart.WF) (hpl : Plain P) (full : Bool) (h : Inv P.toChart (fun _ => 0) none m) :
    Sim id (terminateMachine P full) (Ref.leaveAll P full) m := by
  unfold terminateMachine Ref.leaveAll
  refine sim_bind (sim_modify (m := m) (g := fun m => { m with fullExit := true }) rfl) fun _ m1 hm1 => ?_
  cases hm1
  have h0 : Inv P.toChart (fun _ => 0) none { m with fullExit := true } := h.setFlags m.ico true m.trig
  refine sim_get2 ?_
  refine sim_bind (r := id) ?_ fun _ m2 _ => sim_modify rfl
  show Sim id (match m.outermost with | none => _ | some s => _) (match m.outermost with | none => _ | some s => _) _
  cases hout : m.outermost with
  | none => rfl
  | some s =>
    obtain ⟨hs, hp⟩ := h.outer.1 hout
    have := terminateState_sim hwf hpl full h0 hs (fun _ _ => rfl)
    have e1 : lockOf (fun _ => 0) = Ref.nobody := by funext x; simp [lockOf, Ref.nobody]
    have e2 : (fun a => removalF P.toChart (fun _ => 0) a (P.n - s) s) = fun a => exitOrder P.toChart a s := by
      funext a; rw [removalF_root hp]; rfl
    rw [e1, e2] at this
    exact this

theorem terminateLocked_sim (hwf : P.toChart.WF) (hpl : Plain P) (full : Bool) {q : Sid} (h : Inv P.toChart L none m) (hq : (m.heap q).isSome)
    (hL : ∀ x, Outer P.toChart q x → L x = 0) (hLq : L q ≠ 0) (hnl : P.isLeaf q = false)
    (horph : (∀ x, m.act x = true → P.parent x ≠ some q) → m.pOU = some q) :
    Sim id (terminateState P q full) (Ref.exits P (lockOf L) full fun a => innerOrder P.toChart a q) m := by
  have h0 : Inv P.toChart L none { m with ico := false } := h.setFlags false m.fullExit m.trig
  have hqn := h.live_bound hq
  unfold terminateState Ref.exits
  refine sim_bind (sim_modify (m := m) (g := fun m => { m with ico := false }) rfl) fun _ m1 hm1 => ?_
  cases hm1
  refine sim_get2 ?_
  show Sim id _ (Ref.exitAll P (lockOf L) full (innerOrder P.toChart m.act q)) { m with ico := false }
  show Sim id (if m.pOU ≠ none then _ else if m.endIx = 0 then _ else if m.endIx = 1 then _ else if m.len > 1 then _ else _) _ _
  by_cases hpo : m.pOU ≠ none
  · rw [if_pos hpo]
    exact removeLocked_sim hwf hpl full h0 hq hL hLq hnl horph
  · have hpo : m.pOU = none := by simpa using hpo
    rw [if_neg (by simpa using hpo)]
    obtain ⟨c, hc1, hc2⟩ : ∃ c, m.act c = true ∧ P.parent c = some q := by
      apply Classical.byContradiction
      intro hno
      have := horph fun x hx hp => hno ⟨x, hx, hp⟩
      rw [hpo] at this; cases this
    have hcn := h.live_bound hc1
    have hlt := hwf.parent_lt hcn hc2
    have hLc : ∀ c', P.parent c' = some q → ∀ x, Below P.toChart c' x → L x = 0 := fun c' hc' x hx => hL x (Outer.trans_below ⟨q, hc', .refl⟩ hx)
    obtain ⟨t, ht1, ht2, ht3⟩ := h.leaf_below hwf hpo _ c (Nat.le_refl _) hc1 (hLc c hc2)
    obtain ⟨ot, hot⟩ := Option.isSome_iff_exists.1 ht2
    have htL := hLc c hc2 t ht1
    have htslot := h.leaf_in hot ht3 htL
    obtain ⟨_, htlt, _⟩ := h.slot_pos htslot hot
    rw [if_neg (by omega)]
    by_cases he : m.endIx = 1
    · rw [if_pos he]
      have hl0 : ot.lpos = 0 := by omega
      rw [hl0] at htslot
      have huniq : ∀ x, (m.heap x).isSome → P.isLeaf x = true → L x = 0 → x = t := by
        intro x hx hxl hxL
        obtain ⟨ox, hox⟩ := Option.isSome_iff_exists.1 hx
        have hxs := h.leaf_in hox hxl hxL
        obtain ⟨_, hxlt, _⟩ := h.slot_pos hxs hox
        have : ox.lpos = 0 := by omega
        rw [this, htslot] at hxs; cases hxs; rfl
      have honly : ∀ c', m.act c' = true → P.parent c' = some q → c' = c := by
        intro c' h1' h2'
        obtain ⟨t', g1, g2, g3⟩ := h.leaf_below hwf hpo _ c' (Nat.le_refl _) h1' (hLc c' h2')
        have := huniq t' g2 g3 (hLc c' h2' t' g1)
        subst this
        exact g1.sibling hwf (h.live_bound g2) ht1 (by rw [h2', hc2])
      have hord : upward P.toChart (lockOf L) m.act (some t) = innerOrder P.toChart m.act q := by
        rw [h.single_leaf hwf hpo ht2 ht3 huniq (P.n - q - 1) c (by show P.n - c ≤ P.n - q - 1; omega) hc1 (hLc c hc2)]
        unfold removalF innerOrder
        rw [hc2, upward_some hwf _ _ hqn, if_pos (by simp [lockOf, hLq]), List.append_nil]
        obtain ⟨oq, hoq⟩ := Option.isSome_iff_exists.1 hq
        rw [flatMap_single (i := P.pos c) _ (Chart.pos_lt_some hwf hcn hc2)]
        · unfold regionOrder
          rw [h.childAt hwf hoq, (h.inner_iff hoq).2 ⟨hc1, hc2, rfl⟩]
        · intro j hj
          unfold regionOrder
          rw [h.childAt hwf hoq]
          cases hoj : oq.inner j with
          | none => rfl
          | some c' =>
            obtain ⟨g1, g2, g3⟩ := (h.inner_iff hoq).1 hoj
            have := honly c' g1 g2
            subst this
            omega
      rw [← hord]
      exact single_sim hwf hpl full h0 hot ht3 htL he
    · rw [if_neg he, if_pos (by have := h.end_le; omega)]
      exact removeLocked_sim hwf hpl full h0 hq hL hLq hnl horph

end SC
