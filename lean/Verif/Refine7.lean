import Verif.Refine6
import Verif.React
/-!
# The library and the reference machine: transitions
-/

namespace SC
open Spec Chart
variable {W : Type} {P : Prog W} {L : Sid → Nat} {m : Mach W}

theorem anyUserMem : UserMem P (fun _ _ => True) :=
  ⟨⟨fun _ => trivial, fun _ _ => trivial⟩, fun _ _ _ _ => trivial, fun _ _ _ _ => trivial, fun _ _ _ _ => trivial, fun _ _ _ _ => trivial,
    fun _ _ _ _ _ _ => trivial, fun _ _ _ _ => trivial⟩

theorem M_assoc {α β γ : Type} (x : M W α) (f : α → M W β) (g : β → M W γ) : ((x >>= f) >>= g) = (x >>= fun a => f a >>= g) := by
  funext m
  show M.bnd (M.bnd x f) g m = M.bnd x (fun a => M.bnd (f a) g) m
  unfold M.bnd
  cases x m <;> rfl

theorem sim_checkCtx (c : Option Sid) : Sim (fun _ => ()) (checkCtx c) (pure ()) m := by
  cases c with
  | none => rfl
  | some p => exact sim_getObj fun o _ => rfl

theorem checkCtx_same {c : Option Sid} {m' : Mach W} {u : Unit} (h : checkCtx c m = .ok u m') : m' = m := by
  cases c with
  | none => cases h; rfl
  | some p =>
    simp only [checkCtx, bind, M.bnd, getObj] at h
    cases hp : m.heap p with
    | none => rw [hp] at h; cases h
    | some o => rw [hp] at h; cases h; rfl

theorem sim_runAction (hpl : Plain P) (hf : Filled m) (a : Option Nat) : Sim id (runAction P a) (Ref.action P a) m := by
  cases a with
  | none => rfl
  | some a => exact sim_user (hpl.action a) _ _ hf

theorem exits_congr {keep : Sid → Bool} {full : Bool} {l l' : (Sid → Bool) → List Sid} {st : Ref.St W} (h : l st.act = l' st.act) :
    Ref.exits P keep full l st = Ref.exits P keep full l' st := by
  show Ref.exitAll P keep full (l st.act) _ = Ref.exitAll P keep full (l' st.act) _
  rw [h]

theorem removal_whole (hwf : P.toChart.WF) {t : Sid} (htn : t < P.n) (hc : ∀ p, P.parent t = some p → L p ≠ 0) (act : Sid → Bool) :
    removalF P.toChart L act (P.n - t) t = exitOrder P.toChart act t := by
  unfold removalF exitOrder
  have : upward P.toChart (lockOf L) (without act (exitOrderF P.toChart act (P.n - t) t)) (P.parent t) = [] := by
    cases hpt : P.parent t with
    | none => rfl
    | some p =>
      rw [upward_some hwf _ _ (parent_bound hwf htn hpt), if_pos]
      simp [lockOf, hc p hpt]
  rw [this, List.append_nil]

theorem leaveFor_sim {l : (Sid → Bool) → List Sid} {keep : Sid → Bool} {t : Sid}
    (h : Sim id (terminateState P t m.fullExit) (Ref.exits P keep m.fullExit l) m) : Sim id (terminateInTransit P t) (Ref.leaveFor P keep l) m := by
  unfold terminateInTransit Ref.leaveFor
  exact sim_get2 (sim_bind h fun _ m1 _ => sim_modify rfl)

/-- Everything in `t` is left; its context is kept alive. -/
theorem whole_sim (hwf : P.toChart.WF) (hpl : Plain P) {t : Sid} {keep : Sid → Bool} (h : Inv P.toChart L none m) (ht : (m.heap t).isSome)
    (hL : ∀ x, Below P.toChart t x → L x = 0) (hc : ∀ p, P.parent t = some p → L p ≠ 0) (hk : keep = lockOf L) :
    Sim id (terminateInTransit P t) (Ref.leaveFor P keep fun a => exitOrder P.toChart a t) m := by
  subst hk
  refine leaveFor_sim ((terminateState_sim hwf hpl m.fullExit h ht hL).congr (exits_congr ?_))
  exact (removal_whole hwf (h.live_bound ht) hc _).symm

/-- Everything inside `q` is left; `q` is kept alive. -/
theorem inside_sim (hwf : P.toChart.WF) (hpl : Plain P) {q : Sid} {keep : Sid → Bool} (h : Inv P.toChart L none m) (hq : (m.heap q).isSome)
    (hL : ∀ x, Outer P.toChart q x → L x = 0) (hLq : L q ≠ 0) (hnl : P.isLeaf q = false)
    (horph : (∀ x, m.act x = true → P.parent x ≠ some q) → m.pOU = some q) (hk : keep = lockOf L) :
    Sim id (terminateInTransit P q) (Ref.leaveFor P keep fun a => (exitOrder P.toChart a q).dropLast) m := by
  subst hk
  refine leaveFor_sim ((terminateLocked_sim hwf hpl m.fullExit h hq hL hLq hnl horph).congr (exits_congr ?_))
  rw [exitOrder_inner (h.live_bound hq)]
  simp

theorem lockOf_incCtx (c : Option Sid) : (fun x => c == some x : Sid → Bool) = lockOf (incCtx noL c) := by
  funext x
  cases c with
  | none => simp [lockOf, incCtx]
  | some p =>
    by_cases hx : x = p
    · subst hx; simp [lockOf, incCtx]
    · simp [lockOf, incCtx, inc_other _ hx]; exact fun h => hx h.symm

/-- After the states were left and the action was called. -/
structure LeftFor (P : Prog W) (c : Option Sid) (t : Sid) (m m' : Mach W) : Prop where
  inv : Inv P.toChart (incCtx noL c) none m'
  ico : m'.ico = true
  pOU : m'.pOU = c
  act : ∀ x, m'.act x = true → m.act x = true ∧ ¬ Below P.toChart t x

/-- Entering the destination and dropping the reference to the common context. -/
theorem transitTail_sim (hwf : P.toChart.WF) (hok : Contract P) (hpl : Plain P) {c : Option Sid} {d : Target} {t : Sid}
    (hd : TargetOK P.toChart d) (hc : c ∈ P.ctxList d.st) (ht : (m.heap t).isSome) (htp : P.parent t = c)
    (hpos : P.pos t = P.pos (P.firstEntered c d.st)) (hi : Inv P.toChart (incCtx noL c) none m)
    {x : M W Unit} {X : Ref.R W Unit} (hX : Sim id x X m)
    (hx : wp x (fun _ m' => LeftFor P c t m m') (fun _ m' => Inv P.toChart (incCtx noL c) none m') m)
    {fin : M W Unit} (hf0 : c = none → fin = pure ()) (hf1 : ∀ p, c = some p → fin = release P p) :
    Sim id (M.finally' (x >>= fun _ => build P (buildFuel P) (.chain (P.pathBelow c d.st) d)) fin)
      (Ref.R.onThrow (X >>= fun _ => Ref.build P (Ref.depth P) (.chain (P.pathBelow c d.st) d)) (Ref.drop P Ref.nobody P.n c)) m := by
  have hpre : ∀ m1, LeftFor P c t m m1 → BPre P.toChart (incCtx noL c) c [P.pos (P.firstEntered c d.st)] m1 := by
    intro m1 h1
    refine ⟨h1.inv, ?_, ?_, fun _ => h1.pOU⟩
    · rintro p rfl; simp [incCtx]
    · intro y g1 g2 g3
      simp only [List.mem_singleton] at g3
      obtain ⟨k1, k2⟩ := h1.act y g1
      have := hi.same_region k1 ht (by rw [g2, htp]) (by rw [g3, ← hpos])
      subst this
      exact k2 .refl
  have hwp : wp (x >>= fun _ => build P (buildFuel P) (.chain (P.pathBelow c d.st) d))
      (fun _ m' => ∃ m1 l, LeftFor P c t m m1 ∧ BPost P.toChart (incCtx noL c) c [P.pos (P.firstEntered c d.st)]
        (fun h l h' => Enters P.toChart (fun _ _ => True) h (.down c d) l h') m1 m' l)
      (fun _ m' => Inv P.toChart (incCtx noL c) none m') m := by
    simp only [wp_bind]
    refine wp_mono hx ?_ (fun _ _ h => h)
    intro _ m1 h1
    refine wp_mono (transitBuild_wp hwf hok anyMem hd hc m1 (hpre m1 h1)) ?_ (fun _ _ h => h.1.inv)
    rintro _ m2 ⟨l, hl⟩
    exact ⟨m1, l, h1, hl⟩
  have hS : Sim id (x >>= fun _ => build P (buildFuel P) (.chain (P.pathBelow c d.st) d))
      (X >>= fun _ => Ref.build P (Ref.depth P) (.chain (P.pathBelow c d.st) d)) m := by
    refine sim_bind hX fun _ m1 hm1 => ?_
    have h1 := wp_okAt hx hm1
    refine build_sim hwf hok hpl (buildFuel P) (.chain (P.pathBelow c d.st) d) c _ ⟨hd, pathBelow_path hwf hd.bound hc⟩ buildFuel_chain m1 (hpre m1 h1)
      (fun _ h => by cases h)
  cases c with
  | none =>
    rw [hf0 rfl]
    refine sim_finally hS (fun _ _ _ => rfl) (fun _ _ _ _ _ h => by cases h) ?_
    intro e m1 _
    refine Sim.of_ok (a := ()) (m' := m1) rfl ?_
    show Ref.Out.ok () (Ref.drop P Ref.nobody P.n none (abs m1)) = _
    cases P.n <;> rfl
  | some p =>
    rw [hf1 p rfl]
    have hrc : ∀ u m2, (x >>= fun _ => build P (buildFuel P) (.chain (P.pathBelow (some p) d.st) d)) m = .ok u m2 →
        ∃ o, m2.heap p = some o ∧ 2 ≤ o.rc := by
      intro u m2 hm2
      obtain ⟨m1, l, _, hl⟩ := wp_okAt hwp hm2
      have hil := hl.inv
      obtain ⟨o, ho⟩ := Option.isSome_iff_exists.1 (hil.L_live (s := p) (by simp [incCtx]))
      obtain ⟨y, hy1, hy2, hy3⟩ := hl.filled _ (List.mem_singleton.2 rfl)
      have hin := (hil.inner_iff ho).2 ⟨hy1, hy2, rfl⟩
      have hn := nch_pos (Chart.pos_lt_some hwf (hil.live_bound hy1) hy2) hin
      have hrc := hil.rc ho
      simp only [incCtx, inc_same] at hrc
      exact ⟨o, ho, by omega⟩
    refine sim_finally hS ?_ ?_ ?_
    · intro u m2 hm2
      obtain ⟨o, ho, h2⟩ := hrc u m2 hm2
      exact release_silent ho h2
    · intro u m2 e m3 hm2 hm3
      obtain ⟨o, ho, h2⟩ := hrc u m2 hm2
      exact wp_thrownAt (release_keep (P := P) (Q := fun _ _ => True) (E := fun _ _ => False) ho h2 trivial) hm3
    · intro e m2 hm2
      have := release_sim hwf hpl (wp_thrownAt hwp hm2) (s := p) (by simp [incCtx]) (.inl rfl)
      simp only [incCtx, dec_inc, lockOf_noL] at this
      exact this

/-- Leaving the states and calling the action, without relaxed transition context. -/
theorem defaultExit_sim (hwf : P.toChart.WF) (hpl : Plain P) {t : Sid} {c : Option Sid} {a : Option Nat}
    (h : Inv P.toChart (incCtx noL c) none m) (ht : (m.heap t).isSome) (htp : P.parent t = c) (hou : OUBelow P.toChart t m)
    (hLt : ∀ x, Below P.toChart t x → incCtx noL c x = 0) :
    Sim id (terminateInTransit P t >>= fun _ => checkCtx c >>= fun _ => runAction P a)
      (Ref.leaveFor P (fun x => c == some x) (fun a => exitOrder P.toChart a t) >>= fun _ => Ref.action P a) m ∧
    wp (terminateInTransit P t >>= fun _ => checkCtx c >>= fun _ => runAction P a)
      (fun _ m' => LeftFor P c t m m') (fun _ m' => Inv P.toChart (incCtx noL c) none m') m := by
  have hLc : ∀ p, P.parent t = some p → incCtx noL c p ≠ 0 := by
    intro p hp; rw [htp] at hp; subst hp; simp [incCtx]
  have hex : wp (terminateInTransit P t) (fun _ m' => LeftFor P c t m m') (fun _ m' => Inv P.toChart (incCtx noL c) none m') m := by
    refine wp_terminateInTransit (Q := fun m' => LeftFor P c t m m') ?_
    refine wp_mono (exitSubtree_wp hwf m.fullExit h ht hLt hLc hou) ?_ (fun _ _ h => h.inv)
    rintro _ m2 ⟨h2, hou2⟩
    refine ⟨h2.inv.setFlags true m2.fullExit m2.trig, rfl, by show m2.pOU = c; rw [hou2, htp], ?_⟩
    intro x hx
    have hx : m2.act x = true := hx
    rw [h2.act] at hx
    change without m.act (exitOrder P.toChart m.act t) x = true at hx
    simp only [without, Bool.and_eq_true, Bool.not_eq_true', List.contains_eq_mem, decide_eq_false_iff_not, h.mem_exitOrder hwf ht] at hx
    exact ⟨hx.1, fun hb => hx.2 ⟨hx.1, hb⟩⟩
  constructor
  · refine sim_bind (whole_sim hwf hpl h ht hLt hLc (lockOf_incCtx c)) fun _ m1 hm1 => ?_
    have h1 := wp_okAt hex hm1
    refine sim_skip (sim_checkCtx c) fun _ m2 hm2 => ?_
    have : m2 = m1 := checkCtx_same hm2
    subst this
    exact sim_runAction hpl h1.inv.filled a
  · simp only [wp_bind]
    refine wp_mono hex ?_ (fun _ _ h => h)
    intro _ m1 h1
    refine wp_checkCtx (fun p hp => h1.inv.L_live (by rw [hp]; simp [incCtx])) ?_
    refine wp_runAction h1.inv a ?_ (fun _ _ _ h _ => h)
    intro m2 hu h2
    exact ⟨h2, by rw [hu.core.ico]; exact h1.ico, by rw [hu.core.pOU]; exact h1.pOU, fun x hx => h1.act x (by rw [← hu.core.act]; exact hx)⟩

/-- Leaving the states and calling the action, with relaxed transition context. -/
theorem relaxedExit_sim (hwf : P.toChart.WF) (hpl : Plain P) {s t : Sid} {c : Option Sid} {a : Option Nat} (hrel : P.relaxed = true)
    (h : Inv P.toChart (incCtx noL c) none m) (hs : (m.heap s).isSome) (hou : OUBelow P.toChart s m) (hc : c ∈ P.ctxList s)
    (hq : P.ctxOf a ∈ P.actionCtxs s) (htp : P.parent t = c) (htb : Below P.toChart t s) (hLt : ∀ x, Below P.toChart t x → incCtx noL c x = 0) :
    Sim id (relaxedExit P s t c (P.ctxOf a) a) (Ref.leaveAndAct P s t c a) m := by
  have hsn := h.live_bound hs
  have htl := h.live_of_below htb hs
  have htn := h.live_bound htl
  have hLc : ∀ p, P.parent t = some p → incCtx noL c p ≠ 0 := by
    intro p hp; rw [htp] at hp; subst hp; simp [incCtx]
  unfold relaxedExit Ref.leaveAndAct
  simp only [hrel, if_true]
  by_cases h1 : (P.actionCtxs s).idxOf (P.ctxOf a) = 0 ∧ P.isLeaf s = true
  · rw [if_pos h1, if_pos h1]
    refine sim_skip (sim_checkCtx _) fun _ m1 hm1 => ?_
    have : m1 = m := checkCtx_same hm1
    subst this
    refine sim_bind (sim_runAction hpl h.filled a) fun _ m2 hm2 => ?_
    obtain ⟨hu, h2⟩ := wp_okAt (wp_runAction (Q := fun _ m' => UserStep m1 m' (acts a) ∧ Inv P.toChart (incCtx noL c) none m') (E := fun _ _ => True)
      h a (fun _ a b => ⟨a, b⟩) (fun _ _ _ _ _ => trivial)) hm2
    exact whole_sim hwf hpl h2 (by rw [hu.core.heap]; exact htl) hLt hLc (lockOf_incCtx c)
  · rw [if_neg h1, if_neg h1]
    by_cases h2 : (P.ctxList s).idxOf c + 1 ≤ (P.actionCtxs s).idxOf (P.ctxOf a)
    · rw [if_pos h2, if_pos h2]
      have hreal : (P.actionCtxs s).getD (min ((P.actionCtxs s).idxOf (P.ctxOf a)) ((P.ctxList s).idxOf c + 1)) none = c := by
        rw [Nat.min_eq_right h2]
        unfold Chart.actionCtxs
        have hlt := List.idxOf_lt_length_of_mem hc
        rw [List.getD_eq_getElem?_getD, List.getElem?_cons_succ, List.getElem?_eq_getElem hlt, Option.getD_some]
        exact List.getElem_idxOf hlt
      rw [hreal]
      exact (defaultExit_sim hwf hpl h htl htp (hou.up htb) hLt).1
    · rw [if_neg h2, if_neg h2]
      have h2' : (P.actionCtxs s).idxOf (P.ctxOf a) ≤ (P.ctxList s).idxOf c := by omega
      rw [Nat.min_eq_left (by omega)]
      obtain ⟨r, t', hr1, hr2, hr3, hr4⟩ := ctx_inside hwf s hsn hc _ h2'
      have htt : t' = t := (hr4.trans hr2).sibling hwf hsn htb (by rw [hr3, htp])
      subst htt
      have hql := List.idxOf_lt_length_of_mem hq
      have hqr : P.ctxOf a = some r := by
        rw [List.getElem?_eq_getElem hql, List.getElem_idxOf hql] at hr1
        exact Option.some.inj hr1
      have hreal : (P.actionCtxs s).getD ((P.actionCtxs s).idxOf (P.ctxOf a)) none = some r := by
        rw [List.getD_eq_getElem?_getD, hr1]; rfl
      rw [hreal, hqr]
      simp only
      have hrl := h.live_of_below hr2 hs
      have hrn := h.live_bound hrl
      have hnl : P.isLeaf r = false := by
        rcases hr2.child with hrs | ⟨x, hx1, hx2⟩
        · cases hl : P.isLeaf r with
          | false => rfl
          | true => exact absurd ⟨by rw [hqr]; simp [Chart.actionCtxs, hrs], by rw [← hl, hrs]⟩ h1
        · exact parent_not_leaf hwf (hx2.bound hwf hsn) hx1
      obtain ⟨o, ho⟩ := Option.isSome_iff_exists.1 hrl
      have horph : (∀ x, m.act x = true → P.parent x ≠ some r) → m.pOU = some r := by
        intro hno
        have hz : nch (P.regions (some r)) o.inner = 0 := by
          rw [nch_zero_iff]
          intro i _
          cases hoi : o.inner i with
          | none => rfl
          | some c' =>
            obtain ⟨g1, g2, _⟩ := (h.inner_iff ho).1 hoi
            exact absurd g2 (hno c' g1)
        rcases h.noOrphan ho hnl hz with h' | h'
        · exact h'
        · exact absurd (hLt r hr4) h'
      refine sim_skip (sim_addRef r) fun _ m0 hm0 => ?_
      have h0 := h.addRef ho
      have hm0e : m0 = { m with heap := upd m.heap r (some { o with rc := o.rc + 1 }) } := by
        have : addRef r m = .ok () { m with heap := upd m.heap r (some { o with rc := o.rc + 1 }) } := by
          simp only [addRef, bind, M.bnd, getObj, ho, setObj, M.modify]
        rw [this] at hm0; cases hm0; rfl
      rw [← hm0e] at h0
      have ha0 : m0.act = m.act := by
        subst hm0e
        funext x; simp only [Mach.act, upd]; split
        · next hx => subst hx; simp [ho]
        · rfl
      have hou0 : m0.pOU = m.pOU := by subst hm0e; rfl
      clear hm0e hm0
      have hlive : ∀ {x}, (m.heap x).isSome → (m0.heap x).isSome := by
        intro x hx
        have : m0.act x = true := by rw [ha0]; exact hx
        exact this
      have hirr : ¬ Outer P.toChart r r := Outer.irrefl hwf hrn
      have hL0 : ∀ x, Outer P.toChart r x → inc (incCtx noL c) r x = 0 := fun x hx => by
        rw [inc_other _ (by intro h'; subst h'; exact hirr hx)]; exact hLt x (hr4.trans hx.below)
      have hor0 : (∀ x, m0.act x = true → P.parent x ≠ some r) → m0.pOU = some r := by rw [ha0, hou0]; exact horph
      have hkeep : (fun x => c == some x || x == r : Sid → Bool) = lockOf (inc (incCtx noL c) r) := by
        funext x
        rw [show (c == some x) = lockOf (incCtx noL c) x from congrFun (lockOf_incCtx c) x]
        by_cases hx : x = r
        · subst hx; simp [lockOf]
        · simp [lockOf, inc_other _ hx, hx]
      -- the part before the action and the action
      have hex : wp (terminateInTransit P r >>= fun _ => checkCtx (some r) >>= fun _ => runAction P a)
          (fun _ m' => Inv P.toChart (inc (incCtx noL c) r) none m' ∧ m'.pOU = some r)
          (fun _ m' => Inv P.toChart (inc (incCtx noL c) r) none m') m0 := by
        simp only [wp_bind]
        refine wp_terminateInTransit ?_
        refine wp_mono (terminateLocked_wp hwf m0.fullExit h0 (hlive hrl) hL0 (by simp) hnl hor0
          (by intro u hu; rw [hou0] at hu; exact hr2.trans (hou u hu))) ?_ (fun _ _ h => h.inv)
        rintro _ m2 ⟨h2, hou2⟩
        have hi2 := h2.inv.setFlags true m2.fullExit m2.trig
        refine wp_checkCtx (fun p hp => by cases hp; exact hi2.L_live (by simp)) ?_
        exact wp_runAction hi2 a (fun m3 hu h3 => ⟨h3, by rw [hu.core.pOU]; exact hou2⟩) (fun _ _ _ h _ => h)
      have hexS : Sim id (terminateInTransit P r >>= fun _ => checkCtx (some r) >>= fun _ => runAction P a)
          (Ref.leaveFor P (fun x => c == some x || x == r) (fun a => (exitOrder P.toChart a r).dropLast) >>= fun _ => Ref.action P a) m0 := by
        refine sim_bind (inside_sim hwf hpl h0 (hlive hrl) hL0 (by simp) hnl hor0 hkeep) fun _ m2 hm2 => ?_
        have hi2 : Inv P.toChart (inc (incCtx noL c) r) none m2 := by
          refine wp_okAt (Q := fun _ m' => Inv P.toChart (inc (incCtx noL c) r) none m') (E := fun _ _ => True) ?_ hm2
          refine wp_terminateInTransit (Q := fun m' => Inv P.toChart (inc (incCtx noL c) r) none m') ?_
          refine wp_mono (terminateLocked_wp hwf m0.fullExit h0 (hlive hrl) hL0 (by simp) hnl hor0
            (by intro u hu; rw [hou0] at hu; exact hr2.trans (hou u hu))) ?_ (fun _ _ _ => trivial)
          rintro _ m3 ⟨h3, _⟩
          exact h3.inv.setFlags true m3.fullExit m3.trig
        refine sim_skip (sim_checkCtx _) fun _ m3 hm3 => ?_
        have : m3 = m2 := checkCtx_same hm3
        subst this
        exact sim_runAction hpl hi2.filled a
      have hrc : ∀ m3 : Mach W, Inv P.toChart (inc (incCtx noL c) r) none m3 → m3.pOU = some r → ∃ o3, m3.heap r = some o3 ∧ 2 ≤ o3.rc := by
        intro m3 h3 hou3
        obtain ⟨o3, ho3⟩ := Option.isSome_iff_exists.1 (h3.L_live (s := r) (by simp))
        have hrc := h3.rc ho3
        rw [if_pos hou3] at hrc
        simp only [inc_same] at hrc
        exact ⟨o3, ho3, by omega⟩
      have hfinS : Sim id (M.finally' (terminateInTransit P r >>= fun _ => checkCtx (some r) >>= fun _ => runAction P a) (release P r))
          (Ref.R.onThrow (Ref.leaveFor P (fun x => c == some x || x == r) (fun a => (exitOrder P.toChart a r).dropLast) >>= fun _ => Ref.action P a)
            (Ref.drop P (fun x => c == some x) P.n (some r))) m0 := by
        refine sim_finally hexS ?_ ?_ ?_
        · intro _ m3 hm3
          obtain ⟨h3, hou3⟩ := wp_okAt hex hm3
          obtain ⟨o3, ho3, g⟩ := hrc m3 h3 hou3
          exact release_silent ho3 g
        · intro _ m3 e m4 hm3 hm4
          obtain ⟨h3, hou3⟩ := wp_okAt hex hm3
          obtain ⟨o3, ho3, g⟩ := hrc m3 h3 hou3
          exact wp_thrownAt (release_keep (P := P) (Q := fun _ _ => True) (E := fun _ _ => False) ho3 g trivial) hm4
        · intro e m3 hm3
          have := release_sim hwf hpl (wp_thrownAt hex hm3) (s := r) (by simp) (.inl rfl)
          rw [dec_inc, ← lockOf_incCtx c] at this
          exact this
      refine sim_bind hfinS fun _ m4 hm4 => ?_
      have hfin : wp (M.finally' (terminateInTransit P r >>= fun _ => checkCtx (some r) >>= fun _ => runAction P a) (release P r))
          (fun _ m' => Inv P.toChart (incCtx noL c) none m' ∧ (m'.heap t').isSome) (fun _ _ => True) m0 := by
        rw [wp_finally]
        refine wp_mono hex ?_ ?_
        · rintro _ m3 ⟨h3, hou3⟩
          obtain ⟨o3, ho3, g⟩ := hrc m3 h3 hou3
          refine release_keep ho3 g ?_
          have h4 := h3.dropRef ho3 (by simp) g
          rw [dec_inc] at h4
          exact ⟨h4, h4.live_of_below hr4 (h4.ou_live hou3).1⟩
        · intro _ m3 h3
          exact wp_mono (release_wp hwf h3 (by simp) (.inl rfl)) (fun _ _ _ => trivial) (fun _ _ h => h.elim)
      obtain ⟨h4, htl4⟩ := wp_okAt hfin hm4
      exact whole_sim hwf hpl h4 htl4 hLt hLc (lockOf_incCtx c)

/-- A transition. -/
theorem transit_sim (hwf : P.toChart.WF) (hok : Contract P) (hpl : Plain P) {s : Sid} {d : Target} {a : Option Nat}
    (htr : P.transitOK s d a = true) (h : Inv P.toChart noL none m) (hs : (m.heap s).isSome) (hou : OUBelow P.toChart s m) :
    Sim id (transit P s d a) (Ref.transit P s d a) m := by
  obtain ⟨hsn, hdn, t, ht, hpos⟩ := transitOK_spec htr
  obtain ⟨t', ht', htp, htb⟩ := termState_spec hwf hsn hdn.bound
  rw [ht] at ht'; cases ht'
  obtain ⟨hcs, hcd, _⟩ := commonCtx_spec hwf hsn hdn.bound
  have htl := h.live_of_below htb hs
  have htn := h.live_bound htl
  have hgen : ∀ (c : Option Sid), P.commonCtx s d.st = c → ∀ (lock fin : M W Unit), (c = none → lock = pure ()) → (∀ p, c = some p → lock = addRef p) →
      (c = none → fin = pure ()) → (∀ p, c = some p → fin = release P p) →
      ∀ (x : M W Unit), (∀ m1, Inv P.toChart (incCtx noL c) none m1 → (m1.heap s).isSome → (m1.heap t).isSome → OUBelow P.toChart s m1 →
        Sim id x (Ref.leaveAndAct P s t c a) m1 ∧
        wp x (fun _ m' => LeftFor P c t m1 m') (fun _ m' => Inv P.toChart (incCtx noL c) none m') m1) →
      Sim id (getObj t >>= fun _ => lock >>= fun _ => M.finally' (x >>= fun _ => build P (buildFuel P) (.chain (P.pathBelow c d.st) d)) fin)
        (Ref.transit P s d a) m := by
    intro c hc lock fin hl0 hl1 hf0 hf1 x hx
    unfold Ref.transit
    rw [ht]
    simp only
    rw [hc] at htp hcs hcd hpos ⊢
    refine sim_getObj fun _ _ => ?_
    have hlock : Sim (fun _ => ()) lock (pure ()) m := by
      cases hcc : c with
      | none => rw [hl0 hcc]; rfl
      | some p => rw [hl1 p hcc]; exact sim_addRef p
    refine sim_skip hlock fun _ m1 hm1 => ?_
    have hm1' : Inv P.toChart (incCtx noL c) none m1 ∧ m1.act = m.act ∧ m1.pOU = m.pOU := by
      cases hcc : c with
      | none => rw [hl0 hcc] at hm1; cases hm1; exact ⟨h, rfl, rfl⟩
      | some p =>
        rw [hl1 p hcc] at hm1
        obtain ⟨op, hop⟩ := Option.isSome_iff_exists.1 (h.par_live htl (by rw [htp, hcc]))
        have : addRef p m = .ok () { m with heap := upd m.heap p (some { op with rc := op.rc + 1 }) } := by
          simp only [addRef, bind, M.bnd, getObj, hop, setObj, M.modify]
        rw [this] at hm1; cases hm1
        refine ⟨h.addRef hop, ?_, rfl⟩
        funext x
        simp only [Mach.act, upd]
        split
        · next hx => subst hx; simp [hop]
        · rfl
    obtain ⟨h1, ha1, hou1⟩ := hm1'
    have hlive : ∀ {x}, (m.heap x).isSome → (m1.heap x).isSome := by
      intro x hx
      have : m1.act x = true := by rw [ha1]; exact hx
      exact this
    obtain ⟨k1, k2⟩ := hx m1 h1 (hlive hs) (hlive htl) (by intro u hu; rw [hou1] at hu; exact hou u hu)
    exact transitTail_sim hwf hok hpl hdn hcd (hlive htl) htp hpos h1 k1 k2 hf0 hf1
  have hLt : ∀ x, Below P.toChart t x → incCtx noL (P.commonCtx s d.st) x = 0 := by
    intro x hx
    generalize P.commonCtx s d.st = c at htp
    cases c with
    | none => rfl
    | some p =>
      by_cases hxp : x = p
      · subst hxp
        exfalso
        have hxn := parent_bound hwf htn htp
        have := hx.le hwf hxn
        have := hwf.parent_lt htn htp
        omega
      · simp [incCtx, inc_other _ hxp]
  unfold transit
  by_cases hr : P.relaxed = true
  · rw [if_pos hr]
    have hq : P.ctxOf a ∈ P.actionCtxs s := ctxOf_eq (C := P.toChart) a ▸ transitOK_ctx htr hr
    unfold transitRelaxed
    rw [ht]
    refine hgen (P.commonCtx s d.st) rfl _ _ ?_ ?_ ?_ ?_ (relaxedExit P s t (P.commonCtx s d.st) (P.ctxOf a) a) ?_
    · intro hc; rw [hc]
    · intro p hc; rw [hc]
    · intro hc; rw [hc]
    · intro p hc; rw [hc]
    · intro m1 h1 hs1 ht1 hou1
      refine ⟨relaxedExit_sim hwf hpl hr h1 hs1 hou1 hcs hq htp htb hLt, ?_⟩
      refine wp_mono (relaxedExit_wp (F := fun _ _ => True) hwf anyUserMem h1 hs1 hou1 hcs hq htp htb hLt ?_) ?_ (fun _ _ h => h.inv)
      · intro p hp; rw [hp]; simp [incCtx]
      · rintro _ m2 ⟨l1, l2, h2⟩
        exact ⟨h2.inv, h2.ico, by rw [h2.pOU, htp], fun x hx => (h2.act x).1 hx⟩
  · rw [if_neg hr]
    unfold transitDefault
    rw [ht]
    have hr' : P.relaxed = false := by simpa using hr
    have hk := hgen (P.commonCtx s d.st) rfl (match P.commonCtx s d.st with | none => pure () | some p => addRef p)
      (match P.commonCtx s d.st with | none => pure () | some p => release P p) ?_ ?_ ?_ ?_
      (terminateInTransit P t >>= fun _ => checkCtx (P.commonCtx s d.st) >>= fun _ => runAction P a) ?_
    · unfold terminateInTransit at hk
      simp only [M_assoc] at hk
      exact hk
    · intro hc; rw [hc]
    · intro p hc; rw [hc]
    · intro hc; rw [hc]
    · intro p hc; rw [hc]
    · intro m1 h1 hs1 ht1 hou1
      have := defaultExit_sim (a := a) hwf hpl h1 ht1 htp (hou1.up htb) hLt
      refine ⟨this.1.congr ?_, this.2⟩
      unfold Ref.leaveAndAct
      rw [hr']
      rfl

end SC
