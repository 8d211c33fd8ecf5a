import Verif.Build
import Verif.Pres
/-!
# What exits store in the history maps
-/

namespace SC
open Spec Chart
variable {W : Type} {P : Prog W} {m : Mach W} {F : Memory → Memory → Prop}

/-- `F` bounds what user code does to the histories. -/
structure UserMem (P : Prog W) (F : Memory → Memory → Prop) : Prop where
  pre : PreOrd F
  ctor : ∀ s v w (m : Mach W), F m.mem ((P.ctor s v w).cmds.foldl Mach.cmd m).mem
  exit : ∀ s v w (m : Mach W), F m.mem ((P.exit s v w).cmds.foldl Mach.cmd m).mem
  dtor : ∀ s v w (m : Mach W), F m.mem ((P.dtor s v w).2.foldl Mach.cmd m).mem
  action : ∀ s v w (m : Mach W), F m.mem ((P.action s v w).cmds.foldl Mach.cmd m).mem
  react : ∀ s r e v w (m : Mach W), F m.mem ((P.react s r e v w).1.cmds.foldl Mach.cmd m).mem
  unconsumed : ∀ e v w (m : Mach W), F m.mem ((P.unconsumed e v w).cmds.foldl Mach.cmd m).mem

theorem cmds_forget (cmds : List Cmd) (m : Mach W) : Forget m.mem (cmds.foldl Mach.cmd m).mem := by
  induction cmds generalizing m with
  | nil => exact Forget.preord.refl _
  | cons c cs ih =>
    refine Forget.preord.trans ?_ (ih (m.cmd c))
    cases c with
    | post e => exact Forget.preord.refl _
    | clearShallow k =>
      refine ⟨[.clearShallow k], by simp [HOp.isClear], ?_⟩
      simp only [List.foldl_cons, List.foldl_nil, Memory.clear1, Mach.mem, Mach.cmd, upd, Memory.mk.injEq, and_true]
      funext p i
      by_cases h : (p, i) = k
      · simp [h]
      · simp [h]
    | clearDeep k =>
      refine ⟨[.clearDeep k], by simp [HOp.isClear], ?_⟩
      simp only [List.foldl_cons, List.foldl_nil, Memory.clear1, Mach.mem, Mach.cmd, upd, Memory.mk.injEq, and_true, true_and]
      funext p i
      by_cases h : (p, i) = k
      · simp [h]
      · simp [h]

/-- User code can only clear history. -/
theorem userMem_forget (P : Prog W) : UserMem P Forget :=
  ⟨Forget.preord, fun _ _ _ _ => cmds_forget _ _, fun _ _ _ _ => cmds_forget _ _, fun _ _ _ _ => cmds_forget _ _,
    fun _ _ _ _ => cmds_forget _ _, fun _ _ _ _ _ _ => cmds_forget _ _, fun _ _ _ _ => cmds_forget _ _⟩

/-- The relation kept: completed exits are remembered. -/
def memK (C : Chart) {F : Memory → Memory → Prop} (hF : PreOrd F) : KRel W where
  R m m' := ∃ obs, m'.trace = m.trace ++ obs ∧ MemRun C F m.mem (obs.map (·.2)) m'.mem
  E _ _ _ := True
  refl m := ⟨[], by simp, .nil (hF.refl _)⟩
  trans := by
    rintro a b c ⟨o1, h1, h2⟩ ⟨o2, h3, h4⟩
    exact ⟨o1 ++ o2, by rw [h3, h1, List.append_assoc], by rw [List.map_append]; exact h2.append hF h4⟩
  re _ _ := trivial
  er _ _ := trivial

theorem hops_nil {o : Obs} (h : ∀ s, o ≠ .exit s) : o.hops = [] := by
  cases o <;> first | rfl | exact absurd rfl (h _)

theorem mem_logs (os : List Obs) (m : Mach W) (ho : ∀ o ∈ os, o.hops = []) : (os.foldl Mach.log m).mem = m.mem := by
  induction os generalizing m with
  | nil => rfl
  | cons o os ih =>
    rw [List.foldl_cons, ih _ fun o h => ho o (by simp [h]), mem_log _ _ (ho o (by simp))]

theorem wp_runUser_mem {f : View → W → UOut W} {a b : List Obs} {Q : Unit → Mach W → Prop} {E : Exc → Mach W → Prop}
    (hm : ∀ v w (m : Mach W), F m.mem ((f v w).cmds.foldl Mach.cmd m).mem) (ha : ∀ o ∈ a, o.hops = []) (hb : ∀ o ∈ b, o.hops = [])
    (h1 : ∀ m', UserStep m m' a → F m.mem m'.mem → Q () m') (h2 : ∀ x m', UserStep m m' b → F m.mem m'.mem → E x m') :
    wp (runUser f a b) Q E m := by
  unfold wp runUser
  have hs := world_step m (f m.view m.world).world (f m.view m.world).cmds
  have h3 := hm m.view m.world { m with world := (f m.view m.world).world }
  cases hx : (f m.view m.world).throws with
  | none => simpa [hx] using h1 _ (hs.logs a) (by rw [mem_logs _ _ ha]; exact h3)
  | some x => simpa [hx] using h2 x _ ((hs.logs b).raise x) (by show F _ (List.foldl Mach.log _ b).mem; rw [mem_logs _ _ hb]; exact h3)

theorem trace_logs (os : List Obs) (m : Mach W) : (os.foldl Mach.log m).trace = m.trace ++ os.map (fun o => (m.trig, o)) := by
  induction os generalizing m with
  | nil => simp
  | cons o os ih =>
    simp only [List.foldl_cons]
    rw [ih]; simp [Mach.log]

theorem trace_cmds (cmds : List Cmd) (m : Mach W) : (cmds.foldl Mach.cmd m).trace = m.trace := by
  have := (cmds_step cmds m).trace; simpa using this

theorem keeps_runUser_mem {C : Chart} (hF : PreOrd F) {f : View → W → UOut W} {a b : List Obs}
    (hm : ∀ v w (m : Mach W), F m.mem ((f v w).cmds.foldl Mach.cmd m).mem) (ha : ∀ o ∈ a, ∀ s, o ≠ .exit s) :
    Keeps (memK C hF) (runUser f a b) := by
  intro m
  unfold KeepsAt runUser
  cases hx : (f m.view m.world).throws with
  | some x => simp only [hx]; trivial
  | none =>
    simp only [hx]
    refine ⟨a.map (fun o => (m.trig, o)), ?_, ?_⟩
    · rw [trace_logs, trace_cmds, (cmds_step _ _).core.trig]
    · rw [mem_logs _ _ (fun o ho => hops_nil (ha o ho)), List.map_map]
      have h0 := hm m.view m.world { m with world := (f m.view m.world).world }
      have : ∀ (l : List Obs), (∀ o ∈ l, ∀ s, o ≠ .exit s) → ∀ h h', F h h' → MemRun C F h l h' := by
        intro l
        induction l with
        | nil => intro _ h h' hh; exact .nil hh
        | cons o os ih => intro hl h h' hh; exact .other (hl o (by simp)) (ih (fun o ho => hl o (by simp [ho])) h h' hh)
      have h1 := this a ha _ _ h0
      have h2 : a.map ((fun x : Option Event × Obs => x.2) ∘ fun o => (m.trig, o)) = a := by
        rw [show ((fun x : Option Event × Obs => x.2) ∘ fun o => (m.trig, o)) = id from rfl, List.map_id]
      rw [h2]; exact h1

theorem storeDeepF_trace : ∀ (f : Nat) (cur leaf : Sid) (m m' : Mach W),
    storeDeepF P f cur leaf m = .ok () m' → m'.trace = m.trace ∧ m'.hlog = m.hlog := by
  intro f
  induction f with
  | zero => intro cur leaf m m' h; cases h
  | succ f ih =>
    intro cur leaf m m' h
    rw [storeDeepF] at h
    cases hp : P.parent cur with
    | none => rw [hp] at h; cases h; exact ⟨rfl, rfl⟩
    | some p0 =>
      rw [hp] at h
      simp only at h
      by_cases hd : P.inhDeep p0 = true
      · rw [if_pos hd] at h
        change M.bnd (getObj p0) _ m = _ at h
        unfold M.bnd getObj at h
        cases hg : m.heap p0 with
        | none => rw [hg] at h; cases h
        | some o =>
          rw [hg] at h
          simp only at h
          by_cases hdp : P.deepH p0 = true
          · rw [if_pos hdp] at h
            change M.bnd (M.bnd (histNode P _ _ _ _) _) _ m = _ at h
            unfold M.bnd at h
            rcases (histNode_cases P (fun m => m.dhKeys (p0, P.pos cur)) (.deepNode (p0, P.pos cur)) leaf (some p0) m).symm with ⟨x, _, _, ha⟩ | ⟨w, ha⟩
            · rw [ha] at h; cases h
            · rw [ha] at h
              simp only [M.modify] at h
              have := ih p0 leaf _ m' h
              exact ⟨this.1, this.2⟩
          · rw [if_neg hdp] at h
            exact ih p0 leaf m m' h
      · rw [if_neg hd] at h
        cases h; exact ⟨rfl, rfl⟩

/-- Effect of storing deep history, starting at `cur`. -/
theorem storeDeepF_mem (hwf : P.toChart.WF) : ∀ (f : Nat) (cur leaf : Sid) (m m' : Mach W), cur < P.n →
    storeDeepF P f cur leaf m = .ok () m' →
    m'.trace = m.trace ∧ m'.sh = m.sh ∧
    (∀ p c, P.deepH p = true → P.parent c = some p → Below P.toChart c cur → m'.mem.dh p (P.pos c) = some leaf) ∧
    (∀ p i, ¬ (P.deepH p = true ∧ ∃ c, P.parent c = some p ∧ Below P.toChart c cur ∧ P.pos c = i) →
      m'.mem.dh p i = m.mem.dh p i) := by
  intro f
  induction f with
  | zero => intro cur leaf m m' _ h; cases h
  | succ f ih =>
    intro cur leaf m m' hcur h
    rw [storeDeepF] at h
    cases hp : P.parent cur with
    | none =>
      rw [hp] at h
      cases h
      refine ⟨rfl, rfl, ?_, fun _ _ _ => rfl⟩
      intro p c _ h2 h3
      have : c = cur := by
        cases h3 with
        | refl => rfl
        | step h4 _ => rw [hp] at h4; cases h4
      subst this; rw [hp] at h2; cases h2
    | some p0 =>
      rw [hp] at h
      have hp0 := parent_bound hwf hcur hp
      have hlt := hwf.parent_lt hcur hp
      simp only at h
      by_cases hd : P.inhDeep p0 = true
      · rw [if_pos hd] at h
        change M.bnd (getObj p0) _ m = _ at h
        unfold M.bnd getObj at h
        cases hg : m.heap p0 with
        | none => rw [hg] at h; cases h
        | some o =>
          rw [hg] at h
          simp only at h
          by_cases hdp : P.deepH p0 = true
          · rw [if_pos hdp] at h
            change M.bnd (M.bnd (histNode P _ _ _ _) _) _ m = _ at h
            unfold M.bnd at h
            rcases (histNode_cases P (fun m => m.dhKeys (p0, P.pos cur)) (.deepNode (p0, P.pos cur)) leaf (some p0) m).symm with ⟨x, _, _, ha⟩ | ⟨w, ha⟩
            · rw [ha] at h; cases h
            · rw [ha] at h
              simp only [M.modify] at h
              obtain ⟨h1, h2, h3, h4⟩ := ih p0 leaf _ m' hp0 h
              refine ⟨h1, h2, ?_, ?_⟩
              · intro p c g1 g2 g3
                cases g3 with
                | refl =>
                  rw [hp] at g2; cases g2
                  rw [h4]
                  · simp [Mach.mem, upd]
                  · rintro ⟨_, c', k1, k2, _⟩
                    have h5 := k2.le hwf hp0
                    have h6 := hwf.parent_lt (k2.bound hwf hp0) k1
                    omega
                | step k1 k2 =>
                  rw [hp] at k1; cases k1
                  exact h3 p c g1 g2 k2
              · intro p i hn
                rw [h4]
                · have : (p, i) ≠ (p0, P.pos cur) := by
                    intro he; cases he
                    exact hn ⟨hdp, cur, hp, .refl, rfl⟩
                  simp only [Mach.mem, upd, if_neg this]
                · rintro ⟨g1, c, g2, g3, g4⟩
                  exact hn ⟨g1, c, g2, .step hp g3, g4⟩
          · rw [if_neg hdp] at h
            change M.bnd (pure ()) _ m = _ at h
            unfold M.bnd at h
            change storeDeepF P f p0 leaf m = _ at h
            obtain ⟨h1, h2, h3, h4⟩ := ih p0 leaf _ m' hp0 h
            refine ⟨h1, h2, ?_, ?_⟩
            · intro p c g1 g2 g3
              cases g3 with
              | refl => rw [hp] at g2; cases g2; exact absurd g1 hdp
              | step k1 k2 =>
                rw [hp] at k1; cases k1
                exact h3 p c g1 g2 k2
            · intro p i hn
              rw [h4]
              rintro ⟨g1, c, g2, g3, g4⟩
              exact hn ⟨g1, c, g2, .step hp g3, g4⟩
      · rw [if_neg hd] at h
        cases h
        have hno : ∀ p, Below P.toChart p p0 → P.deepH p = false := by
          intro p hb
          cases hpp : P.deepH p with
          | false => rfl
          | true =>
            exfalso; apply hd
            unfold Chart.inhDeep
            rw [List.any_eq_true]
            refine ⟨p, ?_, hpp⟩
            rcases hb.eq_or_outer with rfl | ho
            · simp
            · exact List.mem_cons_of_mem _ ((mem_ancestors hwf hp0).2 ho)
        refine ⟨rfl, rfl, ?_, fun _ _ _ => rfl⟩
        intro p c g1 g2 g3
        have : Below P.toChart p p0 := by
          cases g3 with
          | refl => rw [hp] at g2; cases g2; exact .refl
          | step k1 k2 =>
            rw [hp] at k1; cases k1
            exact Below.trans (.step g2 .refl) k2
        rw [hno p this] at g1; cases g1

/-- The machine when `exit()` of `s` has returned and its side effects are applied. -/
def Mach.exiting (P : Prog W) (s : Sid) (m : Mach W) : Mach W :=
  (P.exit s m.view m.world).cmds.foldl Mach.cmd { m with world := (P.exit s m.view m.world).world }

/-- The machine after a call of `exit()` of `s` that returned, before history is stored. -/
def Mach.exited (P : Prog W) (s : Sid) (m : Mach W) : Mach W :=
  ((P.exit s m.view m.world).cmds.foldl Mach.cmd { m with world := (P.exit s m.view m.world).world }).log (.exit s)

theorem storeShallow_ok {s : Sid} {m1 m2 : Mach W} (hs : storeShallow P s m1 = .ok () m2) :
    m2.trace = m1.trace ∧ m2.hlog = m1.hlog ∧ m2.dh = m1.dh ∧
    ∀ p i, m2.mem.sh p i = if P.parent s = some p ∧ P.shallowH p = true ∧ P.pos s = i then some s else m1.mem.sh p i := by
  unfold storeShallow at hs
  unfold Chart.storesShallow at hs
  cases hp : P.parent s with
  | none =>
    rw [hp] at hs
    cases hs
    refine ⟨rfl, rfl, rfl, ?_⟩
    intro p i; simp
  | some p0 =>
    rw [hp] at hs
    simp only at hs
    by_cases h0 : P.shallowH p0 = true
    · rw [if_pos h0] at hs
      change M.bnd (histNode P _ _ _ _) _ m1 = _ at hs
      unfold M.bnd at hs
      rcases (histNode_cases P (fun m => m.shKeys (p0, P.pos s)) (.shallowNode (p0, P.pos s)) s none m1).symm with ⟨x, _, _, ha⟩ | ⟨w, ha⟩
      · rw [ha] at hs; cases hs
      · rw [ha] at hs
        cases hs
        refine ⟨rfl, rfl, rfl, ?_⟩
        intro p i
        simp only [Mach.mem, upd]
        by_cases hpi : (p, i) = (p0, P.pos s)
        · cases hpi; simp [h0]
        · rw [if_neg hpi, if_neg]
          rintro ⟨g1, _, g3⟩
          cases g1; cases g3; exact hpi rfl
    · rw [if_neg h0] at hs
      cases hs
      refine ⟨rfl, rfl, rfl, ?_⟩
      intro p i
      rw [if_neg]
      rintro ⟨g1, g2, _⟩
      cases g1; exact h0 g2

/-- A completed full exit: `exit()` returned and history was stored. -/
theorem fullExit_ok (hwf : P.toChart.WF) {s : Sid} {m m' : Mach W} (hx : fullExitPart P s m = .ok () m') :
    (P.exit s m.view m.world).throws = none ∧ m'.trace = (m.exited P s).trace ∧ m'.hlog = (m.exited P s).hlog ∧
    (s < P.n → Stored P.toChart s (m.exiting P s).mem m'.mem) := by
  unfold fullExitPart at hx
  change M.bnd (runUser _ _ _) _ m = _ at hx
  unfold M.bnd runUser at hx
  cases ht : (P.exit s m.view m.world).throws with
  | some x => simp only [ht] at hx; cases hx
  | none =>
    simp only [ht] at hx
    refine ⟨rfl, ?_⟩
    generalize hm1 : m.exited P s = m1
    have : List.foldl Mach.log (List.foldl Mach.cmd { m with world := (P.exit s m.view m.world).world }
        (P.exit s m.view m.world).cmds) [Obs.exit s] = m1 := hm1
    rw [this] at hx
    change M.bnd (storeShallow P s) _ m1 = _ at hx
    unfold M.bnd at hx
    cases hs : storeShallow P s m1 with
    | fault g => rw [hs] at hx; cases hx
    | thrown e m2 => rw [hs] at hx; cases hx
    | ok u m2 =>
      rw [hs] at hx
      simp only at hx
      obtain ⟨hst, hsl, hsd, hsm⟩ := storeShallow_ok hs
      have hdm : m2.mem.dh = m1.mem.dh := by unfold Mach.mem; simp only [hsd]
      unfold storeDeep at hx
      have key : (m'.trace = m2.trace ∧ m'.hlog = m2.hlog) ∧ (s < P.n → m'.sh = m2.sh ∧
          (∀ p c, P.isLeaf s = true → P.deepH p = true → P.parent c = some p → Below P.toChart c s → m'.mem.dh p (P.pos c) = some s) ∧
          (∀ p i, ¬ (P.isLeaf s = true ∧ P.deepH p = true ∧ ∃ c, P.parent c = some p ∧ Below P.toChart c s ∧ P.pos c = i) →
            m'.mem.dh p i = m2.mem.dh p i)) := by
        by_cases hd : P.storesDeep s = true
        · rw [if_pos hd] at hx
          have hl : P.isLeaf s = true := by
            unfold Chart.storesDeep at hd; simp at hd; exact hd.2
          refine ⟨storeDeepF_trace _ _ _ _ _ hx, ?_⟩
          intro hsn
          obtain ⟨_, h2, h3, h4⟩ := storeDeepF_mem hwf _ _ _ _ _ hsn hx
          refine ⟨h2, fun p c _ => h3 p c, ?_⟩
          intro p i hn
          apply h4
          rintro ⟨g1, g2⟩
          exact hn ⟨hl, g1, g2⟩
        · rw [if_neg hd] at hx
          cases hx
          refine ⟨⟨rfl, rfl⟩, fun hsn => ⟨rfl, ?_, fun _ _ _ => rfl⟩⟩
          intro p c hl g1 g2 g3
          exfalso; apply hd
          unfold Chart.storesDeep
          rw [Bool.and_eq_true]
          refine ⟨?_, hl⟩
          unfold Chart.inhDeep
          rw [List.any_eq_true]
          refine ⟨p, List.mem_cons_of_mem _ ((mem_ancestors hwf hsn).2 ?_), g1⟩
          cases g3 with
          | refl => exact ⟨p, g2, .refl⟩
          | step k1 k2 => exact ⟨_, k1, Below.trans (.step g2 .refl) k2⟩
      obtain ⟨⟨hdt, hdl⟩, hdd⟩ := key
      refine ⟨by rw [hdt, hst], by rw [hdl, hsl], ?_⟩
      intro hsn
      obtain ⟨k1, k2, k3⟩ := hdd hsn
      have hsh1 : (m.exiting P s).mem.sh = m1.mem.sh := by rw [← hm1]; rfl
      have hdh1 : (m.exiting P s).mem.dh = m1.mem.dh := by rw [← hm1]; rfl
      refine ⟨?_, k2, ?_, ?_⟩
      · intro p i
        rw [hsh1]
        have : m'.mem.sh = m2.mem.sh := by unfold Mach.mem; simp only [k1]
        rw [this, hsm]
      · intro p i hn
        rw [k3 p i hn, hdm, hdh1]
      · show m'.hlog = _
        rw [hdl, hsl, ← hm1]; rfl

theorem exited_trace (s : Sid) (m : Mach W) : (m.exited P s).trace = m.trace ++ [(m.trig, .exit s)] := by
  unfold Mach.exited Mach.log
  simp only [trace_cmds, (cmds_step _ _).core.trig]

theorem keeps_fullExit_mem (hwf : P.toChart.WF) (hF : UserMem P F) (s : Sid) :
    Keeps (memK P.toChart hF.pre) (fullExitPart P s) := by
  intro m
  unfold KeepsAt
  cases hx : fullExitPart P s m with
  | fault g => trivial
  | thrown e m' => trivial
  | ok u m' =>
    obtain ⟨_, h1, _, h2⟩ := fullExit_ok hwf hx
    refine ⟨[(m.trig, .exit s)], by rw [h1, exited_trace], ?_⟩
    exact .exit (hF.exit s m.view m.world { m with world := (P.exit s m.view m.world).world }) h2 (.nil (hF.pre.refl _))

theorem memPrims_core (hF : UserMem P F) : CorePrims (memK P.toChart hF.pre) P where
  raise _ _ := trivial
  core := by
    intro m m' h
    refine ⟨[], by simp [h.trace], ?_⟩
    have : m'.mem = m.mem := by unfold Mach.mem; rw [h.sh, h.dh, h.hlog]
    rw [this]; exact .nil (hF.pre.refl _)
  ctor s := by
    intro m
    have := keeps_runUser_mem (C := P.toChart) hF.pre (a := [.enter s]) (b := [.enterFail s]) (hF.ctor s) (by simp) m
    unfold KeepsAt runCtor
    by_cases hc : P.isSimple s = true ∧ (P.ctor s m.view m.world).cmds ≠ []
    · simp [hc]
    · rw [if_neg hc]; exact this
  dtor s := by
    intro m
    show (memK P.toChart hF.pre).R m _
    refine ⟨[(m.trig, .destroy s)], ?_, ?_⟩
    · show (Mach.log _ _).trace = _
      unfold Mach.log
      simp only [trace_cmds, (cmds_step _ _).core.trig]
    · show MemRun _ _ _ _ (Mach.log _ _).mem
      rw [mem_log _ _ rfl]
      exact .other (by simp) (.nil (hF.dtor s m.view m.world { m with world := (P.dtor s m.view m.world).1 }))
  action a := by
    cases a with
    | none => exact Keeps.pure _
    | some a => exact keeps_runUser_mem (C := P.toChart) hF.pre (hF.action a) (by simp)
  react s id e := keeps_runUser_mem (C := P.toChart) hF.pre (hF.react s id e) (by simp)
  relEv := by
    intro _ m
    exact ⟨[], by simp, .nil (hF.pre.refl _)⟩
  hold := by
    intro s m
    refine ⟨[(m.trig, .defer s)], rfl, ?_⟩
    show MemRun _ _ _ _ (Mach.log _ _).mem
    rw [mem_log _ _ rfl]
    exact .other (by simp) (.nil (hF.pre.refl _))

theorem memPrims (hF : UserMem P F) : RPrims (memK P.toChart hF.pre) P := (memPrims_core hF).rprims

end SC
