import Verif.Refine5
/-!
# The library and the reference machine: entering states with their inner states
-/

namespace SC
open Spec Chart
variable {W : Type} {P : Prog W} {L : Sid → Nat} {m : Mach W}

def Task.job : Task → Ref.Job
  | .deep s => .deep s
  | .target t => .target t
  | .chain cs t => .chain cs t
  | .inners l => .inners l

/-- `x` does what `X` does when the regions `poss` of `ctx` are to be filled. -/
def SimB (C : Chart) (L : Sid → Nat) (ctx : Option Sid) (poss : List Nat) (x : M W Unit) (X : Ref.R W Unit) : Prop :=
  ∀ m, BPre C L ctx poss m → m.ico = false → Sim id x X m

theorem anyMem : CtorMem P (fun _ _ => True) := fun _ _ _ _ => trivial

/-- After the first regions, the higher ones can be filled. -/
theorem BPost.next {C : Chart} (hwf : C.WF) {p : Sid} {a b : List Nat} {R : Memory → List Sid → Memory → Prop} {m1 : Mach W} {l : List Sid}
    (hm : BPre C L (some p) (a ++ b) m) (h1 : BPost C L (some p) a R m m1 l) (hab : ∀ i ∈ a, ∀ j ∈ b, i < j) : BPre C L (some p) b m1 := by
  refine ⟨h1.inv, hm.lock, ?_, fun h => by rw [h1.ico] at h; cases h⟩
  intro c hc hp hcb
  rcases (h1.act c).1 hc with hc' | hc'
  · exact hm.empty c hc' hp (List.mem_append_right _ hcb)
  · obtain ⟨c', g1, g2, g3⟩ := h1.region c hc'
    have := g3.sibling hwf (h1.inv.live_bound hc) .refl (by rw [g1, hp])
    subst this
    have := hab _ g2 _ hcb
    omega

theorem simB_seq {C : Chart} (hwf : C.WF) {p : Sid} {a b : List Nat} {R : Memory → List Sid → Memory → Prop}
    {T : Memory → List Sid → Sid → Prop} {x y : M W Unit} {X Y : Ref.R W Unit} (hx : BuildsI C L (some p) a R T x)
    (hX : SimB C L (some p) a x X) (hY : SimB C L (some p) b y Y) (hab : ∀ i ∈ a, ∀ j ∈ b, i < j) :
    SimB C L (some p) (a ++ b) (do x; y) (do X; Y) := by
  intro m hm hi
  have hm' : BPre C L (some p) a m := ⟨hm.inv, hm.lock, fun c h1 h2 h3 => hm.empty c h1 h2 (List.mem_append_left _ h3), hm.ico⟩
  refine sim_bind (hX m hm' hi) fun _ m1 hm1 => ?_
  obtain ⟨l, h1⟩ := wp_okAt (hx m hm' hi) hm1
  exact hY m1 (h1.next hwf hm hab) h1.ico

theorem drop_one {keep : Sid → Bool} {s : Sid} (hs : s < P.n) (hk : keep s = false) (hp : ∀ p, P.parent s = some p → keep p = true) :
    Ref.drop P keep P.n (some s) = Ref.dropOne (W := W) P s := by
  funext st
  cases hn : P.n with
  | zero => omega
  | succ k =>
    unfold Ref.drop Ref.dropOne
    have e1 : Ref.needed P keep st s = Ref.needed P Ref.nobody st s := by simp [Ref.needed, hk, Ref.nobody]
    rw [e1]
    split
    · rfl
    · cases hpar : P.parent s with
      | none => cases k <;> rfl
      | some p =>
        cases k with
        | zero => rfl
        | succ k => unfold Ref.drop; rw [if_pos]; simp [Ref.needed, hp p hpar]

/-- Entering one state and then filling its regions. -/
theorem enter_sim (hwf : P.toChart.WF) (hok : Contract P) (hpl : Plain P) {s : Sid} (hs : s < P.n) {poss : List Nat}
    {R : Memory → List Sid → Memory → Prop} {T : Memory → List Sid → Sid → Prop} {x : M W Unit} {X : Ref.R W Unit}
    (hx : (P.isLeaf s = true ∧ x = pure () ∧ X = pure ()) ∨
      ((0 < P.regions (some s) ∧ ∀ i, i < P.regions (some s) → i ∈ poss) ∧ BuildsI P.toChart (inc L s) (some s) poss R T x ∧
        SimB P.toChart (inc L s) (some s) poss x X))
    {m : Mach W} (hm : BPre P.toChart L (P.parent s) [P.pos s] m) :
    Sim id (do shallowConstruct P s; M.finally' x (release P s)) (do Ref.enter P s; Ref.R.onThrow X (Ref.dropOne P s)) m := by
  have hdead : m.heap s = none := by
    cases hh : m.heap s with
    | none => rfl
    | some o => exact absurd (List.mem_singleton.2 rfl) (hm.empty s (by simp [hh]) rfl)
  have hLs : L s = 0 := by
    by_cases h0 : L s = 0
    · exact h0
    · have := hm.inv.L_live h0; rw [hdead] at this; cases this
  have hns : P.parent s ≠ some s := fun hp => Nat.lt_irrefl _ (hwf.parent_lt hs hp)
  have hempty : ∀ c, (m.heap c).isSome → P.parent c = P.parent s → P.pos c ≠ P.pos s :=
    fun c h1 h2 h3 => hm.empty c h1 h2 (by rw [h3]; simp)
  refine sim_bind (shallowConstruct_sim hwf hok hpl hm.inv hs hempty hm.lock hm.ico) fun _ m1 hm1 => ?_
  have h1 := wp_okAt (shallowConstruct_wp (F := fun _ _ => True) hwf hok anyMem hm.inv hs hempty hm.lock hm.ico) hm1
  have hsil : ∀ (m2 : Mach W) (o : Obj), m2.heap s = some o → 2 ≤ o.rc → ∀ e m3, release P s m2 ≠ .thrown e m3 := by
    intro m2 o ho hrc e m3 hm3
    exact wp_thrownAt (release_keep (P := P) (Q := fun _ _ => True) (E := fun _ _ => False) ho hrc trivial) hm3
  rcases hx with ⟨hleaf, rfl, rfl⟩ | ⟨⟨hpos, hall⟩, hb, hX⟩
  · obtain ⟨o, ho, hsl⟩ := h1.leaf hleaf
    have hr := h1.inv.rc ho
    rw [if_pos hsl] at hr
    simp only [inc_same] at hr
    refine sim_finally (r := id) rfl ?_ ?_ ?_
    · intro _ m2 hm2; cases hm2; exact release_silent ho (by omega)
    · intro _ m2 e m3 hm2; cases hm2; exact hsil m1 o ho (by omega) e m3
    · intro e m2 hm2; cases hm2
  · have hpre : BPre P.toChart (inc L s) (some s) poss m1 := by
      refine ⟨h1.inv, ?_, ?_, fun h => by rw [h1.ico] at h; cases h⟩
      · intro p hp; cases hp; simp
      · intro c hc hp _
        have hcs : c ≠ s := fun h => hns (h ▸ hp)
        have : m1.act c = true := hc
        rw [h1.act] at this
        simp only [if_neg hcs] at this
        have := hm.inv.par_live this hp
        rw [hdead] at this; cases this
    have hrc : ∀ u m2, x m1 = .ok u m2 → ∃ o, m2.heap s = some o ∧ 2 ≤ o.rc := by
      intro u m2 hm2
      obtain ⟨l, h2⟩ := wp_okAt (hb m1 hpre h1.ico) hm2
      obtain ⟨o, ho⟩ := Option.isSome_iff_exists.1 (h2.inv.L_live (s := s) (by simp))
      refine ⟨o, ho, ?_⟩
      have hr := h2.inv.rc ho
      obtain ⟨c, g1, g2, _⟩ := h2.filled (P.regions (some s) - 1) (hall _ (by omega))
      have := nch_pos (Chart.pos_lt_some hwf (h2.inv.live_bound g1) g2) ((h2.inv.inner_iff ho).2 ⟨g1, g2, rfl⟩)
      simp only [inc_same] at hr
      omega
    refine sim_finally (hX m1 hpre h1.ico) ?_ ?_ ?_
    · intro u m2 hm2
      obtain ⟨o, ho, h2⟩ := hrc u m2 hm2
      exact release_silent ho h2
    · intro u m2 e m3 hm2
      obtain ⟨o, ho, h2⟩ := hrc u m2 hm2
      exact hsil m2 o ho h2 e m3
    · intro e m2 hm2
      obtain ⟨h2, _⟩ := wp_thrownAt (hb m1 hpre h1.ico) hm2
      have := release_sim hwf hpl h2.inv (s := s) (by simp) (.inl rfl)
      rw [dec_inc, drop_one hs (by simp [lockOf, hLs]) (fun p hp => by simp [lockOf, hm.lock p hp])] at this
      exact this

/-- The claim about a task. -/
def TaskSim (P : Prog W) (L : Sid → Nat) (ctx : Option Sid) (t : Task) (x : M W Unit) (X : Ref.R W Unit) : Prop :=
  ∀ m, BPre P.toChart L ctx (t.poss P.toChart) m → (∀ l, t = .inners l → m.ico = false) → Sim id x X m

theorem TaskSim.toB {ctx : Option Sid} {t : Task} {x : M W Unit} {X : Ref.R W Unit} (h : TaskSim P L ctx t x X) :
    SimB P.toChart L ctx (t.poss P.toChart) x X := fun m hm hi => h m hm fun _ _ => hi

set_option maxRecDepth 4096 in
theorem build_sim (hwf : P.toChart.WF) (hok : Contract P) (hpl : Plain P) :
    ∀ (f : Nat) (t : Task) (ctx : Option Sid) (L : Sid → Nat), t.OK P.toChart ctx → t.need P.toChart ctx ≤ f →
      TaskSim P L ctx t (build P f t) (Ref.build P f t.job) := by
  intro f
  induction f with
  | zero => intro t ctx L _ _ m _ _; rw [build]; trivial
  | succ f ih =>
    intro t ctx L hT hf
    cases t with
    | deep s =>
      obtain ⟨hs, rfl⟩ := hT
      have hlen := hwf.init_len hs
      simp only [Task.need] at hf
      intro m hm _
      rw [build, Task.job, Ref.build]
      refine enter_sim (poss := (Task.inners (P.init s)).poss P.toChart)
        (R := fun h l' h' => Enters P.toChart (fun _ _ => True) h (.regions (P.init s)) l' h')
        (T := fun h l' y => Begins P.toChart (fun _ _ => True) h (.regions (P.init s)) l' y) hwf hok hpl hs ?_ hm
      by_cases hl : P.isLeaf s = true
      · left
        have h0 := Chart.isLeaf_iff.1 hl
        rw [h0]
        cases f with
        | zero => omega
        | succ f => exact ⟨hl, rfl, rfl⟩
      · right
        have hn : (Task.inners (P.init s)).need P.toChart (some s) ≤ f := by simp only [Task.need, ctxNeed]; omega
        have hk := taskInners_ok hwf hs (List.Sublist.refl (P.init s))
        refine ⟨?_, build_wp hwf hok anyMem f (.inners (P.init s)) (some s) (inc L s) hk hn,
          (ih (.inners (P.init s)) (some s) (inc L s) hk hn).toB⟩
        simp only [Task.poss, init_poss hwf hs]
        have : P.regions (some s) ≠ 0 := by
          intro h
          apply hl
          rw [Chart.isLeaf_iff]
          exact List.length_eq_zero_iff.1 h
        exact ⟨by omega, fun i hi => by simpa using hi⟩
    | target t =>
      obtain ⟨hs, rfl, hh⟩ := hT
      obtain ⟨k, d⟩ := t
      have hn0 := ctxNeed_le hwf hs
      simp only [Task.need] at hf
      simp only at hs hn0 hh
      intro m hm _
      simp only [Task.poss] at hm
      rw [build, Task.job, Ref.build]
      refine sim_getR ?_
      have look : ∀ (h : Option HFn) (x : Option HFn → M W Unit) (X : Ref.R W Unit), lookupHist P k d m = .ok h m → Sim id (x h) X m →
          Sim id (lookupHist P k d >>= x) X m := by
        intro h x X h1 h2
        refine h2.step (m1 := m) ?_ rfl
        show M.bnd _ _ _ = _
        unfold M.bnd; rw [h1]
      have dflt : ctxNeed P.toChart (P.parent d) ≤ f → Sim id (build P f (.deep d)) (Ref.build P f (.deep d)) m := by
        intro hf'
        exact ih (.deep d) (P.parent d) L ⟨hs, rfl⟩ (by simp only [Task.need]; omega) m hm (fun _ h => by cases h)
      have hf2 : ctxNeed P.toChart (P.parent d) ≤ f := by split at hf <;> omega
      have dflt := dflt hf2
      cases hpar : P.parent d with
      | none =>
        refine look none _ _ (by unfold lookupHist; rw [hpar]) ?_
        simp only [Ref.recalled, hpar]
        exact dflt
      | some p =>
        have hp := hpar
        have hpn := hwf.parent_lt hs hp
        simp only [hp, ctxNeed] at hf
        cases k with
        | plain =>
          refine look none _ _ (by unfold lookupHist; rw [hpar]) ?_
          simp only [Ref.recalled, hpar]
          exact dflt
        | shallow =>
          refine look (m.sh (p, P.pos d)) _ _ (by unfold lookupHist; rw [hpar]) ?_
          simp only [Ref.recalled, hpar]
          have e : (abs m).sh (p, P.pos d) = (m.sh (p, P.pos d)).map HFn.last := rfl
          rw [e]
          cases hh : m.sh (p, P.pos d) with
          | none => exact dflt
          | some h =>
            obtain ⟨c, rfl, g1, g2, g3⟩ := hm.inv.hist.sh hh
            simp only [hfnTask, g2, hp, if_true]
            have hm' : BPre P.toChart L (some p) [P.pos c] m := by
              have := hm; rw [g3, ← hp]; exact this
            have hpc := hwf.parent_lt g1 g2
            exact ih (.deep c) (some p) L ⟨g1, g2⟩ (by simp only [Task.need]; split at hf <;> omega) m hm' (fun _ h => by cases h)
        | deep =>
          refine look (m.dh (p, P.pos d)) _ _ (by unfold lookupHist; rw [hpar]) ?_
          simp only [Ref.recalled, hpar]
          have e : (abs m).dh (p, P.pos d) = (m.dh (p, P.pos d)).map HFn.last := rfl
          rw [e]
          cases hh : m.dh (p, P.pos d) with
          | none => exact dflt
          | some h =>
            obtain ⟨c, rfl, g1, g2, _, _, g3⟩ := hm.inv.hist.dh hh
            have hpath := Chart.pathBelow_path hwf g1 (c := some p) ((Chart.mem_ctxList hwf g1).2 (.inr ⟨p, rfl, g2⟩))
            have hhead := hpath.head
            simp only [hfnTask, hhead, hp, if_true]
            have hm' : BPre P.toChart L (some p) ((Task.chain (P.pathBelow (some p) c) ⟨.plain, c⟩).poss P.toChart) m := by
              have := hm; simp only [Task.poss, g3]; rw [← hp]; exact this
            have hpc := hwf.parent_lt (hpath.head_below.bound hwf g1) hhead
            exact ih (.chain (P.pathBelow (some p) c) ⟨.plain, c⟩) (some p) L ⟨.plain g1, hpath⟩
              (by simp only [Task.need, ctxNeed]; simp at hf ⊢; omega) m hm' (fun _ h => by cases h)
    | chain cs d =>
      obtain ⟨hd, hpath⟩ := hT
      cases hpath with
      | nil hp =>
        simp only [Task.need] at hf
        intro m hm _
        rw [build, Task.job, Ref.build]
        exact ih (.target d) ctx L ⟨hd.bound, hp, hd.hist.imp id fun ⟨p, h⟩ => ⟨p, by rw [← hp, h]⟩⟩ (by
          simp only [Task.need]
          split
          · next h => rw [if_pos h] at hf; omega
          · next h => rw [if_neg h] at hf; omega) m hm (fun _ h => by cases h)
      | @cons _ x cs _ hp hpath =>
        have hbx : Below P.toChart x d.st := by
          have h1 : P.parent (cs.headD d.st) = some x := hpath.head
          exact Below.trans (.step h1 .refl) hpath.head_below
        have hxn := hbx.bound hwf hd.bound
        have hlen := hwf.init_len hxn
        have hn0 := ctxNeed_le hwf hxn
        simp only [Task.need] at hf
        rw [hp] at hn0
        have hhead := hpath.head
        have hheadn := hpath.head_below.bound hwf hd.bound
        have hxh := hwf.parent_lt hheadn hhead
        have hposlt := Chart.pos_lt_some hwf hheadn hhead
        subst hp
        have hposs := init_poss hwf hxn
        have htake : (Task.inners ((P.init x).take (P.pos (cs.headD d.st)))).poss P.toChart = List.range (P.pos (cs.headD d.st)) := by
          unfold Task.poss
          simp only
          rw [List.map_take, hposs, List.take_range, Nat.min_eq_left (by omega)]
        have hdrop : ∀ j, j ∈ (Task.inners ((P.init x).drop (P.pos (cs.headD d.st) + 1))).poss P.toChart ↔
            P.pos (cs.headD d.st) + 1 ≤ j ∧ j < P.regions (some x) := by
          intro j
          unfold Task.poss
          simp only
          rw [List.map_drop, hposs, List.mem_drop_iff_getElem]
          constructor
          · rintro ⟨i, h1, h2⟩
            simp only [List.getElem_range, List.length_range] at h1 h2
            omega
          · rintro ⟨h1, h2⟩
            exact ⟨j - (P.pos (cs.headD d.st) + 1), by simp only [List.length_range]; omega,
              by simp only [List.getElem_range]; omega⟩
        have k1 := taskInners_ok hwf hxn (List.take_sublist (P.pos (cs.headD d.st)) (P.init x))
        have k3 := taskInners_ok hwf hxn (List.drop_sublist (P.pos (cs.headD d.st) + 1) (P.init x))
        have n1 : (Task.inners ((P.init x).take (P.pos (cs.headD d.st)))).need P.toChart (some x) ≤ f := by
          simp only [Task.need, ctxNeed, List.length_take]; split at hf <;> omega
        have n2 : (Task.chain cs d).need P.toChart (some x) ≤ f := by
          simp only [Task.need, ctxNeed]; split <;> split at hf <;> omega
        have n3 : (Task.inners ((P.init x).drop (P.pos (cs.headD d.st) + 1))).need P.toChart (some x) ≤ f := by
          simp only [Task.need, ctxNeed, List.length_drop]; split at hf <;> omega
        have e1 := build_wp hwf hok anyMem f _ (some x) (inc L x) k1 n1
        have e2 := (build_wp hwf hok anyMem f (.chain cs d) (some x) (inc L x) ⟨hd, hpath⟩ n2).toI
        have e3 := build_wp hwf hok anyMem f _ (some x) (inc L x) k3 n3
        have s1 := (ih _ (some x) (inc L x) k1 n1).toB
        have s2 := (ih (.chain cs d) (some x) (inc L x) ⟨hd, hpath⟩ n2).toB
        have s3 := (ih _ (some x) (inc L x) k3 n3).toB
        simp only [TaskBuilds] at e1 e3
        have o23 : ∀ i ∈ (Task.chain cs d).poss P.toChart, ∀ j ∈ (Task.inners ((P.init x).drop (P.pos (cs.headD d.st) + 1))).poss P.toChart, i < j := by
          intro i hi j hj
          simp only [Task.poss, List.mem_singleton] at hi
          rw [hdrop] at hj; omega
        have o123 : ∀ i ∈ (Task.inners ((P.init x).take (P.pos (cs.headD d.st)))).poss P.toChart,
            ∀ j ∈ (Task.chain cs d).poss P.toChart ++ (Task.inners ((P.init x).drop (P.pos (cs.headD d.st) + 1))).poss P.toChart, i < j := by
          intro i hi j hj
          rw [htake, List.mem_range] at hi
          rcases List.mem_append.1 hj with hj | hj
          · simp only [Task.poss, List.mem_singleton] at hj
            omega
          · rw [hdrop] at hj; omega
        have b3 : ∀ j ∈ (Task.inners ((P.init x).drop (P.pos (cs.headD d.st) + 1))).poss P.toChart, j < P.regions (some x) := by
          intro j hj; rw [hdrop] at hj; omega
        have b23 : ∀ j ∈ (Task.chain cs d).poss P.toChart ++ (Task.inners ((P.init x).drop (P.pos (cs.headD d.st) + 1))).poss P.toChart, j < P.regions (some x) := by
          intro j hj
          rcases List.mem_append.1 hj with hj | hj
          · simp only [Task.poss, List.mem_singleton] at hj
            omega
          · rw [hdrop] at hj; omega
        have e23 := builds_seq hwf e2 e3 o23 b3
        have e123 := builds_seq hwf e1 e23 o123 b23
        have s23 := simB_seq hwf e2 s2 s3 o23
        have s123 := simB_seq hwf e1 s1 s23 o123
        intro m hm _
        rw [build, Task.job, Ref.build]
        refine enter_sim hwf hok hpl hxn (.inr ⟨?_, e123, s123⟩) hm
        refine ⟨by omega, fun i hi => ?_⟩
        rw [List.mem_append, List.mem_append, htake, hdrop, List.mem_range]
        simp only [Task.poss, List.mem_singleton]
        omega
    | inners l =>
      obtain ⟨⟨p, rfl, hp⟩, h1, h2⟩ := hT
      simp only [Task.need] at hf
      cases l with
      | nil => intro m _ _; rw [build, Task.job, Ref.build]; rfl
      | cons t ts =>
        simp only [List.length_cons] at hf
        intro m hm hi
        rw [build, Task.job, Ref.build]
        have ht := h1 t (by simp)
        have k1 : (Task.target t).OK P.toChart (some p) := ⟨ht.1, ht.2, .inr ⟨p, rfl⟩⟩
        have n1 : (Task.target t).need P.toChart (some p) ≤ f := by simp only [Task.need]; split <;> omega
        have k2 : (Task.inners ts).OK P.toChart (some p) := ⟨⟨p, rfl, hp⟩, fun t' ht' => h1 t' (by simp [ht']), (List.pairwise_cons.1 h2).2⟩
        have n2 : (Task.inners ts).need P.toChart (some p) ≤ f := by simp only [Task.need]; omega
        have e1 := (build_wp hwf hok anyMem f (.target t) (some p) L k1 n1).toI
        refine simB_seq hwf e1 (ih (.target t) (some p) L k1 n1).toB (ih (.inners ts) (some p) L k2 n2).toB ?_ m hm (hi _ rfl)
        intro i hi j hj
        simp only [Task.poss, List.mem_singleton, List.mem_map] at hi hj
        obtain ⟨t', ht', rfl⟩ := hj
        subst hi
        exact (List.pairwise_cons.1 h2).1 t' ht'

theorem depth_eq : Ref.depth P = buildFuel P := rfl

theorem initialConstruct_sim (hwf : P.toChart.WF) (hok : Contract P) (hpl : Plain P) (hm : BPre P.toChart L none [0] m) :
    Sim id (initialConstruct P) (Ref.build P (Ref.depth P) (.deep P.initial)) m := by
  have h0 := Chart.pos_root hwf hwf.initial_ok.1 hwf.initial_ok.2
  refine build_sim hwf hok hpl (buildFuel P) (.deep P.initial) none L hwf.initial_ok (by
    simp only [Task.need, buildFuel]
    calc (P.n - P.initial) * 300 ≤ (P.n + 1) * 300 := Nat.mul_le_mul_right _ (by omega)
      _ ≤ (P.n + 1) * (P.n + 300) := Nat.mul_le_mul_left _ (by omega)) m ?_ (fun _ h => by cases h)
  simp only [Task.poss, h0]
  exact hm

end SC
