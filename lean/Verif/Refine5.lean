import Verif.Refine4
/-!
# The library and the reference machine: entering states
-/

namespace SC
open Spec Chart
variable {W : Type} {P : Prog W} {L : Sid → Nat} {m : Mach W} {F : Memory → Memory → Prop}

theorem sim_assoc {α β γ δ : Type} {r : γ → δ} {x : M W α} {f : α → M W β} {g : β → M W γ} {G : Ref.R W δ}
    (h : Sim r (x >>= fun a => f a >>= g) G m) : Sim r ((x >>= f) >>= g) G m := by
  refine h.step (m1 := m) ?_ rfl
  show M.bnd (M.bnd x f) g m = M.bnd x (fun a => M.bnd (f a) g) m
  unfold M.bnd
  cases x m <;> rfl

theorem sim_modify2 {α : Type} {r : α → Unit} {x : M W α} {g : Ref.St W → Ref.St W} (h : ∀ a m', x m = .ok a m' → abs m' = g (abs m))
    (ht : ∀ e m', x m ≠ .thrown e m') : Sim r x (Ref.R.modify g) m := by
  unfold Sim
  cases hx : x m with
  | ok a m' => show Ref.Out.ok () _ = _; rw [h a m' hx]
  | thrown e m' => exact absurd hx (ht e m')
  | fault f => trivial

theorem setContext_sim (s : Sid) : Sim id (setContext P s) (Ref.R.modify (Ref.attach P s)) m := by
  unfold setContext
  have h1 : Sim (fun _ => ()) (match P.parent s with | none => (pure () : M W Unit) | some p => addRef p) (pure ()) m := by
    cases P.parent s with
    | none => rfl
    | some t => exact sim_addRef t
  refine sim_skip h1 fun _ m1 _ => sim_getObj fun o ho => sim_skip (sim_setObj ho rfl) fun _ m2 _ => ?_
  unfold addInner
  cases hp : P.parent s with
  | none =>
    simp only
    split
    · refine sim_modify ?_
      simp [Ref.attach, hp]; rfl
    · trivial
  | some p =>
    refine sim_getObj fun o ho => ?_
    split
    · refine (sim_setObj (o' := { o with inner := upd o.inner (P.pos s) (some s) }) ho rfl).congr ?_
      simp [Ref.R.modify, Ref.attach, hp]; rfl
    · trivial

theorem filterMap_same {α β : Type} {f g : α → Option β} {l : List α} (h : ∀ x ∈ l, f x = g x) : l.filterMap f = l.filterMap g := by
  induction l with
  | nil => rfl
  | cons a l ih =>
    rw [List.filterMap_cons, List.filterMap_cons, h a (by simp), ih fun x hx => h x (by simp [hx])]

theorem leaves_length (h : Filled m) : m.leaves.length = m.endIx := by
  rw [leaves_getD h]; simp

theorem addLeaf_sim (s : Sid) (hf : Filled m) : Sim id (addLeaf P s) (do
    let st ← Ref.R.get
    (if st.leaves.length = st.nodes then do
      Ref.alloc P (.leafNode s)
      Ref.R.modify fun st => { st with nodes := st.nodes + 1 }
    else pure ())
    Ref.R.modify fun st => { st with leaves := st.leaves ++ [s] }) m := by
  unfold addLeaf
  refine sim_get2 ?_
  have hc : ((abs m).leaves.length = (abs m).nodes) = (m.endIx = m.len) := by
    show (m.leaves.length = m.len) = _
    rw [leaves_length hf]
  have tail : ∀ m1 : Mach W, m1.slot = m.slot → m1.endIx = m.endIx → Sim id (do
      (match m.slot m.endIx with
        | none => pure ()
        | some t => releaseBase t)
      addRef s
      let o ← getObj s
      setObj s { o with lpos := m.endIx }
      M.modify fun m => { m with slot := upd m.slot m.endIx (some s), endIx := m.endIx + 1 } : M W Unit)
      (Ref.R.modify fun st => { st with leaves := st.leaves ++ [s] }) m1 := by
    intro m1 _ _
    have h1 : Sim (fun _ => ()) (match m.slot m.endIx with | none => (pure () : M W Unit) | some t => releaseBase t) (pure ()) m1 := by
      cases m.slot m.endIx with
      | none => rfl
      | some t => exact sim_releaseBase t
    refine sim_skip h1 fun _ m2 _ => sim_skip (sim_addRef s) fun _ m3 _ => sim_getObj fun o ho => sim_skip (sim_setObj ho rfl) fun _ m4 _ => ?_
    refine sim_modify ?_
    have : Mach.leaves { m4 with slot := upd m4.slot m4.endIx (some s), endIx := m4.endIx + 1 } = m4.leaves ++ [s] := by
      unfold Mach.leaves
      simp only [List.range_succ, List.filterMap_append]
      congr 1
      · refine filterMap_same fun i hi => ?_
        have := List.mem_range.1 hi
        rw [upd_other _ _ (by omega)]
      · simp
    unfold abs
    rw [this]
    rfl
  refine sim_bind (r := id) ?_ fun _ m1 hm1 => ?_
  · simp only [hc]
    split
    · exact sim_bind (sim_alloc _) fun _ m1 _ => sim_modify rfl
    · rfl
  · refine tail m1 ?_ ?_
    all_goals
      split at hm1
      · have e : (allocate P (.leafNode s) >>= fun _ => M.modify fun m => { m with len := m.len + 1 }) m =
            M.bnd (allocate P (.leafNode s)) (fun _ => M.modify fun m => { m with len := m.len + 1 }) m := rfl
        rw [e] at hm1
        unfold M.bnd allocate at hm1
        split at hm1
        · next hx =>
          split at hx
          · cases hx; cases hm1; rfl
          · cases hx
        · cases hm1
        · cases hm1
      · cases hm1; rfl

theorem addToMachine_sim (s : Sid) (hf : Filled m) : Sim id (addToMachine P s) (Ref.register P s) m := by
  unfold addToMachine Ref.register
  refine sim_bind (r := id) ?_ fun _ m1 _ => sim_get ?_
  · split
    · exact addLeaf_sim s hf
    · rfl
  · have hc : (m1.ico = true ∨ (isHighest P s = true ∧ m1.pOU = P.parent s)) =
        ((abs m1).first = true ∨ (P.pos s + 1 = P.regions (P.parent s) ∧ (abs m1).unstable = P.parent s)) := by
      show _ = (m1.ico = true ∨ (P.pos s + 1 = P.regions (P.parent s) ∧ m1.pOU = P.parent s))
      unfold isHighest; simp
    simp only [hc]
    by_cases h : (abs m1).first = true ∨ (P.pos s + 1 = P.regions (P.parent s) ∧ (abs m1).unstable = P.parent s)
    · rw [if_pos h]
      have h2 : Sim id (do
          M.modify fun m => { m with ico := false }
          setOU (if P.isLeaf s then none else some s) : M W Unit) (do
          Ref.R.modify fun st => { st with first := false }
          Ref.R.modify fun st => { st with unstable := if P.isLeaf s then none else some s }) m1 :=
        sim_bind (sim_modify rfl) fun _ m2 _ => sim_setOU _
      refine h2.congr ?_
      simp only [Ref.R.modify, h, if_true]
      rfl
    · rw [if_neg h]
      refine Sim.of_ok (a := ()) (m' := m1) rfl ?_
      simp only [Ref.R.modify, h, if_false]

theorem runCtor_sim (hpl : Plain P) (s : Sid) (hf : Filled m) : Sim id (runCtor P s) (Ref.user (P.ctor s) [.enter s] [.enterFail s]) m := by
  have := sim_user (hpl.ctor s) [.enter s] [.enterFail s] hf
  unfold Sim runCtor
  by_cases h : P.isSimple s = true ∧ (P.ctor s m.view m.world).cmds ≠ []
  · rw [if_pos h]; trivial
  · rw [if_neg h]; exact this

/-- The object of a failed constructor goes away. -/
theorem abs_erase {s : Sid} : abs { m with heap := upd m.heap s none } =
    { abs m with act := fun x => if x = s then false else (abs m).act x, defers := fun x => if x = s then false else (abs m).defers x } := by
  have h1 : (abs { m with heap := upd m.heap s none }).act = fun x => if x = s then false else (abs m).act x := by
    funext x; by_cases hx : x = s <;> simp [abs, Mach.act, upd, hx]
  have h2 : (abs { m with heap := upd m.heap s none }).defers = fun x => if x = s then false else (abs m).defers x := by
    funext x; by_cases hx : x = s <;> simp [abs, upd, hx]
  rw [← h1, ← h2]
  rfl

theorem abs_new {s : Sid} : abs { m with heap := upd m.heap s (some newObj) } = Ref.appear s (abs m) := by
  have h1 : (abs { m with heap := upd m.heap s (some newObj) }).act = fun x => if x = s then true else (abs m).act x := by
    funext x; by_cases hx : x = s <;> simp [abs, Mach.act, upd, hx]
  have h2 : (abs { m with heap := upd m.heap s (some newObj) }).defers = fun x => if x = s then false else (abs m).defers x := by
    funext x; by_cases hx : x = s <;> simp [abs, upd, hx, newObj]
  unfold Ref.appear
  rw [← h1, ← h2]
  rfl

/-- Dropping a reference that is not the last. -/
theorem release_silent {s : Sid} {o : Obj} (ho : m.heap s = some o) (hrc : 2 ≤ o.rc) : Sim (fun _ => ()) (release P s) (pure ()) m := by
  have : release P s m = .ok () { m with heap := upd m.heap s (some { o with rc := o.rc - 1 }) } := by
    have h := release_keep (P := P) (E := fun _ _ => False) (Q := fun _ m' => m' = { m with heap := upd m.heap s (some { o with rc := o.rc - 1 }) }) ho hrc rfl
    obtain ⟨_, m', h1, h2⟩ := wp_run h
    rw [h1, h2]
  refine Sim.of_ok this ?_
  rw [abs_obj (o' := { o with rc := o.rc - 1 }) ho rfl]; rfl

theorem vanish_sim {s : Sid} {o : Obj} (ho : m.heap s = some o) (hd : o.deferred = false)
    (hroot : o.ctxSet = false → P.parent s = none → m.outermost = none)
    (hpar : o.ctxSet = true → ∀ p, P.parent s = some p → p ≠ s ∧ ∃ op, m.heap p = some op ∧ 2 ≤ op.rc) :
    Sim id (baseDtor P (release P) s) (Ref.R.modify (Ref.vanish P s)) m := by
  unfold baseDtor
  refine sim_getObj fun o' ho' => ?_
  rw [ho] at ho'; cases ho'
  by_cases hc : o.ctxSet = true
  · rw [if_pos hc, hd]
    simp only [Bool.false_eq_true, if_false]
    cases hp : P.parent s with
    | none =>
      simp only
      have h1 : Sim id (removeInner P none (P.pos s)) (Ref.R.modify fun st => { st with root := none }) m := by
        unfold removeInner
        simp only
        split
        · exact sim_modify rfl
        · trivial
      have h2 := sim_bind h1 (f := fun _ => M.modify fun m => { m with heap := upd m.heap s none })
        (G := fun _ => Ref.R.modify fun st => { st with act := fun x => if x = s then false else st.act x, defers := fun x => if x = s then false else st.defers x })
        (r' := id) fun _ m1 _ => sim_modify (by rw [abs_erase])
      have h3 := sim_bind h2 (f := fun _ => pure ()) (G := fun _ => pure ()) (r' := id) fun _ m1 _ => rfl
      refine h3.step (m1 := m) ?_ ?_
      · show M.bnd (removeInner P none (P.pos s)) (fun _ => M.bnd (M.modify _) (fun _ => pure ())) m = M.bnd (M.bnd (removeInner P none (P.pos s)) (fun _ => M.modify _)) (fun _ => pure ()) m
        unfold M.bnd; cases removeInner P none (P.pos s) m <;> rfl
      · simp [Ref.R.modify, Ref.vanish, hp]; rfl
    | some p =>
      obtain ⟨hps, op, hop, hrc⟩ := hpar hc p hp
      simp only
      unfold removeInner
      refine sim_assoc (sim_getObj fun o' ho' => ?_)
      rw [hop] at ho'; cases ho'
      split
      · refine sim_skip (sim_setObj hop rfl) fun _ m1 hm1 => ?_
        cases hm1
        have h4 : Sim id (M.modify fun m => { m with heap := upd m.heap s none }) (Ref.R.modify (Ref.vanish P s))
            { m with heap := upd m.heap p (some { op with inner := upd op.inner (P.pos s) none }) } := by
          refine sim_modify ?_
          rw [abs_erase]
          simp [Ref.vanish, hp]
        refine (sim_bind h4 (f := fun _ => release P p) (G := fun _ => pure ()) (r' := id) ?_).congr rfl
        intro _ m2 hm2
        cases hm2
        refine release_silent (o := { op with inner := upd op.inner (P.pos s) none }) ?_ hrc
        simp [hps]
      · trivial
  · rw [if_neg hc]
    have hc' : o.ctxSet = false := by simpa using hc
    refine sim_modify ?_
    rw [abs_erase]
    cases hp : P.parent s with
    | none =>
      have : (abs m).root = none := hroot hc' hp
      simp [Ref.vanish, hp, this]
    | some p => simp [Ref.vanish, hp]

theorem alloc_run {s : Site} {u : Unit} {m1 : Mach W} (h : allocate P s m = .ok u m1) : ∃ w, m1 = { m with world := w } := by
  unfold allocate at h
  split at h
  · cases h; exact ⟨_, rfl⟩
  · cases h

/-- Entering one state. -/
theorem shallowConstruct_sim (hwf : P.toChart.WF) (hok : Contract P) (hpl : Plain P)
    {s : Sid} (h : Inv P.toChart L none m) (hs : s < P.n)
    (hempty : ∀ c, (m.heap c).isSome → P.parent c = P.parent s → P.pos c ≠ P.pos s)
    (hlock : ∀ p, P.parent s = some p → L p ≠ 0) (hico : m.ico = true → m.pOU = P.parent s) :
    Sim id (shallowConstruct P s) (Ref.enter P s) m := by
  have hdead : m.heap s = none := by
    cases hh : m.heap s with
    | none => rfl
    | some o => exact absurd rfl (hempty s (by simp [hh]) rfl)
  have hLs : L s = 0 := by
    by_cases h0 : L s = 0
    · exact h0
    · have := h.L_live h0; rw [hdead] at this; cases this
  have hpl' : ∀ p, P.parent s = some p → (m.heap p).isSome := fun p hp => h.L_live (hlock p hp)
  have hpin : ∀ p, P.parent s = some p → ∃ op, m.heap p = some op ∧ op.inner (P.pos s) = none ∧ 1 ≤ op.rc := by
    intro p hp
    obtain ⟨op, hop⟩ := Option.isSome_iff_exists.1 (hpl' p hp)
    refine ⟨op, hop, ?_, ?_⟩
    · cases hi : op.inner (P.pos s) with
      | none => rfl
      | some c =>
        obtain ⟨h1, h2, h3⟩ := (h.inner_iff hop).1 hi
        exact absurd h3 (hempty c h1 (by rw [h2, hp]))
    · have := h.rc hop
      have := hlock p hp
      omega
  have hroot : P.parent s = none → m.outermost = none := by
    intro hp
    cases ho : m.outermost with
    | none => rfl
    | some r =>
      obtain ⟨h1, h2⟩ := h.outer.1 ho
      have h0 := Chart.pos_root hwf (h.live_bound h1) h2
      have h0' := Chart.pos_root hwf hs hp
      exact absurd (by rw [h0, h0']) (hempty r h1 (by rw [h2, hp]))
  have hcond : True ∧ s < P.n ∧ m.act s = false ∧ parentActive P.toChart m.act s = true ∧
      regionEmpty P.toChart m.act s = true := by
    refine ⟨trivial, hs, ?_, ?_, ?_⟩
    · unfold Mach.act; rw [hdead]; rfl
    · unfold parentActive
      cases hp : P.parent s with
      | none => rfl
      | some p => exact hpl' p hp
    · rw [regionEmpty_iff]; intro c _ hc; exact hempty c hc
  have hns : P.parent s ≠ some s := fun hp => Nat.lt_irrefl _ (hwf.parent_lt hs hp)
  have hnoslot : ∀ i, m.slot i ≠ some s := by
    intro i hi
    by_cases hie : i < m.endIx
    · obtain ⟨x, o, h1, h2, _⟩ := h.slot_in hie
      rw [hi] at h1; cases h1; rw [hdead] at h2; cases h2
    · rw [h.slot_out (by omega)] at hi; cases hi
  -- after successful construction of the object
  have key : ∀ m2 : Mach W, m2.heap = addHeap P.toChart m.heap s freshObj →
      m2.slot = m.slot → m2.len = m.len → m2.endIx = m.endIx →
      m2.outermost = (if P.parent s = none then some s else m.outermost) →
      m2.ico = m.ico → m2.pOU = m.pOU → m2.trace = m.trace ++ [(m.trig, .enter s)] → HistOK P.toChart m2 →
      Sim id (M.onThrow (addToMachine P s) (release P s)) (Ref.R.onThrow (Ref.register P s) (Ref.destroy P s)) m2 := by
    intro m2 k1 k2 k3 k4 k5 k6 k7 k10 k11
    have hlife : life P.toChart (m2.trace.map (·.2)) = some ⟨fun x => if x = s then true else m.act x, none⟩ := by
      rw [k10, List.map_append, List.map_cons, List.map_nil, life_snoc, h.tr]
      simp only [Option.bind_some, lifeStep]
      rw [if_pos hcond]
    obtain ⟨hi2, hact2⟩ := h.addState hwf hs hempty hpl' k1 k2 k3 ⟨_, k10⟩ k4 k5 k7 k11 hlife
    have hs2 : m2.heap s = some freshObj := by rw [k1]; unfold addHeap; rw [if_pos rfl]
    refine sim_onThrow (addToMachine_sim s hi2.filled) ?_
    intro e m3 hm3
    obtain ⟨g1, g2, g3, g4⟩ := wp_thrownAt (addToMachine_wp hwf hi2 hs2 (by rw [k2]; exact hnoslot _) (by simp) (by rw [k6, k7]; exact hico)) hm3
    have hi3 : Inv P.toChart (inc L s) none m3 := by
      refine hi2.congrT g1 g2 ⟨?_, ?_⟩
      · rw [g3]; exact k11.sh
      · rw [g4]; exact k11.dh
    refine release_one_sim hwf hpl hi3 (by simp) (by rw [g1.heap]; exact hs2) rfl (.inl rfl) ?_
    intro p hp
    have hps : p ≠ s := fun he => hns (he ▸ hp)
    rw [inc_other _ hps]; exact hlock p hp
  unfold shallowConstruct Ref.enter
  refine sim_bind (sim_alloc _) fun _ m1 hm1 => ?_
  obtain ⟨w, rfl⟩ := alloc_run hm1
  refine sim_get ?_
  simp only [hdead, Option.isSome_none, Bool.false_eq_true, if_false]
  refine sim_bind (r := id) (x := setObj s newObj) (F := Ref.R.modify (Ref.appear s)) (sim_modify abs_new.symm) fun _ m2 hm2 => ?_
  cases hm2
  have hf : ∀ hp out, Filled ({ m with world := w, heap := hp, outermost := out } : Mach W) := fun hp out => h.filled
  by_cases hsim : P.isSimple s = true
  · simp only [hsim, if_true]
    refine sim_assoc ?_
    refine Sim.congr (F := Ref.R.onThrow (Ref.user (P.ctor s) [.enter s] [.enterFail s]) (Ref.vanish P s) >>= fun _ =>
      Ref.R.modify (Ref.attach P s) >>= fun _ => Ref.R.onThrow (Ref.register P s) (Ref.destroy P s)) ?_ rfl
    have hwp := wp_runCtor (F := fun _ _ => True) (s := s) (m := { m with world := w, heap := upd m.heap s (some newObj) })
      (Q := fun _ m' => UserStep { m with world := w, heap := upd m.heap s (some newObj) } m' [.enter s])
      (E := fun _ m' => UserStep { m with world := w, heap := upd m.heap s (some newObj) } m' [.enterFail s]) hok (fun _ _ _ _ => trivial)
      (fun _ h _ => h) (fun _ _ h => h)
    refine sim_bind (sim_onThrow (runCtor_sim hpl s (hf _ _)) ?_) ?_
    · intro e m3 hm3
      have hu := wp_thrownAt hwp hm3
      have hheap : m3.heap = upd m.heap s (some newObj) := hu.core.heap
      refine vanish_sim (o := newObj) (by rw [hheap, upd_same]) rfl ?_ (fun hc => by cases hc)
      intro _ hp
      rw [hu.core.outermost]; exact hroot hp
    · intro _ m3 hm3
      have hm3' : runCtor P s { m with world := w, heap := upd m.heap s (some newObj) } = .ok () m3 := by
        unfold M.onThrow at hm3
        split at hm3
        · next hx => cases hm3; exact hx
        · split at hm3 <;> cases hm3
        · cases hm3
      have hu := wp_okAt hwp hm3'
      have hheap : m3.heap = upd m.heap s (some newObj) := hu.core.heap
      refine sim_assoc (sim_skip (sim_addRef s) fun _ m4 hm4 => ?_)
      have hm4e : m4 = { m3 with heap := upd m3.heap s (some { newObj with rc := newObj.rc + 1 }) } := by
        have : addRef s m3 = .ok () { m3 with heap := upd m3.heap s (some { newObj with rc := newObj.rc + 1 }) } := by
          have : m3.heap s = some newObj := by rw [hheap, upd_same]
          simp only [addRef, bind, M.bnd, getObj, this, setObj, M.modify]
        rw [this] at hm4; cases hm4; rfl
      subst hm4e
      refine sim_bind (setContext_sim s) fun _ m5 hm5 => ?_
      have hsc := setContext_wp (E := fun _ _ => False) (Q := fun _ m' => m' = { m3 with
            heap := addHeap P.toChart (upd m3.heap s (some { newObj with rc := newObj.rc + 1 })) s
              { newObj with rc := newObj.rc + 1, ctxSet := true }
            outermost := if P.parent s = none then some s else m3.outermost })
            (m := { m3 with heap := upd m3.heap s (some { newObj with rc := newObj.rc + 1 }) }) (o := { newObj with rc := newObj.rc + 1 }) hwf hs (upd_same _ _ _) (by
              intro p hp
              obtain ⟨op, h1, h2, _⟩ := hpin p hp
              have hps : p ≠ s := fun he => hns (he ▸ hp)
              exact ⟨op, by simp only; rw [upd_other _ _ hps, hheap, upd_other _ _ hps]; exact h1, h2⟩) rfl
      have := wp_okAt hsc hm5
      subst this
      refine key _ ?_ hu.core.slot hu.core.len hu.core.endIx ?_ hu.core.ico hu.core.pOU hu.trace ?_
      · simp only [hheap]
        funext x; unfold addHeap
        by_cases hx : x = s
        · rw [if_pos hx, if_pos hx]; rfl
        · simp only [if_neg hx, upd_other _ _ hx]
      · simp only [hu.core.outermost]
      · have := hu.hist P.toChart ⟨h.hist.sh, h.hist.dh⟩
        exact ⟨this.sh, this.dh⟩
  · simp only [hsim, if_false, Bool.false_eq_true]
    refine sim_assoc ?_
    refine sim_bind (setContext_sim s) fun _ m3 hm3 => ?_
    have hsc := setContext_wp (E := fun _ _ => False) (Q := fun _ m' => m' = { m with
          world := w
          heap := addHeap P.toChart (upd m.heap s (some newObj)) s { newObj with ctxSet := true }
          outermost := if P.parent s = none then some s else m.outermost })
          (m := { m with world := w, heap := upd m.heap s (some newObj) }) (o := newObj) hwf hs (upd_same _ _ _) (by
            intro p hp
            obtain ⟨op, h1, h2, _⟩ := hpin p hp
            have hps : p ≠ s := fun he => hns (he ▸ hp)
            exact ⟨op, by simp only; rw [upd_other _ _ hps]; exact h1, h2⟩) rfl
    have := wp_okAt hsc hm3
    subst this
    have hahp : addHeap P.toChart (upd m.heap s (some newObj)) s { newObj with ctxSet := true } =
        addHeap P.toChart m.heap s { newObj with ctxSet := true } := by
      funext x; unfold addHeap
      by_cases hx : x = s
      · rw [if_pos hx, if_pos hx]
      · simp only [if_neg hx, upd_other _ _ hx]
    simp only [hahp]
    have hahs : addHeap P.toChart m.heap s { newObj with ctxSet := true } s = some { newObj with ctxSet := true } := by
      unfold addHeap; rw [if_pos rfl]
    have hwp := wp_runCtor (F := fun _ _ => True) (s := s) (m := { m with world := w, heap := addHeap P.toChart m.heap s { newObj with ctxSet := true }, outermost := if P.parent s = none then some s else m.outermost })
      (Q := fun _ m' => UserStep { m with world := w, heap := addHeap P.toChart m.heap s { newObj with ctxSet := true }, outermost := if P.parent s = none then some s else m.outermost } m' [.enter s])
      (E := fun _ m' => UserStep { m with world := w, heap := addHeap P.toChart m.heap s { newObj with ctxSet := true }, outermost := if P.parent s = none then some s else m.outermost } m' [.enterFail s]) hok (fun _ _ _ _ => trivial)
      (fun _ h _ => h) (fun _ _ h => h)
    refine sim_assoc (sim_bind (sim_onThrow (runCtor_sim hpl s (hf _ _)) ?_) ?_)
    · intro e m3 hm3
      have hu := wp_thrownAt hwp hm3
      have hheap : m3.heap = addHeap P.toChart m.heap s { newObj with ctxSet := true } := hu.core.heap
      refine vanish_sim (o := { newObj with ctxSet := true }) (by rw [hheap]; exact hahs) rfl (fun hc => by cases hc) ?_
      intro _ p hp
      have hps : p ≠ s := fun he => hns (he ▸ hp)
      obtain ⟨op, h1, _, h3⟩ := hpin p hp
      refine ⟨hps, { op with rc := op.rc + 1, inner := upd op.inner (P.pos s) (some s) }, ?_, ?_⟩
      · rw [hheap]; unfold addHeap
        rw [if_neg hps, if_pos hp, h1]; rfl
      · show 2 ≤ op.rc + 1; omega
    · intro _ m3 hm3
      have hm3' : runCtor P s { m with world := w, heap := addHeap P.toChart m.heap s { newObj with ctxSet := true }, outermost := if P.parent s = none then some s else m.outermost } = .ok () m3 := by
        unfold M.onThrow at hm3
        split at hm3
        · next hx => cases hm3; exact hx
        · split at hm3 <;> cases hm3
        · cases hm3
      have hu := wp_okAt hwp hm3'
      have hheap : m3.heap = addHeap P.toChart m.heap s { newObj with ctxSet := true } := hu.core.heap
      refine sim_skip (sim_addRef s) fun _ m4 hm4 => ?_
      have hm4e : m4 = { m3 with heap := upd m3.heap s (some { newObj with ctxSet := true, rc := newObj.rc + 1 }) } := by
        have : addRef s m3 = .ok () { m3 with heap := upd m3.heap s (some { newObj with ctxSet := true, rc := newObj.rc + 1 }) } := by
          have : m3.heap s = some { newObj with ctxSet := true } := by rw [hheap]; exact hahs
          simp only [addRef, bind, M.bnd, getObj, this, setObj, M.modify]
        rw [this] at hm4; cases hm4; rfl
      subst hm4e
      refine Sim.congr (F := Ref.R.onThrow (Ref.register P s) (Ref.destroy P s)) ?_ rfl
      refine key _ ?_ hu.core.slot hu.core.len hu.core.endIx hu.core.outermost hu.core.ico hu.core.pOU hu.trace ?_
      · simp only [hheap]
        funext x; simp only [upd]; unfold addHeap
        by_cases hx : x = s
        · rw [if_pos hx, if_pos hx]; rfl
        · simp only [if_neg hx]
      · have := hu.hist P.toChart ⟨h.hist.sh, h.hist.dh⟩
        exact ⟨this.sh, this.dh⟩

end SC
