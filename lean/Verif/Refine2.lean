import Verif.Refine1
/-!
# The library and the reference machine: destruction and exit of states
-/

namespace SC
open Spec
variable {W : Type} {P : Prog W} {L : Sid → Nat} {pend : Option Sid} {m : Mach W}

/-! ## Destruction -/

theorem drop_fuel (hwf : P.toChart.WF) (keep : Sid → Bool) : ∀ (f g : Nat) (c : Option Sid) (st : Ref.St W),
    (∀ s, c = some s → s < P.n ∧ s < f ∧ s < g) → Ref.drop P keep f c st = Ref.drop P keep g c st := by
  intro f
  induction f with
  | zero =>
    intro g c st h
    cases c with
    | none => cases g <;> rfl
    | some s => have := h s rfl; omega
  | succ f ih =>
    intro g c st h
    cases c with
    | none => cases g <;> rfl
    | some s =>
      obtain ⟨h1, h2, h3⟩ := h s rfl
      cases g with
      | zero => omega
      | succ g =>
        rw [Ref.drop, Ref.drop]
        split
        · rfl
        · refine ih g _ _ ?_
          intro p hp
          have := hwf.parent_lt h1 hp
          omega

theorem Inv.mem_leaves {C : Chart} (h : Inv C L pend m) {s : Sid} {o : Obj} (ho : m.heap s = some o) :
    s ∈ m.leaves ↔ m.slot o.lpos = some s := by
  simp only [Mach.leaves, List.mem_filterMap, List.mem_range]
  constructor
  · rintro ⟨i, hi, hs⟩
    rw [(h.slot_pos hs ho).1]; exact hs
  · intro hs
    exact ⟨o.lpos, (h.slot_pos hs ho).2.1, hs⟩

/-- A state is needed as long as something else refers to it. -/
theorem needed_iff (hwf : P.toChart.WF) (h : Inv P.toChart L pend m) {s : Sid} {o : Obj} (ho : m.heap s = some o) (hL : L s ≠ 0) :
    Ref.needed P (lockOf (dec L s)) (abs m) s = true ↔ 2 ≤ o.rc := by
  have hrc := h.rc ho
  have hc := h.childless_iff hwf ho
  have hl := h.mem_leaves ho
  have hch : (abs m).act = m.act := rfl
  simp only [Ref.needed, hch]
  show (lockOf (dec L s) s || !childless P.toChart m.act s || m.pOU == some s || m.leaves.contains s) = true ↔ _
  simp only [Bool.or_eq_true, lockOf, dec_same, decide_eq_true_eq, Bool.not_eq_true', beq_iff_eq, List.contains_eq_mem, hl]
  constructor
  · rintro (((h1 | h1) | h1) | h1)
    · omega
    · have : nch (P.regions (some s)) o.inner ≠ 0 := by
        intro h2; rw [hc.2 h2] at h1; cases h1
      omega
    · rw [if_pos h1] at hrc; omega
    · rw [if_pos h1] at hrc; omega
  · intro h2
    by_cases h3 : m.pOU = some s
    · exact .inl (.inr h3)
    · by_cases h4 : m.slot o.lpos = some s
      · exact .inr h4
      · rw [if_neg h3, if_neg h4] at hrc
        by_cases h5 : nch (P.regions (some s)) o.inner = 0
        · exact .inl (.inl (.inl (by omega)))
        · refine .inl (.inl (.inr ?_))
          cases h6 : childless P.toChart m.act s with
          | false => rfl
          | true => exact absurd (hc.1 h6) h5

/-- The machine after `~simple_state`, before the context is released. -/
def dtorMach (C : Chart) (s : Sid) (o : Obj) (m : Mach W) : Mach W :=
  { m with
    heap := eraseHeap C m.heap s
    outermost := if C.parent s = none then none else m.outermost
    evq := if o.deferred then m.dq ++ m.evq else m.evq
    dq := if o.deferred then [] else m.dq
    qlog := if o.deferred then m.qlog ++ [.release s] else m.qlog }

theorem baseDtor_eq (hwf : P.toChart.WF) {s : Sid} (hsn : s < P.n) {o : Obj} (ho : m.heap s = some o) (hc : o.ctxSet = true)
    (hpl : ∀ p, P.parent s = some p → (m.heap p).isSome) (rel : Sid → M W Unit) :
    baseDtor P rel s m = (match P.parent s with
      | none => pure ()
      | some p => rel p) (dtorMach P.toChart s o m) := by
  have e : baseDtor P rel s m = (do
      if o.deferred then releaseEvents s else pure ()
      removeInner P (P.parent s) (P.pos s)
      M.modify fun m => { m with heap := upd m.heap s none }
      match P.parent s with
      | none => pure ()
      | some p => rel p : M W Unit) m := by
    unfold baseDtor
    show M.bnd (getObj s) _ m = _
    unfold M.bnd getObj
    simp only [ho, hc, if_true]
    split <;> rfl
  rw [e]
  have e2 : (do
      if o.deferred then releaseEvents s else pure ()
      removeInner P (P.parent s) (P.pos s)
      M.modify fun m => { m with heap := upd m.heap s none }
      match P.parent s with
      | none => pure ()
      | some p => rel p : M W Unit) m = (do
      removeInner P (P.parent s) (P.pos s)
      M.modify fun m => { m with heap := upd m.heap s none }
      match P.parent s with
      | none => pure ()
      | some p => rel p : M W Unit) { m with
        evq := if o.deferred then m.dq ++ m.evq else m.evq
        dq := if o.deferred then [] else m.dq
        qlog := if o.deferred then m.qlog ++ [.release s] else m.qlog } := by
    cases o.deferred <;> rfl
  rw [e2]
  cases hp : P.parent s with
  | none =>
    have h0 := Chart.pos_root hwf hsn hp
    unfold removeInner
    simp only [h0, if_true]
    have : dtorMach P.toChart s o m = { m with
        evq := if o.deferred then m.dq ++ m.evq else m.evq
        dq := if o.deferred then [] else m.dq
        qlog := if o.deferred then m.qlog ++ [.release s] else m.qlog
        outermost := none, heap := upd m.heap s none } := by
      simp [dtorMach, eraseHeap, hp]
    rw [this]; rfl
  | some p =>
    obtain ⟨op, hop⟩ := Option.isSome_iff_exists.1 (hpl p hp)
    have hlt := Chart.pos_lt_some hwf hsn hp
    have : dtorMach P.toChart s o m = { m with
        evq := if o.deferred then m.dq ++ m.evq else m.evq
        dq := if o.deferred then [] else m.dq
        qlog := if o.deferred then m.qlog ++ [.release s] else m.qlog
        heap := upd (upd m.heap p (some { op with inner := upd op.inner (P.pos s) none })) s none } := by
      simp [dtorMach, eraseHeap, hp, hop]
    rw [this]
    have e3 : ∀ m' : Mach W, m'.heap p = some op → removeInner P (some p) (P.pos s) m' =
        .ok () { m' with heap := upd m'.heap p (some { op with inner := upd op.inner (P.pos s) none }) } := by
      intro m' hm'
      unfold removeInner
      show M.bnd (getObj p) _ m' = _
      unfold M.bnd getObj
      simp only [hm', hlt, if_true]
      rfl
    show M.bnd (removeInner P (some p) (P.pos s)) _ _ = _
    unfold M.bnd
    rw [e3 _ (by exact hop)]
    rfl

theorem eraseHeap_some (C : Chart) (hp : Sid → Option Obj) (s x : Sid) (hs : C.parent s ≠ some s) :
    (eraseHeap C hp s x = none ↔ x = s ∨ hp x = none) ∧
    ∀ o, eraseHeap C hp s x = some o → ∃ o', hp x = some o' ∧ o.deferred = o'.deferred := by
  unfold eraseHeap
  cases h : C.parent s with
  | none =>
    simp only [upd]
    by_cases hx : x = s
    · simp [hx]
    · simp [hx]
      exact fun o ho => ⟨o, ho, rfl⟩
  | some p =>
    simp only
    cases hpp : hp p with
    | none =>
      simp only [upd]
      by_cases hx : x = s
      · simp [hx]
      · simp [hx]
        exact fun o ho => ⟨o, ho, rfl⟩
    | some op =>
      simp only [upd]
      by_cases hx : x = s
      · simp [hx]
      · by_cases hxp : x = p
        · subst hxp; simp [hx, hpp]
        · simp [hx, hxp]
          exact fun o ho => ⟨o, ho, rfl⟩

/-- Destruction as the reference machine sees it. -/
theorem abs_dtor (hpl : Plain P) {s : Sid} (hns : P.parent s ≠ some s) {o o0 : Obj} {m0 m1 : Mach W} (hf : Filled m) (ho : m.heap s = some o)
    (hd : o0.deferred = o.deferred)
    (hm0 : m0 = { m with heap := upd m.heap s (some o0) })
    (hm1 : m1 = ((P.dtor s m0.view m0.world).2.foldl Mach.cmd { m0 with world := (P.dtor s m0.view m0.world).1 }).log (.destroy s)) :
    abs (dtorMach P.toChart s o0 m1) = Ref.destroy P s (abs m) := by
  have ha0 : abs m0 = abs m := by rw [hm0]; exact abs_obj ho hd
  have hf0 : Filled m0 := by rw [hm0]; exact hf
  have he : P.dtor s (abs m).view (abs m).world = P.dtor s m0.view m0.world := by
    rw [← ha0]; exact (hpl.dtor s _ (view_same hf0)).symm
  have ha1 : abs m1 = ((P.dtor s (abs m).view (abs m).world).2.foldl Ref.St.cmd
      { abs m with world := (P.dtor s (abs m).view (abs m).world).1 }).log (.destroy s) := by
    rw [hm1, abs_log, abs_cmds, he, ← ha0]; rfl
  have hstep : UserStep m0 m1 [.destroy s] := by
    rw [hm1]; exact (world_step m0 _ _).log (.destroy s)
  have hh1 : m1.heap s = some o0 := by rw [hstep.core.heap, hm0]; simp
  have hdef : (abs m1).defers s = o0.deferred := by simp [abs, hh1]
  have hact : (dtorMach P.toChart s o0 m1).act = fun x => if x = s then false else m1.act x := by
    funext x
    have := (eraseHeap_some P.toChart m1.heap s x hns).1
    show (eraseHeap P.toChart m1.heap s x).isSome = if x = s then false else (m1.heap x).isSome
    by_cases hx : x = s
    · rw [this.2 (.inl hx), if_pos hx]; rfl
    · rw [if_neg hx]
      cases hy : m1.heap x with
      | none => rw [this.2 (.inr hy)]
      | some oy =>
        cases hz : eraseHeap P.toChart m1.heap s x with
        | some _ => rfl
        | none => rcases this.1 hz with h | h
                  · exact absurd h hx
                  · rw [hy] at h; cases h
  have hdefs : (abs (dtorMach P.toChart s o0 m1)).defers = fun x => if x = s then false else (abs m1).defers x := by
    funext x
    have h1 := eraseHeap_some P.toChart m1.heap s x hns
    show (match eraseHeap P.toChart m1.heap s x with | none => false | some o => o.deferred) =
      if x = s then false else match m1.heap x with | none => false | some o => o.deferred
    by_cases hx : x = s
    · rw [h1.1.2 (.inl hx), if_pos hx]
    · rw [if_neg hx]
      cases hz : eraseHeap P.toChart m1.heap s x with
      | none =>
        rcases h1.1.1 hz with h | h
        · exact absurd h hx
        · rw [h]
      | some oz =>
        obtain ⟨o', h2, h3⟩ := h1.2 oz hz
        rw [h2]; exact h3
  have hR : Ref.destroy P s (abs m) =
      let st := abs m1
      let st := if st.defers s then { st with evq := st.dq ++ st.evq, dq := [] } else st
      { st with
        act := fun x => if x = s then false else st.act x
        defers := fun x => if x = s then false else st.defers x
        root := if P.parent s = none then none else st.root } := by
    rw [ha1]; rfl
  rw [hR]
  simp only [hdef]
  have hb : abs (dtorMach P.toChart s o0 m1) =
      { abs m1 with
        act := (dtorMach P.toChart s o0 m1).act
        defers := (abs (dtorMach P.toChart s o0 m1)).defers
        root := if P.parent s = none then none else m1.outermost
        evq := if o0.deferred then m1.dq ++ m1.evq else m1.evq
        dq := if o0.deferred then [] else m1.dq } := rfl
  rw [hb, hact, hdefs]
  cases o0.deferred <;> rfl

theorem releaseF_sim (hwf : P.toChart.WF) (hpl : Plain P) : ∀ (f : Nat) (s : Sid) (L : Sid → Nat) (pend : Option Sid) (m : Mach W),
    s < f → Inv P.toChart L pend m → L s ≠ 0 →
    (pend = none ∨ (pend = some s ∧ ∀ o, m.heap s = some o → o.rc = 1)) →
    Sim id (releaseF P f s) (Ref.R.modify (Ref.drop P (lockOf (dec L s)) f (some s))) m := by
  intro f
  induction f with
  | zero => intro s L pend m hf; omega
  | succ f ih =>
    intro s L pend m hf h hL hpend
    obtain ⟨o, ho⟩ := Option.isSome_iff_exists.1 (h.L_live hL)
    have hsn := h.bound ho
    have hrc := h.rc ho
    have hneed := needed_iff hwf h ho hL
    have hns : P.parent s ≠ some s := fun hp => Nat.lt_irrefl _ (hwf.parent_lt hsn hp)
    unfold releaseF
    refine sim_getObj fun o' ho' => ?_
    rw [ho] at ho'; cases ho'
    rw [if_neg (by omega)]
    by_cases h1 : o.rc = 1
    · rw [if_pos h1]
      have hL1 : L s = 1 := by omega
      have hou : m.pOU ≠ some s := by intro hh; rw [if_pos hh] at hrc; omega
      have hsl : m.slot o.lpos ≠ some s := by
        intro hh; simp [hh] at hrc; omega
      have hn : nch (P.regions (some s)) o.inner = 0 := by omega
      have hcl : childless P.toChart m.act s = true := (h.childless_iff hwf ho).2 hn
      have hnn : Ref.needed P (lockOf (dec L s)) (abs m) s = false := by
        cases hx : Ref.needed P (lockOf (dec L s)) (abs m) s with
        | false => rfl
        | true => have := hneed.1 hx; omega
      generalize hm0 : ({ m with heap := upd m.heap s (some { o with rc := 0 }) } : Mach W) = m0
      have hstep : UserStep m0 ((P.dtor s m0.view m0.world).2.foldl Mach.cmd { m0 with world := (P.dtor s m0.view m0.world).1 }) [] :=
        world_step m0 _ _
      have hlog := hstep.log (.destroy s)
      generalize hm1 : (((P.dtor s m0.view m0.world).2.foldl Mach.cmd { m0 with world := (P.dtor s m0.view m0.world).1 }).log (.destroy s)) = m1 at hlog
      have hheap1 : m1.heap = upd m.heap s (some { o with rc := 0 }) := by
        rw [hlog.core.heap, ← hm0]
      have hparl : ∀ p, P.parent s = some p → (m1.heap p).isSome := by
        intro p hp
        rw [hheap1]
        have hps : p ≠ s := fun hh => Nat.lt_irrefl _ (hh ▸ hwf.parent_lt hsn hp)
        simp [hps]
        exact h.par_live (by simp [ho]) hp
      have hbd := baseDtor_eq hwf hsn (m := m1) (o := { o with rc := 0 }) (by rw [hheap1]; simp) (by have := h.ctx ho; exact this) hparl (releaseF P f)
      have habs := abs_dtor hpl hns (o0 := { o with rc := 0 }) h.filled ho rfl hm0.symm hm1.symm
      generalize hm2 : dtorMach P.toChart s { o with rc := 0 } m1 = m2 at hbd habs
      have hrun : (do
          setObj s { o with rc := 0 }
          userDtor P s
          baseDtor P (releaseF P f) s : M W Unit) m = (match P.parent s with
            | none => pure ()
            | some p => releaseF P f p) m2 := by
        rw [← hbd]
        show M.bnd (setObj s { o with rc := 0 }) _ m = _
        unfold M.bnd setObj M.modify
        simp only [hm0]
        show M.bnd (userDtor P s) _ m0 = _
        unfold M.bnd userDtor M.modify
        simp only [hm1]
      have hR : Ref.drop P (lockOf (dec L s)) (f + 1) (some s) (abs m) = Ref.drop P (lockOf (dec L s)) f (P.parent s) (abs m2) := by
        rw [Ref.drop, hnn, habs]; rfl
      have herase : m2.heap = eraseHeap P.toChart m.heap s := by
        rw [← hm2]
        show eraseHeap P.toChart m1.heap s = _
        rw [hheap1]
        unfold eraseHeap
        cases hp : P.parent s with
        | none => simp
        | some p =>
          have hps : p ≠ s := fun hh => Nat.lt_irrefl _ (hh ▸ hwf.parent_lt hsn hp)
          simp only [upd_other _ _ hps]
          cases m.heap p with
          | none => simp
          | some op =>
            simp only
            funext x
            simp only [upd]; split
            · rfl
            · split <;> rfl
      have hfr1 : Frame m m1 := by
        have := hlog.core.frame
        subst hm0
        exact ⟨this.slot, this.len, this.endIx, this.ico, this.pOU, this.fullExit, this.trig⟩
      have hfr : Frame m m2 := by
        rw [← hm2]; exact ⟨hfr1.slot, hfr1.len, hfr1.endIx, hfr1.ico, hfr1.pOU, hfr1.fullExit, hfr1.trig⟩
      have htr : m2.trace = m.trace ++ [(m.trig, .destroy s)] := by
        rw [← hm2]
        show m1.trace = _
        rw [hlog.trace, ← hm0]; simp
      have hinv : Inv P.toChart (incCtx (upd L s 0) (P.parent s)) none m2 := by
        refine h.erase hwf ho (by omega) hn hou hsl herase hfr.slot hfr.len ⟨_, htr⟩ hfr.endIx ?_ hfr.pOU ?_ ?_
        · rw [← hm2]
          show (if P.parent s = none then none else m1.outermost) = _
          rw [hlog.core.outermost, ← hm0]
        · have h3 : HistOK P.toChart m1 := by
            refine hlog.hist _ ?_
            rw [← hm0]; exact ⟨h.hist.sh, h.hist.dh⟩
          rw [← hm2]; exact ⟨h3.sh, h3.dh⟩
        · rw [htr]
          simp only [List.map_append, List.map_cons, List.map_nil]
          rw [life_snoc, h.tr]
          simp only [Option.bind_some, lifeStep]
          rw [if_pos]
          refine ⟨?_, by simp [Mach.act, ho], hcl⟩
          rcases hpend with hp | ⟨hp, _⟩
          · exact .inl hp
          · exact .inr hp
      have hdec : dec L s = upd L s 0 := by simp [dec, hL1]
      have key : Sim id (match P.parent s with
            | none => (pure () : M W Unit)
            | some p => releaseF P f p) (Ref.R.modify (Ref.drop P (lockOf (dec L s)) f (P.parent s))) m2 := by
        cases hp : P.parent s with
        | none =>
          show Ref.Out.ok () (Ref.drop P (lockOf (dec L s)) f none (abs m2)) = .ok () (abs m2)
          cases f <;> rfl
        | some p =>
          rw [hp] at hinv; simp only [incCtx] at hinv
          have hplt := hwf.parent_lt hsn hp
          have := ih p _ none m2 (by omega) hinv (by simp) (.inl rfl)
          rw [dec_inc, ← hdec] at this
          exact this
      unfold Sim at key ⊢
      rw [hrun]
      have e : Ref.R.modify (Ref.drop P (lockOf (dec L s)) (f + 1) (some s)) (abs m) =
          Ref.R.modify (Ref.drop P (lockOf (dec L s)) f (P.parent s)) (abs m2) := by
        unfold Ref.R.modify; rw [hR]
      rw [e]; exact key
    · rw [if_neg h1]
      have hnn : Ref.needed P (lockOf (dec L s)) (abs m) s = true := hneed.2 (by omega)
      refine .of_ok (a := ()) (m' := { m with heap := upd m.heap s (some { o with rc := o.rc - 1 }) }) rfl ?_
      rw [abs_obj ho (o' := { o with rc := o.rc - 1 }) rfl]
      show Ref.Out.ok () (Ref.drop P (lockOf (dec L s)) (f + 1) (some s) (abs m)) = _
      rw [Ref.drop, hnn]; rfl

theorem release_sim (hwf : P.toChart.WF) (hpl : Plain P) {s : Sid} (h : Inv P.toChart L pend m) (hL : L s ≠ 0)
    (hpend : pend = none ∨ (pend = some s ∧ ∀ o, m.heap s = some o → o.rc = 1)) :
    Sim id (release P s) (Ref.R.modify (Ref.drop P (lockOf (dec L s)) P.n (some s))) m := by
  have hsn := h.live_bound (h.L_live hL)
  have := releaseF_sim hwf hpl _ s L pend m (Nat.lt_succ_self s) h hL hpend
  have e : Ref.drop P (lockOf (dec L s)) (s + 1) (some s) = Ref.drop P (lockOf (dec L s)) P.n (some s) := by
    funext st
    refine drop_fuel hwf _ _ _ _ _ ?_
    intro x hx; cases hx; omega
  rw [e] at this
  exact this

/-- The last reference: `s` goes. -/
theorem release_last_sim (hwf : P.toChart.WF) (hpl : Plain P) {s : Sid} (h : Inv P.toChart L pend m) (hL : L s ≠ 0) {o : Obj} (ho : m.heap s = some o)
    (hrc : o.rc = 1) (hpend : pend = none ∨ pend = some s) :
    Sim id (release P s) (Ref.R.modify fun st => Ref.drop P (lockOf (dec L s)) P.n (P.parent s) (Ref.destroy P s st)) m := by
  have hsn := h.bound ho
  have := release_sim hwf hpl h hL (hpend.imp id (fun hp => ⟨hp, fun o' ho' => by rw [ho] at ho'; cases ho'; exact hrc⟩))
  have hnn : Ref.needed P (lockOf (dec L s)) (abs m) s = false := by
    cases hx : Ref.needed P (lockOf (dec L s)) (abs m) s with
    | false => rfl
    | true => have := (needed_iff hwf h ho hL).1 hx; omega
  have e : Ref.drop P (lockOf (dec L s)) P.n (some s) (abs m) = Ref.drop P (lockOf (dec L s)) P.n (P.parent s) (Ref.destroy P s (abs m)) := by
    obtain ⟨k, hk⟩ : ∃ k, P.n = k + 1 := ⟨P.n - 1, by omega⟩
    have e1 : Ref.drop P (lockOf (dec L s)) P.n (P.parent s) (Ref.destroy P s (abs m)) =
        Ref.drop P (lockOf (dec L s)) k (P.parent s) (Ref.destroy P s (abs m)) := by
      refine drop_fuel hwf _ _ _ _ _ ?_
      intro p hp
      have := hwf.parent_lt hsn hp
      omega
    rw [e1, hk, Ref.drop, hnn]; rfl
  exact this.congr (by unfold Ref.R.modify; rw [e])

/-- ... while the context is kept by something else. -/
theorem release_one_sim (hwf : P.toChart.WF) (hpl : Plain P) {s : Sid} (h : Inv P.toChart L pend m) (hL : L s ≠ 0) {o : Obj} (ho : m.heap s = some o)
    (hrc : o.rc = 1) (hpend : pend = none ∨ pend = some s) (hp : ∀ p, P.parent s = some p → L p ≠ 0) :
    Sim id (release P s) (Ref.R.modify (Ref.destroy P s)) m := by
  have := release_last_sim hwf hpl h hL ho hrc hpend
  have hsn := h.bound ho
  have e : ∀ st : Ref.St W, Ref.drop P (lockOf (dec L s)) P.n (P.parent s) st = st := by
    intro st
    cases hps : P.parent s with
    | none => cases P.n <;> rfl
    | some p =>
      obtain ⟨k, hk⟩ : ∃ k, P.n = k + 1 := ⟨P.n - 1, by omega⟩
      have hlt := hwf.parent_lt hsn hps
      rw [hk, Ref.drop, if_pos]
      have : lockOf (dec L s) p = true := by
        simp [lockOf, dec_other L (show p ≠ s by omega), hp p hps]
      simp [Ref.needed, this]
  simp only [e] at this
  exact this

end SC
