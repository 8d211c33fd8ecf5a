import Verif.Release
/-!
# `release` destroys exactly the unreferenced states, outward
-/

namespace SC
open Spec
variable {W : Type} {P : Prog W} {L : Sid → Nat} {pend : Option Sid} {m : Mach W}

/-- Members not touched by destruction of states. -/
structure Frame (m m' : Mach W) : Prop where
  slot : m'.slot = m.slot
  len : m'.len = m.len
  endIx : m'.endIx = m.endIx
  ico : m'.ico = m.ico
  pOU : m'.pOU = m.pOU
  fullExit : m'.fullExit = m.fullExit
  trig : m'.trig = m.trig

theorem Frame.refl (m : Mach W) : Frame m m := by constructor <;> rfl

theorem Frame.trans {a b c : Mach W} (h1 : Frame a b) (h2 : Frame b c) : Frame a c := by
  constructor
  · rw [h2.slot, h1.slot]
  · rw [h2.len, h1.len]
  · rw [h2.endIx, h1.endIx]
  · rw [h2.ico, h1.ico]
  · rw [h2.pOU, h1.pOU]
  · rw [h2.fullExit, h1.fullExit]
  · rw [h2.trig, h1.trig]

theorem SameCore.frame {m m' : Mach W} (h : SameCore m m') : Frame m m' :=
  ⟨h.slot, h.len, h.endIx, h.ico, h.pOU, h.fullExit, h.trig⟩

/-- Observations "destroyed", in order, under the triggering event `t`. -/
def destroys (t : Option Event) (l : List Sid) : List (Option Event × Obs) := l.map fun s => (t, .destroy s)

/-- What the destructor of `s` (with its base) does, up to the release of the context. -/
structure DtorStep (C : Chart) (s : Sid) (m m' : Mach W) : Prop where
  heap : m'.heap = eraseHeap C m.heap s
  outermost : m'.outermost = if C.parent s = none then none else m.outermost
  frame : Frame m m'
  hist : HistOK C m → HistOK C m'

theorem eraseHeap_ne (C : Chart) (hp : Sid → Option Obj) (s x : Sid) (hx : x ≠ s) (hxp : C.parent s ≠ some x) :
    eraseHeap C hp s x = hp x := by
  unfold eraseHeap
  cases h : C.parent s with
  | none => simp [hx]
  | some p =>
    have : x ≠ p := fun h' => hxp (by rw [h, h'])
    simp only
    cases hp p <;> simp [hx, this]

/-- `baseDtor` for a state whose context is set and alive. -/
theorem baseDtor_wp (hwf : P.toChart.WF) {s : Sid} (hsn : s < P.n) {o : Obj} (ho : m.heap s = some o) (hc : o.ctxSet = true)
    (hpl : ∀ p, P.parent s = some p → (m.heap p).isSome)
    {rel : Sid → M W Unit} {Q : Unit → Mach W → Prop} {E : Exc → Mach W → Prop}
    (hq : ∀ m', DtorStep P.toChart s m m' → m'.trace = m.trace →
      match P.parent s with
      | none => Q () m'
      | some p => wp (rel p) Q E m') :
    wp (baseDtor P rel s) Q E m := by
  have hns : P.parent s ≠ some s := fun hp => Nat.lt_irrefl _ (hwf.parent_lt hsn hp)
  have key : ∀ m1 : Mach W, SameCore m m1 → m1.trace = m.trace → (HistOK P.toChart m → HistOK P.toChart m1) →
      wp (do removeInner P (P.parent s) (P.pos s)
             M.modify fun m => { m with heap := upd m.heap s none }
             match P.parent s with
             | none => pure ()
             | some p => rel p) Q E m1 := by
    intro m1 hm1 htr hh
    cases hp : P.parent s with
    | none =>
      have h0 := Chart.pos_root hwf hsn hp
      simp only [removeInner, h0, if_true, wp_bind, wp_modify, wp_pure]
      have := hq { m1 with outermost := none, heap := upd m1.heap s none } ?_ htr
      · rw [hp] at this; exact this
      · refine ⟨?_, ?_, ?_, ?_⟩
        · simp [eraseHeap, hp, hm1.heap]
        · simp [hp]
        · exact ⟨hm1.slot, hm1.len, hm1.endIx, hm1.ico, hm1.pOU, hm1.fullExit, hm1.trig⟩
        · intro h; exact ⟨(hh h).sh, (hh h).dh⟩
    | some p =>
      obtain ⟨op, hop⟩ := Option.isSome_iff_exists.1 (hpl p hp)
      have hlt := Chart.pos_lt_some hwf hsn hp
      simp only [removeInner, wp_bind, wp_getObj]
      refine ⟨op, by rw [hm1.heap]; exact hop, ?_⟩
      rw [if_pos hlt]
      simp only [wp_setObj, wp_modify]
      have := hq { m1 with heap := upd (upd m1.heap p (some { op with inner := upd op.inner (P.pos s) none })) s none } ?_ htr
      · rw [hp] at this; exact this
      · refine ⟨?_, ?_, ?_, ?_⟩
        · simp [eraseHeap, hp, hm1.heap, hop]
        · simp [hp, hm1.outermost]
        · exact ⟨hm1.slot, hm1.len, hm1.endIx, hm1.ico, hm1.pOU, hm1.fullExit, hm1.trig⟩
        · intro h; exact ⟨(hh h).sh, (hh h).dh⟩
  unfold baseDtor
  simp only [wp_bind, wp_getObj]
  refine ⟨o, ho, ?_⟩
  rw [if_pos hc]
  by_cases hd : o.deferred = true
  · rw [if_pos hd]
    simp only [releaseEvents, wp_bind, wp_modify]
    have := key { m with evq := m.dq ++ m.evq, dq := [], qlog := m.qlog ++ [.release s] }
      (by constructor <;> rfl) rfl (fun h => ⟨h.sh, h.dh⟩)
    simp only [wp_bind] at this
    exact this
  · rw [if_neg hd]
    simp only [wp_bind]
    have := key m (.refl m) rfl (fun h => h)
    simp only [wp_bind] at this
    exact this

/-- Result of `release s`: `l` are the destroyed states. -/
structure RelPost (P : Prog W) (L : Sid → Nat) (s : Sid) (m m' : Mach W) (l : List Sid) : Prop where
  inv : Inv P.toChart (dec L s) none m'
  frame : Frame m m'
  trace : m'.trace = m.trace ++ destroys m.trig l
  act : m'.act = without m.act l
  below : ∀ x ∈ l, Below P.toChart x s
  keep : ∀ o, m.heap s = some o → 2 ≤ o.rc → l = []
  last : ∀ o, m.heap s = some o → o.rc = 1 → ∃ l', l = s :: l' ∧
    ((∀ p, P.parent s = some p → L p ≠ 0) → l' = [])

theorem without_nil (act : Sid → Bool) : without act [] = act := by
  funext x; simp [without]

theorem without_single (act : Sid → Bool) (s : Sid) :
    without act [s] = fun x => if x = s then false else act x := by
  funext x
  by_cases h : x = s <;> simp [without, h]

theorem without_cons (act : Sid → Bool) (s : Sid) (l : List Sid) :
    without act (s :: l) = without (without act [s]) l := by
  funext x; simp [without]; cases act x <;> simp

theorem without_append (act : Sid → Bool) (l l' : List Sid) :
    without act (l ++ l') = without (without act l) l' := by
  funext x; simp [without, Bool.and_assoc]

theorem releaseF_wp (hwf : P.toChart.WF) : ∀ (f : Nat) (s : Sid) (L : Sid → Nat) (pend : Option Sid) (m : Mach W),
    s < f → Inv P.toChart L pend m → L s ≠ 0 →
    (pend = none ∨ (pend = some s ∧ ∀ o, m.heap s = some o → o.rc = 1)) →
    wp (releaseF P f s) (fun _ m' => ∃ l, RelPost P L s m m' l) (fun _ _ => False) m := by
  intro f
  induction f with
  | zero => intro s L pend m hf; omega
  | succ f ih =>
    intro s L pend m hf h hL hpend
    obtain ⟨o, ho⟩ := Option.isSome_iff_exists.1 (h.L_live hL)
    have hsn := h.bound ho
    have hrc := h.rc ho
    unfold releaseF
    simp only [wp_bind, wp_getObj]
    refine ⟨o, ho, ?_⟩
    rw [if_neg (by omega)]
    by_cases h1 : o.rc = 1
    · rw [if_pos h1]
      simp only [wp_bind, wp_setObj]
      have hL1 : L s = 1 := by omega
      have hou : m.pOU ≠ some s := by intro hh; rw [if_pos hh] at hrc; omega
      have hsl : m.slot o.lpos ≠ some s := by
        intro hh; simp [hh] at hrc; omega
      have hn : nch (P.regions (some s)) o.inner = 0 := by omega
      have hcl : childless P.toChart m.act s = true := (h.childless_iff hwf ho).2 hn
      -- the machine while the user's destructor runs
      generalize hm0 : ({ m with heap := upd m.heap s (some { o with rc := 0 }) } : Mach W) = m0
      have hstep : UserStep m0 ((P.dtor s m0.view m0.world).2.foldl Mach.cmd { m0 with world := (P.dtor s m0.view m0.world).1 }) [] :=
        world_step m0 _ _
      have hlog := hstep.log (.destroy s)
      show wp (userDtor P s) _ _ m0
      unfold userDtor
      simp only [wp_modify]
      generalize hm1 : (((P.dtor s m0.view m0.world).2.foldl Mach.cmd { m0 with world := (P.dtor s m0.view m0.world).1 }).log (.destroy s)) = m1 at hlog
      have hheap1 : m1.heap = upd m.heap s (some { o with rc := 0 }) := by
        rw [hlog.core.heap, ← hm0]
      refine baseDtor_wp hwf hsn (o := { o with rc := 0 }) (by rw [hheap1]; simp) (by have := h.ctx ho; exact this) ?_ ?_
      · intro p hp
        rw [hheap1]
        have hps : p ≠ s := fun hh => Nat.lt_irrefl _ (hh ▸ hwf.parent_lt hsn hp)
        simp [hps]
        exact h.par_live (by simp [ho]) hp
      · intro m2 hd htr2
        have herase : m2.heap = eraseHeap P.toChart m.heap s := by
          rw [hd.heap, hheap1]
          unfold eraseHeap
          cases hp : P.parent s with
          | none => simp
          | some p =>
            have hps : p ≠ s := fun hh => Nat.lt_irrefl _ (hh ▸ hwf.parent_lt hsn hp)
            simp only [upd_other _ _ hps]
            cases m.heap p with
            | none => simp
            | some op =>
              simp only
              funext x
              simp only [upd]; split
              · rfl
              · split <;> rfl
        have hfr1 : Frame m m1 := by
          have := hlog.core.frame
          subst hm0
          exact ⟨this.slot, this.len, this.endIx, this.ico, this.pOU, this.fullExit, this.trig⟩
        have hfr : Frame m m2 := hfr1.trans hd.frame
        have htr : m2.trace = m.trace ++ [(m.trig, .destroy s)] := by
          rw [htr2, hlog.trace, ← hm0]; simp
        have hinv : Inv P.toChart (incCtx (upd L s 0) (P.parent s)) none m2 := by
          refine h.erase hwf ho (by omega) hn hou hsl herase hfr.slot hfr.len ⟨_, htr⟩ hfr.endIx ?_ hfr.pOU ?_ ?_
          · rw [hd.outermost, hlog.core.outermost, ← hm0]
          · refine hd.hist (hlog.hist _ ?_)
            rw [← hm0]; exact ⟨h.hist.sh, h.hist.dh⟩
          · rw [htr]
            simp only [List.map_append, List.map_cons, List.map_nil]
            rw [life_snoc, h.tr]
            simp only [Option.bind_some, lifeStep]
            rw [if_pos]
            refine ⟨?_, by simp [Mach.act, ho], hcl⟩
            rcases hpend with hp | ⟨hp, _⟩
            · exact .inl hp
            · exact .inr hp
        have hact2 : m2.act = without m.act [s] := by
          have hA := hinv.tr
          rw [htr] at hA
          simp only [List.map_append, List.map_cons, List.map_nil] at hA
          rw [life_snoc, h.tr] at hA
          simp only [Option.bind_some, lifeStep] at hA
          split at hA
          · have := Option.some.inj hA
            have := congrArg Life.act this
            simp only at this
            rw [← this]
            exact (without_single _ _).symm
          · cases hA
        have hdec : dec L s = upd L s 0 := by simp [dec, hL1]
        cases hp : P.parent s with
        | none =>
          simp only
          rw [hp] at hinv; simp only [incCtx] at hinv
          refine ⟨[s], ?_⟩
          refine ⟨by rw [hdec]; exact hinv, hfr, htr, hact2, ?_, ?_, ?_⟩
          · intro x hx; simp at hx; subst hx; exact .refl
          · intro o' ho' h2; rw [ho] at ho'; cases ho'; omega
          · intro o' ho' h2; exact ⟨[], rfl, fun _ => rfl⟩
        | some p =>
          simp only
          rw [hp] at hinv; simp only [incCtx] at hinv
          have hplt := hwf.parent_lt hsn hp
          refine wp_mono (ih p _ none m2 (by omega) hinv (by simp) (.inl rfl)) ?_ (fun _ _ h => h)
          rintro _ m3 ⟨l, hr⟩
          refine ⟨s :: l, ?_, hfr.trans hr.frame, ?_, ?_, ?_, ?_, ?_⟩
          · rw [hdec]; simpa using hr.inv
          · rw [hr.trace, htr, hfr.trig]; simp [destroys]
          · rw [hr.act, hact2, ← without_cons]
          · intro x hx
            rcases List.mem_cons.1 hx with rfl | hx
            · exact .refl
            · exact .step hp (hr.below x hx)
          · intro o' ho' h2; rw [ho] at ho'; cases ho'; omega
          · intro o' ho' _
            refine ⟨l, rfl, fun hlock => ?_⟩
            have hps : p ≠ s := fun hh => Nat.lt_irrefl _ (hh ▸ hwf.parent_lt hsn hp)
            have hLp := hlock p hp
            obtain ⟨op, hop⟩ := Option.isSome_iff_exists.1 (hinv.L_live (s := p) (by simp))
            refine hr.keep op hop ?_
            have := hinv.rc hop
            simp [hps] at this
            omega
    · rw [if_neg h1]
      simp only [wp_setObj]
      refine ⟨[], ?_⟩
      have hpn : pend = none := by
        rcases hpend with hp | ⟨_, hp⟩
        · exact hp
        · exact absurd (hp o ho) h1
      subst hpn
      refine ⟨h.dropRef ho hL (by omega), ⟨rfl, rfl, rfl, rfl, rfl, rfl, rfl⟩, by simp [destroys], ?_, by simp, fun _ _ _ => rfl, ?_⟩
      · rw [without_nil]
        funext x; simp only [Mach.act, upd]; split
        · next hx => subst hx; simp [ho]
        · rfl
      · intro o' ho' h2; rw [ho] at ho'; cases ho'; exact absurd h2 h1

theorem release_wp (hwf : P.toChart.WF) {s : Sid} (h : Inv P.toChart L pend m) (hL : L s ≠ 0)
    (hpend : pend = none ∨ (pend = some s ∧ ∀ o, m.heap s = some o → o.rc = 1)) :
    wp (release P s) (fun _ m' => ∃ l, RelPost P L s m m' l) (fun _ _ => False) m :=
  releaseF_wp hwf _ _ _ _ _ (Nat.lt_succ_self s) h hL hpend

/-- `pOU` assignment. The old value must be referenced from elsewhere. -/
theorem setOU_wp (h : Inv P.toChart L pend m) (new : Option Sid)
    (hnew : ∀ t, new = some t → (m.heap t).isSome ∧ P.isLeaf t = false)
    (hold : ∀ t, m.pOU = some t → new ≠ some t → ∃ o, m.heap t = some o ∧ (L t ≠ 0 ∨ nch (P.regions (some t)) o.inner ≠ 0))
    {Q : Unit → Mach W → Prop} {E : Exc → Mach W → Prop}
    (hq : ∀ m', Inv P.toChart L pend m' → m'.pOU = new → m'.act = m.act → m'.trace = m.trace →
      m'.slot = m.slot → m'.len = m.len → m'.endIx = m.endIx → m'.ico = m.ico →
      m'.fullExit = m.fullExit → m'.trig = m.trig → m'.outermost = m.outermost →
      (∀ x o, m.heap x = some o → ∃ o', m'.heap x = some o' ∧ o'.inner = o.inner ∧ o'.lpos = o.lpos) →
      (m'.sh = m.sh ∧ m'.dh = m.dh ∧ m'.hlog = m.hlog) →
      Q () m') :
    wp (setOU new) Q E m := by
  -- generic heap transformation: change counts according to the new pointer
  have gen : ∀ (hp : Sid → Option Obj),
      (∀ x o, m.heap x = some o → ∃ o', hp x = some o' ∧ o'.inner = o.inner ∧ o'.lpos = o.lpos ∧ o'.ctxSet = o.ctxSet ∧
        o'.rc + (if m.pOU = some x then 1 else 0) = o.rc + (if new = some x then 1 else 0)) →
      (∀ x, m.heap x = none → hp x = none) → Q () { m with heap := hp, pOU := new } := by
    intro hp h1 h2
    have hiso : ∀ x, (hp x).isSome = (m.heap x).isSome := by
      intro x
      cases hx : m.heap x with
      | none => rw [h2 x hx]
      | some o => obtain ⟨o', ho', _⟩ := h1 x o hx; simp [ho']
    have hback : ∀ {x o'}, hp x = some o' → ∃ o, m.heap x = some o ∧ o'.inner = o.inner ∧ o'.lpos = o.lpos ∧ o'.ctxSet = o.ctxSet ∧
        o'.rc + (if m.pOU = some x then 1 else 0) = o.rc + (if new = some x then 1 else 0) := by
      intro x o' hx
      cases hm : m.heap x with
      | none => rw [h2 x hm] at hx; cases hx
      | some o =>
        obtain ⟨o2, ho2, hr⟩ := h1 x o hm
        rw [hx] at ho2; cases ho2
        exact ⟨o, rfl, hr⟩
    have hact : Mach.act ({ m with heap := hp, pOU := new } : Mach W) = m.act := by
      funext x; exact hiso x
    refine hq _ ?_ rfl hact rfl rfl rfl rfl rfl rfl rfl rfl ?_ ⟨rfl, rfl, rfl⟩
    · constructor
      · intro x o hx; obtain ⟨o', h3, _⟩ := hback hx; exact h.bound h3
      · intro x o hx; obtain ⟨o', h3, _, _, h4, _⟩ := hback hx; rw [h4]; exact h.ctx h3
      · intro x o i c hx
        obtain ⟨o', h3, h4, _⟩ := hback hx
        rw [h4]; simp only [hiso]; exact h.inner_iff h3
      · intro x p; simp only [hiso]; exact h.par_live
      · intro x; simp only [hiso]; exact h.outer
      · intro i hi
        obtain ⟨x, o, h3, h4, h5, h6⟩ := h.slot_in hi
        obtain ⟨o', h7, _, h8, _⟩ := h1 x o h4
        exact ⟨x, o', h3, h7, h5, by rw [h8]; exact h6⟩
      · exact h.slot_out
      · exact h.end_le
      · intro x o hx hl hL
        obtain ⟨o', h3, _, h4, _⟩ := hback hx
        rw [h4]; exact h.leaf_in h3 hl hL
      · intro x o hx
        obtain ⟨o', h3, h4, h5, _, h6⟩ := hback hx
        have := h.rc h3
        simp only [h4, h5]
        omega
      · intro x hx
        simp only [hiso]; exact hnew x hx
      · intro x; simp only [hiso]; exact h.L_live
      · intro x o hx hl hn
        obtain ⟨o', h3, h4, h5, _, h6⟩ := hback hx
        rw [h4] at hn
        by_cases hxn : new = some x
        · exact .inl hxn
        · rcases h.noOrphan h3 hl hn with hA | hA
          · obtain ⟨o2, ho2, hB⟩ := hold x hA hxn
            rw [h3] at ho2; cases ho2
            rcases hB with hB | hB
            · exact .inr hB
            · exact absurd hn hB
          · exact .inr hA
      · exact ⟨h.hist.sh, h.hist.dh⟩
      · rw [hact]; exact h.tr
    · intro x o hx
      obtain ⟨o', h3, h4, h5, _⟩ := h1 x o hx
      exact ⟨o', h3, h4, h5⟩
  unfold setOU
  cases hn : new with
  | none =>
    cases hm : m.pOU with
    | none =>
      simp only [wp_bind, wp_pure, wp_get, wp_modify, hm]
      have := gen m.heap (fun x o hx => ⟨o, hx, rfl, rfl, rfl, by simp [hm, hn]⟩) (fun _ h => h)
      rw [hn] at this; exact this
    | some t =>
      obtain ⟨o, ho, hB⟩ := hold t hm (by rw [hn]; simp)
      have hrc := h.rc ho
      rw [if_pos hm] at hrc
      simp only [wp_bind, wp_pure, wp_get, wp_modify, hm, releaseBase, wp_getObj]
      refine ⟨o, ho, ?_⟩
      rw [if_neg (by omega)]
      simp only [wp_setObj]
      have := gen (upd m.heap t (some { o with rc := o.rc - 1 })) ?_ ?_
      · rw [hn] at this; exact this
      · intro x ox hx
        by_cases hxt : x = t
        · subst hxt; rw [ho] at hx; cases hx
          exact ⟨_, upd_same _ _ _, rfl, rfl, rfl, by simp [hm, hn]; omega⟩
        · exact ⟨ox, by simp [hxt, hx], rfl, rfl, rfl, by simp [hm, hn]; intro h; exact absurd h.symm hxt⟩
      · intro x hx
        have hxt : x ≠ t := by intro h; subst h; rw [ho] at hx; cases hx
        simp [hxt, hx]
  | some a =>
    obtain ⟨ha, hal⟩ := hnew a hn
    obtain ⟨oa, hoa⟩ := Option.isSome_iff_exists.1 ha
    simp only [wp_bind, addRef, wp_getObj]
    refine ⟨oa, hoa, ?_⟩
    simp only [wp_setObj, wp_get, wp_modify]
    cases hm : m.pOU with
    | none =>
      simp only [wp_pure]
      have := gen (upd m.heap a (some { oa with rc := oa.rc + 1 })) ?_ ?_
      · rw [hn] at this; exact this
      · intro x ox hx
        by_cases hxt : x = a
        · subst hxt; rw [hoa] at hx; cases hx
          exact ⟨_, upd_same _ _ _, rfl, rfl, rfl, by simp [hm, hn]⟩
        · exact ⟨ox, by simp [hxt, hx], rfl, rfl, rfl, by simp [hm, hn]; intro h; exact absurd h.symm hxt⟩
      · intro x hx
        have hxt : x ≠ a := by intro h; subst h; rw [hoa] at hx; cases hx
        simp [hxt, hx]
    | some t =>
      simp only [releaseBase, wp_bind, wp_getObj]
      by_cases hta : t = a
      · subst hta
        have hrc := h.rc hoa
        rw [if_pos hm] at hrc
        refine ⟨{ oa with rc := oa.rc + 1 }, by simp, ?_⟩
        rw [if_neg (by simp; omega)]
        simp only [wp_setObj]
        have := gen m.heap ?_ (fun _ h => h)
        · rw [hn] at this
          have e : upd (upd m.heap t (some { oa with rc := oa.rc + 1 })) t
              (some { oa with rc := oa.rc + 1 - 1 }) = m.heap := by
            rw [upd_upd]; funext x; simp only [upd]; split
            · next hx => subst hx; simp [hoa]
            · rfl
          simp only [e]; exact this
        · intro x ox hx
          exact ⟨ox, hx, rfl, rfl, rfl, by simp [hm, hn]⟩
      · obtain ⟨o, ho, hB⟩ := hold t hm (by rw [hn]; intro h; exact hta (Option.some.inj h).symm)
        have hrc := h.rc ho
        rw [if_pos hm] at hrc
        refine ⟨o, by simp [hta, ho], ?_⟩
        rw [if_neg (by omega)]
        simp only [wp_setObj]
        have := gen (upd (upd m.heap a (some { oa with rc := oa.rc + 1 })) t (some { o with rc := o.rc - 1 })) ?_ ?_
        · rw [hn] at this; exact this
        · intro x ox hx
          by_cases hxt : x = t
          · subst hxt; rw [ho] at hx; cases hx
            exact ⟨_, upd_same _ _ _, rfl, rfl, rfl, by
              have : (a = x) = False := by simp; exact fun h => hta h.symm
              simp [hm, hn, this]; omega⟩
          · by_cases hxa : x = a
            · subst hxa; rw [hoa] at hx; cases hx
              exact ⟨{ oa with rc := oa.rc + 1 }, by simp [hxt], rfl, rfl, rfl, by simp [hm, hn, hta]⟩
            · exact ⟨ox, by simp [hxt, hxa, hx], rfl, rfl, rfl, by
                have h1 : (a = x) = False := by simp; exact fun h => hxa h.symm
                have h2 : (t = x) = False := by simp; exact fun h => hxt h.symm
                simp [hm, hn, h1, h2]⟩
        · intro x hx
          have hxt : x ≠ t := by intro h; subst h; rw [ho] at hx; cases hx
          have hxa : x ≠ a := by intro h; subst h; rw [hoa] at hx; cases hx
          simp [hxt, hxa, hx]

end SC
