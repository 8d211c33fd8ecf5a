import Verif.Refine2
/-!
# The library and the reference machine: `exit_impl`
-/

namespace SC
open Spec
variable {W : Type} {P : Prog W} {L : Sid → Nat} {pend : Option Sid} {m : Mach W}

/-- One step on both sides. -/
theorem Sim.step {α β : Type} {r : α → β} {x y : M W α} {F G : Ref.R W β} {m m1 : Mach W} (h : Sim r y G m1) (hx : x m = y m1)
    (hF : F (abs m) = G (abs m1)) : Sim r x F m := by
  unfold Sim at *; rw [hx, hF]; exact h

theorem wp_run {α : Type} {x : M W α} {Q : α → Mach W → Prop} (h : wp x Q (fun _ _ => False) m) : ∃ a m', x m = .ok a m' ∧ Q a m' := by
  unfold wp at h
  cases hx : x m with
  | ok a m' => rw [hx] at h; exact ⟨a, m', rfl, h⟩
  | thrown e m' => rw [hx] at h; exact h.elim
  | fault f => rw [hx] at h; exact h.elim

/-! ## Histories -/

theorem storeShallow_sim (s : Sid) : Sim id (storeShallow P s) (Ref.rememberShallow P s) m := by
  unfold storeShallow Ref.rememberShallow Chart.storesShallow
  cases hp : P.parent s with
  | none => rfl
  | some p =>
    simp only
    split
    · refine sim_bind (sim_histNode _ _ rfl _ _ _) fun _ m' _ => sim_modify ?_
      unfold abs
      simp only [map_upd]
      rfl
    · rfl

theorem rememberDeep_none (hwf : P.toChart.WF) {leaf : Sid} : ∀ (g : Nat) (cur : Sid), cur < P.n →
    (∀ x, Outer P.toChart x cur → P.deepH x = false) → Ref.rememberDeep P leaf g cur = pure () := by
  intro g
  induction g with
  | zero => intro cur _ _; rfl
  | succ g ih =>
    intro cur hc h
    unfold Ref.rememberDeep
    cases hp : P.parent cur with
    | none => rfl
    | some p =>
      simp only
      rw [h p ⟨p, hp, .refl⟩, ih p (Chart.parent_bound hwf hc hp) (fun x hx => h x ⟨p, hp, hx.below⟩)]
      rfl

theorem inhDeep_false (hwf : P.toChart.WF) {s : Sid} (hs : s < P.n) (h : P.inhDeep s = false) : ∀ x, Below P.toChart x s → P.deepH x = false := by
  intro x hx
  simp only [Chart.inhDeep, List.any_cons, Bool.or_eq_false_iff, List.any_eq_false] at h
  rcases hx.eq_or_outer with rfl | ho
  · exact h.1
  · have := h.2 x ((Chart.mem_ancestors hwf hs).2 ho)
    simpa using this

theorem storeDeepF_sim (hwf : P.toChart.WF) {leaf : Sid} : ∀ (f g : Nat) (cur : Sid) (m : Mach W), cur < P.n → cur < f → cur < g →
    Sim id (storeDeepF P f cur leaf) (Ref.rememberDeep P leaf g cur) m := by
  intro f
  induction f with
  | zero => intro g cur m _ hf; omega
  | succ f ih =>
    intro g cur m hcn hf hg
    obtain ⟨g, rfl⟩ : ∃ k, g = k + 1 := ⟨g - 1, by omega⟩
    unfold storeDeepF
    cases hp : P.parent cur with
    | none => unfold Ref.rememberDeep; rw [hp]; rfl
    | some p =>
      have hlt := hwf.parent_lt hcn hp
      have hpn := Chart.parent_bound hwf hcn hp
      simp only
      by_cases hd : P.inhDeep p = true
      · rw [if_pos hd]
        refine sim_getObj fun o _ => ?_
        unfold Ref.rememberDeep
        rw [hp]
        simp only
        by_cases hh : P.deepH p = true
        · rw [if_pos hh, if_pos hh]
          refine sim_bind (r := id) ?_ fun _ m1 _ => ih g p m1 hpn (by omega) (by omega)
          refine sim_bind (sim_histNode _ _ rfl _ _ _) fun _ m' _ => sim_modify ?_
          unfold abs
          simp only [map_upd]
          rfl
        · rw [if_neg hh, if_neg hh]
          exact sim_bind (r := id) (F := pure ()) rfl fun _ m1 _ => ih g p m1 hpn (by omega) (by omega)
      · rw [if_neg hd]
        have hdf : P.inhDeep p = false := by simpa using hd
        rw [rememberDeep_none hwf _ _ hcn]
        · rfl
        · rintro x ⟨q, hq, hx⟩
          rw [hp] at hq; cases hq
          exact inhDeep_false hwf hpn hdf x hx

theorem storeDeep_sim (hwf : P.toChart.WF) {s : Sid} (hs : s < P.n) :
    Sim id (storeDeep P s) (if P.isLeaf s then Ref.rememberDeep P s P.n s else pure ()) m := by
  unfold storeDeep Chart.storesDeep
  cases hl : P.isLeaf s with
  | false => simp; rfl
  | true =>
    cases hd : P.inhDeep s with
    | true => simp; exact storeDeepF_sim hwf _ _ _ _ hs (by omega) hs
    | false =>
      simp
      rw [rememberDeep_none hwf _ _ hs (fun x hx => inhDeep_false hwf hs hd x hx.below)]
      rfl

theorem fullExitPart_sim (hwf : P.toChart.WF) (hpl : Plain P) {s : Sid} (hs : s < P.n) (hf : Filled m) :
    Sim id (fullExitPart P s) (do
      Ref.user (P.exit s) [.exit s] [.exitFail s]
      Ref.rememberShallow P s
      (if P.isLeaf s then Ref.rememberDeep P s P.n s else pure ())) m := by
  unfold fullExitPart
  exact sim_bind (sim_user (hpl.exit s) _ _ hf) fun _ m1 _ => sim_bind (storeShallow_sim s) fun _ m2 _ => storeDeep_sim hwf hs

/-! ## The exit chain -/

/-- `exit_impl` after the pointer to the outermost unstable state has been adjusted. -/
def exitTail (P : Prog W) (f : Nat) (s : Sid) (full : Bool) : M W Unit := do
  M.onThrow (if full then fullExitPart P s else pure ()) (release P s)
  match P.parent s with
  | none => release P s
  | some p => do
    addRef p
    release P s
    exitF P f p full

/-- The rest of `Ref.exitOne`, and the outer states. -/
def Ref.exitTail (P : Prog W) (keep : Sid → Bool) (full : Bool) (s : Sid) (l : List Sid) : Ref.R W Unit := do
  (if full then
    Ref.R.onThrow (do
      Ref.user (P.exit s) [.exit s] [.exitFail s]
      Ref.rememberShallow P s
      (if P.isLeaf s then Ref.rememberDeep P s P.n s else pure ())) (fun st => Ref.drop P keep P.n (P.parent s) (Ref.destroy P s st))
  else pure ())
  Ref.R.modify (Ref.destroy P s)
  Ref.exitAll P keep full l

theorem bind_assoc_R {α β γ : Type} (x : Ref.R W α) (f : α → Ref.R W β) (g : β → Ref.R W γ) (st : Ref.St W) :
    (x >>= f >>= g) st = (x >>= fun a => f a >>= g) st := by
  show Ref.R.bnd (Ref.R.bnd x f) g st = Ref.R.bnd x (fun a => Ref.R.bnd (f a) g) st
  unfold Ref.R.bnd
  cases x st <;> rfl

theorem modify_assoc_R {β γ δ : Type} (g : Ref.St W → Ref.St W) (x : Ref.R W β) (y : Ref.R W γ) (z : Ref.R W δ) (st : Ref.St W) :
    ((Ref.R.modify g >>= fun _ => x >>= fun _ => y) >>= fun _ => z) st = (x >>= fun _ => y >>= fun _ => z) (g st) := by
  rw [bind_assoc_R]
  exact bind_assoc_R x (fun _ => y) (fun _ => z) (g st)

theorem exitAll_cons (keep : Sid → Bool) (full : Bool) (s : Sid) (l : List Sid) (st : Ref.St W) :
    Ref.exitAll P keep full (s :: l) st = Ref.exitTail P keep full s l { st with
      leaves := Ref.leave st.leaves s
      unstable := if st.unstable = none ∨ st.unstable = some s then P.parent s else st.unstable } := by
  unfold Ref.exitAll Ref.exitOne Ref.exitTail
  exact modify_assoc_R _ _ _ _ _

theorem exitF_prep (hwf : P.toChart.WF) (full : Bool) {f : Nat} {s : Sid} {o : Obj} (h : Inv P.toChart L none m) (ho : m.heap s = some o)
    (hL1 : L s = 1) (hsl : m.slot o.lpos ≠ some s) (hn : nch (P.regions (some s)) o.inner = 0) :
    ∃ m1, exitF P (f + 1) s full m = exitTail P f s full m1 ∧ Inv P.toChart L none m1 ∧ m1.act = m.act ∧
      abs m1 = { abs m with unstable := if m.pOU = none ∨ m.pOU = some s then P.parent s else m.pOU } ∧
      ∃ o1, m1.heap s = some o1 ∧ o1.rc = 1 := by
  have hrc := h.rc ho
  rw [if_neg hsl] at hrc
  have hlive : (m.heap s).isSome := by simp [ho]
  have hsn := h.bound ho
  have hpl : ∀ t, P.parent s = some t → (m.heap t).isSome ∧ P.isLeaf t = false := fun t hp =>
    ⟨h.par_live hlive hp, Chart.parent_not_leaf hwf hsn hp⟩
  have hpself : P.parent s ≠ some s := fun hp => Nat.lt_irrefl _ (hwf.parent_lt hsn hp)
  have hinner : ∀ {m1 : Mach W}, Inv P.toChart L none m1 →
      (∀ x o, m.heap x = some o → ∃ o', m1.heap x = some o' ∧ o'.inner = o.inner ∧ o'.lpos = o.lpos) →
      m1.slot = m.slot → m1.pOU ≠ some s → ∃ o1, m1.heap s = some o1 ∧ o1.rc = 1 := by
    intro m1 hi1 hheap1 hslot1 hne
    obtain ⟨o1, ho1, hin1, hlp1⟩ := hheap1 s o ho
    refine ⟨o1, ho1, ?_⟩
    have := hi1.rc ho1
    rw [if_neg hne, hin1, hlp1, hslot1, if_neg hsl, hn, hL1] at this
    omega
  have hgo : ∀ (m : Mach W) (o : Obj), m.heap s = some o → (o.rc = 1 ∨ (o.rc = 2 ∧ m.pOU = some s)) → exitF P (f + 1) s full m =
      M.bnd (if o.rc = 2 then setCtxOU P s else pure ()) (fun _ => M.bnd M.get fun m => M.bnd (if m.pOU = none then setCtxOU P s else pure ()) fun _ => exitTail P f s full) m := by
    intro m o ho hif
    unfold exitF
    show M.bnd (getObj s) _ m = _
    conv => lhs; unfold M.bnd getObj
    simp only [ho]
    show M.bnd M.get _ m = _
    conv => lhs; unfold M.bnd M.get
    simp only [hif, if_true]
    rfl
  have hctx : ∀ (m : Mach W) (o : Obj), m.heap s = some o → o.ctxSet = true → setCtxOU P s m = setOU (P.parent s) m := by
    intro m o ho hc
    unfold setCtxOU
    show M.bnd (getObj s) _ m = _
    unfold M.bnd getObj
    simp only [ho, hc, if_true]
  by_cases hou : m.pOU = some s
  · have hrc2 : o.rc = 2 := by rw [if_pos hou] at hrc; omega
    have h1 : wp (setOU (P.parent s)) (fun _ m' => Inv P.toChart L none m' ∧ m'.pOU = P.parent s ∧ m'.act = m.act ∧ m'.slot = m.slot ∧
        (∀ x o, m.heap x = some o → ∃ o', m'.heap x = some o' ∧ o'.inner = o.inner ∧ o'.lpos = o.lpos)) (fun _ _ => False) m := by
      refine setOU_wp h _ hpl ?_ ?_
      · intro t ht _
        rw [hou] at ht; cases ht
        exact ⟨o, ho, .inl (by omega)⟩
      · intro m1 hi1 hou1 hact1 htr1 hslot1 hlen1 hend1 hico1 hfe1 htrig1 _ hheap1 _
        exact ⟨hi1, hou1, hact1, hslot1, hheap1⟩
    obtain ⟨_, m1, hr1, hi1, hou1, hact1, hslot1, hheap1⟩ := wp_run h1
    have ha1 : abs m1 = { abs m with unstable := P.parent s } := by
      have := (sim_setOU (m := m) (P.parent s)).ok hr1
      have h3 : Ref.Out.ok () ({ abs m with unstable := P.parent s } : Ref.St W) = .ok () (abs m1) := this
      injection h3 with _ h4
      exact h4.symm
    have hcond : (if m.pOU = none ∨ m.pOU = some s then P.parent s else m.pOU) = P.parent s := if_pos (.inr hou)
    have hfirst : exitF P (f + 1) s full m = M.bnd (if m1.pOU = none then setCtxOU P s else pure ()) (fun _ => exitTail P f s full) m1 := by
      rw [hgo m o ho (.inr ⟨hrc2, hou⟩), if_pos hrc2]
      conv => lhs; unfold M.bnd
      rw [hctx m o ho (h.ctx ho), hr1]
      rfl
    by_cases hp : m1.pOU = none
    · have hpn : P.parent s = none := by rw [← hou1]; exact hp
      obtain ⟨o1, ho1, _⟩ := hheap1 s o ho
      have h2 : wp (setOU (P.parent s)) (fun _ m' => Inv P.toChart L none m' ∧ m'.pOU = P.parent s ∧ m'.act = m1.act ∧ m'.slot = m1.slot ∧
          (∀ x o, m1.heap x = some o → ∃ o', m'.heap x = some o' ∧ o'.inner = o.inner ∧ o'.lpos = o.lpos)) (fun _ _ => False) m1 := by
        refine setOU_wp hi1 _ (fun t ht => by rw [hpn] at ht; cases ht) (fun t ht => by rw [hp] at ht; cases ht) ?_
        intro m2 hi2 hou2 hact2 htr2 hslot2 hlen2 hend2 hico2 hfe2 htrig2 _ hheap2 _
        exact ⟨hi2, hou2, hact2, hslot2, hheap2⟩
      obtain ⟨_, m2, hr2, hi2, hou2, hact2, hslot2, hheap2⟩ := wp_run h2
      have ha2 : abs m2 = { abs m1 with unstable := P.parent s } := by
        have := (sim_setOU (m := m1) (P.parent s)).ok hr2
        have h3 : Ref.Out.ok () ({ abs m1 with unstable := P.parent s } : Ref.St W) = .ok () (abs m2) := this
        injection h3 with _ h4
        exact h4.symm
      refine ⟨m2, ?_, hi2, by rw [hact2, hact1], ?_, ?_⟩
      · rw [hfirst, if_pos hp]
        unfold M.bnd
        rw [hctx m1 o1 ho1 (hi1.ctx ho1), hr2]
      · rw [ha2, ha1, hcond]
      · refine hinner hi2 ?_ (by rw [hslot2, hslot1]) (by rw [hou2]; exact hpself)
        intro x ox hx
        obtain ⟨o3, h3, h4, h5⟩ := hheap1 x ox hx
        obtain ⟨o4, h6, h7, h8⟩ := hheap2 x o3 h3
        exact ⟨o4, h6, by rw [h7, h4], by rw [h8, h5]⟩
    · refine ⟨m1, ?_, hi1, hact1, by rw [ha1, hcond], hinner hi1 hheap1 hslot1 (by rw [hou1]; exact hpself)⟩
      rw [hfirst, if_neg hp]; rfl
  · have hrc1 : o.rc = 1 := by rw [if_neg hou] at hrc; omega
    have hfirst : exitF P (f + 1) s full m = M.bnd (if m.pOU = none then setCtxOU P s else pure ()) (fun _ => exitTail P f s full) m := by
      rw [hgo m o ho (.inl hrc1), if_neg (by omega)]
      rfl
    by_cases hp : m.pOU = none
    · have h1 : wp (setOU (P.parent s)) (fun _ m' => Inv P.toChart L none m' ∧ m'.pOU = P.parent s ∧ m'.act = m.act ∧ m'.slot = m.slot ∧
          (∀ x o, m.heap x = some o → ∃ o', m'.heap x = some o' ∧ o'.inner = o.inner ∧ o'.lpos = o.lpos)) (fun _ _ => False) m := by
        refine setOU_wp h _ hpl (fun t ht => by rw [hp] at ht; cases ht) ?_
        intro m1 hi1 hou1 hact1 htr1 hslot1 hlen1 hend1 hico1 hfe1 htrig1 _ hheap1 _
        exact ⟨hi1, hou1, hact1, hslot1, hheap1⟩
      obtain ⟨_, m1, hr1, hi1, hou1, hact1, hslot1, hheap1⟩ := wp_run h1
      have ha1 : abs m1 = { abs m with unstable := P.parent s } := by
        have := (sim_setOU (m := m) (P.parent s)).ok hr1
        have h3 : Ref.Out.ok () ({ abs m with unstable := P.parent s } : Ref.St W) = .ok () (abs m1) := this
        injection h3 with _ h4
        exact h4.symm
      refine ⟨m1, ?_, hi1, hact1, by rw [ha1, if_pos (.inl hp)], hinner hi1 hheap1 hslot1 (by rw [hou1]; exact hpself)⟩
      rw [hfirst, if_pos hp]
      unfold M.bnd
      rw [hctx m o ho (h.ctx ho), hr1]
    · refine ⟨m, ?_, h, rfl, ?_, o, ho, hrc1⟩
      · rw [hfirst, if_neg hp]; rfl
      · rw [if_neg (by rintro (h' | h') <;> contradiction)]; rfl

theorem leave_not_mem {l : List Sid} {s : Sid} (h : s ∉ l) : Ref.leave l s = l := by
  unfold Ref.leave
  cases l.getLast? with
  | none => rfl
  | some z => simp [h]

theorem exitF_sim (hwf : P.toChart.WF) (hpl : Plain P) (full : Bool) : ∀ (f : Nat) (s : Sid) (L : Sid → Nat) (m : Mach W),
    s < f → Inv P.toChart L none m → L s ≠ 0 → (∀ o, m.heap s = some o → m.slot o.lpos ≠ some s) →
    Sim id (exitF P f s full) (Ref.exitAll P (lockOf (dec L s)) full (upwardF P.toChart (lockOf (dec L s)) f m.act (some s))) m := by
  intro f
  induction f with
  | zero => intro s L m hf; omega
  | succ f ih =>
    intro s L m hf h hL hslot
    obtain ⟨o, ho⟩ := Option.isSome_iff_exists.1 (h.L_live hL)
    have hlive : (m.heap s).isSome := by simp [ho]
    have hsn := h.bound ho
    have hsl := hslot o ho
    have hrc := h.rc ho
    rw [if_neg hsl] at hrc
    have hcl := h.childless_iff hwf ho
    by_cases hgo : L s = 1 ∧ nch (P.regions (some s)) o.inner = 0
    · obtain ⟨hL1, hn⟩ := hgo
      have hch := hcl.2 hn
      have hup : upwardF P.toChart (lockOf (dec L s)) (f + 1) m.act (some s) =
          s :: upwardF P.toChart (lockOf (dec L s)) f (without m.act [s]) (P.parent s) := by
        rw [upwardF, if_neg]
        simp [lockOf, hL1, hch]
      rw [hup]
      obtain ⟨m1, hrun, hi1, hact1, habs1, o1, ho1, hrc1⟩ := exitF_prep hwf full (f := f) h ho hL1 hsl hn
      have hnm : s ∉ m.leaves := by rw [h.mem_leaves ho]; exact hsl
      have hlive1 : (m1.heap s).isSome := by simp [ho1]
      have hch1 : childless P.toChart m1.act s = true := by rw [hact1]; exact hch
      refine Sim.step (y := exitTail P f s full) (m1 := m1)
        (G := Ref.exitTail P (lockOf (dec L s)) full s (upwardF P.toChart (lockOf (dec L s)) f (without m.act [s]) (P.parent s))) ?_ hrun ?_
      · unfold exitTail Ref.exitTail
        -- after exit() (if called)
        have after : ∀ (m2 : Mach W) (pd : Option Sid), Inv P.toChart L pd m2 → (pd = none ∨ pd = some s) → SameCore m1 m2 →
            Sim id (match P.parent s with
              | none => release P s
              | some p => do
                addRef p
                release P s
                exitF P f p full) (do
              Ref.R.modify (Ref.destroy P s)
              Ref.exitAll P (lockOf (dec L s)) full (upwardF P.toChart (lockOf (dec L s)) f (without m.act [s]) (P.parent s))) m2 := by
          intro m2 pd hi2 hpd hcore
          have ho2 : m2.heap s = some o1 := by rw [hcore.heap]; exact ho1
          cases hp : P.parent s with
          | none =>
            simp only
            have hnil : upwardF P.toChart (lockOf (dec L s)) f (without m.act [s]) none = [] := by cases f <;> rfl
            rw [hnil]
            have := release_one_sim hwf hpl hi2 hL ho2 hrc1 hpd (fun p hp' => by rw [hp] at hp'; cases hp')
            exact this.congr rfl
          | some p =>
            have hplt := hwf.parent_lt hsn hp
            have hps : p ≠ s := by omega
            have hsp : s ≠ p := by omega
            obtain ⟨op, hop⟩ := Option.isSome_iff_exists.1 (hi2.par_live (s := s) (by simp [ho2]) hp)
            simp only
            refine sim_skip (sim_addRef p) fun _ m2' hm2' => ?_
            have hm2e : m2' = { m2 with heap := upd m2.heap p (some { op with rc := op.rc + 1 }) } := by
              have : addRef p m2 = .ok () { m2 with heap := upd m2.heap p (some { op with rc := op.rc + 1 }) } := by
                unfold addRef
                show M.bnd (getObj p) _ m2 = _
                unfold M.bnd getObj
                simp only [hop]; rfl
              rw [this] at hm2'; cases hm2'; rfl
            have hi2' : Inv P.toChart (inc L p) pd m2' := by rw [hm2e]; exact hi2.addRef hop
            have ho2' : m2'.heap s = some o1 := by rw [hm2e]; simp [hsp, ho2]
            refine sim_bind (release_one_sim hwf hpl hi2' (by simp [hsp, hL]) ho2' hrc1 hpd (fun q hq => by rw [hp] at hq; cases hq; simp)) fun _ m3 hm3 => ?_
            obtain ⟨l, hr⟩ := wp_okAt (release_wp hwf hi2' (s := s) (by simp [hsp, hL]) (hpd.imp id (fun hp => ⟨hp, fun o' ho' => by rw [ho2'] at ho'; cases ho'; exact hrc1⟩))) hm3
            obtain ⟨l', hl, hlock⟩ := hr.last o1 ho2' hrc1
            have hl' : l' = [] := hlock (fun q hq => by rw [hp] at hq; cases hq; simp)
            subst hl'; subst hl
            have hLe : dec (inc L p) s = inc (dec L s) p := by
              funext x; simp only [dec, inc, upd]; split
              · next hx => subst hx; simp [hsp]
              · split
                · next hx => subst hx; simp
                · rfl
            have hi3 := hr.inv
            rw [hLe] at hi3
            have hact3 : m3.act = without m.act [s] := by
              rw [hr.act, ← hact1, ← hcore.act, hm2e]
              congr 1
              funext x; simp only [Mach.act, upd]; split
              · next hx => subst hx; simp [hop]
              · rfl
            have hnl := Chart.parent_not_leaf hwf hsn hp
            have := ih p (inc (dec L s) p) m3 (by omega) hi3 (by simp) (fun o' ho' => hi3.not_slot ho' hnl)
            rw [dec_inc, hact3] at this
            exact this
        cases full with
        | false =>
          simp only [Bool.false_eq_true, if_false]
          refine sim_bind (r := id) (F := pure ()) rfl fun _ m2 hm2 => ?_
          have : m2 = m1 := by
            have h3 : M.onThrow (pure ()) (release P s) m1 = .ok () m1 := rfl
            rw [h3] at hm2; cases hm2; rfl
          subst this
          exact after _ none hi1 (.inl rfl) (.refl _)
        | true =>
          simp only [if_true]
          have hwp : wp (fullExitPart P s) (fun _ m' => Inv P.toChart L (some s) m' ∧ SameCore m1 m') (fun _ m' => Inv P.toChart L (some s) m' ∧ SameCore m1 m') m1 :=
            fullExitPart_wp hwf hi1 hlive1 hch1 (fun m' h1 h2 _ => ⟨h1, h2⟩) (fun _ m' _ h1 h2 _ _ => ⟨h1, h2⟩)
          refine sim_bind (sim_onThrow (fullExitPart_sim hwf hpl hsn hi1.filled) ?_) ?_
          · intro e m2 hm2
            obtain ⟨hi2, hcore⟩ := wp_thrownAt hwp hm2
            exact release_last_sim hwf hpl hi2 hL (by rw [hcore.heap]; exact ho1) hrc1 (.inr rfl)
          · intro _ m2 hm2
            have hm2' : fullExitPart P s m1 = .ok () m2 := by
              unfold M.onThrow at hm2
              cases hx : fullExitPart P s m1 with
              | ok a m' => rw [hx] at hm2; exact hm2
              | thrown e m' =>
                rw [hx] at hm2
                simp only at hm2
                cases hy : release P s m' <;> rw [hy] at hm2 <;> cases hm2
              | fault g => rw [hx] at hm2; cases hm2
            obtain ⟨hi2, hcore⟩ := wp_okAt hwp hm2'
            exact after m2 (some s) hi2 (.inr rfl) hcore
      · rw [exitAll_cons, habs1]
        have : Ref.leave (abs m).leaves s = (abs m).leaves := leave_not_mem hnm
        rw [this]; rfl
    · have hif : ¬ (o.rc = 1 ∨ (o.rc = 2 ∧ m.pOU = some s)) := by
        rintro (h1 | ⟨h1, h2⟩)
        · apply hgo; constructor <;> omega
        · rw [if_pos h2] at hrc; apply hgo; constructor <;> omega
      have hup : upwardF P.toChart (lockOf (dec L s)) (f + 1) m.act (some s) = [] := by
        unfold upwardF
        rw [if_pos]
        simp only [lockOf, dec_same, Bool.or_eq_true, decide_eq_true_eq, Bool.not_eq_true']
        by_cases hL1 : L s = 1
        · right
          cases hc : childless P.toChart m.act s with
          | false => rfl
          | true => exact absurd ⟨hL1, hcl.1 hc⟩ hgo
        · left; omega
      rw [hup]
      unfold exitF
      refine sim_getObj fun o' ho' => sim_get ?_
      rw [ho] at ho'; cases ho'
      rw [if_neg hif]
      have := release_sim hwf hpl h hL (.inl rfl)
      refine this.congr ?_
      have hnn : Ref.needed P (lockOf (dec L s)) (abs m) s = true := by
        rw [needed_iff hwf h ho hL]
        by_cases hL1 : L s = 1
        · have : nch (P.regions (some s)) o.inner ≠ 0 := fun hn => hgo ⟨hL1, hn⟩
          omega
        · omega
      obtain ⟨k, hk⟩ : ∃ k, P.n = k + 1 := ⟨P.n - 1, by omega⟩
      show Ref.Out.ok () (abs m) = .ok () (Ref.drop P (lockOf (dec L s)) P.n (some s) (abs m))
      rw [hk, Ref.drop, hnn]; rfl

theorem exitImpl_sim (hwf : P.toChart.WF) (hpl : Plain P) (full : Bool) {s : Sid} (h : Inv P.toChart L none m) (hL : L s ≠ 0)
    (hslot : ∀ o, m.heap s = some o → m.slot o.lpos ≠ some s) :
    Sim id (exitImpl P s full) (Ref.exitAll P (lockOf (dec L s)) full (upward P.toChart (lockOf (dec L s)) m.act (some s))) m := by
  have := exitF_sim hwf hpl full _ _ _ _ (Nat.lt_succ_self s) h hL hslot
  rw [upwardF_upward hwf _ _ (h.live_bound (h.L_live hL)) (Nat.lt_succ_self s)] at this
  exact this

end SC
