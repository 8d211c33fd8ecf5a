import Verif.History
/-!
# Every observation of a scope carries the triggering event of that scope
-/

namespace SC
open Spec Chart
variable {W : Type} {P : Prog W} {m : Mach W}

/-- The triggering event does not change and all new observations carry it; `unconsumed_event` was not called. -/
def Tagged (m m' : Mach W) : Prop :=
  m'.trig = m.trig ∧ ∃ obs : List Obs, m'.trace = m.trace ++ obs.map (fun o => (m.trig, o)) ∧ Obs.unconsumed ∉ obs

theorem Tagged.refl (m : Mach W) : Tagged m m := ⟨rfl, [], by simp⟩

theorem Tagged.trans {a b c : Mach W} (h1 : Tagged a b) (h2 : Tagged b c) : Tagged a c := by
  obtain ⟨t1, o1, e1, n1⟩ := h1
  obtain ⟨t2, o2, e2, n2⟩ := h2
  exact ⟨by rw [t2, t1], o1 ++ o2, by rw [e2, e1, t1]; simp, by simp [n1, n2]⟩

def tagK : KRel W where
  R := Tagged
  E _ := Tagged
  refl := Tagged.refl
  trans := Tagged.trans
  re := Tagged.trans
  er := Tagged.trans

theorem UserStep.tagged {m m' : Mach W} {obs : List Obs} (h : UserStep m m' obs) (ho : Obs.unconsumed ∉ obs) : Tagged m m' :=
  ⟨h.core.trig, obs, h.trace, ho⟩

theorem keeps_runUser_tag {f : View → W → UOut W} {a b : List Obs} (ha : Obs.unconsumed ∉ a) (hb : Obs.unconsumed ∉ b) : Keeps tagK (runUser f a b) := by
  intro m
  have : wp (runUser f a b) (fun _ m' => Tagged m m') (fun _ m' => Tagged m m') m :=
    wp_runUser (fun _ h => h.tagged ha) (fun _ _ h => h.tagged hb)
  unfold wp at this
  unfold KeepsAt
  cases hx : runUser f a b m <;> rw [hx] at this
  · exact this
  · exact this
  · trivial

theorem tagged_of {m m' : Mach W} (h1 : m'.trig = m.trig) (h2 : m'.trace = m.trace) : Tagged m m' := ⟨h1, [], by simp [h2], by simp⟩

theorem tagPrims_core (P : Prog W) : CorePrims tagK P where
  core h := tagged_of h.trig h.trace
  raise _ _ := tagged_of rfl rfl
  ctor s := by
    intro m
    have := keeps_runUser_tag (f := P.ctor s) (a := [.enter s]) (b := [.enterFail s]) (by simp) (by simp) m
    unfold KeepsAt runCtor
    by_cases hc : P.isSimple s = true ∧ (P.ctor s m.view m.world).cmds ≠ []
    · simp [hc]
    · rw [if_neg hc]; exact this
  dtor s := by
    intro m
    refine ⟨?_, [.destroy s], ?_, by simp⟩
    · exact (cmds_step _ _).core.trig
    · show (Mach.log _ _).trace = _
      unfold Mach.log
      simp only [trace_cmds, (cmds_step _ _).core.trig]; rfl
  action a := by
    cases a with
    | none => exact Keeps.pure _
    | some a => exact keeps_runUser_tag (by simp) (by simp)
  react s id e := keeps_runUser_tag (by simp) (by simp)
  relEv := fun _ m => tagged_of rfl rfl
  hold := fun s m => ⟨rfl, [.defer s], rfl, by simp⟩

theorem tagPrims (P : Prog W) : RPrims tagK P := (tagPrims_core P).rprims

theorem keeps_fullExit_tag (s : Sid) : Keeps tagK (fullExitPart P s) :=
  (tagPrims P).toPrims.fullExit (fun _ _ => tagged_of rfl rfl) (fun _ _ _ => tagged_of rfl rfl) (fun _ _ _ => tagged_of rfl rfl)
    (fun _ => keeps_runUser_tag (by simp) (by simp)) s

theorem keeps_reactImpl_tag (s : Sid) (e : Event) : Keeps tagK (reactImpl P s e) := fun _ =>
  (tagPrims P).reactFAt (fun _ _ _ => keeps_fullExit_tag) e _ s (fun _ => keeps_fullExit_tag)

end SC

namespace SC
open Spec Chart
variable {W : Type} {P : Prog W} {m : Mach W}

/-- An observation of a (completed or failed) call of `exit()`. -/
def Obs.isExit : Obs → Bool
  | .exit _ => true
  | .exitFail _ => true
  | _ => false

/-- No `exit()` was called. -/
def NoExit (m m' : Mach W) : Prop :=
  m'.fullExit = m.fullExit ∧ ∃ obs, m'.trace = m.trace ++ obs ∧ ∀ o ∈ obs, o.2.isExit = false

theorem NoExit.refl (m : Mach W) : NoExit m m := ⟨rfl, [], by simp⟩

theorem NoExit.trans {a b c : Mach W} (h1 : NoExit a b) (h2 : NoExit b c) : NoExit a c := by
  obtain ⟨t1, o1, e1, n1⟩ := h1
  obtain ⟨t2, o2, e2, n2⟩ := h2
  refine ⟨by rw [t2, t1], o1 ++ o2, by rw [e2, e1]; simp, ?_⟩
  intro o ho
  rcases List.mem_append.1 ho with h | h
  · exact n1 o h
  · exact n2 o h

def noExitK : KRel W where
  R := NoExit
  E _ := NoExit
  refl := NoExit.refl
  trans := NoExit.trans
  re := NoExit.trans
  er := NoExit.trans

theorem UserStep.noExit {m m' : Mach W} {obs : List Obs} (h : UserStep m m' obs) (ho : ∀ o ∈ obs, o.isExit = false) : NoExit m m' := by
  refine ⟨h.core.fullExit, _, h.trace, ?_⟩
  intro o h1
  obtain ⟨x, hx, rfl⟩ := List.mem_map.1 h1
  exact ho x hx

theorem keeps_runUser_noExit {f : View → W → UOut W} {a b : List Obs} (ha : ∀ o ∈ a, o.isExit = false)
    (hb : ∀ o ∈ b, o.isExit = false) : Keeps noExitK (runUser f a b) := by
  intro m
  have : wp (runUser f a b) (fun _ m' => NoExit m m') (fun _ m' => NoExit m m') m :=
    wp_runUser (fun _ h => h.noExit ha) (fun _ _ h => h.noExit hb)
  unfold wp at this
  unfold KeepsAt
  cases hx : runUser f a b m <;> rw [hx] at this
  · exact this
  · exact this
  · trivial

theorem noExitPrims_core (P : Prog W) : CorePrims noExitK P where
  core h := ⟨h.fullExit, [], by simp [h.trace]⟩
  raise _ _ := ⟨rfl, [], by simp [Mach.raise]⟩
  ctor s := by
    intro m
    have := keeps_runUser_noExit (f := P.ctor s) (a := [.enter s]) (b := [.enterFail s]) (by simp [Obs.isExit]) (by simp [Obs.isExit]) m
    unfold KeepsAt runCtor
    by_cases hc : P.isSimple s = true ∧ (P.ctor s m.view m.world).cmds ≠ []
    · simp [hc]
    · rw [if_neg hc]; exact this
  dtor s := by
    intro m
    refine ⟨?_, [(m.trig, .destroy s)], ?_, by simp [Obs.isExit]⟩
    · exact (cmds_step _ _).core.fullExit
    · show (Mach.log _ _).trace = _
      unfold Mach.log
      simp only [trace_cmds, (cmds_step _ _).core.trig]
  action a := by
    cases a with
    | none => exact Keeps.pure _
    | some a => exact keeps_runUser_noExit (by simp [Obs.isExit]) (by simp [Obs.isExit])
  react s id e := keeps_runUser_noExit (by simp [Obs.isExit]) (by simp [Obs.isExit])
  relEv := fun _ m => ⟨rfl, [], by simp [releaseEvents]⟩
  hold := fun s m => ⟨rfl, [(m.trig, .defer s)], rfl, by simp [Obs.isExit]⟩

theorem noExitPrims (P : Prog W) : RPrims noExitK P := (noExitPrims_core P).rprims

theorem keepsAt_reactImpl_noExit (s : Sid) (e : Event) (hm : m.fullExit = false) : KeepsAt noExitK (reactImpl P s e) m := by
  refine (noExitPrims P).reactFAt ?_ e _ s ?_
  · intro a b hab h hb
    exact h (by rw [← hab.1]; exact hb)
  · intro h; rw [hm] at h; cases h

/-- No event was deferred. -/
def NoDefer (m m' : Mach W) : Prop := ∃ obs, m'.trace = m.trace ++ obs ∧ ∀ o ∈ obs, ∀ s, o.2 ≠ .defer s

theorem NoDefer.refl (m : Mach W) : NoDefer m m := ⟨[], by simp⟩

theorem NoDefer.trans {a b c : Mach W} (h1 : NoDefer a b) (h2 : NoDefer b c) : NoDefer a c := by
  obtain ⟨o1, e1, n1⟩ := h1
  obtain ⟨o2, e2, n2⟩ := h2
  refine ⟨o1 ++ o2, by rw [e2, e1]; simp, ?_⟩
  intro o ho
  rcases List.mem_append.1 ho with h | h
  · exact n1 o h
  · exact n2 o h

def noDeferK : KRel W where
  R := NoDefer
  E _ := NoDefer
  refl := NoDefer.refl
  trans := NoDefer.trans
  re := NoDefer.trans
  er := NoDefer.trans

theorem keeps_runUser_noDefer {f : View → W → UOut W} {a b : List Obs} (ha : ∀ o ∈ a, ∀ s, o ≠ .defer s)
    (hb : ∀ o ∈ b, ∀ s, o ≠ .defer s) : Keeps noDeferK (runUser f a b) := by
  intro m
  have key : ∀ {m' : Mach W} {obs : List Obs}, UserStep m m' obs → (∀ o ∈ obs, ∀ s, o ≠ .defer s) → NoDefer m m' := by
    intro m' obs h ho
    refine ⟨_, h.trace, ?_⟩
    intro o h1
    obtain ⟨x, hx, rfl⟩ := List.mem_map.1 h1
    exact ho x hx
  have : wp (runUser f a b) (fun _ m' => NoDefer m m') (fun _ m' => NoDefer m m') m :=
    wp_runUser (fun _ h => key h ha) (fun _ _ h => key h hb)
  unfold wp at this
  unfold KeepsAt
  cases hx : runUser f a b m <;> rw [hx] at this
  · exact this
  · exact this
  · trivial

theorem noDeferPrims (P : Prog W) : Prims noDeferK P := StepPrims.prims {
  core := fun h => ⟨[], by simp [h.trace]⟩
  raise := fun _ _ => ⟨[], by simp [Mach.raise]⟩
  ctor := fun s m => by
    have := keeps_runUser_noDefer (f := P.ctor s) (a := [.enter s]) (b := [.enterFail s]) (by simp) (by simp) m
    unfold KeepsAt runCtor
    by_cases hc : P.isSimple s = true ∧ (P.ctor s m.view m.world).cmds ≠ []
    · simp [hc]
    · rw [if_neg hc]; exact this
  dtor := fun s m => by
    refine ⟨[(m.trig, .destroy s)], ?_, by simp⟩
    show (Mach.log _ _).trace = _
    unfold Mach.log
    simp only [trace_cmds, (cmds_step _ _).core.trig]
  action := fun a => by
    cases a with
    | none => exact Keeps.pure _
    | some a => exact keeps_runUser_noDefer (by simp) (by simp)
  react := fun s id e => keeps_runUser_noDefer (by simp) (by simp)
  relEv := fun _ m => ⟨[], by simp [releaseEvents]⟩ }

theorem keeps_fullExit_noDefer (s : Sid) : Keeps noDeferK (fullExitPart P s) :=
  (noDeferPrims P).fullExit (fun _ _ => ⟨[], by simp⟩) (fun _ _ _ => ⟨[], by simp⟩) (fun _ _ _ => ⟨[], by simp⟩)
    (fun _ => keeps_runUser_noDefer (by simp) (by simp)) s

/-- An end of a computation started in `m` that deferred no event unless it returned `do_defer_event`. -/
def Res.LastDefers (m : Mach W) : Res W RR → Prop
  | .ok r m' => r ≠ .defer → NoDefer m m'
  | .thrown _ m' => NoDefer m m'
  | .fault _ => True

def DefersLast (x : M W RR) : Prop := ∀ m, (x m).LastDefers m

theorem Keeps.defersLast {x : M W RR} (h : Keeps noDeferK x) : DefersLast x := by
  intro m
  have := h m
  unfold KeepsAt at this
  cases hx : x m <;> rw [hx] at this
  · exact fun _ => this
  · exact this
  · trivial

theorem Res.LastDefers.after {m m1 : Mach W} (h : NoDefer m m1) : ∀ {r : Res W RR}, r.LastDefers m1 → r.LastDefers m
  | .ok _ _, h2 => fun hne => h.trans (h2 hne)
  | .thrown _ _, h2 => NoDefer.trans h h2
  | .fault _, _ => trivial

theorem Keeps.bindLast {α : Type} {x : M W α} {k : α → M W RR} (h : Keeps noDeferK x) (hk : ∀ a, DefersLast (k a)) : DefersLast (x >>= k) := by
  intro m
  have h1 := h m
  unfold KeepsAt at h1
  show Res.LastDefers m (M.bnd x k m)
  unfold M.bnd
  cases hx : x m with
  | ok a m1 => rw [hx] at h1; exact Res.LastDefers.after h1 (hk a m1)
  | thrown e m1 => rw [hx] at h1; exact h1
  | fault g => trivial

theorem DefersLast.next {x : M W RR} {k : RR → M W RR} (h : DefersLast x) (hd : k .defer = pure .defer) (hk : ∀ a, a ≠ .defer → DefersLast (k a)) :
    DefersLast (x >>= k) := by
  intro m
  have h1 := h m
  show Res.LastDefers m (M.bnd x k m)
  unfold M.bnd
  cases hx : x m with
  | ok a m1 =>
    rw [hx] at h1
    show Res.LastDefers m (k a m1)
    by_cases ha : a = .defer
    · rw [ha, hd]; exact fun hne => absurd rfl hne
    · exact Res.LastDefers.after (h1 ha) (hk a ha m1)
  | thrown e m1 => rw [hx] at h1; exact h1
  | fault g => trivial

theorem defersLast_deferEvent (s : Sid) : DefersLast (do deferEvent s; pure .defer : M W RR) := by
  intro m
  show Res.LastDefers m (M.bnd (M.bnd (getObj s) _) _ m)
  unfold M.bnd getObj
  cases h : m.heap s with
  | none => trivial
  | some o =>
    by_cases hc : o.ctxSet = true
    · simp only [hc]; exact fun hne => absurd rfl hne
    · simp only [hc]; trivial

theorem defersLast_reactOne (s : Sid) (e : Event) (r : Reaction) : DefersLast (reactOne P s e r) := by
  have hK := noDeferPrims P
  have full : ∀ m : Mach W, FullOK noDeferK P m := fun _ _ => keeps_fullExit_noDefer
  have ht : ∀ d a, Keeps noDeferK (transit P s d a) := fun d a m => hK.transitAt (full m) s d a
  have hx : Keeps noDeferK (terminateReaction P s) := fun m => hK.terminateReactionAt (full m) s
  unfold SC.reactOne
  split
  · split
    · exact (Keeps.bind (ht _ _) fun _ => Keeps.pure _).defersLast
    · exact (Keeps.bind (hK.action _) fun _ => Keeps.pure _).defersLast
    · exact (Keeps.bind hx fun _ => Keeps.pure _).defersLast
    · exact defersLast_deferEvent s
    · unfold SC.customReact
      refine Keeps.bindLast Keeps.get fun m => Keeps.bindLast (hK.react s _ e) fun _ => ?_
      split
      · exact (Keeps.pure _).defersLast
      · exact (Keeps.pure _).defersLast
      · exact defersLast_deferEvent s
      · exact (Keeps.bind (ht _ _) fun _ => Keeps.pure _).defersLast
      · exact (Keeps.bind hx fun _ => Keeps.pure _).defersLast
  · exact (Keeps.pure _).defersLast

theorem defersLast_localReact (s : Sid) (e : Event) (l : List Reaction) : DefersLast (localReact P s e l) := by
  induction l with
  | nil => exact (Keeps.pure _).defersLast
  | cons r rs ih =>
    unfold SC.localReact
    refine (defersLast_reactOne s e r).next (by simp) fun a ha => ?_
    split
    · exact ih
    · exact (Keeps.pure _).defersLast

theorem defersLast_reactF (e : Event) (f : Nat) : ∀ s, DefersLast (reactF P f s e) := by
  induction f with
  | zero => intro s; exact (Keeps.fault _).defersLast
  | succ f ih =>
    intro s
    unfold SC.reactF
    refine Keeps.bindLast (keeps_getObj s) fun _ => ?_
    refine (defersLast_localReact s e _).next (by simp) fun a ha => ?_
    split
    · refine Keeps.bindLast (keeps_getObj s) fun o => ?_
      split
      · split
        · exact (Keeps.pure _).defersLast
        · exact ih _
      · exact (Keeps.fault _).defersLast
    · exact (Keeps.pure _).defersLast

theorem defersLast_reactImpl (s : Sid) (e : Event) : DefersLast (reactImpl P s e) := defersLast_reactF e _ s

end SC
