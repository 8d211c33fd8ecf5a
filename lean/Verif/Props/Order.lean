import Verif.Props.Config
import Verif.Props.EntryFacts
/-!
# Properties C06 – C14, C20: what is exited and entered, and in which order
-/

namespace SC.Spec
open SC Chart
variable {C : Chart}

/-! ## Vocabulary -/

/-- A completed transition from `s` to `d` (a state or a history) with action `a`, seen from outside: with `k` the innermost
common context and `t` the direct inner state of `k` that contains `s`, all active states at or below `t` (listed by `xs`) are exited
in exit order, then the action runs, then the states `l` are entered (with relaxed transition context only the states inside the context of the
action are exited before it; the others, `ys`, are exited in exit order after it): they fill the region of `t` completely, in entry
order, and contain every state from below `k` down to `d` (down to its context, if `d` is a history). Which states are entered through history is decided by what
is remembered when the exits and the action are done. -/
structure Transition (C : Chart) (full : Bool) (s : Sid) (d : Target) (a : Option Nat) (k : Option Sid) (t : Sid) (xs ys l : List Sid)
    (c : Conf) (obs : List Obs) (c' : Conf) : Prop where
  common : CommonCtx C s d.st k
  top : C.parent t = k ∧ Below C t s
  seen : obs = exitObs full xs ++ acts a ++ exitObs full ys ++ enterObs l
  exited : Leaves C c.act t (Before C a) xs ys
  entered : Fills C k (C.pos t) (C.pos t + 1) l
  path : ∀ x, Below C x d.st → (d.kind = .plain ∨ x ≠ d.st) → (∀ p, k = some p → Outer C p x) → x ∈ l
  after : ∀ x, c'.act x = true ↔ (c.act x = true ∧ ¬ Below C t x) ∨ x ∈ l
  mem : ∃ h, MemRun C Forget c.mem (exitObs full xs ++ acts a ++ exitObs full ys) h ∧ Enters C Forget h (.down k d) l c'.mem

/-- A completed termination of `s`. -/
structure Termination (C : Chart) (full : Bool) (s : Sid) (xs : List Sid) (c : Conf) (obs : List Obs) (c' : Conf) : Prop where
  seen : obs = exitObs full xs
  exited : ExitList C (EndsWith C c.act s) xs
  after : ∀ x, c'.act x = true ↔ c.act x = true ∧ ¬ EndsWith C c.act s x
  mem : MemRun C Forget c.mem obs c'.mem

/-- Transitions and terminations as described above. -/
def Moves.meant (C : Chart) (full : Bool) : Moves where
  trans s d a c obs c' := ∃ k t xs ys l, Transition C full s d a k t xs ys l c obs c'
  term s c obs c' := ∃ xs, Termination C full s xs c obs c'

/-- Observations that enter, exit or destroy nothing. -/
def quietObs : Obs → Bool
  | .act _ | .react _ _ | .defer _ | .unconsumed => true
  | _ => false

/-- What one event does: nothing but running reactions and actions, or one transition, or one termination. -/
inductive Reacts (C : Chart) (full : Bool) (c : Conf) : List Obs → Conf → Prop
  | quiet {obs h} : (∀ o ∈ obs, quietObs o = true) → MemRun C Forget c.mem obs h → Reacts C full c obs ⟨c.act, h⟩
  | transition {pre obs : List Obs} {h c' s d a k t xs ys l} : (∀ o ∈ pre, quietObs o = true) → MemRun C Forget c.mem pre h → c.act s = true →
      Transition C full s d a k t xs ys l ⟨c.act, h⟩ obs c' → Reacts C full c (pre ++ obs) c'
  | termination {pre obs : List Obs} {h c' s xs} : (∀ o ∈ pre, quietObs o = true) → MemRun C Forget c.mem pre h → c.act s = true →
      Termination C full s xs ⟨c.act, h⟩ obs c' → Reacts C full c (pre ++ obs) c'

theorem quiet_append {a b : List Obs} (ha : ∀ o ∈ a, quietObs o = true) (hb : ∀ o ∈ b, quietObs o = true) : ∀ o ∈ a ++ b, quietObs o = true := by
  intro o ho
  rcases List.mem_append.1 ho with ho | ho
  · exact ha o ho
  · exact hb o ho

theorem memRun_quiet {h h' : Memory} (hf : Forget h h') : ∀ {obs : List Obs}, (∀ o ∈ obs, quietObs o = true) → MemRun C Forget h obs h' := by
  intro obs
  induction obs with
  | nil => exact fun _ => .nil hf
  | cons o os ih =>
    intro hq
    refine .other ?_ (ih fun o ho => hq o (by simp [ho]))
    rintro s rfl
    exact absurd (hq (.exit s) (by simp)) (by simp [quietObs])

/-! ## Uniqueness of the innermost common context -/

theorem CommonCtx.unique (hwf : C.WF) {s d : Sid} (hs : s < C.n) {k k' : Option Sid} (h : CommonCtx C s d k) (h' : CommonCtx C s d k') : k = k' := by
  cases k with
  | none =>
    cases k' with
    | none => rfl
    | some q =>
      obtain ⟨h1, h2⟩ := h'.outer q rfl
      obtain ⟨_, h3, _⟩ := h.inner q h1 h2
      cases h3
  | some p =>
    obtain ⟨h1, h2⟩ := h.outer p rfl
    obtain ⟨q, h3, h4⟩ := h'.inner p h1 h2
    subst h3
    obtain ⟨k1, k2⟩ := h'.outer q rfl
    obtain ⟨p', k3, k4⟩ := h.inner q k1 k2
    cases k3
    rw [Below.antisymm hwf (k1.below.bound hwf hs) h4 k4]

theorem CommonCtx.symm {s d : Sid} {k : Option Sid} (h : CommonCtx C s d k) : CommonCtx C d s k :=
  ⟨fun p hp => ⟨(h.outer p hp).2, (h.outer p hp).1⟩, fun x h1 h2 => h.inner x h2 h1⟩

/-- Source and destination are equal, or the destination is inside the source. -/
theorem commonCtx_of_below {s d : Sid} (hb : Below C s d) : CommonCtx C s d (C.parent s) := by
  constructor
  · intro p hp
    have : Outer C p s := ⟨p, hp, .refl⟩
    exact ⟨this, this.trans_below hb⟩
  · rintro x ⟨p, h1, h2⟩ _
    exact ⟨p, h1, h2⟩

/-! ## From the step semantics to the vocabulary -/

theorem Forest.terminated (hwf : C.WF) {act : Sid → Bool} (h : Forest C act) {s : Sid} (hs : act s = true) :
    ExitList C (EndsWith C act s) (terminated C act s) := by
  have hsn := h.bound s hs
  have hup := upwardF_pairwise (C := C) hwf (fun _ => false) (C.n + 1) (without act (exitOrder C act s)) (C.parent s)
  have hcl : Closed C (without act (exitOrder C act s)) := by
    intro x p hx hp
    simp only [without, Bool.and_eq_true, Bool.not_eq_true', List.contains_eq_mem, decide_eq_false_iff_not] at hx ⊢
    refine ⟨h.outer x p hx.1 hp, fun hm => hx.2 ?_⟩
    obtain ⟨_, h2⟩ := (h.mem_exitOrder hwf hs).1 hm
    exact (h.mem_exitOrder hwf hs).2 ⟨hx.1, .step hp h2⟩
  have hbd : ∀ x, without act (exitOrder C act s) x = true → x < C.n := by
    intro x hx
    simp only [without, Bool.and_eq_true] at hx
    exact h.bound x hx.1
  have hw : ∀ y, without act (exitOrder C act s) y = true ↔ act y = true ∧ ¬ Below C s y := by
    intro y
    simp only [without, Bool.and_eq_true, Bool.not_eq_true', List.contains_eq_mem, decide_eq_false_iff_not]
    constructor
    · rintro ⟨h1, h2⟩
      exact ⟨h1, fun hb => h2 ((h.mem_exitOrder hwf hs).2 ⟨h1, hb⟩)⟩
    · rintro ⟨h1, h2⟩
      exact ⟨h1, fun hm => h2 ((h.mem_exitOrder hwf hs).1 hm).2⟩
  have hmem : ∀ x, x ∈ Spec.terminated C act s ↔ EndsWith C act s x := by
    intro x
    unfold Spec.terminated
    rw [List.mem_append, h.mem_exitOrder hwf hs]
    have hupm : x ∈ upward C (fun _ => false) (without act (exitOrder C act s)) (C.parent s) ↔
        Outer C x s ∧ ∀ y, act y = true → Outer C x y → Below C s y ∨ Outer C y s := by
      cases hp : C.parent s with
      | none =>
        constructor
        · intro hx
          have hx' : x ∈ upwardF C (fun _ => false) (C.n + 1) (without act (exitOrder C act s)) (C.parent s) := by
            rw [hp]; exact hx
          obtain ⟨p, h1, _⟩ := hup.2 x hx'
          rw [hp] at h1; cases h1
        · rintro ⟨⟨p, h1, _⟩, _⟩
          rw [hp] at h1; cases h1
      | some p =>
        rw [mem_upward hwf p _ x (parent_bound hwf hsn hp) hbd hcl]
        constructor
        · rintro ⟨h1, h2⟩
          refine ⟨⟨p, hp, h1⟩, fun y hy ho => ?_⟩
          by_cases hb : Below C s y
          · exact .inl hb
          · exact .inr ⟨p, hp, h2 y ((hw y).2 ⟨hy, hb⟩) ho⟩
        · rintro ⟨⟨q, h1, h2⟩, h3⟩
          rw [hp] at h1; cases h1
          refine ⟨h2, fun y hy ho => ?_⟩
          rcases h3 y ((hw y).1 hy).1 ho with h4 | ⟨q, h5, h6⟩
          · exact absurd h4 ((hw y).1 hy).2
          · rw [hp] at h5; cases h5; exact h6
    rw [hupm]
    unfold EndsWith
    constructor
    · rintro (⟨h1, h2⟩ | h1)
      · exact ⟨h1, .inl h2⟩
      · exact ⟨h.below h1.1.below hs, .inr h1⟩
    · rintro ⟨h1, h2 | h2⟩
      · exact .inl ⟨h1, h2⟩
      · exact .inr h2
  have hpw : (Spec.terminated C act s).Pairwise (ExitsBefore C) := by
    unfold Spec.terminated
    rw [List.pairwise_append]
    refine ⟨exitOrderF_pairwise _ _ _, hup.1.imp fun h => .inl h, ?_⟩
    intro x hx y hy
    obtain ⟨p, h1, h2⟩ := hup.2 y hy
    exact .inl (Outer.trans_below ⟨p, h1, h2⟩ ((h.mem_exitOrder hwf hs).1 hx).2)
  exact ⟨hmem, nodup_of_pairwise hpw fun x hx => ExitsBefore.irrefl hwf (h.bound x ((hmem x).1 hx).1), hpw⟩

theorem Stored.memOK {h h' : Memory} {s : Sid} (hs : s < C.n) (h0 : MemOK C h) (hst : Stored C s h h') : MemOK C h' := by
  refine ⟨fun p i c hc => ?_, fun p i c hc => ?_⟩
  · rw [hst.sh] at hc
    split at hc
    · next h1 => cases hc; exact ⟨hs, h1.1, h1.2.2⟩
    · exact h0.sh p i c hc
  · by_cases hcond : C.isLeaf s = true ∧ C.deepH p = true ∧ ∃ c, C.parent c = some p ∧ Below C c s ∧ C.pos c = i
    · obtain ⟨h1, h2, y, h3, h4, rfl⟩ := hcond
      rw [hst.deep p y h1 h2 h3 h4] at hc
      cases hc
      exact ⟨hs, y, h3, rfl, h4⟩
    · rw [hst.other p i hcond] at hc
      exact h0.dh p i c hc

theorem MemRun.memOK {h h' : Memory} {obs : List Obs} (hr : MemRun C Forget h obs h') : MemOK C h → (∀ s, .exit s ∈ obs → s < C.n) → MemOK C h' := by
  induction hr with
  | nil hf => exact fun h0 _ => h0.forget hf
  | @exit h h1 h2 h' s os hf hst _ ih =>
    intro h0 hb
    have hs := hb s (by simp)
    exact ih ((hst hs).memOK hs (h0.forget hf)) fun s hs => hb s (by simp [hs])
  | other _ _ ih => exact fun h0 hb => ih h0 fun s hs => hb s (by simp [hs])

theorem mem_exitObs {full : Bool} {l : List Sid} {s : Sid} (h : .exit s ∈ exitObs full l) : s ∈ l := by
  unfold exitObs at h
  simp only [List.mem_flatMap] at h
  obtain ⟨x, hx, h⟩ := h
  split at h <;> simp at h
  exact h ▸ hx

theorem Transits.meaning (hwf : C.WF) {full : Bool} {s : Sid} {d : Target} {a : Option Nat} {c c' : Conf} {obs : List Obs} (hf : Forest C c.act)
    (hm : MemOK C c.mem) (hs : c.act s = true) (hd : d.st < C.n) (h : Transits C Forget full s d a c obs c') :
    (∃ k t xs ys l, Transition C full s d a k t xs ys l c obs c') ∧ MemOK C c'.mem := by
  obtain ⟨k, t, l1, l2, l, h1, hk, hp, hb, hl, hobs, hmr, hen, hact, _, y, hy1, hy2, hy3⟩ := h.ex
  have ht := hf.below hb hs
  have hm1 : MemOK C h1 := by
    refine hmr.memOK hm fun x hx => ?_
    rcases List.mem_append.1 hx with hx | hx
    · rcases List.mem_append.1 hx with hx | hx
      · exact hf.bound x ((hl.first.mem x).1 (mem_exitObs hx)).1.1
      · cases a <;> simp [acts] at hx
    · exact hf.bound x ((hl.rest.mem x).1 (mem_exitObs hx)).1.1
  obtain ⟨k1, k2⟩ := hen.fills hwf (fun a b hab hma => hma.forget hab) (ctx := k) (lo := C.pos t) (hi := C.pos t + 1)
    ⟨hd, rfl, y, hy1, hy3, hy2.symm, rfl⟩ hm1
  exact ⟨⟨k, t, _, _, l, hk, ⟨hp, hb⟩, hobs, hl, k1, fun x h1 h2 h3 => hen.path hwf rfl hd x h1 h2 h3, hact, h1, hmr, hen⟩, k2⟩

theorem Terminates.meaning (hwf : C.WF) {full : Bool} {s : Sid} {c c' : Conf} {obs : List Obs} (hf : Forest C c.act)
    (hm : MemOK C c.mem) (hs : c.act s = true) (h : Terminates C Forget full s c obs c') :
    (∃ xs, Termination C full s xs c obs c') ∧ MemOK C c'.mem := by
  have hxl := hf.terminated hwf hs
  refine ⟨⟨_, h.seen, hxl, ?_, h.mem⟩, ?_⟩
  · intro x
    rw [h.act]
    simp only [without, Bool.and_eq_true, Bool.not_eq_true', List.contains_eq_mem, decide_eq_false_iff_not, hxl.mem]
  · refine h.mem.memOK hm fun x hx => ?_
    rw [h.seen] at hx
    exact hf.bound x ((hxl.mem x).1 (mem_exitObs hx)).1

/-- Transitions that reactions ask for pass the static asserts. -/
def ValidD (C : Chart) (D : Sid → Nat → Event → Decision → Prop) : Prop := ∀ s r e d a, D s r e (.transit d a) → C.transitOK s d a = true

/-- Result and effect of a reaction search. -/
structure Effect (C : Chart) (full : Bool) (c : Conf) (obs : List Obs) (res : RR) (c' : Conf) : Prop where
  reacts : Reacts C full c obs c'
  mem : MemOK C c'.mem
  /-- only a consumed event changes states -/
  still : res ≠ .discard → c'.act = c.act ∧ MemRun C Forget c.mem obs c'.mem ∧ ∀ o ∈ obs, quietObs o = true

theorem Effect.quiet {full : Bool} {c : Conf} {obs : List Obs} {res : RR} {h : Memory} (hq : ∀ o ∈ obs, quietObs o = true)
    (hm : MemOK C c.mem) (hf : Forget c.mem h) : Effect C full c obs res ⟨c.act, h⟩ :=
  ⟨.quiet hq (memRun_quiet hf hq), hm.forget hf, fun _ => ⟨rfl, memRun_quiet hf hq, hq⟩⟩

theorem Effect.pre {full : Bool} {c c1 c' : Conf} {pre obs : List Obs} {res : RR} (hq : ∀ o ∈ pre, quietObs o = true)
    (ha : c1.act = c.act) (hr : MemRun C Forget c.mem pre c1.mem) (h : Effect C full c1 obs res c') : Effect C full c (pre ++ obs) res c' := by
  obtain ⟨act, g⟩ := c
  obtain ⟨act1, g1⟩ := c1
  simp only at ha hr
  subst ha
  refine ⟨?_, h.mem, ?_⟩
  · cases h.reacts with
    | quiet h1 h2 => exact .quiet (quiet_append hq h1) (hr.append Forget.preord h2)
    | transition h1 h2 h3 h4 =>
      rw [← List.append_assoc]
      exact .transition (quiet_append hq h1) (hr.append Forget.preord h2) h3 h4
    | termination h1 h2 h3 h4 =>
      rw [← List.append_assoc]
      exact .termination (quiet_append hq h1) (hr.append Forget.preord h2) h3 h4
  · intro hne
    obtain ⟨h1, h2, h3⟩ := h.still hne
    exact ⟨h1, hr.append Forget.preord h2, quiet_append hq h3⟩

section
variable (hwf : C.WF) {full : Bool} {D : Sid → Nat → Event → Decision → Prop} (hD : ValidD C D) {e : Event}
include hwf hD

theorem Fires.effect {s : Sid} {r : Reaction} (hr : r ∈ C.reactions s) {c c' : Conf} {obs : List Obs} {res : RR} (hf : Forest C c.act) (hm : MemOK C c.mem)
    (hs : c.act s = true) (h : Fires Forget (.code C Forget full) D s e c r.kind obs res c') : Effect C full c obs res c' := by
  have one : ∀ id, ∀ o ∈ [Obs.react s id], quietObs o = true := by intro id o ho; simp at ho; subst ho; rfl
  have nil : MemRun C Forget c.mem [] c.mem := .nil (Forget.preord.refl _)
  generalize hk : r.kind = kind at h
  cases h with
  | @transition c' d a obs h =>
    have hd := (transitOK_spec (hwf.trans_ok (hf.bound s hs) hr hk)).2.1.bound
    obtain ⟨⟨k, t, xs, ys, l, h1⟩, h2⟩ := h.meaning hwf hf hm hs hd
    exact ⟨.transition (pre := []) (by simp) nil hs h1, h2, fun hne => absurd rfl hne⟩
  | @inState h a hF =>
    refine Effect.quiet (fun o ho => ?_) hm hF
    cases a <;> simp [acts] at ho
    subst ho; rfl
  | termination h =>
    obtain ⟨⟨xs, h1⟩, h2⟩ := h.meaning hwf hf hm hs
    exact ⟨.termination (pre := []) (by simp) nil hs h1, h2, fun hne => absurd rfl hne⟩
  | deferral => exact Effect.quiet (by simp [quietObs]) hm (Forget.preord.refl _)
  | @discard h id hF _ => exact Effect.quiet (h := h) (one _) hm hF
  | @forward h id hF _ => exact Effect.quiet (h := h) (one _) hm hF
  | @defer h id hF _ => exact Effect.quiet (h := h) (by simp [quietObs]) hm hF
  | @transit g c' id d a obs hF hDd h =>
    obtain ⟨⟨k, t, xs, ys, l, h1⟩, h2⟩ := h.meaning (c := ⟨c.act, g⟩) hwf hf (hm.forget hF) hs (transitOK_spec (hD _ _ _ _ _ hDd)).2.1.bound
    exact ⟨.transition (pre := [_]) (one id) (memRun_quiet hF (one id)) hs h1, h2, fun hne => absurd rfl hne⟩
  | @terminate g c' id obs hF _ h =>
    obtain ⟨⟨xs, h1⟩, h2⟩ := h.meaning (c := ⟨c.act, g⟩) hwf hf (hm.forget hF) hs
    exact ⟨.termination (pre := [_]) (one id) (memRun_quiet hF (one id)) hs h1, h2, fun hne => absurd rfl hne⟩

theorem Local.effect {s : Sid} : ∀ {rs : List Reaction}, (∀ r ∈ rs, r ∈ C.reactions s) → ∀ {c c' : Conf} {obs : List Obs} {res : RR}, Forest C c.act → MemOK C c.mem →
    c.act s = true → Local Forget (.code C Forget full) D s e rs c obs res c' → Effect C full c obs res c' := by
  intro rs
  induction rs with
  | nil => intro _ c c' obs res hf hm hs h; cases h; exact Effect.quiet (by simp) hm (Forget.preord.refl _)
  | cons r rs ih =>
    intro hsub c c' obs res hf hm hs h
    cases h with
    | skip _ _ h => exact ih (fun r hr => hsub r (by simp [hr])) hf hm hs h
    | fire _ h => exact Fires.effect hwf hD (hsub r (by simp)) hf hm hs h

theorem Search.effect {s : Sid} {c c' : Conf} {obs : List Obs} {res : RR} (h : Search C Forget (.code C Forget full) D e s c obs res c') :
    Forest C c.act → MemOK C c.mem → c.act s = true → Effect C full c obs res c' := by
  induction h with
  | stop h _ => exact fun hf hm hs => Local.effect hwf hD (fun _ hr => hr) hf hm hs h
  | top h _ => exact fun hf hm hs => Local.effect hwf hD (fun _ hr => hr) hf hm hs h
  | @out s p c o1 c1 o2 res c' h hp _ ih =>
    intro hf hm hs
    have h1 := Local.effect hwf hD (fun _ hr => hr) hf hm hs h
    obtain ⟨h2, h3, h4⟩ := h1.still (by simp)
    exact (ih (h2 ▸ hf) h1.mem (by rw [h2]; exact hf.outer s p hs hp)).pre h4 h2 h3

theorem Sweep.effect {l : List Sid} {c c' : Conf} {obs : List Obs} {res : RR} (h : Sweep C Forget (.code C Forget full) D e l c obs res c') :
    Forest C c.act → MemOK C c.mem → (∀ s ∈ l, c.act s = true) → Effect C full c obs res c' := by
  induction h with
  | none => exact fun _ hm _ => Effect.quiet (by simp) hm (Forget.preord.refl _)
  | stop h _ => exact fun hf hm hl => Search.effect hwf hD h hf hm (hl _ (by simp))
  | @next s l c o1 c1 o2 res c' h _ ih =>
    intro hf hm hl
    have h1 := Search.effect hwf hD h hf hm (hl _ (by simp))
    obtain ⟨h2, h3, h4⟩ := h1.still (by simp)
    exact (ih (h2 ▸ hf) h1.mem (fun x hx => by rw [h2]; exact hl x (by simp [hx]))).pre h4 h2 h3

theorem Fires.meant {s : Sid} {r : Reaction} (hr : r ∈ C.reactions s) {c c' : Conf} {obs : List Obs} {res : RR} (hf : Forest C c.act) (hm : MemOK C c.mem)
    (hs : c.act s = true) (h : Fires Forget (.code C Forget full) D s e c r.kind obs res c') : Fires Forget (.meant C full) D s e c r.kind obs res c' := by
  generalize hk : r.kind = kind at h
  cases h with
  | @transition c' d a obs h =>
    have hd := (transitOK_spec (hwf.trans_ok (hf.bound s hs) hr hk)).2.1.bound
    exact .transition (Transits.meaning hwf hf hm hs hd h).1
  | inState hF => exact .inState hF
  | termination h => exact .termination (Terminates.meaning hwf hf hm hs h).1
  | deferral => exact .deferral
  | discard hF h => exact .discard hF h
  | forward hF h => exact .forward hF h
  | defer hF h => exact .defer hF h
  | @transit g c' id d a obs hF hDd h =>
    exact .transit hF hDd (Transits.meaning (c := ⟨c.act, g⟩) hwf hf (hm.forget hF) hs (transitOK_spec (hD _ _ _ _ _ hDd)).2.1.bound h).1
  | @terminate g c' id obs hF hDd h =>
    exact .terminate hF hDd (Terminates.meaning (c := ⟨c.act, g⟩) hwf hf (hm.forget hF) hs h).1

theorem Local.meant {s : Sid} : ∀ {rs : List Reaction}, (∀ r ∈ rs, r ∈ C.reactions s) → ∀ {c c' : Conf} {obs : List Obs} {res : RR}, Forest C c.act → MemOK C c.mem →
    c.act s = true → Local Forget (.code C Forget full) D s e rs c obs res c' → Local Forget (.meant C full) D s e rs c obs res c' := by
  intro rs
  induction rs with
  | nil => intro _ c c' obs res hf hm hs h; cases h; exact .none
  | cons r rs ih =>
    intro hsub c c' obs res hf hm hs h
    cases h with
    | skip h1 h2 h => exact .skip h1 h2 (ih (fun r hr => hsub r (by simp [hr])) hf hm hs h)
    | fire h1 h => exact .fire h1 (Fires.meant hwf hD (hsub r (by simp)) hf hm hs h)

theorem Search.meant {s : Sid} {c c' : Conf} {obs : List Obs} {res : RR} (h : Search C Forget (.code C Forget full) D e s c obs res c') :
    Forest C c.act → MemOK C c.mem → c.act s = true → Search C Forget (.meant C full) D e s c obs res c' := by
  induction h with
  | stop h h1 => exact fun hf hm hs => .stop (Local.meant hwf hD (fun _ hr => hr) hf hm hs h) h1
  | top h h1 => exact fun hf hm hs => .top (Local.meant hwf hD (fun _ hr => hr) hf hm hs h) h1
  | @out s p c o1 c1 o2 res c' h hp _ ih =>
    intro hf hm hs
    have h1 := Local.effect hwf hD (fun _ hr => hr) hf hm hs h
    obtain ⟨h2, h3, h4⟩ := h1.still (by simp)
    exact .out (Local.meant hwf hD (fun _ hr => hr) hf hm hs h) hp (ih (h2 ▸ hf) h1.mem (by rw [h2]; exact hf.outer s p hs hp))

theorem Passes.meant {s k : Sid} {c c' : Conf} {obs : List Obs} (h : Passes C Forget (.code C Forget full) D e s c obs k c') :
    Forest C c.act → MemOK C c.mem → c.act s = true →
    Passes C Forget (.meant C full) D e s c obs k c' ∧ c'.act = c.act ∧ MemOK C c'.mem ∧ MemRun C Forget c.mem obs c'.mem ∧ (∀ o ∈ obs, quietObs o = true) ∧ c.act k = true := by
  induction h with
  | here => exact fun hf hm hs => ⟨.here, rfl, hm, .nil (Forget.preord.refl _), by simp, hs⟩
  | @out s p k c o1 c1 o2 c' h hp _ ih =>
    intro hf hm hs
    have h1 := Local.effect hwf hD (fun _ hr => hr) hf hm hs h
    obtain ⟨h2, h3, h4⟩ := h1.still (by simp)
    obtain ⟨k1, k2, k3, k4, k5, k6⟩ := ih (h2 ▸ hf) h1.mem (by rw [h2]; exact hf.outer s p hs hp)
    refine ⟨.out (Local.meant hwf hD (fun _ hr => hr) hf hm hs h) hp k1, by rw [k2, h2], k3, h3.append Forget.preord k4, ?_, by rw [← h2]; exact k6⟩
    intro o ho
    rcases List.mem_append.1 ho with ho | ho
    · exact h4 o ho
    · exact k5 o ho

theorem Sweep.meant {l : List Sid} {c c' : Conf} {obs : List Obs} {res : RR} (h : Sweep C Forget (.code C Forget full) D e l c obs res c') :
    Forest C c.act → MemOK C c.mem → (∀ s ∈ l, c.act s = true) → Sweep C Forget (.meant C full) D e l c obs res c' := by
  induction h with
  | none => exact fun _ hm _ => .none
  | stop h h1 => exact fun hf hm hl => .stop (Search.meant hwf hD h hf hm (hl _ (by simp))) h1
  | @next s l c o1 c1 o2 res c' h _ ih =>
    intro hf hm hl
    have h1 := Search.effect hwf hD h hf hm (hl _ (by simp))
    obtain ⟨h2, h3, h4⟩ := h1.still (by simp)
    exact .next (Search.meant hwf hD h hf hm (hl _ (by simp))) (ih (h2 ▸ hf) h1.mem (fun x hx => by rw [h2]; exact hl x (by simp [hx])))

end
end SC.Spec
