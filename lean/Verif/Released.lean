import Verif.Queue
/-!
# Deferred events are released exactly when a state that deferred is destroyed
-/

namespace SC.Spec
open SC

theorem run_step {q q' : Queues} {o : QOp} {l : List QOp} (h : q.run (o :: l) = some q') : ∃ q1, q.step o = some q1 ∧ q1.run l = some q' := by
  have h' : (q.step o).bind (fun x => x.run l) = some q' := h
  exact Option.bind_eq_some_iff.1 h'

/-- A state that holds deferred events does so until it releases them. -/
theorem run_holders {s : Sid} (l : List QOp) : ∀ {q q' : Queues}, q.run l = some q' → q.holders s = true → .release s ∉ l → q'.holders s = true := by
  induction l with
  | nil => intro q q' h hs _; cases h; exact hs
  | cons o l ih =>
    intro q q' h hs hr
    obtain ⟨q1, h1, h2⟩ := run_step h
    refine ih h2 ?_ fun hm => hr (by simp [hm])
    cases o with
    | hold x =>
      simp only [Queues.step, Option.some.injEq] at h1
      subst h1
      simp only
      split <;> first | rfl | exact hs
    | release x =>
      simp only [Queues.step] at h1
      split at h1
      · cases h1
        simp only
        split
        · next he => subst he; exact absurd (by simp) hr
        · exact hs
      · cases h1
    | post e => cases h1; exact hs
    | clear => cases h1; exact hs
    | recv e => simp only [Queues.step] at h1; split at h1 <;> cases h1; exact hs
    | defer e => simp only [Queues.step] at h1; split at h1 <;> cases h1; exact hs
    | lost e => simp only [Queues.step] at h1; split at h1 <;> cases h1; exact hs
    | done e => simp only [Queues.step] at h1; split at h1 <;> cases h1; exact hs
    | pop e =>
      simp only [Queues.step] at h1
      split at h1
      · cases h1
      · split at h1 <;> cases h1; exact hs

/-- A state that releases deferred events holds some, from before or since then. -/
theorem run_releaser {s : Sid} (l : List QOp) : ∀ {q q' : Queues}, q.run l = some q' → .release s ∈ l → q.holders s = true ∨ .hold s ∈ l := by
  induction l with
  | nil => intro q q' h hr; cases hr
  | cons o l ih =>
    intro q q' h hr
    obtain ⟨q1, h1, h2⟩ := run_step h
    rcases List.mem_cons.1 hr with he | hr
    · subst he
      simp only [Queues.step] at h1
      split at h1
      · next hs => exact .inl hs
      · cases h1
    · rcases ih h2 hr with hs | hs
      · by_cases hq : q.holders s = true
        · exact .inl hq
        · right
          cases o with
          | hold x =>
            simp only [Queues.step, Option.some.injEq] at h1
            subst h1
            simp only at hs
            split at hs
            · next he => subst he; simp
            · exact absurd hs hq
          | release x =>
            simp only [Queues.step] at h1
            split at h1
            · cases h1
              simp only at hs
              split at hs
              · cases hs
              · exact absurd hs hq
            · cases h1
          | post e => cases h1; exact absurd hs hq
          | clear => cases h1; exact absurd hs hq
          | recv e => simp only [Queues.step] at h1; split at h1 <;> cases h1; exact absurd hs hq
          | defer e => simp only [Queues.step] at h1; split at h1 <;> cases h1; exact absurd hs hq
          | lost e => simp only [Queues.step] at h1; split at h1 <;> cases h1; exact absurd hs hq
          | done e => simp only [Queues.step] at h1; split at h1 <;> cases h1; exact absurd hs hq
          | pop e =>
            simp only [Queues.step] at h1
            split at h1
            · cases h1
            · split at h1 <;> cases h1; exact absurd hs hq
      · exact .inr (by simp [hs])

/-- The states that deferred an event and were not destroyed since then. -/
def holdStep (h : Sid → Bool) : Obs → Sid → Bool
  | .defer s => fun x => if x = s then true else h x
  | .destroy s => fun x => if x = s then false else h x
  | _ => h

/-- Some state releases deferred events. -/
def releases (l : List QOp) : Bool := l.any fun | .release _ => true | _ => false

theorem releases_iff {l : List QOp} : releases l = true ↔ ∃ s, QOp.release s ∈ l := by
  unfold releases
  rw [List.any_eq_true]
  constructor
  · rintro ⟨o, h1, h2⟩
    cases o <;> first | exact ⟨_, h1⟩ | cases h2
  · rintro ⟨s, h⟩; exact ⟨_, h, rfl⟩

/-- While one event is dispatched, the deferred events move to the front of the queue if they
are released, and posted events are appended. -/
theorem run_inner (l : List QOp) : ∀ {q q' : Queues}, q.run l = some q' → (∀ o ∈ l, o.isInner = true ∧ o ≠ .clear) →
    q'.pending = (if releases l then q.deferred else []) ++ q.pending ++ posts l ∧ q'.deferred = if releases l then [] else q.deferred := by
  induction l with
  | nil => intro q q' h _; cases h; exact ⟨by simp [releases, posts], by simp [releases]⟩
  | cons o l ih =>
    intro q q' h hl
    obtain ⟨q1, h1, h2⟩ := run_step h
    obtain ⟨i1, i2⟩ := ih h2 fun o ho => hl o (by simp [ho])
    have ho := hl o (by simp)
    have e1 : posts (o :: l) = posts [o] ++ posts l := List.filterMap_append (l := [o])
    have e2 : releases (o :: l) = (releases [o] || releases l) := by simp [releases]
    rw [i1, i2, e1, e2]
    cases o with
    | post e => cases h1; simp [releases, posts]
    | hold x => cases h1; simp [releases, posts]
    | clear => exact absurd rfl ho.2
    | release x =>
      simp only [Queues.step] at h1
      split at h1
      · cases h1
        have r1 : releases [.release x] = true := rfl
        have p1 : posts [.release x] = [] := rfl
        rw [r1, p1]
        by_cases hr : releases l = true <;> simp [hr]
      · cases h1
    | _ => cases ho.1

end SC.Spec

namespace SC
open Spec Chart
variable {W : Type} {P : Prog W} {m : Mach W}

/-- Queue operations of user code. -/
def cmdOps (l : List Cmd) : List QOp := l.filterMap fun | .post e => some (.post e) | _ => none

theorem cmdOps_post {l : List Cmd} {o : QOp} (h : o ∈ cmdOps l) : ∃ e, o = .post e := by
  unfold cmdOps at h
  obtain ⟨c, _, h2⟩ := List.mem_filterMap.1 h
  cases c <;> cases h2
  exact ⟨_, rfl⟩

theorem qstep_cmds' (l : List Cmd) : ∀ m : Mach W, QStep m (l.foldl Mach.cmd m) (cmdOps l) := by
  induction l with
  | nil => exact fun m => .same rfl rfl rfl rfl
  | cons c l ih =>
    intro m
    cases c with
    | post e =>
      have h1 : QStep m (m.cmd (.post e)) [.post e] := ⟨rfl, by simp [QOp.isInner], fun _ => rfl⟩
      exact h1.trans (ih _)
    | clearShallow k =>
      have h1 : QStep m (m.cmd (.clearShallow k)) [] := .same rfl rfl rfl rfl
      exact h1.trans (ih _)
    | clearDeep k =>
      have h1 : QStep m (m.cmd (.clearDeep k)) [] := .same rfl rfl rfl rfl
      exact h1.trans (ih _)

/-- Queue operations and observations of one step. If `b` is false the queues are not cleared. -/
structure RelStep (b : Bool) (m m' : Mach W) (ops : List QOp) (tr : List (Option Event × Obs)) : Prop where
  qlog : m'.qlog = m.qlog ++ ops
  trace : m'.trace = m.trace ++ tr
  noclear : b = false → .clear ∉ ops
  rel : ∀ s, .release s ∈ ops → Obs.destroy s ∈ tr.map (·.2)
  dest : ∀ s, m.holders s = true → Obs.destroy s ∈ tr.map (·.2) → .release s ∈ ops
  hold : m'.holders = (tr.map (·.2)).foldl holdStep m.holders
  held : ∀ s, .hold s ∈ ops → Obs.defer s ∈ tr.map (·.2)

theorem holdStep_keeps {s : Sid} (l : List Obs) : ∀ h : Sid → Bool, h s = true → Obs.destroy s ∉ l → l.foldl holdStep h s = true := by
  induction l with
  | nil => intro h hs _; exact hs
  | cons o l ih =>
    intro h hs hn
    refine ih _ ?_ (fun hm => hn (by simp [hm]))
    cases o <;> simp only [holdStep] <;> first | exact hs | skip
    · split
      · next he => subst he; exact absurd (by simp) hn
      · exact hs
    · split <;> first | rfl | exact hs

theorem RelStep.trans {b : Bool} {a c d : Mach W} {o1 o2 : List QOp} {t1 t2 : List (Option Event × Obs)} (h1 : RelStep b a c o1 t1) (h2 : RelStep b c d o2 t2) :
    RelStep b a d (o1 ++ o2) (t1 ++ t2) := by
  refine ⟨by rw [h2.qlog, h1.qlog, List.append_assoc], by rw [h2.trace, h1.trace, List.append_assoc], ?_, ?_, ?_, ?_, ?_⟩
  · intro hb h
    rcases List.mem_append.1 h with h | h
    · exact h1.noclear hb h
    · exact h2.noclear hb h
  · intro s h
    rw [List.map_append, List.mem_append]
    rcases List.mem_append.1 h with h | h
    · exact .inl (h1.rel s h)
    · exact .inr (h2.rel s h)
  · intro s hs h
    rw [List.map_append, List.mem_append] at h
    rw [List.mem_append]
    by_cases hd : Obs.destroy s ∈ t1.map (·.2)
    · exact .inl (h1.dest s hs hd)
    · rcases h with h | h
      · exact absurd h hd
      · refine .inr (h2.dest s ?_ h)
        rw [h1.hold]; exact holdStep_keeps _ _ hs hd
  · rw [h2.hold, h1.hold, List.map_append, List.foldl_append]
  · intro s h
    rw [List.map_append, List.mem_append]
    rcases List.mem_append.1 h with h | h
    · exact .inl (h1.held s h)
    · exact .inr (h2.held s h)

variable {b : Bool}

def RelRel (b : Bool) (m m' : Mach W) : Prop := Early m → Early m' ∧ ∃ ops tr, RelStep b m m' ops tr

theorem RelRel.trans {a c d : Mach W} (h1 : RelRel b a c) (h2 : RelRel b c d) : RelRel b a d := by
  intro h
  obtain ⟨g1, o1, t1, k1⟩ := h1 h
  obtain ⟨g2, o2, t2, k2⟩ := h2 g1
  exact ⟨g2, _, _, k1.trans k2⟩

theorem RelStep.same {m m' : Mach W} (h1 : m'.holders = m.holders) (h2 : m'.qlog = m.qlog) (h5 : m'.trace = m.trace) : RelStep b m m' [] [] :=
  ⟨by simp [h2], by simp [h5], by simp, by simp, by simp, by simp [h1], by simp⟩

theorem relrel_same {m m' : Mach W} (h1 : m'.heap = m.heap) (h2 : m'.qlog = m.qlog) (h5 : m'.trace = m.trace) : RelRel b m m' := by
  intro h
  refine ⟨by unfold Early; rw [h1]; exact h, [], [], .same ?_ h2 h5⟩
  unfold Mach.holders; rw [h1]

theorem RelRel.refl (m : Mach W) : RelRel b m m := relrel_same rfl rfl rfl

def relK (b : Bool) : KRel W where
  R := RelRel b
  E _ := RelRel b
  refl := RelRel.refl
  trans := RelRel.trans
  re := RelRel.trans
  er := RelRel.trans

theorem relrel_cmds (w : W) (l : List Cmd) (m : Mach W) : RelRel b m (l.foldl Mach.cmd { m with world := w }) := by
  intro h
  have hh := (world_step m w l).core.heap
  have ht := (world_step m w l).trace
  have hq := qstep_cmds' l { m with world := w }
  refine ⟨by unfold Early; rw [hh]; exact h, _, [], hq.qlog, ht, ?_, ?_, by simp, ?_, ?_⟩
  · intro _ h
    obtain ⟨e, he⟩ := cmdOps_post h
    cases he
  · intro s h
    obtain ⟨e, he⟩ := cmdOps_post h
    cases he
  · unfold Mach.holders; rw [hh]; rfl
  · intro s h
    obtain ⟨e, he⟩ := cmdOps_post h
    cases he

/-- Observations that do not change who deferred events. -/
def Obs.plain : Obs → Bool
  | .destroy _ => false
  | .defer _ => false
  | _ => true

theorem relrel_log (o : Obs) (ho : o.plain = true) (m : Mach W) : RelRel b m (m.log o) := by
  intro he
  refine ⟨he, [], [(m.trig, o)], by simp [Mach.log], rfl, by simp, by simp, ?_, ?_, by simp⟩
  · intro s _ h
    simp only [List.map_cons, List.map_nil, List.mem_singleton] at h
    subst h; cases ho
  · show m.holders = holdStep m.holders o
    cases o <;> first | rfl | cases ho

theorem relrel_logs (l : List Obs) (hl : ∀ o ∈ l, o.plain = true) : ∀ m : Mach W, RelRel b m (l.foldl Mach.log m) := by
  induction l with
  | nil => exact RelRel.refl
  | cons o l ih => exact fun m => (relrel_log o (hl o (by simp)) m).trans (ih (fun o h => hl o (by simp [h])) _)

theorem keeps_runUser_rel {f : View → W → UOut W} {l1 l2 : List Obs} (ha : ∀ o ∈ l1, o.plain = true) (hb : ∀ o ∈ l2, o.plain = true) :
    Keeps (relK b) (runUser f l1 l2) := by
  intro m
  unfold KeepsAt runUser
  cases h : (f m.view m.world).throws with
  | none => simp only [h]; exact (relrel_cmds _ _ m).trans (relrel_logs _ ha _)
  | some x => simp only [h]; exact ((relrel_cmds _ _ m).trans (relrel_logs _ hb _)).trans (relrel_same rfl rfl rfl)

theorem holders_erase {m m2 : Mach W} {s : Sid} {o : Obj} (ho : m.heap s = some o) (he : m2.heap s = none) (hq : QStep m m2 (relOps s o)) :
    m2.holders = fun x => if x = s then false else m.holders x := by
  have h1 := hq.run none
  have hs : m2.holders s = false := by unfold Mach.holders; rw [he]
  unfold relOps at h1
  split at h1
  · next hd =>
    rw [run_cons] at h1
    have : (m.queues none).holders s = true := by show m.holders s = true; unfold Mach.holders; rw [ho]; exact hd
    simp only [Queues.step, this, if_true, Option.bind_some, run_nil, Option.some.injEq] at h1
    exact (congrArg Queues.holders h1).symm
  · next hd =>
    rw [run_nil, Option.some.injEq] at h1
    have h2 : m2.holders = m.holders := (congrArg Queues.holders h1).symm
    funext x
    by_cases hx : x = s
    · subst hx; rw [if_pos rfl]; exact hs
    · rw [if_neg hx, h2]

theorem relPrims_p (b : Bool) (P : Prog W) : Prims (relK b) P where
  core h1 h2 := relrel_same h2 h1.qlog h1.trace
  raise _ _ := relrel_same rfl rfl rfl
  setObj h ho := fun he => ⟨early_upd h ho he, [], [], .same (holders_upd h ho.deferred) rfl rfl⟩
  newObj := by
    intro m s h he
    refine ⟨?_, [], [], .same ?_ rfl rfl⟩
    · intro x ox hx hc
      simp only [upd] at hx
      split at hx
      · cases hx; rfl
      · exact he x ox hx hc
    · funext x
      unfold Mach.holders
      simp only [upd]
      by_cases hx : x = s
      · subst hx; rw [if_pos rfl, h]; rfl
      · rw [if_neg hx]
  destroy := by
    intro rel hr s m
    have hend : Keeps (relK b) (match P.parent s with | none => pure () | some p => rel p : M W Unit) := by
      split
      · exact Keeps.pure _
      · exact hr _
    let mc : Mach W := (P.dtor s m.view m.world).2.foldl Mach.cmd { m with world := (P.dtor s m.view m.world).1 }
    let m1 : Mach W := mc.log (.destroy s)
    have hm1 : (userDtor P s >>= fun _ => baseDtor P rel s) m = baseDtor P rel s m1 := rfl
    have hh : m1.heap = m.heap := (world_step m _ _).core.heap
    have hc := relrel_cmds (b := b) (P.dtor s m.view m.world).1 (P.dtor s m.view m.world).2 m
    have h1 : ∀ m2 o, Early m → m.heap s = some o → m2.heap s = none → QStep m1 m2 (relOps s o) → m2.trace = m1.trace →
        ∃ ops tr, RelStep b m m2 ops tr := by
      intro m2 o he ho hn hq ht
      obtain ⟨_, o1, t1, k⟩ := hc he
      have hs : RelStep b mc m2 (relOps s o) [(mc.trig, .destroy s)] := by
        have hq' : QStep mc m1 [] := .same rfl rfl rfl rfl
        refine ⟨(hq'.trans hq).qlog, by rw [ht]; rfl, ?_, ?_, ?_, ?_, ?_⟩
        · intro _; unfold relOps; split <;> simp
        · intro x hx
          unfold relOps at hx
          split at hx
          · simp only [List.mem_singleton, QOp.release.injEq] at hx; subst hx; simp
          · cases hx
        · intro x hx hd
          simp only [List.map_cons, List.map_nil, List.mem_singleton, Obs.destroy.injEq] at hd
          subst hd
          have : mc.heap x = some o := by rw [← ho, ← hh]; rfl
          unfold Mach.holders at hx
          rw [this] at hx
          simp only at hx
          unfold relOps
          rw [if_pos hx]; simp
        · exact holders_erase (m := m1) (by rw [hh]; exact ho) hn hq
        · intro x hx
          unfold relOps at hx
          split at hx <;> simp at hx
      exact ⟨_, _, k.trans hs⟩
    have key : ∀ r, baseDtor P rel s m1 = r → match r with
        | .ok _ m' => RelRel b m m'
        | .thrown _ m' => RelRel b m m'
        | .fault _ => True := by
      intro r hr
      cases ho : m1.heap s with
      | none =>
        obtain ⟨g, hg⟩ := baseDtor_none (P := P) (rel := rel) ho
        rw [hg] at hr; subst hr; trivial
      | some o =>
        have main : ∀ m', (∀ m2, (match P.parent s with | none => pure () | some p => rel p : M W Unit) m2 = r → RelRel b m2 m') →
            (r = .ok () m' ∨ ∃ x, r = .thrown x m') → RelRel b m m' := by
          intro m' hm he hearly
          have hearly1 : Early m1 := by unfold Early; rw [hh]; exact hearly
          rcases baseDtor_split (P := P) (rel := rel) ho hearly1 with ⟨m2, k1, k2, k3, kn, k4⟩ | ⟨g, hg⟩
          · obtain ⟨ops, tr, k5⟩ := h1 m2 o hearly (by rw [← hh]; exact ho) kn k2 k3
            rcases k4 with k4 | k4
            · rw [k4] at hr
              obtain ⟨j1, _, _, j2⟩ := hm m2 hr k1
              exact ⟨j1, _, _, k5.trans j2⟩
            · rw [k4] at hr; subst hr
              rcases he with he | ⟨x, he⟩
              · cases he; exact ⟨k1, _, _, k5⟩
              · cases he
          · rw [hg] at hr; subst hr
            rcases he with he | ⟨x, he⟩ <;> cases he
        cases r with
        | fault g => trivial
        | ok u m' => exact main m' (fun m2 h2 => hend.ok h2) (.inl rfl)
        | thrown x m' => exact main m' (fun m2 h2 => hend.thrown h2) (.inr ⟨x, rfl⟩)
    have := key _ rfl
    unfold KeepsAt
    rw [hm1]
    cases h : baseDtor P rel s m1 <;> rw [h] at this <;> exact this
  construct := by
    intro rel hr s m o ho hd
    have hend : Keeps (relK b) (match P.parent s with | none => pure () | some p => rel p : M W Unit) := by
      split
      · exact Keeps.pure _
      · exact hr _
    by_cases hc : P.isSimple s = true ∧ (P.ctor s m.view m.world).cmds ≠ []
    · unfold KeepsAt M.onThrow runCtor
      simp [hc]
    · have h1 := keeps_runUser_rel (b := b) (f := P.ctor s) (l1 := [.enter s]) (l2 := [.enterFail s]) (by simp [Obs.plain]) (by simp [Obs.plain]) m
      have hr1 : runCtor P s m = runUser (P.ctor s) [.enter s] [.enterFail s] m := by unfold runCtor; rw [if_neg hc]
      unfold KeepsAt at h1 ⊢
      rw [← hr1] at h1
      unfold M.onThrow
      cases hx : runCtor P s m with
      | ok u m' => rw [hx] at h1; exact h1
      | fault g => trivial
      | thrown x m1 =>
        rw [hx] at h1
        simp only at h1 ⊢
        have hh : m1.heap = m.heap := by
          rw [hr1] at hx
          unfold runUser at hx
          cases ht : (P.ctor s m.view m.world).throws with
          | none => simp only [ht] at hx; cases hx
          | some y =>
            simp only [ht] at hx
            cases hx
            exact (world_step m _ _).core.heap
        have ho1 : m1.heap s = some o := by rw [hh]; exact ho
        have her : relOps s o = [] := by unfold relOps; rw [hd]; rfl
        have main : ∀ r m', baseDtor P rel s m1 = r → (∀ m2, (match P.parent s with | none => pure () | some p => rel p : M W Unit) m2 = r → RelRel b m2 m') →
            (r = .ok () m' ∨ ∃ x, r = .thrown x m') → RelRel b m m' := by
          intro r m' hr hm he hearly
          obtain ⟨hearly1, o1, t1, s1⟩ := h1 hearly
          rcases baseDtor_split (P := P) (rel := rel) ho1 hearly1 with ⟨m2, k1, k2, k3, kn, k4⟩ | ⟨g, hg⟩
          · have s2 : RelStep b m1 m2 [] [] := by
              rw [her] at k2
              refine .same ?_ (by simpa using k2.qlog) k3
              have := k2.run none
              rw [run_nil, Option.some.injEq] at this
              exact (congrArg Queues.holders this).symm
            rcases k4 with k4 | k4
            · rw [k4] at hr
              obtain ⟨j1, _, _, j2⟩ := hm m2 hr k1
              exact ⟨j1, _, _, (s1.trans s2).trans j2⟩
            · rw [k4] at hr; subst hr
              rcases he with he | ⟨x, he⟩
              · cases he; exact ⟨k1, _, _, s1.trans s2⟩
              · cases he
          · rw [hg] at hr; subst hr
            rcases he with he | ⟨x, he⟩ <;> cases he
        cases hb : baseDtor P rel s m1 with
        | fault g => trivial
        | ok u m' => exact main _ m' hb (fun m2 h2 => hend.ok h2) (.inl rfl)
        | thrown x m' => trivial
  action a := by
    cases a with
    | none => exact Keeps.pure _
    | some a => exact keeps_runUser_rel (by simp [Obs.plain]) (by simp [Obs.plain])
  react s id e := keeps_runUser_rel (by simp [Obs.plain]) (by simp [Obs.plain])

theorem relSend (b : Bool) (P : Prog W) : SendPrims (relK b) P where
  toPrims := relPrims_p b P
  deferEvent s := by
    unfold deferEvent
    refine keeps_getObj_bind fun o m ho => ?_
    split
    · next hc =>
      intro he
      refine ⟨?_, [.hold s], [(m.trig, .defer s)], rfl, rfl, by simp, by simp, by simp, ?_, by simp⟩
      · intro x ox hx hcx
        simp only [Mach.log, upd] at hx
        split at hx
        · cases hx; rw [hc] at hcx; cases hcx
        · exact he x ox hx hcx
      · funext x
        simp only [List.map_cons, List.map_nil, List.foldl_cons, List.foldl_nil, holdStep]
        unfold Mach.holders
        simp only [Mach.log, upd]
        by_cases hx : x = s
        · simp [hx]
        · simp [hx]
    · trivial
  er h := h
  re' h := h
  loose h := relrel_same h.heap h.qlog h.trace
  fullExit := (relPrims_p b P).fullExit (fun m l => relrel_same rfl rfl rfl) (fun m f _ => relrel_same rfl rfl rfl) (fun m f _ => relrel_same rfl rfl rfl)
    fun s => keeps_runUser_rel (by simp [Obs.plain]) (by simp [Obs.plain])
  unconsumed e := keeps_runUser_rel (by simp [Obs.plain]) (by simp [Obs.plain])

theorem relPrims (P : Prog W) : AllPrims (relK true) P where
  toSendPrims := relSend true P
  clear := by
    intro m he
    exact ⟨he, [.clear], [], rfl, by simp [clearAll], by simp, by simp, by simp, rfl, by simp⟩

theorem withTrig_ok {α : Type} {ev : Option Event} {x : M W α} {a : α} {m' : Mach W} (h : withTrig ev x m = .ok a m') :
    ∃ m2, x { m with trig := ev } = .ok a m2 ∧ m' = { m2 with trig := m.trig } := by
  unfold withTrig at h
  split at h
  · next a' m2 h2 => cases h; exact ⟨m2, h2, rfl⟩
  · cases h
  · cases h

/-- `send_event` when it returns. -/
theorem sendEvent_rel {e : Event} {r : RR} {m' : Mach W} (h : sendEvent P e m = .ok r m') : RelRel false m m' := by
  have hK := relSend false P
  unfold sendEvent at h
  have h1 : Keeps (relK false) (do
      let m ← M.get
      if m.pOU ≠ none then M.fault .assertFail
      else sendLoop P e (m.endIx + 1) 0 : M W RR) :=
    Keeps.bind Keeps.get fun m => Keeps.ite (fun _ => Keeps.fault _) fun _ => hK.sendLoop _ _ _
  have hw : RelRel false m { m with trig := some e } := relrel_same rfl rfl rfl
  obtain ⟨m2, hb, hm'⟩ := withTrig_ok h
  subst hm'
  clear h
  have h := hb
  change M.bnd (guardTerm P _) _ { m with trig := some e } = _ at h
  unfold M.bnd guardTerm at h
  have h1' := h1 { m with trig := some e }
  unfold KeepsAt at h1'
  cases hx : (do
      let m ← M.get
      if m.pOU ≠ none then M.fault .assertFail
      else sendLoop P e (m.endIx + 1) 0 : M W RR) { m with trig := some e } with
  | fault g => rw [hx] at h; cases h
  | thrown x m1 =>
    rw [hx] at h
    simp only at h
    cases hy : terminateMachine P false m1 <;> rw [hy] at h <;> cases h
  | ok r' m1 =>
    rw [hx] at h h1'
    simp only at h h1'
    have h2 : Keeps (relK false) ((if r' = .forward then runUser (P.unconsumed e) [.unconsumed] [.unconsumed] else pure ()) >>= fun _ => pure r' : M W RR) :=
      Keeps.bind (Keeps.ite (fun _ => hK.unconsumed _) fun _ => Keeps.pure _) fun _ => Keeps.pure _
    exact (hw.trans h1').trans ((h2.ok h).trans (relrel_same rfl rfl rfl))

end SC
