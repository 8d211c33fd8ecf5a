import Verif.Props.Vocab
import Verif.HistLog
/-!
# Properties C01 – C05, C16: safety, configurations, life cycles
-/

namespace SC
open Spec Chart
variable {W : Type} {P : Prog W} {m : Mach W}

/-! ## Facts about the life-cycle checker -/

namespace Spec
variable {C : Chart}

/-- Induction over a list from its end. -/
theorem snocInd {α : Type} {motive : List α → Prop} (nil : motive []) (snoc : ∀ l a, motive l → motive (l ++ [a])) (l : List α) : motive l := by
  have : ∀ r : List α, motive r.reverse := by
    intro r
    induction r with
    | nil => exact nil
    | cons a r ih => rw [List.reverse_cons]; exact snoc _ _ ih
  have h := this l.reverse
  rwa [List.reverse_reverse] at h

/-- Replay from a given state. -/
def lifeFrom (C : Chart) (st : Life) (tr : List Obs) : Option Life :=
  tr.foldl (fun st o => st.bind fun l => lifeStep C l o) (some st)

theorem lifeFrom_cons {st : Life} {o : Obs} {tr : List Obs} :
    lifeFrom C st (o :: tr) = (lifeStep C st o).bind fun st1 => lifeFrom C st1 tr := by
  unfold lifeFrom
  rw [List.foldl_cons, Option.bind_some]
  cases lifeStep C st o with
  | some st1 => rfl
  | none =>
    have : ∀ l : List Obs, l.foldl (fun st o => st.bind fun l => lifeStep C l o) (none : Option Life) = none := by
      intro l; induction l with
      | nil => rfl
      | cons a l ih => exact ih
    rw [this]; rfl

theorem life_split {st : Life} {a b : List Obs} {o : Obs} (h : life C (a ++ o :: b) = some st) :
    ∃ st1 st2, life C a = some st1 ∧ lifeStep C st1 o = some st2 ∧ lifeFrom C st2 b = some st := by
  have h1 : life C (a ++ o :: b) = (life C a).bind fun st1 => lifeFrom C st1 (o :: b) := by
    unfold life
    rw [List.foldl_append]
    cases a.foldl (fun st o => st.bind fun l => lifeStep C l o) (some ⟨fun _ => false, none⟩) with
    | some st1 => rfl
    | none =>
      have : ∀ l : List Obs, l.foldl (fun st o => st.bind fun l => lifeStep C l o) (none : Option Life) = none := by
        intro l; induction l with
        | nil => rfl
        | cons a l ih => exact ih
      rw [this]; rfl
  rw [h1] at h
  cases ha : life C a with
  | none => rw [ha] at h; cases h
  | some st1 =>
    rw [ha, Option.bind_some, lifeFrom_cons] at h
    cases ho : lifeStep C st1 o with
    | none => rw [ho] at h; cases h
    | some st2 => rw [ho] at h; exact ⟨st1, st2, rfl, ho, h⟩

theorem lifeStep_act {st st' : Life} {o : Obs} (h : lifeStep C st o = some st') : st'.act = aliveStep st.act o := by
  cases o <;> simp only [lifeStep] at h <;> split at h <;> cases h <;> rfl

theorem life_act {tr : List Obs} : ∀ {st : Life}, life C tr = some st → st.act = alive tr := by
  induction tr using snocInd with
  | nil => intro st h; cases h; rfl
  | snoc tr o ih =>
    intro st h
    rw [life_snoc] at h
    cases h1 : life C tr with
    | none => rw [h1] at h; cases h
    | some st1 =>
      rw [h1] at h
      rw [lifeStep_act h, ih h1]
      unfold alive
      rw [List.foldl_append]; rfl

theorem life_alive_bound {tr : List Obs} {st : Life} (h : life C tr = some st) : ∀ s, alive tr s = true → s < C.n := by
  rw [← life_act h]
  exact (life_bound tr _ _ (fun s hs => by cases hs) h).2

theorem parentActive_iff {act : Sid → Bool} {s : Sid} : parentActive C act s = true ↔ ∀ p, C.parent s = some p → act p = true := by
  unfold parentActive
  cases C.parent s <;> simp

theorem regionEmpty_iff {act : Sid → Bool} (hb : ∀ s, act s = true → s < C.n) {s : Sid} :
    regionEmpty C act s = true ↔ ∀ t, act t = true → C.parent t = C.parent s → C.pos t ≠ C.pos s := by
  unfold regionEmpty
  simp only [List.all_eq_true, List.mem_range, Bool.not_eq_true', Bool.and_eq_false_imp, Bool.and_eq_true, beq_iff_eq, beq_eq_false_iff_ne, and_imp]
  constructor
  · intro h t h1 h2; exact h t (hb t h1) h1 h2
  · intro h t _ h1 h2; exact h t h1 h2

end Spec

section
variable (hwf : P.toChart.WF) (hok : Contract P)
include hwf hok

/-! ## C01 -/

/-- C01: no call of a public member function performs an invalid memory access or fails an assert. -/
theorem C01_call_is_safe (h : Reach P m) (c : Call) (hl : c.legal P m) (f : Fault) : c.run P m ≠ .fault f := by
  intro hx
  have := call_wp hwf hok c (h.stable hwf hok).1 hl
  unfold wp at this
  rw [hx] at this
  exact this

/-- C01: the destructor performs no invalid memory access and fails no assert; nor does it throw. -/
theorem C01_destructor_is_safe (h : Reach P m) : ∃ m', destruct P m = .ok () m' := by
  have : wp (destruct P) (fun _ _ => True) (fun _ _ => False) m :=
    terminateMachine_false_wp hwf (h.stable hwf hok).1.inv fun _ _ => trivial
  unfold wp at this
  cases hx : destruct P m with
  | ok u m' => exact ⟨m', rfl⟩
  | thrown x m' => rw [hx] at this; exact absurd this id
  | fault f => rw [hx] at this; exact absurd this id

/-- C01: `initiate()` may be called on every terminated machine, and on every machine if no exception is translated. -/
theorem C01_initiate_is_legal (h : Reach P m) (hi : m.terminated = true ∨ ∀ x, P.translate x = none) (k : Nat) :
    (Call.initiate k).legal P m := by
  rcases hi with hi | hi
  · exact Call.legal_of_terminated hi k
  · exact Call.legal_of_null hwf hok (h.stable hwf hok).1 hi k

/-! ## C16 -/

/-- A machine as seen by the client between calls, or at the moment when the next queued event
is about to be dispatched during a call (the bound `k` of the call was reached). -/
def Visible (P : Prog W) (m : Mach W) : Prop :=
  Reach P m ∨ ∃ m0 c, Reach P m0 ∧ Call.legal P m0 c ∧ c.run P m0 = .ok false m

theorem Visible.stable (h : Visible P m) : Stable P.toChart m ∧ m.trig = none := by
  rcases h with h | ⟨m0, c, h0, hl, hr⟩
  · exact h.stable hwf hok
  · have := call_wp hwf hok c (h0.stable hwf hok).1 hl
    unfold wp at this
    rw [hr] at this
    exact ⟨this.1, by rw [this.2]; exact (h0.stable hwf hok).2⟩

/-- C16: the machine is stable whenever a call returns or throws, and whenever the next event is
dequeued: there is no unstable state, and `exit()` calls are enabled again. -/
theorem C16_stable (h : Visible P m) : m.pOU = none ∧ m.fullExit = true ∧ m.trig = none := by
  obtain ⟨h1, h2⟩ := h.stable hwf hok
  exact ⟨h1.pOU, h1.fullExit, h2⟩

/-! ## C02 – C04 -/

omit hwf hok in
theorem Inv.forest {C : Chart} {L : Sid → Nat} {pend : Option Sid} (h : Inv C L pend m) : Forest C m.act := by
  refine ⟨fun s hs => h.live_bound hs, fun s p hs hp => h.par_live hs hp, ?_⟩
  intro s t hs ht hp hpos
  cases hps : C.parent s with
  | none =>
    have h1 := h.outer.2 ⟨hs, hps⟩
    have h2 := h.outer.2 ⟨ht, by rw [← hp, hps]⟩
    rw [h1] at h2; cases h2; rfl
  | some p =>
    have hpl := h.par_live hs hps
    obtain ⟨o, ho⟩ := Option.isSome_iff_exists.1 hpl
    have h1 := (h.inner_iff ho).2 ⟨hs, hps, rfl⟩
    have h2 := (h.inner_iff ho).2 ⟨ht, by rw [← hp, hps], rfl⟩
    rw [hpos, h2] at h1; cases h1; rfl

omit hwf hok in
theorem Stable.legal (h : Stable P.toChart m) : LegalConf P.toChart m.act := by
  refine ⟨h.inv.forest, ?_⟩
  · intro s hs hl
    obtain ⟨o, ho⟩ := Option.isSome_iff_exists.1 hs
    have hn : nch (P.regions (some s)) o.inner ≠ 0 := by
      intro hn
      rcases h.inv.noOrphan ho hl hn with h' | h'
      · rw [h.pOU] at h'; cases h'
      · exact h' rfl
    obtain ⟨i, c, _, hc⟩ := nch_exists hn
    obtain ⟨h1, h2, _⟩ := (h.inv.inner_iff ho).1 hc
    exact ⟨c, h1, h2⟩

/-- C16, as seen from outside: no entry is left half done. Every existing state that has inner states has an existing direct inner state, and no region is
occupied twice. -/
theorem C16_complete (h : Visible P m) : (∀ s, m.act s = true → P.isLeaf s = false → ∃ c, m.act c = true ∧ P.parent c = some s) ∧
    ∀ s t, m.act s = true → m.act t = true → P.parent s = P.parent t → P.pos s = P.pos t → s = t :=
  have hl := (h.stable hwf hok).1.legal
  ⟨hl.inner, hl.region⟩

/-- C02: the existing state objects form a legal configuration. -/
theorem C02_legal_configuration_partial (h : Visible P m) : LegalConf P.toChart m.act := (h.stable hwf hok).1.legal

/-- C03: `terminated()` is true iff the range of innermost states is empty iff no state object exists. -/
theorem C03_terminated_exact (h : Visible P m) :
    (m.terminated = true ↔ ∀ s, m.act s = false) ∧ (m.endIx = 0 ↔ ∀ s, m.act s = false) := by
  have hs := (h.stable hwf hok).1
  refine ⟨hs.terminated_iff hwf, ?_, fun hd => hs.inv.end_dead hd⟩
  intro he s
  cases hx : m.act s with
  | false => rfl
  | true =>
    obtain ⟨t, _, h2, h3⟩ := hs.inv.leaf_below hwf hs.pOU (P.n - s) s (Nat.le_refl _) hx (fun _ _ => rfl)
    obtain ⟨o, ho⟩ := Option.isSome_iff_exists.1 h2
    have h4 := hs.inv.leaf_in ho h3 rfl
    have h5 := hs.inv.slot_out (i := o.lpos) (by omega)
    rw [h4] at h5; cases h5

omit hwf hok in
theorem Stable.innermost (hs : Stable P.toChart m) : Innermost P.toChart m.act m.leaves ∧ ∀ i, i < m.endIx → (m.slot i).isSome = true := by
  have hslot : ∀ i, i < m.endIx → (m.slot i).isSome = true := by
    intro i hi
    obtain ⟨s, o, h1, _⟩ := hs.inv.slot_in hi
    rw [h1]; rfl
  refine ⟨⟨?_, ?_⟩, hslot⟩
  · unfold Mach.leaves
    refine List.Pairwise.filterMap (R := fun a b => a < b) _ ?_ List.pairwise_lt_range
    intro i j hij x hx y hy hxy
    subst hxy
    by_cases hi : i < m.endIx
    · by_cases hj : j < m.endIx
      · obtain ⟨s, o, h1, h2, _, h3⟩ := hs.inv.slot_in hi
        obtain ⟨t, o', k1, k2, _, k3⟩ := hs.inv.slot_in hj
        rw [h1] at hx; cases hx
        rw [k1] at hy; cases hy
        rw [h2] at k2; cases k2
        omega
      · rw [hs.inv.slot_out (by omega)] at hy; cases hy
    · rw [hs.inv.slot_out (by omega)] at hx; cases hx
  · intro s
    unfold Mach.leaves
    simp only [List.mem_filterMap, List.mem_range]
    constructor
    · rintro ⟨i, hi, h1⟩
      obtain ⟨t, o, h2, h3, h4, _⟩ := hs.inv.slot_in hi
      rw [h1] at h2; cases h2
      exact ⟨by unfold Mach.act; rw [h3]; rfl, h4⟩
    · rintro ⟨h1, h2⟩
      obtain ⟨o, ho⟩ := Option.isSome_iff_exists.1 h1
      have h3 := hs.inv.leaf_in ho h2 rfl
      refine ⟨o.lpos, ?_, h3⟩
      rcases Nat.lt_or_ge o.lpos m.endIx with h4 | h4
      · exact h4
      · rw [hs.inv.slot_out h4] at h3; cases h3

/-- C04: iteration visits every active innermost state exactly once, nothing else, and no null pointer. -/
theorem C04_iteration_exact (h : Visible P m) :
    m.leaves.Nodup ∧ (∀ s, s ∈ m.leaves ↔ m.act s = true ∧ P.isLeaf s = true) ∧ ∀ i, i < m.endIx → (m.slot i).isSome = true := by
  obtain ⟨h1, h2⟩ := (h.stable hwf hok).1.innermost
  exact ⟨h1.nodup, h1.mem, h2⟩

/-! ## C05 -/

/-- C05: the existing state objects are those constructed and not yet destructed; each constructed
object is destructed exactly once (counted per type, as at most one object per type exists). -/
theorem C05_constructed_once_destructed_once_partial (h : Visible P m) (s : Sid) :
    m.act s = alive (m.trace.map (·.2)) s ∧
    (m.trace.map (·.2)).count (.enter s) = (m.trace.map (·.2)).count (.destroy s) + (if m.act s = true then 1 else 0) := by
  have ht := (h.stable hwf hok).1.inv.tr
  refine ⟨by rw [← life_act ht], ?_⟩
  have key : ∀ (tr : List Obs) (st : Life), life P.toChart tr = some st →
      tr.count (.enter s) = tr.count (.destroy s) + (if st.act s = true then 1 else 0) := by
    intro tr
    induction tr using snocInd with
    | nil => intro st h; cases h; rfl
    | snoc tr o ih =>
      intro st h
      rw [life_snoc] at h
      cases h1 : life P.toChart tr with
      | none => rw [h1] at h; cases h
      | some st1 =>
        rw [h1, Option.bind_some] at h
        have hi := ih st1 h1
        rw [List.count_append, List.count_append, hi]
        cases o <;> simp only [lifeStep] at h <;> split at h <;> cases h <;> simp only [List.count_singleton]
        case snoc.some.enter.isTrue.refl x hc =>
          by_cases hx : x = s
          · subst hx; simp [hc.2.2.1]
          · have hx' : s ≠ x := fun h => hx h.symm
            simp [hx, hx']
        case snoc.some.destroy.isTrue.refl x hc =>
          by_cases hx : x = s
          · subst hx; simp [hc.2.1]
          · have hx' : s ≠ x := fun h => hx h.symm
            simp [hx, hx']
        all_goals simp
  exact key _ _ ht

/-- C05: a state is entered only while it does not exist, its direct outer state exists and its region is empty. -/
theorem C05_entry_partial (h : Visible P m) {a b : List Obs} {s : Sid} (ht : m.trace.map (·.2) = a ++ .enter s :: b) :
    alive a s = false ∧ (∀ p, P.parent s = some p → alive a p = true) ∧
    ∀ t, alive a t = true → P.parent t = P.parent s → P.pos t ≠ P.pos s := by
  have hl := (h.stable hwf hok).1.inv.tr
  rw [ht] at hl
  obtain ⟨st1, st2, h1, h2, _⟩ := life_split hl
  simp only [lifeStep] at h2
  split at h2
  · next hc =>
    rw [life_act h1] at hc
    exact ⟨hc.2.2.1, parentActive_iff.1 hc.2.2.2.1, (Spec.regionEmpty_iff (life_alive_bound h1)).1 hc.2.2.2.2⟩
  · cases h2

/-- C05: a state is destructed only while it exists and none of its inner states does. -/
theorem C05_destruction_partial (h : Visible P m) {a b : List Obs} {s : Sid} (ht : m.trace.map (·.2) = a ++ .destroy s :: b) :
    alive a s = true ∧ ∀ c, alive a c = true → ¬ Outer P.toChart s c := by
  have hl := (h.stable hwf hok).1.inv.tr
  rw [ht] at hl
  obtain ⟨st1, st2, h1, h2, _⟩ := life_split hl
  have hcl : Closed P.toChart (alive a) := by
    -- every prefix of the trace replays to a closed set
    have : ∀ (tr : List Obs) (st : Life), life P.toChart tr = some st → Closed P.toChart st.act := by
      intro tr
      induction tr using snocInd with
      | nil => intro st h; cases h; intro s p hs; cases hs
      | snoc tr o ih =>
        intro st h
        rw [life_snoc] at h
        cases h1 : life P.toChart tr with
        | none => rw [h1] at h; cases h
        | some st1 =>
          rw [h1, Option.bind_some] at h
          have hi := ih st1 h1
          have hbd := life_alive_bound h1
          rw [← life_act h1] at hbd
          cases o <;> simp only [lifeStep] at h <;> split at h <;> cases h
          case snoc.some.enter.isTrue.refl x hc =>
            intro s p hs hp
            simp only at hs ⊢
            split
            · rfl
            · by_cases hsx : s = x
              · subst hsx; exact parentActive_iff.1 hc.2.2.2.1 p hp
              · rw [if_neg hsx] at hs; exact hi s p hs hp
          case snoc.some.destroy.isTrue.refl x hc =>
            intro s p hs hp
            simp only at hs ⊢
            by_cases hsx : s = x
            · rw [if_pos hsx] at hs; cases hs
            · rw [if_neg hsx] at hs
              by_cases hpx : p = x
              · subst hpx; exact absurd hp ((Spec.childless_iff hbd).1 hc.2.2 s hs)
              · rw [if_neg hpx]; exact hi s p hs hp
          all_goals exact hi
    rw [← life_act h1]; exact this a st1 h1
  simp only [lifeStep] at h2
  split at h2
  · next hc =>
    have hbd := life_alive_bound h1
    rw [life_act h1] at hc
    refine ⟨hc.2.1, fun c hca ho => ?_⟩
    obtain ⟨d, h3, h4⟩ := outer_inside hcl hca ho
    exact (Spec.childless_iff hbd).1 hc.2.2 d h3 h4
  · cases h2

/-- C05: `exit()` is called only on an existing state without inner states, and the state is destructed right after,
whether `exit()` returned or threw; so it is called at most once per object. -/
theorem C05_exit_partial (h : Visible P m) {a b : List Obs} {s : Sid} {o : Obs} (ho : o = .exit s ∨ o = .exitFail s)
    (ht : m.trace.map (·.2) = a ++ o :: b) :
    alive a s = true ∧ (∀ c, alive a c = true → P.parent c ≠ some s) ∧ ∃ b', b = .destroy s :: b' := by
  have hl := (h.stable hwf hok).1.inv.tr
  rw [ht] at hl
  obtain ⟨st1, st2, h1, h2, h3⟩ := life_split hl
  have hbd := life_alive_bound h1
  have key : (st1.act s = true ∧ childless P.toChart st1.act s = true) ∧ st2.pend = some s := by
    rcases ho with rfl | rfl <;> simp only [lifeStep] at h2 <;> split at h2
    · next hc => cases h2; exact ⟨⟨hc.2.1, hc.2.2⟩, rfl⟩
    · cases h2
    · next hc => cases h2; exact ⟨⟨hc.2.1, hc.2.2⟩, rfl⟩
    · cases h2
  obtain ⟨⟨k1, k2⟩, k3⟩ := key
  rw [life_act h1] at k1 k2
  refine ⟨k1, (Spec.childless_iff hbd).1 k2, ?_⟩
  cases b with
  | nil =>
    unfold lifeFrom at h3
    simp only [List.foldl_nil, Option.some.injEq] at h3
    rw [h3] at k3; cases k3
  | cons o' b' =>
    rw [lifeFrom_cons] at h3
    refine ⟨b', ?_⟩
    cases o' <;> simp only [lifeStep, k3] at h3
    case destroy x =>
      by_cases hx : x = s
      · subst hx; rfl
      · exfalso
        rw [if_neg] at h3
        · cases h3
        · rintro ⟨h4 | h4, _⟩
          · cases h4
          · cases h4; exact hx rfl
    all_goals (exfalso; simp at h3)

end
end SC
