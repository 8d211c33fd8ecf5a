import Verif.Props.Threads

/-!
# C52: queued work is executed in the end
-/

namespace SC.Fifo

variable {ι : Type} {wait : Bool}

/-- A thread that can make a step inside the library again and again makes one at some time. (A mutex for which several threads compete is not
always taken by the others.) -/
def Execution.Strong (e : Execution wait ι) (t : Nat) : Prop :=
  ∀ i, (∀ j, i ≤ j → ∃ k, j ≤ k ∧ Moves wait (e.st k) t) → ∃ j, i ≤ j ∧ e.thr j = some t

/-- The threads are scheduled fairly, work items return or throw, and `operator()` is called again when it has returned or thrown, unless the worker is
terminated. -/
structure Execution.Live (e : Execution wait ι) : Prop where
  fair : ∀ t, e.Strong t
  ends : ∀ i x, (e.st i).loop = .running (.user x) → ∃ j, i ≤ j ∧ (e.st j).loop ≠ .running (.user x)
  again : ∀ i, (e.st i).loop = .outside → (e.st i).terminated = false → ∃ j, i ≤ j ∧ (e.st j).loop ≠ .outside

/-- Whenever `P` holds, `Q` holds then or later. -/
def Execution.Leads (e : Execution wait ι) (P Q : Sys ι → Prop) : Prop := ∀ i, P (e.st i) → ∃ j, i ≤ j ∧ Q (e.st j)

theorem Execution.Leads.trans {e : Execution wait ι} {P Q R : Sys ι → Prop} (h1 : e.Leads P Q) (h2 : e.Leads Q R) : e.Leads P R := by
  intro i hi
  obtain ⟨j, hj, h⟩ := h1 i hi
  obtain ⟨k, hk, h⟩ := h2 j h
  exact ⟨k, by omega, h⟩

theorem Execution.Strong.weak {e : Execution wait ι} {t : Nat} (h : e.Strong t) : e.Fair t := by
  intro i
  refine Classical.byContradiction fun hn => ?_
  have hm : ∀ j, i ≤ j → e.thr j ≠ some t ∧ Moves wait (e.st j) t := by
    intro j hj
    refine ⟨fun ht => hn ⟨j, hj, .inl ht⟩, Classical.byContradiction fun hm => hn ⟨j, hj, .inr hm⟩⟩
  obtain ⟨j, hj, ht⟩ := h i fun j hj => ⟨j, Nat.le_refl _, (hm j hj).2⟩
  exact (hm j hj).1 ht

/-- What holds stays as long as each step preserves it. -/
theorem Execution.keep {e : Execution wait ι} {P : Sys ι → Prop} {i : Nat} (hi : P (e.st i))
    (hs : ∀ j, i ≤ j → P (e.st j) → ∀ t, e.thr j = some t → Step wait t (e.st j) (e.st (j + 1)) → P (e.st (j + 1))) : ∀ j, i ≤ j → P (e.st j) := by
  intro j hj
  induction j with
  | zero => rw [show i = 0 by omega] at hi; exact hi
  | succ j ih =>
    by_cases h : i = j + 1
    · rw [← h]; exact hi
    · have hp := ih (by omega)
      have hn := e.next j
      cases ht : e.thr j with
      | none => rw [ht] at hn; simp only at hn; rw [hn]; exact hp
      | some t => rw [ht] at hn; exact hs j (by omega) hp t ht hn

/-- A thread that can go on again and again while `Q` holds, which other threads do not change, makes a step while `Q` holds. -/
theorem Execution.Strong.steps {e : Execution wait ι} {t : Nat} (hf : e.Strong t) {Q : Sys ι → Prop}
    (ho : ∀ u s s', u ≠ t → Reachable wait s → Q s → Step wait u s s' → Q s') {i : Nat}
    (hen : (∀ k, i ≤ k → Q (e.st k)) → ∀ j, i ≤ j → ∃ k, j ≤ k ∧ Moves wait (e.st k) t) (hi : Q (e.st i)) :
    ∃ j, i ≤ j ∧ Q (e.st j) ∧ Step wait t (e.st j) (e.st (j + 1)) := by
  refine Classical.byContradiction fun hn => ?_
  have hq : ∀ k, i ≤ k → Q (e.st k) := by
    refine Execution.keep hi fun j hj hp u hu hs => ?_
    by_cases h : u = t
    · subst h; exact absurd ⟨j, hj, hp, hs⟩ hn
    · exact ho u _ _ h (e.reachable j) hp hs
  obtain ⟨j, hj, ht⟩ := hf i (hen hq)
  have := e.next j
  rw [ht] at this
  exact hn ⟨j, hj, hq j hj, this⟩

/-- From `Q` to `Q'` by one step that is always possible. -/
theorem Execution.Strong.leads {e : Execution wait ι} {t : Nat} (hf : e.Strong t) {Q Q' : Sys ι → Prop}
    (ho : ∀ u s s', u ≠ t → Reachable wait s → Q s → Step wait u s s' → Q s') (hen : ∀ s, Reachable wait s → Q s → Moves wait s t)
    (hs : ∀ s s', Reachable wait s → Q s → Step wait t s s' → Q' s') : e.Leads Q Q' := by
  intro i hi
  obtain ⟨j, hj, hq, st⟩ := hf.steps ho (fun h j hj => ⟨j, Nat.le_refl _, hen _ (e.reachable j) (h j hj)⟩) hi
  exact ⟨j + 1, by omega, hs _ _ (e.reachable j) hq st⟩

/-- From `Q` to `Q'` by one step that needs the mutex. -/
theorem Execution.Strong.locks {e : Execution wait ι} {t : Nat} (hf : e.Strong t) (hfree : e.Leads (fun _ => True) (fun s => s.owner = none)) {Q Q' : Sys ι → Prop}
    (ho : ∀ u s s', u ≠ t → Reachable wait s → Q s → Step wait u s s' → Q s') (hen : ∀ s, Reachable wait s → Q s → s.owner = none → Moves wait s t)
    (hs : ∀ s s', Reachable wait s → Q s → Step wait t s s' → Q' s') : e.Leads Q Q' := by
  intro i hi
  obtain ⟨j, hj, hq, st⟩ := hf.steps ho (fun h j hj => by
    obtain ⟨k, hk, hn⟩ := hfree j trivial
    exact ⟨k, hk, hen _ (e.reachable k) (h k (by omega)) hn⟩) hi
  exact ⟨j + 1, by omega, hs _ _ (e.reachable j) hq st⟩

/-- `P` holds until `R` does not hold any more. -/
theorem Execution.until {e : Execution wait ι} {P R : Sys ι → Prop} (hs : ∀ t s s', Reachable wait s → P s → R s → Step wait t s s' → P s') {i j : Nat}
    (hi : P (e.st i)) (hij : i ≤ j) (hj : ¬ R (e.st j)) : ∃ j, i ≤ j ∧ P (e.st j) ∧ ¬ R (e.st j) := by
  obtain ⟨d, rfl⟩ := Nat.exists_eq_add_of_le hij
  clear hij
  induction d generalizing i with
  | zero => exact ⟨i, Nat.le_refl _, hi, hj⟩
  | succ d ih =>
    by_cases hr : R (e.st i)
    · have hn := e.next i
      have hp : P (e.st (i + 1)) := by
        cases ht : e.thr i with
        | none => rw [ht] at hn; simp only at hn; rw [hn]; exact hi
        | some t => rw [ht] at hn; exact hs t _ _ (e.reachable i) hi hr hn
      obtain ⟨k, h1, h2⟩ := ih hp (by rw [show i + 1 + d = i + (d + 1) by omega]; exact hj)
      exact ⟨k, by omega, h2⟩
    · exact ⟨i, Nat.le_refl _, hi, hr⟩

/-! ### The mutex is unlocked -/

/-- Steps of other threads do not change where thread 0 is and what it has done. -/
theorem Step.other0 {t : Nat} {s s' : Sys ι} (h : Step wait t s s') (ht : t ≠ 0) :
    s'.loop = s.loop ∧ s'.terminated = s.terminated ∧ s'.max = s.max ∧ s'.count = s.count ∧ s'.started = s.started := by
  cases h <;> first | exact ⟨rfl, rfl, rfl, rfl, rfl⟩ | exact absurd rfl ht

/-- The next step of thread 0 inside `operator()`. -/
theorem Step.loop0 {s s' : Sys ι} (hr : Reachable wait s) (h : Step wait 0 s s') (hf : ¬ s.free 0) : s.call 0 = .idle ∧ s'.call = s.call ∧ s'.pushed = s.pushed := by
  have hc := hr.lock.idle hf
  refine ⟨hc, ?_⟩
  cases h <;> first | exact ⟨rfl, rfl⟩ | (exact absurd ‹s.free 0› hf) | (rename_i h; rw [hc] at h; cases h) | (rename_i h _; rw [hc] at h; cases h)

/-- The next step of a thread inside `queue_work_item`. -/
theorem Step.call1 {t : Nat} {s s' : Sys ι} (hr : Reachable wait s) (hc : s.call t ≠ .idle) (h : Step wait t s s') :
    ∃ w, (s.call t = .lock w ∧ s'.call t = .push w) ∨ (s.call t = .push w ∧ s'.call t = .swap w) ∨ (s.call t = .swap w ∧ s'.call t = .notify w) ∨
      (s.call t = .notify w ∧ s'.call t = .unlock w) ∨ (s.call t = .unlock w ∧ s'.call t = .idle ∧ s'.owner = none) := by
  have loop : t = 0 → s.loop = .outside ∨ ∃ i, s.loop = .running (.user i) := by
    rintro rfl
    rcases hr.lock.own0 hc with h | h
    · exact absurd rfl h
    · exact h
  cases h with
  | callBegin _ h => exact absurd h hc
  | callEmpty h => exact absurd h hc
  | callLock h => exact ⟨_, .inl ⟨h, by simp [upd_same]⟩⟩
  | callPush h => exact ⟨_, .inr (.inl ⟨h, by simp [upd_same]⟩)⟩
  | callSwap h => exact ⟨_, .inr (.inr (.inl ⟨h, by simp [upd_same]⟩))⟩
  | callNotify h => exact ⟨_, .inr (.inr (.inr (.inl ⟨h, by simp [upd_same]⟩)))⟩
  | callUnlock h => exact ⟨_, .inr (.inr (.inr (.inr ⟨h, by simp [upd_same], rfl⟩)))⟩
  | _ => exfalso; rcases loop rfl with h | ⟨_, h⟩ <;> simp_all

/-- From one place in `queue_work_item` to the next. -/
theorem Execution.Live.call {e : Execution wait ι} (h : e.Live) (t : Nat) {pc : CallPc ι} {Q : Sys ι → Prop} (hm : ∀ s : Sys ι, s.call t = pc → Moves wait s t)
    (hq : ∀ s s' : Sys ι, Reachable wait s → s.call t = pc → Step wait t s s' → Q s') : e.Leads (fun s => s.call t = pc) Q :=
  (h.fair t).leads (fun u s s' hu _ hs st => by rw [st.other (Ne.symm hu)]; exact hs) (fun s _ hs => hm s hs) hq

/-- A call that has the mutex returns. -/
theorem Execution.Live.finish {e : Execution wait ι} (h : e.Live) (t : Nat) :
    e.Leads (fun s => (s.call t).crit = true) (fun s => s.call t = .idle ∧ s.owner = none) := by
  have hu : ∀ w, e.Leads (fun s => s.call t = .unlock w) (fun s => s.call t = .idle ∧ s.owner = none) := fun w =>
    h.call t (fun s hs => ⟨_, .callUnlock hs, .inl (by simp [hs, upd_same])⟩) (fun s s' hr hs st => by
      obtain ⟨w, h⟩ := st.call1 hr (by rw [hs]; simp)
      simp_all)
  have hn : ∀ w, e.Leads (fun s => s.call t = .notify w) (fun s => s.call t = .idle ∧ s.owner = none) := fun w =>
    (h.call t (Q := fun s => s.call t = .unlock w) (fun s hs => ⟨_, .callNotify hs, .inl (by simp [hs, upd_same])⟩) (fun s s' hr hs st => by
      obtain ⟨w, h⟩ := st.call1 hr (by rw [hs]; simp)
      simp_all)).trans (hu w)
  have hw : ∀ w, e.Leads (fun s => s.call t = .swap w) (fun s => s.call t = .idle ∧ s.owner = none) := fun w =>
    (h.call t (Q := fun s => s.call t = .notify w) (fun s hs => ⟨_, .callSwap hs, .inl (by simp [hs, upd_same])⟩) (fun s s' hr hs st => by
      obtain ⟨w, h⟩ := st.call1 hr (by rw [hs]; simp)
      simp_all)).trans (hn w)
  have hp : ∀ w, e.Leads (fun s => s.call t = .push w) (fun s => s.call t = .idle ∧ s.owner = none) := fun w =>
    (h.call t (Q := fun s => s.call t = .swap w) (fun s hs => ⟨_, .callPush hs, .inl (by simp [hs, upd_same])⟩) (fun s s' hr hs st => by
      obtain ⟨w, h⟩ := st.call1 hr (by rw [hs]; simp)
      simp_all)).trans (hw w)
  intro i hi
  cases hc : (e.st i).call t with
  | idle => rw [hc] at hi; cases hi
  | lock w => rw [hc] at hi; cases hi
  | push w => exact hp w i hc
  | swap w => exact hw w i hc
  | notify w => exact hn w i hc
  | unlock w => exact hu w i hc

/-- From one place in `operator()` to the next. -/
theorem Execution.Live.loop {e : Execution wait ι} (h : e.Live) {pc : LoopPc ι} {Q : Sys ι → Prop} (hm : ∀ s : Sys ι, Reachable wait s → s.loop = pc → Moves wait s 0)
    (hq : ∀ s s' : Sys ι, Reachable wait s → s.loop = pc → Step wait 0 s s' → Q s') : e.Leads (fun s => s.loop = pc) Q :=
  (h.fair 0).leads (fun u s s' hu _ hs st => by rw [(st.other0 hu).1]; exact hs) hm hq

theorem Execution.Live.unlocks {e : Execution wait ι} (h : e.Live) : e.Leads (fun _ => True) (fun s => s.owner = none) := by
  have hu : ∀ w, e.Leads (fun s => s.loop = .unlock w) (fun s => s.owner = none) := by
    intro w
    refine h.loop (fun s _ hs => ?_) (fun s s' hr hs st => ?_)
    · cases w with
      | none => exact ⟨_, .unlockEmpty hs, .inr ⟨rfl, by simp [hs]⟩⟩
      | some w => exact ⟨_, .unlockItem hs, .inr ⟨rfl, by simp [hs]⟩⟩
    · have hc := (st.loop0 hr (by simp [Sys.free, hs])).1
      cases st <;> first | rfl | (simp_all [Sys.free]; done)
  have hp : e.Leads (fun s => s.loop = .pop) (fun s => s.owner = none) := by
    refine (h.loop (Q := fun s => ∃ w, s.loop = .unlock w) (fun s hr hs => ?_) (fun s s' hr hs st => ?_)).trans (fun i ⟨w, hi⟩ => hu w i hi)
    · obtain ⟨w, q, hq⟩ := C31_item hr hs
      exact ⟨_, .pop hs hq, .inr ⟨rfl, by simp [hs]⟩⟩
    · have hc := (st.loop0 hr (by simp [Sys.free, hs])).1
      cases st <;> first | exact ⟨_, rfl⟩ | (simp_all [Sys.free]; done)
  have hr : e.Leads (fun s => s.loop = .recheck) (fun s => s.owner = none) := by
    refine (h.loop (Q := fun s => s.owner = none ∨ s.loop = .pop) (fun s hr hs => ?_) (fun s s' hr hs st => ?_)).trans (fun i hi => ?_)
    · by_cases hq : s.queue = []
      · exact ⟨_, .sleep hs hq, .inr ⟨rfl, by simp [hs]⟩⟩
      · exact ⟨_, .recheckGo hs hq, .inr ⟨rfl, by simp [hs]⟩⟩
    · have hc := (st.loop0 hr (by simp [Sys.free, hs])).1
      cases st <;> first | exact .inl rfl | exact .inr rfl | (simp_all [Sys.free]; done)
    · rcases hi with hi | hi
      · exact ⟨i, Nat.le_refl _, hi⟩
      · exact hp i hi
  have ht : e.Leads (fun s => s.loop = .test) (fun s => s.owner = none) := by
    refine (h.loop (Q := fun s => s.loop = .unlock none ∨ s.loop = .recheck) (fun s hr hs => ?_) (fun s s' hr hs st => ?_)).trans (fun i hi => ?_)
    · by_cases hq : wait = false ∧ s.queue = []
      · exact ⟨_, .testEmpty hs hq.1 hq.2, .inr ⟨rfl, by simp [hs]⟩⟩
      · exact ⟨_, .testGo hs hq, .inr ⟨rfl, by simp [hs]⟩⟩
    · have hc := (st.loop0 hr (by simp [Sys.free, hs])).1
      cases st <;> first | exact .inl rfl | exact .inr rfl | (simp_all [Sys.free]; done)
    · rcases hi with hi | hi
      · exact hu _ i hi
      · exact hr i hi
  intro i _
  cases ho : (e.st i).owner with
  | none => exact ⟨i, Nat.le_refl _, ho⟩
  | some t =>
    rcases ((e.reachable i).lock.own t).2 ho with hc | ⟨rfl, hc⟩
    · obtain ⟨j, hj, h⟩ := h.finish t i hc
      exact ⟨j, hj, h.2⟩
    · cases hl : (e.st i).loop with
      | test => exact ht i hl
      | recheck => exact hr i hl
      | pop => exact hp i hl
      | unlock w => exact hu w i hl
      | _ => rw [hl] at hc; cases hc

/-! ### The next item is executed -/

/-- Histories only grow. -/
theorem Step.grows {t : Nat} {s s' : Sys ι} (h : Step wait t s s') : s.pushed <+: s'.pushed ∧ s.started <+: s'.started ∧ (s.terminated = true → s'.terminated = true) := by
  cases h <;> exact ⟨by simp, by simp, by simp⟩

theorem Execution.grows (e : Execution wait ι) {i j : Nat} (hij : i ≤ j) :
    (e.st i).pushed <+: (e.st j).pushed ∧ (e.st i).started <+: (e.st j).started ∧ ((e.st i).terminated = true → (e.st j).terminated = true) :=
  Execution.keep (P := fun s => (e.st i).pushed <+: s.pushed ∧ (e.st i).started <+: s.started ∧ ((e.st i).terminated = true → s.terminated = true))
    ⟨List.prefix_refl _, List.prefix_refl _, id⟩
    (fun _ _ hp _ _ hs => ⟨hp.1.trans hs.grows.1, hp.2.1.trans hs.grows.2.1, fun h => hs.grows.2.2 (hp.2.2 h)⟩) j hij

/-- `n` items have been executed and there is another one. -/
def Sys.due (n : Nat) (s : Sys ι) : Prop := n < s.pushed.length ∧ s.started.length = n

/-- More than `n` items have been executed, or the worker is terminated. -/
def Sys.past (n : Nat) (s : Sys ι) : Prop := s.terminated = true ∨ n < s.started.length

/-- The queue is not empty if thread 0 is looking for an item that is due. -/
theorem Sys.due.queue {n : Nat} {s : Sys ι} (h : s.due n) (hr : Reachable wait s) (hp : s.loop.pending = []) : s.queue ≠ [] := by
  intro hq
  have h1 := (C31_conserved hr).1
  rw [hq, hp] at h1
  have := congrArg List.length h1
  simp only [List.length_map, List.append_nil, List.filterMap_nil] at this
  have h2 := h.1
  have h3 := h.2
  omega

theorem Sys.due.other {n : Nat} {t : Nat} {s s' : Sys ι} (h : s.due n) (st : Step wait t s s') (ht : t ≠ 0) : s'.due n := by
  refine ⟨?_, by rw [(st.other0 ht).2.2.2.2]; exact h.2⟩
  have := st.grows.1.length_le
  have h1 := h.1
  omega

/-- Thread 0 makes its next step in `operator()`. -/
theorem Execution.Live.go {e : Execution wait ι} (h : e.Live) {n : Nat} {R Q : Sys ι → Prop}
    (hR : ∀ u s s', u ≠ 0 → R s → Step wait u s s' → R s')
    (hm : ∀ s : Sys ι, Reachable wait s → s.due n → R s → Moves wait s 0)
    (hq : ∀ s s' : Sys ι, Reachable wait s → s.due n → R s → Step wait 0 s s' → Q s') : e.Leads (fun s => s.due n ∧ R s) Q :=
  (h.fair 0).leads (fun u s s' hu _ hs st => ⟨hs.1.other st hu, hR u s s' hu hs.2 st⟩) (fun s hr hs => hm s hr hs.1 hs.2)
    (fun s s' hr hs st => hq s s' hr hs.1 hs.2 st)

/-- As `go`, if the step needs the mutex. -/
theorem Execution.Live.goLock {e : Execution wait ι} (h : e.Live) {n : Nat} {R Q : Sys ι → Prop}
    (hR : ∀ u s s', u ≠ 0 → R s → Step wait u s s' → R s')
    (hm : ∀ s : Sys ι, Reachable wait s → s.due n → R s → s.owner = none → Moves wait s 0)
    (hq : ∀ s s' : Sys ι, Reachable wait s → s.due n → R s → Step wait 0 s s' → Q s') : e.Leads (fun s => s.due n ∧ R s) Q :=
  (h.fair 0).locks h.unlocks (fun u s s' hu _ hs st => ⟨hs.1.other st hu, hR u s s' hu hs.2 st⟩) (fun s hr hs => hm s hr hs.1 hs.2)
    (fun s s' hr hs st => hq s s' hr hs.1 hs.2 st)

/-- While thread 0 stays at `pc` in `operator()`. -/
theorem stays {pc : LoopPc ι} (u : Nat) (s s' : Sys ι) (hu : u ≠ 0) (h : s.loop = pc) (st : Step wait u s s') : s'.loop = pc := by
  rw [(st.other0 hu).1]; exact h

theorem Execution.Live.next {e : Execution wait ι} (h : e.Live) (n : Nat) : e.Leads (Sys.due n) (Sys.past n) := by
  have hu : ∀ w, e.Leads (fun s => s.due n ∧ s.loop = .unlock (some w)) (Sys.past n) := by
    intro w
    refine h.go stays (fun s _ _ hs => ⟨_, .unlockItem hs, .inr ⟨rfl, by simp [hs]⟩⟩) (fun s s' hr hd hs st => ?_)
    have hc := (st.loop0 hr (by simp [Sys.free, hs])).1
    have := hd.2
    cases st with
    | unlockItem => exact .inr (by simp [this])
    | _ => simp_all [Sys.free]
  have hp : e.Leads (fun s => s.due n ∧ s.loop = .pop) (Sys.past n) := by
    refine (h.go stays (Q := fun s => ∃ w, s.due n ∧ s.loop = .unlock (some w)) (fun s hr _ hs => ?_) (fun s s' hr hd hs st => ?_)).trans (fun i ⟨w, hi⟩ => hu w i hi)
    · obtain ⟨w, q, hq⟩ := C31_item hr hs
      exact ⟨_, .pop hs hq, .inr ⟨rfl, by simp [hs]⟩⟩
    · have hc := (st.loop0 hr (by simp [Sys.free, hs])).1
      obtain ⟨w, q, hq⟩ := C31_item hr hs
      cases st with
      | pop _ hq' =>
        rw [hq] at hq'
        cases hq'
        exact ⟨w, hd, rfl⟩
      | _ => simp_all [Sys.free]
  have hr : e.Leads (fun s => s.due n ∧ s.loop = .recheck) (Sys.past n) := by
    refine (h.go stays (Q := fun s => s.due n ∧ s.loop = .pop) (fun s hr hd hs => ?_) (fun s s' hr hd hs st => ?_)).trans hp
    · exact ⟨_, .recheckGo hs (hd.queue hr (by rw [hs]; rfl)), .inr ⟨rfl, by simp [hs]⟩⟩
    · have hc := (st.loop0 hr (by simp [Sys.free, hs])).1
      have hq := hd.queue hr (by rw [hs]; rfl)
      cases st with
      | recheckGo => exact ⟨hd, rfl⟩
      | _ => simp_all [Sys.free]
  have ht : e.Leads (fun s => s.due n ∧ s.loop = .test) (Sys.past n) := by
    refine (h.go stays (Q := fun s => s.due n ∧ s.loop = .recheck) (fun s hr hd hs => ?_) (fun s s' hr hd hs st => ?_)).trans hr
    · exact ⟨_, .testGo hs (fun hq => hd.queue hr (by rw [hs]; rfl) hq.2), .inr ⟨rfl, by simp [hs]⟩⟩
    · have hc := (st.loop0 hr (by simp [Sys.free, hs])).1
      have hq := hd.queue hr (by rw [hs]; rfl)
      cases st with
      | testGo => exact ⟨hd, rfl⟩
      | _ => simp_all [Sys.free]
  have hl : e.Leads (fun s => s.due n ∧ s.loop = .lock) (Sys.past n) := by
    refine (h.goLock stays (Q := fun s => s.due n ∧ s.loop = .test) (fun s hr hd hs ho => ⟨_, .lock hs ho, .inr ⟨rfl, by simp [hs]⟩⟩) (fun s s' hr hd hs st => ?_)).trans ht
    have hc := (st.loop0 hr (by simp [Sys.free, hs])).1
    cases st with
    | lock => exact ⟨hd, rfl⟩
    | _ => simp_all [Sys.free]
  have hb : e.Leads (fun s => s.due n ∧ s.loop = .blocked ∧ s.waiting = false) (Sys.past n) := by
    refine (h.goLock (R := fun s => s.loop = .blocked ∧ s.waiting = false) (fun u s s' hu hR st => ⟨stays u s s' hu hR.1 st, ?_⟩)
      (Q := fun s => s.due n ∧ s.loop = .recheck) (fun s hr hd hs ho => ⟨_, .relock hs.1 hs.2 ho, .inr ⟨rfl, by simp [hs.1]⟩⟩) (fun s s' hr hd hs st => ?_)).trans hr
    · cases st <;> first | exact hR.2 | rfl | exact absurd rfl hu
    · obtain ⟨hs, hw⟩ := hs
      have hc := (st.loop0 hr (by simp [Sys.free, hs])).1
      cases st with
      | relock => exact ⟨hd, rfl⟩
      | _ => simp_all [Sys.free]
  have hw : e.Leads (fun s => s.due n ∧ s.loop = .blocked) (Sys.past n) := by
    intro i hi
    cases hwt : (e.st i).waiting with
    | false => exact hb i ⟨hi.1, hi.2, hwt⟩
    | true =>
      obtain ⟨j, hj, hwj⟩ := C31_woken e (fun t _ => (h.fair t).weak) hwt (hi.1.queue (e.reachable i) (by rw [hi.2]; rfl))
      obtain ⟨k, hk, ⟨hd, hb'⟩, hwk⟩ := e.until (P := fun s => s.due n ∧ s.loop = .blocked) (R := fun s => s.waiting = true) (fun t s s' hr hp hR st => by
        by_cases ht : t = 0
        · subst ht
          have hc := (st.loop0 hr (by simp [Sys.free, hp.2])).1
          cases st with
          | wakeUp => exact hp
          | _ => simp_all [Sys.free]
        · exact ⟨hp.1.other st ht, stays t s s' ht hp.2 st⟩) hi (Nat.le_of_lt hj) (by rw [hwj]; simp)
      obtain ⟨l, hl, hg⟩ := hb k ⟨hd, hb', by simpa using hwk⟩
      exact ⟨l, by omega, hg⟩
  have hcf : e.Leads (fun s => s.due n ∧ s.loop = .check ∧ s.count = 0) (Sys.past n) := by
    refine (h.go (R := fun s => s.loop = .check ∧ s.count = 0) (fun u s s' hu hR st => ⟨stays u s s' hu hR.1 st, by rw [(st.other0 hu).2.2.2.1]; exact hR.2⟩)
      (Q := fun s => s.terminated = true ∨ s.due n ∧ s.loop = .lock) (fun s hr hd hs => ?_) (fun s s' hr hd hs st => ?_)).trans (fun i hi => ?_)
    · by_cases hg : s.terminated = false ∧ (s.max = 0 ∨ s.count < s.max)
      · exact ⟨_, .checkGo hs.1 hg.1 hg.2, .inr ⟨rfl, by simp [hs.1]⟩⟩
      · exact ⟨_, .checkStop hs.1 hg, .inr ⟨rfl, by simp [hs.1]⟩⟩
    · obtain ⟨hs, h0⟩ := hs
      have hc := (st.loop0 hr (by simp [Sys.free, hs])).1
      cases st with
      | checkGo => exact .inr ⟨hd, rfl⟩
      | checkStop _ hg =>
        left
        show s.terminated = true
        cases ht : s.terminated with
        | true => rfl
        | false => exact absurd ⟨ht, by omega⟩ hg
      | _ => simp_all [Sys.free]
    · rcases hi with hi | hi
      · exact ⟨i, Nat.le_refl _, .inl hi⟩
      · exact hl i hi
  have ho : e.Leads (fun s => s.due n ∧ s.loop = .outside) (Sys.past n) := by
    intro i hi
    cases htm : (e.st i).terminated with
    | true => exact ⟨i, Nat.le_refl _, .inl htm⟩
    | false =>
      obtain ⟨j, hj, hne⟩ := h.again i hi.2 htm
      obtain ⟨k, hk, ⟨hd, hR⟩, hnk⟩ := e.until (P := fun s => n < s.pushed.length ∧ s.started.length = n ∧ (s.loop = .outside ∨ s.loop = .check ∧ s.count = 0))
        (R := fun s => s.loop = .outside) (fun t s s' hr hp hR st => by
          have hg := st.grows.1.length_le
          refine ⟨by have := hp.1; omega, ?_⟩
          have hp2 := hp.2.1
          by_cases ht : t = 0
          · subst ht
            clear hp hg
            cases st <;> first | exact ⟨hp2, .inl hR⟩ | exact ⟨hp2, .inr ⟨rfl, rfl⟩⟩ | (simp_all; done)
          · obtain ⟨h1, _, _, _, h2⟩ := st.other0 ht
            exact ⟨by rw [h2]; exact hp2, .inl (by rw [h1]; exact hR)⟩) ⟨hi.1.1, hi.1.2, .inl hi.2⟩ hj hne
      rcases hR.2 with hR' | hR'
      · exact absurd hR' hnk
      · obtain ⟨l, hl, hg⟩ := hcf k ⟨⟨hd, hR.1⟩, hR'⟩
        exact ⟨l, by omega, hg⟩
  have hc : e.Leads (fun s => s.due n ∧ s.loop = .check) (Sys.past n) := by
    refine (h.go stays (Q := fun s => s.due n ∧ (s.loop = .outside ∨ s.loop = .lock)) (fun s hr hd hs => ?_) (fun s s' hr hd hs st => ?_)).trans (fun i hi => ?_)
    · by_cases hg : s.terminated = false ∧ (s.max = 0 ∨ s.count < s.max)
      · exact ⟨_, .checkGo hs hg.1 hg.2, .inr ⟨rfl, by simp [hs]⟩⟩
      · exact ⟨_, .checkStop hs hg, .inr ⟨rfl, by simp [hs]⟩⟩
    · have hc := (st.loop0 hr (by simp [Sys.free, hs])).1
      cases st with
      | checkGo => exact ⟨hd, .inr rfl⟩
      | checkStop => exact ⟨hd, .inl rfl⟩
      | _ => simp_all [Sys.free]
    · rcases hi.2 with hi' | hi'
      · exact ho i ⟨hi.1, hi'⟩
      · exact hl i ⟨hi.1, hi'⟩
  have hn : e.Leads (fun s => s.due n ∧ s.loop = .unlock none) (Sys.past n) := by
    refine (h.go stays (Q := fun s => s.due n ∧ s.loop = .outside) (fun s hr hd hs => ⟨_, .unlockEmpty hs, .inr ⟨rfl, by simp [hs]⟩⟩) (fun s s' hr hd hs st => ?_)).trans ho
    have hc := (st.loop0 hr (by simp [Sys.free, hs])).1
    cases st with
    | unlockEmpty => exact ⟨hd, rfl⟩
    | _ => simp_all [Sys.free]
  have hs : e.Leads (fun s => s.due n ∧ s.loop = .running .stop) (Sys.past n) := by
    refine h.go stays (fun s hr hd hs => ⟨_, .itemStops hs (hr.lock.idle (by simp [Sys.free, hs])), .inr ⟨rfl, by simp [hs]⟩⟩) (fun s s' hr hd hs st => ?_)
    have hc := (st.loop0 hr (by simp [Sys.free, hs])).1
    cases st with
    | itemStops => exact .inl rfl
    | _ => simp_all [Sys.free]
  have hx : ∀ x, e.Leads (fun s => s.due n ∧ s.loop = .running (.user x)) (Sys.past n) := by
    intro x i hi
    obtain ⟨j, hj, hne⟩ := h.ends i x hi.2
    obtain ⟨k, hk, ⟨hd, hR⟩, hnk⟩ := e.until (P := fun s => n < s.pushed.length ∧ s.started.length = n ∧ (s.loop = .running (.user x) ∨ s.loop = .check ∨ s.loop = .outside))
      (R := fun s => s.loop = .running (.user x)) (fun t s s' hr hp hR st => by
        have hg := st.grows.1.length_le
        refine ⟨by have := hp.1; omega, ?_⟩
        have hp2 := hp.2.1
        by_cases ht : t = 0
        · subst ht
          clear hp hg
          cases st <;> first | exact ⟨hp2, .inl hR⟩ | exact ⟨hp2, .inr (.inl rfl)⟩ | exact ⟨hp2, .inr (.inr rfl)⟩ | (simp_all; done)
        · obtain ⟨h1, _, _, _, h2⟩ := st.other0 ht
          exact ⟨by rw [h2]; exact hp2, .inl (by rw [h1]; exact hR)⟩) ⟨hi.1.1, hi.1.2, .inl hi.2⟩ hj hne
    rcases hR.2 with hR' | hR' | hR'
    · exact absurd hR' hnk
    · obtain ⟨l, hl, hg⟩ := hc k ⟨⟨hd, hR.1⟩, hR'⟩
      exact ⟨l, by omega, hg⟩
    · obtain ⟨l, hl, hg⟩ := ho k ⟨⟨hd, hR.1⟩, hR'⟩
      exact ⟨l, by omega, hg⟩
  intro i hi
  cases hlp : (e.st i).loop with
  | outside => exact ho i ⟨hi, hlp⟩
  | check => exact hc i ⟨hi, hlp⟩
  | lock => exact hl i ⟨hi, hlp⟩
  | test => exact ht i ⟨hi, hlp⟩
  | recheck => exact hr i ⟨hi, hlp⟩
  | blocked => exact hw i ⟨hi, hlp⟩
  | pop => exact hp i ⟨hi, hlp⟩
  | unlock w =>
    cases w with
    | none => exact hn i ⟨hi, hlp⟩
    | some w => exact hu w i ⟨hi, hlp⟩
  | running w =>
    cases w with
    | stop => exact hs i ⟨hi, hlp⟩
    | user x => exact hx x i ⟨hi, hlp⟩

/-! ### The theorems -/

/-- **C52 (work is executed).**  Each item that was put into the queue is executed at some time, unless the worker is terminated before. -/
theorem C52_executed {e : Execution wait ι} (h : e.Live) {i t : Nat} {w : Work ι} {l1 l2 : List (Nat × Work ι)} (hi : (e.st i).pushed = l1 ++ (t, w) :: l2) :
    ∃ j, i ≤ j ∧ ((e.st j).terminated = true ∨ ∃ l, (e.st j).started = l1.map (·.2) ++ w :: l) := by
  have key : ∀ d i, l1.length + 1 ≤ (e.st i).started.length + d → l1.length < (e.st i).pushed.length → ∃ j, i ≤ j ∧ (e.st j).past l1.length := by
    intro d
    induction d with
    | zero => exact fun i hd _ => ⟨i, Nat.le_refl _, .inr (by omega)⟩
    | succ d ih =>
      intro i hd hp
      by_cases hlt : l1.length < (e.st i).started.length
      · exact ⟨i, Nat.le_refl _, .inr hlt⟩
      obtain ⟨j, hj, h1⟩ := h.next (e.st i).started.length i ⟨by omega, rfl⟩
      rcases h1 with h1 | h1
      · exact ⟨j, hj, .inl h1⟩
      · have hg := (e.grows hj).1.length_le
        obtain ⟨k, hk, h2⟩ := ih j (by omega) (by omega)
        exact ⟨k, by omega, h2⟩
  obtain ⟨j, hj, hp⟩ := key (l1.length + 1) i (by omega) (by rw [hi]; simp)
  refine ⟨j, hj, hp.imp id fun hp => ?_⟩
  obtain ⟨r, hr⟩ := (e.grows hj).1
  have h1 := (C31_conserved (e.reachable j)).1
  rw [← hr, hi] at h1
  simp only [List.append_assoc, List.map_append, List.map_cons, List.cons_append] at h1
  rcases List.append_eq_append_iff.1 h1 with ⟨a, h2, h3⟩ | ⟨a, h2, h3⟩
  · cases a with
    | nil => rw [h2] at hp; simp at hp
    | cons x a =>
      have : x = w := by simpa using (List.cons.inj h3).1.symm
      exact ⟨a, by rw [h2, this]⟩
  · have := congrArg List.length h2
    simp at this
    omega

/-- **C52 (calls return).**  Each call of `queue_work_item` or `terminate` returns. -/
theorem C52_returns {e : Execution wait ι} (h : e.Live) (i t : Nat) : ∃ j, i ≤ j ∧ (e.st j).call t = .idle := by
  cases hc : (e.st i).call t with
  | idle => exact ⟨i, Nat.le_refl _, hc⟩
  | lock w =>
    have hl : e.Leads (fun s => s.call t = .lock w) (fun s => (s.call t).crit = true) :=
      (h.fair t).locks h.unlocks (fun u s s' hu _ hs st => by rw [st.other (Ne.symm hu)]; exact hs)
        (fun s _ hs ho => ⟨_, .callLock hs ho, .inl (by simp [hs, upd_same])⟩) (fun s s' hr hs st => by
          obtain ⟨w, h⟩ := st.call1 hr (by rw [hs]; simp)
          have : s'.call t = .push w := by simp_all
          rw [this]; rfl)
    obtain ⟨j, hj, h1⟩ := hl.trans (h.finish t) i hc
    exact ⟨j, hj, h1.1⟩
  | _ =>
    obtain ⟨j, hj, h1⟩ := h.finish t i (show ((e.st i).call t).crit = true by rw [hc]; rfl)
    exact ⟨j, hj, h1.1⟩

/-- **C52 (a termination request is obeyed).**  After `terminate()` the worker is terminated at some time, and everything queued before that was executed. -/
theorem C52_terminated {e : Execution wait ι} (h : e.Live) {i t : Nat} {l1 l2 : List (Nat × Work ι)} (hi : (e.st i).pushed = l1 ++ (t, .stop) :: l2)
    (h1 : ∀ x ∈ l1, x.2 ≠ .stop) : ∃ j, i ≤ j ∧ (e.st j).terminated = true ∧ (e.st j).started = l1.map (·.2) ++ [.stop] := by
  have hs : e.Leads (fun s => s.loop = .running .stop) (fun s => s.terminated = true) := by
    refine h.loop (fun s hr hs => ⟨_, .itemStops hs (hr.lock.idle (by simp [Sys.free, hs])), .inr ⟨rfl, by simp [hs]⟩⟩) (fun s s' hr hs st => ?_)
    have hc := (st.loop0 hr (by simp [Sys.free, hs])).1
    cases st with
    | itemStops => rfl
    | _ => simp_all [Sys.free]
  have ht : ∃ j, i ≤ j ∧ (e.st j).terminated = true := by
    obtain ⟨j, hj, hp⟩ := C52_executed h hi
    rcases hp with hp | ⟨l, hp⟩
    · exact ⟨j, hj, hp⟩
    · rcases (e.reachable j).hist.stopped.1 (by rw [hp]; simp) with hp | hp
      · exact ⟨j, hj, hp⟩
      · obtain ⟨k, hk, hp⟩ := hs j hp
        exact ⟨k, by omega, hp⟩
  obtain ⟨j, hj, ht⟩ := ht
  refine ⟨j, hj, ht, ?_⟩
  obtain ⟨hm, hl⟩ := C31_terminated (e.reachable j)
  obtain ⟨a, b, hab⟩ := List.append_of_mem (hm ht)
  have hb := hl a b hab
  subst hb
  obtain ⟨r, hr⟩ := (e.grows hj).1
  have h2 := (C31_conserved (e.reachable j)).1
  rw [← hr, hi, hab] at h2
  simp only [List.append_assoc, List.map_append, List.map_cons, List.cons_append, List.nil_append] at h2
  have ha : Work.stop ∉ a := by
    intro ha
    obtain ⟨a1, a2, rfl⟩ := List.append_of_mem ha
    have := hl a1 (a2 ++ [.stop]) (by rw [hab]; simp)
    simp at this
  have hl1 : Work.stop ∉ l1.map (·.2) := by
    intro hx
    obtain ⟨x, hx, hx'⟩ := List.mem_map.1 hx
    exact h1 x hx hx'
  rw [hab]
  rcases List.append_eq_append_iff.1 h2 with ⟨c, h3, h4⟩ | ⟨c, h3, h4⟩
  · cases c with
    | nil => rw [h3, List.append_nil]
    | cons x c =>
      refine absurd ?_ ha
      have : x = .stop := (List.cons.inj h4).1.symm
      rw [h3, this]; simp
  · cases c with
    | nil => rw [h3, List.append_nil]
    | cons x c =>
      refine absurd ?_ hl1
      have : x = .stop := (List.cons.inj h4).1.symm
      rw [h3, this]; simp

/-! ### Example -/

namespace Ex

/-- The execution of `st`, continued: thread 0 executes the item and sleeps again. -/
def longSt : Nat → Sys Nat
  | 12 => { s11 with loop := .recheck, owner := some 0 }
  | 13 => { s11 with loop := .pop, owner := some 0 }
  | 14 => { s11 with loop := .unlock (some (.user 7)), owner := some 0, queue := [], taken := [.user 7] }
  | 15 => { s11 with loop := .running (.user 7), queue := [], taken := [.user 7], started := [.user 7] }
  | 16 => { s11 with loop := .check, queue := [], taken := [.user 7], started := [.user 7], count := 1 }
  | 17 => { s11 with loop := .lock, queue := [], taken := [.user 7], started := [.user 7], count := 1 }
  | 18 => { s11 with loop := .test, owner := some 0, queue := [], taken := [.user 7], started := [.user 7], count := 1 }
  | 19 => { s11 with loop := .recheck, owner := some 0, queue := [], taken := [.user 7], started := [.user 7], count := 1 }
  | i => if i < 12 then st i else { s11 with loop := .blocked, waiting := true, queue := [], taken := [.user 7], started := [.user 7], count := 1 }

def longThr (i : Nat) : Option Nat := if i < 5 then some 0 else if i < 11 then some 1 else if i < 20 then some 0 else none

def long : Execution true Nat where
  st := longSt
  thr := longThr
  reach := .fresh
  next i := by
    match i with
    | 0 => exact Step.enter (s := st 0) 0 rfl rfl
    | 1 => exact Step.checkGo (s := st 1) rfl rfl (.inl rfl)
    | 2 => exact Step.lock (s := st 2) rfl rfl
    | 3 => exact Step.testGo (s := st 3) rfl (by simp)
    | 4 => exact Step.sleep (s := s4) rfl rfl
    | 5 => exact Step.callBegin (s := s5) (.user 7) rfl (.inl (by simp))
    | 6 => exact Step.callLock (s := s6) rfl rfl
    | 7 => exact Step.callPush (s := s7) rfl
    | 8 => exact Step.callSwap (s := s8) rfl
    | 9 => exact Step.callNotify (s := s9) rfl
    | 10 => exact Step.callUnlock (s := s10) (w := .user 7) rfl
    | 11 => exact Step.relock (s := s11) rfl rfl rfl
    | 12 => exact Step.recheckGo (s := longSt 12) rfl (by simp [longSt, s11, s10, s9])
    | 13 => exact Step.pop (s := longSt 13) (w := some (.user 7)) (q := []) rfl rfl
    | 14 => exact Step.unlockItem (s := longSt 14) rfl
    | 15 => exact Step.itemReturns (s := longSt 15) (i := 7) rfl rfl
    | 16 => exact Step.checkGo (s := longSt 16) rfl rfl (.inl rfl)
    | 17 => exact Step.lock (s := longSt 17) rfl rfl
    | 18 => exact Step.testGo (s := longSt 18) rfl (by simp)
    | 19 => exact Step.sleep (s := longSt 19) rfl rfl
    | i + 20 => exact (rfl : longSt (i + 21) = longSt (i + 20))

theorem long_live : long.Live where
  fair t i h := by
    obtain ⟨k, hk, s', hst, hm⟩ := h (i + 20) (by omega)
    exfalso
    obtain ⟨k, rfl⟩ := Nat.exists_eq_add_of_le hk
    have hl : long.st (i + 20 + k) = longSt 20 := by
      show longSt (i + 20 + k) = longSt 20
      rw [show i + 20 + k = (i + k) + 20 by omega]; rfl
    rw [hl] at hm hst
    have hc : (longSt 20).call t = .idle := by
      show s11.call t = .idle
      simp only [s11, s10, s9, s8, s7, s6, upd]
      by_cases h1 : t = 1 <;> simp [h1, s5, s4]
    rcases hm with hm | ⟨rfl, -, -, hm⟩
    · exact hm.1 hc
    · apply hm
      generalize hs : longSt 20 = s at hst hc
      have h1 : s.loop = .blocked := by rw [← hs]; rfl
      have h2 : s.waiting = true := by rw [← hs]; rfl
      cases hst <;> simp_all [Sys.free]
  ends i x hx := ⟨i + 20, by omega, by
    show LoopPc.blocked ≠ _
    simp⟩
  again i _ _ := ⟨i + 20, by omega, by
    show LoopPc.blocked ≠ _
    simp⟩

/-- The item that thread 1 queued is executed. -/
example : ∃ j, 9 ≤ j ∧ ((long.st j).terminated = true ∨ ∃ l, (long.st j).started = [] ++ .user 7 :: l) :=
  C52_executed long_live (i := 9) (t := 1) (w := .user 7) (l1 := []) (l2 := []) rfl

end Ex

end SC.Fifo
