import Verif.Fifo.Threads

/-!
# C31: the worker with any number of producers
-/

namespace SC.Fifo

variable {ι : Type}

/-- The thread is between locking and unlocking the mutex in `queue_work_item`. -/
def CallPc.crit : CallPc ι → Bool
  | .idle => false
  | .lock _ => false
  | _ => true

/-- Thread 0 is between locking and unlocking the mutex in `dequeue_item`. -/
def LoopPc.crit : LoopPc ι → Bool
  | .test => true
  | .recheck => true
  | .pop => true
  | .unlock _ => true
  | _ => false

/-- Thread `t` is in a section that the mutex protects. -/
def Sys.crit (s : Sys ι) (t : Nat) : Prop :=
  (s.call t).crit = true ∨ (t = 0 ∧ s.loop.crit = true)

/-- The mutex is owned exactly by the thread that is in a protected section. -/
structure Lock (s : Sys ι) : Prop where
  own : ∀ t, s.crit t ↔ s.owner = some t
  own0 : s.call 0 ≠ .idle → s.free 0

theorem Lock.only {s : Sys ι} (h : Lock s) {t u : Nat} (ht : s.crit t) (hu : s.crit u) : t = u := by
  have h1 := (h.own t).1 ht
  have h2 := (h.own u).1 hu
  rw [h1] at h2
  exact Option.some.inj h2

/-- A step of `queue_work_item` that neither locks nor unlocks, or does so. -/
theorem Lock.call {s s' : Sys ι} (h : Lock s) {t : Nat} {pc : CallPc ι}
    (hc : s'.call = upd s.call t pc) (hl : s'.loop = s.loop) (hf : s.free t)
    (ho : (s'.owner = s.owner ∧ pc.crit = (s.call t).crit) ∨
      (s.owner = none ∧ s'.owner = some t ∧ pc.crit = true) ∨
      (s.crit t ∧ s'.owner = none ∧ pc.crit = false)) : Lock s' := by
  have hfree : s'.free 0 ↔ s.free 0 := by unfold Sys.free; rw [hl]
  have hl0 : t = 0 → s.loop.crit = false := by
    intro h0
    rcases hf with hf | hf | ⟨i, hf⟩
    · exact absurd h0 hf
    · rw [hf]; rfl
    · rw [hf]; rfl
  refine ⟨fun u => ?_, fun h0 => ?_⟩
  · by_cases hu : u = t
    · subst hu
      unfold Sys.crit
      rw [hc, hl, upd_same]
      rcases ho with ⟨ho, hpc⟩ | ⟨ho, ho', hpc⟩ | ⟨ho, ho', hpc⟩
      · rw [hpc, ho]; exact h.own u
      · rw [hpc, ho']; simp
      · rw [hpc, ho']
        constructor
        · rintro (hx | ⟨hx, hx'⟩)
          · cases hx
          · rw [hl0 hx] at hx'; cases hx'
        · intro hx; cases hx
    · have hcu : s'.crit u ↔ s.crit u := by
        unfold Sys.crit
        rw [hc, hl, upd_ne _ _ hu]
      rw [hcu]
      rcases ho with ⟨ho, hpc⟩ | ⟨ho, ho', hpc⟩ | ⟨ho, ho', hpc⟩
      · rw [ho]; exact h.own u
      · rw [h.own u, ho, ho']
        constructor
        · intro hx; cases hx
        · intro hx; cases hx; exact absurd rfl hu
      · rw [ho', h.own u, (h.own t).1 ho]
        constructor
        · intro hx; cases hx; exact absurd rfl hu
        · intro hx; cases hx
  · rw [hfree]
    by_cases h0t : t = 0
    · subst h0t; exact hf
    · rw [hc, upd_ne _ _ (Ne.symm h0t)] at h0
      exact h.own0 h0

/-- A step of thread 0 in `operator()`. -/
theorem Lock.looped {s s' : Sys ι} (h : Lock s) (hc : s'.call = s.call) (h0 : s.call 0 = .idle)
    (ho : (s'.owner = s.owner ∧ s'.loop.crit = s.loop.crit) ∨
      (s.owner = none ∧ s'.owner = some 0 ∧ s'.loop.crit = true) ∨
      (s.loop.crit = true ∧ s'.owner = none ∧ s'.loop.crit = false)) : Lock s' := by
  refine ⟨fun u => ?_, fun h0' => by rw [hc] at h0'; exact absurd h0 h0'⟩
  by_cases hu : u = 0
  · subst hu
    have h1 := h.own 0
    unfold Sys.crit at h1 ⊢
    rw [hc]
    rw [h0] at h1 ⊢
    rcases ho with ⟨ho, hpc⟩ | ⟨ho, ho', hpc⟩ | ⟨ho, ho', hpc⟩
    · rw [hpc, ho]; exact h1
    · rw [hpc, ho']; simp
    · rw [hpc, ho']; simp [CallPc.crit]
  · have hcu : s'.crit u ↔ s.crit u := by
      unfold Sys.crit
      rw [hc]; simp [hu]
    rw [hcu]
    rcases ho with ⟨ho, hpc⟩ | ⟨ho, ho', hpc⟩ | ⟨ho, ho', hpc⟩
    · rw [ho]; exact h.own u
    · rw [h.own u, ho, ho']
      constructor
      · intro hx; cases hx
      · intro hx; cases hx; exact absurd rfl hu
    · rw [ho', h.own u, (h.own 0).1 (.inr ⟨rfl, ho⟩)]
      constructor
      · intro hx; cases hx; exact absurd rfl hu
      · intro hx; cases hx

/-- In `operator()` proper, thread 0 is in no other call. -/
theorem Lock.idle {s : Sys ι} (h : Lock s) (hl : ¬ s.free 0) : s.call 0 = .idle :=
  Classical.byContradiction fun hc => hl (h.own0 hc)

theorem Lock.busy {s : Sys ι} (h : Lock s) {t : Nat} (hc : s.call t ≠ .idle) : s.free t := by
  by_cases h0 : t = 0
  · subst h0; exact h.own0 hc
  · exact .inl h0

theorem Lock.step {wait : Bool} {t : Nat} {s s' : Sys ι} (h : Lock s) (st : Step wait t s s') :
    Lock s' := by
  cases st with
  | callBegin w hp hf => exact h.call rfl rfl hf (.inl ⟨rfl, by rw [hp]; rfl⟩)
  | callEmpty hp hf => exact h
  | callLock hp ho => exact h.call rfl rfl (h.busy (by simp [hp])) (.inr (.inl ⟨ho, rfl, rfl⟩))
  | callPush hp => exact h.call rfl rfl (h.busy (by simp [hp])) (.inl ⟨rfl, by rw [hp]; rfl⟩)
  | callSwap hp => exact h.call rfl rfl (h.busy (by simp [hp])) (.inl ⟨rfl, by rw [hp]; rfl⟩)
  | callNotify hp => exact h.call rfl rfl (h.busy (by simp [hp])) (.inl ⟨rfl, by rw [hp]; rfl⟩)
  | callUnlock hp =>
    exact h.call rfl rfl (h.busy (by simp [hp]))
      (.inr (.inr ⟨.inl (by rw [hp]; rfl), rfl, rfl⟩))
  | enter max hl h0 => exact h.looped rfl h0 (.inl ⟨rfl, by rw [hl]; rfl⟩)
  | checkGo hl => exact h.looped rfl (h.idle (by simp [Sys.free, hl])) (.inl ⟨rfl, by rw [hl]; rfl⟩)
  | checkStop hl =>
    exact h.looped rfl (h.idle (by simp [Sys.free, hl])) (.inl ⟨rfl, by rw [hl]; rfl⟩)
  | lock hl ho => exact h.looped rfl (h.idle (by simp [Sys.free, hl])) (.inr (.inl ⟨ho, rfl, rfl⟩))
  | testEmpty hl =>
    exact h.looped rfl (h.idle (by simp [Sys.free, hl])) (.inl ⟨rfl, by rw [hl]; rfl⟩)
  | testGo hl => exact h.looped rfl (h.idle (by simp [Sys.free, hl])) (.inl ⟨rfl, by rw [hl]; rfl⟩)
  | sleep hl =>
    exact h.looped rfl (h.idle (by simp [Sys.free, hl])) (.inr (.inr ⟨by rw [hl]; rfl, rfl, rfl⟩))
  | wakeUp hl => exact h.looped rfl (h.idle (by simp [Sys.free, hl])) (.inl ⟨rfl, rfl⟩)
  | relock hl hw ho =>
    exact h.looped rfl (h.idle (by simp [Sys.free, hl])) (.inr (.inl ⟨ho, rfl, rfl⟩))
  | recheckGo hl =>
    exact h.looped rfl (h.idle (by simp [Sys.free, hl])) (.inl ⟨rfl, by rw [hl]; rfl⟩)
  | pop hl => exact h.looped rfl (h.idle (by simp [Sys.free, hl])) (.inl ⟨rfl, by rw [hl]; rfl⟩)
  | unlockItem hl =>
    exact h.looped rfl (h.idle (by simp [Sys.free, hl])) (.inr (.inr ⟨by rw [hl]; rfl, rfl, rfl⟩))
  | unlockEmpty hl =>
    exact h.looped rfl (h.idle (by simp [Sys.free, hl])) (.inr (.inr ⟨by rw [hl]; rfl, rfl, rfl⟩))
  | itemReturns hl h0 => exact h.looped rfl h0 (.inl ⟨rfl, by rw [hl]; rfl⟩)
  | itemThrows hl h0 => exact h.looped rfl h0 (.inl ⟨rfl, by rw [hl]; rfl⟩)
  | itemStops hl h0 => exact h.looped rfl h0 (.inl ⟨rfl, by rw [hl]; rfl⟩)

theorem Reachable.lock {wait : Bool} {s : Sys ι} (h : Reachable wait s) : Lock s := by
  induction h with
  | fresh => exact ⟨fun t => by simp [Sys.crit, CallPc.crit, LoopPc.crit], by simp⟩
  | step _ st ih => exact ih.step st

/-- Nobody swaps while a thread that does not swap is in a protected section. -/
theorem Lock.noSwap {s : Sys ι} (h : Lock s) {t : Nat} (ht : s.crit t)
    (hn : ∀ w, s.call t ≠ .swap w) (u : Nat) (w : Work ι) : s.call u ≠ .swap w := by
  intro hu
  have : u = t := h.only (.inl (by rw [hu]; rfl)) ht
  subst this
  exact hn w hu

/-- What the queue holds and who is responsible for waking thread 0. -/
structure Cont (s : Sys ι) : Prop where
  mid : ∀ t w, s.call t = .swap w → ∃ q, s.queue = q ++ [none] ∧ ∀ x ∈ q, x ≠ none
  full : (∀ t w, s.call t ≠ .swap w) → ∀ x ∈ s.queue, x ≠ none
  pop : s.loop = .pop → s.queue ≠ []
  sleep : s.waiting = true → s.loop = .blocked
  wake : s.waiting = true → s.queue ≠ [] → ∃ t w, s.call t = .swap w ∨ s.call t = .notify w
  fifo : s.pushed.map (·.2) = s.taken ++ s.queue.filterMap id

/-- A step of `queue_work_item` that does not touch the queue. -/
theorem Cont.call {s s' : Sys ι} (h : Cont s) {t : Nat} {pc : CallPc ι}
    (hc : s'.call = upd s.call t pc) (hpc : ∀ w, pc ≠ .swap w) (ht : ∀ w, s.call t ≠ .swap w)
    (hq : s'.queue = s.queue) (hl : s'.loop = s.loop)
    (hw : s'.waiting = false ∨ s'.waiting = s.waiting ∧ ∀ w, s.call t ≠ .notify w)
    (hp : s'.pushed = s.pushed) (hk : s'.taken = s.taken) : Cont s' := by
  refine ⟨?_, ?_, ?_, ?_, ?_, ?_⟩
  · intro u w hu
    by_cases hut : u = t
    · subst hut; rw [hc, upd_same] at hu; exact absurd hu (hpc w)
    · rw [hc, upd_ne _ _ hut] at hu; rw [hq]; exact h.mid u w hu
  · intro hn x hx
    rw [hq] at hx
    refine h.full (fun u w hu => ?_) x hx
    by_cases hut : u = t
    · subst hut; exact ht w hu
    · exact hn u w (by rw [hc, upd_ne _ _ hut]; exact hu)
  · rw [hl, hq]; exact h.pop
  · rw [hl]
    rcases hw with hw | ⟨hw, -⟩
    · rw [hw]; intro hx; cases hx
    · rw [hw]; exact h.sleep
  · rcases hw with hw | ⟨hw, hnt⟩
    · rw [hw]; intro hx; cases hx
    · rw [hw, hq]
      intro h1 h2
      obtain ⟨u, w, hu⟩ := h.wake h1 h2
      refine ⟨u, w, ?_⟩
      have hut : u ≠ t := by
        rintro rfl
        rcases hu with hu | hu
        · exact ht w hu
        · exact hnt w hu
      rw [hc, upd_ne _ _ hut]; exact hu
  · rw [hp, hk, hq]; exact h.fifo

/-- A step of thread 0 that does not touch the queue. -/
theorem Cont.looped {s s' : Sys ι} (h : Cont s) (hc : s'.call = s.call)
    (hq : s'.queue = s.queue) (hpop : s'.loop = .pop → s.queue ≠ [])
    (hw : s'.waiting = false ∨ s'.loop = .blocked ∧ s.queue = [])
    (hp : s'.pushed = s.pushed) (hk : s'.taken = s.taken) : Cont s' := by
  refine ⟨?_, ?_, ?_, ?_, ?_, ?_⟩
  · rw [hc, hq]; exact h.mid
  · rw [hc, hq]; exact h.full
  · rw [hq]; exact hpop
  · intro hx
    rcases hw with hw | hw
    · rw [hw] at hx; cases hx
    · exact hw.1
  · intro hx
    rw [hq]
    rcases hw with hw | hw
    · rw [hw] at hx; cases hx
    · intro hn; exact absurd hw.2 hn
  · rw [hp, hk, hq]; exact h.fifo

theorem Cont.awake {s : Sys ι} (h : Cont s) (hl : s.loop ≠ .blocked) : s.waiting = false := by
  cases hw : s.waiting with
  | false => rfl
  | true => exact absurd (h.sleep hw) hl

theorem Cont.step {wait : Bool} {t : Nat} {s s' : Sys ι} (hk : Lock s) (h : Cont s)
    (st : Step wait t s s') : Cont s' := by
  cases st with
  | callBegin w hp hf =>
    exact h.call rfl (by simp) (by simp [hp]) rfl rfl (.inr ⟨rfl, by simp [hp]⟩) rfl rfl
  | callEmpty hp hf => exact h
  | callLock hp ho =>
    exact h.call rfl (by simp) (by simp [hp]) rfl rfl (.inr ⟨rfl, by simp [hp]⟩) rfl rfl
  | @callPush _ _ w hp =>
    have hno := hk.noSwap (t := t) (.inl (by rw [hp]; rfl)) (by simp [hp])
    have hfull := h.full hno
    refine ⟨fun u v hu => ⟨s.queue, rfl, hfull⟩, ?_, ?_, h.sleep, ?_, ?_⟩
    · intro hn; exact absurd (upd_same s.call t (.swap w)) (hn t w)
    · intro _; simp
    · intro _ _; exact ⟨t, w, .inl (upd_same s.call t (.swap w))⟩
    · simp only [List.filterMap_append, List.filterMap_cons, List.filterMap_nil, id,
        List.append_nil]
      exact h.fifo
  | @callSwap _ _ w hp =>
    obtain ⟨q, hq, hqf⟩ := h.mid t w hp
    have hno : ∀ u v, upd s.call t (CallPc.notify w) u ≠ .swap v := by
      intro u v hu
      by_cases hut : u = t
      · subst hut; rw [upd_same] at hu; cases hu
      · rw [upd_ne _ _ hut] at hu
        exact hut (hk.only (.inl (by rw [hu]; rfl)) (.inl (by rw [hp]; rfl)))
    have hd : s.queue.dropLast ++ [some w] = q ++ [some w] := by rw [hq]; simp
    refine ⟨fun u v hu => absurd hu (hno u v), ?_, ?_, h.sleep, ?_, ?_⟩
    · intro _ x hx
      simp only [hd, List.mem_append, List.mem_singleton] at hx
      rcases hx with hx | rfl
      · exact hqf x hx
      · simp
    · intro _; simp
    · intro _ _; exact ⟨t, w, .inr (upd_same s.call t (.notify w))⟩
    · have := h.fifo
      rw [hq] at this
      simp only [hd, List.map_append, List.filterMap_append] at this ⊢
      rw [this]; simp
  | callNotify hp => exact h.call rfl (by simp) (by simp [hp]) rfl rfl (.inl rfl) rfl rfl
  | callUnlock hp =>
    exact h.call rfl (by simp) (by simp [hp]) rfl rfl (.inr ⟨rfl, by simp [hp]⟩) rfl rfl
  | enter max hl h0 =>
    exact h.looped rfl rfl (by simp) (.inl (h.awake (by simp [hl]))) rfl rfl
  | checkGo hl => exact h.looped rfl rfl (by simp) (.inl (h.awake (by simp [hl]))) rfl rfl
  | checkStop hl => exact h.looped rfl rfl (by simp) (.inl (h.awake (by simp [hl]))) rfl rfl
  | lock hl ho => exact h.looped rfl rfl (by simp) (.inl (h.awake (by simp [hl]))) rfl rfl
  | testEmpty hl => exact h.looped rfl rfl (by simp) (.inl (h.awake (by simp [hl]))) rfl rfl
  | testGo hl => exact h.looped rfl rfl (by simp) (.inl (h.awake (by simp [hl]))) rfl rfl
  | sleep hl hq => exact h.looped rfl rfl (by simp) (.inr ⟨rfl, hq⟩) rfl rfl
  | wakeUp hl => exact h.looped rfl rfl (by simp [hl]) (.inl rfl) rfl rfl
  | relock hl hw ho => exact h.looped rfl rfl (by simp) (.inl hw) rfl rfl
  | recheckGo hl hq =>
    exact h.looped rfl rfl (fun _ => hq) (.inl (h.awake (by simp [hl]))) rfl rfl
  | @pop _ w q hl hq =>
    have hno := hk.noSwap (t := 0) (.inr ⟨rfl, by rw [hl]; rfl⟩)
      (by rw [hk.idle (by simp [Sys.free, hl])]; simp)
    have hfull := h.full hno
    have haw := h.awake (by simp [hl])
    refine ⟨fun u v hu => absurd hu (hno u v), ?_, by simp, ?_, ?_, ?_⟩
    · intro _ x hx; exact hfull x (by rw [hq]; exact List.mem_cons_of_mem _ hx)
    · intro hx; simp only [haw] at hx; cases hx
    · intro hx; simp only [haw] at hx; cases hx
    · have := h.fifo
      rw [hq] at this
      cases w with
      | none => exact absurd rfl (hfull none (by rw [hq]; exact List.mem_cons_self))
      | some w => simp only at this ⊢; rw [this]; simp
  | unlockItem hl => exact h.looped rfl rfl (by simp) (.inl (h.awake (by simp [hl]))) rfl rfl
  | unlockEmpty hl => exact h.looped rfl rfl (by simp) (.inl (h.awake (by simp [hl]))) rfl rfl
  | itemReturns hl h0 => exact h.looped rfl rfl (by simp) (.inl (h.awake (by simp [hl]))) rfl rfl
  | itemThrows hl h0 => exact h.looped rfl rfl (by simp) (.inl (h.awake (by simp [hl]))) rfl rfl
  | itemStops hl h0 => exact h.looped rfl rfl (by simp) (.inl (h.awake (by simp [hl]))) rfl rfl

theorem Reachable.cont {wait : Bool} {s : Sys ι} (h : Reachable wait s) : Cont s := by
  induction h with
  | fresh => exact ⟨by simp, by simp, by simp, by simp, by simp, rfl⟩
  | step hr st ih => exact ih.step hr.lock st

/-! ### Histories -/

/-- The items thread `t` put into the queue, in order. -/
def by' (t : Nat) (l : List (Nat × Work ι)) : List (Work ι) :=
  (l.filter (fun e => e.1 == t)).map (·.2)

/-- The item a thread passed to `queue_work_item` but has not put into the queue yet. -/
def CallPc.pending : CallPc ι → List (Work ι)
  | .lock w => [w]
  | .push w => [w]
  | .swap w => [w]
  | _ => []

/-- The item thread 0 has taken out of the queue but not called yet. -/
def LoopPc.pending : LoopPc ι → List (Work ι)
  | .unlock (some w) => [w]
  | _ => []

/-- Thread 0 is looking for an item. -/
def LoopPc.looking : LoopPc ι → Bool
  | .outside => false
  | .check => false
  | .running _ => false
  | _ => true

/-- What the histories say. -/
structure Hist (s : Sys ι) : Prop where
  calls : ∀ t, s.calls t = by' t s.pushed ++ (s.call t).pending
  taken : s.taken = s.started ++ s.loop.pending
  looking : s.loop.looking = true → s.terminated = false
  stopped : Work.stop ∈ s.started ↔ (s.terminated = true ∨ s.loop = .running .stop)
  last : ∀ a b, s.started = a ++ Work.stop :: b → b = []

theorem by'_append (t : Nat) (l l' : List (Nat × Work ι)) :
    by' t (l ++ l') = by' t l ++ by' t l' := by simp [by']

/-- A step of `queue_work_item`. -/
theorem Hist.call {s s' : Sys ι} (h : Hist s) {t : Nat} {pc : CallPc ι}
    (hc : s'.call = upd s.call t pc)
    (hu : ∀ u, u ≠ t → s'.calls u = s.calls u ∧ by' u s'.pushed = by' u s.pushed)
    (ht : s'.calls t = by' t s'.pushed ++ pc.pending)
    (hl : s'.loop = s.loop) (hk : s'.taken = s.taken) (hs : s'.started = s.started)
    (htm : s'.terminated = s.terminated) : Hist s' := by
  refine ⟨fun u => ?_, ?_, ?_, ?_, ?_⟩
  · by_cases hut : u = t
    · subst hut; rw [hc, upd_same]; exact ht
    · rw [hc, upd_ne _ _ hut, (hu u hut).1, (hu u hut).2]; exact h.calls u
  · rw [hk, hs, hl]; exact h.taken
  · rw [hl, htm]; exact h.looking
  · rw [hl, htm, hs]; exact h.stopped
  · rw [hs]; exact h.last

/-- A step of thread 0 that neither takes out nor calls an item. -/
theorem Hist.looped {s s' : Sys ι} (h : Hist s) (hc : s'.call = s.call)
    (hcs : s'.calls = s.calls) (hp : s'.pushed = s.pushed)
    (hk : s'.taken = s.taken) (hs : s'.started = s.started)
    (hpd : s'.loop.pending = s.loop.pending)
    (hlk : s'.loop.looking = true → s'.terminated = false)
    (hst : (s'.terminated = true ∨ s'.loop = .running .stop) ↔
      (s.terminated = true ∨ s.loop = .running .stop)) : Hist s' := by
  refine ⟨fun u => ?_, ?_, hlk, ?_, ?_⟩
  · rw [hc, hcs, hp]; exact h.calls u
  · rw [hk, hs, hpd]; exact h.taken
  · rw [hs, hst]; exact h.stopped
  · rw [hs]; exact h.last

theorem Hist.step {wait : Bool} {t : Nat} {s s' : Sys ι} (hct : Cont s) (hlk : Lock s)
    (h : Hist s) (st : Step wait t s s') : Hist s' := by
  have hlook := h.looking
  cases st with
  | callBegin w hp hf =>
    refine h.call rfl (fun u hu => ⟨upd_ne _ _ hu, rfl⟩) ?_ rfl rfl rfl rfl
    simp only [upd_same]; rw [h.calls t, hp]; simp [CallPc.pending]
  | callEmpty hp hf => exact h
  | callLock hp ho =>
    exact h.call rfl (fun u hu => ⟨rfl, rfl⟩) (by rw [h.calls t, hp]; rfl) rfl rfl rfl rfl
  | callPush hp =>
    exact h.call rfl (fun u hu => ⟨rfl, rfl⟩) (by rw [h.calls t, hp]; rfl) rfl rfl rfl rfl
  | @callSwap _ _ w hp =>
    refine h.call rfl (fun u hu => ⟨rfl, ?_⟩) ?_ rfl rfl rfl rfl
    · rw [by'_append]; simp [by', Ne.symm hu]
    · simp only [by'_append]; rw [h.calls t, hp]; simp [CallPc.pending, by']
  | callNotify hp =>
    exact h.call rfl (fun u hu => ⟨rfl, rfl⟩) (by rw [h.calls t, hp]; rfl) rfl rfl rfl rfl
  | callUnlock hp =>
    exact h.call rfl (fun u hu => ⟨rfl, rfl⟩) (by rw [h.calls t, hp]; rfl) rfl rfl rfl rfl
  | enter max hl h0 =>
    exact h.looped rfl rfl rfl rfl rfl (by rw [hl]; rfl) (by simp [LoopPc.looking]) (by simp [hl])
  | checkGo hl ht =>
    exact h.looped rfl rfl rfl rfl rfl (by rw [hl]; rfl) (fun _ => ht) (by simp [hl])
  | checkStop hl =>
    exact h.looped rfl rfl rfl rfl rfl (by rw [hl]; rfl) (by simp [LoopPc.looking]) (by simp [hl])
  | lock hl ho =>
    exact h.looped rfl rfl rfl rfl rfl (by rw [hl]; rfl) (fun _ => hlook (by rw [hl]; rfl))
      (by simp [hl])
  | testEmpty hl =>
    exact h.looped rfl rfl rfl rfl rfl (by rw [hl]; rfl) (fun _ => hlook (by rw [hl]; rfl))
      (by simp [hl])
  | testGo hl =>
    exact h.looped rfl rfl rfl rfl rfl (by rw [hl]; rfl) (fun _ => hlook (by rw [hl]; rfl))
      (by simp [hl])
  | sleep hl hq =>
    exact h.looped rfl rfl rfl rfl rfl (by rw [hl]; rfl) (fun _ => hlook (by rw [hl]; rfl))
      (by simp [hl])
  | wakeUp hl =>
    exact h.looped rfl rfl rfl rfl rfl rfl (fun _ => hlook (by rw [hl]; rfl)) (by simp [hl])
  | relock hl hw ho =>
    exact h.looped rfl rfl rfl rfl rfl (by rw [hl]; rfl) (fun _ => hlook (by rw [hl]; rfl))
      (by simp [hl])
  | recheckGo hl hq =>
    exact h.looped rfl rfl rfl rfl rfl (by rw [hl]; rfl) (fun _ => hlook (by rw [hl]; rfl))
      (by simp [hl])
  | @pop _ w q hl hq =>
    have hno := hlk.noSwap (t := 0) (.inr ⟨rfl, by rw [hl]; rfl⟩)
      (by rw [hlk.idle (by simp [Sys.free, hl])]; simp)
    refine ⟨h.calls, ?_, fun _ => hlook (by rw [hl]; rfl), ?_, h.last⟩
    · have := h.taken
      rw [hl] at this
      cases w with
      | none => exact absurd rfl (hct.full hno none (by rw [hq]; exact List.mem_cons_self))
      | some w => simp only; rw [this]; simp [LoopPc.pending]
    · have := h.stopped
      rw [hl] at this
      simpa using this
  | @unlockItem _ w hl =>
    have ht := hlook (by rw [hl]; rfl)
    have hno : Work.stop ∉ s.started := fun hx => by
      have := h.stopped.1 hx
      rw [hl, ht] at this
      simp at this
    refine ⟨h.calls, ?_, by simp [LoopPc.looking], ?_, ?_⟩
    · have := h.taken
      rw [hl] at this
      simp only; rw [this]; simp [LoopPc.pending]
    · simp only [List.mem_append, List.mem_singleton, ht]
      constructor
      · rintro (hx | rfl)
        · exact absurd hx hno
        · exact .inr rfl
      · rintro (hx | hx)
        · cases hx
        · cases hx; exact .inr rfl
    · intro a b hab
      simp only at hab
      rcases List.append_eq_append_iff.1 hab with ⟨c, rfl, hc⟩ | ⟨c, hc, hc'⟩
      · cases c with
        | nil => simp at hc; exact hc.2
        | cons d c => simp at hc
      · cases c with
        | nil => simp at hc'; exact hc'.2
        | cons d c =>
          simp at hc'
          rw [← hc'.1] at hc
          exact absurd (by rw [hc]; simp) hno
  | unlockEmpty hl =>
    exact h.looped rfl rfl rfl rfl rfl (by rw [hl]; rfl) (by simp [LoopPc.looking]) (by simp [hl])
  | itemReturns hl h0 =>
    exact h.looped rfl rfl rfl rfl rfl (by rw [hl]; rfl) (by simp [LoopPc.looking]) (by simp [hl])
  | itemThrows hl h0 =>
    exact h.looped rfl rfl rfl rfl rfl (by rw [hl]; rfl) (by simp [LoopPc.looking]) (by simp [hl])
  | itemStops hl h0 =>
    exact h.looped rfl rfl rfl rfl rfl (by rw [hl]; rfl) (by simp [LoopPc.looking]) (by simp [hl])

theorem Reachable.hist {wait : Bool} {s : Sys ι} (h : Reachable wait s) : Hist s := by
  induction h with
  | fresh => exact ⟨by simp [by', CallPc.pending], rfl, by simp, by simp, by simp⟩
  | step hr st ih => exact ih.step hr.cont hr.lock st

/-! ### The theorems -/

/-- **C31 (mutual exclusion).**  At most one thread is in a section that accesses the queue. -/
theorem C31_exclusive {wait : Bool} {s : Sys ι} (h : Reachable wait s) {t u : Nat}
    (ht : s.crit t) (hu : s.crit u) : t = u := h.lock.only ht hu

/-- **C31 (order, at most once).**  The executed items are the first ones that were put into the
queue, in that order.  Seen from any one thread, they are the first ones that this thread queued, in
the order it queued them; so none is executed twice and none is overtaken. -/
theorem C31_order {wait : Bool} {s : Sys ι} (h : Reachable wait s) :
    ∃ done : List (Nat × Work ι), done.map (·.2) = s.started ∧ done <+: s.pushed ∧
      ∀ t, by' t done <+: s.calls t := by
  have hf := h.cont.fifo
  have ht := h.hist.taken
  rw [ht, List.append_assoc] at hf
  refine ⟨s.pushed.take s.started.length, ?_, List.take_prefix _ _, fun t => ?_⟩
  · rw [List.map_take, hf]; simp
  · rw [h.hist.calls t]
    refine List.IsPrefix.trans ?_ (List.prefix_append _ _)
    conv => rhs; rw [← List.take_append_drop s.started.length s.pushed, by'_append]
    exact List.prefix_append _ _

/-- **C31 (nothing is lost).**  Whatever a thread passed to `queue_work_item` was executed, is about
to be executed, is in the queue, or is still being put there by the thread itself: the items of all
threads that have been put into the queue are those executed, the one just taken out and those in
the queue; what a thread passed beyond that is the argument of a call it is still in. -/
theorem C31_conserved {wait : Bool} {s : Sys ι} (h : Reachable wait s) :
    s.pushed.map (·.2) = s.started ++ s.loop.pending ++ s.queue.filterMap id ∧
    ∀ t, s.calls t = by' t s.pushed ++ (s.call t).pending := by
  have hf := h.cont.fifo
  rw [h.hist.taken] at hf
  exact ⟨hf, h.hist.calls⟩

/-- **C31 (termination).**  Nothing is executed after a termination request. -/
theorem C31_terminated {wait : Bool} {s : Sys ι} (h : Reachable wait s) :
    (s.terminated = true → Work.stop ∈ s.started) ∧
    ∀ a b, s.started = a ++ Work.stop :: b → b = [] :=
  ⟨fun ht => h.hist.stopped.2 (.inl ht), h.hist.last⟩

/-- **C31 (no empty item).**  The item thread 0 takes out of a queue that is not empty is not
empty. -/
theorem C31_item {wait : Bool} {s : Sys ι} (h : Reachable wait s) (hl : s.loop = .pop) :
    ∃ w q, s.queue = some w :: q := by
  have hno := h.lock.noSwap (t := 0) (.inr ⟨rfl, by rw [hl]; rfl⟩)
    (by rw [h.lock.idle (by simp [Sys.free, hl])]; simp)
  have hfull := h.cont.full hno
  cases hq : s.queue with
  | nil => exact absurd hq (h.cont.pop hl)
  | cons w q =>
    cases w with
    | none => exact absurd rfl (hfull none (by rw [hq]; exact List.mem_cons_self))
    | some w => exact ⟨w, q, rfl⟩

/-- **C31 (no lost wake-up).**  If thread 0 sleeps although the queue is not empty, some thread is
inside `queue_work_item` with the mutex locked and has yet to execute `notify_one`. -/
theorem C31_no_lost_wakeup {wait : Bool} {s : Sys ι} (h : Reachable wait s)
    (hw : s.waiting = true) (hq : s.queue ≠ []) :
    ∃ t w, t ≠ 0 ∧ s.owner = some t ∧ (s.call t = .swap w ∨ s.call t = .notify w) := by
  obtain ⟨t, w, ht⟩ := h.cont.wake hw hq
  refine ⟨t, w, ?_, (h.lock.own t).1 (.inl (by rcases ht with ht | ht <;> rw [ht] <;> rfl)), ht⟩
  rintro rfl
  have := h.lock.idle (by simp [Sys.free, h.cont.sleep hw])
  rw [this] at ht
  simp at ht

/-- Thread `t` can make a step of its own inside the library: inside a call of `queue_work_item`
or, for thread 0, inside `operator()` but not inside an item.  Waking up without a reason does not
count. -/
def Moves (wait : Bool) (s : Sys ι) (t : Nat) : Prop :=
  ∃ s', Step wait t s s' ∧
    ((s.call t ≠ .idle ∧ s'.call t ≠ s.call t) ∨
     (t = 0 ∧ s.loop ≠ .outside ∧ (∀ i, s.loop ≠ .running (.user i)) ∧ s'.loop ≠ s.loop))

/-- **C31 (no deadlock).**  In any state, some thread can make a step inside the library, or all
threads are outside it, executing client code or a work item, except that thread 0 may sleep on an
empty queue. -/
theorem C31_no_deadlock {wait : Bool} {s : Sys ι} (h : Reachable wait s) :
    (∃ t, Moves wait s t) ∨
    ((∀ t, s.call t = .idle) ∧
      (s.loop = .outside ∨ (∃ i, s.loop = .running (.user i)) ∨
        (s.loop = .blocked ∧ s.waiting = true ∧ s.queue = []))) := by
  have hl := h.lock
  have hcall : ∀ t, (s.call t).crit = true → Moves wait s t := by
    intro t ht
    have hne : s.call t ≠ .idle := by intro hc; rw [hc] at ht; cases ht
    cases hc : s.call t with
    | idle => exact absurd hc hne
    | lock w => rw [hc] at ht; cases ht
    | push w => exact ⟨_, .callPush hc, .inl ⟨hne, by simp [upd_same, hc]⟩⟩
    | swap w => exact ⟨_, .callSwap hc, .inl ⟨hne, by simp [upd_same, hc]⟩⟩
    | notify w => exact ⟨_, .callNotify hc, .inl ⟨hne, by simp [upd_same, hc]⟩⟩
    | unlock w => exact ⟨_, .callUnlock hc, .inl ⟨hne, by simp [upd_same, hc]⟩⟩
  cases ho : s.owner with
  | some t =>
    refine .inl ⟨t, ?_⟩
    rcases (hl.own t).2 ho with hc | ⟨rfl, hc⟩
    · exact hcall t hc
    · cases hlp : s.loop with
      | outside => rw [hlp] at hc; cases hc
      | check => rw [hlp] at hc; cases hc
      | lock => rw [hlp] at hc; cases hc
      | blocked => rw [hlp] at hc; cases hc
      | running w => rw [hlp] at hc; cases hc
      | test =>
        by_cases hq : wait = false ∧ s.queue = []
        · exact ⟨_, .testEmpty hlp hq.1 hq.2, .inr ⟨rfl, by simp [hlp]⟩⟩
        · exact ⟨_, .testGo hlp hq, .inr ⟨rfl, by simp [hlp]⟩⟩
      | recheck =>
        by_cases hq : s.queue = []
        · exact ⟨_, .sleep hlp hq, .inr ⟨rfl, by simp [hlp]⟩⟩
        · exact ⟨_, .recheckGo hlp hq, .inr ⟨rfl, by simp [hlp]⟩⟩
      | pop =>
        obtain ⟨w, q, hq⟩ := C31_item h hlp
        exact ⟨_, .pop hlp hq, .inr ⟨rfl, by simp [hlp]⟩⟩
      | unlock w =>
        cases w with
        | none => exact ⟨_, .unlockEmpty hlp, .inr ⟨rfl, by simp [hlp]⟩⟩
        | some w => exact ⟨_, .unlockItem hlp, .inr ⟨rfl, by simp [hlp]⟩⟩
  | none =>
    have hncrit : ∀ t, ¬ s.crit t := by
      intro t ht
      have := (hl.own t).1 ht
      rw [ho] at this; cases this
    by_cases hall : ∀ t, s.call t = .idle
    · cases hlp : s.loop with
      | outside => exact .inr ⟨hall, .inl rfl⟩
      | check =>
        by_cases hg : s.terminated = false ∧ (s.max = 0 ∨ s.count < s.max)
        · exact .inl ⟨0, _, .checkGo hlp hg.1 hg.2, .inr ⟨rfl, by simp [hlp]⟩⟩
        · exact .inl ⟨0, _, .checkStop hlp hg, .inr ⟨rfl, by simp [hlp]⟩⟩
      | lock => exact .inl ⟨0, _, .lock hlp ho, .inr ⟨rfl, by simp [hlp]⟩⟩
      | blocked =>
        cases hw : s.waiting with
        | false => exact .inl ⟨0, _, .relock hlp hw ho, .inr ⟨rfl, by simp [hlp]⟩⟩
        | true =>
          refine .inr ⟨hall, .inr (.inr ⟨rfl, rfl, ?_⟩)⟩
          refine Classical.byContradiction fun hq => ?_
          obtain ⟨t, w, -, -, ht⟩ := C31_no_lost_wakeup h hw hq
          rw [hall t] at ht
          simp at ht
      | running w =>
        cases w with
        | user i => exact .inr ⟨hall, .inr (.inl ⟨i, rfl⟩)⟩
        | stop => exact .inl ⟨0, _, .itemStops hlp (hall 0), .inr ⟨rfl, by simp [hlp]⟩⟩
      | test => exact absurd (.inr ⟨rfl, by rw [hlp]; rfl⟩) (hncrit 0)
      | recheck => exact absurd (.inr ⟨rfl, by rw [hlp]; rfl⟩) (hncrit 0)
      | pop => exact absurd (.inr ⟨rfl, by rw [hlp]; rfl⟩) (hncrit 0)
      | unlock w => exact absurd (.inr ⟨rfl, by rw [hlp]; rfl⟩) (hncrit 0)
    · obtain ⟨t, ht⟩ := Classical.not_forall.1 hall
      refine .inl ⟨t, ?_⟩
      cases hc : s.call t with
      | idle => exact absurd hc ht
      | lock w => exact ⟨_, .callLock hc ho, .inl ⟨ht, by simp [upd_same, hc]⟩⟩
      | push w => exact absurd (.inl (by rw [hc]; rfl)) (hncrit t)
      | swap w => exact absurd (.inl (by rw [hc]; rfl)) (hncrit t)
      | notify w => exact absurd (.inl (by rw [hc]; rfl)) (hncrit t)
      | unlock w => exact absurd (.inl (by rw [hc]; rfl)) (hncrit t)

/-! ### Executions without end -/

/-- An execution: `thr i` is the thread that makes step `i`, `none` if nothing happens. -/
structure Execution (wait : Bool) (ι : Type) where
  st : Nat → Sys ι
  thr : Nat → Option Nat
  reach : Reachable wait (st 0)
  next : ∀ i, match thr i with
    | some t => Step wait t (st i) (st (i + 1))
    | none => st (i + 1) = st i

/-- A thread that can make a step inside the library eventually makes one, unless it cannot any
more. -/
def Execution.Fair {wait : Bool} (e : Execution wait ι) (t : Nat) : Prop :=
  ∀ i, ∃ j, i ≤ j ∧ (e.thr j = some t ∨ ¬ Moves wait (e.st j) t)

theorem Execution.reachable {wait : Bool} (e : Execution wait ι) (i : Nat) :
    Reachable wait (e.st i) := by
  induction i with
  | zero => exact e.reach
  | succ i ih =>
    have := e.next i
    cases ht : e.thr i with
    | none => rw [ht] at this; simp only at this; rw [this]; exact ih
    | some t => rw [ht] at this; exact ih.step this

/-- A step of another thread does not change where a thread is in `queue_work_item`. -/
theorem Step.other {wait : Bool} {t u : Nat} {s s' : Sys ι} (h : Step wait u s s') (hu : t ≠ u) :
    s'.call t = s.call t := by
  cases h <;> first | rfl | exact upd_ne _ _ hu

/-- A thread in `queue_work_item` that can go on stays there until it makes a step. -/
theorem Execution.advance {wait : Bool} (e : Execution wait ι) {t : Nat} (hf : e.Fair t)
    {pc : CallPc ι} (hen : ∀ s : Sys ι, s.call t = pc → Moves wait s t) {i : Nat}
    (hi : (e.st i).call t = pc) : ∃ j, i ≤ j ∧ e.thr j = some t ∧ (e.st j).call t = pc := by
  obtain ⟨j, hij, hj⟩ := hf i
  -- look for the first step of `t` in `i..j`
  have key : ∀ d i, i + d = j → (e.st i).call t = pc →
      ∃ j, i ≤ j ∧ e.thr j = some t ∧ (e.st j).call t = pc := by
    intro d
    induction d with
    | zero =>
      intro i hd hi
      have : i = j := by omega
      subst this
      rcases hj with hj | hj
      · exact ⟨i, Nat.le_refl _, hj, hi⟩
      · exact absurd (hen _ hi) hj
    | succ d ih =>
      intro i hd hi
      have hn := e.next i
      cases ht : e.thr i with
      | none =>
        rw [ht] at hn; simp only at hn
        obtain ⟨j', h1, h2⟩ := ih (i + 1) (by omega) (by rw [hn]; exact hi)
        exact ⟨j', by omega, h2⟩
      | some u =>
        rw [ht] at hn
        by_cases hu : u = t
        · subst hu; exact ⟨i, Nat.le_refl _, ht, hi⟩
        · obtain ⟨j', h1, h2⟩ := ih (i + 1) (by omega)
            (by rw [hn.other (Ne.symm hu)]; exact hi)
          exact ⟨j', by omega, h2⟩
  exact key (j - i) i (by omega) hi

/-- **C31 (a sleeping worker is woken).**  In an execution in which no other thread is stopped for
good while it could go on, thread 0 does not go on sleeping with a non-empty queue: whenever it
sleeps and the queue is not empty, it is woken later. -/
theorem C31_woken {wait : Bool} (e : Execution wait ι) (hf : ∀ t, t ≠ 0 → e.Fair t) {i : Nat}
    (hw : (e.st i).waiting = true) (hq : (e.st i).queue ≠ []) :
    ∃ j, i < j ∧ (e.st j).waiting = false := by
  obtain ⟨t, w, ht0, -, ht⟩ := C31_no_lost_wakeup (e.reachable i) hw hq
  have hnotify : ∀ i, (e.st i).call t = .notify w → ∃ j, i < j ∧ (e.st j).waiting = false := by
    intro i hi
    obtain ⟨j, hj, htj, hpc⟩ := e.advance (hf t ht0) (pc := .notify w)
      (fun s hs => ⟨_, .callNotify hs, .inl (by simp [hs, upd_same])⟩) hi
    have hn := e.next j
    rw [htj] at hn
    refine ⟨j + 1, by omega, ?_⟩
    generalize e.st (j + 1) = s' at hn
    cases hn <;> simp_all
  rcases ht with ht | ht
  · obtain ⟨j, hj, htj, hpc⟩ := e.advance (hf t ht0) (pc := .swap w)
      (fun s hs => ⟨_, .callSwap hs, .inl (by simp [hs, upd_same])⟩) ht
    have hn := e.next j
    rw [htj] at hn
    have hn' : (e.st (j + 1)).call t = .notify w := by
      generalize e.st (j + 1) = s' at hn
      cases hn <;> simp_all [upd_same]
    obtain ⟨j', h1, h2⟩ := hnotify (j + 1) hn'
    exact ⟨j', by omega, h2⟩
  · exact hnotify i ht

/-! ### Example: thread 1 queues an item while thread 0 sleeps -/

namespace Ex

/-- Thread 0 is about to go to sleep. -/
def s4 : Sys Nat := { loop := .recheck, owner := some 0 }

/-- It sleeps. -/
def s5 : Sys Nat := { s4 with loop := .blocked, waiting := true, owner := none }

/-- Thread 1 in `queue_work_item`. -/
def s6 : Sys Nat := { s5 with
  call := upd s5.call 1 (.lock (.user 7))
  calls := upd s5.calls 1 (s5.calls 1 ++ [.user 7]) }

@[inherit_doc s6] def s7 : Sys Nat := { s6 with
  call := upd s6.call 1 (.push (.user 7))
  owner := some 1 }

@[inherit_doc s6] def s8 : Sys Nat := { s7 with
  call := upd s7.call 1 (.swap (.user 7))
  queue := s7.queue ++ [none] }

@[inherit_doc s6] def s9 : Sys Nat := { s8 with
  call := upd s8.call 1 (.notify (.user 7))
  queue := s8.queue.dropLast ++ [some (.user 7)]
  pushed := s8.pushed ++ [(1, .user 7)] }

@[inherit_doc s6] def s10 : Sys Nat := { s9 with
  call := upd s9.call 1 (.unlock (.user 7))
  waiting := false }

/-- Thread 1 is done. -/
def s11 : Sys Nat := { s10 with
  call := upd s10.call 1 .idle
  owner := none }

/-- The states of the example, one after the other. -/
def st : Nat → Sys Nat
  | 0 => {}
  | 1 => { loop := .check }
  | 2 => { loop := .lock }
  | 3 => { loop := .test, owner := some 0 }
  | 4 => s4
  | 5 => s5
  | 6 => s6
  | 7 => s7
  | 8 => s8
  | 9 => s9
  | 10 => s10
  | _ => s11

/-- The threads that make the steps. -/
def thr (i : Nat) : Option Nat := if i < 5 then some 0 else if i < 11 then some 1 else none

/-- The execution; at the end thread 0 is stopped for good before it locks the mutex again. -/
def exec : Execution true Nat where
  st := st
  thr := thr
  reach := .fresh
  next i := by
    match i with
    | 0 => exact Step.enter (s := st 0) 0 rfl rfl
    | 1 => exact Step.checkGo (s := st 1) rfl rfl (.inl rfl)
    | 2 => exact Step.lock (s := st 2) rfl rfl
    | 3 => exact Step.testGo (s := st 3) rfl (by simp)
    | 4 => exact Step.sleep (s := s4) rfl rfl
    | 5 => exact Step.callBegin (s := s5) (.user 7) rfl (.inl (by simp))
    | 6 => exact Step.callLock (s := s6) rfl rfl
    | 7 => exact Step.callPush (s := s7) rfl
    | 8 => exact Step.callSwap (s := s8) rfl
    | 9 => exact Step.callNotify (s := s9) rfl
    | 10 => exact Step.callUnlock (s := s10) (w := .user 7) rfl
    | i + 11 => exact (rfl : st (i + 12) = st (i + 11))

/-- The other threads are treated fairly: in the end they are all outside the library. -/
theorem exec_fair (t : Nat) (ht : t ≠ 0) : exec.Fair t := by
  intro i
  refine ⟨i + 11, by omega, .inr ?_⟩
  rintro ⟨s', -, (⟨h, -⟩ | ⟨h, -⟩)⟩
  · apply h
    show s11.call t = .idle
    simp only [s11, s10, s9, s8, s7, s6, upd]
    by_cases h1 : t = 1 <;> simp [h1, s5, s4]
  · exact ht h

/-- While the item is being put into the queue, thread 0 sleeps with a non-empty queue. -/
example : ∃ j, 8 < j ∧ (exec.st j).waiting = false :=
  C31_woken exec exec_fair (i := 8) rfl (by simp [exec, st, s8])

example : Reachable true (st 8) ∧ (st 8).waiting = true ∧ (st 8).queue = [none] ∧
    (st 8).crit 1 := ⟨exec.reachable 8, rfl, rfl, .inl rfl⟩

end Ex

end SC.Fifo
