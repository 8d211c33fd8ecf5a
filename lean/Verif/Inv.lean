import Verif.Wp
import Verif.ChartLemmas
/-!
# The structural invariant

`Inv P L pend m`: reference counts, tree links, leaf list, unstable-state
pointer, history maps and observation trace are mutually consistent, where
`L s` is the number of references to `s` held by stack variables of running
library functions, and `pend` is a state whose `exit()` was called and which is
about to be destroyed.
-/

namespace SC
open Spec
variable {W : Type}

/-- The set of existing state objects. -/
def Mach.act (m : Mach W) : Sid → Bool := fun s => (m.heap s).isSome

/-- Stored history functions construct a state of the right region. -/
structure HistOK (C : Chart) (m : Mach W) : Prop where
  sh : ∀ {p i h}, m.sh (p, i) = some h →
    ∃ c, h = .deep c ∧ c < C.n ∧ C.parent c = some p ∧ C.pos c = i
  dh : ∀ {p i h}, m.dh (p, i) = some h →
    ∃ l, h = .chain (C.pathBelow (some p) l) l ∧ l < C.n ∧ Outer C p l ∧ C.deepH p = true ∧
      C.isLeaf l = true ∧ C.pos ((C.pathBelow (some p) l).headD l) = i

/-- At some time of the past described by `tr`, `k` innermost states existed. -/
def Peak (C : Chart) (tr : List (Option Event × Obs)) (k : Nat) : Prop := ∃ (pre post : List Obs) (st : Life) (l : List Sid),
  tr.map (·.2) = pre ++ post ∧ life C pre = some st ∧ l.Nodup ∧ (∀ s ∈ l, st.act s = true ∧ C.isLeaf s = true) ∧ l.length = k

theorem peak_zero (C : Chart) (tr : List (Option Event × Obs)) : Peak C tr 0 := by
  refine ⟨[], tr.map (·.2), ⟨fun _ => false, none⟩, [], rfl, rfl, List.nodup_nil, ?_, rfl⟩
  intro s h
  cases h

theorem Peak.mono {C : Chart} {tr : List (Option Event × Obs)} {k : Nat} (h : Peak C tr k) (x : List (Option Event × Obs)) : Peak C (tr ++ x) k := by
  obtain ⟨pre, post, st, l, h1, h2⟩ := h
  exact ⟨pre, post ++ x.map (·.2), st, l, by rw [List.map_append, h1, List.append_assoc], h2⟩

structure Inv (C : Chart) (L : Sid → Nat) (pend : Option Sid) (m : Mach W) : Prop where
  bound : ∀ {s o}, m.heap s = some o → s < C.n
  ctx : ∀ {s o}, m.heap s = some o → o.ctxSet = true
  inner_iff : ∀ {p o i c}, m.heap p = some o →
    (o.inner i = some c ↔ ((m.heap c).isSome ∧ C.parent c = some p ∧ C.pos c = i))
  par_live : ∀ {s p}, (m.heap s).isSome → C.parent s = some p → (m.heap p).isSome
  outer : ∀ {s}, m.outermost = some s ↔ ((m.heap s).isSome ∧ C.parent s = none)
  slot_in : ∀ {i}, i < m.endIx → ∃ s o, m.slot i = some s ∧ m.heap s = some o ∧
    C.isLeaf s = true ∧ o.lpos = i
  slot_out : ∀ {i}, m.endIx ≤ i → m.slot i = none
  end_le : m.endIx ≤ m.len ∧ Peak C m.trace m.len
  leaf_in : ∀ {s o}, m.heap s = some o → C.isLeaf s = true → L s = 0 → m.slot o.lpos = some s
  rc : ∀ {s o}, m.heap s = some o → o.rc = L s + (if m.pOU = some s then 1 else 0) +
    (if m.slot o.lpos = some s then 1 else 0) + nch (C.regions (some s)) o.inner
  ou_live : ∀ {s}, m.pOU = some s → (m.heap s).isSome ∧ C.isLeaf s = false
  L_live : ∀ {s}, L s ≠ 0 → (m.heap s).isSome
  noOrphan : ∀ {s o}, m.heap s = some o → C.isLeaf s = false →
    nch (C.regions (some s)) o.inner = 0 → m.pOU = some s ∨ L s ≠ 0
  hist : HistOK C m
  tr : life C (m.trace.map (·.2)) = some ⟨m.act, pend⟩

/-- Same values of all data members except histories, queues and logs. -/
structure SameCore (m m' : Mach W) : Prop where
  heap : m'.heap = m.heap
  slot : m'.slot = m.slot
  len : m'.len = m.len
  endIx : m'.endIx = m.endIx
  outermost : m'.outermost = m.outermost
  ico : m'.ico = m.ico
  pOU : m'.pOU = m.pOU
  fullExit : m'.fullExit = m.fullExit
  trig : m'.trig = m.trig

theorem SameCore.refl (m : Mach W) : SameCore m m := by constructor <;> rfl

theorem SameCore.trans {a b c : Mach W} (h1 : SameCore a b) (h2 : SameCore b c) : SameCore a c := by
  constructor
  · rw [h2.heap, h1.heap]
  · rw [h2.slot, h1.slot]
  · rw [h2.len, h1.len]
  · rw [h2.endIx, h1.endIx]
  · rw [h2.outermost, h1.outermost]
  · rw [h2.ico, h1.ico]
  · rw [h2.pOU, h1.pOU]
  · rw [h2.fullExit, h1.fullExit]
  · rw [h2.trig, h1.trig]

theorem SameCore.act {m m' : Mach W} (h : SameCore m m') : m'.act = m.act := by
  unfold Mach.act; rw [h.heap]

/-- Change of core members that the invariant does not mention or that are equal. -/
theorem Inv.congr' {C : Chart} {L : Sid → Nat} {pend : Option Sid} {m m' : Mach W}
    (h : Inv C L pend m) (hheap : m'.heap = m.heap) (hslot : m'.slot = m.slot)
    (hlen : m.endIx ≤ m'.len ∧ Peak C m'.trace m'.len) (hend : m'.endIx = m.endIx) (hout : m'.outermost = m.outermost)
    (hou : m'.pOU = m.pOU) {pend' : Option Sid}
    (ht : life C (m'.trace.map (·.2)) = some ⟨m'.act, pend'⟩) (hh : HistOK C m') : Inv C L pend' m' := by
  constructor
  · rw [hheap]; exact h.bound
  · rw [hheap]; exact h.ctx
  · rw [hheap]; exact h.inner_iff
  · rw [hheap]; exact h.par_live
  · rw [hheap, hout]; exact h.outer
  · rw [hheap, hslot, hend]; exact h.slot_in
  · rw [hslot, hend]; exact h.slot_out
  · rw [hend]; exact hlen
  · rw [hheap, hslot]; exact h.leaf_in
  · rw [hheap, hslot, hou]; exact h.rc
  · rw [hheap, hou]; exact h.ou_live
  · rw [hheap]; exact h.L_live
  · rw [hheap, hou]; exact h.noOrphan
  · exact hh
  · exact ht

theorem Inv.congr {C : Chart} {L : Sid → Nat} {pend : Option Sid} {m m' : Mach W}
    (h : Inv C L pend m) (hc : SameCore m m') {pend' : Option Sid} {x : List (Option Event × Obs)} (hx : m'.trace = m.trace ++ x)
    (ht : life C (m'.trace.map (·.2)) = some ⟨m'.act, pend'⟩) (hh : HistOK C m') : Inv C L pend' m' :=
  h.congr' hc.heap hc.slot (by rw [hc.len, hx]; exact ⟨h.end_le.1, h.end_le.2.mono x⟩) hc.endIx hc.outermost hc.pOU ht hh

theorem Inv.congrT {C : Chart} {L : Sid → Nat} {pend : Option Sid} {m m' : Mach W}
    (h : Inv C L pend m) (hc : SameCore m m') (ht : m'.trace = m.trace) (hh : HistOK C m') :
    Inv C L pend m' :=
  h.congr hc (x := []) (by rw [ht, List.append_nil]) (by rw [ht, hc.act]; exact h.tr) hh

theorem life_snoc (C : Chart) (tr : List Obs) (o : Obs) :
    life C (tr ++ [o]) = (life C tr).bind fun l => lifeStep C l o := by
  simp [life]

/-! ## User code -/

/-- Effect of user code on the machine. -/
structure UserStep (m m' : Mach W) (obs : List Obs) : Prop where
  core : SameCore m m'
  trace : m'.trace = m.trace ++ obs.map (fun o => (m.trig, o))
  hist : ∀ C : Chart, HistOK C m → HistOK C m'
  queue : m.evq <+: m'.evq ∧ m'.dq = m.dq

theorem cmd_core (m : Mach W) (c : Cmd) : SameCore m (m.cmd c) := by
  cases c <;> constructor <;> rfl

theorem cmd_trace (m : Mach W) (c : Cmd) : (m.cmd c).trace = m.trace := by cases c <;> rfl

theorem cmd_queue (m : Mach W) (c : Cmd) : m.evq <+: (m.cmd c).evq ∧ (m.cmd c).dq = m.dq := by
  cases c with
  | post e => exact ⟨⟨[e], rfl⟩, rfl⟩
  | clearShallow k => exact ⟨List.prefix_refl _, rfl⟩
  | clearDeep k => exact ⟨List.prefix_refl _, rfl⟩

theorem cmd_hist {C : Chart} {m : Mach W} (c : Cmd) (h : HistOK C m) : HistOK C (m.cmd c) := by
  cases c with
  | post e => exact ⟨h.sh, h.dh⟩
  | clearShallow k =>
    refine ⟨?_, h.dh⟩
    intro p i g hg
    simp only [Mach.cmd, upd] at hg
    split at hg
    · cases hg
    · exact h.sh hg
  | clearDeep k =>
    refine ⟨h.sh, ?_⟩
    intro p i g hg
    simp only [Mach.cmd, upd] at hg
    split at hg
    · cases hg
    · exact h.dh hg

theorem cmds_step (cmds : List Cmd) (m : Mach W) : UserStep m (cmds.foldl Mach.cmd m) [] := by
  induction cmds generalizing m with
  | nil => exact ⟨.refl _, by simp, fun _ h => h, List.prefix_refl _, rfl⟩
  | cons c cs ih =>
    have := ih (m.cmd c)
    refine ⟨(cmd_core m c).trans this.core, ?_, fun C h => this.hist C (cmd_hist c h), (cmd_queue m c).1.trans this.queue.1,
      this.queue.2.trans (cmd_queue m c).2⟩
    simp only [List.foldl_cons, this.trace, cmd_trace]; simp

theorem UserStep.log {m m' : Mach W} {obs : List Obs} (h : UserStep m m' obs) (o : Obs) :
    UserStep m (m'.log o) (obs ++ [o]) := by
  refine ⟨?_, ?_, ?_, h.queue⟩
  · exact ⟨h.core.heap, h.core.slot, h.core.len, h.core.endIx, h.core.outermost, h.core.ico,
      h.core.pOU, h.core.fullExit, h.core.trig⟩
  · simp [Mach.log, h.trace, h.core.trig]
  · intro C hc; exact ⟨(h.hist C hc).sh, (h.hist C hc).dh⟩

theorem UserStep.logs {m m' : Mach W} {obs : List Obs} (h : UserStep m m' obs) (os : List Obs) :
    UserStep m (os.foldl Mach.log m') (obs ++ os) := by
  induction os generalizing m' obs with
  | nil => simpa using h
  | cons o os ih => simpa using ih (h.log o)

theorem world_step (m : Mach W) (w : W) (cmds : List Cmd) :
    UserStep m (cmds.foldl Mach.cmd { m with world := w }) [] := by
  have := cmds_step cmds { m with world := w }
  exact ⟨⟨this.core.heap, this.core.slot, this.core.len, this.core.endIx, this.core.outermost,
    this.core.ico, this.core.pOU, this.core.fullExit, this.core.trig⟩, this.trace,
    fun C h => this.hist C ⟨h.sh, h.dh⟩, this.queue⟩

theorem UserStep.raise {m m' : Mach W} {obs : List Obs} (h : UserStep m m' obs) (x : Exc) : UserStep m (m'.raise x) obs :=
  ⟨⟨h.core.heap, h.core.slot, h.core.len, h.core.endIx, h.core.outermost, h.core.ico, h.core.pOU, h.core.fullExit, h.core.trig⟩,
    h.trace, fun C hc => ⟨(h.hist C hc).sh, (h.hist C hc).dh⟩, h.queue⟩

theorem wp_runUser {f : View → W → UOut W} {a b : List Obs} {m : Mach W}
    {Q : Unit → Mach W → Prop} {E : Exc → Mach W → Prop}
    (h1 : ∀ m', UserStep m m' a → Q () m') (h2 : ∀ x m', UserStep m m' b → E x m') :
    wp (runUser f a b) Q E m := by
  unfold wp runUser
  have hs := world_step m (f m.view m.world).world (f m.view m.world).cmds
  cases hx : (f m.view m.world).throws with
  | none => simpa [hx] using h1 _ (hs.logs a)
  | some x => simpa [hx] using h2 x _ ((hs.logs b).raise x)

/-! ## Spec predicates under the invariant -/

variable {C : Chart} {L : Sid → Nat} {pend : Option Sid} {m : Mach W}

theorem childless_iff {act : Sid → Bool} {s : Sid} :
    childless C act s = true ↔ ∀ c, c < C.n → act c = true → C.parent c ≠ some s := by
  simp only [childless, List.all_eq_true, List.mem_range, Bool.not_eq_true', Bool.and_eq_false_imp,
    beq_eq_false_iff_ne, ne_eq]

theorem regionEmpty_iff {act : Sid → Bool} {s : Sid} :
    regionEmpty C act s = true ↔ ∀ c, c < C.n → act c = true → C.parent c = C.parent s → C.pos c ≠ C.pos s := by
  simp only [regionEmpty, List.all_eq_true, List.mem_range, Bool.not_eq_true', Bool.and_eq_false_imp,
    Bool.and_eq_true, beq_iff_eq, beq_eq_false_iff_ne, ne_eq, and_imp]

theorem Inv.live_bound (h : Inv C L pend m) {s : Sid} (hs : (m.heap s).isSome) : s < C.n := by
  obtain ⟨o, ho⟩ := Option.isSome_iff_exists.1 hs
  exact h.bound ho

theorem Inv.inner_lt (hwf : C.WF) (h : Inv C L pend m) {p i c : Sid} {o : Obj} (ho : m.heap p = some o)
    (hi : o.inner i = some c) : i < C.regions (some p) := by
  obtain ⟨h1, h2, h3⟩ := (h.inner_iff ho).1 hi
  have := Chart.pos_lt_some hwf (h.live_bound h1) h2
  omega

theorem Inv.childless_iff (hwf : C.WF) (h : Inv C L pend m) {s : Sid} {o : Obj} (ho : m.heap s = some o) :
    childless C m.act s = true ↔ nch (C.regions (some s)) o.inner = 0 := by
  rw [SC.childless_iff, nch_zero_iff]
  constructor
  · intro hc i hi
    cases hg : o.inner i with
    | none => rfl
    | some c =>
      obtain ⟨h1, h2, h3⟩ := (h.inner_iff ho).1 hg
      exact absurd h2 (hc c (h.live_bound h1) h1)
  · intro hn c hc hl hp
    have := (h.inner_iff ho (i := C.pos c) (c := c)).2 ⟨hl, hp, rfl⟩
    rw [hn _ (Chart.pos_lt_some hwf hc hp)] at this
    cases this

/-- In-list indices of a state are its recorded position. -/
theorem Inv.slot_pos (h : Inv C L pend m) {i s : Nat} {o : Obj} (hs : m.slot i = some s)
    (ho : m.heap s = some o) : o.lpos = i ∧ i < m.endIx ∧ C.isLeaf s = true := by
  by_cases hi : i < m.endIx
  · obtain ⟨s', o', h1, h2, h3, h4⟩ := h.slot_in hi
    rw [hs] at h1; cases h1
    rw [ho] at h2; cases h2
    exact ⟨h4, hi, h3⟩
  · rw [h.slot_out (by omega)] at hs; cases hs

theorem Inv.leaf_of_slot (h : Inv C L pend m) {s : Sid} {o : Obj} (ho : m.heap s = some o)
    (hs : m.slot o.lpos = some s) : C.isLeaf s = true := (h.slot_pos hs ho).2.2

theorem Inv.not_slot (h : Inv C L pend m) {s : Sid} {o : Obj} (ho : m.heap s = some o)
    (hl : C.isLeaf s = false) : m.slot o.lpos ≠ some s := by
  intro hs; rw [h.leaf_of_slot ho hs] at hl; cases hl

def inc (L : Sid → Nat) (s : Sid) : Sid → Nat := upd L s (L s + 1)
def dec (L : Sid → Nat) (s : Sid) : Sid → Nat := upd L s (L s - 1)
def incCtx (L : Sid → Nat) : Option Sid → Sid → Nat
  | none => L
  | some p => inc L p

@[simp] theorem inc_same (L : Sid → Nat) (s : Sid) : inc L s s = L s + 1 := by simp [inc]
@[simp] theorem dec_same (L : Sid → Nat) (s : Sid) : dec L s s = L s - 1 := by simp [dec]
@[simp] theorem inc_other (L : Sid → Nat) {s x : Sid} (h : x ≠ s) : inc L s x = L x := by simp [inc, h]
@[simp] theorem dec_other (L : Sid → Nat) {s x : Sid} (h : x ≠ s) : dec L s x = L x := by simp [dec, h]
@[simp] theorem dec_inc (L : Sid → Nat) (s : Sid) : dec (inc L s) s = L := by
  funext x; simp only [dec, inc, upd]; split <;> simp_all
theorem inc_dec (L : Sid → Nat) {s : Sid} (h : L s ≠ 0) : inc (dec L s) s = L := by
  funext x; simp only [dec, inc, upd]; split
  · next hx => subst hx; simp; omega
  · rfl

end SC
