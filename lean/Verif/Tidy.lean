import Verif.Watch
import Verif.Queue
import Verif.ChartLemmas
/-!
# The state list while user code runs (proof infrastructure)

`Tidy C st m` describes the list of innermost states, the reference counts of leaf states and the
notes of a watching program at any moment; the stage `st` says which leaf is off the list, which
object is under construction or destruction, and which object has no context yet. Every library
function brings the machine from one stage to another.
-/

namespace SC
open Spec Chart
variable {W α β : Type}

section
variable {V : Type} {m : Mach V} {Q : α → Mach V → Prop} {E : Exc → Mach V → Prop}

theorem wlp_pure (a : α) : wlp (pure a : M V α) Q E m ↔ Q a m := Iff.rfl
theorem wlp_fault (g : Fault) : wlp (M.fault g : M V α) Q E m ↔ True := Iff.rfl
theorem wlp_throw (x : Exc) : wlp (M.throw x : M V α) Q E m ↔ E x m := Iff.rfl

theorem wlp_finally {x : M V α} {fin : M V Unit} (h : wlp x (fun a m' => wlp fin (fun _ m'' => Q a m'') E m')
    (fun e m' => wlp fin (fun _ m'' => E e m'') (fun _ _ => True) m') m) : wlp (M.finally' x fin) Q E m := by
  unfold wlp M.finally' at *
  cases hx : x m with
  | ok a m' => rw [hx] at h; simp only at h ⊢; cases hf : fin m' <;> rw [hf] at h <;> simp_all
  | fault g => trivial
  | thrown e m' => rw [hx] at h; simp only at h ⊢; cases hf : fin m' <;> rw [hf] at h <;> simp_all

theorem wlp_tryCatch {x : M V α} {f : Exc → M V α} (h : wlp x Q (fun e m' => wlp (f e) Q E m') m) : wlp (M.tryCatch x f) Q E m := by
  unfold wlp M.tryCatch at *
  cases hx : x m <;> rw [hx] at h <;> simp_all

theorem wlp_eq {x : M V α} (h : wlp x Q E m) : wlp x (fun a m' => Q a m' ∧ x m = .ok a m') (fun e m' => E e m' ∧ x m = .thrown e m') m := by
  unfold wlp at *
  cases hx : x m <;> rw [hx] at h <;> simp_all

theorem wlp_getObj {Q : Obj → Mach V → Prop} {s : Sid} (h : ∀ o, m.heap s = some o → Q o m) : wlp (getObj s) Q E m := by
  unfold wlp getObj
  cases hs : m.heap s with
  | none => trivial
  | some o => exact h o hs

theorem wlp_setObj {Q : Unit → Mach V → Prop} {s : Sid} {o : Obj} : wlp (setObj s o) Q E m ↔ Q () { m with heap := upd m.heap s (some o) } := Iff.rfl

end

/-- What is known of `pOutermostState_`: it is the state given by the calls of user code, or the state named; or it is not up to
date and will be set to the state given. -/
inductive Top
  | exact
  | is (s : Sid)
  | due (t : Option Sid)

def Top.holds (C : Chart) (tr : List Obs) (out : Option Sid) : Top → Prop
  | .exact => out = topOf C tr
  | .is s => out = some s
  | .due t => topOf C tr = t

/-- Only outermost states matter. -/
def Top.only (C : Chart) (s : Sid) (t : Top) : Top := if C.parent s = none then t else .exact

/-- Which objects are in an intermediate state: the leaf state that is not in the list, the object that exists
but does not count as alive, the object without context, and the reference counts of leaf states. -/
structure Stage where
  off : Option Sid := none
  unborn : Option Sid := none
  noctx : Option Sid := none
  rcs : Sid → Nat := fun _ => 1
  top : Top := .exact

/-- A stored history function that names states of the chart. -/
def HFn.within (C : Chart) : HFn → Prop
  | .deep c => c < C.n
  | .chain cs l => l < C.n ∧ ∀ x ∈ cs, x < C.n ∧ C.isLeaf x = false

structure Tidy (C : Chart) (st : Stage) (m : Mach (W × Log)) : Prop where
  bound : ∀ {s o}, m.heap s = some o → s < C.n
  slot_in : ∀ {i}, i < m.endIx → ∃ s o, m.slot i = some s ∧ m.heap s = some o ∧ C.isLeaf s = true ∧ o.lpos = i
  slot_out : ∀ {i}, m.endIx ≤ i → m.slot i = none
  leaf_in : ∀ {s o}, m.heap s = some o → C.isLeaf s = true → st.off ≠ some s → m.slot o.lpos = some s
  off_out : ∀ {s i}, st.off = some s → m.slot i ≠ some s
  rcl : ∀ {s o}, m.heap s = some o → C.isLeaf s = true → o.rc = st.rcs s
  ou : ∀ {s}, m.pOU = some s → C.isLeaf s = false
  live : ∀ s, (m.heap s).isSome = true ↔ (alive (m.world.2.map (·.2)) s = true ∨ st.unborn = some s)
  unborn : ∀ {s}, st.unborn = some s → alive (m.world.2.map (·.2)) s = false
  unborn_off : ∀ {s}, st.unborn = some s → C.isLeaf s = true → st.off = some s
  ctx : ∀ {s o}, m.heap s = some o → st.noctx ≠ some s → o.ctxSet = true
  nctx : ∀ {s o}, m.heap s = some o → st.noctx = some s → o.ctxSet = false
  logged : m.world.2.map (fun n => (n.1.trig, n.2)) = m.trace.filter (fun x => userCall x.2)
  seen : Seen C m.world.2
  sh : ∀ {k h}, m.sh k = some h → h.within C
  dh : ∀ {k h}, m.dh k = some h → h.within C
  top : st.top.holds C (m.world.2.map (·.2)) m.outermost

variable {C : Chart} {st st' : Stage} {m m' : Mach (W × Log)} {P : Prog (W × Log)}

theorem Tidy.same (h : Tidy C st m) (h1 : m'.heap = m.heap) (h2 : m'.slot = m.slot) (h3 : m'.endIx = m.endIx)
    (h4 : ∀ s, m'.pOU = some s → C.isLeaf s = false) (h5 : m'.world.2 = m.world.2)
    (h6 : m'.trace.filter (fun x => userCall x.2) = m.trace.filter (fun x => userCall x.2))
    (h7 : ∀ k h, m'.sh k = some h → h.within C) (h8 : ∀ k h, m'.dh k = some h → h.within C)
    (h9 : m'.outermost = m.outermost := by rfl) : Tidy C st m' where
  bound hs := by rw [h1] at hs; exact h.bound hs
  slot_in hi := by rw [h3] at hi; rw [h1, h2]; exact h.slot_in hi
  slot_out hi := by rw [h3] at hi; rw [h2]; exact h.slot_out hi
  leaf_in := by rw [h1, h2]; exact h.leaf_in
  off_out := by rw [h2]; exact h.off_out
  rcl := by rw [h1]; exact h.rcl
  ou := fun hs => h4 _ hs
  live := by rw [h1, h5]; exact h.live
  unborn := by rw [h5]; exact h.unborn
  unborn_off := h.unborn_off
  ctx := by rw [h1]; exact h.ctx
  nctx := by rw [h1]; exact h.nctx
  logged := by rw [h5, h6]; exact h.logged
  seen := by rw [h5]; exact h.seen
  sh := fun hs => h7 _ _ hs
  dh := fun hs => h8 _ _ hs
  top := by rw [h5, h9]; exact h.top

/-- Steps that touch only flags, queues and logs. -/
theorem Tidy.flags (h : Tidy C st m) (h1 : m'.heap = m.heap) (h2 : m'.slot = m.slot) (h3 : m'.endIx = m.endIx)
    (h4 : m'.pOU = m.pOU) (h5 : m'.world.2 = m.world.2) (h6 : m'.trace = m.trace) (h7 : m'.sh = m.sh) (h8 : m'.dh = m.dh)
    (h9 : m'.outermost = m.outermost := by rfl) : Tidy C st m' :=
  h.same h1 h2 h3 (by rw [h4]; intro s; exact h.ou) h5 (by rw [h6]) (by rw [h7]; intro k f; exact h.sh) (by rw [h8]; intro k f; exact h.dh) h9

/-- Only the pointer to the outermost state changes. -/
theorem Tidy.setTop (h : Tidy C st m) {t' : Top} (h1 : m'.heap = m.heap) (h2 : m'.slot = m.slot) (h3 : m'.endIx = m.endIx)
    (h4 : m'.pOU = m.pOU) (h5 : m'.world = m.world) (h6 : m'.trace = m.trace) (h7 : m'.sh = m.sh) (h8 : m'.dh = m.dh)
    (h9 : t'.holds C (m.world.2.map (·.2)) m'.outermost) : Tidy C { st with top := t' } m' where
  bound hs := by rw [h1] at hs; exact h.bound hs
  slot_in hi := by rw [h3] at hi; rw [h1, h2]; exact h.slot_in hi
  slot_out hi := by rw [h3] at hi; rw [h2]; exact h.slot_out hi
  leaf_in := by rw [h1, h2]; exact h.leaf_in
  off_out := by rw [h2]; exact h.off_out
  rcl := by rw [h1]; exact h.rcl
  ou := by rw [h4]; exact h.ou
  live := by rw [h1, h5]; exact h.live
  unborn := by rw [h5]; exact h.unborn
  unborn_off := h.unborn_off
  ctx := by rw [h1]; exact h.ctx
  nctx := by rw [h1]; exact h.nctx
  logged := by rw [h5, h6]; exact h.logged
  seen := by rw [h5]; exact h.seen
  sh := by rw [h7]; exact h.sh
  dh := by rw [h8]; exact h.dh
  top := by rw [h5]; exact h9

theorem upd_heap_some {f : Sid → Option Obj} {s x : Sid} {o' ox : Obj} (h : upd f s (some o') x = some ox) :
    (x = s ∧ ox = o') ∨ (x ≠ s ∧ f x = some ox) := by
  rw [upd_apply] at h
  split at h
  · next hx => cases h; exact .inl ⟨hx, rfl⟩
  · next hx => exact .inr ⟨hx, h⟩

/-- One object changes, not its place in the list. -/
theorem Tidy.upd' (h : Tidy C st m) {s : Sid} {o o' : Obj} (ho : m.heap s = some o) (hl : o'.lpos = o.lpos) {rcs' : Sid → Nat} {nc' : Option Sid}
    (hr : ∀ x, x ≠ s → C.isLeaf x = true → rcs' x = st.rcs x) (hr' : C.isLeaf s = true → o'.rc = rcs' s)
    (hn : ∀ x, x ≠ s → nc' ≠ some x → st.noctx ≠ some x) (hc : nc' ≠ some s → o'.ctxSet = true)
    (hn' : nc' = none ∨ (nc' = st.noctx ∧ o'.ctxSet = o.ctxSet)) :
    Tidy C { st with rcs := rcs', noctx := nc' } { m with heap := upd m.heap s (some o') } where
  bound hs := by
    rcases upd_heap_some hs with ⟨rfl, _⟩ | ⟨_, h1⟩
    · exact h.bound ho
    · exact h.bound h1
  slot_in hi := by
    obtain ⟨x, ox, h1, h2, h3, h4⟩ := h.slot_in hi
    by_cases hx : x = s
    · subst hx
      rw [ho] at h2; cases h2
      exact ⟨x, o', h1, upd_same _ _ _, h3, by rw [hl]; exact h4⟩
    · exact ⟨x, ox, h1, by rw [← h2]; exact upd_other _ _ hx, h3, h4⟩
  slot_out := h.slot_out
  leaf_in hs hl' hoff := by
    rcases upd_heap_some hs with ⟨rfl, rfl⟩ | ⟨_, h1⟩
    · show m.slot _ = _
      rw [hl]; exact h.leaf_in ho hl' hoff
    · exact h.leaf_in h1 hl' hoff
  off_out := h.off_out
  rcl hs hl' := by
    rcases upd_heap_some hs with ⟨rfl, rfl⟩ | ⟨hx, h1⟩
    · exact hr' hl'
    · show _ = rcs' _
      rw [hr _ hx hl']; exact h.rcl h1 hl'
  ou := h.ou
  live x := by
    show (upd m.heap s (some o') x).isSome = true ↔ _
    rw [← h.live x, upd_apply]
    split
    · next hx => subst hx; rw [ho]; simp
    · rfl
  unborn := h.unborn
  unborn_off := h.unborn_off
  ctx hs hx := by
    rcases upd_heap_some hs with ⟨rfl, rfl⟩ | ⟨h0, h1⟩
    · exact hc hx
    · exact h.ctx h1 (hn _ h0 hx)
  nctx hs hx := by
    replace hx : nc' = some _ := hx
    rcases hn' with hn' | ⟨hn', hc'⟩
    · rw [hn'] at hx; cases hx
    · rcases upd_heap_some hs with ⟨rfl, rfl⟩ | ⟨h0, h1⟩
      · rw [hc']; exact h.nctx ho (hn' ▸ hx)
      · exact h.nctx h1 (hn' ▸ hx)
  logged := h.logged
  seen := h.seen
  sh := h.sh
  dh := h.dh
  top := h.top

/-- A non-leaf object changes. -/
theorem Tidy.updNode (h : Tidy C st m) {s : Sid} {o o' : Obj} (ho : m.heap s = some o) (hs : C.isLeaf s = false) (hl : o'.lpos = o.lpos)
    (hc : o'.ctxSet = o.ctxSet) : Tidy C st { m with heap := upd m.heap s (some o') } :=
  h.upd' (rcs' := st.rcs) (nc' := st.noctx) ho hl (fun _ _ _ => rfl) (fun h => by rw [hs] at h; cases h) (fun _ _ h => h)
    (fun hn => by rw [hc]; exact h.ctx ho hn) (.inr ⟨rfl, hc⟩)

theorem Tidy.rcs_congr (h : Tidy C st m) {rcs' : Sid → Nat} (hr : ∀ x, C.isLeaf x = true → rcs' x = st.rcs x) : Tidy C { st with rcs := rcs' } m where
  bound := h.bound
  slot_in := h.slot_in
  slot_out := h.slot_out
  leaf_in := h.leaf_in
  off_out := h.off_out
  rcl ho hl := by show _ = rcs' _; rw [hr _ hl]; exact h.rcl ho hl
  ou := h.ou
  live := h.live
  unborn := h.unborn
  unborn_off := h.unborn_off
  ctx := h.ctx
  nctx := h.nctx
  logged := h.logged
  seen := h.seen
  sh := h.sh
  dh := h.dh
  top := h.top

theorem cmds_tidy (h : Tidy C st m) (cmds : List Cmd) : Tidy C st (cmds.foldl Mach.cmd m) := by
  induction cmds generalizing m with
  | nil => exact h
  | cons c cs ih =>
    refine ih ?_
    cases c with
    | post e => exact h.flags rfl rfl rfl rfl rfl rfl rfl rfl
    | clearShallow k =>
      refine h.same rfl rfl rfl (fun s => h.ou) rfl rfl ?_ (fun _ _ => h.dh)
      intro k' f hf
      rw [show (m.cmd (.clearShallow k)).sh = upd m.sh k none from rfl, upd_apply] at hf
      split at hf
      · cases hf
      · exact h.sh hf
    | clearDeep k =>
      refine h.same rfl rfl rfl (fun s => h.ou) rfl rfl (fun _ _ => h.sh) ?_
      intro k' f hf
      rw [show (m.cmd (.clearDeep k)).dh = upd m.dh k none from rfl, upd_apply] at hf
      split at hf
      · cases hf
      · exact h.dh hf

/-- What user code sees. -/
theorem Tidy.exact (h : Tidy C st m) {o : Obs} (ho : ∀ x, C.isLeaf x = true → alive (m.world.2.map (·.2)) x = true → (st.off = some x ↔ leaving o = some x))
    (hc : ∀ x, alive (m.world.2.map (·.2)) x = true → st.noctx ≠ some x)
    (hk : ∀ x, making o = some x → st.unborn = some x ∧ (C.isSimple x = true ↔ st.noctx = some x))
    (ht : m.terminated = termSeen C (m.world.2.map (·.2)) o) : Shown C (m.world.2.map (·.2)) o m.view := by
  refine ⟨⟨(List.range m.endIx).map fun i => (m.slot i).getD 0, ?_, ?_, ?_⟩, ?_, ?_, ht⟩
  · show (List.range m.endIx).map m.slot = _
    rw [List.map_map]
    refine List.map_congr_left fun i hi => ?_
    obtain ⟨x, ox, h1, _⟩ := h.slot_in (List.mem_range.1 hi)
    simp [h1]
  · rw [List.Nodup, List.pairwise_map]
    refine List.Pairwise.imp_of_mem ?_ (List.nodup_range (n := m.endIx))
    intro i j hi hj hij heq
    obtain ⟨x, ox, h1, h2, _, h4⟩ := h.slot_in (List.mem_range.1 hi)
    obtain ⟨y, oy, k1, k2, _, k4⟩ := h.slot_in (List.mem_range.1 hj)
    rw [h1, k1] at heq
    simp only [Option.getD_some] at heq
    subst heq
    rw [h2] at k2; cases k2
    exact hij (h4.symm.trans k4)
  · intro x
    rw [List.mem_map]
    constructor
    · rintro ⟨i, hi, hx⟩
      obtain ⟨y, oy, h1, h2, h3, h4⟩ := h.slot_in (List.mem_range.1 hi)
      rw [h1] at hx
      simp only [Option.getD_some] at hx
      subst hx
      have hoff : st.off ≠ some y := fun he => h.off_out he h1
      rcases (h.live y).1 (by rw [h2]; rfl) with ha | hu
      · exact ⟨ha, h3, fun hl => hoff ((ho y h3 ha).2 hl)⟩
      · exact absurd (h.unborn_off hu h3) hoff
    · rintro ⟨ha, hl, hlv⟩
      obtain ⟨ox, hox⟩ := Option.isSome_iff_exists.1 ((h.live x).2 (.inl ha))
      have hs := h.leaf_in hox hl (fun he => hlv ((ho x hl ha).1 he))
      refine ⟨ox.lpos, ?_, by rw [hs]; rfl⟩
      rw [List.mem_range]
      rcases Nat.lt_or_ge ox.lpos m.endIx with hlt | hge
      · exact hlt
      · rw [h.slot_out hge] at hs; cases hs
  · intro x ha
    obtain ⟨ox, hox⟩ := Option.isSome_iff_exists.1 ((h.live x).2 (.inl ha))
    exact ⟨ox, hox, h.ctx hox (hc x ha)⟩
  · intro x hx
    obtain ⟨h1, h2⟩ := hk x hx
    obtain ⟨ox, hox⟩ := Option.isSome_iff_exists.1 ((h.live x).2 (.inr h1))
    refine ⟨ox, hox, ?_⟩
    cases hs : C.isSimple x with
    | true => exact h.nctx hox (h2.1 hs)
    | false => exact h.ctx hox fun hn => by rw [h2.2 hn] at hs; cases hs

/-- A call of user code. -/
theorem Tidy.call (h : Tidy C st m) {o : Obs} {u' : Option Sid} {t' : Top} (hd : userCall o = true)
    (ho : ∀ x, C.isLeaf x = true → alive (m.world.2.map (·.2)) x = true → (st.off = some x ↔ leaving o = some x))
    (hc : ∀ x, alive (m.world.2.map (·.2)) x = true → st.noctx ≠ some x)
    (hu : ∀ x, (aliveStep (alive (m.world.2.map (·.2))) o x = true ∨ u' = some x) ↔ (alive (m.world.2.map (·.2)) x = true ∨ st.unborn = some x))
    (hu1 : ∀ x, u' = some x → aliveStep (alive (m.world.2.map (·.2))) o x = false)
    (hu2 : ∀ x, u' = some x → C.isLeaf x = true → st.off = some x)
    (hk : ∀ x, making o = some x → st.unborn = some x ∧ (C.isSimple x = true ↔ st.noctx = some x))
    (ht : m.terminated = termSeen C (m.world.2.map (·.2)) o) (ht' : t'.holds C (m.world.2.map (·.2) ++ [o]) m.outermost) (w : W) (cmds : List Cmd) :
    Tidy C { st with unborn := u', top := t' } ((cmds.foldl Mach.cmd { m with world := (w, m.world.2 ++ [(m.view, o)]) }).log o) := by
  have hal : alive ((m.world.2 ++ [(m.view, o)]).map (·.2)) = aliveStep (alive (m.world.2.map (·.2))) o := by
    rw [List.map_append]; exact alive_snoc _ _
  have key : ∀ m0 : Mach (W × Log), m0.heap = m.heap → m0.slot = m.slot → m0.endIx = m.endIx → m0.pOU = m.pOU →
      m0.world.2 = m.world.2 ++ [(m.view, o)] → m0.trace = m.trace ++ [(m.trig, o)] →
      (∀ k f, m0.sh k = some f → f.within C) → (∀ k f, m0.dh k = some f → f.within C) → m0.outermost = m.outermost →
      Tidy C { st with unborn := u', top := t' } m0 := by
    intro m0 e1 e2 e3 e4 e5 e6 e7 e8 e9
    constructor
    · intro s ob hs; rw [e1] at hs; exact h.bound hs
    · intro i hi; rw [e3] at hi; rw [e1, e2]; exact h.slot_in hi
    · intro i hi; rw [e3] at hi; rw [e2]; exact h.slot_out hi
    · rw [e1, e2]; exact h.leaf_in
    · rw [e2]; exact h.off_out
    · rw [e1]; exact h.rcl
    · rw [e4]; exact h.ou
    · intro s; rw [e1, e5, hal, h.live s]; exact (hu s).symm
    · intro s hs; rw [e5, hal]; exact hu1 s hs
    · intro s hs hl; exact hu2 s hs hl
    · rw [e1]; exact h.ctx
    · rw [e1]; exact h.nctx
    · rw [e5, e6, List.map_append, List.filter_append, h.logged]
      simp [hd, Mach.view]
    · rw [e5]; exact h.seen.snoc (h.exact ho hc hk ht)
    · intro k f; exact e7 k f
    · intro k f; exact e8 k f
    · rw [e5, e9, List.map_append]; exact ht'
  have hfold : ∀ (cmds : List Cmd) (m0 : Mach (W × Log)), (∀ k f, m0.sh k = some f → f.within C) → (∀ k f, m0.dh k = some f → f.within C) →
      (cmds.foldl Mach.cmd m0).heap = m0.heap ∧ (cmds.foldl Mach.cmd m0).slot = m0.slot ∧ (cmds.foldl Mach.cmd m0).endIx = m0.endIx ∧
      (cmds.foldl Mach.cmd m0).pOU = m0.pOU ∧ (cmds.foldl Mach.cmd m0).world = m0.world ∧ (cmds.foldl Mach.cmd m0).trace = m0.trace ∧ (cmds.foldl Mach.cmd m0).trig = m0.trig ∧
      (∀ k f, (cmds.foldl Mach.cmd m0).sh k = some f → f.within C) ∧ (∀ k f, (cmds.foldl Mach.cmd m0).dh k = some f → f.within C) ∧ (cmds.foldl Mach.cmd m0).outermost = m0.outermost := by
    intro cmds
    induction cmds with
    | nil => intro m0 a b; exact ⟨rfl, rfl, rfl, rfl, rfl, rfl, rfl, a, b, rfl⟩
    | cons c cs ih =>
      intro m0 a b
      have hc1 : ∀ k f, (m0.cmd c).sh k = some f → f.within C := by
        intro k f hf
        cases c with
        | post e => exact a k f hf
        | clearDeep k' => exact a k f hf
        | clearShallow k' =>
          rw [show (m0.cmd (.clearShallow k')).sh = upd m0.sh k' none from rfl, upd_apply] at hf
          split at hf
          · cases hf
          · exact a k f hf
      have hc2 : ∀ k f, (m0.cmd c).dh k = some f → f.within C := by
        intro k f hf
        cases c with
        | post e => exact b k f hf
        | clearShallow k' => exact b k f hf
        | clearDeep k' =>
          rw [show (m0.cmd (.clearDeep k')).dh = upd m0.dh k' none from rfl, upd_apply] at hf
          split at hf
          · cases hf
          · exact b k f hf
      obtain ⟨i1, i2, i3, i4, i5, i6, i0, i7, i8, i9⟩ := ih (m0.cmd c) hc1 hc2
      refine ⟨i1.trans ?_, i2.trans ?_, i3.trans ?_, i4.trans ?_, i5.trans ?_, i6.trans ?_, i0.trans ?_, i7, i8, i9.trans ?_⟩ <;> cases c <;> rfl
  obtain ⟨i1, i2, i3, i4, i5, i6, i0, i7, i8, i9⟩ := hfold cmds { m with world := (w, m.world.2 ++ [(m.view, o)]) } (fun k f => h.sh) (fun k f => h.dh)
  refine key _ i1 i2 i3 i4 ?_ ?_ i7 i8 i9
  · exact congrArg Prod.snd i5
  · show (List.foldl Mach.cmd _ cmds).trace ++ [((List.foldl Mach.cmd _ cmds).trig, o)] = _
    rw [i6, i0]

/-- User code that may throw. -/
theorem wlp_call {f : View → W × Log → UOut (W × Log)} {a b : Obs} {Q : Unit → Mach (W × Log) → Prop} {E : Exc → Mach (W × Log) → Prop}
    (hf : ∀ v w, ∃ w', (f v w).world = (w', w.2 ++ [(v, if (f v w).throws = none then a else b)]))
    (h1 : ∀ w (cmds : List Cmd), Q () ((cmds.foldl Mach.cmd { m with world := (w, m.world.2 ++ [(m.view, a)]) }).log a))
    (h2 : ∀ x w (cmds : List Cmd), E x (((cmds.foldl Mach.cmd { m with world := (w, m.world.2 ++ [(m.view, b)]) }).log b).raise x)) :
    wlp (runUser f [a] [b]) Q E m := by
  unfold wlp runUser
  obtain ⟨w', hw⟩ := hf m.view m.world
  cases ht : (f m.view m.world).throws with
  | none =>
    rw [ht, if_pos rfl] at hw
    simp only [ht, hw]
    exact h1 _ _
  | some x =>
    rw [ht, if_neg (by simp)] at hw
    simp only [ht, hw]
    exact h2 x _ _

/-! ## References, exit -/

/-- `s` is the state being worked on: if it is a leaf, it is not in the list. -/
def Stage.of (C : Chart) (s : Sid) : Stage := { off := if C.isLeaf s then some s else none }

theorem Stage.of_node {s : Sid} (h : C.isLeaf s = false) : Stage.of C s = {} := by
  unfold Stage.of; rw [h]; rfl

theorem addRef_tidy (h : Tidy C st m) {p : Sid} (hp : C.isLeaf p = false) : wlp (addRef p) (fun _ m' => Tidy C st m') (fun _ _ => False) m := by
  unfold addRef
  rw [wlp_bind]
  refine wlp_getObj fun o ho => ?_
  rw [wlp_setObj]
  exact h.updNode ho hp rfl rfl

theorem releaseBase_tidy (h : Tidy C st m) {p : Sid} (hp : C.isLeaf p = false) : wlp (releaseBase p) (fun _ m' => Tidy C st m') (fun _ _ => False) m := by
  unfold releaseBase
  rw [wlp_bind]
  refine wlp_getObj fun o ho => ?_
  split
  · trivial
  · rw [wlp_setObj]
    exact h.updNode ho hp rfl rfl

theorem setOU_tidy (h : Tidy C st m) {n : Option Sid} (hn : ∀ p, n = some p → C.isLeaf p = false) :
    wlp (setOU n) (fun _ m' => Tidy C st m') (fun _ _ => False) m := by
  have rest : ∀ m1 : Mach (W × Log), Tidy C st m1 → wlp (M.get >>= fun m => M.modify (fun m => { m with pOU := n }) >>= fun _ =>
      match m.pOU with
      | none => pure ()
      | some t => releaseBase t) (fun _ m' => Tidy C st m') (fun _ _ => False) m1 := by
    intro m1 h1
    rw [wlp_bind, wlp_get, wlp_bind, wlp_modify]
    have h2 : Tidy C st { m1 with pOU := n } := h1.same rfl rfl rfl hn rfl rfl (fun _ _ => h1.sh) (fun _ _ => h1.dh)
    cases ho : m1.pOU with
    | none => exact h2
    | some t => exact releaseBase_tidy h2 (h1.ou ho)
  unfold setOU
  rw [wlp_bind]
  cases n with
  | none => exact rest m h
  | some p => exact wlp_mono (addRef_tidy h (hn p rfl)) (fun _ m1 h1 => rest m1 h1) (fun _ _ h => h)

theorem allocate_tidy (hw : Watching P) (s : Site) (h : Tidy C st m) : wlp (allocate P s) (fun _ m' => Tidy C st m') (fun _ m' => Tidy C st m') m := by
  have h1 := hw.alloc s m.world
  unfold wlp allocate
  cases hx : P.alloc s m.world with
  | mk w r =>
    rw [hx] at h1
    cases r with
    | none => exact h.flags rfl rfl rfl rfl h1 rfl rfl rfl
    | some x => exact h.flags rfl rfl rfl rfl h1 rfl rfl rfl

theorem allocNode_tidy (hw : Watching P) (has : Mach (W × Log) → Bool) (s : Site) (h : Tidy C st m) :
    wlp (allocNode P has s) (fun _ m' => Tidy C st m') (fun _ m' => Tidy C st m') m := by
  have h1 := allocate_tidy hw s h
  unfold wlp allocNode at *
  cases has m with
  | true => exact h
  | false => exact h1

theorem histNode_tidy (hw : Watching P) (has : Mach (W × Log) → Bool) (site : Site) (s : Sid) (k : Option Sid) (h : Tidy C st m) :
    wlp (histNode P has site s k) (fun _ m' => Tidy C st m') (fun _ m' => Tidy C st m') m := by
  have h1 := allocNode_tidy hw has site h
  unfold wlp histNode M.onThrow M.modify at *
  cases hx : allocNode P has site m with
  | ok a m' => rw [hx] at h1; exact h1
  | thrown x m' => rw [hx] at h1; exact Tidy.flags h1 rfl rfl rfl rfl rfl rfl rfl rfl
  | fault g => trivial

/-- The object is gone. -/
theorem Tidy.drop (h : Tidy C st m) {s : Sid} (hu : st.unborn = some s) (ho : st.off = none ∨ st.off = some s)
    (hn : st.noctx = none ∨ st.noctx = some s) (hr : ∀ x, x ≠ s → st.rcs x = 1) (ht : st.top = .exact) :
    Tidy C {} { m with heap := upd m.heap s none } := by
  have hx : ∀ {x ox}, upd m.heap s none x = some ox → x ≠ s ∧ m.heap x = some ox := by
    intro x ox hx
    rw [upd_apply] at hx
    split at hx
    · cases hx
    · next hne => exact ⟨hne, hx⟩
  constructor
  · intro x ox h1; exact h.bound (hx h1).2
  · intro i hi
    obtain ⟨x, ox, h1, h2, h3, h4⟩ := h.slot_in hi
    have hne : x ≠ s := by
      intro he; subst he
      exact h.off_out (h.unborn_off hu h3) h1
    exact ⟨x, ox, h1, by rw [← h2]; exact upd_other _ _ hne, h3, h4⟩
  · exact h.slot_out
  · intro x ox h1 hl _
    refine h.leaf_in (hx h1).2 hl ?_
    rcases ho with ho | ho <;> rw [ho]
    · simp
    · intro he; cases he; exact (hx h1).1 rfl
  · intro x i he; cases he
  · intro x ox h1 hl
    rw [h.rcl (hx h1).2 hl]
    exact hr _ (hx h1).1
  · exact h.ou
  · intro x
    show (upd m.heap s none x).isSome = true ↔ (alive (m.world.2.map (·.2)) x = true ∨ _)
    rw [upd_apply]
    split
    · next he => subst he; simp [h.unborn hu]
    · next he =>
      rw [h.live x, hu]
      simp [show s ≠ x from fun h => he h.symm]
  · intro x he; cases he
  · intro x he; cases he
  · intro x ox h1 _
    refine h.ctx (hx h1).2 ?_
    rcases hn with hn | hn <;> rw [hn]
    · simp
    · intro he; cases he; exact (hx h1).1 rfl
  · intro x ox _ he; cases he
  · exact h.logged
  · exact h.seen
  · exact h.sh
  · exact h.dh
  · have := h.top; rw [ht] at this; exact this

section
variable (hw : Watching P) (hwf : P.toChart.WF)
include hwf

theorem baseDtor_tidy {rel : Sid → M (W × Log) Unit}
    (hrel : ∀ p (m : Mach (W × Log)), P.isLeaf p = false → Tidy P.toChart {} m → wlp (rel p) (fun _ m' => Tidy P.toChart {} m') (fun _ m' => Tidy P.toChart {} m') m)
    {s : Sid} (h : Tidy P.toChart st m) (hu : st.unborn = some s) (ho : st.off = none ∨ st.off = some s)
    (hn : st.noctx = none ∨ st.noctx = some s) (hr : ∀ x, x ≠ s → st.rcs x = 1)
    (ht : (st.top = .exact ∧ (P.parent s = none → st.noctx = some s)) ∨ (P.parent s = none ∧ st.noctx = none ∧ st.top = .due none)) :
    wlp (baseDtor P rel s) (fun _ m' => Tidy P.toChart {} m') (fun _ m' => Tidy P.toChart {} m') m := by
  unfold baseDtor
  rw [wlp_bind]
  refine wlp_getObj fun o hob => ?_
  have hs := h.bound hob
  split
  · next hcs =>
    have h1 : ∀ m1 : Mach (W × Log), Tidy P.toChart st m1 → wlp (removeInner P (P.parent s) (P.pos s)) (fun _ m' => Tidy P.toChart { st with top := .exact } m') (fun _ _ => False) m1 := by
      intro m1 h1
      unfold removeInner
      cases hp : P.parent s with
      | none =>
        simp only
        split
        · rcases ht with ⟨_, h3⟩ | ⟨_, h3, h4⟩
          · have := h.nctx hob (h3 hp)
            rw [hcs] at this; cases this
          · refine h1.setTop rfl rfl rfl rfl rfl rfl rfl rfl ?_
            have h5 := h1.top
            rw [h4] at h5
            exact Eq.symm h5
        · trivial
      | some p =>
        simp only
        rw [wlp_bind]
        refine wlp_getObj fun op hop => ?_
        have he : ({ st with top := .exact } : Stage) = st := by
          rcases ht with ⟨h2, _⟩ | ⟨h2, _⟩
          · rw [← h2]
          · rw [hp] at h2; cases h2
        split
        · rw [wlp_setObj, he]
          exact h1.updNode hop (Chart.parent_not_leaf hwf hs hp) rfl rfl
        · trivial
    have h2 : ∀ m1 : Mach (W × Log), Tidy P.toChart st m1 → wlp (removeInner P (P.parent s) (P.pos s) >>= fun _ =>
        (M.modify fun m => { m with heap := upd m.heap s none }) >>= fun _ => match P.parent s with
          | none => pure ()
          | some p => rel p) (fun _ m' => Tidy P.toChart {} m') (fun _ m' => Tidy P.toChart {} m') m1 := by
      intro m1 hm1
      rw [wlp_bind]
      refine wlp_mono (h1 m1 hm1) ?_ (fun _ _ h => h.elim)
      intro _ m2 hm2
      rw [wlp_bind, wlp_modify]
      have hm3 := hm2.drop hu ho hn hr rfl
      cases hp : P.parent s with
      | none => exact hm3
      | some p => exact hrel p _ (Chart.parent_not_leaf hwf hs hp) hm3
    by_cases hd : o.deferred = true
    · rw [if_pos hd]
      exact h2 _ (h.flags rfl rfl rfl rfl rfl rfl rfl rfl)
    · rw [if_neg hd]
      exact h2 _ h
  · next hcs =>
    refine h.drop hu ho hn hr ?_
    rcases ht with ⟨h2, _⟩ | ⟨_, h2, _⟩
    · exact h2
    · exact absurd (h.ctx hob (by rw [h2]; simp)) hcs

include hw

/-- The last reference to an object, or one of several to a non-leaf state, is dropped. -/
theorem releaseF_tidy : ∀ (f : Nat) (s : Sid) (m : Mach (W × Log)), Tidy P.toChart (Stage.of P.toChart s) m →
    wlp (releaseF P f s) (fun _ m' => Tidy P.toChart {} m') (fun _ m' => Tidy P.toChart {} m') m := by
  intro f
  induction f with
  | zero => intro s m _; trivial
  | succ f ih =>
    intro s m h
    rw [releaseF, wlp_bind]
    refine wlp_getObj fun o ho => ?_
    split
    · trivial
    · split
      · rw [wlp_bind, wlp_setObj, wlp_bind]
        have h1 := h.upd' (s := s) (o' := { o with rc := 0 }) (rcs' := upd (fun _ => 1) s 0) (nc' := none) ho rfl
          (fun x hx _ => upd_other _ _ hx) (fun _ => (upd_same _ _ _).symm) (fun _ _ h => h) (fun _ => show o.ctxSet = true from h.ctx ho (by simp [Stage.of])) (.inl rfl)
        generalize hm1 : ({ m with heap := upd m.heap s (some { o with rc := 0 }) } : Mach (W × Log)) = m1 at h1
        have ha : alive (m1.world.2.map (·.2)) s = true := by
          have := (h1.live s).1 (by rw [← hm1]; show (upd m.heap s _ s).isSome = true; rw [upd_same]; rfl)
          rcases this with h | h
          · exact h
          · cases h
        unfold userDtor
        rw [wlp_modify]
        obtain ⟨w', hw'⟩ := hw.dtor s m1.view m1.world
        have htop : m1.outermost = topOf P.toChart (m1.world.2.map (·.2)) := h1.top
        have h2 := h1.call (o := .destroy s) (u' := some s) (t' := Top.only P.toChart s (.due none)) rfl
          (by
            intro x hl _
            show (if P.isLeaf s = true then some s else none) = some x ↔ some s = some x
            split
            · exact Iff.rfl
            · next hs =>
              constructor
              · intro h; cases h
              · intro h; cases h; exact absurd hl hs)
          (by simp)
          (by
            intro x
            simp only [aliveStep]
            split
            · next he => subst he; simp [ha]
            · next he => simp [Stage.of, show s ≠ x from fun h => he h.symm])
          (by intro x hx; cases hx; simp [aliveStep])
          (by intro x hx hl; cases hx; simp [Stage.of, hl])
          (by intro x hx; cases hx)
          (by unfold Mach.terminated; rw [htop]; rfl)
          (by
            unfold Top.only
            split
            · next hp => show topOf _ _ = none; rw [topOf_snoc]; simp [topStep, hp]
            · next hp => show m1.outermost = topOf _ _; rw [topOf_snoc, htop]; simp [topStep, hp]) w' (P.dtor s m1.view m1.world).2
        simp only [hw']
        refine baseDtor_tidy hwf (fun p m2 hp hm2 => ih p m2 (by rw [Stage.of_node hp]; exact hm2)) h2 rfl ?_ (.inl rfl) ?_ ?_
        · show (if P.isLeaf s = true then some s else none) = none ∨ (if P.isLeaf s = true then some s else none) = some s
          split
          · exact .inr rfl
          · exact .inl rfl
        · intro x hx; exact upd_other (fun _ => 1) 0 hx
        · show (Top.only P.toChart s (.due none) = .exact ∧ _) ∨ (_ ∧ _ ∧ Top.only P.toChart s (.due none) = _)
          unfold Top.only
          split
          · next hp => exact .inr ⟨hp, rfl, rfl⟩
          · next hp => exact .inl ⟨rfl, fun h => absurd h hp⟩
      · next h0 h1 =>
        have hl : P.isLeaf s = false := by
          cases hl : P.isLeaf s with
          | false => rfl
          | true => exact absurd (h.rcl ho hl) h1
        rw [Stage.of_node hl] at h
        exact h.updNode ho hl rfl rfl

theorem release_tidy {s : Sid} (h : Tidy P.toChart (Stage.of P.toChart s) m) :
    wlp (release P s) (fun _ m' => Tidy P.toChart {} m') (fun _ m' => Tidy P.toChart {} m') m := releaseF_tidy hw hwf _ _ _ h

omit hw in
theorem setCtxOU_tidy {s : Sid} (h : Tidy P.toChart st m) : wlp (setCtxOU P s) (fun _ m' => Tidy P.toChart st m') (fun _ _ => False) m := by
  unfold setCtxOU
  rw [wlp_bind]
  refine wlp_getObj fun o ho => ?_
  split
  · exact setOU_tidy h fun p hp => Chart.parent_not_leaf hwf (h.bound ho) hp
  · trivial

omit hw in
theorem pathBelow_node {d x : Sid} {c : Option Sid} (hd : d < P.n) (hx : x ∈ P.pathBelow c d) : x < P.n ∧ P.isLeaf x = false := by
  unfold Chart.pathBelow at hx
  rw [List.mem_reverse, List.mem_filterMap] at hx
  obtain ⟨y, h1, h2⟩ := hx
  simp only [id] at h2
  subst h2
  have h3 := (List.takeWhile_sublist _).subset h1
  unfold Chart.ctxList at h3
  have h4 : x ∈ P.ancestors d := by simpa using h3
  have ho := (mem_ancestors hwf hd).1 h4
  obtain ⟨p, hp, hb⟩ := ho
  have hpn := Chart.parent_bound hwf hd hp
  have hp' := Chart.parent_not_leaf hwf hd hp
  have hxn := hb.bound hwf hpn
  refine ⟨hxn, ?_⟩
  rcases hb.child with rfl | ⟨c, hc, hcb⟩
  · exact hp'
  · exact Chart.parent_not_leaf hwf (hcb.bound hwf hpn) hc

theorem storeDeepF_tidy {leaf : Sid} (hl : leaf < P.n) : ∀ (f : Nat) (cur : Sid) (m : Mach (W × Log)), Tidy P.toChart st m →
    wlp (storeDeepF P f cur leaf) (fun _ m' => Tidy P.toChart st m') (fun _ m' => Tidy P.toChart st m') m := by
  intro f
  induction f with
  | zero => intro _ m _; trivial
  | succ f ih =>
    intro cur m h
    rw [storeDeepF]
    cases hp : P.parent cur with
    | none => exact h
    | some p =>
      simp only
      split
      · rw [wlp_bind]
        refine wlp_getObj fun o ho => ?_
        rw [wlp_bind]
        refine wlp_mono (Q := fun _ m' => Tidy P.toChart st m') (E := fun _ m' => Tidy P.toChart st m') ?_ (fun _ m1 h1 => ih p m1 h1) (fun _ _ h => h)
        split
        · rw [wlp_bind]
          refine wlp_mono (histNode_tidy hw _ _ _ _ h) ?_ (fun _ _ h => h)
          intro _ m1 h1
          rw [wlp_modify]
          refine h1.same rfl rfl rfl (fun s => h1.ou) rfl rfl (fun _ _ => h1.sh) ?_
          intro k g hg
          replace hg : upd m1.dh (p, P.pos cur) (some (.chain (P.pathBelow (some p) leaf) leaf)) k = some g := hg
          rw [upd_apply] at hg
          split at hg
          · cases hg
            exact ⟨hl, fun x hx => pathBelow_node hwf hl hx⟩
          · exact h1.dh hg
        · exact h
      · exact h

theorem fullExitPart_tidy {s : Sid} (hs : s < P.n) (h : Tidy P.toChart (Stage.of P.toChart s) m) :
    wlp (fullExitPart P s) (fun _ m' => Tidy P.toChart (Stage.of P.toChart s) m') (fun _ m' => Tidy P.toChart (Stage.of P.toChart s) m') m := by
  have hoff : ∀ x, P.isLeaf x = true → ((Stage.of P.toChart s).off = some x ↔ some s = some x) := by
    intro x hl
    show (if P.isLeaf s = true then some s else none) = some x ↔ some s = some x
    split
    · exact Iff.rfl
    · next hs =>
      constructor
      · intro h; cases h
      · intro h; cases h; exact absurd hl hs
  have htop : m.outermost = topOf P.toChart (m.world.2.map (·.2)) := h.top
  unfold fullExitPart
  rw [wlp_bind]
  refine wlp_call (fun v w => hw.exit s v w) ?_ ?_
  · intro w cmds
    have h1 := h.call (o := .exit s) (u' := none) (t' := .exact) rfl (fun x hl _ => hoff x hl) (by simp [Stage.of]) (by intro x; simp [aliveStep, Stage.of]) (by simp) (by simp)
      (by intro x hx; cases hx) (by unfold Mach.terminated; rw [htop]; rfl) (by show m.outermost = _; rw [topOf_snoc, htop]; rfl) w cmds
    generalize (List.foldl Mach.cmd _ cmds).log (.exit s) = m1 at h1 ⊢
    replace h1 : Tidy P.toChart (Stage.of P.toChart s) m1 := h1
    rw [wlp_bind]
    refine wlp_mono (Q := fun _ m' => Tidy P.toChart (Stage.of P.toChart s) m') (E := fun _ m' => Tidy P.toChart (Stage.of P.toChart s) m') ?_ ?_ (fun _ _ h => h)
    · unfold storeShallow
      split
      · cases hp : P.parent s with
        | none => exact h1
        | some p =>
          simp only
          rw [wlp_bind]
          refine wlp_mono (histNode_tidy hw _ _ _ _ h1) ?_ (fun _ _ h => h)
          intro _ m2 h2
          rw [wlp_modify]
          refine h2.same rfl rfl rfl (fun s => h2.ou) rfl rfl ?_ (fun _ _ => h2.dh)
          intro k g hg
          replace hg : upd m2.sh (p, P.pos s) (some (.deep s)) k = some g := hg
          rw [upd_apply] at hg
          split at hg
          · cases hg; exact hs
          · exact h2.sh hg
      · exact h1
    · intro _ m2 h2
      unfold storeDeep
      split
      · exact storeDeepF_tidy hw hwf hs _ _ _ h2
      · exact h2
  · intro x w cmds
    have h1 := h.call (o := .exitFail s) (u' := none) (t' := .exact) rfl (fun x hl _ => hoff x hl) (by simp [Stage.of]) (by intro x; simp [aliveStep, Stage.of]) (by simp) (by simp)
      (by intro x hx; cases hx) (by unfold Mach.terminated; rw [htop]; rfl) (by show m.outermost = _; rw [topOf_snoc, htop]; rfl) w cmds
    exact Tidy.flags h1 rfl rfl rfl rfl rfl rfl rfl rfl

theorem exitF_tidy (full : Bool) : ∀ (f : Nat) (s : Sid) (m : Mach (W × Log)), Tidy P.toChart (Stage.of P.toChart s) m →
    wlp (exitF P f s full) (fun _ m' => Tidy P.toChart {} m') (fun _ m' => Tidy P.toChart {} m') m := by
  intro f
  induction f with
  | zero => intro _ _ _; trivial
  | succ f ih =>
    intro s m h
    rw [exitF, wlp_bind]
    refine wlp_getObj fun o ho => ?_
    have hs := h.bound ho
    rw [wlp_bind, wlp_get]
    by_cases hc : o.rc = 1 ∨ (o.rc = 2 ∧ m.pOU = some s)
    · rw [if_pos hc, wlp_bind]
      refine wlp_mono (Q := fun _ m' => Tidy P.toChart (Stage.of P.toChart s) m') (E := fun _ _ => False) ?_ ?_ (fun _ _ h => h.elim)
      · split
        · exact setCtxOU_tidy hwf h
        · exact h
      intro _ m1 h1
      rw [wlp_bind, wlp_get, wlp_bind]
      refine wlp_mono (Q := fun _ m' => Tidy P.toChart (Stage.of P.toChart s) m') (E := fun _ _ => False) ?_ ?_ (fun _ _ h => h.elim)
      · split
        · exact setCtxOU_tidy hwf h1
        · exact h1
      intro _ m2 h2
      rw [wlp_bind, wlp_onThrow]
      refine wlp_mono (Q := fun _ m' => Tidy P.toChart (Stage.of P.toChart s) m') (E := fun _ m' => Tidy P.toChart (Stage.of P.toChart s) m') ?_ ?_ ?_
      · split
        · exact fullExitPart_tidy hw hwf hs h2
        · exact h2
      · intro _ m3 h3
        cases hp : P.parent s with
        | none => exact release_tidy hw hwf h3
        | some p =>
          have hpl := Chart.parent_not_leaf hwf hs hp
          simp only
          rw [wlp_bind]
          refine wlp_mono (addRef_tidy h3 hpl) ?_ (fun _ _ h => h.elim)
          intro _ m4 h4
          rw [wlp_bind]
          refine wlp_mono (release_tidy hw hwf h4) ?_ (fun _ _ h => h)
          intro _ m5 h5
          exact ih p m5 (by rw [Stage.of_node hpl]; exact h5)
      · intro _ m3 h3
        exact wlp_mono (release_tidy hw hwf h3) (fun _ _ h => h) (fun _ _ _ => trivial)
    · rw [if_neg hc]
      exact release_tidy hw hwf h

theorem exitImpl_tidy (full : Bool) {s : Sid} (h : Tidy P.toChart (Stage.of P.toChart s) m) :
    wlp (exitImpl P s full) (fun _ m' => Tidy P.toChart {} m') (fun _ m' => Tidy P.toChart {} m') m := exitF_tidy hw hwf full _ _ _ h

/-! ## Removal from the list -/

omit hw hwf in
/-- The last node takes the place of the removed leaf (detail/leaf_state.hpp:52-64). -/
theorem Tidy.take (h : Tidy C {} m) {s t : Sid} {o ot : Obj} (ho : m.heap s = some o) (hl : C.isLeaf s = true)
    (he : m.endIx ≠ 0) (ht : m.slot (m.endIx - 1) = some t) (hot : m.heap t = some ot) {i : Nat} (hi : o.lpos = i) :
    Tidy C (Stage.of C s) { m with endIx := m.endIx - 1, heap := upd m.heap t (some { ot with lpos := i }),
                                    slot := upd (upd m.slot i (m.slot (m.endIx - 1))) (m.endIx - 1) none } := by
  subst hi
  have hsl : m.slot o.lpos = some s := h.leaf_in ho hl (by simp)
  have hlt : o.lpos < m.endIx := by
    rcases Nat.lt_or_ge o.lpos m.endIx with hlt | hge
    · exact hlt
    · rw [h.slot_out hge] at hsl; cases hsl
  obtain ⟨t', ot', h1, h2, h3, h4⟩ := h.slot_in (i := m.endIx - 1) (by omega)
  rw [ht] at h1; cases h1
  rw [hot] at h2; cases h2
  have hts : o.lpos = m.endIx - 1 → t = s := by
    intro heq; rw [heq, ht] at hsl; cases hsl; rfl
  have hst : t = s → o.lpos = m.endIx - 1 := by
    intro heq; subst heq; rw [ho] at hot; cases hot; exact h4
  constructor
  · intro x ox hx
    rcases upd_heap_some hx with ⟨rfl, _⟩ | ⟨_, hx⟩
    · exact h.bound hot
    · exact h.bound hx
  · intro i hi
    replace hi : i < m.endIx - 1 := hi
    show ∃ x ox, upd (upd m.slot o.lpos (m.slot (m.endIx - 1))) (m.endIx - 1) none i = some x ∧ upd m.heap t _ x = some ox ∧ _
    rw [upd_other _ _ (by omega : i ≠ m.endIx - 1)]
    by_cases hil : i = o.lpos
    · rw [hil, upd_same, ht]
      exact ⟨t, _, rfl, upd_same _ _ _, h3, rfl⟩
    · rw [upd_other _ _ hil]
      obtain ⟨x, ox, k1, k2, k3, k4⟩ := h.slot_in (i := i) (by omega)
      refine ⟨x, ox, k1, ?_, k3, k4⟩
      rw [upd_other, k2]
      intro hx; subst hx
      rw [hot] at k2; cases k2
      omega
  · intro i hi
    replace hi : m.endIx - 1 ≤ i := hi
    show upd (upd m.slot o.lpos (m.slot (m.endIx - 1))) (m.endIx - 1) none i = none
    by_cases hie : i = m.endIx - 1
    · rw [hie, upd_same]
    · rw [upd_other _ _ hie, upd_other _ _ (by omega)]
      exact h.slot_out (by omega)
  · intro x ox hx hxl hoff
    have hxs : x ≠ s := by
      intro heq; subst heq; apply hoff; simp [Stage.of, hl]
    show upd (upd m.slot o.lpos (m.slot (m.endIx - 1))) (m.endIx - 1) none ox.lpos = some x
    rcases upd_heap_some hx with ⟨rfl, rfl⟩ | ⟨hne, hx⟩
    · rw [upd_other _ _ (fun heq => hxs (hts heq)), upd_same, ht]
    · have hk := h.leaf_in hx hxl (by simp)
      have e1 : ox.lpos ≠ m.endIx - 1 := by
        intro heq; rw [heq, ht] at hk; cases hk; exact hne rfl
      have e2 : ox.lpos ≠ o.lpos := by
        intro heq; rw [heq, hsl] at hk; cases hk; exact hxs rfl
      rw [upd_other _ _ e1, upd_other _ _ e2]; exact hk
  · intro x i hx
    simp only [Stage.of, hl, if_true] at hx
    cases hx
    show upd (upd m.slot o.lpos (m.slot (m.endIx - 1))) (m.endIx - 1) none i ≠ some s
    by_cases hie : i = m.endIx - 1
    · rw [hie, upd_same]; simp
    · rw [upd_other _ _ hie]
      by_cases hil : i = o.lpos
      · rw [hil, upd_same, ht]
        intro heq; cases heq
        exact hie (by rw [hil]; exact hst rfl)
      · rw [upd_other _ _ hil]
        intro heq
        have hlt' : i < m.endIx := by
          rcases Nat.lt_or_ge i m.endIx with hlt' | hge
          · exact hlt'
          · rw [h.slot_out hge] at heq; cases heq
        obtain ⟨y, oy, k1, k2, _, k4⟩ := h.slot_in hlt'
        rw [heq] at k1; cases k1
        rw [ho] at k2; cases k2
        exact hil k4.symm
  · intro x ox hx hxl
    rcases upd_heap_some hx with ⟨rfl, rfl⟩ | ⟨hne, hx⟩
    · exact h.rcl (o := ot) hot hxl
    · exact h.rcl hx hxl
  · exact h.ou
  · intro x
    show (upd m.heap t _ x).isSome = true ↔ _
    rw [upd_apply]
    split
    · next hx =>
      subst hx
      have := (h.live x).1 (by rw [hot]; rfl)
      exact ⟨fun _ => this, fun _ => rfl⟩
    · exact h.live x
  · intro x hx; cases hx
  · intro x hx; cases hx
  · intro x ox hx _
    rcases upd_heap_some hx with ⟨rfl, rfl⟩ | ⟨hne, hx⟩
    · exact h.ctx (o := ot) hot (by simp)
    · exact h.ctx hx (by simp)
  · intro x ox _ he; cases he
  · exact h.logged
  · exact h.seen
  · exact h.sh
  · exact h.dh
  · exact h.top

theorem leafRemove_tidy (full : Bool) {s : Sid} (hl : P.isLeaf s = true) (h : Tidy P.toChart {} m) :
    wlp (leafRemove P s full) (fun _ m' => Tidy P.toChart {} m') (fun _ m' => Tidy P.toChart {} m') m := by
  unfold leafRemove
  rw [wlp_bind, wlp_get]
  by_cases he : m.endIx = 0
  · rw [if_pos he]; trivial
  rw [if_neg he, wlp_bind, wlp_modify, wlp_bind]
  refine wlp_getObj fun o ho => ?_
  replace ho : m.heap s = some o := ho
  by_cases hlen : o.lpos < m.len
  · rw [if_pos hlen, wlp_bind, wlp_modify, wlp_bind, wlp_get]
    simp only
    have hsl : m.slot o.lpos = some s := h.leaf_in ho hl (by simp)
    obtain ⟨t, ot, h1, h2, h3, h4⟩ := h.slot_in (i := m.endIx - 1) (by omega)
    have hsw : upd (upd m.slot o.lpos (m.slot (m.endIx - 1))) (m.endIx - 1) (m.slot o.lpos) o.lpos = some t := by
      rw [upd_apply]
      split
      · next heq => rw [hsl, ← h1, ← heq, hsl]
      · rw [upd_same, h1]
    rw [hsw]
    simp only
    rw [wlp_bind]
    refine wlp_getObj fun ot' hot' => ?_
    replace hot' : m.heap t = some ot' := hot'
    rw [h2] at hot'; cases hot'
    rw [wlp_bind, wlp_setObj, wlp_bind]
    unfold takeSlot
    rw [wlp_bind, wlp_get]
    simp only [upd_same, hsl]
    rw [wlp_bind, wlp_modify, wlp_pure]
    refine exitImpl_tidy hw hwf full ?_
    have := h.take ho hl he h1 h2 rfl
    simp only [upd_upd] at this ⊢
    exact this
  · rw [if_neg hlen]; trivial

theorem removeF_tidy (full : Bool) : ∀ (f : Nat) (s : Sid) (m : Mach (W × Log)), Tidy P.toChart {} m →
    wlp (removeF P f s full) (fun _ m' => Tidy P.toChart {} m') (fun _ m' => Tidy P.toChart {} m') m := by
  intro f
  induction f with
  | zero => intro _ _ _; trivial
  | succ f ih =>
    intro s m h
    rw [removeF, wlp_bind]
    refine wlp_getObj fun o ho => ?_
    by_cases hl : P.isLeaf s = true
    · rw [if_pos hl]; exact leafRemove_tidy hw hwf full hl h
    rw [if_neg hl]
    have hl' : P.isLeaf s = false := by simpa using hl
    cases hf : (List.range (P.regions (some s))).find? (fun i => (o.inner i).isSome) with
    | none =>
      simp only
      rw [wlp_bind, wlp_get]
      by_cases hp : m.pOU = some s
      · rw [if_pos hp, wlp_bind]
        refine wlp_mono (addRef_tidy h hl') ?_ (fun _ _ h => h.elim)
        intro _ m1 h1
        exact exitImpl_tidy hw hwf full (by rw [Stage.of_node hl']; exact h1)
      · rw [if_neg hp]; trivial
    | some k =>
      simp only
      have loop : ∀ (l : List Nat) (m : Mach (W × Log)), Tidy P.toChart {} m →
          wlp (removeLoop (fun c => removeF P f c full) s l) (fun _ m' => Tidy P.toChart {} m') (fun _ m' => Tidy P.toChart {} m') m := by
        intro l
        induction l with
        | nil => intro m h; exact h
        | cons i is ihl =>
          intro m h
          rw [removeLoop, wlp_bind]
          refine wlp_getObj fun o ho => ?_
          rw [wlp_bind]
          refine wlp_mono (Q := fun _ m' => Tidy P.toChart {} m') (E := fun _ m' => Tidy P.toChart {} m') ?_ (fun _ m1 h1 => ihl m1 h1) (fun _ _ h => h)
          cases o.inner i with
          | none => exact h
          | some c => exact ih c m h
      exact loop _ m h

theorem terminateState_tidy (full : Bool) (s : Sid) (h : Tidy P.toChart {} m) :
    wlp (terminateState P s full) (fun _ m' => Tidy P.toChart {} m') (fun _ m' => Tidy P.toChart {} m') m := by
  unfold terminateState
  rw [wlp_bind, wlp_modify, wlp_bind, wlp_get]
  have h0 : Tidy P.toChart {} { m with ico := false } := h.flags rfl rfl rfl rfl rfl rfl rfl rfl
  generalize ({ m with ico := false } : Mach (W × Log)) = m0 at h0
  by_cases h1 : m0.pOU ≠ none
  · rw [if_pos h1]; exact removeF_tidy hw hwf full _ _ _ h0
  rw [if_neg h1]
  by_cases h2 : m0.endIx = 0
  · rw [if_pos h2]; trivial
  rw [if_neg h2]
  by_cases h3 : m0.endIx = 1
  · rw [if_pos h3, wlp_bind, wlp_modify, wlp_bind]
    unfold takeSlot
    rw [wlp_bind, wlp_get]
    obtain ⟨t, ot, k1, k2, k3, k4⟩ := h0.slot_in (i := 0) (by omega)
    simp only [k1]
    rw [wlp_bind, wlp_modify, wlp_pure]
    refine exitImpl_tidy hw hwf full ?_
    have := h0.take (s := t) (t := t) k2 k3 h2 (by rw [h3]; exact k1) k2 k4
    simp only [h3, k1] at this
    have e1 : upd m0.heap t (some { ot with lpos := 0 }) = m0.heap := by
      rw [show ({ ot with lpos := 0 } : Obj) = ot by rw [← k4], ← k2]; exact upd_self _ _
    rw [e1] at this
    simpa only [Nat.sub_self, upd_upd] using this
  · rw [if_neg h3]
    split
    · exact removeF_tidy hw hwf full _ _ _ h0
    · trivial

theorem terminateMachine_tidy (full : Bool) (h : Tidy P.toChart {} m) :
    wlp (terminateMachine P full) (fun _ m' => Tidy P.toChart {} m') (fun _ m' => Tidy P.toChart {} m') m := by
  have hclear : ∀ m : Mach (W × Log), Tidy P.toChart {} m → wlp clearAll (fun _ m' => Tidy P.toChart {} m') (fun _ m' => Tidy P.toChart {} m') m := by
    intro m h
    refine h.same rfl rfl rfl (fun _ => h.ou) rfl rfl ?_ ?_ <;> intro _ _ hx <;> cases hx
  unfold terminateMachine
  rw [wlp_bind, wlp_modify, wlp_bind, wlp_get, wlp_bind]
  have h0 : Tidy P.toChart {} { m with fullExit := true } := h.flags rfl rfl rfl rfl rfl rfl rfl rfl
  generalize ({ m with fullExit := true } : Mach (W × Log)) = m0 at h0
  refine wlp_mono (Q := fun _ m' => Tidy P.toChart {} m') (E := fun _ m' => Tidy P.toChart {} m') ?_ (fun _ m1 h1 => hclear m1 h1) (fun _ _ h => h)
  cases m0.outermost with
  | none => exact h0
  | some s => exact terminateState_tidy hw hwf full s h0

/-! ## Construction -/

/-- `s` is being constructed, with `k` references. -/
abbrev Stage.con (C : Chart) (s : Sid) (k : Nat) (u nc : Option Sid) (t : Top := .exact) : Stage :=
  { off := if C.isLeaf s then some s else none, unborn := u, noctx := nc, rcs := upd (fun _ => 1) s k, top := t }

omit hw hwf in
theorem Tidy.con_one {s : Sid} (h : Tidy C (Stage.con C s 1 none none) m) : Tidy C (Stage.of C s) m :=
  h.rcs_congr (rcs' := fun _ => 1) fun x _ => by
    show 1 = upd (fun _ => 1) s 1 x
    rw [upd_apply]; split <;> rfl

omit hw hwf in
theorem addRef_con {s : Sid} {k : Nat} {u nc : Option Sid} {t : Top} (h : Tidy C (Stage.con C s k u nc t) m) :
    wlp (addRef s) (fun _ m' => Tidy C (Stage.con C s (k + 1) u nc t) m') (fun _ _ => False) m := by
  unfold addRef
  rw [wlp_bind]
  refine wlp_getObj fun o ho => ?_
  rw [wlp_setObj]
  refine h.upd' (o' := { o with rc := o.rc + 1 }) (rcs' := upd (fun _ => 1) s (k + 1)) (nc' := nc) ho rfl ?_ ?_ (fun _ _ h => h) (fun hn => show o.ctxSet = true from h.ctx ho hn) (.inr ⟨rfl, rfl⟩)
  · intro x hx _
    show _ = upd (fun _ => 1) s k x
    rw [upd_other _ _ hx, upd_other _ _ hx]
  · intro hl
    show o.rc + 1 = _
    rw [upd_same, h.rcl ho hl]
    show upd (fun _ => 1) s k s + 1 = _
    rw [upd_same]

omit hw in
theorem setContext_tidy {s : Sid} (hs : s < P.n) {k : Nat} {u : Option Sid} {t t' : Top}
    (ht : (t = .exact ∧ t' = Top.only P.toChart s (.is s)) ∨ (t = Top.only P.toChart s (.due (some s)) ∧ t' = .exact))
    (h : Tidy P.toChart (Stage.con P.toChart s k u (some s) t) m) :
    wlp (setContext P s) (fun _ m' => Tidy P.toChart (Stage.con P.toChart s k u none t') m') (fun _ _ => False) m := by
  unfold setContext
  rw [wlp_bind]
  refine wlp_mono (Q := fun _ m' => Tidy P.toChart (Stage.con P.toChart s k u (some s) t) m') (E := fun _ _ => False) ?_ ?_ (fun _ _ h => h)
  · cases hp : P.parent s with
    | none => exact h
    | some p => exact addRef_tidy h (Chart.parent_not_leaf hwf hs hp)
  intro _ m1 h1
  rw [wlp_bind]
  refine wlp_getObj fun o ho => ?_
  rw [wlp_bind, wlp_setObj]
  have h2 := h1.upd' (s := s) (o' := { o with ctxSet := true }) (rcs' := upd (fun _ => 1) s k) (nc' := none) ho rfl (fun _ _ _ => rfl)
    (fun hl => show o.rc = _ from h1.rcl ho hl) (fun x hx _ => by intro heq; cases heq; exact hx rfl) (fun _ => rfl) (.inl rfl)
  generalize ({ m1 with heap := upd m1.heap s (some { o with ctxSet := true }) } : Mach (W × Log)) = m2 at h2
  unfold addInner
  cases hp : P.parent s with
  | none =>
    simp only
    split
    · rcases ht with ⟨_, rfl⟩ | ⟨rfl, rfl⟩
      · refine Tidy.setTop h2 rfl rfl rfl rfl rfl rfl rfl rfl ?_
        unfold Top.only; rw [if_pos hp]; rfl
      · refine Tidy.setTop h2 rfl rfl rfl rfl rfl rfl rfl rfl ?_
        have h3 := h2.top
        replace h3 : (Top.only P.toChart s (.due (some s))).holds _ _ _ := h3
        unfold Top.only at h3; rw [if_pos hp] at h3
        exact Eq.symm h3
    · trivial
  | some p =>
    simp only
    rw [wlp_bind]
    refine wlp_getObj fun op hop => ?_
    have he : t' = t := by
      have hn : ∀ t, Top.only P.toChart s t = .exact := fun t => by unfold Top.only; rw [if_neg (by rw [hp]; simp)]
      rcases ht with ⟨rfl, rfl⟩ | ⟨rfl, rfl⟩
      · exact hn _
      · exact (hn _).symm
    split
    · rw [wlp_setObj, he]
      exact h2.updNode hop (Chart.parent_not_leaf hwf hs hp) rfl rfl
    · trivial

omit hwf in
theorem runCtor_tidy {s : Sid} {nc : Option Sid} {t t1 t2 : Top}
    (hn : (P.isSimple s = false ∧ nc = none ∧ t = Top.only P.toChart s (.is s) ∧ t1 = .exact ∧ t2 = Top.only P.toChart s (.due none)) ∨
      (P.isSimple s = true ∧ nc = some s ∧ t = .exact ∧ t1 = Top.only P.toChart s (.due (some s)) ∧ t2 = .exact))
    (h : Tidy P.toChart (Stage.con P.toChart s 0 (some s) nc t) m) :
    wlp (runCtor P s) (fun _ m' => Tidy P.toChart (Stage.con P.toChart s 0 none nc t1) m')
      (fun _ m' => Tidy P.toChart (Stage.con P.toChart s 0 (some s) nc t2) m') m := by
  have htop : t.holds P.toChart (m.world.2.map (·.2)) m.outermost := h.top
  have hk : ∀ x, some s = some x → some s = some x ∧ (P.isSimple x = true ↔ nc = some x) := by
    rintro x ⟨⟩
    refine ⟨rfl, ?_⟩
    rcases hn with ⟨h0, h1, _⟩ | ⟨h0, h1, _⟩ <;> rw [h0, h1] <;> simp
  have hterm : ∀ o, making o = some s → m.terminated = termSeen P.toChart (m.world.2.map (·.2)) o := by
    intro o ho
    unfold termSeen Mach.terminated
    rw [ho]
    simp only
    rcases hn with ⟨h1, _, rfl, _⟩ | ⟨h1, _, rfl, _⟩
    · unfold Top.only at htop
      by_cases hp : P.parent s = none
      · rw [if_pos hp] at htop
        rw [show m.outermost = some s from htop, if_pos ⟨hp, h1⟩]; rfl
      · rw [if_neg hp] at htop
        rw [if_neg fun h => hp h.1, ← show m.outermost = topOf _ _ from htop]
    · rw [if_neg (by rw [h1]; simp), ← show m.outermost = topOf _ _ from htop]
  have ht1 : t1.holds P.toChart (m.world.2.map (·.2) ++ [.enter s]) m.outermost := by
    rcases hn with ⟨h1, _, rfl, rfl, rfl⟩ | ⟨h1, _, rfl, rfl, rfl⟩
    · unfold Top.only at htop
      by_cases hp : P.parent s = none
      · rw [if_pos hp] at htop
        show m.outermost = topOf _ _
        rw [show m.outermost = some s from htop, topOf_snoc]
        simp [topStep, hp]
      · rw [if_neg hp] at htop
        show m.outermost = topOf _ _
        rw [topOf_snoc, ← show m.outermost = topOf _ _ from htop]
        simp [topStep, hp]
    · unfold Top.only
      by_cases hp : P.parent s = none
      · rw [if_pos hp]
        show topOf _ _ = some s
        rw [topOf_snoc]
        simp [topStep, hp]
      · rw [if_neg hp]
        show m.outermost = topOf _ _
        rw [topOf_snoc, ← show m.outermost = topOf _ _ from htop]
        simp [topStep, hp]
  have ht2 : t2.holds P.toChart (m.world.2.map (·.2) ++ [.enterFail s]) m.outermost := by
    rcases hn with ⟨h1, _, rfl, rfl, rfl⟩ | ⟨h1, _, rfl, rfl, rfl⟩
    · unfold Top.only at htop ⊢
      by_cases hp : P.parent s = none
      · rw [if_pos hp]
        show topOf _ _ = none
        rw [topOf_snoc]
        simp [topStep, hp, h1]
      · rw [if_neg hp] at htop ⊢
        show m.outermost = topOf _ _
        rw [topOf_snoc, ← show m.outermost = topOf _ _ from htop]
        simp [topStep, hp]
    · show m.outermost = topOf _ _
      rw [topOf_snoc, ← show m.outermost = topOf _ _ from htop]
      simp [topStep, h1]
  replace hn : nc = none ∨ nc = some s := by
    rcases hn with h | h
    · exact .inl h.2.1
    · exact .inr h.2.1
  have hd : alive (m.world.2.map (·.2)) s = false := h.unborn rfl
  have hoff : ∀ x, P.isLeaf x = true → alive (m.world.2.map (·.2)) x = true → ((Stage.con P.toChart s 0 (some s) nc t).off = some x ↔ none = some x) := by
    intro x _ ha
    show (if P.isLeaf s = true then some s else none) = some x ↔ _
    split
    · constructor
      · intro heq; cases heq; rw [hd] at ha; cases ha
      · intro heq; cases heq
    · exact Iff.rfl
  have hnc : ∀ x, alive (m.world.2.map (·.2)) x = true → (Stage.con P.toChart s 0 (some s) nc t).noctx ≠ some x := by
    intro x ha heq
    replace heq : nc = some x := heq
    rcases hn with hn | hn <;> rw [hn] at heq <;> cases heq
    rw [hd] at ha; cases ha
  have hb : wlp (runUser (P.ctor s) [.enter s] [.enterFail s]) (fun _ m' => Tidy P.toChart (Stage.con P.toChart s 0 none nc t1) m')
      (fun _ m' => Tidy P.toChart (Stage.con P.toChart s 0 (some s) nc t2) m') m := by
    refine wlp_call (fun v w => hw.ctor s v w) ?_ ?_
    · intro w cmds
      exact h.call (o := .enter s) (u' := none) rfl hoff hnc
        (by
          intro x
          simp only [aliveStep]
          split
          · next he => subst he; simp
          · next he => simp [show s ≠ x from fun h => he h.symm])
        (by simp) (by simp) hk (hterm _ rfl) ht1 w cmds
    · intro x w cmds
      have := h.call (o := .enterFail s) (u' := some s) rfl hoff hnc (fun x => Iff.rfl)
        (by intro x hx; cases hx; exact hd) (fun x hx hl => h.unborn_off hx hl) hk (hterm _ rfl) ht2 w cmds
      exact Tidy.flags this rfl rfl rfl rfl rfl rfl rfl rfl
  by_cases hc : P.isSimple s = true ∧ (P.ctor s m.view m.world).cmds ≠ []
  · have : runCtor P s m = .fault .assertFail := by unfold runCtor; exact if_pos hc
    unfold wlp; rw [this]; trivial
  · have : runCtor P s m = runUser (P.ctor s) [.enter s] [.enterFail s] m := by unfold runCtor; exact if_neg hc
    unfold wlp at hb ⊢; rw [this]; exact hb

theorem failed_ctor_tidy {s : Sid} {nc : Option Sid} {t : Top} (hn : (nc = none ∧ t = Top.only P.toChart s (.due none)) ∨ (nc = some s ∧ t = .exact))
    (h : Tidy P.toChart (Stage.con P.toChart s 0 (some s) nc t) m) :
    wlp (baseDtor P (release P) s) (fun _ m' => Tidy P.toChart {} m') (fun _ _ => True) m := by
  refine wlp_mono (baseDtor_tidy hwf (fun p m hp hm => release_tidy hw hwf (by rw [Stage.of_node hp]; exact hm)) h rfl ?_ (hn.imp (·.1) (·.1)) ?_ ?_) (fun _ _ h => h) (fun _ _ _ => trivial)
  · show (if P.isLeaf s = true then some s else none) = none ∨ (if P.isLeaf s = true then some s else none) = some s
    split
    · exact .inr rfl
    · exact .inl rfl
  · intro x hx; exact upd_other (fun _ => 1) 0 hx
  · rcases hn with ⟨rfl, rfl⟩ | ⟨rfl, rfl⟩
    · show (Top.only P.toChart s (.due none) = .exact ∧ _) ∨ (_ ∧ _ ∧ Top.only P.toChart s (.due none) = _)
      unfold Top.only
      split
      · next hp => exact .inr ⟨hp, rfl, rfl⟩
      · next hp => exact .inl ⟨rfl, fun h => absurd h hp⟩
    · exact .inl ⟨rfl, fun _ => rfl⟩

/-- The stage in which the construction of a state ends. -/
def Stage.built (C : Chart) (s : Sid) : Stage := { rcs := if C.isLeaf s then upd (fun _ => 1) s 2 else fun _ => 1 }

omit hwf in
theorem addLeaf_tidy {s : Sid} (hl : P.isLeaf s = true) (h : Tidy P.toChart (Stage.of P.toChart s) m) :
    wlp (addLeaf P s) (fun _ m' => Tidy P.toChart { rcs := upd (fun _ => 1) s 2 } m') (fun _ m' => Tidy P.toChart (Stage.of P.toChart s) m') m := by
  have hof : Stage.of P.toChart s = { off := some s } := by unfold Stage.of; rw [hl]; rfl
  have rest : ∀ m1 : Mach (W × Log), m1.endIx = m.endIx → m1.slot = m.slot → Tidy P.toChart (Stage.of P.toChart s) m1 →
      wlp (addRef s >>= fun _ => getObj s >>= fun o => setObj s { o with lpos := m.endIx } >>= fun _ =>
        M.modify fun m => { m with slot := upd m.slot m.endIx (some s), endIx := m.endIx + 1 })
        (fun _ m' => Tidy P.toChart { rcs := upd (fun _ => 1) s 2 } m') (fun _ m' => Tidy P.toChart (Stage.of P.toChart s) m') m1 := by
    intro m1 he hsl h1
    have h1' : Tidy P.toChart (Stage.con P.toChart s 1 none none) m1 := by
      have := h1.rcs_congr (rcs' := upd (fun _ => 1) s 1) (fun x _ => by show _ = 1; rw [upd_apply]; split <;> rfl)
      exact this
    rw [wlp_bind]
    refine wlp_mono (wlp_eq (addRef_con h1')) ?_ (fun _ _ h => h.1.elim)
    rintro _ m2 ⟨h2, hr⟩
    rw [wlp_bind]
    refine wlp_getObj fun o ho => ?_
    rw [wlp_bind, wlp_setObj, wlp_modify]
    have e2 : m2.endIx = m.endIx ∧ m2.slot = m.slot := by
      unfold addRef at hr
      replace hr : M.bnd (getObj s) _ m1 = _ := hr
      unfold M.bnd getObj at hr
      cases hs : m1.heap s with
      | none => rw [hs] at hr; cases hr
      | some o1 => rw [hs] at hr; cases hr; exact ⟨he, hsl⟩
    have hoff : (Stage.con P.toChart s 2 none none).off = some s := by show (if P.isLeaf s = true then some s else none) = _; rw [hl]; rfl
    constructor
    · intro x ox hx
      rcases upd_heap_some hx with ⟨rfl, _⟩ | ⟨_, hx⟩
      · exact h2.bound ho
      · exact h2.bound hx
    · intro i hi
      replace hi : i < m2.endIx + 1 := hi
      show ∃ x ox, upd m2.slot m2.endIx (some s) i = some x ∧ upd m2.heap s (some { o with lpos := m.endIx }) x = some ox ∧ _
      by_cases hie : i = m2.endIx
      · rw [hie, upd_same]
        exact ⟨s, _, rfl, upd_same _ _ _, hl, e2.1.symm⟩
      · rw [upd_other _ _ hie]
        obtain ⟨x, ox, k1, k2, k3, k4⟩ := h2.slot_in (i := i) (by omega)
        refine ⟨x, ox, k1, ?_, k3, k4⟩
        rw [upd_other, k2]
        intro hx; subst hx
        exact h2.off_out hoff k1
    · intro i hi
      replace hi : m2.endIx + 1 ≤ i := hi
      show upd m2.slot m2.endIx (some s) i = none
      rw [upd_other _ _ (by omega)]
      exact h2.slot_out (by omega)
    · intro x ox hx hxl _
      show upd m2.slot m2.endIx (some s) ox.lpos = some x
      rcases upd_heap_some hx with ⟨rfl, rfl⟩ | ⟨hne, hx⟩
      · rw [show ({ o with lpos := m.endIx } : Obj).lpos = m2.endIx from e2.1.symm, upd_same]
      · have hk := h2.leaf_in hx hxl (by rw [hoff]; intro h; cases h; exact hne rfl)
        rw [upd_other, hk]
        intro heq
        rw [heq, h2.slot_out (Nat.le_refl _)] at hk; cases hk
    · intro x i hx; cases hx
    · intro x ox hx hxl
      rcases upd_heap_some hx with ⟨rfl, rfl⟩ | ⟨hne, hx⟩
      · exact h2.rcl (o := o) ho hxl
      · exact h2.rcl hx hxl
    · exact h2.ou
    · intro x
      show (upd m2.heap s _ x).isSome = true ↔ _
      rw [upd_apply]
      split
      · next hx =>
        subst hx
        have := (h2.live x).1 (by rw [ho]; rfl)
        exact ⟨fun _ => this, fun _ => rfl⟩
      · exact h2.live x
    · intro x hx; cases hx
    · intro x hx; cases hx
    · intro x ox hx _
      rcases upd_heap_some hx with ⟨rfl, rfl⟩ | ⟨hne, hx⟩
      · exact h2.ctx (o := o) ho (by simp)
      · exact h2.ctx hx (by simp)
    · intro x ox _ he; cases he
    · exact h2.logged
    · exact h2.seen
    · exact h2.sh
    · exact h2.dh
    · exact h2.top
  unfold addLeaf
  rw [wlp_bind, wlp_get]
  have hnone := h.slot_out (Nat.le_refl m.endIx)
  rw [wlp_bind]
  refine wlp_mono (Q := fun _ m1 => m1.endIx = m.endIx ∧ m1.slot = m.slot ∧ Tidy P.toChart (Stage.of P.toChart s) m1)
    (E := fun _ m1 => Tidy P.toChart (Stage.of P.toChart s) m1) ?_ ?_ (fun _ _ h => h)
  · split
    · rw [wlp_bind]
      refine wlp_mono (wlp_eq (allocate_tidy hw _ h)) ?_ (fun _ _ h => h.1)
      rintro _ m1 ⟨h1, hr⟩
      rw [wlp_modify]
      have e : m1.endIx = m.endIx ∧ m1.slot = m.slot := by
        unfold allocate at hr
        split at hr <;> cases hr
        exact ⟨rfl, rfl⟩
      exact ⟨e.1, e.2, h1.flags rfl rfl rfl rfl rfl rfl rfl rfl⟩
    · exact ⟨rfl, rfl, h⟩
  · rintro _ m1 ⟨e1, e2, h1⟩
    rw [hnone, wlp_bind]
    exact rest m1 e1 e2 h1

theorem shallowConstruct_tidy {s : Sid} (hs : s < P.n) (h : Tidy P.toChart {} m) :
    wlp (shallowConstruct P s) (fun _ m' => Tidy P.toChart (Stage.built P.toChart s) m') (fun _ m' => Tidy P.toChart {} m') m := by
  unfold shallowConstruct
  rw [wlp_bind]
  refine wlp_mono (allocate_tidy hw _ h) ?_ (fun _ _ h => h)
  intro _ m1 h1
  rw [wlp_bind, wlp_get]
  by_cases hh : (m1.heap s).isSome = true
  · rw [if_pos hh]; trivial
  rw [if_neg hh, wlp_bind, wlp_setObj]
  have hnone : m1.heap s = none := by
    cases hx : m1.heap s with
    | none => rfl
    | some o => rw [hx] at hh; exact absurd rfl hh
  have hdead : alive (m1.world.2.map (·.2)) s = false := by
    cases ha : alive (m1.world.2.map (·.2)) s with
    | false => rfl
    | true => exact absurd ((h1.live s).2 (.inl ha)) hh
  have h2 : Tidy P.toChart (Stage.con P.toChart s 0 (some s) (some s)) { m1 with heap := upd m1.heap s (some newObj) } := by
    have hne : ∀ i, m1.slot i ≠ some s := by
      intro i hi
      rcases Nat.lt_or_ge i m1.endIx with hlt | hge
      · obtain ⟨x, ox, k1, k2, _⟩ := h1.slot_in hlt
        rw [hi] at k1; cases k1
        rw [hnone] at k2; cases k2
      · rw [h1.slot_out hge] at hi; cases hi
    constructor
    · intro x ox hx
      rcases upd_heap_some hx with ⟨rfl, _⟩ | ⟨_, hx⟩
      · exact hs
      · exact h1.bound hx
    · intro i hi
      obtain ⟨x, ox, k1, k2, k3, k4⟩ := h1.slot_in hi
      refine ⟨x, ox, k1, ?_, k3, k4⟩
      show upd m1.heap s _ x = _
      rw [upd_other, k2]
      intro hx; subst hx; exact hne _ k1
    · exact h1.slot_out
    · intro x ox hx hl hoff
      rcases upd_heap_some hx with ⟨rfl, _⟩ | ⟨_, hx⟩
      · exact absurd (show (if P.isLeaf x = true then some x else none) = some x by rw [hl]; rfl) hoff
      · exact h1.leaf_in hx hl (by simp)
    · intro x i hx
      replace hx : (if P.isLeaf s = true then some s else none) = some x := hx
      split at hx
      · cases hx; exact hne i
      · cases hx
    · intro x ox hx hl
      rcases upd_heap_some hx with ⟨rfl, rfl⟩ | ⟨hxs, hx⟩
      · exact (upd_same (fun _ => 1) x 0).symm
      · rw [h1.rcl hx hl]; exact (upd_other (fun _ => 1) 0 hxs).symm
    · exact h1.ou
    · intro x
      show (upd m1.heap s (some newObj) x).isSome = true ↔ (_ ∨ some s = some x)
      rw [upd_apply]
      split
      · next hx => subst hx; simp
      · next hx =>
        rw [h1.live x]
        simp [show s ≠ x from fun h => hx h.symm]
    · intro x hx; cases hx; exact hdead
    · intro x hx hl; cases hx
      show (if P.isLeaf s = true then some s else none) = _
      rw [hl]; rfl
    · intro x ox hx hn
      rcases upd_heap_some hx with ⟨rfl, rfl⟩ | ⟨hxs, hx⟩
      · exact absurd rfl hn
      · exact h1.ctx hx (by simp)
    · intro x ox hx hn
      cases hn
      rcases upd_heap_some hx with ⟨_, rfl⟩ | ⟨hxs, _⟩
      · rfl
      · exact absurd rfl hxs
    · exact h1.logged
    · exact h1.seen
    · exact h1.sh
    · exact h1.dh
    · exact h1.top
  generalize ({ m1 with heap := upd m1.heap s (some newObj) } : Mach (W × Log)) = m2 at h2
  rw [wlp_bind]
  refine wlp_mono (Q := fun _ m' => Tidy P.toChart (Stage.of P.toChart s) m') (E := fun _ m' => Tidy P.toChart {} m') ?_ ?_ (fun _ _ h => h)
  · by_cases hsi : P.isSimple s = true
    · rw [if_pos hsi, wlp_bind, wlp_onThrow]
      refine wlp_mono (runCtor_tidy hw (.inr ⟨hsi, rfl, rfl, rfl, rfl⟩) h2) ?_ (fun _ m3 h3 => failed_ctor_tidy hw hwf (.inr ⟨rfl, rfl⟩) h3)
      intro _ m3 h3
      rw [wlp_bind]
      refine wlp_mono (addRef_con h3) ?_ (fun _ _ h => h.elim)
      intro _ m4 h4
      exact wlp_mono (setContext_tidy hwf hs (.inr ⟨rfl, rfl⟩) h4) (fun _ _ h => h.con_one) (fun _ _ h => h.elim)
    · rw [if_neg hsi, wlp_bind]
      refine wlp_mono (setContext_tidy hwf hs (.inl ⟨rfl, rfl⟩) h2) ?_ (fun _ _ h => h.elim)
      intro _ m3 h3
      rw [wlp_bind, wlp_onThrow]
      refine wlp_mono (runCtor_tidy hw (.inl ⟨by simpa using hsi, rfl, rfl, rfl, rfl⟩) h3) ?_ (fun _ m3 h3 => failed_ctor_tidy hw hwf (.inl ⟨rfl, rfl⟩) h3)
      intro _ m4 h4
      exact wlp_mono (addRef_con h4) (fun _ _ h => h.con_one) (fun _ _ h => h.elim)
  · intro _ m3 h3
    rw [wlp_onThrow]
    refine wlp_mono (Q := fun _ m' => Tidy P.toChart (Stage.built P.toChart s) m') (E := fun _ m' => Tidy P.toChart (Stage.of P.toChart s) m') ?_ (fun _ _ h => h)
      (fun _ m4 h4 => wlp_mono (release_tidy hw hwf h4) (fun _ _ h => h) (fun _ _ _ => trivial))
    unfold addToMachine
    rw [wlp_bind]
    refine wlp_mono (Q := fun _ m' => Tidy P.toChart (Stage.built P.toChart s) m') (E := fun _ m' => Tidy P.toChart (Stage.of P.toChart s) m') ?_ ?_ (fun _ _ h => h)
    · by_cases hl : P.isLeaf s = true
      · rw [if_pos hl]
        have : Stage.built P.toChart s = { rcs := upd (fun _ => 1) s 2 } := by unfold Stage.built; rw [if_pos hl]
        rw [this]
        exact addLeaf_tidy hw hl h3
      · rw [if_neg hl]
        have hl' : P.isLeaf s = false := by simpa using hl
        have : Stage.built P.toChart s = {} := by unfold Stage.built; rw [if_neg hl]
        rw [wlp_pure, this, ← Stage.of_node hl']; exact h3
    · intro _ m4 h4
      rw [wlp_bind, wlp_get]
      split
      · rw [wlp_bind, wlp_modify]
        have h5 : Tidy P.toChart (Stage.built P.toChart s) { m4 with ico := false } := h4.flags rfl rfl rfl rfl rfl rfl rfl rfl
        refine wlp_mono (setOU_tidy h5 ?_) (fun _ _ h => h) (fun _ _ h => h.elim)
        intro p hp
        split at hp
        · cases hp
        · next hl => cases hp; simpa using hl
      · exact h4

/-- What is needed of a construction task. -/
def Task.within (C : Chart) : Task → Prop
  | .deep s => s < C.n
  | .target t => t.st < C.n
  | .chain cs t => t.st < C.n ∧ ∀ x ∈ cs, x < C.n ∧ C.isLeaf x = false
  | .inners l => ∀ t ∈ l, t.st < C.n

theorem release_built {s : Sid} (h : Tidy P.toChart (Stage.built P.toChart s) m) :
    wlp (release P s) (fun _ m' => Tidy P.toChart {} m') (fun _ m' => Tidy P.toChart {} m') m := by
  by_cases hl : P.isLeaf s = true
  · have he : Stage.built P.toChart s = { rcs := upd (fun _ => 1) s 2 } := by unfold Stage.built; rw [if_pos hl]
    rw [he] at h
    unfold release
    rw [releaseF, wlp_bind]
    refine wlp_getObj fun o ho => ?_
    have hrc : o.rc = 2 := by rw [h.rcl ho hl]; exact upd_same (fun _ => 1) s 2
    rw [if_neg (by omega), if_neg (by omega), wlp_setObj]
    refine h.upd' (o' := { o with rc := o.rc - 1 }) (rcs' := fun _ => 1) (nc' := none) ho rfl ?_ ?_ (fun _ _ h => h) (fun hn => show o.ctxSet = true from h.ctx ho hn) (.inl rfl)
    · intro x hx _; exact (upd_other (fun _ => 1) 2 hx).symm
    · intro _; show o.rc - 1 = 1; omega
  · have hl' : P.isLeaf s = false := by simpa using hl
    have he : Stage.built P.toChart s = {} := by unfold Stage.built; rw [if_neg hl]
    refine release_tidy hw hwf ?_
    rw [Stage.of_node hl', ← he]; exact h

theorem build_tidy : ∀ (f : Nat) (t : Task) (m : Mach (W × Log)), t.within P.toChart → Tidy P.toChart {} m →
    wlp (build P f t) (fun _ m' => Tidy P.toChart {} m') (fun _ m' => Tidy P.toChart {} m') m := by
  have hinit : ∀ {s}, s < P.n → ∀ t ∈ P.init s, t.st < P.n := fun hs t ht => (init_mem hwf hs t ht).1
  intro f
  induction f with
  | zero => intro _ _ _ _; rw [build]; trivial
  | succ f ih =>
    intro t m ht h
    cases t with
    | deep s =>
      rw [build, wlp_bind]
      refine wlp_mono (shallowConstruct_tidy hw hwf ht h) ?_ (fun _ _ h => h)
      intro _ m1 h1
      refine wlp_finally ?_
      refine wlp_mono (Q := fun _ m' => Tidy P.toChart (Stage.built P.toChart s) m') (E := fun _ m' => Tidy P.toChart (Stage.built P.toChart s) m') ?_
        (fun _ m2 h2 => release_built hw hwf h2) (fun _ m2 h2 => wlp_mono (release_built hw hwf h2) (fun _ _ h => h) (fun _ _ _ => trivial))
      by_cases hl : P.isLeaf s = true
      · rw [Chart.isLeaf_iff.1 hl]
        cases f with
        | zero => rw [build]; trivial
        | succ f => rw [build]; exact h1
      · have he : Stage.built P.toChart s = {} := by unfold Stage.built; rw [if_neg hl]
        rw [he] at h1 ⊢
        exact ih _ m1 (hinit ht) h1
    | inners l =>
      cases l with
      | nil => rw [build]; exact h
      | cons t ts =>
        rw [build, wlp_bind]
        refine wlp_mono (ih (.target t) m (ht t List.mem_cons_self) h) ?_ (fun _ _ h => h)
        intro _ m1 h1
        exact ih _ m1 (fun x hx => ht x (List.mem_cons_of_mem _ hx)) h1
    | target t =>
      obtain ⟨k, d⟩ := t
      rw [build, wlp_bind]
      have hk : ∀ hf : HFn, hf.within P.toChart → wlp (match hfnTask P d hf with
          | none => M.fault .badCast
          | some t => build P f t) (fun _ m' => Tidy P.toChart {} m') (fun _ m' => Tidy P.toChart {} m') m := by
        intro hf hin
        cases ht' : hfnTask P d hf with
        | none => trivial
        | some t' =>
          refine ih t' m ?_ h
          cases hf with
          | deep c =>
            simp only [hfnTask] at ht'
            split at ht' <;> cases ht'
            exact hin
          | chain cs l =>
            simp only [hfnTask] at ht'
            split at ht' <;> cases ht'
            exact hin
      unfold wlp lookupHist
      cases hp : P.parent d with
      | none => exact ih (.deep d) m ht h
      | some p =>
        cases k with
        | plain => exact ih (.deep d) m ht h
        | shallow =>
          simp only
          cases hx : m.sh (p, P.pos d) with
          | none => exact ih (.deep d) m ht h
          | some g => exact hk g (h.sh hx)
        | deep =>
          simp only
          cases hx : m.dh (p, P.pos d) with
          | none => exact ih (.deep d) m ht h
          | some g => exact hk g (h.dh hx)
    | chain cs d =>
      cases cs with
      | nil => rw [build]; exact ih (.target d) m ht.1 h
      | cons x cs =>
        obtain ⟨hx, hxl⟩ := ht.2 x List.mem_cons_self
        have he : Stage.built P.toChart x = {} := by unfold Stage.built; rw [if_neg (by simp [hxl])]
        rw [build, wlp_bind]
        refine wlp_mono (shallowConstruct_tidy hw hwf hx h) ?_ (fun _ _ h => h)
        intro _ m1 h1
        rw [he] at h1
        refine wlp_finally ?_
        refine wlp_mono (Q := fun _ m' => Tidy P.toChart {} m') (E := fun _ m' => Tidy P.toChart {} m') ?_
          (fun _ m2 h2 => release_built hw hwf (by rw [he]; exact h2))
          (fun _ m2 h2 => wlp_mono (release_built hw hwf (by rw [he]; exact h2)) (fun _ _ h => h) (fun _ _ _ => trivial))
        rw [wlp_bind]
        refine wlp_mono (ih _ m1 (fun t ht' => hinit hx t (List.mem_of_mem_take ht')) h1) ?_ (fun _ _ h => h)
        intro _ m2 h2
        rw [wlp_bind]
        refine wlp_mono (ih (.chain cs d) m2 ⟨ht.1, fun y hy => ht.2 y (List.mem_cons_of_mem _ hy)⟩ h2) ?_ (fun _ _ h => h)
        intro _ m3 h3
        exact ih _ m3 (fun t ht' => hinit hx t (List.mem_of_mem_drop ht')) h3

end

end SC
