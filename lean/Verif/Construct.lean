import Verif.Term
import Verif.EntrySpec
/-!
# Construction of one state (`shallow_construct`, `add`)
-/

namespace SC
open Spec
variable {W : Type} {P : Prog W} {L : Sid → Nat} {pend : Option Sid} {m : Mach W}

/-- What the history maps say. -/
def Mach.mem (m : Mach W) : Memory where
  sh p i := match m.sh (p, i) with
    | some (.deep c) => some c
    | _ => none
  dh p i := match m.dh (p, i) with
    | some (.chain _ l) => some l
    | _ => none
  log := m.hlog

/-- A new state object with its context set and one reference. -/
def freshObj : Obj := { newObj with rc := 1, ctxSet := true }

/-- The heap after construction of `s` (the object `o`). -/
def addHeap (C : Chart) (hp : Sid → Option Obj) (s : Sid) (o : Obj) : Sid → Option Obj := fun x =>
  if x = s then some o
  else if C.parent s = some x then
    (hp x).map fun op => { op with rc := op.rc + 1, inner := upd op.inner (C.pos s) (some s) }
  else hp x

theorem Inv.addState {C : Chart} (hwf : C.WF) (h : Inv C L none m) {s : Sid} (hs : s < C.n)
    (hempty : ∀ c, (m.heap c).isSome → C.parent c = C.parent s → C.pos c ≠ C.pos s)
    (hpl : ∀ p, C.parent s = some p → (m.heap p).isSome)
    {m' : Mach W} (hheap : m'.heap = addHeap C m.heap s freshObj)
    (hslot : m'.slot = m.slot) (hlen : m'.len = m.len) (hpast : ∃ x, m'.trace = m.trace ++ x) (hend : m'.endIx = m.endIx)
    (hout : m'.outermost = if C.parent s = none then some s else m.outermost)
    (hpou : m'.pOU = m.pOU) (hH : HistOK C m')
    (htr : life C (m'.trace.map (·.2)) = some ⟨fun x => if x = s then true else m.act x, none⟩) :
    Inv C (inc L s) none m' ∧ m'.act = fun x => if x = s then true else m.act x := by
  have hdead : m.heap s = none := by
    cases hh : m.heap s with
    | none => rfl
    | some o => exact absurd rfl (hempty s (by simp [hh]) rfl)
  have hLs : L s = 0 := by
    by_cases h0 : L s = 0
    · exact h0
    · have := h.L_live h0; rw [hdead] at this; cases this
  have hns : C.parent s ≠ some s := fun hp => Nat.lt_irrefl _ (hwf.parent_lt hs hp)
  have hiso : ∀ x, (m'.heap x).isSome = if x = s then true else (m.heap x).isSome := by
    intro x; rw [hheap]; unfold addHeap
    split
    · rfl
    · split <;> simp
  have hact : m'.act = fun x => if x = s then true else m.act x := by
    funext x; exact hiso x
  have hget : ∀ {x ox}, m'.heap x = some ox → x ≠ s →
      ∃ ox', m.heap x = some ox' ∧ ox.ctxSet = ox'.ctxSet ∧ ox.lpos = ox'.lpos ∧
        (C.parent s ≠ some x → ox = ox') ∧
        (C.parent s = some x → ox.rc = ox'.rc + 1 ∧ ox.inner = upd ox'.inner (C.pos s) (some s)) := by
    intro x ox hx hxs
    rw [hheap] at hx; unfold addHeap at hx
    rw [if_neg hxs] at hx
    split at hx
    · next hp =>
      cases hm : m.heap x with
      | none => rw [hm] at hx; cases hx
      | some o =>
        rw [hm] at hx
        simp at hx; subst hx
        exact ⟨o, rfl, rfl, rfl, fun h => absurd hp h, fun _ => ⟨rfl, rfl⟩⟩
    · next hp => exact ⟨ox, hx, rfl, rfl, fun _ => rfl, fun h => absurd h hp⟩
  have hgets : ∀ {ox}, m'.heap s = some ox → ox = freshObj := by
    intro ox hx
    rw [hheap] at hx; unfold addHeap at hx
    rw [if_pos rfl] at hx; exact (Option.some.inj hx).symm
  have hemptyIn : ∀ {x ox'}, m.heap x = some ox' → C.parent s = some x → ox'.inner (C.pos s) = none := by
    intro x ox' hx hp
    cases hi : ox'.inner (C.pos s) with
    | none => rfl
    | some c =>
      obtain ⟨h1, h2, h3⟩ := (h.inner_iff hx).1 hi
      exact absurd h3 (hempty c h1 (by rw [h2, hp]))
  have hnoslot : ∀ i, m.slot i ≠ some s := by
    intro i hi
    by_cases hie : i < m.endIx
    · obtain ⟨x, o, h1, h2, _⟩ := h.slot_in hie
      rw [hi] at h1; cases h1; rw [hdead] at h2; cases h2
    · rw [h.slot_out (by omega)] at hi; cases hi
  refine ⟨?_, hact⟩
  constructor
  · intro x ox hx
    by_cases hxs : x = s
    · subst hxs; exact hs
    · obtain ⟨o', h1, _⟩ := hget hx hxs; exact h.bound h1
  · intro x ox hx
    by_cases hxs : x = s
    · subst hxs; rw [hgets hx]; rfl
    · obtain ⟨o', h1, h2, _⟩ := hget hx hxs; rw [h2]; exact h.ctx h1
  · intro x ox i c hx
    rw [hiso c]
    by_cases hxs : x = s
    · subst hxs
      rw [hgets hx]
      constructor
      · intro h'; cases h'
      · rintro ⟨h1, h2, h3⟩
        split at h1
        · next hc => subst hc; exact absurd h2 hns
        · have := h.par_live h1 h2
          rw [hdead] at this; cases this
    · obtain ⟨o', h1, _, _, h4, h5⟩ := hget hx hxs
      by_cases hp : C.parent s = some x
      · obtain ⟨_, h6⟩ := h5 hp
        rw [h6]
        by_cases hi : i = C.pos s
        · subst hi
          rw [upd_same]
          constructor
          · intro h'; cases h'; rw [if_pos rfl]; exact ⟨rfl, hp, rfl⟩
          · rintro ⟨g1, g2, g3⟩
            split at g1
            · next hc => rw [hc]
            · exact absurd g3 (hempty c g1 (by rw [g2, hp]))
        · rw [upd_other _ _ hi, h.inner_iff h1]
          constructor
          · rintro ⟨g1, g2, g3⟩
            refine ⟨?_, g2, g3⟩
            split
            · rfl
            · exact g1
          · rintro ⟨g1, g2, g3⟩
            split at g1
            · next hc => subst hc; exact absurd g3.symm hi
            · exact ⟨g1, g2, g3⟩
      · rw [h4 hp, h.inner_iff h1]
        constructor
        · rintro ⟨g1, g2, g3⟩
          refine ⟨?_, g2, g3⟩
          split
          · rfl
          · exact g1
        · rintro ⟨g1, g2, g3⟩
          split at g1
          · next hc => subst hc; exact absurd g2 hp
          · exact ⟨g1, g2, g3⟩
  · intro x p hx hp
    rw [hiso] at hx ⊢
    split
    · rfl
    · split at hx
      · next hxs => subst hxs; exact hpl p hp
      · exact h.par_live hx hp
  · intro x
    rw [hout, hiso]
    by_cases hp : C.parent s = none
    · rw [if_pos hp]
      constructor
      · intro h'; cases h'; rw [if_pos rfl]; exact ⟨rfl, hp⟩
      · rintro ⟨g1, g2⟩
        split at g1
        · next hxs => rw [hxs]
        · next hxs =>
          have h0 := Chart.pos_root hwf (h.live_bound g1) g2
          have h1 := Chart.pos_root hwf hs hp
          exact absurd (by rw [h0, h1]) (hempty x g1 (by rw [g2, hp]))
    · rw [if_neg hp, h.outer]
      constructor
      · rintro ⟨g1, g2⟩
        refine ⟨?_, g2⟩
        split
        · rfl
        · exact g1
      · rintro ⟨g1, g2⟩
        split at g1
        · next hxs => subst hxs; exact absurd g2 hp
        · exact ⟨g1, g2⟩
  · intro i hi
    rw [hend] at hi
    obtain ⟨x, o, h1, h2, h3, h4⟩ := h.slot_in hi
    have hxs : x ≠ s := by intro h'; subst h'; exact hnoslot _ h1
    have : (m'.heap x).isSome := by rw [hiso, if_neg hxs]; simp [h2]
    obtain ⟨o', ho'⟩ := Option.isSome_iff_exists.1 this
    obtain ⟨o2, g1, _, g3, _⟩ := hget ho' hxs
    rw [h2] at g1; cases g1
    exact ⟨x, o', by rw [hslot, h1], ho', h3, by rw [g3, h4]⟩
  · intro i hi; rw [hend] at hi; rw [hslot]; exact h.slot_out hi
  · obtain ⟨x, hx⟩ := hpast
    rw [hend, hlen, hx]; exact ⟨h.end_le.1, h.end_le.2.mono x⟩
  · intro x ox hx hxl hL
    have hxs : x ≠ s := by intro h'; subst h'; simp at hL
    obtain ⟨o', h1, _, h3, _⟩ := hget hx hxs
    rw [inc_other _ hxs] at hL
    rw [hslot, h3]; exact h.leaf_in h1 hxl hL
  · intro x ox hx
    rw [hpou, hslot]
    by_cases hxs : x = s
    · subst hxs
      rw [hgets hx, if_neg (hnoslot _), if_neg]
      · rw [(nch_zero_iff _ freshObj.inner).2 (fun _ _ => rfl)]
        simp [hLs, freshObj]
      · intro h'
        have := (h.ou_live h').1
        rw [hdead] at this; cases this
    · obtain ⟨o', h1, _, h3, h4, h5⟩ := hget hx hxs
      rw [inc_other _ hxs, h3]
      have hr := h.rc h1
      by_cases hp : C.parent s = some x
      · obtain ⟨g1, g2⟩ := h5 hp
        rw [g1, g2, nch_upd_some (Chart.pos_lt_some hwf hs hp) (hemptyIn h1 hp)]
        omega
      · rw [h4 hp]; exact hr
  · intro x hx
    rw [hpou] at hx
    obtain ⟨g1, g2⟩ := h.ou_live hx
    refine ⟨?_, g2⟩
    rw [hiso]; split
    · rfl
    · exact g1
  · intro x hx
    rw [hiso]
    split
    · rfl
    · next hxs => rw [inc_other _ hxs] at hx; exact h.L_live hx
  · intro x ox hx hxl hn
    by_cases hxs : x = s
    · subst hxs; right; simp
    · obtain ⟨o', h1, _, _, h4, h5⟩ := hget hx hxs
      rw [hpou, inc_other _ hxs]
      by_cases hp : C.parent s = some x
      · obtain ⟨g1, g2⟩ := h5 hp
        rw [g2, nch_upd_some (Chart.pos_lt_some hwf hs hp) (hemptyIn h1 hp)] at hn
        omega
      · rw [h4 hp] at hn; exact h.noOrphan h1 hxl hn
  · exact hH
  · rw [htr, hact]

/-! ## Adding a leaf to the state list -/

/-- A leaf that is not yet in the list exists next to those that are. -/
theorem Inv.peak {C : Chart} (h : Inv C L none m) {s : Sid} {o : Obj} (ho : m.heap s = some o)
    (hleaf : C.isLeaf s = true) (hns : m.slot o.lpos ≠ some s) : Peak C m.trace (m.endIx + 1) := by
  have hin : ∀ i, i < m.endIx → ∃ o, m.slot i = some ((m.slot i).getD s) ∧ m.heap ((m.slot i).getD s) = some o ∧
      C.isLeaf ((m.slot i).getD s) = true ∧ o.lpos = i := by
    intro i hi
    obtain ⟨x, ox, h1, h2, h3, h4⟩ := h.slot_in hi
    rw [h1]
    exact ⟨ox, rfl, h2, h3, h4⟩
  refine ⟨m.trace.map (·.2), [], _, s :: (List.range m.endIx).map fun i => (m.slot i).getD s, by simp, h.tr, ?_, ?_, by simp⟩
  · refine List.nodup_cons.2 ⟨?_, ?_⟩
    · intro hm
      obtain ⟨i, hi, e⟩ := List.mem_map.1 hm
      obtain ⟨oi, h1, h2, _, h4⟩ := hin i (List.mem_range.1 hi)
      rw [e] at h1 h2
      rw [ho] at h2
      cases h2
      exact hns (by rw [h4]; exact h1)
    · refine List.pairwise_map.2 (List.Pairwise.imp_of_mem ?_ List.nodup_range)
      intro i j hi hj hij e
      obtain ⟨oi, _, h2, _, h4⟩ := hin i (List.mem_range.1 hi)
      obtain ⟨oj, _, g2, _, g4⟩ := hin j (List.mem_range.1 hj)
      rw [e, g2] at h2
      cases h2
      exact hij (by rw [← h4, ← g4])
  · intro x hx
    rcases List.mem_cons.1 hx with rfl | hx
    · exact ⟨by simp [Mach.act, ho], hleaf⟩
    · obtain ⟨i, hi, e⟩ := List.mem_map.1 hx
      obtain ⟨oi, _, h2, h3, _⟩ := hin i (List.mem_range.1 hi)
      rw [e] at h2 h3
      exact ⟨by simp [Mach.act, h2], h3⟩

/-- A list slot at the end is filled with the new leaf. -/
theorem Inv.addSlot {C : Chart} (h : Inv C L none m) {s : Sid} {o : Obj} (ho : m.heap s = some o)
    (hleaf : C.isLeaf s = true) (hns : m.slot o.lpos ≠ some s) {k : Nat} (hk : m.endIx + 1 ≤ k ∧ Peak C m.trace k) (hL : L s ≠ 0) :
    Inv C L none { m with
      len := k
      heap := upd m.heap s (some { o with rc := o.rc + 1, lpos := m.endIx })
      slot := upd m.slot m.endIx (some s)
      endIx := m.endIx + 1 } := by
  have hiso : ∀ x, ((upd m.heap s (some { o with rc := o.rc + 1, lpos := m.endIx })) x).isSome = (m.heap x).isSome := by
    intro x; simp only [upd]; split
    · next hx => subst hx; simp [ho]
    · rfl
  have hget : ∀ {x ox}, (upd m.heap s (some { o with rc := o.rc + 1, lpos := m.endIx })) x = some ox → x ≠ s →
      m.heap x = some ox := by
    intro x ox hx hxs; rw [upd_other _ _ hxs] at hx; exact hx
  have hgets : ∀ {ox}, (upd m.heap s (some { o with rc := o.rc + 1, lpos := m.endIx })) s = some ox →
      ox = { o with rc := o.rc + 1, lpos := m.endIx } := by
    intro ox hx; rw [upd_same] at hx; exact (Option.some.inj hx).symm
  have hnoslot : ∀ i, m.slot i ≠ some s := by
    intro i hi
    have := (h.slot_pos hi ho).1
    subst this; exact hns hi
  have hslotx : ∀ {x ox}, m.heap x = some ox → x ≠ s →
      (upd m.slot m.endIx (some s) ox.lpos = some x ↔ m.slot ox.lpos = some x) := by
    intro x ox hx hxs
    simp only [upd]; split
    · next he =>
      rw [he, h.slot_out (Nat.le_refl _)]
      constructor
      · intro h'; cases h'; exact absurd rfl hxs
      · intro h'; cases h'
    · rfl
  have hact : Mach.act ({ m with
      len := k
      heap := upd m.heap s (some { o with rc := o.rc + 1, lpos := m.endIx })
      slot := upd m.slot m.endIx (some s)
      endIx := m.endIx + 1 } : Mach W) = m.act := by funext x; exact hiso x
  constructor
  · intro x ox hx
    by_cases hxs : x = s
    · subst hxs; exact h.bound ho
    · exact h.bound (hget hx hxs)
  · intro x ox hx
    by_cases hxs : x = s
    · subst hxs; rw [hgets hx]; exact (h.ctx ho :)
    · exact h.ctx (hget hx hxs)
  · intro x ox i c hx
    simp only [hiso]
    by_cases hxs : x = s
    · subst hxs; rw [hgets hx]; exact (h.inner_iff ho :)
    · exact h.inner_iff (hget hx hxs)
  · intro x p; simp only [hiso]; exact h.par_live
  · intro x; simp only [hiso]; exact h.outer
  · intro i hi
    by_cases hie : i = m.endIx
    · subst hie
      exact ⟨s, _, upd_same _ _ _, upd_same _ _ _, hleaf, rfl⟩
    · obtain ⟨x, ox, h1, h2, h3, h4⟩ := h.slot_in (i := i) (by simp only at hi; omega)
      have hxs : x ≠ s := by intro h'; subst h'; exact hnoslot _ h1
      exact ⟨x, ox, by simp only; rw [upd_other _ _ hie]; exact h1, by simp only; rw [upd_other _ _ hxs]; exact h2, h3, h4⟩
  · intro i hi
    simp only at hi ⊢
    rw [upd_other _ _ (by omega)]; exact h.slot_out (by omega)
  · exact hk
  · intro x ox hx hxl hLx
    by_cases hxs : x = s
    · subst hxs; exact absurd hLx hL
    · have hx' := hget hx hxs
      exact (hslotx hx' hxs).2 (h.leaf_in hx' hxl hLx)
  · intro x ox hx
    simp only
    by_cases hxs : x = s
    · subst hxs
      have hr := h.rc ho
      rw [if_neg hns] at hr
      rw [hgets hx]
      simp only [upd_same, if_true]
      omega
    · have hx' := hget hx hxs
      simp only [hslotx hx' hxs]
      exact h.rc hx'
  · intro x; simp only [hiso]; exact h.ou_live
  · intro x; simp only [hiso]; exact h.L_live
  · intro x ox hx hxl hn
    have hxs : x ≠ s := by intro h'; subst h'; rw [hleaf] at hxl; cases hxl
    exact h.noOrphan (hget hx hxs) hxl hn
  · exact ⟨h.hist.sh, h.hist.dh⟩
  · rw [hact]; exact h.tr

/-! ## `add` -/

/-- Whether entering `s` settles the context of `s`. -/
def critAt (C : Chart) (s : Sid) (m : Mach W) : Prop :=
  m.ico = true ∨ (C.pos s + 1 = C.regions (C.parent s) ∧ m.pOU = C.parent s)

/-- Result of entering one state (the reference is still held). -/
structure EnterPost (C : Chart) (F : Memory → Memory → Prop) (L : Sid → Nat) (s : Sid) (m m' : Mach W) : Prop where
  inv : Inv C (inc L s) none m'
  act : m'.act = fun x => if x = s then true else m.act x
  trace : m'.trace = m.trace ++ [(m.trig, .enter s)]
  ico : m'.ico = false
  crit : critAt C s m → m'.pOU = if C.isLeaf s then none else some s
  ncrit : ¬ critAt C s m → m'.pOU = m.pOU
  fullExit : m'.fullExit = m.fullExit
  trig : m'.trig = m.trig
  leaf : C.isLeaf s = true → ∃ o, m'.heap s = some o ∧ m'.slot o.lpos = some s
  mem : F m.mem m'.mem

/-- Only states that did not exist in `m` were entered. -/
def FreshObs (m m' : Mach W) : Prop :=
  ∃ obs, m'.trace = m.trace ++ obs ∧ ∀ e ∈ obs, ∀ x, e.2 = Obs.enter x → m.act x = false

structure EnterThrow (C : Chart) (L : Sid → Nat) (s : Sid) (m m' : Mach W) : Prop where
  inv : Inv C L none m'
  act : m'.act = m.act
  pOU : m'.pOU = m.pOU
  fullExit : m'.fullExit = m.fullExit
  trig : m'.trig = m.trig
  fresh : FreshObs m m'
  cut : ∃ tail, NotEntered s tail ∧ m'.trace = m.trace ++ tail.map fun o => (m.trig, o)

theorem addToMachine_wp (hwf : P.toChart.WF) {s : Sid} (h : Inv P.toChart L none m) {o : Obj} (ho : m.heap s = some o)
    (hns : m.slot o.lpos ≠ some s) (hL : L s ≠ 0) (hico : m.ico = true → m.pOU = P.parent s) :
    wp (addToMachine P s)
      (fun _ m' => Inv P.toChart L none m' ∧ m'.act = m.act ∧ m'.trace = m.trace ∧ m'.ico = false ∧
        (critAt P.toChart s m → m'.pOU = if P.isLeaf s then none else some s) ∧
        (¬ critAt P.toChart s m → m'.pOU = m.pOU) ∧ m'.fullExit = m.fullExit ∧ m'.trig = m.trig ∧
        (P.isLeaf s = true → ∃ o, m'.heap s = some o ∧ m'.slot o.lpos = some s) ∧
        m'.sh = m.sh ∧ m'.dh = m.dh ∧ m'.hlog = m.hlog)
      (fun _ m' => SameCore m m' ∧ m'.trace = m.trace ∧ m'.sh = m.sh ∧ m'.dh = m.dh) m := by
  have hsn := h.bound ho
  -- second part
  have key : ∀ m1 : Mach W, Inv P.toChart L none m1 → m1.act = m.act → m1.trace = m.trace → m1.ico = m.ico →
      m1.pOU = m.pOU → m1.fullExit = m.fullExit → m1.trig = m.trig → m1.sh = m.sh → m1.dh = m.dh → m1.hlog = m.hlog →
      (P.isLeaf s = true → ∃ o, m1.heap s = some o ∧ m1.slot o.lpos = some s) →
      wp (do
        let m ← M.get
        if m.ico ∨ (isHighest P s ∧ m.pOU = P.parent s) then do
          M.modify fun m => { m with ico := false }
          setOU (if P.isLeaf s then none else some s)
        else pure () : M W Unit)
      (fun _ m' => Inv P.toChart L none m' ∧ m'.act = m.act ∧ m'.trace = m.trace ∧ m'.ico = false ∧
        (critAt P.toChart s m → m'.pOU = if P.isLeaf s then none else some s) ∧
        (¬ critAt P.toChart s m → m'.pOU = m.pOU) ∧ m'.fullExit = m.fullExit ∧ m'.trig = m.trig ∧
        (P.isLeaf s = true → ∃ o, m'.heap s = some o ∧ m'.slot o.lpos = some s) ∧
        m'.sh = m.sh ∧ m'.dh = m.dh ∧ m'.hlog = m.hlog)
      (fun _ m' => SameCore m m' ∧ m'.trace = m.trace ∧ m'.sh = m.sh ∧ m'.dh = m.dh) m1 := by
    intro m1 hi hact htr hic hou hfe htg hsh hdh hhl hleaf
    have hs1 : (m1.heap s).isSome := by
      have : m1.act s = m.act s := by rw [hact]
      unfold Mach.act at this; rw [this, ho]; rfl
    simp only [wp_bind, wp_get]
    have hiff : (m1.ico = true ∨ (isHighest P s = true ∧ m1.pOU = P.parent s)) ↔ critAt P.toChart s m := by
      unfold critAt isHighest; rw [hic, hou]; simp
    by_cases hc : critAt P.toChart s m
    · rw [if_pos (hiff.2 hc)]
      simp only [wp_bind, wp_modify]
      have hpou : m1.pOU = P.parent s := by
        rw [hou]
        rcases hc with h' | h'
        · exact hico h'
        · exact h'.2
      have hi0 : Inv P.toChart L none { m1 with ico := false } :=
        hi.congr' (m' := { m1 with ico := false }) rfl rfl hi.end_le rfl rfl rfl hi.tr ⟨hi.hist.sh, hi.hist.dh⟩
      refine setOU_wp hi0 _ ?_ ?_ ?_
      · intro t ht
        split at ht
        · cases ht
        · next hl => cases ht; exact ⟨hs1, by simpa using hl⟩
      · intro t ht _
        have hps : P.parent s = some t := by rw [← hpou]; exact ht
        obtain ⟨ot, hot⟩ := Option.isSome_iff_exists.1 (hi.par_live hs1 hps)
        refine ⟨ot, hot, .inr ?_⟩
        have := nch_pos (Chart.pos_lt_some hwf hsn hps) ((hi.inner_iff hot).2 ⟨hs1, hps, rfl⟩)
        omega
      · intro m' g1 g2 g3 g4 g5 g6 g7 g8 g9 g10 g11 g12 g13
        refine ⟨g1, ?_, ?_, ?_, fun _ => g2, fun h' => absurd hc h', ?_, ?_, ?_, ?_, ?_, ?_⟩
        · rw [g3]; exact hact
        · rw [g4]; exact htr
        · rw [g8]
        · rw [g9]; exact hfe
        · rw [g10]; exact htg
        · intro hl
          obtain ⟨o', h1, h2⟩ := hleaf hl
          obtain ⟨o2, h3, h4, h5⟩ := g12 s o' h1
          exact ⟨o2, h3, by rw [g5, h5]; exact h2⟩
        · rw [g13.1]; exact hsh
        · rw [g13.2.1]; exact hdh
        · rw [g13.2.2]; exact hhl
    · rw [if_neg (fun h' => hc (hiff.1 h'))]
      simp only [wp_pure]
      refine ⟨hi, hact, htr, ?_, fun h' => absurd h' hc, fun _ => hou, hfe, htg, hleaf, hsh, hdh, hhl⟩
      cases hx : m1.ico with
      | false => rfl
      | true => exact absurd (.inl (by rw [← hic]; exact hx)) hc
  unfold addToMachine
  by_cases hl : P.isLeaf s = true
  · rw [if_pos hl]
    simp only [wp_bind]
    unfold addLeaf
    simp only [wp_bind, wp_get]
    have fin : ∀ (w : W) (k : Nat), m.endIx + 1 ≤ k ∧ Peak P.toChart m.trace k →
        wp (do
          (match m.slot m.endIx with
            | none => pure ()
            | some t => releaseBase t)
          addRef s
          let o ← getObj s
          setObj s { o with lpos := m.endIx }
          M.modify fun m' : Mach W => { m' with slot := upd m'.slot m'.endIx (some s), endIx := m'.endIx + 1 })
        (fun _ m' => wp (do
          let m ← M.get
          if m.ico ∨ (isHighest P s ∧ m.pOU = P.parent s) then do
            M.modify fun m => { m with ico := false }
            setOU (if P.isLeaf s then none else some s)
          else pure () : M W Unit)
          (fun _ m' => Inv P.toChart L none m' ∧ m'.act = m.act ∧ m'.trace = m.trace ∧ m'.ico = false ∧
            (critAt P.toChart s m → m'.pOU = if P.isLeaf s then none else some s) ∧
            (¬ critAt P.toChart s m → m'.pOU = m.pOU) ∧ m'.fullExit = m.fullExit ∧ m'.trig = m.trig ∧
            (P.isLeaf s = true → ∃ o, m'.heap s = some o ∧ m'.slot o.lpos = some s) ∧
            m'.sh = m.sh ∧ m'.dh = m.dh ∧ m'.hlog = m.hlog)
          (fun _ m' => SameCore m m' ∧ m'.trace = m.trace ∧ m'.sh = m.sh ∧ m'.dh = m.dh) m')
        (fun _ m' => SameCore m m' ∧ m'.trace = m.trace ∧ m'.sh = m.sh ∧ m'.dh = m.dh)
        { m with world := w, len := k } := by
      intro w k hk
      rw [h.slot_out (Nat.le_refl m.endIx)]
      simp only [wp_bind, wp_pure, addRef, wp_getObj]
      refine ⟨o, ho, ?_⟩
      simp only [wp_setObj]
      refine ⟨_, upd_same _ _ _, ?_⟩
      simp only [wp_modify, upd_upd]
      have hi := h.addSlot ho hl hns hk hL
      have := key ({ m with
        world := w
        len := k
        heap := upd m.heap s (some { o with rc := o.rc + 1, lpos := m.endIx })
        slot := upd m.slot m.endIx (some s)
        endIx := m.endIx + 1 }) ?_ ?_ rfl rfl rfl rfl rfl rfl rfl rfl ?_
      · simp only [wp_bind] at this
        exact this
      · exact hi.congr' (m' := { m with
          world := w
          len := k
          heap := upd m.heap s (some { o with rc := o.rc + 1, lpos := m.endIx })
          slot := upd m.slot m.endIx (some s)
          endIx := m.endIx + 1 }) rfl rfl hi.end_le rfl rfl rfl hi.tr ⟨hi.hist.sh, hi.hist.dh⟩
      · funext x; simp only [Mach.act, upd]; split
        · next hx => subst hx; simp [ho]
        · rfl
      · intro _
        exact ⟨_, upd_same _ _ _, upd_same _ _ _⟩
    simp only [wp_bind, wp_get, wp_modify] at fin
    by_cases he : m.endIx = m.len
    · rw [if_pos he]
      simp only [wp_bind]
      refine wp_allocate P _ ?_ ?_
      · intro w
        simp only [wp_modify]
        exact fin w (m.len + 1) ⟨by omega, he ▸ h.peak ho hl hns⟩
      · intro x w
        exact ⟨by constructor <;> rfl, rfl, rfl, rfl⟩
    · rw [if_neg he]
      simp only [wp_pure]
      exact fin m.world m.len ⟨by have := h.end_le.1; omega, h.end_le.2⟩
  · rw [if_neg hl]
    have := key m h rfl rfl rfl rfl rfl rfl rfl rfl rfl (fun h' => absurd h' hl)
    simp only [wp_bind] at this
    simp only [wp_bind, wp_pure]
    exact this

/-! ## `shallow_construct` -/

/-- Contract for user code: a `simple_state` constructor does not use the machine
(simple_state.hpp:216-232: the assert in `outermost_context()`), and a
`transit<>()` in a custom reaction names a state or history for which the transition compiles. -/
structure Contract (P : Prog W) : Prop where
  ctor : ∀ s v w, P.isSimple s = true → (P.ctor s v w).cmds = []
  react : ∀ s r e v w d a, (P.react s r e v w).2 = .transit d a → P.transitOK s d a = true

/-- `F` bounds what constructors do to the histories. -/
def CtorMem (P : Prog W) (F : Memory → Memory → Prop) : Prop :=
  ∀ s v w (m : Mach W), F m.mem ((P.ctor s v w).cmds.foldl Mach.cmd m).mem

theorem mem_log (m : Mach W) (o : Obs) (ho : o.hops = []) : (m.log o).mem = m.mem := by
  unfold Mach.log Mach.mem; rw [ho, List.append_nil]

theorem wp_runCtor {F : Memory → Memory → Prop} (hok : Contract P) (hF : CtorMem P F) {s : Sid}
    {Q : Unit → Mach W → Prop} {E : Exc → Mach W → Prop}
    (h1 : ∀ m', UserStep m m' [.enter s] → F m.mem m'.mem → Q () m')
    (h2 : ∀ x m', UserStep m m' [.enterFail s] → E x m') :
    wp (runCtor P s) Q E m := by
  unfold wp runCtor
  rw [if_neg (fun h => h.2 (hok.ctor _ _ _ h.1))]
  unfold runUser
  have hs := world_step m (P.ctor s m.view m.world).world (P.ctor s m.view m.world).cmds
  have hm := hF s m.view m.world { m with world := (P.ctor s m.view m.world).world }
  cases hx : (P.ctor s m.view m.world).throws with
  | none => simpa [hx] using h1 _ (hs.logs [.enter s]) (by simp only [List.foldl_cons, List.foldl_nil, mem_log _ (Obs.enter s) rfl]; exact hm)
  | some x => simpa [hx] using h2 x _ ((hs.logs [.enterFail s]).raise x)

theorem setContext_wp (hwf : P.toChart.WF) {s : Sid} (hs : s < P.n) {o : Obj} (ho : m.heap s = some o)
    (hp : ∀ p, P.parent s = some p → ∃ op, m.heap p = some op ∧ op.inner (P.pos s) = none)
    {Q : Unit → Mach W → Prop} {E : Exc → Mach W → Prop}
    (hq : Q () { m with
      heap := addHeap P.toChart m.heap s { o with ctxSet := true }
      outermost := if P.parent s = none then some s else m.outermost }) :
    wp (setContext P s) Q E m := by
  unfold setContext
  cases hpar : P.parent s with
  | none =>
    have h0 := Chart.pos_root hwf hs hpar
    simp only [wp_bind, wp_pure, wp_getObj]
    refine ⟨o, ho, ?_⟩
    simp only [wp_setObj, addInner, h0, if_true, wp_modify]
    refine (cast ?_ hq)
    congr 2
    · funext x; simp only [addHeap, upd, hpar]; simp
    · rw [if_pos hpar]
  | some p =>
    obtain ⟨op, hop, hin⟩ := hp p hpar
    have hlt := Chart.pos_lt_some hwf hs hpar
    have hps : p ≠ s := fun h => Nat.lt_irrefl _ (hwf.parent_lt hs (h ▸ hpar))
    simp only [wp_bind, addRef, wp_getObj]
    refine ⟨op, hop, ?_⟩
    simp only [wp_setObj]
    refine ⟨o, by rw [upd_other _ _ hps.symm]; exact ho, ?_⟩
    simp only [addInner, wp_bind, wp_getObj]
    refine ⟨_, by rw [upd_other _ _ hps, upd_same], ?_⟩
    rw [if_pos ⟨hlt, hin⟩]
    simp only [wp_setObj]
    refine (cast ?_ hq)
    congr 2
    · funext x; simp only [addHeap, upd, hpar]
      by_cases h1 : x = s
      · subst h1; simp [Ne.symm hps]
      · by_cases h2 : x = p
        · subst h2; simp [h1, hop]
        · simp [h1, h2, Ne.symm h2]
    · rw [hpar]; simp

/-- Entering a state whose region is empty and whose context is locked. -/
theorem shallowConstruct_wp {F : Memory → Memory → Prop} (hwf : P.toChart.WF) (hok : Contract P) (hF : CtorMem P F)
    {s : Sid} (h : Inv P.toChart L none m) (hs : s < P.n)
    (hempty : ∀ c, (m.heap c).isSome → P.parent c = P.parent s → P.pos c ≠ P.pos s)
    (hlock : ∀ p, P.parent s = some p → L p ≠ 0) (hico : m.ico = true → m.pOU = P.parent s) :
    wp (shallowConstruct P s) (fun _ m' => EnterPost P.toChart F L s m m')
      (fun _ m' => EnterThrow P.toChart L s m m') m := by
  have hdead : m.heap s = none := by
    cases hh : m.heap s with
    | none => rfl
    | some o => exact absurd rfl (hempty s (by simp [hh]) rfl)
  have hLs : L s = 0 := by
    by_cases h0 : L s = 0
    · exact h0
    · have := h.L_live h0; rw [hdead] at this; cases this
  have hpl : ∀ p, P.parent s = some p → (m.heap p).isSome := fun p hp => h.L_live (hlock p hp)
  have hpin : ∀ p, P.parent s = some p → ∃ op, m.heap p = some op ∧ op.inner (P.pos s) = none := by
    intro p hp
    obtain ⟨op, hop⟩ := Option.isSome_iff_exists.1 (hpl p hp)
    refine ⟨op, hop, ?_⟩
    cases hi : op.inner (P.pos s) with
    | none => rfl
    | some c =>
      obtain ⟨h1, h2, h3⟩ := (h.inner_iff hop).1 hi
      exact absurd h3 (hempty c h1 (by rw [h2, hp]))
  have hnoslot : ∀ i, m.slot i ≠ some s := by
    intro i hi
    by_cases hie : i < m.endIx
    · obtain ⟨x, o, h1, h2, _⟩ := h.slot_in hie
      rw [hi] at h1; cases h1; rw [hdead] at h2; cases h2
    · rw [h.slot_out (by omega)] at hi; cases hi
  have hcond : True ∧ s < P.n ∧ m.act s = false ∧ parentActive P.toChart m.act s = true ∧
      regionEmpty P.toChart m.act s = true := by
    refine ⟨trivial, hs, ?_, ?_, ?_⟩
    · unfold Mach.act; rw [hdead]; rfl
    · unfold parentActive
      cases hp : P.parent s with
      | none => rfl
      | some p => exact hpl p hp
    · rw [regionEmpty_iff]; intro c _ hc; exact hempty c hc
  have hns : P.parent s ≠ some s := fun hp => Nat.lt_irrefl _ (hwf.parent_lt hs hp)
  -- after successful construction of the object
  have key : ∀ m2 : Mach W, m2.heap = addHeap P.toChart m.heap s freshObj →
      m2.slot = m.slot → m2.len = m.len → m2.endIx = m.endIx →
      m2.outermost = (if P.parent s = none then some s else m.outermost) →
      m2.ico = m.ico → m2.pOU = m.pOU → m2.fullExit = m.fullExit → m2.trig = m.trig →
      m2.trace = m.trace ++ [(m.trig, .enter s)] → HistOK P.toChart m2 → F m.mem m2.mem →
      wp (M.onThrow (addToMachine P s) (release P s)) (fun _ m' => EnterPost P.toChart F L s m m')
        (fun _ m' => EnterThrow P.toChart L s m m') m2 := by
    intro m2 k1 k2 k3 k4 k5 k6 k7 k8 k9 k10 k11 k12
    have hlife : life P.toChart (m2.trace.map (·.2)) = some ⟨fun x => if x = s then true else m.act x, none⟩ := by
      rw [k10, List.map_append, List.map_cons, List.map_nil, life_snoc, h.tr]
      simp only [Option.bind_some, lifeStep]
      rw [if_pos hcond]
    obtain ⟨hi2, hact2⟩ := h.addState hwf hs hempty hpl k1 k2 k3 ⟨_, k10⟩ k4 k5 k7 k11 hlife
    have hs2 : m2.heap s = some freshObj := by rw [k1]; unfold addHeap; rw [if_pos rfl]
    simp only [wp_onThrow]
    refine wp_mono (addToMachine_wp hwf hi2 hs2 (by rw [k2]; exact hnoslot _) (by simp) (by rw [k6, k7]; exact hico)) ?_ ?_
    · rintro _ m' ⟨g1, g2, g3, g4, g5, g6, g7, g8, g9, g10, g11, g12⟩
      have hcr : critAt P.toChart s m2 ↔ critAt P.toChart s m := by unfold critAt; rw [k6, k7]
      refine ⟨g1, by rw [g2, hact2], by rw [g3, k10], g4, fun hc => g5 (hcr.2 hc), fun hc => ?_, by rw [g7, k8],
        by rw [g8, k9], g9, ?_⟩
      · rw [g6 (fun hc' => hc (hcr.1 hc')), k7]
      · have : m'.mem = m2.mem := by unfold Mach.mem; rw [g10, g11, g12]
        rw [this]; exact k12
    · rintro x m3 ⟨g1, g2, g3, g4⟩
      have hi3 : Inv P.toChart (inc L s) none m3 := by
        refine hi2.congrT g1 g2 ⟨?_, ?_⟩
        · rw [g3]; exact k11.sh
        · rw [g4]; exact k11.dh
      refine wp_mono (release_wp hwf hi3 (by simp) (.inl rfl)) ?_ (fun _ _ h' => h'.elim)
      rintro _ m' ⟨l, hr⟩
      obtain ⟨l', hl', hl0⟩ := hr.last freshObj (by rw [g1.heap]; exact hs2) rfl
      have hl0 := hl0 (fun p hp => by
        have hps : p ≠ s := fun he => hns (he ▸ hp)
        rw [inc_other _ hps]; exact hlock p hp)
      subst hl0; subst hl'
      refine ⟨?_, ?_, ?_, ?_, ?_, ?_, [.enter s, .destroy s], .add, by rw [hr.trace, g2, k10, g1.trig, k9]; simp [destroys]⟩
      · have := hr.inv; rw [dec_inc] at this; exact this
      · rw [hr.act, g1.act, hact2, without_single]
        funext x; by_cases hx : x = s
        · subst hx; simp [hcond.2.2.1]
        · simp [hx]
      · rw [hr.frame.pOU, g1.pOU, k7]
      · rw [hr.frame.fullExit, g1.fullExit, k8]
      · rw [hr.frame.trig, g1.trig, k9]
      · refine ⟨_, by rw [hr.trace, g2, k10, List.append_assoc], ?_⟩
        intro e he x hx
        simp only [destroys, List.map_cons, List.map_nil, List.mem_append, List.mem_singleton] at he
        rcases he with rfl | rfl
        · cases hx; exact hcond.2.2.1
        · cases hx
  unfold shallowConstruct
  simp only [wp_bind]
  refine wp_allocate P _ ?_ ?_
  · intro w
    simp only [wp_get, hdead, Option.isSome_none, Bool.false_eq_true, if_false, wp_bind, wp_setObj]
    by_cases hsim : P.isSimple s = true
    · rw [if_pos hsim]
      simp only [wp_bind, wp_onThrow]
      refine wp_runCtor hok hF ?_ ?_
      · intro m3 hu hmem
        have hheap := hu.core.heap
        simp only at hheap
        simp only [addRef, wp_bind, wp_getObj]
        refine ⟨newObj, by rw [hheap, upd_same], ?_⟩
        simp only [wp_setObj]
        refine setContext_wp hwf hs (upd_same _ _ _) ?_ ?_
        · intro p hp
          obtain ⟨op, h1, h2⟩ := hpin p hp
          have hps : p ≠ s := fun he => hns (he ▸ hp)
          exact ⟨op, by simp only; rw [upd_other _ _ hps, hheap, upd_other _ _ hps]; exact h1, h2⟩
        · have := key { m3 with
            heap := addHeap P.toChart (upd m3.heap s (some { newObj with rc := newObj.rc + 1 })) s
              { newObj with rc := newObj.rc + 1, ctxSet := true }
            outermost := if P.parent s = none then some s else m3.outermost }
            ?_ hu.core.slot hu.core.len hu.core.endIx ?_ hu.core.ico hu.core.pOU hu.core.fullExit hu.core.trig
            hu.trace ?_ hmem
          · simp only [wp_onThrow] at this; exact this
          · simp only [hheap]
            funext x; unfold addHeap
            by_cases hx : x = s
            · rw [if_pos hx, if_pos hx]; rfl
            · simp only [if_neg hx, upd_other _ _ hx]
          · simp only [hu.core.outermost]
          · have := hu.hist P.toChart ⟨h.hist.sh, h.hist.dh⟩
            exact ⟨this.sh, this.dh⟩
      · intro x m3 hu
        have hheap := hu.core.heap
        simp only at hheap
        unfold baseDtor
        simp only [wp_bind, wp_getObj]
        refine ⟨newObj, by rw [hheap, upd_same], ?_⟩
        simp only [newObj, Bool.false_eq_true, if_false, wp_modify]
        have hh : upd m3.heap s none = m.heap := by
          rw [hheap, upd_upd, ← hdead, upd_self]
        refine ⟨?_, ?_, hu.core.pOU, hu.core.fullExit, hu.core.trig, ⟨_, hu.trace, by simp⟩, [.enterFail s], .ctor, hu.trace⟩
        · refine h.congr' (m' := { m3 with heap := upd m3.heap s none }) hh hu.core.slot ?_ hu.core.endIx hu.core.outermost hu.core.pOU ?_ ?_
          · simp only [hu.core.len, hu.trace]; exact ⟨h.end_le.1, h.end_le.2.mono _⟩
          · have ha : Mach.act { m3 with heap := upd m3.heap s none } = m.act := by
              unfold Mach.act; simp only [hh]
            rw [ha]
            simp only [hu.trace]
            simp only [List.map_append, List.map_cons, List.map_nil, life_snoc]
            rw [h.tr]
            simp only [Option.bind_some, lifeStep]
            rw [if_pos hcond]
          · have := hu.hist P.toChart ⟨h.hist.sh, h.hist.dh⟩
            exact ⟨this.sh, this.dh⟩
        · unfold Mach.act; simp only [hh]
    · rw [if_neg hsim]
      simp only [wp_bind, wp_onThrow]
      refine setContext_wp hwf hs (upd_same _ _ _) ?_ ?_
      · intro p hp
        obtain ⟨op, h1, h2⟩ := hpin p hp
        have hps : p ≠ s := fun he => hns (he ▸ hp)
        exact ⟨op, by simp only; rw [upd_other _ _ hps]; exact h1, h2⟩
      · have hahp : addHeap P.toChart (upd m.heap s (some newObj)) s { newObj with ctxSet := true } =
            addHeap P.toChart m.heap s { newObj with ctxSet := true } := by
          funext x; unfold addHeap
          by_cases hx : x = s
          · rw [if_pos hx, if_pos hx]
          · simp only [if_neg hx, upd_other _ _ hx]
        simp only [hahp]
        have hahs : addHeap P.toChart m.heap s { newObj with ctxSet := true } s = some { newObj with ctxSet := true } := by
          unfold addHeap; rw [if_pos rfl]
        refine wp_runCtor hok hF ?_ ?_
        · intro m3 hu hmem
          have hheap := hu.core.heap
          simp only at hheap
          simp only [addRef, wp_bind, wp_getObj]
          refine ⟨{ newObj with ctxSet := true }, by rw [hheap]; exact hahs, ?_⟩
          simp only [wp_setObj]
          have := key { m3 with heap := upd m3.heap s (some { newObj with ctxSet := true, rc := newObj.rc + 1 }) }
            ?_ hu.core.slot hu.core.len hu.core.endIx hu.core.outermost hu.core.ico hu.core.pOU hu.core.fullExit hu.core.trig
            hu.trace ?_ hmem
          · simp only [wp_onThrow] at this; exact this
          · simp only [hheap]
            funext x; simp only [upd]; unfold addHeap
            by_cases hx : x = s
            · rw [if_pos hx, if_pos hx]; rfl
            · simp only [if_neg hx]
          · have := hu.hist P.toChart ⟨h.hist.sh, h.hist.dh⟩
            exact ⟨this.sh, this.dh⟩
        · intro x m3 hu
          have hheap := hu.core.heap
          simp only at hheap
          have hlife : life P.toChart (m3.trace.map (·.2)) = some ⟨m.act, none⟩ := by
            rw [hu.trace]
            simp only [List.map_append, List.map_cons, List.map_nil, life_snoc]
            rw [h.tr]
            simp only [Option.bind_some, lifeStep]
            rw [if_pos hcond]
          refine baseDtor_wp hwf hs (by rw [hheap]; exact hahs) rfl ?_ ?_
          · intro p hp
            have hps : p ≠ s := fun he => hns (he ▸ hp)
            obtain ⟨op, h1, h2⟩ := hpin p hp
            rw [hheap]; unfold addHeap
            rw [if_neg hps, if_pos hp, h1]; rfl
          · intro m4 hd ht
            have hH : HistOK P.toChart m4 := by
              have := hu.hist P.toChart ⟨h.hist.sh, h.hist.dh⟩
              exact hd.hist this
            have hlife4 : life P.toChart (m4.trace.map (·.2)) = some ⟨m.act, none⟩ := by rw [ht]; exact hlife
            have hfp := hd.frame
            have e1 := hfp.slot.trans hu.core.slot
            have e2 := hfp.len.trans hu.core.len
            have e3 := hfp.endIx.trans hu.core.endIx
            have e4 := hfp.pOU.trans hu.core.pOU
            have e5 := hfp.fullExit.trans hu.core.fullExit
            have e6 := hfp.trig.trans hu.core.trig
            cases hp : P.parent s with
            | none =>
              have hh : m4.heap = m.heap := by
                rw [hd.heap, hheap]; unfold eraseHeap; rw [hp]
                funext y; simp only [upd, addHeap, hp]
                by_cases hy : y = s
                · subst hy; simp [hdead]
                · simp [hy]
              have ho : m4.outermost = m.outermost := by
                rw [hd.outermost, if_pos hp]
                cases hmo : m.outermost with
                | none => rfl
                | some r =>
                  obtain ⟨hr1, hr2⟩ := h.outer.1 hmo
                  have h0 := Chart.pos_root hwf (h.live_bound hr1) hr2
                  have h1 := Chart.pos_root hwf hs hp
                  exact absurd (by rw [h0, h1]) (hempty r hr1 (by rw [hr2, hp]))
              have ha : m4.act = m.act := by unfold Mach.act; rw [hh]
              refine ⟨?_, ha, e4, e5, e6, ⟨_, ht.trans hu.trace, by simp⟩, [.enterFail s], .ctor, ht.trans hu.trace⟩
              refine h.congr' (m' := m4) hh e1 ?_ e3 ho e4 ?_ hH
              · rw [e2, ht, hu.trace]; exact ⟨h.end_le.1, h.end_le.2.mono _⟩
              · rw [ha]; exact hlife4
            | some p =>
              have hps : p ≠ s := fun he => hns (he ▸ hp)
              obtain ⟨op, hop, hin⟩ := hpin p hp
              have hh : m4.heap = upd m.heap p (some { op with rc := op.rc + 1 }) := by
                rw [hd.heap, hheap]; unfold eraseHeap; rw [hp]
                have hap : addHeap P.toChart m.heap s { newObj with ctxSet := true } p =
                    some { op with rc := op.rc + 1, inner := upd op.inner (P.pos s) (some s) } := by
                  unfold addHeap; rw [if_neg hps, if_pos hp, hop]; rfl
                simp only [hap, upd_upd]
                funext y; simp only [upd, addHeap, hp]
                by_cases hy : y = s
                · subst hy; simp [hdead, Ne.symm hps]
                · by_cases hyp : y = p
                  · subst hyp
                    have hio : upd op.inner (P.pos s) none = op.inner := by rw [← hin, upd_self]
                    simp [hy, hio]
                  · simp [hy, hyp, Ne.symm hyp]
              have ho : m4.outermost = m.outermost := by
                rw [hd.outermost, if_neg (by rw [hp]; simp), hu.core.outermost]
                simp only; rw [if_neg (by rw [hp]; simp)]
              have hi0 := h.addRef hop
              have ha0 : Mach.act { m with heap := upd m.heap p (some { op with rc := op.rc + 1 }) } = m.act := by
                funext y; simp only [Mach.act, upd]; split
                · next hy => subst hy; simp [hop]
                · rfl
              have ha : m4.act = m.act := by
                rw [← ha0]; unfold Mach.act; rw [hh]
              have hi4 : Inv P.toChart (inc L p) none m4 := by
                refine hi0.congr' (m' := m4) hh e1 ?_ e3 ho e4 ?_ hH
                · rw [e2, ht, hu.trace]; exact ⟨h.end_le.1, h.end_le.2.mono _⟩
                · rw [ha]; exact hlife4
              simp only
              refine wp_mono (release_wp hwf hi4 (by simp) (.inl rfl)) ?_ (fun _ _ h' => h'.elim)
              rintro _ m' ⟨l, hr⟩
              have hrc := h.rc hop
              have hlk := hlock p hp
              have hl := hr.keep { op with rc := op.rc + 1 } (by rw [hh, upd_same]) (by simp only; omega)
              subst hl
              refine ⟨?_, ?_, ?_, ?_, ?_, ⟨_, (by rw [hr.trace, ht, hu.trace]; exact List.append_nil _), by simp⟩, [.enterFail s], .ctor,
                (by rw [hr.trace, ht, hu.trace]; exact List.append_nil _)⟩
              · have := hr.inv; rw [dec_inc] at this; exact this
              · rw [hr.act, without_nil, ha]
              · rw [hr.frame.pOU, e4]
              · rw [hr.frame.fullExit, e5]
              · rw [hr.frame.trig, e6]
  · intro x w
    refine ⟨?_, rfl, rfl, rfl, rfl, ⟨[], (List.append_nil _).symm, by simp⟩, [], .alloc, (List.append_nil _).symm⟩
    exact h.congr' (m' := ({ m with world := w } : Mach W).raise x) rfl rfl h.end_le rfl rfl rfl h.tr ⟨h.hist.sh, h.hist.dh⟩

end SC
