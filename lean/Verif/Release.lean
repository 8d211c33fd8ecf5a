import Verif.Inv
/-!
# Reference counting and destruction preserve the invariant
-/

namespace SC
open Spec
variable {W : Type} {P : Prog W} {L : Sid → Nat} {pend : Option Sid} {m : Mach W}

/-- Replacing an object's reference count (and adjusting `L`). -/
theorem Inv.setRc (h : Inv P.toChart L pend m) {s : Sid} {o : Obj} (ho : m.heap s = some o)
    {k l : Nat} (hk : k + L s = o.rc + l)
    (hleaf : P.isLeaf s = true → l = 0 → m.slot o.lpos = some s)
    (horph : P.isLeaf s = false → nch (P.regions (some s)) o.inner = 0 → m.pOU = some s ∨ l ≠ 0) :
    Inv P.toChart (upd L s l) pend { m with heap := upd m.heap s (some { o with rc := k }) } := by
  have hact : ∀ x, ((upd m.heap s (some { o with rc := k })) x).isSome = (m.heap x).isSome := by
    intro x; simp only [upd]; split
    · next hx => subst hx; simp [ho]
    · rfl
  have hget : ∀ {x ox}, (upd m.heap s (some { o with rc := k })) x = some ox →
      ∃ ox', m.heap x = some ox' ∧ ox.inner = ox'.inner ∧ ox.ctxSet = ox'.ctxSet ∧ ox.lpos = ox'.lpos ∧
        (x ≠ s → ox = ox') ∧ (x = s → ox' = o ∧ ox.rc = k) := by
    intro x ox hx
    simp only [upd] at hx
    split at hx
    · next hxs =>
      subst hxs; cases hx
      exact ⟨o, ho, rfl, rfl, rfl, fun h => absurd rfl h, fun _ => ⟨rfl, rfl⟩⟩
    · next hxs => exact ⟨ox, hx, rfl, rfl, rfl, fun _ => rfl, fun h => absurd h hxs⟩
  constructor
  · intro x ox hx; obtain ⟨ox', h1, _⟩ := hget hx; exact h.bound h1
  · intro x ox hx; obtain ⟨ox', h1, _, h3, _⟩ := hget hx; rw [h3]; exact h.ctx h1
  · intro x ox i c hx
    obtain ⟨ox', h1, h2, _⟩ := hget hx
    simp only [hact]
    rw [h2]; exact h.inner_iff h1
  · intro x p hx hp; simp only [hact] at hx ⊢; exact h.par_live hx hp
  · intro x; simp only [hact]; exact h.outer
  · intro i hi
    obtain ⟨x, ox, h1, h2, h3, h4⟩ := h.slot_in hi
    by_cases hxs : x = s
    · subst hxs; rw [ho] at h2; cases h2
      exact ⟨x, { o with rc := k }, h1, by simp, h3, h4⟩
    · exact ⟨x, ox, h1, by simp [hxs, h2], h3, h4⟩
  · exact h.slot_out
  · exact h.end_le
  · intro x ox hx hl hL
    obtain ⟨ox', h1, _, _, h4, h5, h6⟩ := hget hx
    by_cases hxs : x = s
    · subst hxs; obtain ⟨h7, _⟩ := h6 rfl; subst h7
      rw [h4]; simp at hL; exact hleaf hl hL
    · rw [h4]; simp [hxs] at hL; exact h.leaf_in h1 hl hL
  · intro x ox hx
    obtain ⟨ox', h1, h2, _, h4, h5, h6⟩ := hget hx
    by_cases hxs : x = s
    · subst hxs; obtain ⟨h7, h8⟩ := h6 rfl; subst h7
      have := h.rc h1
      rw [h8, h2, h4]; simp only [upd_same]; omega
    · rw [h5 hxs, upd_other _ _ hxs]; exact h.rc h1
  · intro x hx; simp only [hact]; exact h.ou_live hx
  · intro x hx
    simp only [hact]
    by_cases hxs : x = s
    · subst hxs; simp [ho]
    · rw [upd_other _ _ hxs] at hx; exact h.L_live hx
  · intro x ox hx hl hn
    obtain ⟨ox', h1, h2, _, h4, h5, h6⟩ := hget hx
    rw [h2] at hn
    by_cases hxs : x = s
    · subst hxs; obtain ⟨h7, h8⟩ := h6 rfl; subst h7
      simp only [upd_same]; exact horph hl hn
    · rw [upd_other _ _ hxs]; exact h.noOrphan h1 hl hn
  · exact ⟨h.hist.sh, h.hist.dh⟩
  · have : Mach.act { m with heap := upd m.heap s (some { o with rc := k }) } = m.act := by
      funext x; exact hact x
    rw [this]; exact h.tr

/-- Taking a reference. -/
theorem Inv.addRef (h : Inv P.toChart L pend m) {s : Sid} {o : Obj} (ho : m.heap s = some o) :
    Inv P.toChart (inc L s) pend { m with heap := upd m.heap s (some { o with rc := o.rc + 1 }) } :=
  h.setRc ho (by omega) (fun _ h => by omega) (fun _ _ => .inr (by omega))

/-- Dropping a reference that is not the last one. -/
theorem Inv.dropRef (h : Inv P.toChart L pend m) {s : Sid} {o : Obj} (ho : m.heap s = some o)
    (hL : L s ≠ 0) (hrc : 2 ≤ o.rc) :
    Inv P.toChart (dec L s) pend { m with heap := upd m.heap s (some { o with rc := o.rc - 1 }) } := by
  have hr := h.rc ho
  refine h.setRc ho (by omega) ?_ ?_
  · intro hl h0
    have hn : nch (P.regions (some s)) o.inner = 0 := by
      rw [nch_zero_iff]; intro i hi; rw [Chart.leaf_regions hl] at hi; omega
    have hou : m.pOU ≠ some s := by
      intro hs; rw [(h.ou_live hs).2] at hl; cases hl
    rw [hn] at hr; simp [hou] at hr
    by_cases hs : m.slot o.lpos = some s
    · exact hs
    · simp [hs] at hr; omega
  · intro hl hn
    have := h.not_slot ho hl
    simp [this, hn] at hr
    by_cases hou : m.pOU = some s
    · exact .inl hou
    · simp [hou] at hr; exact .inr (by omega)

/-- Heap after destruction of `s`. -/
def eraseHeap (C : Chart) (hp : Sid → Option Obj) (s : Sid) : Sid → Option Obj :=
  match C.parent s with
  | none => upd hp s none
  | some p => match hp p with
    | none => upd hp s none
    | some op => upd (upd hp p (some { op with inner := upd op.inner (C.pos s) none })) s none

/-- Destroying a childless, unreferenced state: its own reference to the
context becomes a stack reference. -/
theorem Inv.erase (hwf : P.toChart.WF) (h : Inv P.toChart L pend m) {s : Sid} {o : Obj}
    (ho : m.heap s = some o) (hL : L s ≤ 1)
    (hn : nch (P.regions (some s)) o.inner = 0) (hou : m.pOU ≠ some s) (hsl : m.slot o.lpos ≠ some s)
    {m' : Mach W} (hh : m'.heap = eraseHeap P.toChart m.heap s)
    (hslot : m'.slot = m.slot) (hlen : m'.len = m.len) (hpast : ∃ x, m'.trace = m.trace ++ x) (hend : m'.endIx = m.endIx)
    (hout : m'.outermost = if P.parent s = none then none else m.outermost)
    (hpou : m'.pOU = m.pOU) {pend' : Option Sid} (hH : HistOK P.toChart m')
    (htr : life P.toChart (m'.trace.map (·.2)) =
      some ⟨fun x => if x = s then false else m.act x, pend'⟩) :
    Inv P.toChart (incCtx (upd L s 0) (P.parent s)) pend' m' := by
  have hsn := h.bound ho
  have hns : P.parent s ≠ some s := fun hp => Nat.lt_irrefl _ (hwf.parent_lt hsn hp)
  -- facts about the new heap
  have hact : ∀ x, (m'.heap x).isSome = if x = s then false else (m.heap x).isSome := by
    intro x; rw [hh]; unfold eraseHeap
    cases hp : P.parent s with
    | none => simp only [upd]; split <;> rfl
    | some p =>
      simp only
      cases hop : m.heap p with
      | none => simp only [upd]; split <;> rfl
      | some op =>
        simp only [upd]; split
        · rfl
        · split
          · next hxp => subst hxp; simp [hop]
          · rfl
  have hs0 : m'.heap s = none := by have := hact s; simp at this; exact this
  have hget : ∀ {x ox}, m'.heap x = some ox →
      ∃ ox', m.heap x = some ox' ∧ x ≠ s ∧ ox.ctxSet = ox'.ctxSet ∧ ox.lpos = ox'.lpos ∧ ox.rc = ox'.rc ∧
        (P.parent s ≠ some x → ox = ox') ∧
        (P.parent s = some x → ox.inner = upd ox'.inner (P.pos s) none) := by
    intro x ox hx
    have hxs : x ≠ s := by intro hxs; subst hxs; rw [hs0] at hx; cases hx
    rw [hh] at hx; unfold eraseHeap at hx
    cases hp : P.parent s with
    | none =>
      simp [hp, hxs] at hx
      exact ⟨ox, hx, hxs, rfl, rfl, rfl, fun _ => rfl, fun h => by cases h⟩
    | some p =>
      simp only [hp] at hx
      cases hop : m.heap p with
      | none =>
        have := h.par_live (s := s) (by simp [ho]) hp
        rw [hop] at this; cases this
      | some op =>
        simp only [hop] at hx
        rw [upd_other _ _ hxs] at hx
        by_cases hxp : x = p
        · subst hxp; simp at hx; subst hx
          exact ⟨op, hop, hxs, rfl, rfl, rfl, fun h => absurd rfl h, fun _ => rfl⟩
        · rw [upd_other _ _ hxp] at hx
          exact ⟨ox, hx, hxs, rfl, rfl, rfl, fun _ => rfl, fun h => absurd (Option.some.inj h).symm hxp⟩
  -- the slot of `s` in its parent
  have hpar : ∀ {p op}, P.parent s = some p → m.heap p = some op → op.inner (P.pos s) = some s := by
    intro p op hp hop
    exact (h.inner_iff hop).2 ⟨by simp [ho], hp, rfl⟩
  have hLx : ∀ x, x ≠ s → P.parent s ≠ some x → incCtx (upd L s 0) (P.parent s) x = L x := by
    intro x hx hpx
    cases hp : P.parent s with
    | none => simp [incCtx, hx]
    | some p => rw [hp] at hpx; simp [incCtx, inc, upd, hx]; intro h; subst h; exact absurd rfl hpx
  have hLp : ∀ x, P.parent s = some x → incCtx (upd L s 0) (P.parent s) x = L x + 1 := by
    intro x hp
    have hx : x ≠ s := fun h => hns (by rw [hp, h])
    simp [hp, incCtx, inc, upd, hx]
  have hchild : ∀ c, (m.heap c).isSome → P.parent c ≠ some s := by
    intro c hc hp
    have hi := (h.inner_iff ho (i := P.pos c) (c := c)).2 ⟨hc, hp, rfl⟩
    rw [(nch_zero_iff _ _).1 hn _ (Chart.pos_lt_some hwf (h.live_bound hc) hp)] at hi
    cases hi
  constructor
  · intro x ox hx; obtain ⟨ox', h1, _⟩ := hget hx; exact h.bound h1
  · intro x ox hx; obtain ⟨ox', h1, _, h3, _⟩ := hget hx; rw [h3]; exact h.ctx h1
  · intro x ox i c hx
    obtain ⟨ox', h1, hxs, _, _, _, h5, h6⟩ := hget hx
    rw [hact c]
    by_cases hp : P.parent s = some x
    · rw [h6 hp]
      by_cases hi : i = P.pos s
      · subst hi
        simp only [upd_same]
        constructor
        · intro h; cases h
        · rintro ⟨h7, h8, h9⟩
          split at h7
          · cases h7
          · next hcs =>
            have ha := (h.inner_iff h1 (i := P.pos s) (c := c)).2 ⟨h7, h8, h9⟩
            rw [hpar hp h1] at ha
            exact absurd (Option.some.inj ha).symm hcs
      · rw [upd_other _ _ hi, h.inner_iff h1]
        constructor
        · rintro ⟨h7, h8, h9⟩
          refine ⟨?_, h8, h9⟩
          rw [if_neg]; exact h7
          intro hcs; subst hcs; exact hi h9.symm
        · rintro ⟨h7, h8, h9⟩
          split at h7
          · cases h7
          · exact ⟨h7, h8, h9⟩
    · rw [h5 hp, h.inner_iff h1]
      constructor
      · rintro ⟨h7, h8, h9⟩
        refine ⟨?_, h8, h9⟩
        rw [if_neg]; exact h7
        intro hcs; subst hcs; exact hp h8
      · rintro ⟨h7, h8, h9⟩
        split at h7
        · cases h7
        · exact ⟨h7, h8, h9⟩
  · intro x p hx hp
    rw [hact] at hx ⊢
    split at hx
    · cases hx
    · rw [if_neg]; exact h.par_live hx hp
      intro hps; subst hps; exact hchild x hx hp
  · intro x
    rw [hout, hact]
    by_cases hp : P.parent s = none
    · rw [if_pos hp]
      constructor
      · intro h; cases h
      · rintro ⟨h1, h2⟩
        split at h1
        · cases h1
        · next hxs =>
          have ha := h.outer.2 ⟨h1, h2⟩
          have hb := h.outer.2 ⟨by simp [ho], hp⟩
          rw [ha] at hb; exact absurd (Option.some.inj hb) hxs
    · rw [if_neg hp, h.outer]
      constructor
      · rintro ⟨h1, h2⟩
        refine ⟨?_, h2⟩
        rw [if_neg]; exact h1
        intro hxs; subst hxs; exact hp h2
      · rintro ⟨h1, h2⟩
        split at h1
        · cases h1
        · exact ⟨h1, h2⟩
  · intro i hi
    rw [hend] at hi
    obtain ⟨x, ox, h1, h2, h3, h4⟩ := h.slot_in hi
    have hxs : x ≠ s := by
      intro hxs; subst hxs; rw [ho] at h2; cases h2; rw [h4] at hsl; exact hsl h1
    have hx' : (m'.heap x).isSome := by rw [hact]; simp [hxs, h2]
    obtain ⟨ox', hox'⟩ := Option.isSome_iff_exists.1 hx'
    obtain ⟨ox2, h5, _, _, h6, _⟩ := hget hox'
    rw [h2] at h5; cases h5
    exact ⟨x, ox', by rw [hslot]; exact h1, hox', h3, by rw [h6]; exact h4⟩
  · intro i hi; rw [hslot]; rw [hend] at hi; exact h.slot_out hi
  · obtain ⟨x, hx⟩ := hpast
    rw [hend, hlen, hx]; exact ⟨h.end_le.1, h.end_le.2.mono x⟩
  · intro x ox hx hl hL0
    obtain ⟨ox', h1, hxs, _, h4, _, h5, h6⟩ := hget hx
    rw [hslot, h4]
    by_cases hp : P.parent s = some x
    · rw [hLp x hp] at hL0; omega
    · rw [hLx x hxs hp] at hL0; exact h.leaf_in h1 hl hL0
  · intro x ox hx
    obtain ⟨ox', h1, hxs, _, h4, hrc, h5, h6⟩ := hget hx
    rw [hslot, h4, hpou, hrc, h.rc h1]
    by_cases hp : P.parent s = some x
    · rw [hLp x hp, h6 hp]
      have := nch_upd_none (k := P.regions (some x)) (Chart.pos_lt_some hwf hsn hp) (hpar hp h1)
      omega
    · rw [hLx x hxs hp, h5 hp]
  · intro x hx
    rw [hpou] at hx
    refine ⟨?_, (h.ou_live hx).2⟩
    rw [hact, if_neg]; exact (h.ou_live hx).1
    intro hxs; subst hxs; exact hou hx
  · intro x hx
    rw [hact]
    by_cases hxs : x = s
    · subst hxs
      exfalso
      apply hx
      cases hp : P.parent x with
      | none => simp [incCtx]
      | some p => simp [incCtx, inc, upd]; intro hxp; subst hxp; exact hns hp
    · rw [if_neg hxs]
      by_cases hp : P.parent s = some x
      · exact h.par_live (by simp [ho]) hp
      · rw [hLx x hxs hp] at hx; exact h.L_live hx
  · intro x ox hx hl hnx
    obtain ⟨ox', h1, hxs, _, h4, _, h5, h6⟩ := hget hx
    rw [hpou]
    by_cases hp : P.parent s = some x
    · right; rw [hLp x hp]; omega
    · rw [hLx x hxs hp]; rw [h5 hp] at hnx; exact h.noOrphan h1 hl hnx
  · exact hH
  · rw [htr]
    congr 2
    funext x
    simp only [Mach.act, hact]

end SC
