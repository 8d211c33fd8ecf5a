import Verif.History
/-!
# Deferred events and the states that deferred them
-/

namespace SC
open Spec Chart
variable {W : Type} {P : Prog W} {m : Mach W}

/-- Some existing state has deferred an event. -/
def Flagged (m : Mach W) : Prop := ∃ s o, m.heap s = some o ∧ o.deferred = true

/-- Deferred events are not stranded. -/
def Flags (m : Mach W) : Prop := m.dq ≠ [] → Flagged m

/-- Objects without context have not deferred anything. -/
def Early (m : Mach W) : Prop := ∀ s o, m.heap s = some o → o.ctxSet = false → o.deferred = false

def FlagRel (m m' : Mach W) : Prop := Early m ∧ Flags m → Early m' ∧ Flags m'

theorem FlagRel.refl (m : Mach W) : FlagRel m m := id
theorem FlagRel.trans {a b c : Mach W} (h1 : FlagRel a b) (h2 : FlagRel b c) : FlagRel a c := fun h => h2 (h1 h)

def flagK : KRel W where
  R := FlagRel
  E _ := FlagRel
  refl := FlagRel.refl
  trans := FlagRel.trans
  re := FlagRel.trans
  er := FlagRel.trans

theorem flagRel_of {m m' : Mach W} (h1 : m'.heap = m.heap) (h2 : m'.dq = m.dq) : FlagRel m m' := by
  intro h
  unfold Early Flags Flagged at *
  rw [h1, h2]; exact h

theorem UserStep.flagRel {m m' : Mach W} {obs : List Obs} (h : UserStep m m' obs) : FlagRel m m' :=
  flagRel_of h.core.heap h.queue.2

theorem keeps_runUser_flag {f : View → W → UOut W} {a b : List Obs} : Keeps flagK (runUser f a b) := by
  intro m
  have : wp (runUser f a b) (fun _ m' => FlagRel m m') (fun _ m' => FlagRel m m') m :=
    wp_runUser (fun _ h => h.flagRel) (fun _ _ h => h.flagRel)
  unfold wp at this
  unfold KeepsAt
  cases hx : runUser f a b m <;> rw [hx] at this
  · exact this
  · exact this
  · trivial

theorem flagRel_setObj {m : Mach W} {s : Sid} {o o' : Obj} (h : m.heap s = some o) (ho : ObjStep o o') :
    FlagRel m { m with heap := upd m.heap s (some o') } := by
  rintro ⟨h1, h2⟩
  refine ⟨?_, ?_⟩
  · intro x ox hx hc
    simp only [upd] at hx
    split at hx
    · cases hx
      rw [ho.deferred]
      refine h1 s o h ?_
      cases hcc : o.ctxSet with
      | false => rfl
      | true => rw [ho.ctxSet hcc] at hc; cases hc
    · exact h1 x ox hx hc
  · intro hd
    obtain ⟨x, ox, hx, hf⟩ := h2 hd
    by_cases hxs : x = s
    · subst hxs
      rw [h] at hx; cases hx
      exact ⟨x, o', by simp [upd], by rw [ho.deferred]; exact hf⟩
    · exact ⟨x, ox, by simp [upd, hxs]; exact hx, hf⟩

theorem flagRel_newObj {m : Mach W} {s : Sid} (h : m.heap s = none) :
    FlagRel m { m with heap := upd m.heap s (some newObj) } := by
  rintro ⟨h1, h2⟩
  refine ⟨?_, ?_⟩
  · intro x ox hx hc
    simp only [upd] at hx
    split at hx
    · cases hx; rfl
    · exact h1 x ox hx hc
  · intro hd
    obtain ⟨x, ox, hx, hf⟩ := h2 hd
    by_cases hxs : x = s
    · subst hxs; rw [h] at hx; cases hx
    · exact ⟨x, ox, by simp [upd, hxs]; exact hx, hf⟩

/-- What `removeInner` leaves alone. -/
theorem removeInner_flag {c : Option Sid} {i : Nat} {m m' : Mach W} (h : removeInner P c i m = .ok () m') :
    m'.dq = m.dq ∧ (∀ s o, m.heap s = some o → ∃ o', m'.heap s = some o' ∧ o'.deferred = o.deferred) ∧ (Early m → Early m') := by
  unfold removeInner at h
  cases c with
  | none =>
    simp only at h
    split at h
    · cases h; exact ⟨rfl, fun s o h => ⟨o, h, rfl⟩, id⟩
    · cases h
  | some p =>
    simp only at h
    change M.bnd (getObj p) _ m = _ at h
    unfold M.bnd getObj at h
    cases hp : m.heap p with
    | none => rw [hp] at h; cases h
    | some o =>
      rw [hp] at h
      simp only at h
      split at h
      · cases h
        refine ⟨rfl, ?_, ?_⟩
        · intro s o1 hs
          by_cases hsp : s = p
          · subst hsp; rw [hp] at hs; cases hs
            exact ⟨{ o with inner := upd o.inner i none }, by simp [upd], rfl⟩
          · exact ⟨o1, by simp [upd, hsp]; exact hs, rfl⟩
        · intro he x ox hx hc
          simp only [upd] at hx
          split at hx
          · cases hx; exact he p o hp hc
          · exact he x ox hx hc
      · cases h

theorem keeps_removeInner_flag (c : Option Sid) (i : Nat) : Keeps flagK (removeInner P c i) := by
  unfold removeInner
  split
  · exact Keeps.ite (fun _ => Keeps.modify fun m => flagRel_of rfl rfl) fun _ => Keeps.fault _
  · refine keeps_getObj_bind fun o m ho => ?_
    split
    · exact flagRel_setObj ho ⟨rfl, id⟩
    · trivial

theorem keeps_baseDtor_flag {rel : Sid → M W Unit} (hr : ∀ s, Keeps flagK (rel s)) (s : Sid) : Keeps flagK (baseDtor P rel s) := by
  unfold baseDtor
  refine keeps_getObj_bind fun o m ho => ?_
  have hend : ∀ m : Mach W, KeepsAt flagK (match P.parent s with | none => pure () | some p => rel p) m := by
    intro m
    split
    · exact Keeps.pure _ _
    · exact hr _ _
  split
  · next hc =>
    have hdel : ∀ m1 : Mach W, (m1.dq = [] ∨ ∃ o1, m1.heap s = some o1 ∧ o1.deferred = false) →
        KeepsAt flagK (do
          removeInner P (P.parent s) (P.pos s)
          M.modify fun m => { m with heap := upd m.heap s none }
          match P.parent s with | none => pure () | some p => rel p) m1 := by
      intro m1 h1
      refine KeepsAt.bind (keeps_removeInner_flag _ _ m1) fun _ m2 h2 => ?_
      obtain ⟨g1, g2, _⟩ := removeInner_flag h2
      have h3 : FlagRel m2 { m2 with heap := upd m2.heap s none } := by
        rintro ⟨e1, f1⟩
        refine ⟨?_, ?_⟩
        · intro x ox hx hc
          simp only [upd] at hx
          split at hx
          · cases hx
          · exact e1 x ox hx hc
        · intro hd
          rcases h1 with h1 | ⟨o1, h1, h1f⟩
          · exfalso; apply hd; show m2.dq = []; rw [g1, h1]
          · obtain ⟨x, ox, hx, hf⟩ := f1 hd
            obtain ⟨o2, k1, k2⟩ := g2 s o1 h1
            have hxs : x ≠ s := by
              rintro rfl; rw [k1] at hx; cases hx; rw [k2, h1f] at hf; cases hf
            exact ⟨x, ox, by simp [upd, hxs]; exact hx, hf⟩
      exact KeepsAt.bind h3 fun _ m3 _ => hend m3
    by_cases hd : o.deferred = true
    · rw [if_pos hd]
      refine KeepsAt.bind (x := releaseEvents s) ?_ ?_
      · show FlagRel m _
        rintro ⟨h1, _⟩
        exact ⟨h1, fun hd => absurd rfl hd⟩
      · intro _ m1 h1
        apply hdel
        cases h1; exact .inl rfl
    · rw [if_neg hd]
      apply hdel
      exact .inr ⟨o, ho, by simpa using hd⟩
  · next hc =>
    show FlagRel m _
    rintro ⟨h1, h2⟩
    refine ⟨?_, ?_⟩
    · intro x ox hx hcx
      simp only [upd] at hx
      split at hx
      · cases hx
      · exact h1 x ox hx hcx
    · intro hd
      obtain ⟨x, ox, hx, hf⟩ := h2 hd
      have hxs : x ≠ s := by
        rintro rfl
        rw [ho] at hx; cases hx
        have := h1 x o ho (by simpa using hc)
        rw [this] at hf; cases hf
      exact ⟨x, ox, by simp [upd, hxs]; exact hx, hf⟩

theorem flagParts (P : Prog W) : PartPrims flagK P where
  core h1 h2 := flagRel_of h2 h1.dq
  raise _ _ := flagRel_of rfl rfl
  setObj := flagRel_setObj
  newObj := flagRel_newObj
  baseDtor := keeps_baseDtor_flag
  ctor s := by
    intro m
    have := keeps_runUser_flag (f := P.ctor s) (a := [.enter s]) (b := [.enterFail s]) m
    unfold KeepsAt runCtor
    by_cases hc : P.isSimple s = true ∧ (P.ctor s m.view m.world).cmds ≠ []
    · simp [hc]
    · rw [if_neg hc]; exact this
  dtor s := by
    intro m
    exact flagRel_of (cmds_step _ _).core.heap (cmds_step _ _).queue.2
  action a := by
    cases a with
    | none => exact Keeps.pure _
    | some a => exact keeps_runUser_flag
  react s id e := keeps_runUser_flag

theorem flagPrims (P : Prog W) : Prims flagK P := (flagParts P).prims

theorem keeps_fullExit_flag (s : Sid) : Keeps flagK (fullExitPart P s) :=
  (flagPrims P).fullExit (fun _ _ => flagRel_of rfl rfl) (fun _ _ _ => flagRel_of rfl rfl) (fun _ _ _ => flagRel_of rfl rfl) (fun _ => keeps_runUser_flag) s

theorem keeps_transit_flag (s : Sid) (d : Target) (a : Option Nat) : Keeps flagK (transit P s d a) := fun _ =>
  (flagPrims P).transitAt (fun _ => keeps_fullExit_flag) s d a

theorem keeps_terminateReaction_flag (s : Sid) : Keeps flagK (terminateReaction P s) := fun _ =>
  (flagPrims P).terminateReactionAt (fun _ => keeps_fullExit_flag) s

theorem Inv.early {C : Chart} {L : Sid → Nat} {pend : Option Sid} (h : Inv C L pend m) : Early m := by
  intro s o ho hc
  rw [h.ctx ho] at hc; cases hc

end SC
