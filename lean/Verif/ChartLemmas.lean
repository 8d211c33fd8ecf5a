import Verif.Spec
/-!
# Facts about well-formed charts
-/

namespace SC
open Spec
namespace Chart
variable {C : Chart}

theorem parent_bound (h : C.WF) {s p : Sid} (hs : s < C.n) (hp : C.parent s = some p) : p < C.n :=
  Nat.lt_trans (h.parent_lt hs hp) hs

theorem isLeaf_iff {s : Sid} : C.isLeaf s = true ↔ C.init s = [] := by
  simp [isLeaf]

theorem regions_some {s : Sid} : C.regions (some s) = (C.init s).length := rfl

theorem leaf_regions {s : Sid} (h : C.isLeaf s = true) : C.regions (some s) = 0 := by
  rw [isLeaf_iff] at h; simp [regions_some, h]

theorem not_leaf_of_regions {s : Sid} (h : 0 < C.regions (some s)) : C.isLeaf s = false := by
  cases hl : C.isLeaf s with
  | false => rfl
  | true => rw [leaf_regions hl] at h; omega

theorem pos_lt_some (h : C.WF) {s p : Sid} (hs : s < C.n) (hp : C.parent s = some p) :
    C.pos s < C.regions (some p) := by
  have := h.pos_lt hs; rwa [hp] at this

theorem parent_not_leaf (h : C.WF) {s p : Sid} (hs : s < C.n) (hp : C.parent s = some p) :
    C.isLeaf p = false :=
  not_leaf_of_regions (Nat.lt_of_le_of_lt (Nat.zero_le _) (pos_lt_some h hs hp))

theorem pos_root (h : C.WF) {s : Sid} (hs : s < C.n) (hp : C.parent s = none) : C.pos s = 0 := by
  have := h.pos_lt hs; rw [hp] at this; simp [regions] at this; exact this

end Chart

namespace Spec
variable {C : Chart}

theorem Below.le (h : C.WF) {t s : Sid} (hs : s < C.n) (hb : Below C t s) : t ≤ s := by
  induction hb with
  | refl => exact Nat.le_refl _
  | step hp _ ih =>
    have := h.parent_lt hs hp
    exact Nat.le_trans (ih (Nat.lt_trans this hs)) (Nat.le_of_lt this)

theorem Below.trans {t s u : Sid} (h1 : Below C t s) (h2 : Below C s u) : Below C t u := by
  induction h2 with
  | refl => exact h1
  | step hp _ ih => exact .step hp ih

theorem Below.bound (h : C.WF) {t s : Sid} (hs : s < C.n) (hb : Below C t s) : t < C.n :=
  Nat.lt_of_le_of_lt (hb.le h hs) hs

/-- Two outer states of one state are comparable. -/
theorem Below.linear {a b s : Sid} (ha : Below C a s) (hb : Below C b s) : Below C a b ∨ Below C b a := by
  induction ha with
  | refl => exact .inr hb
  | step hp ha' ih =>
    cases hb with
    | refl => exact .inl (.step hp ha')
    | step hp' hb' =>
      rw [hp] at hp'; cases hp'
      exact ih hb'

theorem Below.antisymm (h : C.WF) {a b : Sid} (hn : b < C.n) (h1 : Below C a b) (h2 : Below C b a) : a = b := by
  have ha := h1.bound h hn
  exact Nat.le_antisymm (h1.le h hn) (h2.le h ha)

/-- Below `p`: `p` itself or below one of its direct inner states. -/
theorem Below.child {p s : Sid} (hb : Below C p s) : s = p ∨ ∃ c, C.parent c = some p ∧ Below C c s := by
  induction hb with
  | refl => exact .inl rfl
  | @step s q hp hb ih =>
    right
    rcases ih with rfl | ⟨c, hc, hcb⟩
    · exact ⟨s, hp, .refl⟩
    · exact ⟨c, hc, .step hp hcb⟩

theorem Outer.below {t s : Sid} (h : Outer C t s) : Below C t s := by
  obtain ⟨p, hp, hb⟩ := h; exact .step hp hb

theorem Below.eq_or_outer {t s : Sid} (h : Below C t s) : t = s ∨ Outer C t s := by
  cases h with
  | refl => exact .inl rfl
  | step hp hb => exact .inr ⟨_, hp, hb⟩

theorem Outer.lt (h : C.WF) {t s : Sid} (hs : s < C.n) (ho : Outer C t s) : t < s := by
  obtain ⟨p, hp, hb⟩ := ho
  have := h.parent_lt hs hp
  exact Nat.lt_of_le_of_lt (hb.le h (Nat.lt_trans this hs)) this

/-- Disjointness: siblings have disjoint subtrees. -/
theorem Below.sibling (h : C.WF) {a b s : Sid} (hs : s < C.n) (ha : Below C a s) (hb : Below C b s)
    (hp : C.parent a = C.parent b) : a = b := by
  have han := ha.bound h hs
  have hbn := hb.bound h hs
  rcases ha.linear hb with hab | hba
  · rcases hab.eq_or_outer with rfl | ⟨p, hpp, hbp⟩
    · rfl
    · rw [← hp] at hpp
      have h1 := h.parent_lt han hpp
      have h2 := hbp.le h (Nat.lt_trans h1 han)
      omega
  · rcases hba.eq_or_outer with rfl | ⟨p, hpp, hbp⟩
    · rfl
    · rw [hp] at hpp
      have h1 := h.parent_lt hbn hpp
      have h2 := hbp.le h (Nat.lt_trans h1 hbn)
      omega

end Spec

namespace Chart
variable {C : Chart}

theorem ancF_eq (h : C.WF) : ∀ (f g : Nat) (s : Sid), s < C.n → s ≤ f → s ≤ g → C.ancF f s = C.ancF g s := by
  intro f
  induction f with
  | zero =>
    intro g s hs hf _
    have hs0 : s = 0 := by omega
    have : C.parent s = none := by
      cases hp : C.parent s with
      | none => rfl
      | some p => have := h.parent_lt hs hp; omega
    cases g with
    | zero => rfl
    | succ g => simp [ancF, this]
  | succ f ih =>
    intro g s hs hf hg
    cases hp : C.parent s with
    | none => cases g <;> simp [ancF, hp]
    | some p =>
      have hlt := h.parent_lt hs hp
      cases g with
      | zero => omega
      | succ g =>
        simp only [ancF, hp]
        rw [ih g p (Nat.lt_trans hlt hs) (by omega) (by omega)]

theorem ancestors_none {s : Sid} (hp : C.parent s = none) : C.ancestors s = [] := by
  unfold ancestors
  cases s <;> simp [ancF, hp]

theorem ancestors_some (h : C.WF) {s p : Sid} (hs : s < C.n) (hp : C.parent s = some p) :
    C.ancestors s = p :: C.ancestors p := by
  have hlt := h.parent_lt hs hp
  unfold ancestors
  cases s with
  | zero => omega
  | succ s =>
    simp only [ancF, hp]
    rw [ancF_eq h s p p (Nat.lt_trans hlt hs) (by omega) (Nat.le_refl _)]

theorem mem_ancestors (h : C.WF) {s t : Sid} (hs : s < C.n) : t ∈ C.ancestors s ↔ Outer C t s := by
  induction s using Nat.strongRecOn with
  | _ s ih =>
    cases hp : C.parent s with
    | none =>
      rw [ancestors_none hp]
      simp [Outer, hp]
    | some p =>
      have hlt := h.parent_lt hs hp
      rw [ancestors_some h hs hp, List.mem_cons, ih p hlt (Nat.lt_trans hlt hs)]
      constructor
      · rintro (rfl | ho)
        · exact ⟨_, hp, .refl⟩
        · exact ⟨p, hp, ho.below⟩
      · rintro ⟨q, hq, hb⟩
        rw [hp] at hq; cases hq
        exact hb.eq_or_outer

theorem ctxList_none {s : Sid} (hp : C.parent s = none) : C.ctxList s = [none] := by
  simp [ctxList, ancestors_none hp]

theorem ctxList_some (h : C.WF) {s p : Sid} (hs : s < C.n) (hp : C.parent s = some p) :
    C.ctxList s = some p :: C.ctxList p := by
  simp [ctxList, ancestors_some h hs hp]

theorem mem_ctxList (h : C.WF) {s : Sid} (hs : s < C.n) {c : Option Sid} :
    c ∈ C.ctxList s ↔ (c = none ∨ ∃ t, c = some t ∧ Outer C t s) := by
  simp only [ctxList, List.mem_append, List.mem_map, List.mem_singleton]
  constructor
  · rintro (⟨t, ht, rfl⟩ | rfl)
    · exact .inr ⟨t, rfl, (mem_ancestors h hs).1 ht⟩
    · exact .inl rfl
  · rintro (rfl | ⟨t, rfl, ht⟩)
    · exact .inr rfl
    · exact .inl ⟨t, (mem_ancestors h hs).2 ht, rfl⟩

/-- A path from context `p` down to `d`: `cs` are the states in between. -/
inductive Path (C : Chart) : Option Sid → List Sid → Sid → Prop
  | nil {p d} : C.parent d = p → Path C p [] d
  | cons {p x cs d} : C.parent x = p → Path C (some x) cs d → Path C p (x :: cs) d

theorem Path.snoc {p : Option Sid} {cs : List Sid} {d e : Sid} (h : Path C p cs d)
    (he : C.parent e = some d) : Path C p (cs ++ [d]) e := by
  induction h with
  | nil hp => exact .cons hp (.nil he)
  | cons hp _ ih => exact .cons hp (ih he)

theorem Path.head {p : Option Sid} {cs : List Sid} {d : Sid} (h : Path C p cs d) :
    C.parent (cs.headD d) = p := by
  cases h with
  | nil hp => exact hp
  | cons hp _ => exact hp

theorem Path.head_below {p : Option Sid} {cs : List Sid} {d : Sid} (h : Path C p cs d) :
    Below C (cs.headD d) d := by
  induction h with
  | nil hp => exact .refl
  | @cons p x cs d hp h ih =>
    have := h.head
    exact Below.trans (.step this .refl) ih

theorem Path.head_mem {p : Option Sid} {cs : List Sid} {d : Sid} (h : Path C p cs d) : ∀ x ∈ cs, Below C x d := by
  induction h with
  | nil hp => simp
  | @cons p x cs d hp h ih =>
    intro y hy
    rcases List.mem_cons.1 hy with rfl | hy
    · have := h.head
      exact Below.trans (.step this .refl) h.head_below
    · exact ih y hy

/-- `make_context_list` yields the path from the common context to `d`. -/
theorem pathBelow_path (h : C.WF) {d : Sid} (hd : d < C.n) {c : Option Sid} (hc : c ∈ C.ctxList d) :
    Path C c (C.pathBelow c d) d := by
  induction d using Nat.strongRecOn with
  | _ d ih =>
    cases hp : C.parent d with
    | none =>
      rw [ctxList_none hp] at hc
      simp at hc; subst hc
      simp [pathBelow, ctxList_none hp]
      exact .nil hp
    | some p =>
      have hlt := h.parent_lt hd hp
      have hpn := Nat.lt_trans hlt hd
      rw [ctxList_some h hd hp] at hc
      by_cases hcp : c = some p
      · subst hcp
        simp [pathBelow, ctxList_some h hd hp]
        exact .nil hp
      · have hc' : c ∈ C.ctxList p := by
          rcases List.mem_cons.1 hc with hc | hc
          · exact absurd hc hcp
          · exact hc
        have := ih p hlt hpn hc'
        have hne : (some p == c) = false := by
          simp; exact fun h => hcp h.symm
        have he : C.pathBelow c d = C.pathBelow c p ++ [p] := by
          simp [pathBelow, ctxList_some h hd hp, hne]
        rw [he]
        exact this.snoc hp

theorem commonCtx_spec (h : C.WF) {s d : Sid} (hs : s < C.n) (hd : d < C.n) :
    C.commonCtx s d ∈ C.ctxList s ∧ C.commonCtx s d ∈ C.ctxList d ∧
    (C.ctxList s).find? (fun c => (C.ctxList d).contains c) = some (C.commonCtx s d) := by
  have hex : ∃ c, (C.ctxList s).find? (fun c => (C.ctxList d).contains c) = some c := by
    rw [← Option.isSome_iff_exists, List.find?_isSome]
    refine ⟨none, (mem_ctxList h hs).2 (.inl rfl), ?_⟩
    simp; exact (mem_ctxList h hd).2 (.inl rfl)
  obtain ⟨c, hc⟩ := hex
  have he : C.commonCtx s d = c := by unfold commonCtx; rw [hc]; rfl
  rw [he]
  refine ⟨List.mem_of_find?_eq_some hc, ?_, hc⟩
  have := List.find?_some hc
  simpa using this

/-- The element before the first occurrence of context `c` in
`s :: context list` is the state below `c` on the way to `s`. -/
theorem at_idx (h : C.WF) : ∀ (s : Sid), s < C.n → ∀ c, c ∈ C.ctxList s →
    ∃ t, (some s :: C.ctxList s).getD ((C.ctxList s).idxOf c) none = some t ∧
      C.parent t = c ∧ Below C t s := by
  intro s
  induction s using Nat.strongRecOn with
  | _ s ih =>
    intro hs c hc
    cases hp : C.parent s with
    | none =>
      rw [ctxList_none hp] at hc ⊢
      simp at hc; subst hc
      exact ⟨s, by simp, hp, .refl⟩
    | some p =>
      have hlt := h.parent_lt hs hp
      have hpn := Nat.lt_trans hlt hs
      rw [ctxList_some h hs hp] at hc ⊢
      by_cases hcp : c = some p
      · subst hcp
        exact ⟨s, by simp, hp, .refl⟩
      · have hc' : c ∈ C.ctxList p := by
          rcases List.mem_cons.1 hc with hc | hc
          · exact absurd hc hcp
          · exact hc
        obtain ⟨t, ht, htp, htb⟩ := ih p hlt hpn c hc'
        refine ⟨t, ?_, htp, .step hp htb⟩
        have hne : (some p == c) = false := by
          simp; exact fun h => hcp h.symm
        rw [List.idxOf_cons, hne]
        simpa using ht

theorem termState_spec (h : C.WF) {s d : Sid} (hs : s < C.n) (hd : d < C.n) :
    ∃ t, C.termState s d = some t ∧ C.parent t = C.commonCtx s d ∧ Below C t s := by
  obtain ⟨h1, _, _⟩ := commonCtx_spec h hs hd
  exact at_idx h s hs _ h1

/-- The target is a state of the chart, or a history of it in a context that has it. -/
structure TargetOK (C : Chart) (t : Target) : Prop where
  bound : t.st < C.n
  shallow : t.kind = .shallow → ∃ p, C.parent t.st = some p ∧ C.shallowH p = true
  deep : t.kind = .deep → ∃ p, C.parent t.st = some p ∧ C.deepH p = true

theorem TargetOK.plain {C : Chart} {d : Sid} (h : d < C.n) : TargetOK C ⟨.plain, d⟩ := ⟨h, (by simp), (by simp)⟩

theorem TargetOK.hist {C : Chart} {t : Target} (h : TargetOK C t) : t.kind = .plain ∨ ∃ p, C.parent t.st = some p := by
  cases hk : t.kind with
  | plain => exact .inl rfl
  | shallow => obtain ⟨p, h1, _⟩ := h.shallow hk; exact .inr ⟨p, h1⟩
  | deep => obtain ⟨p, h1, _⟩ := h.deep hk; exact .inr ⟨p, h1⟩

theorem transitOK_spec {s : Sid} {d : Target} {a : Option Nat} (ht : C.transitOK s d a = true) :
    s < C.n ∧ TargetOK C d ∧ ∃ t, C.termState s d.st = some t ∧
      C.pos t = C.pos (C.firstEntered (C.commonCtx s d.st) d.st) := by
  unfold transitOK at ht
  simp only [Bool.and_eq_true, decide_eq_true_eq] at ht
  obtain ⟨⟨⟨⟨h1, h2⟩, h4⟩, _⟩, h3⟩ := ht
  refine ⟨h1, ⟨h2, fun hk => ?_, fun hk => ?_⟩, ?_⟩
  · unfold histOK at h4
    rw [hk] at h4
    cases hp : C.parent d.st with
    | none => simp [hp] at h4
    | some p => simp [hp] at h4; exact ⟨p, rfl, h4⟩
  · unfold histOK at h4
    rw [hk] at h4
    cases hp : C.parent d.st with
    | none => simp [hp] at h4
    | some p => simp [hp] at h4; exact ⟨p, rfl, h4⟩
  cases htt : C.termState s d.st with
  | none => simp [htt] at h3
  | some t =>
    simp [htt] at h3
    exact ⟨t, rfl, h3⟩

theorem ctxOf_eq (a : Option Nat) : C.ctxOf a = a.bind C.actCtx := by cases a <;> rfl

theorem transitOK_ctx {s : Sid} {d : Target} {a : Option Nat} (ht : C.transitOK s d a = true) (hr : C.relaxed = true) :
    a.bind C.actCtx ∈ C.actionCtxs s := by
  rw [← ctxOf_eq]
  unfold transitOK at ht
  simp only [Bool.and_eq_true, hr] at ht
  simpa using ht.1.2

end Chart
end SC
