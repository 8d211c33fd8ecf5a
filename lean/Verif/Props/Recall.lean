import Verif.HistLog
import Verif.Props.Order
/-!
# Memory as a function of the past
-/

namespace SC.Spec
open SC Chart
variable {C : Chart}

theorem Logs.refl (l : List HOp) : Logs l [] l := ⟨[], by simp, by simp, rfl, by simp⟩

theorem LogsBut.append {n k : Nat} {a b c : List HOp} {o o' : List Obs} (h1 : LogsBut n a o b) (h2 : LogsBut k b o' c) : LogsBut (n + k) a (o ++ o') c := by
  obtain ⟨p, rfl, h3, h4, h7⟩ := h1
  obtain ⟨q, rfl, h5, h6, h8⟩ := h2
  exact ⟨p ++ q, by simp, by simp [h3, h5], by rw [List.filterMap_append, List.filterMap_append, h4, h6], by rw [List.countP_append]; omega⟩

theorem Logs.append {a b c : List HOp} {o o' : List Obs} (h1 : Logs a o b) (h2 : Logs b o' c) : Logs a (o ++ o') c := LogsBut.append h1 h2

theorem LogsBut.mono {n k : Nat} {a b : List HOp} {o : List Obs} (h : LogsBut n a o b) (hk : n ≤ k) : LogsBut k a o b := by
  obtain ⟨p, h1, h2, h3, h4⟩ := h
  exact ⟨p, h1, h2, h3, Nat.le_trans h4 hk⟩

theorem exact_clear1 {h : Memory} {c : HOp} (hc : c.isClear = true) (he : Exact C h) : Exact C (h.clear1 c) ∧ (h.clear1 c).log = h.log ++ [c] := by
  have key : ∀ l, h = recall C l → h.clear1 c = recall C (l ++ [c]) := by
    rintro l rfl
    cases c with
    | exit s => cases hc
    | cut s k => cases hc
    | clear => cases hc
    | clearShallow k =>
      refine mem_ext rfl (fun p i => ?_) (fun p i => ?_)
      · show (if (p, i) = k then none else lastSaid (shallowSays C p i) l) = lastSaid _ _
        rw [lastSaid_snoc]
        simp only [shallowSays]
        by_cases hk : k = (p, i)
        · rw [if_pos hk.symm, if_pos hk]
        · rw [if_neg (fun h => hk h.symm), if_neg hk]
      · show lastSaid (deepSays C p i) l = lastSaid _ _
        rw [lastSaid_snoc]; rfl
    | clearDeep k =>
      refine mem_ext rfl (fun p i => ?_) (fun p i => ?_)
      · show lastSaid (shallowSays C p i) l = lastSaid _ _
        rw [lastSaid_snoc]; rfl
      · show (if (p, i) = k then none else lastSaid (deepSays C p i) l) = lastSaid _ _
        rw [lastSaid_snoc]
        simp only [deepSays]
        by_cases hk : k = (p, i)
        · rw [if_pos hk.symm, if_pos hk]
        · rw [if_neg (fun h => hk h.symm), if_neg hk]
  have h2 := key h.log he
  refine ⟨?_, by rw [h2]; rfl⟩
  unfold Exact
  rw [h2]; rfl

theorem Forget.exact {h h' : Memory} (hf : Forget h h') (he : Exact C h) : Clears C h h' := by
  obtain ⟨cs, hc, rfl⟩ := hf
  induction cs generalizing h with
  | nil => exact ⟨he, he, Logs.refl _⟩
  | cons c cs ih =>
    obtain ⟨h1, h2⟩ := exact_clear1 (C := C) (hc c (by simp)) he
    obtain ⟨_, h4, h5⟩ := ih h1 fun c hc' => hc c (by simp [hc'])
    refine ⟨he, h4, ?_⟩
    rw [h2] at h5
    refine Logs.append (o := []) ⟨[c], rfl, ?_, ?_, ?_⟩ h5
    · have := hc c (by simp)
      intro hm
      simp only [List.mem_singleton] at hm
      subst hm; cases this
    · have := hc c (by simp)
      cases c <;> first | rfl | cases this
    · have := hc c (by simp)
      cases c <;> first | exact Nat.le_refl _ | cases this

theorem MemRun.exact (hwf : C.WF) {h h' : Memory} {obs : List Obs} (hr : MemRun C Forget h obs h') : (∀ s, .exit s ∈ obs → s < C.n) → Exact C h →
    Exact C h' ∧ Logs h.log obs h'.log := by
  induction hr with
  | nil hf => exact fun _ he => (hf.exact he).2
  | @exit h h1 h2 h' s os hf hst _ ih =>
    intro hb he
    obtain ⟨_, h4, h5⟩ := hf.exact he
    have hs := hb s (by simp)
    have h6 := (hst hs).recall hwf hs h4
    have h7 : h2.log = h1.log ++ [.exit s] := by rw [h6]; rfl
    obtain ⟨k1, k2⟩ := ih (fun s hs => hb s (by simp [hs])) (by unfold Exact; rw [h7]; exact h6)
    refine ⟨k1, ?_⟩
    refine Logs.append (o := []) h5 (Logs.append (o := [.exit s]) ?_ k2)
    exact ⟨[.exit s], h7, by simp, rfl, by simp [HOp.isCut]⟩
  | @other h h' o os ho _ ih =>
    intro hb he
    obtain ⟨k1, k2⟩ := ih (fun s hs => hb s (by simp [hs])) he
    refine ⟨k1, Logs.append (o := [o]) ⟨[], by simp, by simp, ?_, by simp⟩ k2⟩
    cases o <;> first | rfl | exact absurd rfl (ho _)

theorem Enters.exact {h h' : Memory} {g : Goal} {l : List Sid} (hr : Enters C Forget h g l h') : Exact C h →
    Enters C (Clears C) h g l h' ∧ Exact C h' ∧ Logs h.log [] h'.log := by
  induction hr with
  | tree hf _ ih =>
    intro he
    have h1 := hf.exact he
    obtain ⟨h2, h3, h4⟩ := ih h1.2.1
    exact ⟨.tree h1 h2, h3, h1.2.2.append h4⟩
  | rnil => exact fun he => ⟨.rnil, he, Logs.refl _⟩
  | rcons _ _ ih1 ih2 =>
    intro he
    obtain ⟨h1, h2, h3⟩ := ih1 he
    obtain ⟨h4, h5, h6⟩ := ih2 h2
    exact ⟨.rcons h1 h4, h5, h3.append h6⟩
  | plain _ ih =>
    intro he
    obtain ⟨h1, h2, h3⟩ := ih he
    exact ⟨.plain h1, h2, h3⟩
  | shallow hp hc _ ih =>
    intro he
    obtain ⟨h1, h2, h3⟩ := ih he
    exact ⟨.shallow hp hc h1, h2, h3⟩
  | shallowDefault hp hc _ ih =>
    intro he
    obtain ⟨h1, h2, h3⟩ := ih he
    exact ⟨.shallowDefault hp hc h1, h2, h3⟩
  | deep hp hc _ ih =>
    intro he
    obtain ⟨h1, h2, h3⟩ := ih he
    exact ⟨.deep hp hc h1, h2, h3⟩
  | deepDefault hp hc _ ih =>
    intro he
    obtain ⟨h1, h2, h3⟩ := ih he
    exact ⟨.deepDefault hp hc h1, h2, h3⟩
  | here hp _ ih =>
    intro he
    obtain ⟨h1, h2, h3⟩ := ih he
    exact ⟨.here hp h1, h2, h3⟩
  | via hp hy hb hf _ _ _ ih1 ih2 ih3 =>
    intro he
    have h0 := hf.exact he
    obtain ⟨h1, h2, h3⟩ := ih1 h0.2.1
    obtain ⟨h4, h5, h6⟩ := ih2 h2
    obtain ⟨h7, h8, h9⟩ := ih3 h5
    exact ⟨.via hp hy hb h0 h1 h4 h7, h8, h0.2.2.append (h3.append (h6.append h9))⟩

end SC.Spec
