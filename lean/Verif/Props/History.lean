import Verif.Props.Ends
/-!
# Properties C23 – C25: history

History stated without any memory: what a history entry enters depends only on the completed `exit()` calls and on the clearing that happened
before it, as listed in a log.
-/

namespace SC.Spec
open SC Chart
variable {C : Chart}

/-- `r` is the state of the last operation in `log` that records one (`R`), unless an operation in `K` came later: then there is none. -/
def Last (R : HOp → Sid → Prop) (K : HOp → Prop) (log : List HOp) : Option Sid → Prop
  | some c => ∃ l1 o l2, log = l1 ++ o :: l2 ∧ R o c ∧ ∀ o' ∈ l2, ¬ K o' ∧ ∀ s, ¬ R o' s
  | none => ∀ l1 o s l2, log = l1 ++ o :: l2 → R o s → ∃ o' ∈ l2, K o'

/-- `s` is a direct inner state of `p` in region `i`, and `p` has shallow history. -/
def ShallowIn (C : Chart) (p i : Nat) (s : Sid) : Prop := C.shallowH p = true ∧ C.parent s = some p ∧ C.pos s = i

/-- `s` is an innermost state anywhere inside region `i` of `p`, and `p` has deep history. -/
def DeepIn (C : Chart) (p i : Nat) (s : Sid) : Prop :=
  C.deepH p = true ∧ C.isLeaf s = true ∧ ∃ c, C.parent c = some p ∧ C.pos c = i ∧ Below C c s

/-- The operation records `s` in the shallow history of region `i` of `p`: `s` belongs to this region and its `exit()` completed. If there was no memory to
record the exit everywhere (`cut`), the shallow history comes before all deep ones. -/
inductive Shallow (C : Chart) (p i : Nat) : HOp → Sid → Prop
  | exit {s} : ShallowIn C p i s → Shallow C p i (.exit s) s
  | cut {s q} : ShallowIn C p i s → Shallow C p i (.cut s (some q)) s

/-- The operation records `s` in the deep history of region `i` of `p`. If there was no memory for the deep history of `q`, the deep histories inside `q`
have been reached before. -/
inductive Deep (C : Chart) (p i : Nat) : HOp → Sid → Prop
  | exit {s} : DeepIn C p i s → Deep C p i (.exit s) s
  | cut {s q} : DeepIn C p i s → Outer C q p → Deep C p i (.cut s (some q)) s

/-- Clearing of the shallow history of region `i` of `p`. -/
def ClearsShallow (p i : Nat) (o : HOp) : Prop := o = .clear ∨ o = .clearShallow (p, i)

/-- Clearing of the deep history of region `i` of `p`. -/
def ClearsDeep (p i : Nat) (o : HOp) : Prop := o = .clear ∨ o = .clearDeep (p, i)

/-- Since all history was cleared last, an operation recorded a state (`R`) or cleared this entry (`K`). -/
def Touched (R : HOp → Sid → Prop) (K : HOp → Prop) (log : List HOp) : Prop :=
  ∃ l1 o l2, log = l1 ++ o :: l2 ∧ ((∃ s, R o s) ∨ K o) ∧ o ≠ .clear ∧ .clear ∉ l2

/-- `Returns C log g l log'`: goal `g` enters exactly the states `l` in this order, if `log` has happened before; `log'` is the log afterwards
(constructors may clear history, nothing is exited). -/
inductive Returns (C : Chart) : List HOp → Goal → List Sid → List HOp → Prop
  | tree {g g1 g2 s l} : Logs g [] g1 → Returns C g1 (.regions (C.init s)) l g2 → Returns C g (.tree s) (s :: l) g2
  | rnil {g} : Returns C g (.regions []) [] g
  | rcons {g g1 g2 t ts l l'} : Returns C g (.target t) l g1 → Returns C g1 (.regions ts) l' g2 → Returns C g (.regions (t :: ts)) (l ++ l') g2
  | plain {g g1 d l} : Returns C g (.tree d) l g1 → Returns C g (.target ⟨.plain, d⟩) l g1
  /-- the state exited last -/
  | shallow {g g1 d p c l} : C.parent d = some p → Last (Shallow C p (C.pos d)) (ClearsShallow p (C.pos d)) g (some c) →
      Returns C g (.tree c) l g1 → Returns C g (.target ⟨.shallow, d⟩) l g1
  /-- there is none: the default -/
  | shallowDefault {g g1 d p l} : C.parent d = some p → Last (Shallow C p (C.pos d)) (ClearsShallow p (C.pos d)) g none →
      Returns C g (.tree d) l g1 → Returns C g (.target ⟨.shallow, d⟩) l g1
  /-- all states down to the innermost state exited last -/
  | deep {g g1 d p c l} : C.parent d = some p → Last (Deep C p (C.pos d)) (ClearsDeep p (C.pos d)) g (some c) →
      Returns C g (.down (some p) ⟨.plain, c⟩) l g1 → Returns C g (.target ⟨.deep, d⟩) l g1
  /-- there is none: the default -/
  | deepDefault {g g1 d p l} : C.parent d = some p → Last (Deep C p (C.pos d)) (ClearsDeep p (C.pos d)) g none →
      Returns C g (.tree d) l g1 → Returns C g (.target ⟨.deep, d⟩) l g1
  | here {g g1 c d l} : C.parent d.st = c → Returns C g (.target d) l g1 → Returns C g (.down c d) l g1
  | via {g g1 g2 g3 g4 c d x y l1 l2 l3} : C.parent x = c → C.parent y = some x → Below C y d.st → Logs g [] g1 →
      Returns C g1 (.regions ((C.init x).take (C.pos y))) l1 g2 → Returns C g2 (.down (some x) d) l2 g3 →
      Returns C g3 (.regions ((C.init x).drop (C.pos y + 1))) l3 g4 → Returns C g (.down c d) (x :: (l1 ++ (l2 ++ l3))) g4

/-- The last operation of a log, or one before. -/
theorem snoc_split {log l1 l2 : List HOp} {o o' : HOp} (h : log ++ [o] = l1 ++ o' :: l2) : (l2 = [] ∧ o' = o) ∨ ∃ l3, l2 = l3 ++ [o] ∧ log = l1 ++ o' :: l3 := by
  rcases List.eq_nil_or_concat l2 with rfl | ⟨l3, o1, rfl⟩
  · have := List.append_inj' h rfl
    simp only [List.cons.injEq, and_true] at this
    exact .inl ⟨rfl, this.2.symm⟩
  · rw [List.concat_eq_append, ← List.cons_append, ← List.append_assoc] at h
    have := List.append_inj' h rfl
    simp only [List.cons.injEq, and_true] at this
    exact .inr ⟨l3, by simp [this.2], this.1⟩

theorem Last.snoc_other {R : HOp → Sid → Prop} {K : HOp → Prop} {log : List HOp} {o : HOp} (ho : ∀ s, ¬ R o s) (hk : ¬ K o) (r : Option Sid) :
    Last R K (log ++ [o]) r ↔ Last R K log r := by
  cases r with
  | none =>
    constructor
    · intro h l1 o1 s l2 he hs
      obtain ⟨o', h1, h2⟩ := h l1 o1 s (l2 ++ [o]) (by rw [he]; simp) hs
      rcases List.mem_append.1 h1 with h1 | h1
      · exact ⟨o', h1, h2⟩
      · simp only [List.mem_singleton] at h1; subst h1; exact absurd h2 hk
    · intro h l1 o1 s l2 he hs
      rcases snoc_split he with ⟨rfl, rfl⟩ | ⟨l3, rfl, he'⟩
      · exact absurd hs (ho s)
      · obtain ⟨o', h1, h2⟩ := h l1 o1 s l3 he' hs
        exact ⟨o', by simp [h1], h2⟩
  | some c =>
    constructor
    · rintro ⟨l1, o1, l2, he, h1, h2⟩
      rcases snoc_split he with ⟨rfl, rfl⟩ | ⟨l3, rfl, he'⟩
      · exact absurd h1 (ho c)
      · exact ⟨l1, o1, l3, he', h1, fun o ho => h2 o (by simp [ho])⟩
    · rintro ⟨l1, o1, l2, he, h1, h2⟩
      refine ⟨l1, o1, l2 ++ [o], by rw [he]; simp, h1, ?_⟩
      intro o' h
      rcases List.mem_append.1 h with h | h
      · exact h2 o' h
      · simp only [List.mem_singleton] at h; subst h
        exact ⟨hk, ho⟩

theorem Last.snoc_clear {R : HOp → Sid → Prop} {K : HOp → Prop} {log : List HOp} {o : HOp} (ho : ∀ s, ¬ R o s) (hk : K o) (r : Option Sid) :
    Last R K (log ++ [o]) r ↔ r = none := by
  cases r with
  | none =>
    refine ⟨fun _ => rfl, fun _ => ?_⟩
    intro l1 o1 s l2 h hs
    rcases snoc_split h with ⟨rfl, rfl⟩ | ⟨l3, rfl, _⟩
    · exact absurd hs (ho s)
    · exact ⟨o, by simp, hk⟩
  | some c =>
    refine ⟨?_, fun h => by cases h⟩
    rintro ⟨l1, o1, l2, he, h1, h2⟩
    rcases snoc_split he with ⟨rfl, rfl⟩ | ⟨l3, rfl, _⟩
    · exact absurd h1 (ho c)
    · exact absurd hk (h2 o (by simp)).1

theorem Last.snoc_record {R : HOp → Sid → Prop} {K : HOp → Prop} {log : List HOp} {o : HOp} {s : Sid} (hR : ∀ s', R o s' → s' = s) (ho : R o s) (r : Option Sid) :
    Last R K (log ++ [o]) r ↔ r = some s := by
  cases r with
  | none =>
    refine ⟨fun h => ?_, fun h => by cases h⟩
    obtain ⟨o', h1, _⟩ := h log o s [] rfl ho
    cases h1
  | some c =>
    constructor
    · rintro ⟨l1, o1, l2, he, h1, h2⟩
      rcases snoc_split he with ⟨rfl, rfl⟩ | ⟨l3, rfl, _⟩
      · rw [hR c h1]
      · exact absurd ho ((h2 o (by simp)).2 s)
    · intro h
      cases h
      exact ⟨log, o, [], rfl, ho, by simp⟩

theorem Shallow.exit? {p i : Nat} {o : HOp} {s : Sid} (h : Shallow C p i o s) : o.exit? = some s := by cases h <;> rfl
theorem Deep.exit? {p i : Nat} {o : HOp} {s : Sid} (h : Deep C p i o s) : o.exit? = some s := by cases h <;> rfl

/-- There is exactly one answer. -/
theorem last_iff {says : HOp → Option (Option Sid)} {R : HOp → Sid → Prop} {K : HOp → Prop} (log : List HOp)
    (h1 : ∀ o ∈ log, ∀ s, R o s ↔ says o = some (some s)) (h2 : ∀ o ∈ log, K o ↔ says o = some none) (r : Option Sid) :
    Last R K log r ↔ r = lastSaid says log := by
  induction log using snocInd generalizing r with
  | nil =>
    show _ ↔ r = none
    cases r with
    | none => exact ⟨fun _ => rfl, fun _ l1 o s l2 h => by simp at h⟩
    | some c =>
      refine ⟨?_, fun h => by cases h⟩
      rintro ⟨l1, o, l2, h, _⟩
      simp at h
  | snoc l o ih =>
    have ih := fun r => ih (fun o ho => h1 o (List.mem_append_left _ ho)) (fun o ho => h2 o (List.mem_append_left _ ho)) r
    have h1 := h1 o (by simp)
    have h2 := h2 o (by simp)
    rw [lastSaid_snoc]
    cases hs : says o with
    | none =>
      rw [Last.snoc_other (fun s h => by rw [h1, hs] at h; cases h) (fun h => by rw [h2, hs] at h; cases h)]
      exact ih r
    | some v =>
      cases v with
      | none => exact Last.snoc_clear (fun s h => by rw [h1, hs] at h; cases h) (h2.2 hs) r
      | some s =>
        refine Last.snoc_record (s := s) (fun s' h => ?_) ((h1 s).2 hs) r
        rw [h1, hs] at h
        cases h; rfl

theorem shallow_says (p i : Nat) (o : HOp) : (∀ s, Shallow C p i o s ↔ shallowSays C p i o = some (some s)) ∧ (ClearsShallow p i o ↔ shallowSays C p i o = some none) := by
  constructor
  · intro s
    constructor
    · intro h
      cases h with
      | exit h => exact if_pos ⟨h.2.1, h.1, h.2.2⟩
      | cut h => exact if_pos ⟨by simp, h.2.1, h.1, h.2.2⟩
    · intro h
      cases o with
      | exit s' =>
        simp only [shallowSays] at h
        split at h
        · next hc => cases h; exact .exit ⟨hc.2.1, hc.1, hc.2.2⟩
        · cases h
      | cut s' k =>
        simp only [shallowSays] at h
        split at h
        · next hc =>
          cases h
          obtain ⟨h1, h2⟩ := hc
          cases k with
          | none => exact absurd rfl h1
          | some q => exact .cut ⟨h2.2.1, h2.1, h2.2.2⟩
        · cases h
      | clearShallow k => simp only [shallowSays] at h; split at h <;> cases h
      | clearDeep k => cases h
      | clear => cases h
  · unfold ClearsShallow
    cases o with
    | exit s => simp [shallowSays]
    | cut s k => simp [shallowSays]
    | clearShallow k => simp [shallowSays]
    | clearDeep k => simp [shallowSays]
    | clear => simp [shallowSays]

theorem last_shallow (p i : Nat) (log : List HOp) (r : Option Sid) : Last (Shallow C p i) (ClearsShallow p i) log r ↔ r = (recall C log).sh p i :=
  last_iff log (fun o _ => (shallow_says p i o).1) (fun o _ => (shallow_says p i o).2) r

theorem deep_says (hwf : C.WF) (p i : Nat) {o : HOp} (hb : ∀ s, o.exit? = some s → s < C.n) :
    (∀ s, Deep C p i o s ↔ deepSays C p i o = some (some s)) ∧ (ClearsDeep p i o ↔ deepSays C p i o = some none) := by
  constructor
  · intro s
    have hout : ∀ {q}, s < C.n → DeepIn C p i s → (q ∈ C.ancestors p ↔ Outer C q p) := by
      rintro q hs ⟨_, _, c, h1, _, h2⟩
      have hc := h2.bound hwf hs
      exact mem_ancestors hwf (Nat.lt_trans (hwf.parent_lt hc h1) hc)
    have hd : s < C.n → (DeepIn C p i s ↔ C.isLeaf s = true ∧ C.deepH p = true ∧ inRegion C p i s = true) := by
      intro hs
      have hr := inRegion_iff hwf (p := p) (i := i) hs
      constructor
      · rintro ⟨h1, h2, c, h3, h4, h5⟩
        exact ⟨h2, h1, hr.2 ⟨c, h3, h5, h4⟩⟩
      · rintro ⟨h1, h2, h3⟩
        obtain ⟨c, h4, h5, h6⟩ := hr.1 h3
        exact ⟨h2, h1, c, h4, h6, h5⟩
    constructor
    · intro h
      have hs := hb s h.exit?
      cases h with
      | exit h => exact if_pos ((hd hs).1 h)
      | cut h hq => exact if_pos ⟨⟨_, rfl, (hout hs h).2 hq⟩, (hd hs).1 h⟩
    · intro h
      cases o with
      | exit s' =>
        simp only [deepSays] at h
        split at h
        · next hc => cases h; exact .exit ((hd (hb _ rfl)).2 hc)
        · cases h
      | cut s' k =>
        simp only [deepSays] at h
        split at h
        · next hc =>
          cases h
          obtain ⟨⟨q, rfl, h1⟩, h2⟩ := hc
          have hs := hb _ rfl
          have := (hd hs).2 h2
          exact .cut this ((hout hs this).1 h1)
        · cases h
      | clearDeep k => simp only [deepSays] at h; split at h <;> cases h
      | clearShallow k => cases h
      | clear => cases h
  · unfold ClearsDeep
    cases o with
    | exit s => simp [deepSays]
    | cut s k => simp [deepSays]
    | clearShallow k => simp [deepSays]
    | clearDeep k => simp [deepSays]
    | clear => simp [deepSays]

theorem last_deep (hwf : C.WF) (p i : Nat) {log : List HOp} (hb : Bounded C log) (r : Option Sid) :
    Last (Deep C p i) (ClearsDeep p i) log r ↔ r = (recall C log).dh p i :=
  last_iff log (fun o ho => (deep_says hwf p i (hb o ho)).1) (fun o ho => (deep_says hwf p i (hb o ho)).2) r

theorem touched_iff {says : HOp → Option (Option Sid)} {R : HOp → Sid → Prop} {K : HOp → Prop} (hc : says .clear = some none) (log : List HOp)
    (h1 : ∀ o ∈ log, (∀ s, R o s ↔ says o = some (some s)) ∧ (K o ↔ says o = some none)) : Touched R K log ↔ entered says log = true := by
  induction log using snocInd with
  | nil => exact ⟨fun ⟨l1, o, l2, h, _⟩ => by simp at h, fun h => by cases h⟩
  | snoc l o ih =>
    have ih := ih fun o ho => h1 o (List.mem_append_left _ ho)
    have h1 := h1 o (by simp)
    by_cases ho : o = .clear
    · subst ho
      rw [entered_clear (by rw [hc]; rfl)]
      refine ⟨?_, fun h => by cases h⟩
      rintro ⟨l1, o1, l2, he, _, g1, g2⟩
      rcases snoc_split he with ⟨_, rfl⟩ | ⟨l3, rfl, _⟩
      · exact absurd rfl g1
      · exact absurd (by simp) g2
    · rw [entered_snoc _ _ ho, Bool.or_eq_true, ← ih]
      constructor
      · rintro ⟨l1, o1, l2, he, g0, g1, g2⟩
        rcases snoc_split he with ⟨_, rfl⟩ | ⟨l3, rfl, h3⟩
        · left
          rcases g0 with ⟨s, g0⟩ | g0
          · rw [(h1.1 s).1 g0]; rfl
          · rw [h1.2.1 g0]; rfl
        · exact .inr ⟨l1, o1, l3, h3, g0, g1, fun h => g2 (by simp [h])⟩
      · rintro (h | ⟨l1, o1, l2, he, g0, g1, g2⟩)
        · refine ⟨l, o, [], rfl, ?_, ho, by simp⟩
          cases hs : says o with
          | none => rw [hs] at h; cases h
          | some v =>
            cases v with
            | none => exact .inr (h1.2.2 hs)
            | some s => exact .inl ⟨s, (h1.1 s).2 hs⟩
        · refine ⟨l1, o1, l2 ++ [o], by rw [he]; simp, g0, g1, fun h => ?_⟩
          rcases List.mem_append.1 h with h | h
          · exact g2 h
          · simp only [List.mem_singleton] at h; exact ho h.symm

theorem touched_shallow (p i : Nat) (log : List HOp) : Touched (Shallow C p i) (ClearsShallow p i) log ↔ entered (shallowSays C p i) log = true :=
  touched_iff rfl log fun o _ => shallow_says p i o

theorem touched_deep (hwf : C.WF) (p i : Nat) {log : List HOp} (hb : Bounded C log) : Touched (Deep C p i) (ClearsDeep p i) log ↔ entered (deepSays C p i) log = true :=
  touched_iff rfl log fun o ho => deep_says hwf p i (hb o ho)

/-- What was never touched is not remembered. -/
theorem Last.untouched {R : HOp → Sid → Prop} {K : HOp → Prop} {log : List HOp} (hc : K .clear) (hr : ∀ s, ¬ R .clear s) (h : ¬ Touched R K log) : Last R K log none := by
  intro l1 o s l2 he hs
  refine Classical.byContradiction fun hn => h ⟨l1, o, l2, he, .inl ⟨s, hs⟩, ?_, fun hm => hn ⟨_, hm, hc⟩⟩
  rintro rfl
  exact hr s hs

theorem LogsBut.bounded {n : Nat} {a b : List HOp} {obs : List Obs} (h : LogsBut n a obs b) (ha : Bounded C a) (ho : ∀ s, .exit s ∈ obs → s < C.n) : Bounded C b := by
  obtain ⟨ops, rfl, _, h2, _⟩ := h
  refine Bounded.append.2 ⟨ha, ?_⟩
  intro o hs s hx
  have : s ∈ obs.filterMap Obs.exit? := by
    rw [← h2]; exact List.mem_filterMap.2 ⟨_, hs, hx⟩
  obtain ⟨o, h3, h4⟩ := List.mem_filterMap.1 this
  cases o <;> cases h4
  exact ho _ h3

/-- Entry by remembered states, in terms of the past only. -/
theorem Enters.returns (hwf : C.WF) {h h' : Memory} {g : Goal} {l : List Sid} (hr : Enters C Forget h g l h') : Exact C h → Bounded C h.log →
    Returns C h.log g l h'.log ∧ Exact C h' ∧ Logs h.log [] h'.log ∧ Bounded C h'.log := by
  have hsh : ∀ {h : Memory} {p i : Nat} {v}, Exact C h → h.sh p i = v → Last (Shallow C p i) (ClearsShallow p i) h.log v := by
    rintro h p i _ he rfl
    refine (last_shallow (C := C) p i h.log _).2 ?_
    rw [← he]
  have hdp : ∀ {h : Memory} {p i : Nat} {v}, Exact C h → Bounded C h.log → h.dh p i = v → Last (Deep C p i) (ClearsDeep p i) h.log v := by
    rintro h p i _ he hb rfl
    refine (last_deep hwf p i hb _).2 ?_
    rw [← he]
  induction hr with
  | tree hf _ ih =>
    intro he hb
    have h1 := hf.exact he
    obtain ⟨h2, h3, h4, h5⟩ := ih h1.2.1 (h1.2.2.bounded hb (by simp))
    exact ⟨.tree h1.2.2 h2, h3, h1.2.2.append h4, h5⟩
  | rnil => exact fun he hb => ⟨.rnil, he, Logs.refl _, hb⟩
  | rcons _ _ ih1 ih2 =>
    intro he hb
    obtain ⟨h1, h2, h3, hb1⟩ := ih1 he hb
    obtain ⟨h4, h5, h6, hb2⟩ := ih2 h2 hb1
    exact ⟨.rcons h1 h4, h5, h3.append h6, hb2⟩
  | plain _ ih =>
    intro he hb
    obtain ⟨h1, h2⟩ := ih he hb
    exact ⟨.plain h1, h2⟩
  | @shallow h _ _ _ c _ hp hc _ ih =>
    intro he hb
    obtain ⟨h1, h2⟩ := ih he hb
    have := hsh he hc
    exact ⟨.shallow hp this h1, h2⟩
  | shallowDefault hp hc _ ih =>
    intro he hb
    obtain ⟨h1, h2⟩ := ih he hb
    have := hsh he hc
    exact ⟨.shallowDefault hp this h1, h2⟩
  | deep hp hc _ ih =>
    intro he hb
    obtain ⟨h1, h2⟩ := ih he hb
    have := hdp he hb hc
    exact ⟨.deep hp this h1, h2⟩
  | deepDefault hp hc _ ih =>
    intro he hb
    obtain ⟨h1, h2⟩ := ih he hb
    have := hdp he hb hc
    exact ⟨.deepDefault hp this h1, h2⟩
  | here hp _ ih =>
    intro he hb
    obtain ⟨h1, h2⟩ := ih he hb
    exact ⟨.here hp h1, h2⟩
  | via hp hy hb hf _ _ _ ih1 ih2 ih3 =>
    intro he hbd
    have h0 := hf.exact he
    obtain ⟨h1, h2, h3, b1⟩ := ih1 h0.2.1 (h0.2.2.bounded hbd (by simp))
    obtain ⟨h4, h5, h6, b2⟩ := ih2 h2 b1
    obtain ⟨h7, h8, h9, b3⟩ := ih3 h5 b2
    exact ⟨.via hp hy hb h0.2.2 h1 h4 h7, h8, h0.2.2.append (h3.append (h6.append h9)), b3⟩

/-- What is remembered is what the past says. -/
def Knows (C : Chart) (h : Memory) : Prop := Exact C h ∧ Bounded C h.log

theorem MemRun.knows (hwf : C.WF) {h h' : Memory} {obs : List Obs} (hr : MemRun C Forget h obs h') (hb : ∀ s, .exit s ∈ obs → s < C.n) (hk : Knows C h) :
    Knows C h' ∧ Logs h.log obs h'.log := by
  obtain ⟨h1, h2⟩ := hr.exact hwf hb hk.1
  exact ⟨⟨h1, h2.bounded hk.2 hb⟩, h2⟩

/-! ## Transitions, with what they remember -/

/-- Transitions and terminations, where the states entered are given by the past only: `log1` is the log when the last `exit()` has returned
and the action is done. -/
def Moves.known (C : Chart) (full : Bool) : Moves where
  trans s d a c obs c' := ∃ k t xs ys l log1, Transition C full s d a k t xs ys l c obs c' ∧ Logs c.mem.log (exitObs full xs ++ acts a ++ exitObs full ys) log1 ∧
    Returns C log1 (.down k d) l c'.mem.log
  term s c obs c' := (∃ xs, Termination C full s xs c obs c') ∧ Logs c.mem.log obs c'.mem.log

theorem Transition.known (hwf : C.WF) {full : Bool} {s : Sid} {d : Target} {a : Option Nat} {k : Option Sid} {t : Sid} {xs ys l : List Sid} {c c' : Conf} {obs : List Obs}
    (h : Transition C full s d a k t xs ys l c obs c') (hf : Forest C c.act) (hk : Knows C c.mem) :
    (∃ log1, Logs c.mem.log (exitObs full xs ++ acts a ++ exitObs full ys) log1 ∧ Returns C log1 (.down k d) l c'.mem.log) ∧ Knows C c'.mem ∧ Logs c.mem.log obs c'.mem.log := by
  obtain ⟨g, h1, h2⟩ := h.mem
  have hb : ∀ x, Obs.exit x ∈ exitObs full xs ++ acts a ++ exitObs full ys → x < C.n := by
    intro x hx
    rcases List.mem_append.1 hx with hx | hx
    · rcases List.mem_append.1 hx with hx | hx
      · exact hf.bound x ((h.exited.first.mem x).1 (mem_exitObs hx)).1.1
      · cases a <;> simp [acts] at hx
    · exact hf.bound x ((h.exited.rest.mem x).1 (mem_exitObs hx)).1.1
  obtain ⟨h3, h4⟩ := h1.knows hwf hb hk
  obtain ⟨h5, h6, h7, h8⟩ := h2.returns hwf h3.1 h3.2
  refine ⟨⟨_, h4, h5⟩, ⟨h6, h8⟩, ?_⟩
  have := h4.append h7
  obtain ⟨ops, k1, k2, k3, k4⟩ := this
  refine ⟨ops, k1, k2, ?_, k4⟩
  rw [k3, h.seen, List.append_nil, List.filterMap_append (l' := enterObs l)]
  have : (enterObs l).filterMap Obs.exit? = [] := by
    rw [List.filterMap_eq_nil_iff]
    intro o ho
    unfold enterObs at ho
    obtain ⟨x, _, rfl⟩ := List.mem_map.1 ho
    rfl
  rw [this, List.append_nil]

theorem Termination.known (hwf : C.WF) {full : Bool} {s : Sid} {xs : List Sid} {c c' : Conf} {obs : List Obs}
    (h : Termination C full s xs c obs c') (hf : Forest C c.act) (hk : Knows C c.mem) : Knows C c'.mem ∧ Logs c.mem.log obs c'.mem.log := by
  refine h.mem.knows hwf ?_ hk
  intro x hx
  rw [h.seen] at hx
  exact hf.bound x ((h.exited.mem x).1 (mem_exitObs hx)).1

section
variable (hwf : C.WF) {full : Bool} {D : Sid → Nat → Event → Decision → Prop} {e : Event}
include hwf

theorem Fires.known {s : Sid} {kind : RKind} {c c' : Conf} {obs : List Obs} {res : RR} (hf : Forest C c.act) (hk : Knows C c.mem)
    (h : Fires Forget (.meant C full) D s e c kind obs res c') :
    Fires Forget (.known C full) D s e c kind obs res c' ∧ (res ≠ .discard → c'.act = c.act) ∧ Knows C c'.mem ∧ Logs c.mem.log obs c'.mem.log := by
  have hF : ∀ {g : Memory}, Forget c.mem g → Knows C g ∧ Logs c.mem.log [] g.log := by
    intro g hg
    obtain ⟨_, h2, h3⟩ := hg.exact hk.1
    exact ⟨⟨h2, h3.bounded hk.2 (by simp)⟩, h3⟩
  have quiet : ∀ {g : Memory} {obs : List Obs}, Forget c.mem g → obs.filterMap Obs.exit? = [] → Logs c.mem.log obs g.log := by
    intro g obs hg ho
    obtain ⟨ops, k1, k2, k3, k4⟩ := (hF hg).2
    exact ⟨ops, k1, k2, by rw [k3, ho]; rfl, k4⟩
  cases h with
  | transition h =>
    obtain ⟨k, t, xs, ys, l, h⟩ := h
    obtain ⟨⟨log1, h1, h2⟩, h3, h4⟩ := h.known hwf hf hk
    exact ⟨.transition ⟨k, t, xs, ys, l, log1, h, h1, h2⟩, fun h => absurd rfl h, h3, h4⟩
  | @inState g a hF' => exact ⟨.inState hF', fun h => absurd rfl h, (hF hF').1, quiet hF' (by cases a <;> rfl)⟩
  | termination h =>
    obtain ⟨xs, h⟩ := h
    obtain ⟨h1, h2⟩ := h.known hwf hf hk
    exact ⟨.termination ⟨⟨xs, h⟩, h2⟩, fun h => absurd rfl h, h1, h2⟩
  | deferral => exact ⟨.deferral, fun _ => rfl, hk, Logs.refl _⟩
  | discard hF' h => exact ⟨.discard hF' h, fun _ => rfl, (hF hF').1, quiet hF' rfl⟩
  | forward hF' h => exact ⟨.forward hF' h, fun _ => rfl, (hF hF').1, quiet hF' rfl⟩
  | defer hF' h => exact ⟨.defer hF' h, fun _ => rfl, (hF hF').1, quiet hF' rfl⟩
  | @transit g c' id d a obs hF' hD h =>
    obtain ⟨k, t, xs, ys, l, h⟩ := h
    obtain ⟨⟨log1, h1, h2⟩, h3, h4⟩ := h.known (c := ⟨c.act, g⟩) hwf hf (hF hF').1
    refine ⟨.transit hF' hD ⟨k, t, xs, ys, l, log1, h, h1, h2⟩, fun h => absurd rfl h, h3, ?_⟩
    exact (quiet (obs := [.react s id]) hF' rfl).append h4
  | @terminate g c' id obs hF' hD h =>
    obtain ⟨xs, h⟩ := h
    obtain ⟨h3, h4⟩ := h.known (c := ⟨c.act, g⟩) hwf hf (hF hF').1
    refine ⟨.terminate hF' hD ⟨⟨xs, h⟩, h4⟩, fun h => absurd rfl h, h3, ?_⟩
    exact (quiet (obs := [.react s id]) hF' rfl).append h4

theorem Local.known {s : Sid} {rs : List Reaction} {c c' : Conf} {obs : List Obs} {res : RR} (h : Local Forget (.meant C full) D s e rs c obs res c') :
    Forest C c.act → Knows C c.mem →
    Local Forget (.known C full) D s e rs c obs res c' ∧ (res ≠ .discard → c'.act = c.act) ∧ Knows C c'.mem ∧ Logs c.mem.log obs c'.mem.log := by
  induction h with
  | none => exact fun _ hk => ⟨.none, fun _ => rfl, hk, Logs.refl _⟩
  | skip h1 h2 _ ih =>
    intro hf hk
    obtain ⟨k1, k2⟩ := ih hf hk
    exact ⟨.skip h1 h2 k1, k2⟩
  | fire h1 h =>
    intro hf hk
    obtain ⟨k1, k2⟩ := Fires.known hwf hf hk h
    exact ⟨.fire h1 k1, k2⟩

theorem Search.known {s : Sid} {c c' : Conf} {obs : List Obs} {res : RR} (h : Search C Forget (.meant C full) D e s c obs res c') :
    Forest C c.act → Knows C c.mem →
    Search C Forget (.known C full) D e s c obs res c' ∧ (res ≠ .discard → c'.act = c.act) ∧ Knows C c'.mem ∧ Logs c.mem.log obs c'.mem.log := by
  induction h with
  | stop h h1 =>
    intro hf hk
    obtain ⟨k1, k2⟩ := Local.known hwf h hf hk
    exact ⟨.stop k1 h1, k2⟩
  | top h h1 =>
    intro hf hk
    obtain ⟨k1, k2⟩ := Local.known hwf h hf hk
    exact ⟨.top k1 h1, k2⟩
  | out h hp _ ih =>
    intro hf hk
    obtain ⟨k1, k2, k3, k4⟩ := Local.known hwf h hf hk
    have ha := k2 (by simp)
    obtain ⟨k5, k6, k7, k8⟩ := ih (by rw [ha]; exact hf) k3
    exact ⟨.out k1 hp k5, fun h => (k6 h).trans ha, k7, k4.append k8⟩

theorem Sweep.known {l : List Sid} {c c' : Conf} {obs : List Obs} {res : RR} (h : Sweep C Forget (.meant C full) D e l c obs res c') :
    Forest C c.act → Knows C c.mem →
    Sweep C Forget (.known C full) D e l c obs res c' ∧ (res ≠ .discard → c'.act = c.act) ∧ Knows C c'.mem ∧ Logs c.mem.log obs c'.mem.log := by
  induction h with
  | none => exact fun _ hk => ⟨.none, fun _ => rfl, hk, Logs.refl _⟩
  | stop h h1 =>
    intro hf hk
    obtain ⟨k1, k2⟩ := Search.known hwf h hf hk
    exact ⟨.stop k1 h1, k2⟩
  | next h _ ih =>
    intro hf hk
    obtain ⟨k1, k2, k3, k4⟩ := Search.known hwf h hf hk
    have ha := k2 (by simp)
    obtain ⟨k5, k6, k7, k8⟩ := ih (by rw [ha]; exact hf) k3
    exact ⟨.next k1 k5, fun h => (k6 h).trans ha, k7, k4.append k8⟩

end

/-- The dispatch of event `e` with the innermost states `l`, ending normally, where all history is given by the past only. -/
inductive Recalls (C : Chart) (D : Sid → Nat → Event → Decision → Prop) (translate : Exc → Option Event) (e : Event) (l : List Sid) (c : Conf) :
    List (Option Event × Obs) → Conf → Prop
  /-- consumed or deferred -/
  | reacted {obs r c'} : Sweep C Forget (.known C true) D e l c obs r c' → r ≠ .forward → Logs c.mem.log obs c'.mem.log → Recalls C D translate e l c (tag (some e) obs) c'
  /-- forwarded by all states -/
  | unconsumed {obs c'} : c'.act = c.act → (∀ o ∈ obs, quietObs o = true) → Logs c.mem.log obs c'.mem.log → Recalls C D translate e l c (tag (some e) obs) c'
  /-- an exception was thrown; the exception event `ev` was consumed; nothing is recorded in between but completed `exit()` calls; at most one of those
  before the exception was not recorded completely -/
  | recovered {s obs1 c1 x ev h obs2 c'} : Broken C D e l c s obs1 c1 → LogsBut 1 c.mem.log obs1 c1.mem.log → translate x = some ev → SentTo C (some s) c.act obs1 c1.act h →
      Search C Forget (.known C false) D ev h c1 obs2 .discard c' → Logs c1.mem.log obs2 c'.mem.log →
      Recalls C D translate e l c (tag (some e) obs1 ++ tag (some ev) obs2) c'

theorem Episode.recalls (hwf : C.WF) {D : Sid → Nat → Event → Decision → Prop} {translate : Exc → Option Event} {e : Event} {l : List Sid} {c c' : Conf}
    {xs : List Exc} {tr : List (Option Event × Obs)} (h : Episode C D translate e l c xs tr c') (hf : Forest C c.act) (hk : Knows C c.mem) (hb : ∀ s, .exit s ∈ tr.map (·.2) → s < C.n) :
    Recalls C D translate e l c tr c' ∧ Knows C c'.mem ∧ LogsBut 1 c.mem.log (tr.map (·.2)) c'.mem.log := by
  have snd : ∀ (e : Option Event) (l : List Obs), (tag e l).map (·.2) = l := fun e l => by simp [tag, Function.comp_def]
  cases h with
  | reacted h hr _ =>
    obtain ⟨h1, _, h2, h3⟩ := Sweep.known hwf h hf hk
    exact ⟨.reacted h1 hr h3, h2, by rw [snd]; exact h3.mono (by omega)⟩
  | @unconsumed obs c1 h _ _ h1 h2 =>
    rw [snd] at hb ⊢
    obtain ⟨h3, h4⟩ := h2.knows hwf hb hk
    refine ⟨.unconsumed rfl ?_ h4, h3, h4.mono (by omega)⟩
    exact quiet_append h1 (by simp [quietObs])
  | @recovered s obs1 c1 x ev h obs2 c' hbr hx hh hs _ _ =>
    rw [List.map_append, snd, snd] at hb ⊢
    obtain ⟨h1, h2⟩ := hbr.mem hk.1
    have hk1 : Knows C c1.mem := ⟨h1, h2.bounded hk.2 fun s hs => hb s (List.mem_append_left _ hs)⟩
    obtain ⟨h3, _, h4, h5⟩ := Search.known hwf hs hbr.forest hk1
    exact ⟨.recovered hbr h2 hx hh h3 h5, h4, LogsBut.append (k := 0) h2 h5⟩

/-! ## Entry through a history -/

/-- **C23.** Entry through a shallow history enters the direct inner state of that region that was exited last, and the inner states of that state as usual;
the default if there is none. -/
theorem C23_shallow {g g' : List HOp} {d : Sid} {l : List Sid} (h : Returns C g (.target ⟨.shallow, d⟩) l g') :
    ∃ p r, C.parent d = some p ∧ Last (Shallow C p (C.pos d)) (ClearsShallow p (C.pos d)) g r ∧ Returns C g (.tree (r.getD d)) l g' ∧
      l.head? = some (r.getD d) := by
  have hh : ∀ {s}, Returns C g (.tree s) l g' → l.head? = some s := by intro s h; cases h; rfl
  cases h with
  | shallow hp h1 h2 => exact ⟨_, _, hp, h1, h2, hh h2⟩
  | shallowDefault hp h1 h2 => exact ⟨_, _, hp, h1, h2, hh h2⟩

theorem inhDeep_below (hwf : C.WF) {p s : Sid} (hs : s < C.n) (hd : C.deepH p = true) (hb : Below C p s) : C.inhDeep s = true := by
  unfold inhDeep
  rw [List.any_eq_true]
  refine ⟨p, ?_, hd⟩
  rcases hb.eq_or_outer with h | h
  · simp [h]
  · exact List.mem_cons_of_mem _ ((mem_ancestors hwf hs).2 h)

/-- Inside a deep history there is one region per state: exactly the states on the way are entered. -/
theorem Returns.deepPath (hwf : C.WF) {g g' : List HOp} {go : Goal} {l : List Sid} (h : Returns C g go l g') :
    ∀ {q : Sid} {c : Sid}, go = .down (some q) ⟨.plain, c⟩ → C.inhDeep q = true → c < C.n → C.isLeaf c = true → DownPath C (some q) c l := by
  induction h with
  | @here g g1 q d l hp h1 _ =>
    intro q c he hq hc hl
    cases he
    cases h1 with
    | plain h1 =>
      cases h1 with
      | tree _ h2 =>
        rw [show C.init c = [] from List.isEmpty_iff.1 hl] at h2
        cases h2
        exact .last hp
  | @via g g1 g2 g3 g4 q d x y l1 l2 l3 hp hy hb _ h1 _ h3 _ ih _ =>
    intro q c he hq hc hl
    cases he
    have hyn : y < C.n := hb.bound hwf hc
    have hxn : x < C.n := Nat.lt_trans (hwf.parent_lt hyn hy) hyn
    have hone := hwf.deep_one hxn (by rw [hp]; exact hq)
    have hpos : C.pos y = 0 := by
      have := hwf.pos_lt hyn
      rw [hy] at this
      have h2 : C.pos y < (C.init x).length := this
      omega
    rw [hpos] at h1 h3
    rw [List.drop_of_length_le (by omega)] at h3
    cases h1
    cases h3
    simp only [List.nil_append, List.append_nil]
    refine .step hp (ih rfl ?_ hc hl)
    unfold inhDeep at hq ⊢
    rw [ancestors_some hwf hxn hp]
    rw [List.any_cons, hq]; simp
  | _ => intro q c he; cases he

/-- **C24.** Entry through a deep history enters exactly the states on the way down to the innermost state inside that region that was exited last; the default tree if there is none. -/
theorem C24_deep (hwf : C.WF) {g g' : List HOp} {d : Sid} {l : List Sid} (hb : Bounded C g) (h : Returns C g (.target ⟨.deep, d⟩) l g') :
    ∃ p, C.parent d = some p ∧
      ((∃ c, Last (Deep C p (C.pos d)) (ClearsDeep p (C.pos d)) g (some c) ∧ DownPath C (some p) c l) ∨
       (Last (Deep C p (C.pos d)) (ClearsDeep p (C.pos d)) g none ∧ Returns C g (.tree d) l g')) := by
  cases h with
  | @deep _ _ _ p c _ hp h1 h2 =>
    refine ⟨_, hp, .inl ⟨_, h1, ?_⟩⟩
    obtain ⟨l1, o, l2, k3, ho, _⟩ := h1
    have hd : DeepIn C p (C.pos d) c := by cases ho <;> assumption
    obtain ⟨k1, k2, _⟩ := hd
    refine h2.deepPath hwf rfl ?_ (hb o (by rw [k3]; simp) c ho.exit?) k2
    unfold inhDeep; simp [k1]
  | deepDefault hp h1 h2 => exact ⟨_, hp, .inr ⟨h1, h2⟩⟩

/-! ## If every exit was recorded completely -/

/-- `r` is the state among those in `R` that was exited last in `log`, unless an operation in `K` came later: then there is none. -/
def LastExit (R : Sid → Prop) (K : HOp → Prop) (log : List HOp) : Option Sid → Prop
  | some c => R c ∧ ∃ l1 l2, log = l1 ++ .exit c :: l2 ∧ ∀ o ∈ l2, ¬ K o ∧ ∀ s, o = .exit s → ¬ R s
  | none => ∀ l1 s l2, log = l1 ++ .exit s :: l2 → R s → ∃ o ∈ l2, K o

theorem last_exit {R : HOp → Sid → Prop} {R' : Sid → Prop} {K : HOp → Prop} {log : List HOp} (h1 : ∀ o ∈ log, ∀ s, R o s ↔ o = .exit s ∧ R' s) (r : Option Sid) :
    Last R K log r ↔ LastExit R' K log r := by
  cases r with
  | none =>
    constructor
    · intro h l1 s l2 he hs
      exact h l1 _ s l2 he ((h1 _ (by rw [he]; simp) _).2 ⟨rfl, hs⟩)
    · intro h l1 o s l2 he hs
      obtain ⟨rfl, h2⟩ := (h1 o (by rw [he]; simp) s).1 hs
      exact h l1 s l2 he h2
  | some c =>
    constructor
    · rintro ⟨l1, o, l2, he, h2, h3⟩
      obtain ⟨rfl, h4⟩ := (h1 o (by rw [he]; simp) c).1 h2
      refine ⟨h4, l1, l2, he, fun o ho => ⟨(h3 o ho).1, ?_⟩⟩
      rintro s rfl hs
      exact (h3 _ ho).2 s ((h1 _ (by rw [he]; simp [ho]) s).2 ⟨rfl, hs⟩)
    · rintro ⟨h2, l1, l2, he, h3⟩
      refine ⟨l1, _, l2, he, (h1 _ (by rw [he]; simp) c).2 ⟨rfl, h2⟩, fun o ho => ⟨(h3 o ho).1, fun s hs => ?_⟩⟩
      obtain ⟨rfl, h4⟩ := (h1 o (by rw [he]; simp [ho]) s).1 hs
      exact (h3 _ ho).2 s rfl h4

/-- **C23.** If every exit was recorded completely (`C44_all_recorded`), the state recorded last in the shallow history of a region is the direct inner state exited last in it. -/
theorem C23_last_partial {log : List HOp} (hc : ∀ s k, .cut s k ∉ log) (p i : Nat) (r : Option Sid) :
    Last (Shallow C p i) (ClearsShallow p i) log r ↔ LastExit (ShallowIn C p i) (ClearsShallow p i) log r := by
  refine last_exit (fun o ho s => ⟨fun h => ?_, ?_⟩) r
  · cases h with
    | exit h => exact ⟨rfl, h⟩
    | cut h => exact absurd ho (hc _ _)
  · rintro ⟨rfl, h⟩; exact .exit h

/-- **C24.** If every exit was recorded completely, the state recorded last in the deep history of a region is the innermost state exited last in it. -/
theorem C24_last_partial {log : List HOp} (hc : ∀ s k, .cut s k ∉ log) (p i : Nat) (r : Option Sid) :
    Last (Deep C p i) (ClearsDeep p i) log r ↔ LastExit (DeepIn C p i) (ClearsDeep p i) log r := by
  refine last_exit (fun o ho s => ⟨fun h => ?_, ?_⟩) r
  · cases h with
    | exit h => exact ⟨rfl, h⟩
    | cut h _ => exact absurd ho (hc _ _)
  · rintro ⟨rfl, h⟩; exact .exit h

/-! ## Clearing -/

/-- **C25.** Clearing the shallow history of a region: nothing was exited last there as far as shallow history is concerned, … -/
theorem C25_clear_shallow (log : List HOp) (p i : Nat) (r : Option Sid) :
    Last (Shallow C p i) (ClearsShallow p i) (log ++ [.clearShallow (p, i)]) r ↔ r = none :=
  Last.snoc_clear (by intro s h; cases h) (.inr rfl) r

/-- … every other region's shallow history is as before, … -/
theorem C25_clear_shallow_other (log : List HOp) {k : HKey} {p i : Nat} (h : (p, i) ≠ k) (r : Option Sid) :
    Last (Shallow C p i) (ClearsShallow p i) (log ++ [.clearShallow k]) r ↔ Last (Shallow C p i) (ClearsShallow p i) log r := by
  refine Last.snoc_other (by intro s h; cases h) ?_ r
  rintro (h1 | h1)
  · cases h1
  · cases h1; exact h rfl

/-- … and so is all deep history. -/
theorem C25_clear_shallow_deep (log : List HOp) (k : HKey) (p i : Nat) (r : Option Sid) :
    Last (Deep C p i) (ClearsDeep p i) (log ++ [.clearShallow k]) r ↔ Last (Deep C p i) (ClearsDeep p i) log r := by
  refine Last.snoc_other (by intro s h; cases h) ?_ r
  rintro (h1 | h1) <;> cases h1

/-- **C25.** The same for deep history. -/
theorem C25_clear_deep (log : List HOp) (p i : Nat) (r : Option Sid) :
    Last (Deep C p i) (ClearsDeep p i) (log ++ [.clearDeep (p, i)]) r ↔ r = none :=
  Last.snoc_clear (by intro s h; cases h) (.inr rfl) r

theorem C25_clear_deep_other (log : List HOp) {k : HKey} {p i : Nat} (h : (p, i) ≠ k) (r : Option Sid) :
    Last (Deep C p i) (ClearsDeep p i) (log ++ [.clearDeep k]) r ↔ Last (Deep C p i) (ClearsDeep p i) log r := by
  refine Last.snoc_other (by intro s h; cases h) ?_ r
  rintro (h1 | h1)
  · cases h1
  · cases h1; exact h rfl

theorem C25_clear_deep_shallow (log : List HOp) (k : HKey) (p i : Nat) (r : Option Sid) :
    Last (Shallow C p i) (ClearsShallow p i) (log ++ [.clearDeep k]) r ↔ Last (Shallow C p i) (ClearsShallow p i) log r := by
  refine Last.snoc_other (by intro s h; cases h) ?_ r
  rintro (h1 | h1) <;> cases h1

end SC.Spec

namespace SC
open Spec Chart
variable {W : Type} {P : Prog W} {m m' : Mach W}


section
variable (hwf : P.toChart.WF) (hok : Contract P)
include hwf hok

theorem Visible.remembers (h : Visible P m) : Remembers P.toChart P.supply m := by
  have hc : ∀ c : Call, Keeps (histK P.toChart P.supply true) (c.run P) := (histPrims hwf).call (fun m q d o _ => hrel_same rfl rfl rfl rfl rfl rfl) (hrel_cmd _)
  rcases h with h | ⟨m0, c, h0, hl, hr⟩
  · exact h.remembers hwf
  · exact HRel.remembers ((hc c).ok hr) (h0.remembers hwf)

theorem Visible.knows (h : Visible P m) : Knows P.toChart m.mem := by
  have h1 := h.remembers hwf hok
  have hb : Bounded P.toChart m.hlog := by
    intro o hs s hx
    have h4 : s ∈ (m.trace.map (·.2)).filterMap Obs.exit? := by
      rw [← h1.exits]; exact List.mem_filterMap.2 ⟨_, hs, hx⟩
    obtain ⟨o, ho, h5⟩ := List.mem_filterMap.1 h4
    cases o <;> cases h5
    exact (h.stable hwf hok).1.inv.exit_bound s ho
  exact ⟨h1.mem hb, hb⟩

/-- **C23/C24.** In every dispatch that ends normally, the states entered through a history are determined by the completed `exit()` calls and the
clearing before. The log read is the sequence of all completed `exit()` calls so far, in order, plus the clearing. Exits of reactions that were not interrupted
are all recorded completely. -/
theorem C23_history {e : Event} {m0 : Mach W} (h : Visible P m) (ht : Takes e m m0) (hr : dispatch P e m0 = .ok () m') :
    ∃ tr, m'.trace = m.trace ++ tr ∧ Recalls P.toChart P.decides P.translate e m.leaves m.conf tr m'.conf ∧
      m.hlog.filterMap HOp.exit? = (m.trace.map (·.2)).filterMap Obs.exit? ∧ LogsBut 1 m.hlog (tr.map (·.2)) m'.hlog := by
  obtain ⟨_, tr, h1, _, h2⟩ := Visible.dispatched hwf hok h ht hr
  have hs := (h.stable hwf hok).1
  have h0 := ht.stable hs
  obtain ⟨h3, _, _⟩ := wp_ok (dispatch_wp hwf hok (userMem_forget P) e h0) hr
  have hb : ∀ s, .exit s ∈ tr.map (·.2) → s < P.n := by
    intro s hx
    refine h3.inv.exit_bound s ?_
    rw [h1, List.map_append]
    exact List.mem_append_right _ hx
  obtain ⟨k1, _, k3⟩ := h2.recalls hwf hs.inv.forest (h.knows hwf hok) hb
  exact ⟨tr, h1, k1, (h.remembers hwf hok).exits, k3⟩

/-- What a client's machine remembers for each region. -/
theorem Visible.last (h : Visible P m) (p i : Nat) :
    Last (Shallow P.toChart p i) (ClearsShallow p i) m.hlog (m.mem.sh p i) ∧ Last (Deep P.toChart p i) (ClearsDeep p i) m.hlog (m.mem.dh p i) := by
  obtain ⟨h1, h2⟩ := h.knows hwf hok
  refine ⟨(last_shallow p i m.mem.log _).2 ?_, (last_deep hwf p i h2 _).2 ?_⟩ <;> rw [← h1]

omit hwf hok in
theorem bind_throw {α β : Type} {x : M W α} {f : α → M W β} {e : Exc} {m1 : Mach W} (h : x m = .thrown e m1) : (x >>= f) m = .thrown e m1 := by
  change M.bnd x f m = _
  unfold M.bnd
  rw [h]

/-- The machine is as before, but for history and the environment. -/
structure Apart (m m' : Mach W) : Prop where
  trace : m'.trace = m.trace
  act : m'.act = m.act
  leaves : m'.leaves = m.leaves
  evq : m'.evq = m.evq
  dq : m'.dq = m.dq

/-- **C25.** `clear_shallow_history` and `clear_deep_history` clear the history of that region and do nothing else
(see `C25_clear_shallow` and the following theorems). If there is no memory they throw; then nothing has happened. Memory is needed exactly if there is no entry for the region: since the
machine was last terminated no exit was recorded in it and it was not cleared. -/
theorem C25_clear_call (h : Visible P m) (p i : Nat) :
    ((∃ m', (Call.clearShallow (p, i)).run P m = .ok true m' ∧ m'.hlog = m.hlog ++ [.clearShallow (p, i)] ∧ Apart m m' ∧ Knows P.toChart m'.mem ∧
       (P.ample (.shallowNode (p, i)) ∨ Touched (Shallow P.toChart p i) (ClearsShallow p i) m.hlog)) ∨
     (∃ x m', (Call.clearShallow (p, i)).run P m = .thrown x m' ∧ m'.mem = m.mem ∧ Apart m m' ∧ P.short (.shallowNode (p, i)) ∧
       ¬ Touched (Shallow P.toChart p i) (ClearsShallow p i) m.hlog)) ∧
    ((∃ m', (Call.clearDeep (p, i)).run P m = .ok true m' ∧ m'.hlog = m.hlog ++ [.clearDeep (p, i)] ∧ Apart m m' ∧ Knows P.toChart m'.mem ∧
       (P.ample (.deepNode (p, i)) ∨ Touched (Deep P.toChart p i) (ClearsDeep p i) m.hlog)) ∨
     (∃ x m', (Call.clearDeep (p, i)).run P m = .thrown x m' ∧ m'.mem = m.mem ∧ Apart m m' ∧ P.short (.deepNode (p, i)) ∧
       ¬ Touched (Deep P.toChart p i) (ClearsDeep p i) m.hlog)) := by
  have hk := h.knows hwf hok
  have hheld := (h.remembers hwf hok).held hk.2
  have know : ∀ (m1 : Mach W) c, m1.mem = m.mem → Knows P.toChart (m1.cmd c).mem := by
    intro m1 c hm
    have h1 : Exact P.toChart m1.mem := by rw [hm]; exact hk.1
    obtain ⟨obs, ops, h2, h3, _, h4, h5, _⟩ := hrel_cmd (F := P.supply) (b := true) (n := 0) P.toChart m1 c
    have hlog : Bounded P.toChart (m1.cmd c).hlog := by
      have hm' : m1.hlog = m.hlog := congrArg Memory.log hm
      have hb : Bounded P.toChart m.hlog := hk.2
      cases c <;> simp only [Mach.cmd, hm'] <;> first
        | exact hb
        | (refine Bounded.append.2 ⟨hb, ?_⟩
           intro o ho s hs
           simp only [List.mem_singleton] at ho
           subst ho; cases hs)
    refine ⟨?_, hlog⟩
    have := h5 (Bounded.append.1 (h3 ▸ hlog)).2 m1.hlog h1
    unfold Exact
    rw [this]; rfl
  constructor
  · rcases allocNode_cases P (·.shKeys (p, i)) (.shallowNode (p, i)) m with ⟨w, hw⟩ | ⟨x, h1, h2, hw⟩
    · refine .inl ⟨({ m with world := w } : Mach W).cmd (.clearShallow (p, i)), ?_, rfl, ⟨rfl, rfl, rfl, rfl, rfl⟩, know _ _ rfl, ?_⟩
      rotate_left
      · rw [touched_shallow, ← (hheld p i).1]; exact (allocNode_ok hw).1.symm
      unfold Call.run clearShallowHistory
      simp only
      rw [bind_ok (a := ()) (m1 := ({ m with world := w } : Mach W).cmd (.clearShallow (p, i))) ?_]
      · rfl
      · rw [bind_ok hw]; rfl
    · have hr : (Call.clearShallow (p, i)).run P m = .thrown x _ := bind_throw (bind_throw hw)
      refine .inr ⟨x, _, hr, rfl, ⟨rfl, rfl, rfl, rfl, rfl⟩, ⟨_, _, h2⟩, ?_⟩
      · rw [touched_shallow, ← (hheld p i).1, h1]; simp
  · rcases allocNode_cases P (·.dhKeys (p, i)) (.deepNode (p, i)) m with ⟨w, hw⟩ | ⟨x, h1, h2, hw⟩
    · refine .inl ⟨({ m with world := w } : Mach W).cmd (.clearDeep (p, i)), ?_, rfl, ⟨rfl, rfl, rfl, rfl, rfl⟩, know _ _ rfl, ?_⟩
      rotate_left
      · rw [touched_deep (log := m.hlog) hwf p i hk.2, ← (hheld p i).2]; exact (allocNode_ok hw).1.symm
      unfold Call.run clearDeepHistory
      simp only
      rw [bind_ok (a := ()) (m1 := ({ m with world := w } : Mach W).cmd (.clearDeep (p, i))) ?_]
      · rfl
      · rw [bind_ok hw]; rfl
    · have hr : (Call.clearDeep (p, i)).run P m = .thrown x _ := bind_throw (bind_throw hw)
      refine .inr ⟨x, _, hr, rfl, ⟨rfl, rfl, rfl, rfl, rfl⟩, ⟨_, _, h2⟩, ?_⟩
      · rw [touched_deep (log := m.hlog) hwf p i hk.2, ← (hheld p i).2, h1]; simp

/-- **C25.** All history is cleared when the machine is terminated by a `terminate()` that returns (unless an exception was handled meanwhile), … -/
theorem C25_terminate_partial {m1 : Mach W} (h : Reach P m) (hr : terminate P m = .ok () m1) :
    (∀ p i, Last (Shallow P.toChart p i) (ClearsShallow p i) m1.hlog none ∧ Last (Deep P.toChart p i) (ClearsDeep p i) m1.hlog none) ∨
    ∃ xs tr, m1.trace = m.trace ++ tr ∧ Recovered P.toChart P.decides P.translate (EndsUntil P.toChart) m.conf xs tr m1.conf := by
  rcases C13_terminate hwf hok h hr with ⟨xs, _, _, hg, _⟩ | h'
  · left
    intro p i
    have hv : Visible P m1 := .inl (.returns (c := .terminate) h trivial (by show (terminate P >>= fun _ => pure true) m = _; rw [bind_ok hr]; rfl))
    have := hv.last hwf hok p i
    rw [show m1.mem.sh p i = none from hg.sh p i, show m1.mem.dh p i = none from hg.dh p i] at this
    exact this
  · obtain ⟨xs, tr, h1, _, h2⟩ := h'
    exact .inr ⟨xs, tr, h1, h2⟩

/-- … and when an exception propagates from `process_event` because of a reaction. -/
theorem C25_unhandled_partial {e : Event} {k : Nat} {y : Exc} (h : Reach P m) (hr : processEvent P e k m = .thrown y m') :
    (∀ p i, Last (Shallow P.toChart p i) (ClearsShallow p i) m'.hlog none ∧ Last (Deep P.toChart p i) (ClearsDeep p i) m'.hlog none) ∨
    ∃ (e' : Event) (m0 : Mach W) (xs' : List Exc) (tr' : List (Option Event × Obs)), Harmless P.toChart P.decides e' m0.leaves m0.conf y xs' tr' m'.conf := by
  obtain ⟨es, e', m0, xs, tr, xs', tr', _, _, _, h3, _⟩ := C15_process_event hwf hok h hr
  rcases h3 with ⟨h3, _⟩ | ⟨h3, _⟩
  · left
    intro p i
    have hv : Visible P m' := .inl (.throws (c := .process e k) h trivial hr)
    have hg : Gone m'.conf := by
      have key : ∀ c', Fatal P.toChart P.decides P.translate e' m0.leaves m0.conf y xs' tr' c' → Gone c' := by
        intro c' h
        cases h with
        | died _ _ _ h => exact h
        | rejected _ _ _ _ _ _ h => exact h
      exact key _ h3
    have := hv.last hwf hok p i
    rw [show m'.mem.sh p i = none from hg.sh p i, show m'.mem.dh p i = none from hg.dh p i] at this
    exact this
  · exact .inr ⟨e', m0, xs', tr', h3⟩

/-- **C44.** Where the recording of an exit ended, memory was unavailable and there was no entry for that region: since the machine was last terminated no exit was recorded in it and it was
not cleared. So the region enters its default until the next exit from it is recorded. -/
theorem C44_where (h : Visible P m) {l1 l2 : List HOp} {s : Sid} {k : Option Sid} (hl : m.hlog = l1 ++ .cut s k :: l2) :
    match k with
    | none => ∃ p, P.shallowH p = true ∧ P.parent s = some p ∧ P.short (.shallowNode (p, P.pos s)) ∧
        ¬ Touched (Shallow P.toChart p (P.pos s)) (ClearsShallow p (P.pos s)) l1 ∧
        Last (Shallow P.toChart p (P.pos s)) (ClearsShallow p (P.pos s)) (l1 ++ [.cut s k]) none
    | some q => ∃ i, DeepIn P.toChart q i s ∧ P.short (.deepNode (q, i)) ∧ ¬ Touched (Deep P.toChart q i) (ClearsDeep q i) l1 ∧
        Last (Deep P.toChart q i) (ClearsDeep q i) (l1 ++ [.cut s k]) none := by
  have hk := h.knows hwf hok
  have hb : Bounded P.toChart m.hlog := hk.2
  have h1 := ((h.remembers hwf hok).lawful hb l1 _ l2 hl).1 s k rfl
  rw [hl] at hb
  have hb1 := (Bounded.append.1 hb).1
  have hs : s < P.n := hb (.cut s k) (by simp) s rfl
  cases k with
  | none =>
    obtain ⟨p, h2, h3, h4, h5⟩ := h1
    have hn : ¬ Touched (Shallow P.toChart p (P.pos s)) (ClearsShallow p (P.pos s)) l1 := by rw [touched_shallow, h4]; simp
    refine ⟨p, h3, h2, h5, hn, (Last.snoc_other (fun s h => by cases h) ?_ _).2 (Last.untouched (.inl rfl) (fun s h => by cases h) hn)⟩
    rintro (h | h) <;> cases h
  | some q =>
    obtain ⟨h2, h3, i, h4, h5, h6⟩ := h1
    obtain ⟨c, k1, k2, k3⟩ := (inRegion_iff hwf hs).1 h4
    have hn : ¬ Touched (Deep P.toChart q i) (ClearsDeep q i) l1 := by rw [touched_deep hwf q i hb1, h5]; simp
    refine ⟨i, ⟨h3, h2, c, k1, k3, k2⟩, h6, hn, (Last.snoc_other (fun s h => ?_) ?_ _).2 (Last.untouched (.inl rfl) (fun s h => by cases h) hn)⟩
    · cases h with
      | cut _ h => exact Outer.irrefl hwf (parent_bound hwf (k2.bound hwf hs) k1) h
    · rintro (h | h) <;> cases h

/-- **C44.** Where an exit was recorded, there was an entry for that region or memory was available for one. -/
theorem C44_memory (h : Visible P m) {l1 l2 : List HOp} {o : HOp} (hl : m.hlog = l1 ++ o :: l2) (p i : Nat) (s : Sid) :
    (Shallow P.toChart p i o s → P.ample (.shallowNode (p, i)) ∨ Touched (Shallow P.toChart p i) (ClearsShallow p i) l1) ∧
    (Deep P.toChart p i o s → P.ample (.deepNode (p, i)) ∨ Touched (Deep P.toChart p i) (ClearsDeep p i) l1) := by
  have hb : Bounded P.toChart m.hlog := (h.knows hwf hok).2
  have h1 := ((h.remembers hwf hok).lawful hb l1 _ l2 hl).2 p i s
  rw [hl] at hb
  refine ⟨fun hs => ?_, fun hs => ?_⟩
  · rw [touched_shallow]
    exact (h1.1 (((shallow_says p i o).1 s).1 hs)).symm
  · rw [touched_deep hwf p i (Bounded.append.1 hb).1]
    exact (h1.2 (((deep_says hwf p i (hb o (by simp))).1 s).1 hs)).symm

omit hwf hok in
/-- **C44.** What an incompletely recorded exit of `s` changes: nothing, except in the shallow history of the region of `s`, and, if this was recorded, in the deep
histories inside the one where recording ended. -/
theorem C44_rest (l1 : List HOp) (s : Sid) (k : Option Sid) (p i : Nat) (r : Option Sid) :
    (Last (Shallow P.toChart p i) (ClearsShallow p i) (l1 ++ [.cut s k]) r ↔
      (k ≠ none ∧ ShallowIn P.toChart p i s ∧ r = some s) ∨ (¬ (k ≠ none ∧ ShallowIn P.toChart p i s) ∧ Last (Shallow P.toChart p i) (ClearsShallow p i) l1 r)) ∧
    (Last (Deep P.toChart p i) (ClearsDeep p i) (l1 ++ [.cut s k]) r ↔
      ((∃ q, k = some q ∧ Outer P.toChart q p) ∧ DeepIn P.toChart p i s ∧ r = some s) ∨
      (¬ ((∃ q, k = some q ∧ Outer P.toChart q p) ∧ DeepIn P.toChart p i s) ∧ Last (Deep P.toChart p i) (ClearsDeep p i) l1 r)) := by
  constructor
  · by_cases hc : k ≠ none ∧ ShallowIn P.toChart p i s
    · obtain ⟨h1, h2⟩ := hc
      cases k with
      | none => exact absurd rfl h1
      | some q =>
        rw [Last.snoc_record (s := s) (fun s' h => by cases h; rfl) (.cut h2)]
        exact ⟨fun h => .inl ⟨h1, h2, h⟩, fun h => h.elim (·.2.2) fun h => absurd ⟨h1, h2⟩ h.1⟩
    · rw [Last.snoc_other (fun s' h => ?_) (by rintro (h | h) <;> cases h)]
      · exact ⟨fun h => .inr ⟨hc, h⟩, fun h => h.elim (fun h => absurd ⟨h.1, h.2.1⟩ hc) (·.2)⟩
      · cases h with
        | cut h => exact hc ⟨by simp, h⟩
  · by_cases hc : (∃ q, k = some q ∧ Outer P.toChart q p) ∧ DeepIn P.toChart p i s
    · obtain ⟨⟨q, rfl, h1⟩, h2⟩ := hc
      rw [Last.snoc_record (s := s) (fun s' h => by cases h; rfl) (.cut h2 h1)]
      exact ⟨fun h => .inl ⟨⟨q, rfl, h1⟩, h2, h⟩, fun h => h.elim (·.2.2) fun h => absurd ⟨⟨q, rfl, h1⟩, h2⟩ h.1⟩
    · rw [Last.snoc_other (fun s' h => ?_) (by rintro (h | h) <;> cases h)]
      · exact ⟨fun h => .inr ⟨hc, h⟩, fun h => h.elim (fun h => absurd ⟨h.1, h.2.1⟩ hc) (·.2)⟩
      · cases h with
        | cut h h' => exact hc ⟨⟨_, rfl, h'⟩, h⟩

/-- **C44.** If memory for history is always available, every exit is recorded completely. -/
theorem C44_all_recorded (ha : HistAlloc P) (h : Visible P m) (s : Sid) (k : Option Sid) : .cut s k ∉ m.hlog := by
  intro hm
  obtain ⟨l1, l2, hl⟩ := List.append_of_mem hm
  have := C44_where hwf hok h hl
  cases k with
  | none =>
    obtain ⟨p, _, _, ⟨w, x, h1⟩, _, _⟩ := this
    rw [(ha _ w).1] at h1; cases h1
  | some q =>
    obtain ⟨i, _, ⟨w, x, h1⟩, _, _⟩ := this
    rw [(ha _ w).2] at h1; cases h1

end
end SC

/-! ## The hypotheses can be met -/

namespace SC.Ex
open Spec Chart

/-- D (3) and H (7) are active, then the machine leaves A for I (8); nothing is cleared. The transition to the shallow history of B re-enters D in B, and, as
the other region of A is entered as well, the deep history of E re-enters F and H. -/
example : ∃ m m' : Mach Nat, Visible prog m ∧ Takes ⟨10, 0⟩ m (m.qop (.recv ⟨10, 0⟩)) ∧ dispatch prog ⟨10, 0⟩ (m.qop (.recv ⟨10, 0⟩)) = .ok () m' ∧
    m.leaves = [8] ∧ m'.trace.map (·.2) = m.trace.map (·.2) ++ [.exit 8, .destroy 8, .enter 0, .enter 1, .enter 3, .enter 4, .enter 5, .enter 7] := by
  obtain ⟨m, h1, h2⟩ := scenario_ex (P := prog) [(0, .initiate 0), (0, .process ⟨1, 0⟩ 0), (0, .process ⟨4, 0⟩ 0), (0, .process ⟨5, 0⟩ 5)] 0
    (fun m => m.leaves = [8] && (match dispatch prog ⟨10, 0⟩ (m.qop (.recv ⟨10, 0⟩)) with
      | .ok _ m' => m'.trace.map (·.2) = m.trace.map (·.2) ++ [.exit 8, .destroy 8, .enter 0, .enter 1, .enter 3, .enter 4, .enter 5, .enter 7]
      | _ => false)) (by decide +kernel)
  simp only [Bool.and_eq_true, decide_eq_true_eq] at h2
  cases h3 : dispatch prog ⟨10, 0⟩ (m.qop (.recv ⟨10, 0⟩)) with
  | ok a m' => rw [h3] at h2; exact ⟨m, m', .inl h1, .recv, h3, h2.1, of_decide_eq_true h2.2⟩
  | thrown _ _ => rw [h3] at h2; cases h2.2
  | fault _ => rw [h3] at h2; cases h2.2

/-- The same after the client has cleared the shallow history of B: the default C is entered in B, the deep history of E is not affected. -/
example : ∃ m m' : Mach Nat, Visible prog m ∧ Takes ⟨10, 0⟩ m (m.qop (.recv ⟨10, 0⟩)) ∧ dispatch prog ⟨10, 0⟩ (m.qop (.recv ⟨10, 0⟩)) = .ok () m' ∧
    m.leaves = [8] ∧ m'.trace.map (·.2) = m.trace.map (·.2) ++ [.exit 8, .destroy 8, .enter 0, .enter 1, .enter 2, .enter 4, .enter 5, .enter 7] := by
  obtain ⟨m, h1, h2⟩ := scenario_ex (P := prog) [(0, .initiate 0), (0, .process ⟨1, 0⟩ 0), (0, .process ⟨4, 0⟩ 0), (0, .process ⟨5, 0⟩ 5), (0, .clearShallow (1, 0))] 0
    (fun m => m.leaves = [8] && (match dispatch prog ⟨10, 0⟩ (m.qop (.recv ⟨10, 0⟩)) with
      | .ok _ m' => m'.trace.map (·.2) = m.trace.map (·.2) ++ [.exit 8, .destroy 8, .enter 0, .enter 1, .enter 2, .enter 4, .enter 5, .enter 7]
      | _ => false)) (by decide +kernel)
  simp only [Bool.and_eq_true, decide_eq_true_eq] at h2
  cases h3 : dispatch prog ⟨10, 0⟩ (m.qop (.recv ⟨10, 0⟩)) with
  | ok a m' => rw [h3] at h2; exact ⟨m, m', .inl h1, .recv, h3, h2.1, of_decide_eq_true h2.2⟩
  | thrown _ _ => rw [h3] at h2; cases h2.2
  | fault _ => rw [h3] at h2; cases h2.2

/-- A (0, deep history) has one region with B (1, shallow and deep history) and E (4); B has one region with C (2) and D (3); I (5) is outside. -/
def chart3 : Chart where
  n := 6
  parent s := match s with
    | 1 => some 0 | 2 => some 1 | 3 => some 1 | 4 => some 0
    | _ => none
  pos _ := 0
  init s := match s with
    | 0 => [⟨.plain, 1⟩]
    | 1 => [⟨.plain, 2⟩]
    | _ => []
  shallowH s := s == 1
  deepH s := s == 0 || s == 1
  isSimple _ := false
  initial := 5
  reactions s := match s with
    | 0 => [⟨some 1, .transition ⟨.plain, 5⟩ none⟩, ⟨some 9, .transition ⟨.plain, 5⟩ none⟩]
    | 5 => [⟨some 2, .transition ⟨.plain, 3⟩ none⟩, ⟨some 3, .transition ⟨.plain, 4⟩ none⟩, ⟨some 4, .transition ⟨.shallow, 2⟩ none⟩,
      ⟨some 5, .transition ⟨.deep, 2⟩ none⟩, ⟨some 6, .transition ⟨.deep, 1⟩ none⟩]
    | _ => []

/-- In world 8 there is no memory to store shallow history, in world 9 none for deep history. -/
def prog3 : Prog Nat :=
  { chart3 with
    ctor := fun _ _ w => { world := w }
    exit := fun _ _ w => { world := w }
    dtor := fun _ _ w => (w, [])
    action := fun _ _ w => { world := w }
    react := fun _ _ _ _ w => ({ world := w }, .discard)
    unconsumed := fun _ _ w => { world := w }
    alloc := fun s w => (w, match s with
      | .shallowNode _ => if w = 8 then some 110 else none
      | .deepNode _ => if w = 9 then some 110 else none
      | _ => none)
    translate := fun x => some ⟨9, x⟩ }

theorem wf3 : prog3.toChart.WF := Chart.wf_of_check _ (by decide)

theorem contract3 : Contract prog3 := by
  constructor
  · intro s v w h; cases h
  · intro s r e v w d a h; cases h

/-- **C23 if the exit was not recorded.** D (3) is entered and exited, but there is no memory to record this in the shallow history of B (1); the exception event takes the machine to
I (5). The shallow history of B then enters the default C (2). -/
theorem C23_exit_not_remembered : ∃ m m' : Mach Nat, Reach prog3 m ∧ (∃ b, processEvent prog3 ⟨4, 0⟩ 0 m = .ok b m') ∧
    m'.hlog = [.clear, .exit 5, .cut 3 none, .exit 5] ∧
    m'.trace.map (·.2) = [.enter 5, .exit 5, .destroy 5, .enter 0, .enter 1, .enter 3] ++ [.exit 3, .destroy 3, .destroy 1, .destroy 0, .enter 5] ++
      [.exit 5, .destroy 5, .enter 0, .enter 1, .enter 2] := by
  obtain ⟨m, h1, h2⟩ := scenario_ex (P := prog3) [(0, .initiate 0), (0, .process ⟨2, 0⟩ 0), (8, .process ⟨1, 0⟩ 0)] 0
    (fun m => match processEvent prog3 ⟨4, 0⟩ 0 m with
      | .ok _ m' => m'.hlog = [.clear, .exit 5, .cut 3 none, .exit 5] && decide (m'.trace.map (·.2) = [.enter 5, .exit 5, .destroy 5, .enter 0, .enter 1, .enter 3] ++
        [.exit 3, .destroy 3, .destroy 1, .destroy 0, .enter 5] ++ [.exit 5, .destroy 5, .enter 0, .enter 1, .enter 2])
      | _ => false) (by decide +kernel)
  cases h3 : processEvent prog3 ⟨4, 0⟩ 0 m with
  | ok b m' =>
    rw [h3] at h2
    simp only [Bool.and_eq_true, decide_eq_true_eq] at h2
    exact ⟨m, m', h1, ⟨b, h3⟩, h2⟩
  | thrown _ _ => rw [h3] at h2; cases h2
  | fault _ => rw [h3] at h2; cases h2

/-- **C24 if the exit was not recorded.** E (4) was exited. Then D (3) is entered and exited; there is no memory to record this in the deep history of B (1), and therefore the
deep history of A (0) is not updated either: it enters E, although D was exited after it. -/
theorem C24_exit_not_remembered : ∃ m m' : Mach Nat, Reach prog3 m ∧ (∃ b, processEvent prog3 ⟨6, 0⟩ 0 m = .ok b m') ∧
    m'.hlog = [.clear, .exit 5, .exit 4, .exit 0, .exit 5, .cut 3 (some 1), .exit 5] ∧
    m'.trace.map (·.2) = [.enter 5, .exit 5, .destroy 5, .enter 0, .enter 4, .exit 4, .destroy 4, .exit 0, .destroy 0, .enter 5, .exit 5, .destroy 5, .enter 0, .enter 1, .enter 3] ++
      [.exit 3, .destroy 3, .destroy 1, .destroy 0, .enter 5] ++ [.exit 5, .destroy 5, .enter 0, .enter 4] := by
  obtain ⟨m, h1, h2⟩ := scenario_ex (P := prog3) [(0, .initiate 0), (0, .process ⟨3, 0⟩ 0), (0, .process ⟨1, 0⟩ 0), (0, .process ⟨2, 0⟩ 0), (9, .process ⟨1, 0⟩ 0)] 0
    (fun m => match processEvent prog3 ⟨6, 0⟩ 0 m with
      | .ok _ m' => m'.hlog = [.clear, .exit 5, .exit 4, .exit 0, .exit 5, .cut 3 (some 1), .exit 5] && decide (m'.trace.map (·.2) = [.enter 5, .exit 5, .destroy 5, .enter 0, .enter 4, .exit 4, .destroy 4, .exit 0, .destroy 0, .enter 5, .exit 5, .destroy 5, .enter 0, .enter 1, .enter 3] ++
      [.exit 3, .destroy 3, .destroy 1, .destroy 0, .enter 5] ++ [.exit 5, .destroy 5, .enter 0, .enter 4])
      | _ => false) (by decide +kernel)
  cases h3 : processEvent prog3 ⟨6, 0⟩ 0 m with
  | ok b m' =>
    rw [h3] at h2
    simp only [Bool.and_eq_true, decide_eq_true_eq] at h2
    exact ⟨m, m', h1, ⟨b, h3⟩, h2⟩
  | thrown _ _ => rw [h3] at h2; cases h2
  | fault _ => rw [h3] at h2; cases h2

/-- An entry through a deep history as in `C24_deep`, with a remembered state. -/
example : Bounded chart [.exit 7] ∧ ∃ l g, Returns chart [.exit 7] (.target ⟨.deep, 5⟩) l g ∧ l = [5, 7] := by
  have hp : chart.parent 5 = some 4 := rfl
  refine ⟨?_, _, _, .deep hp (c := 7) (g1 := [.exit 7]) ?_ ?_, rfl⟩
  · intro o ho s hs; simp at ho; subst ho; cases hs; decide
  · exact ⟨[], .exit 7, [], rfl, .exit ⟨rfl, rfl, 5, rfl, rfl, .step (p := 5) rfl .refl⟩, by simp⟩
  · exact .via (C := chart) (x := 5) (y := 7) (l1 := []) (l2 := [7]) (l3 := []) (g1 := [.exit 7]) (g2 := [.exit 7]) (g3 := [.exit 7]) rfl rfl .refl (Logs.refl _)
      (.rnil (C := chart)) (.here rfl (.plain (.tree (Logs.refl _) (.rnil (C := chart))))) (.rnil (C := chart))

/-- Conditions of `C25_unhandled_partial`: an untranslated exception thrown by an `exit()`. -/
example : ∃ m m' : Mach Nat, Reach prog m ∧ processEvent prog ⟨1, 0⟩ 0 m = .thrown 5 m' ∧ m'.terminated = true := by
  obtain ⟨m, h1, h2⟩ := scenario_ex (P := prog) [(0, .initiate 0)] 6
    (fun m => match processEvent prog ⟨1, 0⟩ 0 m with
      | .thrown x m' => x == 5 && m'.terminated
      | _ => false) (by decide +kernel)
  cases h3 : processEvent prog ⟨1, 0⟩ 0 m with
  | ok _ _ => rw [h3] at h2; cases h2
  | thrown x m' =>
    rw [h3] at h2
    simp only [Bool.and_eq_true, beq_iff_eq] at h2
    obtain ⟨rfl, h2⟩ := h2
    exact ⟨m, m', h1, h3, h2⟩
  | fault _ => rw [h3] at h2; cases h2

end SC.Ex
