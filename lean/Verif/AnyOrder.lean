import Verif.Calms
import Verif.Watch
/-!
# Machines that ask the innermost states in any order

The documentation leaves open in which order the innermost states are offered an event (doc/reference.html:984) and where they are in the range
`state_begin()..state_end()` (doc/reference.html:1204). `AnyOrder.Run` describes all that a machine without exceptions may then do. The rest of the file proves
that the order makes no difference if charts and user code do not ask for trouble (`Unambiguous`, `Orderless`).
-/

namespace SC
open Spec
variable {W α β : Type}

namespace AnyOrder
open Calm

/-! ## The machine of the documentation -/

variable (P : Prog W)

/-- Before event `e` is dispatched, the innermost states are put into any order. -/
def Dispatch (e : Event) (st st' : St W) : Prop := ∃ l, l.Perm st.leaves ∧ st' = Calm.dispatch P e { st with leaves := l }

/-- At most `k` posted or released events; `true`: none is left. -/
def Drain : Nat → St W → Bool → St W → Prop
  | 0, st, b, st' => b = st.evq.isEmpty ∧ st' = st
  | k + 1, st, b, st' => match st.evq with
    | [] => b = true ∧ st' = st
    | e :: q => ∃ st1, Dispatch P e { st with evq := q } st1 ∧ Drain k st1 b st'

def Run : Ref.Op → St W → Bool → St W → Prop
  | .initiate k, st, b, st' =>
    let st := stop P st
    Drain P k { Calm.build P (Ref.depth P) (.deep P.initial) { st with trig := none } with trig := st.trig } b st'
  | .process e k, st, b, st' => ∃ st1, Dispatch P e st st1 ∧ Drain P k st1 b st'
  | c, st, b, st' => Calm.run P c st = (b, st')

/-! ## When the order does not matter -/

/-- The same except for the order of the states in the range `state_begin()..state_end()`. -/
structure Shuffled (v v' : View) : Prop where
  slots : v.slots.Perm v'.slots
  objs : v.objs = v'.objs
  terminated : v.terminated = v'.terminated
  trig : v.trig = v'.trig

/-- User code does not depend on the order of the states in the range. -/
structure Orderless : Prop where
  ctor : ∀ {v v' : View} s w, Shuffled v v' → P.ctor s v w = P.ctor s v' w
  exit : ∀ {v v' : View} s w, Shuffled v v' → P.exit s v w = P.exit s v' w
  dtor : ∀ {v v' : View} s w, Shuffled v v' → P.dtor s v w = P.dtor s v' w
  action : ∀ {v v' : View} a w, Shuffled v v' → P.action a v w = P.action a v' w
  react : ∀ {v v' : View} s i e w, Shuffled v v' → P.react s i e v w = P.react s i e v' w
  unconsumed : ∀ {v v' : View} e w, Shuffled v v' → P.unconsumed e v w = P.unconsumed e v' w

/-- `a` and `b` are in different regions of a state. -/
def Separate (C : Chart) (a b : Sid) : Prop := ∃ c d, C.parent c = C.parent d ∧ C.pos c ≠ C.pos d ∧ Spec.Below C c a ∧ Spec.Below C d b

/-- `s` has a reaction to events of type `ty`. -/
def Reacts (C : Chart) (ty : Nat) (s : Sid) : Prop := ∃ r ∈ C.reactions s, r.ev = none ∨ r.ev = some ty

/-- From `a` outward, `s` is the first state that has a reaction to events of type `ty`. -/
structure First (C : Chart) (ty : Nat) (a s : Sid) : Prop where
  outer : Spec.Below C s a
  reacts : Reacts C ty s
  inside : ∀ x, Spec.Below C x a → Outer C s x → ¬ Reacts C ty x

/-- From whichever of two states in different regions one starts, the first state that reacts to an event is the same, unless there is none. -/
def Unambiguous (C : Chart) : Prop := ∀ ty a b s t, a < C.n → b < C.n → Separate C a b → First C ty a s → First C ty b t → s = t

/-! ## Innermost states that are active at the same time are in different regions -/

theorem forest_pair {C : Chart} (hwf : C.WF) {act : Sid → Bool} (h : Forest C act) : ∀ (x y : Sid), act x = true → act y = true →
    Spec.Below C x y ∨ Spec.Below C y x ∨ Separate C x y := by
  intro x
  induction x using Nat.strongRecOn with
  | _ x ih =>
    intro y hx hy
    have hxn := h.bound x hx
    cases hp : C.parent x with
    | none =>
      -- the outermost state of `y`
      have : ∀ y, act y = true → ∃ r, act r = true ∧ C.parent r = none ∧ Spec.Below C r y := by
        intro y
        induction y using Nat.strongRecOn with
        | _ y ihy =>
          intro hy
          cases hq : C.parent y with
          | none => exact ⟨y, hy, hq, .refl⟩
          | some q =>
            obtain ⟨r, h1, h2, h3⟩ := ihy q (hwf.parent_lt (h.bound y hy) hq) (h.outer y q hy hq)
            exact ⟨r, h1, h2, .step hq h3⟩
      obtain ⟨r, h1, h2, h3⟩ := this y hy
      have hpos : ∀ z, act z = true → C.parent z = none → C.pos z = 0 := by
        intro z hz hn
        have := hwf.pos_lt (h.bound z hz)
        rw [hn] at this
        exact Nat.lt_one_iff.1 this
      have : x = r := h.region x r hx h1 (hp.trans h2.symm) ((hpos x hx hp).trans (hpos r h1 h2).symm)
      subst this
      exact .inl h3
    | some p =>
      have hpa := h.outer x p hx hp
      rcases ih p (hwf.parent_lt hxn hp) y hpa hy with h1 | h1 | ⟨c, d, h1, h2, h3, h4⟩
      · rcases h1.child with rfl | ⟨d, h2, h3⟩
        · exact .inr (.inl (.step hp .refl))
        · by_cases hpos : C.pos x = C.pos d
          · have hd : act d = true := by
              clear ih hx hpos
              have : ∀ z, Spec.Below C d z → act z = true → act d = true := by
                intro z hz
                induction hz with
                | refl => exact id
                | step hp _ ih => exact fun hz => ih (h.outer _ _ hz hp)
              exact this y h3 hy
            have := h.region x d hx hd (hp.trans h2.symm) hpos
            subst this
            exact .inl h3
          · exact .inr (.inr ⟨x, d, hp.trans h2.symm, hpos, .refl, h3⟩)
      · exact .inr (.inl (.step hp h1))
      · exact .inr (.inr ⟨c, d, h1, h2, .step hp h3, h4⟩)

theorem leaf_inside {C : Chart} (hwf : C.WF) {x y : Sid} (hy : y < C.n) (hl : C.isLeaf x = true) (h : Spec.Below C x y) : x = y := by
  rcases h.child with rfl | ⟨c, h1, h2⟩
  · rfl
  · have := hwf.pos_lt (h2.bound hwf hy)
    rw [h1] at this
    unfold Chart.isLeaf at hl
    rw [List.isEmpty_iff] at hl
    have h3 : C.regions (some x) = 0 := by unfold Chart.regions; simp [hl]
    rw [h3] at this
    exact absurd this (Nat.not_lt_zero _)

theorem leaves_separate {C : Chart} (hwf : C.WF) {act : Sid → Bool} (h : Forest C act) {x y : Sid} (hx : act x = true) (hy : act y = true)
    (hlx : C.isLeaf x = true) (hly : C.isLeaf y = true) (hne : x ≠ y) : Separate C x y := by
  rcases forest_pair hwf h x y hx hy with h1 | h1 | h1
  · exact absurd (leaf_inside hwf (h.bound y hy) hlx h1) hne
  · exact absurd (leaf_inside hwf (h.bound x hx) hly h1).symm hne
  · exact h1

/-! ## The order in which innermost states are asked -/

variable {P}

theorem react_none {s : Sid} {e : Event} (h : ¬ Reacts P.toChart e.ty s) (st : St W) : local' P s e st = (.forward, st) := by
  unfold local'
  have : (P.reactions s).find? (fun r => decide (r.ev = none ∨ r.ev = some e.ty)) = none := by
    rw [List.find?_eq_none]
    intro r hr hd
    exact h ⟨r, hr, of_decide_eq_true hd⟩
  rw [this]

/-- The search from `a` outward reaches the first state that reacts without any effect. -/
theorem offer_first (hwf : P.toChart.WF) {e : Event} (s : Sid) : ∀ a, a < P.n → First P.toChart e.ty a s → ∀ st : St W,
    offer P e (a :: P.ancestors a) st = offer P e (s :: P.ancestors s) st := by
  intro a
  induction a using Nat.strongRecOn with
  | _ a ih =>
    intro ha h st
    rcases h.outer.eq_or_outer with rfl | ho
    · rfl
    · have hn := h.inside a .refl ho
      obtain ⟨p, hp, hb⟩ := ho
      have hlt := hwf.parent_lt ha hp
      rw [← ih p hlt (Nat.lt_trans hlt ha) ⟨hb, h.reacts, fun x hx hs => h.inside x (.step hp hx) hs⟩ st]
      rw [Chart.ancestors_some hwf ha hp]
      conv => lhs; unfold offer
      rw [react_none hn]
      rfl

theorem offer_none (hwf : P.toChart.WF) {e : Event} : ∀ a, a < P.n → (∀ x, Spec.Below P.toChart x a → ¬ Reacts P.toChart e.ty x) → ∀ st : St W,
    offer P e (a :: P.ancestors a) st = (.forward, st) := by
  intro a
  induction a using Nat.strongRecOn with
  | _ a ih =>
    intro ha h st
    unfold offer
    rw [react_none (h a .refl)]
    cases hp : P.parent a with
    | none => rw [Chart.ancestors_none hp]; rfl
    | some p =>
      have hlt := hwf.parent_lt ha hp
      rw [Chart.ancestors_some hwf ha hp]
      exact ih p hlt (Nat.lt_trans hlt ha) (fun x hx => h x (.step hp hx)) st

theorem first_or_none (C : Chart) (hwf : C.WF) (ty : Nat) : ∀ a, a < C.n → (∃ s, First C ty a s) ∨ ∀ x, Spec.Below C x a → ¬ Reacts C ty x := by
  intro a
  induction a using Nat.strongRecOn with
  | _ a ih =>
    intro ha
    by_cases hr : Reacts C ty a
    · refine .inl ⟨a, .refl, hr, ?_⟩
      intro x hx ho
      exact absurd (Nat.lt_of_lt_of_le (ho.lt hwf (hx.bound hwf ha)) (hx.le hwf ha)) (Nat.lt_irrefl a)
    · cases hp : C.parent a with
      | none =>
        refine .inr ?_
        intro x hx
        cases hx with
        | refl => exact hr
        | step h _ => rw [hp] at h; cases h
      | some p =>
        have hlt := hwf.parent_lt ha hp
        rcases ih p hlt (Nat.lt_trans hlt ha) with ⟨s, h⟩ | h
        · refine .inl ⟨s, .step hp h.outer, h.reacts, ?_⟩
          intro x hx ho
          cases hx with
          | refl => exact hr
          | step hq hx => rw [hp] at hq; cases hq; exact h.inside x hx ho
        · refine .inr ?_
          intro x hx
          cases hx with
          | refl => exact hr
          | step hq hx => rw [hp] at hq; cases hq; exact h x hx

/-- All searches that find a state find the same one. -/
def Agree (P : Prog W) (e : Event) (l : List Sid) : Prop :=
  (∀ x ∈ l, x < P.n) ∧ ∀ x ∈ l, ∀ y ∈ l, ∀ s t, First P.toChart e.ty x s → First P.toChart e.ty y t → s = t

theorem ask_perm (hwf : P.toChart.WF) {e : Event} {l l' : List Sid} (h : l.Perm l') : Agree P e l → ∀ st : St W, ask P e l st = ask P e l' st := by
  induction h with
  | nil => intro _ st; rfl
  | cons x h ih =>
    intro ha st
    have hs : Agree P e _ := ⟨fun y hy => ha.1 y (List.mem_cons_of_mem _ hy), fun y hy z hz => ha.2 y (List.mem_cons_of_mem _ hy) z (List.mem_cons_of_mem _ hz)⟩
    unfold ask
    simp only []
    split
    · exact ih hs _
    · rfl
  | swap x y l =>
    intro ha st
    have hxn := ha.1 x (by simp)
    have hyn := ha.1 y (by simp)
    rcases first_or_none P.toChart hwf e.ty x hxn with ⟨s, hs⟩ | hs
    · rcases first_or_none P.toChart hwf e.ty y hyn with ⟨t, ht⟩ | ht
      · have := ha.2 x (by simp) y (by simp) s t hs ht
        subst this
        simp only [ask, offer_first hwf s x hxn hs, offer_first hwf s y hyn ht]
      · simp only [ask, offer_none hwf y hyn ht, ↓reduceIte]
    · simp only [ask, offer_none hwf x hxn hs, ↓reduceIte]
  | trans h1 _ ih1 ih2 =>
    intro ha st
    rw [ih1 ha st]
    exact ih2 ⟨fun x hx => ha.1 x (h1.mem_iff.2 hx), fun x hx y hy => ha.2 x (h1.mem_iff.2 hx) y (h1.mem_iff.2 hy)⟩ st

theorem agree (hwf : P.toChart.WF) (hu : Unambiguous P.toChart) {act : Sid → Bool} (hf : Forest P.toChart act) {l : List Sid}
    (hl : ∀ s ∈ l, act s = true ∧ P.isLeaf s = true) (e : Event) : Agree P e l := by
  refine ⟨fun x hx => hf.bound x (hl x hx).1, ?_⟩
  intro x hx y hy s t hs ht
  by_cases hne : x = y
  · subst hne
    -- the first state is unique
    rcases hs.outer.linear ht.outer with h | h
    · rcases h.eq_or_outer with h | h
      · exact h
      · exact absurd ht.reacts (hs.inside t ht.outer h)
    · rcases h.eq_or_outer with h | h
      · exact h.symm
      · exact absurd hs.reacts (ht.inside s hs.outer h)
  · exact hu e.ty x y s t (hf.bound x (hl x hx).1) (hf.bound y (hl y hy).1)
      (leaves_separate hwf hf (hl x hx).1 (hl y hy).1 (hl x hx).2 (hl y hy).2 hne) hs ht

/-! ## Machines that differ in the order only -/

/-- No state is entered while it exists. -/
def Fine (tr : List (Option Event × Obs)) : Prop := ∀ x y s, tr.map (·.2) = x ++ Obs.enter s :: y → alive x s = false

theorem Fine.prefix {t u : List (Option Event × Obs)} (h : Fine (t ++ u)) : Fine t := by
  intro x y s he
  refine h x (y ++ u.map (·.2)) s ?_
  rw [List.map_append, he]
  simp

/-- The states agree in everything but the order of the innermost states. -/
structure Twin (a b : St W) : Prop where
  perm : a.leaves.Perm b.leaves
  eq : b = { a with leaves := b.leaves }
  nodup : a.leaves.Nodup
  live : ∀ s ∈ a.leaves, alive (a.trace.map (·.2)) s = true

/-- `g` makes no difference between such states. -/
structure Even (g : St W → α × St W) : Prop where
  grows : ∀ a, ∃ t, (g a).2.trace = a.trace ++ t
  same : ∀ a b, Twin a b → Fine (g a).2.trace → (g a).1 = (g b).1 ∧ Twin (g a).2 (g b).2

abbrev Even1 (g : St W → St W) : Prop := Even fun st => ((), g st)

theorem even_pure (x : α) : Even fun st : St W => (x, st) := ⟨fun _ => ⟨[], by simp⟩, fun _ _ h _ => ⟨rfl, h⟩⟩

theorem even_bind {g : St W → α × St W} {k : α → St W → β × St W} (hg : Even g) (hk : ∀ x, Even (k x)) : Even fun st => k (g st).1 (g st).2 := by
  constructor
  · intro a
    obtain ⟨t, ht⟩ := hg.grows a
    obtain ⟨u, hu⟩ := (hk (g a).1).grows (g a).2
    exact ⟨t ++ u, by rw [hu, ht, List.append_assoc]⟩
  · intro a b h hf
    obtain ⟨u, hu⟩ := (hk (g a).1).grows (g a).2
    have hf1 : Fine (g a).2.trace := by
      have := hf
      simp only [hu] at this
      exact this.prefix
    obtain ⟨h1, h2⟩ := hg.same a b h hf1
    simp only [← h1]
    exact (hk (g a).1).same _ _ h2 hf

theorem even_comp {f : St W → St W} {g : St W → β × St W} (hf : Even1 f) (hg : Even g) : Even fun st => g (f st) := even_bind hf fun _ => hg

/-- The function may depend on what is the same in both states. -/
theorem even_of {X : Type} (x : St W → X) {g : X → St W → α × St W} (hx : ∀ a b, Twin a b → x a = x b) (h : ∀ v, Even (g v)) :
    Even fun st => g (x st) st := by
  constructor
  · intro a; exact (h (x a)).grows a
  · intro a b ht hf
    simp only [← hx a b ht]
    exact (h (x a)).same a b ht hf

theorem twin_set {f : St W → St W} (hs : ∀ a l, f { a with leaves := l } = { f a with leaves := l }) (ht : ∀ a, (f a).trace = a.trace)
    {a b : St W} (h : Twin a b) : Twin (f a) (f b) := by
  have hl : ∀ c : St W, (f c).leaves = c.leaves := fun c => by
    have h := congrArg (fun x : St W => x.leaves) (hs c c.leaves)
    exact h
  refine ⟨?_, ?_, ?_, ?_⟩
  · rw [hl, hl]; exact h.perm
  · rw [hl]
    conv => lhs; rw [h.eq]
    exact hs a _
  · rw [hl]; exact h.nodup
  · rw [hl, ht]; exact h.live

theorem even_set {f : St W → St W} (hs : ∀ a l, f { a with leaves := l } = { f a with leaves := l }) (ht : ∀ a, (f a).trace = a.trace) : Even1 f :=
  ⟨fun a => ⟨[], by simp [ht]⟩, fun _ _ h _ => ⟨rfl, twin_set hs ht h⟩⟩

theorem Twin.view {a b : St W} (h : Twin a b) : Shuffled a.view b.view := by
  rw [h.eq]
  exact ⟨h.perm.map some, rfl, rfl, rfl⟩

theorem Twin.world {a b : St W} (h : Twin a b) : a.world = b.world := by rw [h.eq]

theorem cmds_leaves (cs : List Cmd) : ∀ (a : St W) l, cs.foldl St.cmd { a with leaves := l } = { cs.foldl St.cmd a with leaves := l } := by
  induction cs with
  | nil => intro a l; rfl
  | cons c cs ih =>
    intro a l
    show cs.foldl St.cmd (St.cmd { a with leaves := l } c) = _
    have : St.cmd { a with leaves := l } c = { St.cmd a c with leaves := l } := by cases c <;> rfl
    rw [this, ih]
    rfl

theorem cmds_keep (cs : List Cmd) : ∀ (a : St W), (cs.foldl St.cmd a).leaves = a.leaves := by
  induction cs with
  | nil => intro a; rfl
  | cons c cs ih =>
    intro a
    show (cs.foldl St.cmd (a.cmd c)).leaves = _
    rw [ih]
    cases c <;> rfl

theorem cmds_trace (cs : List Cmd) : ∀ (a : St W), (cs.foldl St.cmd a).trace = a.trace := by
  induction cs with
  | nil => intro a; rfl
  | cons c cs ih =>
    intro a
    show (cs.foldl St.cmd (a.cmd c)).trace = _
    rw [ih]
    cases c <;> rfl

/-- A call of user code that destroys no state in the list. -/
theorem twin_log {o : Obs} : ∀ (a b : St W), Twin a b → (∀ s, o = .destroy s → s ∉ a.leaves) → Twin (a.log o) (b.log o) := by
  intro a b h ho
  refine ⟨h.perm, ?_, h.nodup, ?_⟩
  · rw [h.eq]; rfl
  · intro s hs
    show alive ((a.trace ++ [(a.trig, o)]).map (·.2)) s = true
    rw [List.map_append]
    show alive (a.trace.map (·.2) ++ [o]) s = true
    rw [alive_snoc]
    have := h.live s hs
    cases o with
    | enter t => simp only [aliveStep]; split <;> simp [this]
    | destroy t =>
      simp only [aliveStep]
      have hne : s ≠ t := fun e => ho t rfl (e ▸ hs)
      rw [if_neg hne]; exact this
    | _ => exact this

/-- What the commands of user code do. -/
theorem twin_cmds (cs : List Cmd) (w : W) {a b : St W} (h : Twin a b) : Twin (cs.foldl St.cmd { a with world := w }) (cs.foldl St.cmd { b with world := w }) :=
  twin_set (f := fun st => cs.foldl St.cmd { st with world := w }) (fun a l => cmds_leaves cs { a with world := w } l) (fun a => cmds_trace cs _) h

theorem even_user {f : View → W → UOut W} {o : Obs} (hf : ∀ {v v'} w, Shuffled v v' → f v w = f v' w) (ho : ∀ s, o ≠ .destroy s) :
    Even1 (user f o) := by
  constructor
  · intro a
    refine ⟨[(((f a.view a.world).cmds.foldl St.cmd { a with world := (f a.view a.world).world }).trig, o)], ?_⟩
    show (((f a.view a.world).cmds.foldl St.cmd { a with world := (f a.view a.world).world }).log o).trace = _
    unfold St.log
    simp only [cmds_trace]
  · intro a b h _
    refine ⟨rfl, ?_⟩
    have he : f a.view a.world = f b.view b.world := by rw [h.world]; exact hf _ h.view
    show Twin (user f o a) (user f o b)
    unfold user
    simp only [← he]
    exact twin_log _ _ (twin_cmds _ _ h) fun s e => absurd e (ho s)

/-! ## Leaving states -/

theorem replace_perm {s z : Sid} : ∀ {l : List Sid}, l.Nodup → s ∈ l → (l.map fun x => if x = s then z else x).Perm (z :: l.erase s)
  | [], _, h => by cases h
  | x :: l, hn, hm => by
    rw [List.nodup_cons] at hn
    by_cases hx : x = s
    · subst hx
      have : (l.map fun y => if y = x then z else y) = l := by
        conv => rhs; rw [← List.map_id l]
        refine List.map_congr_left fun y hy => ?_
        rw [if_neg (by rintro rfl; exact hn.1 hy)]
        rfl
      simp [this]
    · have hm : s ∈ l := by
        rcases List.mem_cons.1 hm with h | h
        · exact absurd h.symm hx
        · exact h
      have ih := replace_perm (z := z) hn.2 hm
      rw [List.map_cons, if_neg hx, List.erase_cons_tail (by simp [hx])]
      exact (ih.cons x).trans (.swap z x _)

theorem leave_perm {s : Sid} {l : List Sid} (hn : l.Nodup) : (Ref.leave l s).Perm (l.erase s) := by
  unfold Ref.leave
  cases hl : l.getLast? with
  | none =>
    rw [List.getLast?_eq_none_iff] at hl
    subst hl
    exact .refl _
  | some z =>
    obtain ⟨i, rfl⟩ := List.getLast?_eq_some_iff.1 hl
    simp only []
    by_cases hm : s ∈ i ++ [z]
    · rw [if_pos hm, List.map_append, List.map_cons, List.map_nil, List.dropLast_concat]
      rw [List.nodup_append] at hn
      by_cases hs : s ∈ i
      · rw [List.erase_append_left _ hs]
        refine (replace_perm hn.1 hs).trans ?_
        exact (List.perm_append_comm (l₁ := [z]) (l₂ := i.erase s))
      · have hz : s = z := by simpa [hs] using hm
        subst hz
        rw [List.erase_append_right _ hs]
        have : (i.map fun x => if x = s then s else x) = i := by
          conv => rhs; rw [← List.map_id i]
          refine List.map_congr_left fun y hy => ?_
          rw [if_neg (by rintro rfl; exact hs hy)]
          rfl
        rw [this]
        simp
    · rw [if_neg hm, List.erase_of_not_mem hm]

/-- `s` is taken out of the list. -/
theorem twin_leave (s : Sid) {a b : St W} (h : Twin a b) :
    Twin { a with leaves := Ref.leave a.leaves s } { b with leaves := Ref.leave b.leaves s } ∧ s ∉ Ref.leave a.leaves s := by
  have hb := h.perm.nodup h.nodup
  have hp := leave_perm (s := s) h.nodup
  refine ⟨⟨?_, ?_, ?_, ?_⟩, ?_⟩
  · exact hp.trans ((h.perm.erase s).trans (leave_perm hb).symm)
  · rw [h.eq]
  · exact (hp.nodup_iff).2 (h.nodup.erase s)
  · intro x hx
    exact h.live x (List.mem_of_mem_erase (hp.mem_iff.1 hx))
  · rw [hp.mem_iff, h.nodup.mem_erase_iff]
    exact fun hc => hc.1 rfl

theorem twin_destroy (ho : Orderless P) (s : Sid) {a b : St W} (h : Twin a b) (hs : s ∉ a.leaves) : Twin (destroy P s a) (destroy P s b) := by
  have he : P.dtor s a.view a.world = P.dtor s b.view b.world := by rw [h.world]; exact ho.dtor s _ h.view
  have h1 := twin_cmds (P.dtor s a.view a.world).2 (P.dtor s a.view a.world).1 h
  have hl : ((P.dtor s a.view a.world).2.foldl St.cmd { a with world := (P.dtor s a.view a.world).1 }).leaves = a.leaves :=
    cmds_keep _ _
  have h2 := twin_log (o := .destroy s) _ _ h1 (by intro t e; cases e; rw [hl]; exact hs)
  unfold destroy
  simp only [← he]
  generalize ((P.dtor s a.view a.world).2.foldl St.cmd { a with world := (P.dtor s a.view a.world).1 }).log (.destroy s) = x at h2
  generalize ((P.dtor s a.view a.world).2.foldl St.cmd { b with world := (P.dtor s a.view a.world).1 }).log (.destroy s) = y at h2
  refine twin_set (f := fun st => { (if st.defers s then { st with evq := st.dq ++ st.evq, dq := [] } else st) with
    act := fun x => if x = s then false else (if st.defers s then { st with evq := st.dq ++ st.evq, dq := [] } else st).act x
    defers := fun x => if x = s then false else (if st.defers s then { st with evq := st.dq ++ st.evq, dq := [] } else st).defers x
    root := if P.parent s = none then none else (if st.defers s then { st with evq := st.dq ++ st.evq, dq := [] } else st).root }) ?_ ?_ h2
  · intro a l
    simp only []
    split <;> rfl
  · intro a
    simp only []
    split <;> rfl

theorem destroy_trace (s : Sid) (a : St W) : ∃ x, (destroy P s a).trace = a.trace ++ [(x, .destroy s)] := by
  refine ⟨((P.dtor s a.view a.world).2.foldl St.cmd { a with world := (P.dtor s a.view a.world).1 }).trig, ?_⟩
  unfold destroy
  simp only []
  split
  · simp only [St.log, cmds_trace]
  · simp only [St.log, cmds_trace]

theorem user_leaves (f : View → W → UOut W) (o : Obs) (a : St W) : (user f o a).leaves = a.leaves :=
  cmds_keep (f a.view a.world).cmds _

theorem user_trace (f : View → W → UOut W) (o : Obs) (a : St W) : ∃ x, (user f o a).trace = a.trace ++ [(x, o)] :=
  ⟨((f a.view a.world).cmds.foldl St.cmd { a with world := (f a.view a.world).world }).trig, by unfold user; simp only [St.log, cmds_trace]⟩

theorem twin_user {f : View → W → UOut W} {o : Obs} (hf : ∀ {v v'} w, Shuffled v v' → f v w = f v' w) (ho : ∀ s, o ≠ .destroy s) {a b : St W}
    (h : Twin a b) : Twin (user f o a) (user f o b) := by
  have he : f a.view a.world = f b.view b.world := by rw [h.world]; exact hf _ h.view
  unfold user
  simp only [← he]
  exact twin_log _ _ (twin_cmds _ _ h) fun s e => absurd e (ho s)

variable (ho : Orderless P)
include ho

theorem even_exitOne (s : Sid) : Even1 (exitOne P s) := by
  constructor
  · intro a
    obtain ⟨x, hx⟩ := user_trace (P.exit s) (.exit s) { a with leaves := Ref.leave a.leaves s }
    obtain ⟨y, hy⟩ := destroy_trace (P := P) s { user (P.exit s) (.exit s) { a with leaves := Ref.leave a.leaves s } with
      sh := shallow P s (user (P.exit s) (.exit s) { a with leaves := Ref.leave a.leaves s }).sh
      dh := if P.isLeaf s then deep P s P.n s (user (P.exit s) (.exit s) { a with leaves := Ref.leave a.leaves s }).dh
        else (user (P.exit s) (.exit s) { a with leaves := Ref.leave a.leaves s }).dh }
    refine ⟨[(x, .exit s), (y, .destroy s)], hy.trans ?_⟩
    simp only [hx, List.append_assoc]
    rfl
  · intro a b h _
    refine ⟨rfl, ?_⟩
    show Twin (exitOne P s a) (exitOne P s b)
    unfold exitOne
    simp only []
    obtain ⟨h1, h2⟩ := twin_leave s h
    have h3 := twin_user (f := P.exit s) (o := .exit s) (fun w => ho.exit s w) (fun _ => nofun) h1
    refine twin_destroy ho s (twin_set (f := fun st => { st with sh := shallow P s st.sh, dh := if P.isLeaf s then deep P s P.n s st.dh else st.dh })
      (fun _ _ => rfl) (fun _ => rfl) h3) ?_
    show s ∉ (user (P.exit s) (.exit s) { a with leaves := Ref.leave a.leaves s }).leaves
    rw [user_leaves]
    exact h2

theorem even_exitAll (l : List Sid) : Even1 (exitAll P l) := by
  induction l with
  | nil => exact even_pure ()
  | cons s l ih => exact even_comp (f := exitOne P s) (g := fun st => ((), exitAll P l st)) (even_exitOne ho s) ih

theorem even_exits (F : (Sid → Bool) → List Sid) : Even1 fun st : St W => exitAll P (F st.act) st :=
  even_of (fun st => F st.act) (g := fun l st => ((), exitAll P l st)) (fun a b h => by rw [h.eq]) fun l => even_exitAll ho l

theorem even_leaveTree (t : Sid) : Even1 (leaveTree P t) := even_exits ho fun act => exitOrder P.toChart act t

theorem even_leaveInside (t : Sid) : Even1 (leaveInside P t) := even_exits ho fun act => (exitOrder P.toChart act t).dropLast

theorem even_leaveAll : Even1 (Calm.leaveAll P) := by
  have h1 : Even1 fun st : St W => match st.root with
      | none => st
      | some s => leaveTree P s st := by
    refine even_of (fun st => st.root) (g := fun r st => ((), match r with
      | none => st
      | some s => leaveTree P s st)) (fun a b h => by rw [h.eq]) fun r => ?_
    cases r with
    | none => exact even_pure ()
    | some s => exact even_leaveTree ho s
  exact even_comp (f := fun st : St W => match st.root with | none => st | some s => leaveTree P s st)
    (g := fun st : St W => ((), { st with evq := [], dq := [], sh := fun _ => none, dh := fun _ => none })) h1
    (even_set (f := fun st : St W => { st with evq := [], dq := [], sh := fun _ => none, dh := fun _ => none }) (fun _ _ => rfl) (fun _ => rfl))

/-! ## Entering states -/

theorem even_enter (s : Sid) : Even1 (enter P s) := by
  -- the constructor and what precedes it
  have key : ∀ c : Bool, (∀ a : St W, ∃ x, (if c then attach P s (user (P.ctor s) (.enter s) a) else user (P.ctor s) (.enter s) (attach P s a)).trace =
        a.trace ++ [(x, .enter s)]) ∧
      (∀ a : St W, (if c then attach P s (user (P.ctor s) (.enter s) a) else user (P.ctor s) (.enter s) (attach P s a)).leaves = a.leaves) ∧
      ∀ a b : St W, Twin a b → Twin (if c then attach P s (user (P.ctor s) (.enter s) a) else user (P.ctor s) (.enter s) (attach P s a))
        (if c then attach P s (user (P.ctor s) (.enter s) b) else user (P.ctor s) (.enter s) (attach P s b)) := by
    have hat : ∀ {a b : St W}, Twin a b → Twin (attach P s a) (attach P s b) := fun h => twin_set (f := attach P s) (fun _ _ => rfl) (fun _ => rfl) h
    have hus : ∀ {a b : St W}, Twin a b → Twin (user (P.ctor s) (.enter s) a) (user (P.ctor s) (.enter s) b) :=
      fun h => twin_user (fun w => ho.ctor s w) (fun _ h => by cases h) h
    intro c
    cases c with
    | true => exact ⟨fun a => user_trace (P.ctor s) (.enter s) a, fun a => user_leaves (P.ctor s) (.enter s) a, fun a b h => hat (hus h)⟩
    | false => exact ⟨fun a => user_trace (P.ctor s) (.enter s) (attach P s a), fun a => user_leaves (P.ctor s) (.enter s) (attach P s a), fun a b h => hus (hat h)⟩
  obtain ⟨k1, k2, k3⟩ := key (P.isSimple s)
  constructor
  · intro a
    obtain ⟨x, hx⟩ := k1 { a with act := fun x => if x = s then true else a.act x, defers := fun x => if x = s then false else a.defers x }
    exact ⟨[(x, .enter s)], hx⟩
  · intro a b h hf
    refine ⟨rfl, ?_⟩
    have h1 : Twin ({ a with act := fun x => if x = s then true else a.act x, defers := fun x => if x = s then false else a.defers x } : St W)
        { b with act := fun x => if x = s then true else b.act x, defers := fun x => if x = s then false else b.defers x } :=
      twin_set (f := fun a => { a with act := fun x => if x = s then true else a.act x, defers := fun x => if x = s then false else a.defers x })
        (fun _ _ => rfl) (fun _ => rfl) h
    have h2 := k3 _ _ h1
    obtain ⟨x, hx⟩ := k1 { a with act := fun x => if x = s then true else a.act x, defers := fun x => if x = s then false else a.defers x }
    have hl := k2 { a with act := fun x => if x = s then true else a.act x, defers := fun x => if x = s then false else a.defers x }
    have hf1 : Fine (a.trace ++ [(x, .enter s)]) := by
      have : (enter P s a).trace = a.trace ++ [(x, .enter s)] := hx
      rw [← this]; exact hf
    have hdead : alive (a.trace.map (·.2)) s = false := hf1 (a.trace.map (·.2)) [] s (by rw [List.map_append]; rfl)
    have hnm : s ∉ a.leaves := fun hm => by
      have := h.live s hm
      rw [hdead] at this
      cases this
    show Twin (enter P s a) (enter P s b)
    unfold enter
    simp only []
    generalize (if P.isSimple s then attach P s (user (P.ctor s) (.enter s) { a with act := fun x => if x = s then true else a.act x, defers := fun x => if x = s then false else a.defers x })
      else user (P.ctor s) (.enter s) (attach P s { a with act := fun x => if x = s then true else a.act x, defers := fun x => if x = s then false else a.defers x })) = y at h2 hx hl ⊢
    generalize (if P.isSimple s then attach P s (user (P.ctor s) (.enter s) { b with act := fun x => if x = s then true else b.act x, defers := fun x => if x = s then false else b.defers x })
      else user (P.ctor s) (.enter s) (attach P s { b with act := fun x => if x = s then true else b.act x, defers := fun x => if x = s then false else b.defers x })) = z at h2 ⊢
    have hal : alive (y.trace.map (·.2)) s = true := by
      rw [hx, List.map_append]
      show alive (a.trace.map (·.2) ++ [Obs.enter s]) s = true
      rw [alive_snoc]
      simp [aliveStep]
    have hny : s ∉ y.leaves := by rw [hl]; exact hnm
    by_cases hlf : P.isLeaf s = true
    · simp only [hlf, ↓reduceIte]
      refine ⟨h2.perm.append_right [s], ?_, ?_, ?_⟩
      · rw [h2.eq]
      · show (y.leaves ++ [s]).Nodup
        rw [List.nodup_append]
        refine ⟨h2.nodup, by simp, ?_⟩
        intro u hu v hv
        rw [List.mem_singleton.1 hv]
        rintro rfl
        exact hny hu
      · intro u hu
        rcases List.mem_append.1 hu with hu | hu
        · exact h2.live u hu
        · rw [List.mem_singleton.1 hu]; exact hal
    · simp only [hlf]
      exact h2

theorem even_build (f : Nat) : ∀ j : Ref.Job, Even1 (Calm.build P f j) := by
  induction f with
  | zero => intro j; exact even_pure ()
  | succ f ih =>
    intro j
    cases j with
    | deep s => exact even_comp (f := enter P s) (g := fun st => ((), Calm.build P f (.inners (P.init s)) st)) (even_enter ho s) (ih _)
    | inners l =>
      cases l with
      | nil => exact even_pure ()
      | cons t ts => exact even_comp (f := Calm.build P f (.target t)) (g := fun st => ((), Calm.build P f (.inners ts) st)) (ih _) (ih _)
    | target t =>
      exact even_of (fun st => recalled P t st) (g := fun j st => ((), Calm.build P f j st)) (fun a b h => by rw [h.eq]; rfl) fun j => ih j
    | chain l d =>
      cases l with
      | nil => exact ih _
      | cons x cs =>
        exact even_comp (f := enter P x) (g := fun st => ((), Calm.build P f (.inners ((P.init x).drop (P.pos (cs.headD d.st) + 1)))
            (Calm.build P f (.chain cs d) (Calm.build P f (.inners ((P.init x).take (P.pos (cs.headD d.st)))) st)))) (even_enter ho x)
          (even_comp (f := Calm.build P f (.inners ((P.init x).take (P.pos (cs.headD d.st)))))
            (g := fun st => ((), Calm.build P f (.inners ((P.init x).drop (P.pos (cs.headD d.st) + 1))) (Calm.build P f (.chain cs d) st))) (ih _)
            (even_comp (f := Calm.build P f (.chain cs d)) (g := fun st => ((), Calm.build P f (.inners ((P.init x).drop (P.pos (cs.headD d.st) + 1))) st))
              (ih _) (ih _)))

/-! ## Reactions -/

theorem even_action (a : Option Nat) : Even1 (Calm.action P a) := by
  cases a with
  | none => exact even_pure ()
  | some a => exact even_user (fun w => ho.action a w) (fun _ => nofun)

theorem even_leaveAndAct (s t : Sid) (c : Option Sid) (act : Option Nat) : Even1 (leaveAndAct P s t c act) := by
  unfold leaveAndAct
  simp only []
  split
  · cases P.ctxOf act with
    | none => exact even_pure ()
    | some r =>
      exact even_comp (f := leaveInside P r) (g := fun st => ((), leaveTree P t (Calm.action P act st))) (even_leaveInside ho r)
        (even_comp (f := Calm.action P act) (g := fun st => ((), leaveTree P t st)) (even_action ho act) (even_leaveTree ho t))
  · exact even_comp (f := leaveTree P t) (g := fun st => ((), Calm.action P act st)) (even_leaveTree ho t) (even_action ho act)

theorem even_transit (s : Sid) (d : Target) (act : Option Nat) : Even1 (Calm.transit P s d act) := by
  unfold Calm.transit
  cases P.termState s d.st with
  | none => exact even_pure ()
  | some t =>
    exact even_comp (f := leaveAndAct P s t (P.commonCtx s d.st) act)
      (g := fun st => ((), Calm.build P (Ref.depth P) (.chain (P.pathBelow (P.commonCtx s d.st) d.st) d) st)) (even_leaveAndAct ho _ _ _ _) (even_build ho _ _)

theorem even_terminateState (s : Sid) : Even1 (Calm.terminateState P s) := even_exits ho fun act => terminated P.toChart act s

omit ho in
theorem even_defer (s : Sid) : Even1 (defer s : St W → St W) := by
  constructor
  · intro a; exact ⟨[(a.trig, .defer s)], rfl⟩
  · intro a b h _
    exact ⟨rfl, twin_log (o := .defer s) _ _ (twin_set (f := fun st => { st with defers := fun x => if x = s then true else st.defers x })
      (fun _ _ => rfl) (fun _ => rfl) h) fun _ => nofun⟩

omit ho in
theorem even_ans {f : St W → St W} (h : Even1 f) (r : α) : Even fun st => (r, f st) := ⟨h.grows, fun a b ht hf => ⟨rfl, (h.same a b ht hf).2⟩⟩

theorem even_custom (s : Sid) (id : Nat) (e : Event) : Even (custom P s id e) := by
  have hu : Even1 (user (fun v w => (P.react s id e v w).1) (.react s id)) :=
    even_user (fun w h => by rw [ho.react s id e w h]) (fun _ => nofun)
  have hd : ∀ a b : St W, Twin a b → (P.react s id e a.view a.world).2 = (P.react s id e b.view b.world).2 := by
    intro a b h
    rw [h.world, ho.react s id e _ h.view]
  unfold custom
  refine even_of (fun st => (P.react s id e st.view st.world).2) (g := fun d st => match d with
    | .discard => (Ref.Answer.discard, user (fun v w => (P.react s id e v w).1) (.react s id) st)
    | .forward => (Ref.Answer.forward, user (fun v w => (P.react s id e v w).1) (.react s id) st)
    | .defer => (Ref.Answer.defer, defer s (user (fun v w => (P.react s id e v w).1) (.react s id) st))
    | .transit d a => (Ref.Answer.discard, Calm.transit P s d a (user (fun v w => (P.react s id e v w).1) (.react s id) st))
    | .terminate => (Ref.Answer.discard, Calm.terminateState P s (user (fun v w => (P.react s id e v w).1) (.react s id) st))) hd fun d => ?_
  cases d with
  | discard => exact even_ans hu _
  | forward => exact even_ans hu _
  | defer => exact even_comp (f := user (fun v w => (P.react s id e v w).1) (.react s id)) (g := fun st => (Ref.Answer.defer, defer s st)) hu (even_ans (even_defer s) _)
  | transit d a => exact even_comp (f := user (fun v w => (P.react s id e v w).1) (.react s id)) (g := fun st => (Ref.Answer.discard, Calm.transit P s d a st)) hu (even_ans (even_transit ho s d a) _)
  | terminate => exact even_comp (f := user (fun v w => (P.react s id e v w).1) (.react s id)) (g := fun st => (Ref.Answer.discard, Calm.terminateState P s st)) hu (even_ans (even_terminateState ho s) _)

theorem even_react (s : Sid) (e : Event) (r : RKind) : Even fun st => Calm.react P s e st r := by
  cases r with
  | transition d a => exact even_ans (even_transit ho s d a) _
  | inState a => exact even_ans (even_action ho a) _
  | termination => exact even_ans (even_terminateState ho s) _
  | deferral => exact even_ans (even_defer s) _
  | custom id => exact even_custom ho s id e

theorem even_local (s : Sid) (e : Event) : Even (local' P s e) := by
  unfold local'
  cases (P.reactions s).find? fun r => r.ev = none ∨ r.ev = some e.ty with
  | none => exact even_pure _
  | some r => exact even_react ho s e r.kind

omit ho in
theorem even_next {g k : St W → Ref.Answer × St W} (hg : Even g) (hk : Even k) : Even fun st => if (g st).1 = .forward then k (g st).2 else g st := by
  have := even_bind hg (k := fun x st => if x = .forward then k st else (x, st)) fun x => by
    by_cases hx : x = .forward
    · simp only [hx, ↓reduceIte]; exact hk
    · simp only [hx]; exact even_pure x
  exact this

theorem even_offer (e : Event) (l : List Sid) : Even (offer P e l) := by
  induction l with
  | nil => exact even_pure _
  | cons s l ih => exact even_next (even_local ho s e) ih

theorem even_ask (e : Event) (l : List Sid) : Even (ask P e l) := by
  induction l with
  | nil => exact even_pure _
  | cons s l ih => exact even_next (even_offer ho e _) ih

end AnyOrder
end SC
