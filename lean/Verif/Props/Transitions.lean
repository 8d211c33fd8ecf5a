import Verif.Props.Calls
/-!
# Properties C06 – C08, C10 – C12, C20: transitions, terminations and other reactions

First what follows from `Transition` and `Termination` alone; then that the executed reactions are such.
-/

namespace SC.Spec
open SC Chart
variable {C : Chart}

/-! ## C06: exit order -/

/-- In an exit list every outer state comes immediately after its last inner state. -/
theorem ExitList.next (hwf : C.WF) {S : Sid → Prop} {xs : List Sid} (h : ExitList C S xs) (hb : ∀ x, S x → x < C.n)
    {a b c : List Sid} {z p : Sid} (hx : xs = a ++ z :: (b ++ p :: c)) (hz : Outer C p z) (hl : ∀ w ∈ b, ¬ Outer C p w) : b = [] := by
  subst hx
  have hord := h.order
  have hbd : ∀ x, x ∈ a ++ z :: (b ++ p :: c) → x < C.n := fun x hx => hb x ((h.mem x).1 hx)
  have hzn := hbd z (by simp)
  have hpn := hbd p (by simp)
  cases b with
  | nil => rfl
  | cons w b =>
    exfalso
    have hwn := hbd w (by simp)
    rw [List.pairwise_append] at hord
    obtain ⟨_, hord, _⟩ := hord
    rw [List.pairwise_cons] at hord
    obtain ⟨hzw, hord⟩ := hord
    have hzw := hzw w (by simp)
    rw [List.cons_append, List.pairwise_cons] at hord
    have hwp := hord.1 p (by simp)
    rcases hwp with hwp | ⟨x, y, h1, h2, h3, h4⟩
    · exact hl w (by simp) hwp
    · -- `w` is in a region with higher number than that of `p`, hence than that of `z`
      have hyz : Below C y z := h4.trans hz.below
      rcases hzw with hzw | ⟨x', y', k1, k2, k3, k4⟩
      · exact region_disjoint hwf hzn h1 (by omega) (h3.trans hzw.below) hyz
      · -- the two pairs of regions are the same
        rcases Below.linear hyz k3 with hl | hl
        · rcases hl.eq_or_outer with rfl | hl
          · have : x = y' := by
              exact Below.sibling hwf hwn h3 k4 (by rw [h1, ← k1])
            subst this; omega
          · have hy' : Outer C y y' ∨ y = y' := by
              obtain ⟨q, hq1, hq2⟩ := hl
              rw [k1] at hq1
              exact .inl ⟨q, hq1, hq2⟩
            rcases hy' with hy' | hy'
            · exact region_disjoint hwf hwn h1 (by omega) h3 (hy'.trans_below k4).below
            · subst hy'; exact region_disjoint hwf hwn h1 (by omega) h3 k4
        · rcases hl.eq_or_outer with rfl | hl
          · have : x = y' := Below.sibling hwf hwn h3 k4 (by rw [h1, ← k1])
            subst this; omega
          · obtain ⟨q, hq1, hq2⟩ := hl
            rw [← h1] at hq1
            have : Outer C x' x := ⟨q, hq1, hq2⟩
            exact region_disjoint hwf hwn k1 (by omega) (this.trans_below h3).below k4

theorem count_exitObs {xs : List Sid} (hn : xs.Nodup) (s : Sid) : (exitObs true xs).count (.exit s) = if s ∈ xs then 1 else 0 := by
  induction xs with
  | nil => rfl
  | cons x xs ih =>
    have hn' := (List.nodup_cons.1 hn)
    have : exitObs true (x :: xs) = .exit x :: .destroy x :: exitObs true xs := rfl
    rw [this]
    simp only [List.count_cons, ih hn'.2]
    by_cases hs : s = x
    · subst hs
      simp [hn'.1]
    · have hs' : x ≠ s := fun h => hs h.symm
      by_cases hm : s ∈ xs <;> simp [hs, hs', hm]

theorem Leaves.mem {act : Sid → Bool} {t : Sid} {B : Sid → Prop} {l1 l2 : List Sid} (h : Leaves C act t B l1 l2) (x : Sid) :
    (x ∈ l1 ∨ x ∈ l2) ↔ act x = true ∧ Below C t x := by
  rw [h.first.mem, h.rest.mem]
  constructor
  · rintro (h | h)
    · exact h.1
    · exact h.1
  · intro h
    by_cases hb : B x
    · exact .inl ⟨h, hb⟩
    · exact .inr ⟨h, hb⟩

theorem Leaves.nodup {act : Sid → Bool} {t : Sid} {B : Sid → Prop} {l1 l2 : List Sid} (h : Leaves C act t B l1 l2) : (l1 ++ l2).Nodup := by
  rw [List.nodup_append]
  refine ⟨h.first.nodup, h.rest.nodup, ?_⟩
  rintro x hx _ hy rfl
  exact ((h.rest.mem x).1 hy).2 ((h.first.mem x).1 hx).2

/-- Without relaxed transition context nothing is left after the action. -/
theorem Leaves.default {act : Sid → Bool} {t : Sid} {a : Option Nat} {l1 l2 : List Sid} (h : Leaves C act t (Before C a) l1 l2) (hr : C.relaxed = false) : l2 = [] := by
  rw [List.eq_nil_iff_forall_not_mem]
  intro x hx
  exact ((h.rest.mem x).1 hx).2 (before_default hr a x)

/-- With relaxed transition context nothing is left after an action of the machine or of a context that stays. -/
theorem Leaves.outside {act : Sid → Bool} {t : Sid} {a : Option Nat} {l1 l2 : List Sid} (h : Leaves C act t (Before C a) l1 l2)
    (hq : ∀ q, a.bind C.actCtx = some q → Outer C q t) : l2 = [] := by
  rw [List.eq_nil_iff_forall_not_mem]
  intro x hx
  obtain ⟨⟨_, hb⟩, hn⟩ := (h.rest.mem x).1 hx
  exact hn fun _ y hy => (hq y hy).trans_below hb

/-- C06: in a transition each exited state's `exit()` is called once, directly followed by the destruction of the state: of the states `xs` before
the action, of the states `ys` after it (there are none, unless the transition context is relaxed and the action is a member of a state that is left). In both groups:
inner states before outer ones, regions in descending order, every outer state immediately after its last inner state. An outer state is always exited
after its inner states. -/
theorem C06_exit_order (hwf : C.WF) {s t : Sid} {d : Target} {a : Option Nat} {k : Option Sid} {xs ys l : List Sid} {c c' : Conf} {obs : List Obs}
    (hf : Forest C c.act) (h : Transition C true s d a k t xs ys l c obs c') :
    (∃ rest, obs = (xs.flatMap fun x => [.exit x, .destroy x]) ++ acts a ++ (ys.flatMap fun x => [.exit x, .destroy x]) ++ rest ∧
      ∀ x, .exit x ∉ acts a ++ rest ∧ .destroy x ∉ acts a ++ rest) ∧
    xs.Pairwise (ExitsBefore C) ∧ ys.Pairwise (ExitsBefore C) ∧ (xs ++ ys).Nodup ∧ (xs ++ ys).Pairwise (fun x y => ¬ Outer C x y) ∧
    (∀ zs, zs = xs ∨ zs = ys → ∀ a' b c' z p, zs = a' ++ z :: (b ++ p :: c') → Outer C p z → (∀ w ∈ b, ¬ Outer C p w) → b = []) ∧
    (C.relaxed = false → ys = []) ∧ ((∀ q, a.bind C.actCtx = some q → Outer C q t) → ys = []) := by
  have hb1 : ∀ x, x ∈ xs → x < C.n := fun x hx => hf.bound x ((h.exited.mem x).1 (.inl hx)).1
  have hb2 : ∀ x, x ∈ ys → x < C.n := fun x hx => hf.bound x ((h.exited.mem x).1 (.inr hx)).1
  have hanti : ∀ x y, y < C.n → ExitsBefore C x y → ¬ Outer C x y := by
    rintro x y hy (ho | ⟨u, v, h1, h2, h3, h4⟩) hxy
    · exact Outer.irrefl hwf hy (ho.trans_below hxy.below)
    · exact region_disjoint hwf hy h1 (by omega) (h3.trans hxy.below) h4
  refine ⟨⟨enterObs l, ?_, ?_⟩, h.exited.first.order, h.exited.rest.order, h.exited.nodup, ?_, ?_, h.exited.default, h.exited.outside⟩
  · rw [h.seen]; rfl
  · intro x
    cases a <;> simp [acts, enterObs]
  · rw [List.pairwise_append]
    refine ⟨?_, ?_, ?_⟩
    · exact h.exited.first.order.imp_of_mem fun _ hy he => hanti _ _ (hb1 _ hy) he
    · exact h.exited.rest.order.imp_of_mem fun _ hy he => hanti _ _ (hb2 _ hy) he
    · intro x hx y hy ho
      refine ((h.exited.rest.mem y).1 hy).2 fun hr q hq => ?_
      exact (((h.exited.first.mem x).1 hx).2 hr q hq).trans_below ho.below
  · rintro zs (rfl | rfl) a' b c' z p hx hz hl
    · exact h.exited.first.next hwf (fun x hx => hf.bound x hx.1.1) hx hz hl
    · exact h.exited.rest.next hwf (fun x hx => hf.bound x hx.1.1) hx hz hl

/-! ## C07: exit set -/

/-- C07: exactly the active states at or below the direct inner state `t` of the common context that contains `s` are exited; every other
active state is neither exited nor destroyed nor entered again, and is active afterwards: it is the same object. -/
theorem C07_exit_set (hwf : C.WF) {s t : Sid} {d : Target} {a : Option Nat} {k : Option Sid} {xs ys l : List Sid} {c c' : Conf} {obs : List Obs}
    (hf : Forest C c.act) (hs : c.act s = true) (h : Transition C true s d a k t xs ys l c obs c') :
    CommonCtx C s d.st k ∧ C.parent t = k ∧ Below C t s ∧ c.act t = true ∧
    (∀ x, .exit x ∈ obs ↔ c.act x = true ∧ Below C t x) ∧ (∀ x, .destroy x ∈ obs ↔ c.act x = true ∧ Below C t x) ∧
    ∀ x, c.act x = true → ¬ Below C t x → c'.act x = true ∧ .enter x ∉ obs := by
  have hd : ∀ (xs : List Sid) x, .destroy x ∈ exitObs true xs ↔ x ∈ xs := by
    intro xs x
    unfold exitObs
    simp only [List.mem_flatMap]
    constructor
    · rintro ⟨y, h1, h2⟩; simp at h2; rw [h2]; exact h1
    · intro h; exact ⟨x, h, by simp⟩
  have he : ∀ (xs : List Sid) x, .exit x ∈ exitObs true xs ↔ x ∈ xs := by
    intro xs x
    unfold exitObs
    simp only [List.mem_flatMap]
    constructor
    · rintro ⟨y, h1, h2⟩; simp at h2; rw [h2]; exact h1
    · intro h; exact ⟨x, h, by simp⟩
  refine ⟨h.common, h.top.1, h.top.2, hf.below h.top.2 hs, ?_, ?_, ?_⟩
  · intro x
    rw [h.seen, ← h.exited.mem, ← he xs, ← he ys]
    cases a <;> simp [acts, enterObs]
  · intro x
    rw [h.seen, ← h.exited.mem, ← hd xs, ← hd ys]
    cases a <;> simp [acts, enterObs]
  · intro x hx hnb
    refine ⟨(h.after x).2 (.inl ⟨hx, hnb⟩), ?_⟩
    have hxl : x ∉ l := by
      intro hxl
      -- `x` is in the region of `t`, so `t` is its only possible top
      obtain ⟨y, _, h1, h2, h3, h4⟩ := h.entered.under x hxl
      have hya := hf.below h4 hx
      have : y = t := hf.region y t hya (hf.below h.top.2 hs) (by rw [h1, h.top.1]) (by omega)
      subst this; exact hnb h4
    rw [h.seen]
    have : ∀ xs : List Sid, .enter x ∉ exitObs true xs := by
      intro xs
      unfold exitObs
      simp only [List.mem_flatMap]
      rintro ⟨y, _, h2⟩; simp at h2
    cases a <;> simp [acts, enterObs, this, hxl]

/-! ## C08: entry order and result -/

/-- No inner initial state of the chart is entered through history. -/
def PlainInit (C : Chart) : Prop := ∀ s t, t ∈ C.init s → t.kind = .plain

def Goal.Plain : Goal → Prop
  | .target t => t.kind = .plain
  | .down _ t => t.kind = .plain
  | .regions ts => ∀ t ∈ ts, t.kind = .plain
  | .tree _ => True

/-- Without history targets the memory is irrelevant. -/
theorem Enters.plainMem {F : Memory → Memory → Prop} (hp : PlainInit C) (h0 : Memory) {h h' : Memory} {g : Goal} {l : List Sid} (he : Enters C F h g l h') :
    g.Plain → Enters C (fun a b => a = b) h0 g l h0 := by
  induction he with
  | @tree h h1 h2 s l _ _ ih => exact fun _ => .tree rfl (ih fun t ht => hp s t ht)
  | rnil => exact fun _ => .rnil
  | rcons _ _ ih1 ih2 => exact fun hg => .rcons (ih1 (hg _ (by simp))) (ih2 fun t ht => hg t (by simp [ht]))
  | plain _ ih => exact fun _ => .plain (ih trivial)
  | shallow _ _ _ _ => intro hg; cases hg
  | shallowDefault _ _ _ _ => intro hg; cases hg
  | deep _ _ _ _ => intro hg; cases hg
  | deepDefault _ _ _ _ => intro hg; cases hg
  | here h _ ih => exact fun hg => .here h (ih hg)
  | via h1 h2 h3 _ _ _ _ ih1 ih2 ih3 =>
    exact fun hg => .via h1 h2 h3 rfl (ih1 fun t ht => hp _ t (List.mem_of_mem_take ht)) (ih2 hg) (ih3 fun t ht => hp _ t (List.mem_of_mem_drop ht))

/-- The memory without entries. -/
def noMemory : Memory := ⟨fun _ _ => none, fun _ _ => none, []⟩

theorem Enters.plain_default (hwf : C.WF) {F : Memory → Memory → Prop} (hp : PlainInit C) {h h' : Memory} {g : Goal} {l : List Sid} (he : Enters C F h g l h')
    (hg : g.Plain) {ctx : Option Sid} {lo hi : Nat} (ha : g.At C ctx lo hi) : g.Default C l :=
  (Enters.default hwf (F := fun a b => a = b) (fun a b h hn => h ▸ hn) (he.plainMem hp noMemory hg) ha ⟨fun _ _ => rfl, fun _ _ => rfl⟩).1

/-- C08: all entries come last, in entry order (outer states first, regions in ascending order). The entered states contain all states from
below the common context down to the destination (down to its context if the destination is a history), and are complete: every region of an entered state is filled by exactly one entered state.
Afterwards the active states are the old ones not below `t`, and the entered ones. -/
theorem C08_entry_order (hwf : C.WF) {s t : Sid} {d : Target} {a : Option Nat} {k : Option Sid} {xs ys l : List Sid} {c c' : Conf} {obs : List Obs}
    (h : Transition C true s d a k t xs ys l c obs c') :
    (∃ pre, obs = pre ++ l.map .enter ∧ ∀ x, .enter x ∉ pre) ∧
    l.Pairwise (EntersBefore C) ∧ l.Nodup ∧
    (∀ x, Below C x d.st → (d.kind = .plain ∨ x ≠ d.st) → (∀ p, k = some p → Outer C p x) → x ∈ l) ∧
    (∀ x ∈ l, ∃ y ∈ l, C.parent y = k ∧ C.pos y = C.pos t ∧ Below C y x) ∧
    (∀ x ∈ l, ∀ i, i < C.regions (some x) → ∃ y ∈ l, C.parent y = some x ∧ C.pos y = i) ∧
    (∀ x ∈ l, ∀ y ∈ l, C.parent x = C.parent y → C.pos x = C.pos y → x = y) ∧
    (∀ x, c'.act x = true ↔ (c.act x = true ∧ ¬ Below C t x) ∨ x ∈ l) := by
  refine ⟨⟨exitObs true xs ++ acts a ++ exitObs true ys, h.seen, ?_⟩, h.entered.order, h.entered.nodup hwf, h.path, ?_, h.entered.filled, h.entered.uniq, h.after⟩
  · intro x
    have : ∀ xs : List Sid, .enter x ∉ exitObs true xs := by
      intro xs
      unfold exitObs
      simp only [List.mem_flatMap]
      rintro ⟨y, _, h2⟩; simp at h2
    cases a <;> simp [acts, this]
  · intro x hx
    obtain ⟨y, h1, h2, h3, h4, h5⟩ := h.entered.under x hx
    exact ⟨y, h1, h2, by omega, h5⟩

/-- C08: in a chart without history the entered states are exactly: the path from below the common context to the destination, and the
inner initial trees of the other regions of the states on the path and of the destination, depth first. -/
theorem C08_entry_exact (hwf : C.WF) (hp : PlainInit C) {s t : Sid} {d : Target} {a : Option Nat} {k : Option Sid} {xs ys l : List Sid} {c c' : Conf} {obs : List Obs}
    (hd : d.st < C.n) (hk : d.kind = .plain) (h : Transition C true s d a k t xs ys l c obs c') : ∃ p, DownPath C k d.st p ∧ l = pathTree C p := by
  obtain ⟨h1, _, h2⟩ := h.mem
  have hdl : d.st ∈ l := h.path d.st .refl (.inl hk) fun p hp => (h.common.outer p hp).2
  obtain ⟨y, _, k1, k2, k3, k4⟩ := h.entered.under d.st hdl
  exact h2.plain_default hwf hp hk (ctx := k) (lo := C.pos t) (hi := C.pos t + 1) ⟨hd, rfl, y, k1, k4, by omega, rfl⟩

/-! ## C10: innermost common context -/

/-- C10: the context up to which a transition exits is a proper outer state of source and destination, or the machine, inside all others;
it is determined by source and destination. -/
theorem C10_common_context (hwf : C.WF) {s t : Sid} {d : Target} {a : Option Nat} {k : Option Sid} {xs ys l : List Sid} {c c' : Conf} {obs : List Obs}
    (hs : s < C.n) (h : Transition C true s d a k t xs ys l c obs c') :
    (∀ p, k = some p → Outer C p s ∧ Outer C p d.st) ∧ (∀ x, Outer C x s → Outer C x d.st → ∃ p, k = some p ∧ Below C x p) ∧
    ∀ k', CommonCtx C s d.st k' → k' = k :=
  ⟨h.common.outer, h.common.inner, fun _ h' => h'.unique hwf hs h.common⟩

/-- C10: a transition between a state and itself or one of its inner states, in either direction, exits and re-enters the outer one of the two,
whose direct outer state stays active (a history destination may enter another state of the region instead of its default). -/
theorem C10_self_and_nested (hwf : C.WF) {s o t : Sid} {d : Target} {a : Option Nat} {k : Option Sid} {xs ys l : List Sid} {c c' : Conf} {obs : List Obs}
    (hf : Forest C c.act) (hs : c.act s = true) (ho : (o = s ∧ Below C s d.st) ∨ (o = d.st ∧ Below C d.st s))
    (h : Transition C true s d a k t xs ys l c obs c') :
    k = C.parent o ∧ t = o ∧ .exit o ∈ obs ∧ (d.kind = .plain ∨ o ≠ d.st → .enter o ∈ obs) := by
  have hsn := hf.bound s hs
  have hoc : CommonCtx C s d.st (C.parent o) := by
    rcases ho with ⟨rfl, hb⟩ | ⟨rfl, hb⟩
    · exact commonCtx_of_below hb
    · exact (commonCtx_of_below hb).symm
  have hk := h.common.unique hwf hsn hoc
  have hos : Below C o s := by
    rcases ho with ⟨rfl, hb⟩ | ⟨rfl, hb⟩
    · exact .refl
    · exact hb
  have hod : Below C o d.st := by
    rcases ho with ⟨rfl, hb⟩ | ⟨rfl, hb⟩
    · exact hb
    · exact .refl
  have ht : t = o := Below.sibling hwf hsn h.top.2 hos (by rw [h.top.1, hk])
  subst ht
  refine ⟨hk, rfl, ?_, ?_⟩
  · exact ((C07_exit_set hwf hf hs h).2.2.2.2.1 t).2 ⟨hf.below h.top.2 hs, .refl⟩
  · intro hkd
    have : t ∈ l := h.path t hod hkd fun p hp => ⟨p, by rw [← hk]; exact hp, .refl⟩
    rw [h.seen]
    simp [enterObs, this]

/-! ## C11: action placement -/

theorem alive_exitObs (full : Bool) : ∀ (xs : List Sid) (act : Sid → Bool) (x : Sid), (exitObs full xs).foldl aliveStep act x = (act x && !xs.contains x) := by
  intro xs
  induction xs with
  | nil => intro act x; simp [exitObs]
  | cons y xs ih =>
    intro act x
    have : (exitObs full (y :: xs)).foldl aliveStep act = (exitObs full xs).foldl aliveStep (aliveStep act (.destroy y)) := by
      cases full <;> rfl
    rw [this, ih]
    simp only [aliveStep, List.contains_cons]
    by_cases h : x = y
    · simp [h]
    · have : (x == y) = false := by simpa using h
      simp [h, this]

/-- C11: the action runs exactly once, after all exits and before all entries of the transition; at this time the common context (and
every state outside `t`) is active. With relaxed transition context the states that are not inside the context of the action are exited after it. -/
theorem C11_action_placement (hwf : C.WF) {s t : Sid} {d : Target} {a : Nat} {k : Option Sid} {xs ys l : List Sid} {c c' : Conf} {obs : List Obs}
    (hf : Forest C c.act) (hs : c.act s = true) (h : Transition C true s d (some a) k t xs ys l c obs c') :
    ∃ before after, obs = before ++ .act a :: after ∧
      (∀ b, .act b ∉ before ∧ .act b ∉ after) ∧ (∀ x, .enter x ∉ before) ∧
      (C.relaxed = false → ∀ x, .exit x ∉ after ∧ .destroy x ∉ after) ∧
      (∀ x, .exit x ∈ before ↔ c.act x = true ∧ Below C t x ∧ Before C (some a) x) ∧
      (∀ x, .exit x ∈ after ↔ c.act x = true ∧ Below C t x ∧ ¬ Before C (some a) x) ∧
      (∀ p, k = some p → before.foldl aliveStep c.act p = true) ∧
      (∀ x, before.foldl aliveStep c.act x = true ↔ c.act x = true ∧ ¬ (Below C t x ∧ Before C (some a) x)) := by
  have hal : ∀ x, (exitObs true xs).foldl aliveStep c.act x = true ↔ c.act x = true ∧ ¬ (Below C t x ∧ Before C (some a) x) := by
    intro x
    rw [alive_exitObs]
    simp only [Bool.and_eq_true, Bool.not_eq_true', List.contains_eq_mem, decide_eq_false_iff_not, h.exited.first.mem]
    constructor
    · rintro ⟨h1, h2⟩; exact ⟨h1, fun hb => h2 ⟨⟨h1, hb.1⟩, hb.2⟩⟩
    · rintro ⟨h1, h2⟩; exact ⟨h1, fun hb => h2 ⟨hb.1.2, hb.2⟩⟩
  have he : ∀ (xs : List Sid) x, .exit x ∈ exitObs true xs ↔ x ∈ xs := by
    intro xs x
    unfold exitObs
    simp only [List.mem_flatMap]
    constructor
    · rintro ⟨y, h1, h2⟩; simp at h2; rw [h2]; exact h1
    · intro h; exact ⟨x, h, by simp⟩
  have hno : ∀ (xs : List Sid) o, o ∈ exitObs true xs → ∃ x, o = .exit x ∨ o = .destroy x := by
    intro xs o ho
    unfold exitObs at ho
    obtain ⟨y, _, h2⟩ := List.mem_flatMap.1 ho
    simp at h2
    exact ⟨y, h2⟩
  refine ⟨exitObs true xs, exitObs true ys ++ enterObs l, by rw [h.seen]; simp [acts], ?_, ?_, ?_, ?_, ?_, ?_, hal⟩
  · intro b
    constructor
    · intro ho; obtain ⟨x, h | h⟩ := hno _ _ ho <;> cases h
    · intro ho
      rcases List.mem_append.1 ho with ho | ho
      · obtain ⟨x, h | h⟩ := hno _ _ ho <;> cases h
      · simp [enterObs] at ho
  · intro x ho; obtain ⟨y, h | h⟩ := hno _ _ ho <;> cases h
  · intro hr x
    rw [h.exited.default hr]
    simp [exitObs, enterObs]
  · intro x; rw [he, h.exited.first.mem, and_assoc]
  · intro x
    rw [List.mem_append, he, h.exited.rest.mem, and_assoc]
    simp [enterObs]
  · rintro p rfl
    have hos := (h.common.outer p rfl).1
    have hpt : Outer C p t := ⟨p, h.top.1, .refl⟩
    have hta := hf.below h.top.2 hs
    refine (hal p).2 ⟨hf.below hos.below hs, fun hb => ?_⟩
    exact Outer.irrefl hwf (hf.bound t hta) (hb.1.trans_outer hpt)

/-! ## C12: termination -/

/-- C12: the terminated state, its active inner states and then each outer state without other active inner states are exited, in exit order;
every other state stays active and the configuration stays legal. -/
theorem C12_termination (hwf : C.WF) {s : Sid} {xs : List Sid} {c c' : Conf} {obs : List Obs}
    (hl : LegalConf C c.act) (hs : c.act s = true) (h : Termination C true s xs c obs c') :
    obs = (xs.flatMap fun x => [.exit x, .destroy x]) ∧ xs.Pairwise (ExitsBefore C) ∧ xs.Nodup ∧ s ∈ xs ∧
    (∀ x, x ∈ xs ↔ c.act x = true ∧ (Below C s x ∨ (Outer C x s ∧ ∀ y, c.act y = true → Outer C x y → Below C s y ∨ Outer C y s))) ∧
    (∀ x, c'.act x = true ↔ c.act x = true ∧ x ∉ xs) ∧ LegalConf C c'.act := by
  have haft : ∀ x, c'.act x = true ↔ c.act x = true ∧ x ∉ xs := by
    intro x; rw [h.after, ← h.exited.mem]
  refine ⟨h.seen, h.exited.order, h.exited.nodup, (h.exited.mem s).2 ⟨hs, .inl .refl⟩, fun x => h.exited.mem x, haft, ?_⟩
  refine ⟨⟨?_, ?_, ?_⟩, ?_⟩
  · exact fun x hx => hl.bound x ((haft x).1 hx).1
  · intro x p hx hp
    obtain ⟨h1, h2⟩ := (h.after x).1 hx
    refine (h.after p).2 ⟨hl.outer x p h1 hp, ?_⟩
    rintro ⟨_, h3 | ⟨h3, h4⟩⟩
    · exact h2 ⟨h1, .inl (.step hp h3)⟩
    · rcases h4 x h1 ⟨p, hp, .refl⟩ with h5 | h5
      · exact h2 ⟨h1, .inl h5⟩
      · exact h2 ⟨h1, .inr ⟨h5, fun y hy ho => h4 y hy ((Outer.trans_below ⟨p, hp, .refl⟩ ho.below))⟩⟩
  · exact fun x y hx hy => hl.region x y ((haft x).1 hx).1 ((haft y).1 hy).1
  · intro x hx hlf
    obtain ⟨h1, h2⟩ := (h.after x).1 hx
    obtain ⟨y, hy, hyp⟩ := hl.inner x h1 hlf
    by_cases hye : EndsWith C c.act s y
    · -- `x` has another inner state that stays
      by_cases hxs : Outer C x s
      · have : ∃ y, c.act y = true ∧ Outer C x y ∧ ¬ Below C s y ∧ ¬ Outer C y s := by
          apply Classical.byContradiction
          intro hno
          refine h2 ⟨h1, .inr ⟨hxs, fun y hy ho => ?_⟩⟩
          apply Classical.byContradiction
          intro hb
          exact hno ⟨y, hy, ho, fun h => hb (.inl h), fun h => hb (.inr h)⟩
        obtain ⟨z, hz, hoz, hz1, hz2⟩ := this
        rcases hoz.below.child with rfl | ⟨w, hw1, hw2⟩
        · exact absurd hoz (Outer.irrefl hwf (hl.bound _ hz))
        · have hwa := hl.toForest.below hw2 hz
          refine ⟨w, (h.after w).2 ⟨hwa, ?_⟩, hw1⟩
          rintro ⟨_, h3 | ⟨h3, h4⟩⟩
          · -- `s` is at or above `w`, and `z` is below `w`
            exact hz1 (h3.trans hw2)
          · rcases hw2.eq_or_outer with rfl | hw2
            · exact hz2 h3
            · rcases h4 z hz hw2 with h5 | h5
              · exact hz1 h5
              · exact hz2 h5
      · exfalso
        rcases hye.2 with h3 | ⟨h3, _⟩
        · cases h3 with
          | refl => exact hxs ⟨x, hyp, .refl⟩
          | step hp hb =>
            rw [hyp] at hp; cases hp
            exact h2 ⟨h1, .inl hb⟩
        · exact hxs (Outer.trans_below ⟨x, hyp, .refl⟩ h3.below)
    · exact ⟨y, (h.after y).2 ⟨hy, hye⟩, hyp⟩

end SC.Spec

namespace SC
open Spec Chart
variable {W : Type} {P : Prog W} {m m' : Mach W}

section
variable (hwf : P.toChart.WF) (hok : Contract P)
include hwf

/-! ## Executed reactions -/

/-- A `transit<d>(a)` of state `s` that ends normally is a transition, after which the machine is stable. -/
theorem transit_is_transition (hok : Contract P) {s : Sid} {d : Target} {a : Option Nat} (hm : Stable P.toChart m) (hs : m.act s = true) (htr : P.transitOK s d a = true)
    (hr : transit P s d a m = .ok () m') :
    Stable P.toChart m' ∧ ∃ k t xs ys l obs, m'.trace = m.trace ++ tag m.trig obs ∧ Transition P.toChart true s d a k t xs ys l m.conf obs m'.conf := by
  have hou : OUBelow P.toChart s m := by intro u hu; rw [hm.pOU] at hu; cases hu
  obtain ⟨hsn, hdn, _⟩ := transitOK_spec htr
  obtain ⟨hp, hi, h1⟩ := wp_ok (transit_wp hwf hok (userMem_forget P) (a := a) htr hm.inv hs hou) hr
  obtain ⟨obs, h2, h3⟩ := h1.spec
  rw [hm.fullExit] at h3
  obtain ⟨⟨k, t', xs, ys, l', h4⟩, _⟩ := h3.meaning hwf hm.inv.forest (hm.inv.memOK hwf) hs hdn.bound
  refine ⟨⟨h1.inv, hp, ?_, by rw [h1.fullExit, hm.fullExit], h1.flags hm.flags⟩, k, t', xs, ys, l', obs, h2, h4⟩
  intro h; rw [hi] at h; cases h

section
variable {s : Sid} {d : Target} {a : Option Nat} (hok : Contract P) (hm : Stable P.toChart m) (hs : m.act s = true) (htr : P.transitOK s d a = true)
include hok hm hs htr

/-- C06 and C07 for executed transitions: exactly the active states at or below `t`, the direct inner state of the innermost common context of source and
destination that contains the source, are exited and destroyed, each once, inner states before outer ones, higher regions first; the others stay. With relaxed
transition context some (`ys`) may be exited after the action. -/
theorem C06_transit (hr : transit P s d a m = .ok () m') : ∃ (k : Option Sid) (t : Sid) (xs ys : List Sid) (rest : List Obs), CommonCtx P.toChart s d.st k ∧ P.parent t = k ∧ Below P.toChart t s ∧
    m'.trace = m.trace ++ tag m.trig ((xs.flatMap fun x => [.exit x, .destroy x]) ++ acts a ++ (ys.flatMap fun x => [.exit x, .destroy x]) ++ rest) ∧
    (∀ x, .exit x ∉ rest ∧ .destroy x ∉ rest) ∧ (xs ++ ys).Nodup ∧ xs.Pairwise (ExitsBefore P.toChart) ∧ ys.Pairwise (ExitsBefore P.toChart) ∧
    (xs ++ ys).Pairwise (fun x y => ¬ Outer P.toChart x y) ∧
    (∀ x, x ∈ xs ++ ys ↔ m.act x = true ∧ Below P.toChart t x) ∧ (P.relaxed = false → ys = []) ∧
    ∀ x, m.act x = true → ¬ Below P.toChart t x → m'.act x = true ∧ .enter x ∉ rest := by
  obtain ⟨_, k, t, xs, ys, l, obs, h1, h2⟩ := transit_is_transition hwf hok hm hs htr hr
  obtain ⟨⟨rest, h3, h4⟩, h5, h5', h6, h7, _, h8, _⟩ := C06_exit_order hwf hm.inv.forest h2
  obtain ⟨g1, g2, g3, _, _, _, g4⟩ := C07_exit_set hwf hm.inv.forest hs h2
  refine ⟨k, t, xs, ys, rest, g1, g2, g3, by rw [h1, h3], fun x => ⟨fun h => (h4 x).1 (by simp [h]), fun h => (h4 x).2 (by simp [h])⟩, h6, h5, h5', h7, fun x => ?_, h8, ?_⟩
  · rw [List.mem_append]; exact h2.exited.mem x
  intro x hx hb
  obtain ⟨j1, j2⟩ := g4 x hx hb
  exact ⟨j1, fun h => j2 (by rw [h3]; simp [h])⟩

/-- C08 for executed transitions. -/
theorem C08_transit (hr : transit P s d a m = .ok () m') : ∃ (k : Option Sid) (t : Sid) (pre : List Obs) (l : List Sid), CommonCtx P.toChart s d.st k ∧ P.parent t = k ∧ Below P.toChart t s ∧
    m'.trace = m.trace ++ tag m.trig (pre ++ l.map .enter) ∧ (∀ x, .enter x ∉ pre) ∧ l.Pairwise (EntersBefore P.toChart) ∧ l.Nodup ∧
    (∀ x, Below P.toChart x d.st → (d.kind = .plain ∨ x ≠ d.st) → (∀ p, k = some p → Outer P.toChart p x) → x ∈ l) ∧
    (∀ x ∈ l, ∃ y ∈ l, P.parent y = k ∧ P.pos y = P.pos t ∧ Below P.toChart y x) ∧
    (∀ x ∈ l, ∀ i, i < P.regions (some x) → ∃ y ∈ l, P.parent y = some x ∧ P.pos y = i) ∧
    (∀ x ∈ l, ∀ y ∈ l, P.parent x = P.parent y → P.pos x = P.pos y → x = y) ∧
    (∀ x, m'.act x = true ↔ (m.act x = true ∧ ¬ Below P.toChart t x) ∨ x ∈ l) ∧
    (PlainInit P.toChart → d.kind = .plain → ∃ p, DownPath P.toChart k d.st p ∧ l = pathTree P.toChart p) := by
  obtain ⟨_, k, t, xs, ys, l, obs, h1, h2⟩ := transit_is_transition hwf hok hm hs htr hr
  obtain ⟨⟨pre, h3, h4⟩, h5⟩ := C08_entry_order hwf h2
  obtain ⟨g1, g2, g3, _⟩ := C07_exit_set hwf hm.inv.forest hs h2
  exact ⟨k, t, pre, l, g1, g2, g3, by rw [h1, h3], h4, h5.1, h5.2.1, h5.2.2.1, h5.2.2.2.1, h5.2.2.2.2.1, h5.2.2.2.2.2.1, h5.2.2.2.2.2.2,
    fun hp hk => C08_entry_exact hwf hp (transitOK_spec htr).2.1.bound hk h2⟩

/-- C10 for executed transitions between a state and itself or one of its inner states, in either direction. -/
theorem C10_transit {o : Sid} (ho : (o = s ∧ Below P.toChart s d.st) ∨ (o = d.st ∧ Below P.toChart d.st s)) (hr : transit P s d a m = .ok () m') :
    ∃ obs : List Obs, m'.trace = m.trace ++ tag m.trig obs ∧ .exit o ∈ obs ∧ (d.kind = .plain ∨ o ≠ d.st → .enter o ∈ obs) ∧
      ∀ p, P.parent o = some p → .exit p ∉ obs ∧ .enter p ∉ obs ∧ m'.act p = true := by
  obtain ⟨_, k, t, xs, ys, l, obs, h1, h2⟩ := transit_is_transition hwf hok hm hs htr hr
  obtain ⟨h3, rfl, h5, h6⟩ := C10_self_and_nested hwf hm.inv.forest hs ho h2
  refine ⟨obs, h1, h5, h6, ?_⟩
  intro p hp
  obtain ⟨g1, _, g3, g4, g5, _, g6⟩ := C07_exit_set hwf hm.inv.forest hs h2
  have hpa : m.act p = true := hm.inv.forest.outer t p g4 hp
  have hnb : ¬ Below P.toChart t p := fun hb => Outer.irrefl hwf (hm.inv.forest.bound t g4) (hb.trans_outer ⟨p, hp, .refl⟩)
  obtain ⟨j1, j2⟩ := g6 p hpa hnb
  exact ⟨fun h => hnb ((g5 p).1 h).2, j2, j1⟩

/-- C11 for executed transitions. When the action runs, the common context is active; with relaxed transition context also the state of which the action is a member. -/
theorem C11_transit {i : Nat} (ha : a = some i) (hr : transit P s d a m = .ok () m') : ∃ (k : Option Sid) (t : Sid) (before after : List Obs), CommonCtx P.toChart s d.st k ∧ P.parent t = k ∧
    Below P.toChart t s ∧ m'.trace = m.trace ++ tag m.trig (before ++ .act i :: after) ∧
    (∀ b, .act b ∉ before ∧ .act b ∉ after) ∧ (∀ x, .enter x ∉ before) ∧ (P.relaxed = false → ∀ x, .exit x ∉ after ∧ .destroy x ∉ after) ∧
    (∀ p, k = some p → before.foldl aliveStep m.act p = true) ∧
    (P.relaxed = true → ∀ q, a.bind P.actCtx = some q → before.foldl aliveStep m.act q = true) ∧
    (∀ x, before.foldl aliveStep m.act x = true ↔ m.act x = true ∧ ¬ (Below P.toChart t x ∧ (P.relaxed = true → ∀ q, a.bind P.actCtx = some q → Outer P.toChart q x))) := by
  obtain ⟨_, k, t, xs, ys, l, obs, h1, h2⟩ := transit_is_transition hwf hok hm hs htr hr
  obtain ⟨g1, g2, g3, _⟩ := C07_exit_set hwf hm.inv.forest hs h2
  subst ha
  obtain ⟨b, af, h3, h4, h5, h6, _, _, h7, h8⟩ := C11_action_placement hwf hm.inv.forest hs h2
  refine ⟨k, t, b, af, g1, g2, g3, by rw [h1, h3], h4, h5, h6, h7, ?_, h8⟩
  intro hrel q hq
  have hc := transitOK_ctx htr hrel
  rw [hq] at hc
  have hqs : Below P.toChart q s := by
    rcases List.mem_cons.1 hc with hc | hc
    · cases hc; exact .refl
    · rw [mem_ctxList hwf (transitOK_spec htr).1] at hc
      exact (show Outer P.toChart q s by simpa using hc).below
  have hqa := hm.inv.forest.below hqs hs
  exact (h8 q).2 ⟨hqa, fun hb => Outer.irrefl hwf (hm.inv.forest.bound q hqa) (hb.2 hrel q hq)⟩

end

/-- A `terminate()` of state `s` that ends normally is a termination, after which the machine is stable. -/
theorem C12_terminate_reaction {s : Sid} (hm : Stable P.toChart m) (hs : m.act s = true) (hr : terminateReaction P s m = .ok () m') :
    Stable P.toChart m' ∧ ∃ xs obs, m'.trace = m.trace ++ tag m.trig obs ∧ Termination P.toChart true s xs m.conf obs m'.conf := by
  have hou : OUBelow P.toChart s m := by intro u hu; rw [hm.pOU] at hu; cases hu
  obtain ⟨h1, hk⟩ := wp_ok (wp_keeps (terminateReaction_wp hwf (userMem_forget P) hm.inv hs hou) (keeps_terminateReaction_flag s m)) hr
  obtain ⟨obs, h2, h3⟩ := h1.terminates
  rw [hm.fullExit] at h3
  obtain ⟨⟨xs, h4⟩, _⟩ := h3.meaning hwf hm.inv.forest (hm.inv.memOK hwf) hs
  refine ⟨⟨h1.inv, h1.pOU, ?_, by rw [h1.fullExit, hm.fullExit], hk.flags hm.inv hm.flags⟩, xs, obs, h2, h4⟩
  intro h; rw [h1.ico] at h; cases h

end

/-! ## C20 -/

theorem wlp_of_wp {α : Type} {x : M W α} {Q : α → Mach W → Prop} {E : Exc → Mach W → Prop} (h : wp x Q E m) : wlp x Q E m := by
  unfold wp at h; unfold wlp
  cases hx : x m <;> rw [hx] at h <;> first | exact h | trivial

/-- No state object was created or destroyed, the innermost states are listed as before, and only reactions and actions ran. -/
structure Calm (m m' : Mach W) : Prop where
  act : m'.act = m.act
  leaves : m'.leaves = m.leaves
  trig : m'.trig = m.trig
  seen : ∃ obs, m'.trace = m.trace ++ tag m.trig obs ∧ ∀ o ∈ obs, quietObs o = true

theorem Calm.refl (m : Mach W) : Calm m m := ⟨rfl, rfl, rfl, [], by simp [tag], by simp⟩

theorem UserStep.calm {obs : List Obs} (h : UserStep m m' obs) (hq : ∀ o ∈ obs, quietObs o = true) : Calm m m' := by
  refine ⟨?_, ?_, h.core.trig, obs, h.trace, hq⟩
  · unfold Mach.act; rw [h.core.heap]
  · unfold Mach.leaves; rw [h.core.slot, h.core.endIx]

theorem Calm.heap (h : Calm m m') {s : Sid} {o o' : Obj} {q : List QOp} (hs : m'.heap s = some o) :
    Calm m (Mach.log { m' with
      heap := upd m'.heap s (some o')
      qlog := q } (.defer s)) := by
  obtain ⟨obs, h1, h2⟩ := h.seen
  refine ⟨?_, h.leaves, h.trig, obs ++ [.defer s], by simp [Mach.log, h1, h.trig, tag], ?_⟩
  rotate_left
  · intro o ho
    rcases List.mem_append.1 ho with ho | ho
    · exact h2 o ho
    · simp only [List.mem_singleton] at ho; subst ho; rfl
  rw [← h.act]
  funext x
  simp only [Mach.act, Mach.log, upd]
  split
  · next hx => subst hx; rw [hs]; rfl
  · rfl

/-- The reaction does not ask for a transition or termination. -/
def Prog.stays (P : Prog W) (s : Sid) (e : Event) (r : Reaction) (m : Mach W) : Prop :=
  match r.kind with
  | .inState _ => True
  | .deferral => True
  | .custom id => (P.react s id e m.view m.world).2 = .discard ∨ (P.react s id e m.view m.world).2 = .forward ∨ (P.react s id e m.view m.world).2 = .defer
  | .transition _ _ => False
  | .termination => False

/-- C20: `in_state_reaction`, `deferral`, and a custom reaction that returns `discard_event()`, `forward_event()` or `defer_event()` enter, exit
and destroy no state, whether they end normally or throw. -/
theorem C20_other_reactions (s : Sid) (e : Event) (r : Reaction) (hk : P.stays s e r m) :
    (∀ res m', reactOne P s e r m = .ok res m' → Calm m m') ∧ (∀ x m', reactOne P s e r m = .thrown x m' → Calm m m') := by
  have key : wlp (reactOne P s e r) (fun _ m' => Calm m m') (fun _ m' => Calm m m') m := by
    have hdefer : ∀ m1 : Mach W, Calm m m1 → wlp (do deferEvent s; pure RR.defer : M W RR) (fun _ m' => Calm m m') (fun _ m' => Calm m m') m1 := by
      intro m1 h1
      rw [wlp_bind]
      have hd : ∀ o, m1.heap s = some o → deferEvent s m1 = if o.ctxSet then .ok () (Mach.log { m1 with
          heap := upd m1.heap s (some { o with deferred := true })
          qlog := m1.qlog ++ [.hold s] } (.defer s)) else .fault .nullDeref := by
        intro o ho
        unfold deferEvent
        rw [bind_ok (x := getObj s) (a := o) (m1 := m1) (by simp [getObj, ho])]
        split <;> rfl
      cases hs : m1.heap s with
      | none =>
        have : deferEvent s m1 = .fault .useAfterFree := by
          show M.bnd (getObj s) _ m1 = _
          simp [M.bnd, getObj, hs]
        unfold wlp; rw [this]; trivial
      | some o =>
        unfold wlp
        rw [hd o hs]
        by_cases hc : o.ctxSet = true
        · rw [if_pos hc]; exact h1.heap hs
        · rw [if_neg hc]; trivial
    unfold reactOne
    split
    · unfold Prog.stays at hk
      split at hk
      · next a hkind =>
        rw [hkind]
        simp only [wlp_bind]
        cases a with
        | none => exact Calm.refl m
        | some a =>
          refine wlp_of_wp (wp_runUser ?_ ?_)
          · intro m1 h1; exact h1.calm (by intro o ho; simp at ho; subst ho; rfl)
          · intro x m1 h1; exact h1.calm (by intro o ho; simp at ho; subst ho; rfl)
      · next hkind => rw [hkind]; exact hdefer m (Calm.refl m)
      · next id hkind =>
        rw [hkind]
        simp only [customReact, wlp_bind, wlp_get]
        refine wlp_of_wp (wp_runUser ?_ ?_)
        · intro m1 h1
          have hc : Calm m m1 := h1.calm (by intro o ho; simp at ho; subst ho; rfl)
          rcases hk with hk | hk | hk <;> rw [hk]
          · exact hc
          · exact hc
          · exact hdefer m1 hc
        · intro x m1 h1; exact h1.calm (by intro o ho; simp at ho; subst ho; rfl)
      · exact hk.elim
      · exact hk.elim
    · exact Calm.refl m
  exact ⟨fun res m' h => wlp_ok (Q := fun _ m' => Calm m m') key h, fun x m' h => wlp_thrown (E := fun _ m' => Calm m m') key h⟩

end SC

/-! ## The hypotheses can be met -/

namespace SC.Ex
open Spec Chart

/-- The call ended normally. -/
def isOk {W α : Type} : Res W α → Bool
  | .ok _ _ => true
  | _ => false

theorem of_isOk {W α : Type} {r : Res W α} (h : isOk r = true) : ∃ a m, r = .ok a m := by
  cases r with
  | ok a m => exact ⟨a, m, rfl⟩
  | thrown _ _ => cases h
  | fault _ => cases h

/-- A transition from C (2) to D (3) with an action, in a machine with two regions. -/
example : ∃ m m' : Mach Nat, Stable prog.toChart m ∧ m.act 2 = true ∧ m.act 7 = true ∧ prog.transitOK 2 ⟨.plain, 3⟩ (some 7) = true ∧ transit prog 2 ⟨.plain, 3⟩ (some 7) m = .ok () m' := by
  obtain ⟨m, h1, h2⟩ := scenario_ex (P := prog) [(0, .initiate 0), (0, .process ⟨4, 0⟩ 0)] 0
    (fun m => m.act 2 && m.act 7 && prog.transitOK 2 ⟨.plain, 3⟩ (some 7) && isOk (transit prog 2 ⟨.plain, 3⟩ (some 7) m)) (by decide +kernel)
  simp only [Bool.and_eq_true] at h2
  obtain ⟨_, m', h3⟩ := of_isOk h2.2
  exact ⟨m, m', (h1.stable wf contract).1, h2.1.1.1, h2.1.1.2, h2.1.2, h3⟩

/-- A transition from an inner state to an outer one: D (3) to A (0). -/
example : ∃ m m' : Mach Nat, Stable prog.toChart m ∧ m.act 2 = true ∧ prog.transitOK 2 ⟨.plain, 0⟩ none = true ∧ transit prog 2 ⟨.plain, 0⟩ none m = .ok () m' := by
  obtain ⟨m, h1, h2⟩ := scenario_ex (P := prog) [(0, .initiate 0)] 0
    (fun m => m.act 2 && prog.transitOK 2 ⟨.plain, 0⟩ none && isOk (transit prog 2 ⟨.plain, 0⟩ none m)) (by decide +kernel)
  simp only [Bool.and_eq_true] at h2
  obtain ⟨_, m', h3⟩ := of_isOk h2.2
  exact ⟨m, m', (h1.stable wf contract).1, h2.1.1, h2.1.2, h3⟩

/-- Termination of B (1), while the other region of A stays active. -/
example : ∃ m m' : Mach Nat, Stable prog.toChart m ∧ m.act 1 = true ∧ m.act 6 = true ∧ terminateReaction prog 1 m = .ok () m' ∧ m'.act 6 = true := by
  obtain ⟨m, h1, h2⟩ := scenario_ex (P := prog) [(0, .initiate 0)] 0
    (fun m => m.act 1 && m.act 6 && (match terminateReaction prog 1 m with
      | .ok _ m' => m'.act 6
      | _ => false)) (by decide +kernel)
  simp only [Bool.and_eq_true] at h2
  cases h3 : terminateReaction prog 1 m with
  | ok a m' => rw [h3] at h2; exact ⟨m, m', (h1.stable wf contract).1, h2.1.1, h2.1.2, h3, h2.2⟩
  | thrown _ _ => rw [h3] at h2; cases h2.2
  | fault _ => rw [h3] at h2; cases h2.2

/-- Reactions as in C20: an in-state reaction, a deferral, a custom reaction that forwards. -/
example (m : Mach Nat) : prog.stays 5 ⟨10, 0⟩ ⟨some 10, .inState (some 2)⟩ m ∧ prog.stays 3 ⟨3, 0⟩ ⟨some 3, .deferral⟩ m ∧
    prog.stays 2 ⟨2, 1⟩ ⟨some 2, .custom 0⟩ m := ⟨trivial, trivial, .inr (.inl rfl)⟩

/-- A chart without history (as in `C08_entry_exact`): the example chart with plain entries. -/
example : ∃ C : Chart, C.WF ∧ PlainInit C ∧ C.init 0 = [⟨.plain, 1⟩, ⟨.plain, 4⟩] := by
  refine ⟨{ chart with init := fun s => (chart.init s).map fun t => ⟨.plain, t.st⟩ }, Chart.wf_of_check _ (by decide), ?_, rfl⟩
  intro s t ht
  simp only [List.mem_map] at ht
  obtain ⟨t', _, rfl⟩ := ht
  rfl

end SC.Ex
