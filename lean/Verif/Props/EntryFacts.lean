import Verif.Props.Vocab
import Verif.EntrySpec
/-!
# What the entry specification implies
-/

namespace SC.Spec
open SC Chart
variable {C : Chart} {F : Memory → Memory → Prop}

/-- Remembered states belong to the region they are remembered for. -/
structure MemOK (C : Chart) (h : Memory) : Prop where
  sh : ∀ p i c, h.sh p i = some c → c < C.n ∧ C.parent c = some p ∧ C.pos c = i
  dh : ∀ p i c, h.dh p i = some c → c < C.n ∧ ∃ y, C.parent y = some p ∧ C.pos y = i ∧ Below C y c

theorem MemOK.forget {h h' : Memory} (h0 : MemOK C h) (hf : Forget h h') : MemOK C h' := by
  refine ⟨fun p i c hc => ?_, fun p i c hc => ?_⟩
  · rcases hf.entries.1 p i with h1 | h1
    · rw [h1] at hc; cases hc
    · rw [h1] at hc; exact h0.sh p i c hc
  · rcases hf.entries.2 p i with h1 | h1
    · rw [h1] at hc; cases hc
    · rw [h1] at hc; exact h0.dh p i c hc

/-- The list of states `l` fills the regions `lo, …, hi - 1` of context `ctx`: each of these regions
gets exactly one state, every entered state has all its regions filled in the same way, and outer
states come before inner ones, lower regions before higher ones. -/
structure Fills (C : Chart) (ctx : Option Sid) (lo hi : Nat) (l : List Sid) : Prop where
  bound : ∀ x ∈ l, x < C.n
  under : ∀ x ∈ l, ∃ c ∈ l, C.parent c = ctx ∧ lo ≤ C.pos c ∧ C.pos c < hi ∧ Below C c x
  tops : ∀ i, lo ≤ i → i < hi → ∃ c ∈ l, C.parent c = ctx ∧ C.pos c = i
  filled : ∀ x ∈ l, ∀ i, i < C.regions (some x) → ∃ c ∈ l, C.parent c = some x ∧ C.pos c = i
  order : l.Pairwise (EntersBefore C)
  uniq : ∀ x ∈ l, ∀ y ∈ l, C.parent x = C.parent y → C.pos x = C.pos y → x = y

theorem Fills.nodup (hwf : C.WF) {ctx : Option Sid} {lo hi : Nat} {l : List Sid} (h : Fills C ctx lo hi l) : l.Nodup :=
  nodup_of_pairwise h.order fun x hx => EntersBefore.irrefl hwf (h.bound x hx)

theorem Fills.nil (ctx : Option Sid) (k : Nat) : Fills C ctx k k [] :=
  ⟨by simp, by simp, by intro i h1 h2; omega, by simp, .nil, by simp⟩

theorem Fills.append (hwf : C.WF) {ctx : Option Sid} {a b c : Nat} {l l' : List Sid} (hab : a ≤ b) (hbc : b ≤ c)
    (h : Fills C ctx a b l) (h' : Fills C ctx b c l') : Fills C ctx a c (l ++ l') := by
  have cross : ∀ x ∈ l, ∀ y ∈ l', C.parent x = C.parent y → C.pos x = C.pos y → False := by
    intro x hx y hy hp hpos
    obtain ⟨c1, h1, h2, h3, h4, h5⟩ := h.under x hx
    obtain ⟨c2, k1, k2, k3, k4, k5⟩ := h'.under y hy
    rcases h5.eq_or_outer with rfl | ⟨q, h6, h7⟩
    · have : y = c2 := Below.sibling hwf (h'.bound y hy) .refl k5 (by rw [← hp, h2, k2])
      subst this
      omega
    · exact region_disjoint hwf (h'.bound y hy) (by rw [h2, k2]) (by omega) (.step (by rw [← hp]; exact h6) h7) k5
  refine ⟨?_, ?_, ?_, ?_, ?_, ?_⟩
  · intro x hx
    rcases List.mem_append.1 hx with hx | hx
    · exact h.bound x hx
    · exact h'.bound x hx
  · intro x hx
    rcases List.mem_append.1 hx with hx | hx
    · obtain ⟨c1, h1, h2, h3, h4, h5⟩ := h.under x hx
      exact ⟨c1, List.mem_append_left _ h1, h2, h3, by omega, h5⟩
    · obtain ⟨c1, h1, h2, h3, h4, h5⟩ := h'.under x hx
      exact ⟨c1, List.mem_append_right _ h1, h2, by omega, h4, h5⟩
  · intro i h1 h2
    by_cases hb : i < b
    · obtain ⟨c1, h3, h4⟩ := h.tops i h1 hb
      exact ⟨c1, List.mem_append_left _ h3, h4⟩
    · obtain ⟨c1, h3, h4⟩ := h'.tops i (by omega) h2
      exact ⟨c1, List.mem_append_right _ h3, h4⟩
  · intro x hx i hi
    rcases List.mem_append.1 hx with hx | hx
    · obtain ⟨c1, h3, h4⟩ := h.filled x hx i hi
      exact ⟨c1, List.mem_append_left _ h3, h4⟩
    · obtain ⟨c1, h3, h4⟩ := h'.filled x hx i hi
      exact ⟨c1, List.mem_append_right _ h3, h4⟩
  · rw [List.pairwise_append]
    refine ⟨h.order, h'.order, ?_⟩
    intro x hx y hy
    obtain ⟨c1, h1, h2, h3, h4, h5⟩ := h.under x hx
    obtain ⟨c2, k1, k2, k3, k4, k5⟩ := h'.under y hy
    exact .inr ⟨c1, c2, by rw [h2, k2], by omega, h5, k5⟩
  · intro x hx y hy hp hpos
    rcases List.mem_append.1 hx with hx | hx <;> rcases List.mem_append.1 hy with hy | hy
    · exact h.uniq x hx y hy hp hpos
    · exact (cross x hx y hy hp hpos).elim
    · exact (cross y hy x hx hp.symm hpos.symm).elim
    · exact h'.uniq x hx y hy hp hpos

theorem Fills.cons (hwf : C.WF) {x : Sid} {l : List Sid} (hx : x < C.n) (h : Fills C (some x) 0 (C.regions (some x)) l) :
    Fills C (C.parent x) (C.pos x) (C.pos x + 1) (x :: l) := by
  have hin : ∀ y ∈ l, Outer C x y := by
    intro y hy
    obtain ⟨c, _, h2, _, _, h5⟩ := h.under y hy
    exact Outer.trans_below ⟨x, h2, .refl⟩ h5
  have hno : ∀ y ∈ l, C.parent x = C.parent y → False := by
    intro y hy hp
    obtain ⟨q, h1, h2⟩ := hin y hy
    rw [h1] at hp
    exact Outer.irrefl hwf hx ⟨q, hp, h2⟩
  refine ⟨?_, ?_, ?_, ?_, ?_, ?_⟩
  · intro y hy
    rcases List.mem_cons.1 hy with rfl | hy
    · exact hx
    · exact h.bound y hy
  · intro y hy
    refine ⟨x, by simp, rfl, Nat.le_refl _, by omega, ?_⟩
    rcases List.mem_cons.1 hy with rfl | hy
    · exact .refl
    · exact (hin y hy).below
  · intro i h1 h2
    exact ⟨x, by simp, rfl, by omega⟩
  · intro y hy i hi
    rcases List.mem_cons.1 hy with rfl | hy
    · obtain ⟨c, h1, h2⟩ := h.tops i (by omega) hi
      exact ⟨c, List.mem_cons_of_mem _ h1, h2⟩
    · obtain ⟨c, h1, h2⟩ := h.filled y hy i hi
      exact ⟨c, List.mem_cons_of_mem _ h1, h2⟩
  · exact .cons (fun y hy => .inl (hin y hy)) h.order
  · intro y hy z hz hp hpos
    rcases List.mem_cons.1 hy with hy1 | hy1 <;> rcases List.mem_cons.1 hz with hz1 | hz1
    · rw [hy1, hz1]
    · rw [hy1] at hp; exact (hno z hz1 hp).elim
    · rw [hz1] at hp; exact (hno y hy1 hp.symm).elim
    · exact h.uniq y hy1 z hz1 hp hpos

/-- The goal `g` is to fill the regions `lo, …, hi - 1` of `ctx`. -/
def Goal.At (C : Chart) (ctx : Option Sid) (lo hi : Nat) : Goal → Prop
  | .tree s => s < C.n ∧ C.parent s = ctx ∧ lo = C.pos s ∧ hi = lo + 1
  | .target t => t.st < C.n ∧ C.parent t.st = ctx ∧ lo = C.pos t.st ∧ hi = lo + 1
  | .down c d => d.st < C.n ∧ c = ctx ∧ ∃ y, C.parent y = c ∧ Below C y d.st ∧ lo = C.pos y ∧ hi = lo + 1
  | .regions l => hi = lo + l.length ∧ ∀ (j : Nat) (t : Target), l[j]? = some t → t.st < C.n ∧ C.parent t.st = ctx ∧ C.pos t.st = lo + j

theorem regions_take (hwf : C.WF) {x : Sid} (hx : x < C.n) {k : Nat} (hk : k ≤ (C.init x).length) :
    Goal.At C (some x) 0 k (.regions ((C.init x).take k)) := by
  refine ⟨by simp [Nat.min_eq_left hk], ?_⟩
  intro j t ht
  rw [List.getElem?_take] at ht
  split at ht
  · have := hwf.init_ok hx ht; simpa using this
  · cases ht

theorem regions_drop (hwf : C.WF) {x : Sid} (hx : x < C.n) {k : Nat} (hk : k ≤ (C.init x).length) :
    Goal.At C (some x) k (C.regions (some x)) (.regions ((C.init x).drop k)) := by
  refine ⟨?_, ?_⟩
  · simp only [Chart.regions, List.length_drop]; omega
  intro j t ht
  rw [List.getElem?_drop] at ht
  exact hwf.init_ok hx ht

theorem regions_all (hwf : C.WF) {x : Sid} (hx : x < C.n) : Goal.At C (some x) 0 (C.regions (some x)) (.regions (C.init x)) := by
  have := regions_drop hwf hx (k := 0) (by omega)
  simpa using this

/-- An entry fills exactly the regions it is meant to fill. -/
theorem Enters.fills (hwf : C.WF) (hF : ∀ a b, F a b → MemOK C a → MemOK C b) {h h' : Memory} {g : Goal} {l : List Sid}
    (he : Enters C F h g l h') : ∀ {ctx : Option Sid} {lo hi : Nat}, g.At C ctx lo hi → MemOK C h → Fills C ctx lo hi l ∧ MemOK C h' := by
  induction he with
  | @tree h h1 h2 s l hf _ ih =>
    rintro ctx lo hi ⟨hs, hp, rfl, rfl⟩ hm
    obtain ⟨k1, k2⟩ := ih (regions_all hwf hs) (hF _ _ hf hm)
    subst hp
    exact ⟨k1.cons hwf hs, k2⟩
  | rnil =>
    rintro ctx lo hi ⟨h1, _⟩ hm
    simp only [List.length_nil, Nat.add_zero] at h1
    subst h1
    exact ⟨.nil _ _, hm⟩
  | @rcons h h1 h2 t ts l l' _ _ ih1 ih2 =>
    rintro ctx lo hi ⟨h1, h2⟩ hm
    simp only [List.length_cons] at h1
    have ht := h2 0 t rfl
    obtain ⟨k1, k2⟩ := ih1 (ctx := ctx) (lo := lo) (hi := lo + 1) ⟨ht.1, ht.2.1, by omega, rfl⟩ hm
    obtain ⟨k3, k4⟩ := ih2 (ctx := ctx) (lo := lo + 1) (hi := hi)
      ⟨by omega, fun j t hj => by have := h2 (j + 1) t hj; exact ⟨this.1, this.2.1, by omega⟩⟩ k2
    exact ⟨k1.append hwf (by omega) (by omega) k3, k4⟩
  | plain _ ih => exact fun hg hm => ih hg hm
  | @shallow h h1 d p c l hp hs _ ih =>
    rintro ctx lo hi ⟨h1, h2, h3, h4⟩ hm
    obtain ⟨k1, k2, k3⟩ := hm.sh _ _ _ hs
    simp only at h1 h2 h3
    exact ih ⟨k1, by rw [k2, ← hp, h2], by rw [k3]; exact h3, h4⟩ hm
  | shallowDefault _ _ _ ih => exact fun hg hm => ih hg hm
  | @deep h h1 d p c l hp hs _ ih =>
    rintro ctx lo hi ⟨h1, h2, h3, h4⟩ hm
    obtain ⟨k1, y, k2, k3, k4⟩ := hm.dh _ _ _ hs
    simp only at h1 h2 h3
    exact ih ⟨k1, by rw [← hp, h2], y, k2, k4, by rw [k3]; exact h3, h4⟩ hm
  | deepDefault _ _ _ ih => exact fun hg hm => ih hg hm
  | @here h h1 c d l hp _ ih =>
    rintro ctx lo hi ⟨h1, rfl, y, h3, h4, h5, h6⟩ hm
    have : y = d.st := Below.sibling hwf h1 h4 .refl (by rw [h3, hp])
    subst this
    exact ih ⟨h1, h3, h5, h6⟩ hm
  | @via h h1 h2 h3 h4 c d x y l1 l2 l3 hx hy hb hf _ _ _ ih1 ih2 ih3 =>
    rintro ctx lo hi ⟨g1, rfl, z, g3, g4, g5, g6⟩ hm
    have hz : z = x := Below.sibling hwf g1 g4 (Below.trans (.step hy .refl) hb) (by rw [g3, hx])
    subst hz
    have hyn := hb.bound hwf g1
    have hxn := parent_bound hwf hyn hy
    have hyp := pos_lt_some hwf hyn hy
    obtain ⟨k1, k2⟩ := ih1 (regions_take hwf hxn (k := C.pos y) (Nat.le_of_lt hyp)) (hF _ _ hf hm)
    obtain ⟨k3, k4⟩ := ih2 (ctx := some z) (lo := C.pos y) (hi := C.pos y + 1) ⟨g1, rfl, y, hy, hb, rfl, rfl⟩ k2
    obtain ⟨k5, k6⟩ := ih3 (regions_drop hwf hxn (k := C.pos y + 1) hyp) k4
    have := k1.append hwf (by omega) (Nat.le_of_lt hyp) (k3.append hwf (by omega) hyp k5)
    have := this.cons hwf hxn
    rw [g3, ← g5, ← g6] at this
    exact ⟨this, k6⟩

/-- All states from below `ctx` down to the destination are entered; the last one possibly not if it is only the default of a history. -/
theorem Enters.path (hwf : C.WF) {h h' : Memory} {g : Goal} {l : List Sid} (he : Enters C F h g l h') :
    ∀ {c : Option Sid} {d : Target}, g = .down c d → d.st < C.n → ∀ x, Below C x d.st → (d.kind = .plain ∨ x ≠ d.st) → (∀ p, c = some p → Outer C p x) → x ∈ l := by
  induction he with
  | @here h h1 c d l hp htree _ =>
    intro c' d' hg hd x hb hk ho
    cases hg
    rcases hb.eq_or_outer with rfl | ⟨q, h1, h2⟩
    · obtain ⟨k, d⟩ := d
      rcases hk with rfl | hk
      · cases htree with
        | plain h => cases h; simp
      · exact absurd rfl hk
    · rw [h1] at hp
      obtain ⟨q', h3, h4⟩ := ho q hp.symm
      have hx := hb.bound hwf hd
      have := h2.le hwf (parent_bound hwf hd h1)
      have := h4.le hwf (parent_bound hwf hx h3)
      have := hwf.parent_lt hx h3
      omega
  | @via h h1 h2 h3 h4 c d x y l1 l2 l3 hx hy hb hf _ _ _ _ ih2 _ =>
    intro c' d' hg hd z hbz hk ho
    cases hg
    have hyn := hb.bound hwf hd
    have hxn := parent_bound hwf hyn hy
    have hzn := hbz.bound hwf hd
    by_cases hzx : z = x
    · subst hzx; simp
    · have : Outer C x z := by
        -- `x` and `z` are both contexts of `d` inside `c`
        rcases (Below.trans (.step hy .refl) hb : Below C x d.st).linear hbz with h5 | h5
        · rcases h5.eq_or_outer with rfl | h5
          · exact absurd rfl hzx
          · exact h5
        · rcases h5.eq_or_outer with rfl | ⟨q, h6, h7⟩
          · exact absurd rfl hzx
          · rw [h6] at hx
            obtain ⟨q', h8, h9⟩ := ho q hx.symm
            have := h7.le hwf (parent_bound hwf hxn h6)
            have := h9.le hwf (parent_bound hwf hzn h8)
            have := hwf.parent_lt hzn h8
            omega
      have := ih2 rfl hd z hbz hk (fun p hp => by cases hp; exact this)
      simp [this]
  | _ => intro c d hg; cases hg

/-! ## Entry without remembered states -/

/-- The inner initial tree of `s`, defined by recursion over the depth: the state, then its regions in ascending order. -/
def treeF (C : Chart) : Nat → Sid → List Sid
  | 0, _ => []
  | f + 1, s => s :: (C.init s).flatMap fun t => treeF C f t.st

def initialTree (C : Chart) (s : Sid) : List Sid := treeF C (C.n - s) s

theorem treeF_fuel (hwf : C.WF) : ∀ (f : Nat) (s : Sid), s < C.n → C.n - s ≤ f → treeF C f s = initialTree C s := by
  have key : ∀ (f g : Nat) (s : Sid), s < C.n → C.n - s ≤ f → C.n - s ≤ g → treeF C f s = treeF C g s := by
    intro f
    induction f with
    | zero => intro g s h1 h2; omega
    | succ f ih =>
      intro g s h1 h2 h3
      cases g with
      | zero => omega
      | succ g =>
        rw [treeF, treeF]
        congr 1
        have : ∀ l : List Target, (∀ t ∈ l, t.st < C.n ∧ s < t.st) → l.flatMap (fun t => treeF C f t.st) = l.flatMap (fun t => treeF C g t.st) := by
          intro l
          induction l with
          | nil => intro _; rfl
          | cons t ts iht =>
            intro hl
            have := hl t (by simp)
            rw [List.flatMap_cons, List.flatMap_cons, iht (fun u hu => hl u (by simp [hu])), ih g t.st this.1 (by omega) (by omega)]
        apply this
        intro t ht
        obtain ⟨i, hi⟩ := List.getElem?_of_mem ht
        have := hwf.init_ok h1 hi
        exact ⟨this.1, hwf.parent_lt this.1 this.2.1⟩
  intro f s h1 h2
  exact key f _ s h1 h2 (Nat.le_refl _)

theorem initialTree_eq (hwf : C.WF) {s : Sid} (hs : s < C.n) :
    initialTree C s = s :: (C.init s).flatMap fun t => initialTree C t.st := by
  have h1 : treeF C (C.n - s + 1) s = initialTree C s := treeF_fuel hwf _ s hs (by omega)
  rw [← h1, treeF]
  congr 1
  have : ∀ l : List Target, (∀ t ∈ l, t.st < C.n ∧ s < t.st) → l.flatMap (fun t => treeF C (C.n - s) t.st) = l.flatMap (fun t => initialTree C t.st) := by
    intro l
    induction l with
    | nil => intro _; rfl
    | cons t ts iht =>
      intro hl
      have := hl t (by simp)
      rw [List.flatMap_cons, List.flatMap_cons, iht (fun u hu => hl u (by simp [hu])), treeF_fuel hwf _ _ this.1 (by omega)]
  apply this
  intro t ht
  obtain ⟨i, hi⟩ := List.getElem?_of_mem ht
  have := hwf.init_ok hs hi
  exact ⟨this.1, hwf.parent_lt this.1 this.2.1⟩

/-- Entry along a path of states (outermost first, the destination last): regions before the path, the path, regions after it. -/
def pathTree (C : Chart) : List Sid → List Sid
  | [] => []
  | [d] => initialTree C d
  | x :: y :: r => x :: ((((C.init x).take (C.pos y)).flatMap fun t => initialTree C t.st) ++ (pathTree C (y :: r) ++
      (((C.init x).drop (C.pos y + 1)).flatMap fun t => initialTree C t.st)))

/-- `p` is the list of states from just below context `c` down to `d`. -/
inductive DownPath (C : Chart) : Option Sid → Sid → List Sid → Prop
  | last {c d} : C.parent d = c → DownPath C c d [d]
  | step {c d x r} : C.parent x = c → DownPath C (some x) d r → DownPath C c d (x :: r)

/-- Nothing is remembered. -/
def NoMemory (h : Memory) : Prop := (∀ p i, h.sh p i = none) ∧ ∀ p i, h.dh p i = none

theorem NoMemory.forget {h h' : Memory} (h0 : NoMemory h) (hf : Forget h h') : NoMemory h' := by
  refine ⟨fun p i => ?_, fun p i => ?_⟩
  · rcases hf.entries.1 p i with h1 | h1
    · exact h1
    · rw [h1]; exact h0.1 p i
  · rcases hf.entries.2 p i with h1 | h1
    · exact h1
    · rw [h1]; exact h0.2 p i

def Goal.Default (C : Chart) (l : List Sid) : Goal → Prop
  | .tree s => l = initialTree C s
  | .target t => l = initialTree C t.st
  | .regions ts => l = ts.flatMap fun t => initialTree C t.st
  | .down c d => ∃ p, DownPath C c d.st p ∧ l = pathTree C p

/-- Without remembered states exactly the inner initial trees are entered. -/
theorem Enters.default (hwf : C.WF) (hF : ∀ a b, F a b → NoMemory a → NoMemory b) {h h' : Memory} {g : Goal} {l : List Sid}
    (he : Enters C F h g l h') : ∀ {ctx : Option Sid} {lo hi : Nat}, g.At C ctx lo hi → NoMemory h → g.Default C l ∧ NoMemory h' := by
  induction he with
  | @tree h h1 h2 s l hf _ ih =>
    rintro ctx lo hi ⟨hs, hp, rfl, rfl⟩ hm
    obtain ⟨k1, k2⟩ := ih (regions_all hwf hs) (hF _ _ hf hm)
    refine ⟨?_, k2⟩
    simp only [Goal.Default] at k1 ⊢
    rw [initialTree_eq hwf hs, k1]
  | rnil => exact fun _ hm => ⟨rfl, hm⟩
  | @rcons h h1 h2 t ts l l' _ _ ih1 ih2 =>
    rintro ctx lo hi ⟨h1, h2⟩ hm
    simp only [List.length_cons] at h1
    have ht := h2 0 t rfl
    obtain ⟨k1, k2⟩ := ih1 (ctx := ctx) (lo := lo) (hi := lo + 1) ⟨ht.1, ht.2.1, by omega, rfl⟩ hm
    obtain ⟨k3, k4⟩ := ih2 (ctx := ctx) (lo := lo + 1) (hi := hi)
      ⟨by omega, fun j t hj => by have := h2 (j + 1) t hj; exact ⟨this.1, this.2.1, by omega⟩⟩ k2
    refine ⟨?_, k4⟩
    simp only [Goal.Default] at k1 k3 ⊢
    rw [List.flatMap_cons, k1, k3]
  | plain _ ih => exact fun hg hm => ih hg hm
  | @shallow h h1 d p c l hp hs _ ih =>
    intro ctx lo hi _ hm
    rw [hm.1] at hs; cases hs
  | shallowDefault _ _ _ ih => exact fun hg hm => ih hg hm
  | @deep h h1 d p c l hp hs _ ih =>
    intro ctx lo hi _ hm
    rw [hm.2] at hs; cases hs
  | deepDefault _ _ _ ih => exact fun hg hm => ih hg hm
  | @here h h1 c d l hp _ ih =>
    rintro ctx lo hi ⟨h1, rfl, y, h3, h4, h5, h6⟩ hm
    have : y = d.st := Below.sibling hwf h1 h4 .refl (by rw [h3, hp])
    subst this
    obtain ⟨k1, k2⟩ := ih ⟨h1, h3, h5, h6⟩ hm
    exact ⟨⟨[d.st], .last hp, k1⟩, k2⟩
  | @via h h1 h2 h3 h4 c d x y l1 l2 l3 hx hy hb hf _ _ _ ih1 ih2 ih3 =>
    rintro ctx lo hi ⟨g1, rfl, z, g3, g4, g5, g6⟩ hm
    have hyn := hb.bound hwf g1
    have hxn := parent_bound hwf hyn hy
    have hyp := pos_lt_some hwf hyn hy
    obtain ⟨k1, k2⟩ := ih1 (regions_take hwf hxn (k := C.pos y) (Nat.le_of_lt hyp)) (hF _ _ hf hm)
    obtain ⟨⟨p, k3, k3'⟩, k4⟩ := ih2 (ctx := some x) (lo := C.pos y) (hi := C.pos y + 1) ⟨g1, rfl, y, hy, hb, rfl, rfl⟩ k2
    obtain ⟨k5, k6⟩ := ih3 (regions_drop hwf hxn (k := C.pos y + 1) hyp) k4
    refine ⟨⟨x :: p, .step hx k3, ?_⟩, k6⟩
    simp only [Goal.Default] at k1 k5
    -- the path goes on with `y`
    have hyp : ∃ r, p = y :: r := by
      cases k3 with
      | last h5 =>
        have : y = d.st := Below.sibling hwf g1 hb .refl (by rw [hy, h5])
        exact ⟨[], by rw [this]⟩
      | @step _ _ w r h5 h6 =>
        refine ⟨r, ?_⟩
        have hbw : Below C w d.st := by
          have : ∀ {c : Option Sid} {d : Sid} {p : List Sid}, DownPath C c d p → ∀ q, c = some q → Below C q d := by
            intro c d p hp
            induction hp with
            | last h => intro q hq; rw [hq] at h; exact .step h .refl
            | step h _ ih => intro q hq; rw [hq] at h; exact Below.trans (.step h .refl) (ih _ rfl)
          exact this h6 w rfl
        rw [Below.sibling hwf g1 hb hbw (by rw [hy, h5])]
    obtain ⟨r, rfl⟩ := hyp
    rw [pathTree, k1, k3', k5]

end SC.Spec
