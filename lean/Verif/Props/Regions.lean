import Verif.Regions
import Verif.Props.AnyOrder
/-!
# C59: a region that has nothing to do with the others behaves as if it were alone

`Regions.Independent` says when an orthogonal region has nothing to do with the rest of a program. Two machines of such a program that agree in the region
and then process the same events of the region, between any other events, agree in the region again, and the events of the region have caused the same calls
of user code.
-/

namespace SC
open Spec
variable {W : Type}

namespace Regions

/-- The machines agree in the region: the same states exist, the same histories are recorded, and what belongs to the region in the environment is the same. -/
structure Alike (K : Part W) (m m' : Mach W) : Prop where
  states : ∀ s, K.R s = true → (m.heap s).isSome = (m'.heap s).isSome
  terminated : m.outermost = none ↔ m'.outermost = none
  shallow : ∀ k, K.key k = true → m.sh k = m'.sh k
  deep : ∀ k, K.key k = true → m.dh k = m'.dh k
  world : K.pr m.world = K.pr m'.world

/-- No events are queued, and none of the region is deferred. -/
structure Idle (K : Part W) (m : Mach W) : Prop where
  posted : m.evq = []
  deferred : ∀ e ∈ m.dq, K.own e = false

/-- The client calls `process_event` for the events, and each call returns. Between the calls, the environment may change, but not what belongs to the region. -/
inductive Feed (P : Prog W) (K : Part W) : List Event → Mach W → Mach W → Prop
  | nil {m} : Feed P K [] m m
  | event {e l k m m1 m2} : (Call.process e k).run P m = .ok true m1 → Feed P K l m1 m2 → Feed P K (e :: l) m m2
  | world {w l m m2} : K.pr w = K.pr m.world → Feed P K l { m with world := w } m2 → Feed P K l m m2

section
variable {P : Prog W} {K : Part W} {m m' m1 m2 : Mach W} {x y : List (Option Event × Obs)}
  (hwf : P.toChart.WF) (hok : Contract P) (hpl : Plain P) (hq : Smooth P) (hI : Independent K P)

theorem good_sound {a : Calm.St W} (h : AnyOrder.Good P a) : Sound P.toChart a := by
  obtain ⟨m, h1, rfl⟩ := h
  exact ⟨h1.inv.forest, h1.innermost.1.nodup, h1.innermost.1.mem⟩

include hwf hok hpl hq hI

/-- Both machines process all queued events. -/
theorem rel_drains : ∀ (n k k' : Nat) (a b : Calm.St W), k + k' ≤ n → AnyOrder.Good P a → AnyOrder.Good P b → Rel K P.toChart x y a b →
    (Calm.drain P k a).1 = true → (Calm.drain P k' b).1 = true → Rel K P.toChart x y (Calm.drain P k a).2 (Calm.drain P k' b).2 := by
  have tail : ∀ {x y : List (Option Event × Obs)} {a b : Calm.St W} {f : Event} {q : List Event}, K.own f = false → b.evq = f :: q → Rel K P.toChart x y a b →
      Rel K P.toChart x y a ({ b with evq := q } : Calm.St W) := by
    intro x y a b f q hf hb h
    refine ⟨{ h.agree with evq := ?_ }, h.left, ⟨h.right.dq, h.right.sh, h.right.dh, h.right.scope⟩, h.trace⟩
    rw [h.agree.evq, hb, List.filter_cons_of_neg (by rw [hf]; nofun)]
  have skip : ∀ {x y : List (Option Event × Obs)} {a b : Calm.St W} {f : Event} {q : List Event}, K.own f = false → b.evq = f :: q → AnyOrder.Good P b →
      Rel K P.toChart x y a b →
      AnyOrder.Good P (Calm.dispatch P f { b with evq := q }) ∧ Rel K P.toChart x y a (Calm.dispatch P f { b with evq := q }) := by
    intro x y a b f q hf hb hg h
    exact ⟨(hg.evq q).dispatch hwf hok hpl hq f, rel_other hI hwf hok hf (good_sound (hg.evq q)) (tail hf hb h)⟩
  intro n
  induction n with
  | zero =>
    intro k k' a b hn _ _ h _ _
    obtain ⟨rfl, rfl⟩ : k = 0 ∧ k' = 0 := by omega
    exact h
  | succ n ih =>
    intro k k' a b hn ga gb h ha hb
    have right : ∀ (f : Event) (q : List Event), b.evq = f :: q → K.own f = false → Rel K P.toChart x y (Calm.drain P k a).2 (Calm.drain P k' b).2 := by
      intro f q hbe hf
      cases k' with
      | zero => simp [Calm.drain, hbe] at hb
      | succ k' =>
        obtain ⟨h1, h2⟩ := skip hf hbe gb h
        simp only [Calm.drain, hbe] at hb ⊢
        exact ih k k' a _ (by omega) ga h1 h2 ha hb
    cases hae : a.evq with
    | nil =>
      have hd : ∀ k, Calm.drain P k a = (true, a) := by
        intro k
        cases k <;> simp [Calm.drain, hae]
      cases hbe : b.evq with
      | nil =>
        have hd' : Calm.drain P k' b = (true, b) := by cases k' <;> simp [Calm.drain, hbe]
        rw [hd, hd']
        exact h
      | cons f q =>
        refine right f q hbe ?_
        cases hf : K.own f with
        | false => rfl
        | true =>
          have := h.agree.evq
          rw [hae, hbe, List.filter_cons_of_pos hf] at this
          cases this
    | cons e q =>
      cases k with
      | zero => simp [Calm.drain, hae] at ha
      | succ k =>
        cases he : K.own e with
        | false =>
          obtain ⟨h1, h2⟩ := skip he hae ga h.symm
          simp only [Calm.drain, hae] at ha ⊢
          exact ih k k' _ b (by omega) h1 gb h2.symm ha hb
        | true =>
          have hev := h.agree.evq
          rw [hae, List.filter_cons_of_pos he] at hev
          cases hbe : b.evq with
          | nil => rw [hbe] at hev; cases hev
          | cons f q' =>
            cases hf : K.own f with
            | false => exact right f q' hbe hf
            | true =>
              rw [hbe, List.filter_cons_of_pos hf] at hev
              injection hev with h1 h2
              subst h1
              cases k' with
              | zero => simp [Calm.drain, hbe] at hb
              | succ k' =>
                have h3 : Rel K P.toChart x y ({ a with evq := q } : Calm.St W) ({ b with evq := q' } : Calm.St W) :=
                  ⟨{ h.agree with evq := h2 }, ⟨h.left.dq, h.left.sh, h.left.dh, h.left.scope⟩, ⟨h.right.dq, h.right.sh, h.right.dh, h.right.scope⟩, h.trace⟩
                have h4 := rel_dispatch hI hwf hok he (good_sound (ga.evq q)) (good_sound (gb.evq q')) h3
                simp only [Calm.drain, hae, hbe] at ha hb ⊢
                exact ih k k' _ _ (by omega) ((ga.evq q).dispatch hwf hok hpl hq e) ((gb.evq q').dispatch hwf hok hpl hq e) h4 ha hb

omit hwf hok hpl hq hI in
theorem drain_true (k : Nat) : ∀ a : Calm.St W, (Calm.drain P k a).1 = true → (Calm.drain P k a).2.evq = [] := by
  induction k with
  | zero => intro a h; simpa [Calm.drain] using h
  | succ k ih =>
    intro a h
    cases ha : a.evq with
    | nil => simp only [Calm.drain, ha]
    | cons e q =>
      simp only [Calm.drain, ha] at h ⊢
      exact ih _ h

omit hI in
/-- A call of `process_event` in terms of the calm machine. -/
theorem feed_step {e : Event} {k : Nat} (h : Reach P m) (hr : (Call.process e k).run P m = .ok true m1) :
    Reach P m1 ∧ (Calm.drain P k (Calm.dispatch P e (Calm.strip (abs m)))).1 = true ∧
      Calm.strip (abs m1) = (Calm.drain P k (Calm.dispatch P e (Calm.strip (abs m)))).2 ∧ m1.evq = [] := by
  obtain ⟨m', h1, h2⟩ := C54_call hwf hok hpl hq h (.process e k)
  rw [hr] at h1
  injection h1 with h3 h4
  subst h4
  refine ⟨.returns (c := .process e k) h trivial hr, h3.symm, h2, ?_⟩
  have := drain_true k _ h3.symm
  show (Calm.strip (abs m1)).evq = []
  rw [h2]
  exact this

/-- An event that does not concern the region. -/
theorem feed_other {e : Event} {k : Nat} {z : Calm.St W} (h : Reach P m) (he : K.own e = false) (hz : z.evq = []) (hg : AnyOrder.Good P z)
    (hrel : Rel K P.toChart x y z (Calm.strip (abs m))) (hr : (Call.process e k).run P m = .ok true m1) :
    Reach P m1 ∧ m1.evq = [] ∧ Rel K P.toChart x y z (Calm.strip (abs m1)) := by
  obtain ⟨h1, h2, h3, h4⟩ := feed_step hwf hok hpl hq h hr
  have hg' : AnyOrder.Good P (Calm.strip (abs m)) := ⟨m, (h.stable hwf hok).1, rfl⟩
  have h5 := rel_drains hwf hok hpl hq hI k 0 k z _ (by omega) hg (hg'.dispatch hwf hok hpl hq e) (rel_other hI hwf hok he (good_sound hg') hrel)
    (by simp [Calm.drain, hz]) h2
  rw [← h3] at h5
  exact ⟨h1, h4, h5⟩

/-- An event of the region. -/
theorem feed_own {e : Event} {k k' : Nat} (h : Reach P m) (h' : Reach P m') (he : K.own e = true)
    (hrel : Rel K P.toChart x y (Calm.strip (abs m)) (Calm.strip (abs m'))) (hr : (Call.process e k).run P m = .ok true m1)
    (hr' : (Call.process e k').run P m' = .ok true m2) :
    Rel K P.toChart x y (Calm.strip (abs m1)) (Calm.strip (abs m2)) := by
  obtain ⟨-, h2, h3, -⟩ := feed_step hwf hok hpl hq h hr
  obtain ⟨-, k2, k3, -⟩ := feed_step hwf hok hpl hq h' hr'
  have hg : AnyOrder.Good P (Calm.strip (abs m)) := ⟨m, (h.stable hwf hok).1, rfl⟩
  have hg' : AnyOrder.Good P (Calm.strip (abs m')) := ⟨m', (h'.stable hwf hok).1, rfl⟩
  have h5 := rel_drains hwf hok hpl hq hI (k + k') k k' _ _ (Nat.le_refl _) (hg.dispatch hwf hok hpl hq e) (hg'.dispatch hwf hok hpl hq e)
    (rel_dispatch hI hwf hok he (good_sound hg) (good_sound hg') hrel) h2 k2
  rw [← h3, ← k3] at h5
  exact h5

omit hwf hok hpl hq hI in
theorem rel_world {z : Calm.St W} {w : W} (h : Rel K P.toChart x y z (Calm.strip (abs m))) (hw : K.pr w = K.pr m.world) :
    Rel K P.toChart x y z (Calm.strip (abs { m with world := w })) :=
  ⟨h.agree.trans { Agree.refl (K := K) _ with world := hw.symm }, h.left, ⟨h.right.dq, h.right.sh, h.right.dh, h.right.scope⟩, h.trace⟩

/-- Events that do not concern the region. -/
theorem feed_skip {l : List Event} (hf : Feed P K l m m2) : ∀ {z : Calm.St W}, l.filter K.own = [] → Reach P m → z.evq = [] → AnyOrder.Good P z →
    Rel K P.toChart x y z (Calm.strip (abs m)) → Reach P m2 ∧ Rel K P.toChart x y z (Calm.strip (abs m2)) := by
  induction hf with
  | nil => intro z _ h _ _ hr; exact ⟨h, hr⟩
  | @event e l k m m1 m2 hp _ ih =>
    intro z hl h hz hg hr
    cases he : K.own e with
    | true => rw [List.filter_cons_of_pos he] at hl; cases hl
    | false =>
      rw [List.filter_cons_of_neg (by rw [he]; nofun)] at hl
      obtain ⟨h1, _, h3⟩ := feed_other hwf hok hpl hq hI h he hz hg hr hp
      exact ih hl h1 hz hg h3
  | world hw _ ih => intro z hl h hz hg hr; exact ih hl (h.world _) hz hg (rel_world hr hw)

/-- The machine up to the next event of the region. -/
theorem feed_next {l : List Event} (hf : Feed P K l m m2) : ∀ {z : Calm.St W} {e : Event} {r : List Event}, l.filter K.own = e :: r → Reach P m → z.evq = [] →
    AnyOrder.Good P z → Rel K P.toChart x y z (Calm.strip (abs m)) →
    ∃ (ma mb : Mach W) (k : Nat) (l1 : List Event), Reach P ma ∧ Rel K P.toChart x y z (Calm.strip (abs ma)) ∧ (Call.process e k).run P ma = .ok true mb ∧
      Feed P K l1 mb m2 ∧ l1.filter K.own = r ∧ K.own e = true := by
  induction hf with
  | nil => intro z e r hl; cases hl
  | @event e l k m m1 m2 hp hf ih =>
    intro z e' r hl h hz hg hr
    cases he : K.own e with
    | true =>
      rw [List.filter_cons_of_pos he] at hl
      cases hl
      exact ⟨m, m1, k, l, h, hr, hp, hf, rfl, he⟩
    | false =>
      rw [List.filter_cons_of_neg (by rw [he]; nofun)] at hl
      obtain ⟨h1, _, h3⟩ := feed_other hwf hok hpl hq hI h he hz hg hr hp
      exact ih hl h1 hz hg h3
  | world hw _ ih => intro z e r hl h hz hg hr; exact ih hl (h.world _) hz hg (rel_world hr hw)

theorem feed_both {l : List Event} (hf : Feed P K l m m1) : ∀ {l' : List Event} {m' : Mach W}, Feed P K l' m' m2 → l.filter K.own = l'.filter K.own →
    Reach P m → Reach P m' → m.evq = [] → m'.evq = [] → Rel K P.toChart x y (Calm.strip (abs m)) (Calm.strip (abs m')) →
    Reach P m1 ∧ Reach P m2 ∧ Rel K P.toChart x y (Calm.strip (abs m1)) (Calm.strip (abs m2)) := by
  induction hf with
  | @nil m =>
    intro l' m' hf' hl h h' hm hm' hr
    obtain ⟨h1, h2⟩ := feed_skip hwf hok hpl hq hI hf' hl.symm h' hm ⟨m, (h.stable hwf hok).1, rfl⟩ hr
    exact ⟨h, h1, h2⟩
  | @event e l k m ma m1 hp _ ih =>
    intro l' m' hf' hl h h' hm hm' hr
    cases he : K.own e with
    | true =>
      rw [List.filter_cons_of_pos he] at hl
      obtain ⟨mc, md, k', l1, h1, h2, h3, h4, h5, _⟩ := feed_next hwf hok hpl hq hI hf' hl.symm h' hm ⟨m, (h.stable hwf hok).1, rfl⟩ hr
      obtain ⟨r1, -, -, q1⟩ := feed_step hwf hok hpl hq h hp
      obtain ⟨r2, -, -, q2⟩ := feed_step hwf hok hpl hq h1 h3
      exact ih h4 h5.symm r1 r2 q1 q2 (feed_own hwf hok hpl hq hI h h1 he h2 hp h3)
    | false =>
      rw [List.filter_cons_of_neg (by rw [he]; nofun)] at hl
      obtain ⟨r1, q1, h3⟩ := feed_other hwf hok hpl hq hI h he hm' ⟨m', (h'.stable hwf hok).1, rfl⟩ hr.symm hp
      exact ih hf' hl r1 h' q1 hm' h3.symm
  | @world w l m m1 hw _ ih =>
    intro l' m' hf' hl h h' hm hm' hr
    exact ih hf' hl (h.world w) h' hm hm' (rel_world hr.symm hw).symm

omit hpl hq hI in
theorem tame_start (h : Reach P m) (hi : Idle K m) : Tame K P.toChart m.trace (Calm.strip (abs m)) := by
  have hh := (h.stable hwf hok).1.inv.hist
  refine ⟨?_, ?_, ?_, [], (List.append_nil _).symm, nofun⟩
  · refine List.filter_eq_nil_iff.2 fun e he => ?_
    rw [hi.deferred e he]; nofun
  · intro q j s hs
    have hs : (m.sh (q, j)).map HFn.last = some s := hs
    cases hm : m.sh (q, j) with
    | none => rw [hm] at hs; cases hs
    | some f =>
      obtain ⟨c, rfl, h1, h2, h3⟩ := hh.sh hm
      rw [hm] at hs
      cases hs
      exact ⟨h1, h2, h3⟩
  · intro q j s hs
    have hs : (m.dh (q, j)).map HFn.last = some s := hs
    cases hm : m.dh (q, j) with
    | none => rw [hm] at hs; cases hs
    | some f =>
      obtain ⟨c, rfl, h1, h2, h3, h4, h5⟩ := hh.dh hm
      rw [hm] at hs
      cases hs
      have hpath := Chart.pathBelow_path hwf h1 ((Chart.mem_ctxList hwf h1).2 (.inr ⟨q, rfl, h2⟩))
      exact ⟨h1, _, hpath.head, h5, hpath.head_below⟩

omit hwf hok hpl hq hI in
theorem agree_start (ha : Alike K m m') (h1 : m.evq = []) (h2 : m'.evq = []) : Agree K (Calm.strip (abs m)) (Calm.strip (abs m')) := by
  refine ⟨ha.states, ?_, fun k hk => ?_, fun k hk => ?_, ?_, ha.world⟩
  · show m.outermost.isNone = m'.outermost.isNone
    rw [Bool.eq_iff_iff, Option.isNone_iff_eq_none, Option.isNone_iff_eq_none]
    exact ha.terminated
  · show (m.sh k).map HFn.last = (m'.sh k).map HFn.last
    rw [ha.shallow k hk]
  · show (m.dh k).map HFn.last = (m'.dh k).map HFn.last
    rw [ha.deep k hk]
  · show m.evq.filter _ = m'.evq.filter _
    rw [h1, h2]

omit hpl hq hI in
theorem alike_end (h : Reach P m) (h' : Reach P m') (ha : Agree K (Calm.strip (abs m)) (Calm.strip (abs m'))) : Alike K m m' := by
  have hh := (h.stable hwf hok).1.inv.hist
  have hh' := (h'.stable hwf hok).1.inv.hist
  refine ⟨ha.act, ?_, ?_, ?_, ha.world⟩
  · have : m.outermost.isNone = m'.outermost.isNone := ha.root
    rw [← Option.isNone_iff_eq_none, ← Option.isNone_iff_eq_none, this]
  · rintro ⟨q, j⟩ hk
    have he : (m.sh (q, j)).map HFn.last = (m'.sh (q, j)).map HFn.last := ha.sh _ hk
    cases hm : m.sh (q, j) with
    | none =>
      rw [hm] at he
      cases hm' : m'.sh (q, j) with
      | none => rfl
      | some f => rw [hm'] at he; cases he
    | some f =>
      rw [hm] at he
      cases hm' : m'.sh (q, j) with
      | none => rw [hm'] at he; cases he
      | some g =>
        rw [hm'] at he
        obtain ⟨c, rfl, -⟩ := hh.sh hm
        obtain ⟨d, rfl, -⟩ := hh'.sh hm'
        cases he
        rfl
  · rintro ⟨q, j⟩ hk
    have he : (m.dh (q, j)).map HFn.last = (m'.dh (q, j)).map HFn.last := ha.dh _ hk
    cases hm : m.dh (q, j) with
    | none =>
      rw [hm] at he
      cases hm' : m'.dh (q, j) with
      | none => rfl
      | some f => rw [hm'] at he; cases he
    | some f =>
      rw [hm] at he
      cases hm' : m'.dh (q, j) with
      | none => rw [hm'] at he; cases he
      | some g =>
        rw [hm'] at he
        obtain ⟨c, rfl, -⟩ := hh.dh hm
        obtain ⟨d, rfl, -⟩ := hh'.dh hm'
        cases he
        rfl

end

end Regions

section
open Regions
variable {P : Prog W} {K : Part W} {m m' m1 m2 : Mach W} {l l' : List Event}
  (hwf : P.toChart.WF) (hok : Contract P) (hpl : Plain P) (hq : Smooth P) (hI : Independent K P)
include hwf hok hpl hq hI

/-- C59: two machines that agree in the region and process the same events of the region, with any other events in between, agree in the region again, and the
events of the region have caused the same calls of user code. -/
theorem C59_independent (h : Reach P m) (h' : Reach P m') (hi : Idle K m) (hi' : Idle K m') (ha : Alike K m m') (hf : Feed P K l m m1) (hf' : Feed P K l' m' m2)
    (hl : l.filter K.own = l'.filter K.own) :
    Alike K m1 m2 ∧ Idle K m1 ∧ Idle K m2 ∧ ∃ t t', m1.trace = m.trace ++ t ∧ m2.trace = m'.trace ++ t' ∧
      t.filter K.sees = t'.filter K.sees ∧ (∀ y ∈ t, Scoped K y) ∧ (∀ y ∈ t', Scoped K y) := by
  have hr : Rel K P.toChart m.trace m'.trace (Calm.strip (abs m)) (Calm.strip (abs m')) := by
    refine ⟨agree_start ha hi.posted hi'.posted, tame_start hwf hok h hi, tame_start hwf hok h' hi', ?_⟩
    intro t u ht hu
    have ht : m.trace = m.trace ++ t := ht
    have hu : m'.trace = m'.trace ++ u := hu
    rw [List.self_eq_append_right.1 ht, List.self_eq_append_right.1 hu]
  obtain ⟨r1, r2, hr⟩ := feed_both hwf hok hpl hq hI hf hf' hl h h' hi.posted hi'.posted hr
  obtain ⟨t, ht, hst⟩ := hr.left.scope
  obtain ⟨u, hu, hsu⟩ := hr.right.scope
  have idle : ∀ {l : List Event} {m m1 : Mach W}, Feed P K l m m1 → Reach P m → m.evq = [] → m1.evq = [] := by
    intro l m m1 hf
    induction hf with
    | nil => intro _ h; exact h
    | event hp _ ih =>
      intro h _
      obtain ⟨h1, -, -, h4⟩ := feed_step hwf hok hpl hq h hp
      exact ih h1 h4
    | world _ _ ih => intro h hm; exact ih (h.world _) hm
  have nodef : ∀ {x : List (Option Event × Obs)} {m : Mach W}, Tame K P.toChart x (Calm.strip (abs m)) → ∀ e ∈ m.dq, K.own e = false := by
    intro x m ht e he
    have := List.filter_eq_nil_iff.1 ht.dq e he
    cases hk : K.own e with
    | false => rfl
    | true => exact absurd hk this
  exact ⟨alike_end hwf hok r1 r2 hr.agree, ⟨idle hf h hi.posted, nodef hr.left⟩, ⟨idle hf' h' hi'.posted, nodef hr.right⟩, t, u, ht, hu, hr.trace t u ht hu, hst, hsu⟩

/-- C59: events that do not concern the region leave it as it is; no user code of its states is called. -/
theorem C59_untouched (h : Reach P m) (hi : Idle K m) (hf : Feed P K l m m1) (hl : ∀ e ∈ l, K.own e = false) :
    Alike K m m1 ∧ ∃ t, m1.trace = m.trace ++ t ∧ ∀ y ∈ t, K.sees y = false ∧ ∀ s, subject y.2 = some s → K.R s = false := by
  have hn : l.filter K.own = [] := List.filter_eq_nil_iff.2 fun e he => by rw [hl e he]; nofun
  obtain ⟨h1, -, -, t, u, ht, hu, h2, -, h3⟩ := C59_independent hwf hok hpl hq hI h h hi hi ⟨fun _ _ => rfl, .rfl, fun _ _ => rfl, fun _ _ => rfl, rfl⟩
    (Feed.nil (m := m)) hf hn.symm
  refine ⟨h1, u, hu, ?_⟩
  rw [List.self_eq_append_right.1 ht] at h2
  intro y hy
  have hs : K.sees y = false := by
    cases hk : K.sees y with
    | false => rfl
    | true =>
      have : y ∈ u.filter K.sees := List.mem_filter.2 ⟨hy, hk⟩
      rw [← h2] at this
      cases this
  refine ⟨hs, fun s hsub => ?_⟩
  obtain ⟨e, he, hk⟩ := h3 y hy s hsub
  rw [← hk]
  unfold Part.sees at hs
  rw [he] at hs
  exact hs

/-- C59: the order of two events, one of which concerns the region and the other does not, makes no difference to the region. -/
theorem C59_swap {e f : Event} {ms mt : Mach W} {k1 k2 k3 k4 : Nat} (h : Reach P m) (hi : Idle K m) (he : K.own e = true) (hf : K.own f = false)
    (h1 : (Call.process e k1).run P m = .ok true m1) (h2 : (Call.process f k2).run P m1 = .ok true ms)
    (h3 : (Call.process f k3).run P m = .ok true m2) (h4 : (Call.process e k4).run P m2 = .ok true mt) : Alike K ms mt := by
  refine (C59_independent hwf hok hpl hq hI h h hi hi ⟨fun _ _ => rfl, .rfl, fun _ _ => rfl, fun _ _ => rfl, rfl⟩
    (.event h1 (.event h2 .nil)) (.event h3 (.event h4 .nil)) ?_).1
  simp [he, hf]

end

/-! ## An example, and why states of the region must not defer events -/

namespace Ex
open Regions

/-- Two regions of state 0. The first one has the states 1 (with history; inner states 2 and 3) and 4, the second one the states 5 and 6; event types below 10
concern the first one. The environment counts, for each region, constructor calls, actions and custom reactions. State 2 has a custom reaction to event 5: with
`d` it defers the event. State 5 defers event 12. -/
def duet (d : Bool) : Prog (Nat × Nat) where
  n := 7
  parent s := match s with
    | 1 | 4 | 5 | 6 => some 0
    | 2 | 3 => some 1
    | _ => none
  pos s := match s with
    | 5 | 6 => 1
    | _ => 0
  init s := match s with
    | 0 => [⟨.plain, 1⟩, ⟨.plain, 5⟩]
    | 1 => [⟨.plain, 2⟩]
    | _ => []
  shallowH s := s == 1
  deepH _ := false
  isSimple _ := false
  initial := 0
  reactions s := match s with
    | 1 => [⟨some 1, .transition ⟨.plain, 4⟩ none⟩]
    | 2 => [⟨some 2, .transition ⟨.plain, 3⟩ (some 0)⟩, ⟨some 5, .custom 0⟩]
    | 3 => [⟨some 3, .inState (some 1)⟩]
    | 4 => [⟨some 4, .transition ⟨.shallow, 2⟩ none⟩]
    | 5 => [⟨some 10, .transition ⟨.plain, 6⟩ none⟩, ⟨some 12, .deferral⟩]
    | 6 => [⟨some 11, .transition ⟨.plain, 5⟩ (some 10)⟩, ⟨some 12, .inState (some 11)⟩]
    | _ => []
  ctor s _ w := { world := if 1 ≤ s ∧ s ≤ 4 then (w.1 + 1, w.2) else (w.1, w.2 + 1) }
  exit _ _ w := { world := w }
  dtor _ _ w := (w, [])
  action a _ w := match a with
    | 0 => { world := (w.1 + 1, w.2), cmds := [.post ⟨3, 0⟩] }
    | 1 => { world := (w.1 + 1, w.2) }
    | 10 => { world := (w.1, w.2 + 1), cmds := [.post ⟨10, 0⟩] }
    | 11 => { world := (w.1, w.2 + 1) }
    | _ => { world := w }
  react s _ _ _ w := ({ world := if 1 ≤ s ∧ s ≤ 4 then (w.1 + 1, w.2) else (w.1, w.2 + 1) }, if d then .defer else .discard)
  unconsumed e _ w := { world := if e.ty < 10 then (w.1 + 100, w.2) else (w.1, w.2 + 100) }
  alloc _ w := (w, none)
  translate _ := none

/-- The first region. -/
def first : Part (Nat × Nat) where
  p := 0
  i := 0
  R s := decide (1 ≤ s ∧ s ≤ 4)
  own e := decide (e.ty < 10)
  mine b := decide (b < 10)
  A := Nat
  pr w := w.1

theorem duet_wf (d : Bool) : (duet d).toChart.WF := Chart.wf_of_check _ (by cases d <;> decide)
theorem duet_contract (d : Bool) : Contract (duet d) := ⟨fun _ _ _ _ => rfl, fun _ _ _ _ _ _ _ h => by cases d <;> cases h⟩
theorem duet_plain (d : Bool) : Plain (duet d) := by constructor <;> (intros; rfl)
theorem duet_smooth (d : Bool) : Smooth (duet d) :=
  ⟨fun _ _ _ => rfl, fun _ _ _ => rfl, fun a _ _ => by unfold duet; simp only []; split <;> rfl, fun _ _ _ _ _ => rfl, fun _ _ _ => rfl, fun _ _ => rfl⟩

theorem duet_reacts {d : Bool} {ty : Nat} {s : Sid} (h : AnyOrder.Reacts (duet d).toChart ty s) :
    s = 1 ∧ ty = 1 ∨ s = 2 ∧ ty = 2 ∨ s = 2 ∧ ty = 5 ∨ s = 3 ∧ ty = 3 ∨ s = 4 ∧ ty = 4 ∨ s = 5 ∧ ty = 10 ∨ s = 5 ∧ ty = 12 ∨ s = 6 ∧ ty = 11 ∨ s = 6 ∧ ty = 12 := by
  obtain ⟨r, h1, h2⟩ := h
  match s with
  | 0 => simp [duet] at h1
  | 1 => simp [duet] at h1; subst h1; simp at h2; omega
  | 2 => simp [duet] at h1; rcases h1 with rfl | rfl <;> (simp at h2; omega)
  | 3 => simp [duet] at h1; subst h1; simp at h2; omega
  | 4 => simp [duet] at h1; subst h1; simp at h2; omega
  | 5 => simp [duet] at h1; rcases h1 with rfl | rfl <;> (simp at h2; omega)
  | 6 => simp [duet] at h1; rcases h1 with rfl | rfl <;> (simp at h2; omega)
  | _ + 7 => simp [duet] at h1

/-- What the states of the example do. -/
theorem duet_does {d : Bool} {s : Sid} {e : Event} {x : Decision} (h : Regions.Does (duet d) s e x) :
    s = 1 ∧ x = .transit ⟨.plain, 4⟩ none ∨ s = 2 ∧ x = .transit ⟨.plain, 3⟩ (some 0) ∨ s = 2 ∧ x = (if d then .defer else .discard) ∨
    s = 4 ∧ x = .transit ⟨.shallow, 2⟩ none ∨ s = 5 ∧ x = .transit ⟨.plain, 6⟩ none ∨ s = 5 ∧ x = .defer ∨ s = 6 ∧ x = .transit ⟨.plain, 5⟩ (some 10) := by
  cases h with
  | @transition r t a h1 h2 h3 =>
    match s with
    | 0 => simp [duet] at h1
    | 1 => simp [duet] at h1; subst h1; cases h3; simp
    | 2 => simp [duet] at h1; rcases h1 with rfl | rfl <;> cases h3; simp
    | 3 => simp [duet] at h1; subst h1; cases h3
    | 4 => simp [duet] at h1; subst h1; cases h3; simp
    | 5 => simp [duet] at h1; rcases h1 with rfl | rfl <;> cases h3; simp
    | 6 => simp [duet] at h1; rcases h1 with rfl | rfl <;> cases h3; simp
    | _ + 7 => simp [duet] at h1
  | @termination r h1 h2 h3 =>
    match s with
    | 0 => simp [duet] at h1
    | 1 => simp [duet] at h1; subst h1; cases h3
    | 2 => simp [duet] at h1; rcases h1 with rfl | rfl <;> cases h3
    | 3 => simp [duet] at h1; subst h1; cases h3
    | 4 => simp [duet] at h1; subst h1; cases h3
    | 5 => simp [duet] at h1; rcases h1 with rfl | rfl <;> cases h3
    | 6 => simp [duet] at h1; rcases h1 with rfl | rfl <;> cases h3
    | _ + 7 => simp [duet] at h1
  | @deferral r h1 h2 h3 =>
    match s with
    | 0 => simp [duet] at h1
    | 1 => simp [duet] at h1; subst h1; cases h3
    | 2 => simp [duet] at h1; rcases h1 with rfl | rfl <;> cases h3
    | 3 => simp [duet] at h1; subst h1; cases h3
    | 4 => simp [duet] at h1; subst h1; cases h3
    | 5 => simp
    | 6 => simp [duet] at h1; rcases h1 with rfl | rfl <;> cases h3
    | _ + 7 => simp [duet] at h1
  | @custom r id v w h1 h2 h3 =>
    match s with
    | 0 => simp [duet] at h1
    | 1 => simp [duet] at h1; subst h1; cases h3
    | 2 => exact .inr (.inr (.inl ⟨rfl, rfl⟩))
    | 3 => simp [duet] at h1; subst h1; cases h3
    | 4 => simp [duet] at h1; subst h1; cases h3
    | 5 => simp [duet] at h1; rcases h1 with rfl | rfl <;> cases h3
    | 6 => simp [duet] at h1; rcases h1 with rfl | rfl <;> cases h3
    | _ + 7 => simp [duet] at h1

theorem duet_states (d : Bool) (x : Sid) : first.R x = true ↔ InRegion (duet d).toChart first.p first.i x := by
  constructor
  · intro h
    match x with
    | 0 => cases h
    | 1 => exact ⟨1, rfl, rfl, .refl⟩
    | 2 => exact ⟨1, rfl, rfl, .step (p := 1) rfl .refl⟩
    | 3 => exact ⟨1, rfl, rfl, .step (p := 1) rfl .refl⟩
    | 4 => exact ⟨4, rfl, rfl, .refl⟩
    | _ + 5 => simp [first] at h
  · rintro ⟨y, h1, h2, h3⟩
    induction h3 with
    | refl =>
      match y with
      | 0 => cases h1
      | 1 => rfl
      | 2 => cases h1
      | 3 => cases h1
      | 4 => rfl
      | 5 => cases h2
      | 6 => cases h2
      | _ + 7 => cases h1
    | @step x q hp _ ih =>
      match x with
      | 0 => cases hp
      | 1 => rfl
      | 2 => rfl
      | 3 => rfl
      | 4 => rfl
      | 5 => cases hp; cases ih
      | 6 => cases hp; cases ih
      | _ + 7 => cases hp

theorem duet_root (d : Bool) {y : Sid} (h : Spec.Below (duet d).toChart y 0) : y = 0 := by
  cases h with
  | refl => rfl
  | step hp _ => cases hp

theorem duet_common (d : Bool) (s t : Sid) (h : s = 5 ∧ t = 6 ∨ s = 6 ∧ t = 5) : CommonCtx (duet d).toChart s t (some 0) := by
  rcases h with ⟨rfl, rfl⟩ | ⟨rfl, rfl⟩
  · have := commonCtx_common (duet_wf d) (s := 5) (d := 6) (show _ < 7 by decide) (show _ < 7 by decide)
    rwa [show (duet d).commonCtx 5 6 = some 0 by cases d <;> decide] at this
  · have := commonCtx_common (duet_wf d) (s := 6) (d := 5) (show _ < 7 by decide) (show _ < 7 by decide)
    rwa [show (duet d).commonCtx 6 5 = some 0 by cases d <;> decide] at this

theorem duet_outer (d : Bool) {y : Sid} (h : (duet d).parent y = some 0) : ¬ Spec.Below (duet d).toChart y 0 := by
  intro hb
  rw [duet_root d hb] at h
  cases h

theorem duet_action (d : Bool) : (∀ b, first.mine b = true → Inside first ((duet d).action b)) ∧ ∀ b, first.mine b = false → Outside first ((duet d).action b) := by
  constructor
  · intro b hb v v' w w' _ hw
    have hw : w.1 = w'.1 := hw
    have hb : b < 10 := of_decide_eq_true hb
    match b with
    | 0 => exact ⟨congrArg (· + 1) hw, rfl, by intro c hc; rw [List.mem_singleton.1 hc]; rfl⟩
    | 1 => exact ⟨congrArg (· + 1) hw, rfl, nofun⟩
    | 2 | 3 | 4 | 5 | 6 | 7 | 8 | 9 => exact ⟨hw, rfl, nofun⟩
    | _ + 10 => omega
  · intro b hb v w
    have hb : ¬ b < 10 := of_decide_eq_false hb
    match b with
    | 0 | 1 | 2 | 3 | 4 | 5 | 6 | 7 | 8 | 9 => omega
    | 10 => exact ⟨rfl, by intro c hc; rw [List.mem_singleton.1 hc]; rfl⟩
    | 11 => exact ⟨rfl, nofun⟩
    | _ + 12 => exact ⟨rfl, nofun⟩

theorem duet_unconnected (d : Bool) : Unconnected first (duet d) where
  states := duet_states d
  events e s h0 := by
    rcases duet_reacts h0 with ⟨rfl, h⟩ | ⟨rfl, h⟩ | ⟨rfl, h⟩ | ⟨rfl, h⟩ | ⟨rfl, h⟩ | ⟨rfl, h⟩ | ⟨rfl, h⟩ | ⟨rfl, h⟩ | ⟨rfl, h⟩ <;> simp [first, h]
  unambiguous e he a b s t _ _ _ hs ht := by
    have he : e.ty < 10 := of_decide_eq_true he
    have h1 := duet_reacts hs.reacts
    have h2 := duet_reacts ht.reacts
    omega
  inner s e t a hs h0 := by
    have hs : 1 ≤ s ∧ s ≤ 4 := of_decide_eq_true hs
    rcases duet_does h0 with ⟨rfl, h⟩ | ⟨rfl, h⟩ | ⟨rfl, h⟩ | ⟨rfl, h⟩ | ⟨rfl, h⟩ | ⟨rfl, h⟩ | ⟨rfl, h⟩
    · cases h; exact ⟨rfl, nofun⟩
    · cases h; exact ⟨rfl, by intro b hb; cases hb; rfl⟩
    · cases d <;> exact nomatch h
    · cases h; exact ⟨rfl, nofun⟩
    · omega
    · omega
    · omega
  outer s e t a hs h0 := by
    have hs : ¬ (1 ≤ s ∧ s ≤ 4) := of_decide_eq_false hs
    rcases duet_does h0 with ⟨rfl, h⟩ | ⟨rfl, h⟩ | ⟨rfl, h⟩ | ⟨rfl, h⟩ | ⟨rfl, h⟩ | ⟨rfl, h⟩ | ⟨rfl, h⟩
    · exact absurd ⟨by decide, by decide⟩ hs
    · exact absurd ⟨by decide, by decide⟩ hs
    · exact absurd ⟨by decide, by decide⟩ hs
    · exact absurd ⟨by decide, by decide⟩ hs
    · cases h
      exact ⟨nofun, 0, duet_common d 5 6 (.inl ⟨rfl, rfl⟩), fun t y _ _ hy _ => duet_outer d hy⟩
    · cases h
    · cases h
      exact ⟨by intro b hb; cases hb; rfl, 0, duet_common d 6 5 (.inr ⟨rfl, rfl⟩), fun t y _ _ hy _ => duet_outer d hy⟩
  act s r b h hk := by
    match s with
    | 0 => simp [duet] at h
    | 1 => simp [duet] at h; subst h; cases hk
    | 2 => simp [duet] at h; rcases h with rfl | rfl <;> cases hk
    | 3 => simp [duet] at h; subst h; cases hk; rfl
    | 4 => simp [duet] at h; subst h; cases hk
    | 5 => simp [duet] at h; rcases h with rfl | rfl <;> cases hk
    | 6 => simp [duet] at h; rcases h with rfl | rfl <;> cases hk; rfl
    | _ + 7 => simp [duet] at h
  live s e h0 := by
    rcases duet_does h0 with ⟨rfl, h⟩ | ⟨rfl, h⟩ | ⟨rfl, h⟩ | ⟨rfl, h⟩ | ⟨rfl, h⟩ | ⟨rfl, h⟩ | ⟨rfl, h⟩
    all_goals first | cases h | (cases d <;> cases h)
  ctorIn s hs v v' w w' _ hw := by
    have hs : 1 ≤ s ∧ s ≤ 4 := of_decide_eq_true hs
    have hw : w.1 = w'.1 := hw
    refine ⟨?_, rfl, nofun⟩
    simp only [duet, first, hs, and_self, ↓reduceIte, hw]
  exitIn s hs v v' w w' _ hw := ⟨hw, rfl, nofun⟩
  dtorIn s hs v v' w w' _ hw := ⟨hw, rfl, nofun⟩
  actIn := (duet_action d).1
  reactIn s id e hs := by
    have hs : 1 ≤ s ∧ s ≤ 4 := of_decide_eq_true hs
    refine ⟨fun v v' w w' _ hw => ⟨?_, rfl, nofun⟩, fun v v' w w' _ _ => rfl⟩
    have hw : w.1 = w'.1 := hw
    simp only [duet, first, hs, and_self, ↓reduceIte, hw]
  restIn e he v v' w w' _ hw := by
    have he : e.ty < 10 := of_decide_eq_true he
    have hw : w.1 = w'.1 := hw
    refine ⟨?_, rfl, nofun⟩
    simp only [duet, first, he, ↓reduceIte, hw]
  ctorOut s hs v w := by
    have hs : ¬ (1 ≤ s ∧ s ≤ 4) := of_decide_eq_false hs
    refine ⟨?_, nofun⟩
    simp only [duet, first, hs, ↓reduceIte]
  exitOut s hs v w := ⟨rfl, nofun⟩
  dtorOut s hs v w := ⟨rfl, nofun⟩
  actOut := (duet_action d).2
  reactOut s id e hs v w := by
    have hs : ¬ (1 ≤ s ∧ s ≤ 4) := of_decide_eq_false hs
    refine ⟨?_, nofun⟩
    simp only [duet, first, hs, ↓reduceIte]
  restOut e he v w := by
    have he : ¬ e.ty < 10 := of_decide_eq_false he
    refine ⟨?_, nofun⟩
    simp only [duet, first, he, ↓reduceIte]

theorem duet_independent : Independent first (duet false) :=
  { duet_unconnected false with
    prompt := fun s e hs h0 => by
      have hs : 1 ≤ s ∧ s ≤ 4 := of_decide_eq_true hs
      rcases duet_does h0 with ⟨rfl, h⟩ | ⟨rfl, h⟩ | ⟨rfl, h⟩ | ⟨rfl, h⟩ | ⟨rfl, h⟩ | ⟨rfl, h⟩ | ⟨rfl, h⟩
      all_goals first | omega | cases h }

/-- Process the events. -/
def fed {W : Type} (P : Prog W) : List Event → Mach W → Option (Mach W)
  | [], m => some m
  | e :: l, m => match (Call.process e 9).run P m with
    | .ok true m' => fed P l m'
    | _ => none

theorem fed_feed {W : Type} {P : Prog W} {K : Part W} (l : List Event) : ∀ {m m' : Mach W}, fed P l m = some m' → Feed P K l m m' := by
  induction l with
  | nil => intro m m' h; cases h; exact .nil
  | cons e l ih =>
    intro m m' h
    unfold fed at h
    split at h
    · next hr => exact .event hr (ih h)
    · cases h

/-- The first region goes through a transition with a posted event, is left and entered by history, with and without events of the other one, which defers an
event and posts one. In both cases state 3 is active and user code of the region has been called as often. -/
example : ∃ (m m1 m2 : Mach (Nat × Nat)) (l l' : List Event), Reach (duet false) m ∧ Idle first m ∧ Feed (duet false) first l m m1 ∧ Feed (duet false) first l' m m2 ∧
    l.filter first.own = l'.filter first.own ∧ Alike first m1 m2 ∧ l.length = 3 ∧ l'.length = 8 ∧ m1.world = (8, 2) ∧ m2.world = (8, 9) ∧
    (m1.heap 3).isSome ∧ ¬ (m.heap 3).isSome := by
  have h : ((scenario (duet false) [((0, 0), .initiate 0)] (Mach.fresh (0, 0))).any fun m =>
      (fed (duet false) [⟨2, 0⟩, ⟨1, 0⟩, ⟨4, 0⟩] m).any fun m1 =>
      (fed (duet false) [⟨12, 0⟩, ⟨2, 0⟩, ⟨10, 0⟩, ⟨11, 0⟩, ⟨1, 0⟩, ⟨12, 0⟩, ⟨4, 0⟩, ⟨12, 0⟩] m).any fun m2 =>
      decide (m.evq = [] ∧ m.dq = [] ∧ m1.world = (8, 2) ∧ m2.world = (8, 9) ∧ (m1.heap 3).isSome ∧ ¬ (m.heap 3).isSome)) = true := by decide +kernel
  rw [Option.any_eq_true] at h
  obtain ⟨m, h0, h⟩ := h
  rw [Option.any_eq_true] at h
  obtain ⟨m1, h1, h⟩ := h
  rw [Option.any_eq_true] at h
  obtain ⟨m2, h2, h⟩ := h
  obtain ⟨k1, k2, k3, k4, k5, k6⟩ := of_decide_eq_true h
  have r := scenario_reach _ (Reach.fresh (P := duet false) (0, 0)) h0
  have hi : Idle first m := ⟨k1, by rw [k2]; nofun⟩
  have f1 := fed_feed (K := first) _ h1
  have f2 := fed_feed (K := first) _ h2
  exact ⟨m, m1, m2, _, _, r, hi, f1, f2, rfl, (C59_independent (duet_wf false) (duet_contract false) (duet_plain false) (duet_smooth false) duet_independent r r hi hi
    ⟨fun _ _ => rfl, .rfl, fun _ _ => rfl, fun _ _ => rfl, rfl⟩ f1 f2 rfl).1, rfl, rfl, k3, k4, k5, k6⟩

/-- C59: regions whose states defer events are not independent of each other even if neither chart nor user code connects them: when a state of the other region
that has deferred an event is left, events that the region has deferred are released and dispatched again. -/
theorem C59_deferral_connects : ∃ (P : Prog (Nat × Nat)) (K : Part (Nat × Nat)) (m m1 m2 : Mach (Nat × Nat)) (l l' : List Event), P.toChart.WF ∧ Contract P ∧ Plain P ∧
    Smooth P ∧ Unconnected K P ∧ Reach P m ∧ Idle K m ∧ Feed P K l m m1 ∧ Feed P K l' m m2 ∧ l.filter K.own = l'.filter K.own ∧ ¬ Alike K m1 m2 := by
  have h : ((scenario (duet true) [((0, 0), .initiate 0)] (Mach.fresh (0, 0))).any fun m =>
      (fed (duet true) [⟨5, 0⟩] m).any fun m1 => (fed (duet true) [⟨12, 0⟩, ⟨5, 0⟩, ⟨10, 0⟩] m).any fun m2 =>
      decide (m.evq = [] ∧ m.dq = [] ∧ m1.world.1 = 3 ∧ m2.world.1 = 4)) = true := by decide +kernel
  rw [Option.any_eq_true] at h
  obtain ⟨m, h0, h⟩ := h
  rw [Option.any_eq_true] at h
  obtain ⟨m1, h1, h⟩ := h
  rw [Option.any_eq_true] at h
  obtain ⟨m2, h2, h⟩ := h
  obtain ⟨k1, k2, k3, k4⟩ := of_decide_eq_true h
  have r := scenario_reach _ (Reach.fresh (P := duet true) (0, 0)) h0
  refine ⟨duet true, first, m, m1, m2, _, _, duet_wf true, duet_contract true, duet_plain true, duet_smooth true, duet_unconnected true, r, ⟨k1, by rw [k2]; nofun⟩,
    fed_feed (K := first) _ h1, fed_feed (K := first) _ h2, rfl, ?_⟩
  intro ha
  have : m1.world.1 = m2.world.1 := ha.world
  rw [k3, k4] at this
  cases this

end Ex
end SC
